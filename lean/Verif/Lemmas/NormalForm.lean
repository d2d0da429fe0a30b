import Verif.Model.NormalForm

/-!
# Outcomes of the computation of the normal form
-/

set_option linter.unusedSectionVars false

namespace Verif

/-- The result is an error for which `E` holds or a value for which `P` holds. -/
def Yields {α : Type} (E : Err → Prop) (P : α → Prop) : Except Err α → Prop
  | .error e => E e
  | .ok x => P x

namespace Decision

/-- Decisions which are computed: at most one letter, and none if the tag is `Mixed`. -/
def Ok (d : Decision) : Prop := d.chars = [] ∨ (d.constant = true ∧ ∃ c, d.chars = [c])

theorem Ok.not_mixed {d : Decision} (h : d.Ok) : d.isMixed = false := by
  rcases h with h | ⟨h, _⟩ <;> simp [isMixed, h]

theorem ok_inter {d i : Decision} (hd : d.Ok) (hi : i.Ok) :
    Ok ⟨d.constant && i.constant, setInter d.chars i.chars⟩ := by
  rcases hd with hd | ⟨hd, c, hc⟩
  · left; simp [hd, setInter, interAux]
  · rcases hi with hi | ⟨hi, e, he⟩
    · left; simp [hi, hc, setInter, interAux]
    · simp only [hc, he, setInter, interAux, Ok]
      split
      · left; rfl
      · split
        · left; rfl
        · right; simp [hd, hi]

theorem ok_concat {d i : Decision} (hd : d.Ok) (hi : i.Ok) : (d.concat i).Ok := by
  rcases hd with hd | ⟨hd, c, hc⟩
  · rcases hi with hi | ⟨hi, e, he⟩
    · left; simp [concat, hasEpsilon, hd, hi, setInter, interAux]
    · left
      simp only [concat, hasEpsilon, hd, he, List.head?_nil, List.head?_cons]
      by_cases h : e = 0 <;> simp [h, setInter, interAux]
  · rcases hi with hi | ⟨hi, e, he⟩
    · left
      simp only [concat, hasEpsilon, hc, hi, List.head?_nil, List.head?_cons]
      by_cases h : c = 0 <;> simp [h, setInter, interAux]
    · simp only [Ok, concat, hasEpsilon, hc, he, List.head?_cons, hd, hi, uniqChar]
      by_cases h1 : c = 0 <;> by_cases h2 : e = 0
      · right; simp [h1, h2, setUnion, unionAux]
      · right; simp [h1, h2]
      · right; simp [h1, h2]
      · have n1 : (some c == some (0 : Nat)) = false := by simp [h1]
        have n2 : (some e == some (0 : Nat)) = false := by simp [h2]
        simp only [n1, n2, Bool.false_eq_true, if_false, setInter, interAux]
        split
        · left; rfl
        · split
          · left; rfl
          · right
            next g1 g2 =>
            have : c = e := le_antisymm (not_lt.1 g2) (not_lt.1 g1)
            simp [this]

end Decision

namespace TMem

variable {K : Type} [Field K] [LinearOrder K]

/-- All stored decisions have at most one letter. -/
structure DecOk (m : TMem K) : Prop where
  atom : ∀ a d, m.adec a = some d → d.Ok
  dnf : ∀ a d, m.ddec a = some d → d.Ok

theorem decOk_of_eq {m m' : TMem K} (h : DecOk m) (h1 : m'.adec = m.adec) (h2 : m'.ddec = m.ddec) : DecOk m' :=
  ⟨fun a d hd => h.atom a d (h1 ▸ hd), fun a d hd => h.dnf a d (h2 ▸ hd)⟩

theorem decOk_setADec {m : TMem K} (h : DecOk m) (a : Nat) {d : Decision} (hd : d.Ok) : DecOk (m.setADec a d) := by
  refine ⟨fun b e he => ?_, h.dnf⟩
  simp only [setADec, put] at he
  split at he
  · cases he; exact hd
  · exact h.atom b e he

theorem decOk_setDDec {m : TMem K} (h : DecOk m) (a : Nat) {d : Decision} (hd : d.Ok) : DecOk (m.setDDec a d) := by
  refine ⟨h.atom, fun b e he => ?_⟩
  simp only [setDDec, put] at he
  split at he
  · cases he; exact hd
  · exact h.dnf b e he

/-- The stored decisions are the same. -/
def SameDec (m m' : TMem K) : Prop := m'.adec = m.adec ∧ m'.ddec = m.ddec

theorem SameDec.trans {m m' m'' : TMem K} (h : SameDec m m') (h' : SameDec m' m'') : SameDec m m'' :=
  ⟨h'.1.trans h.1, h'.2.trans h.2⟩

theorem SameDec.refl (m : TMem K) : SameDec m m := ⟨rfl, rfl⟩

section loops
variable {α : Type} {E : Err → Prop}

theorem forM_inv {P : TMem K → Prop} {f : TMem K → α → Except Err (TMem K)} :
    ∀ (l : List α) (m : TMem K), P m → (∀ x ∈ l, ∀ m, P m → Yields E P (f m x)) → Yields E P (forM f m l)
  | [], _, hm, _ => hm
  | x :: l, m, hm, hf => by
    have h := hf x (List.mem_cons_self ..) m hm
    unfold forM
    cases hx : f m x with
    | error e => rw [hx] at h; exact h
    | ok m' => rw [hx] at h; exact forM_inv l m' h fun x hx => hf x (List.mem_cons_of_mem _ hx)

theorem allM_inv {P : TMem K → Prop} {f : TMem K → α → Except Err (Bool × TMem K)} :
    ∀ (l : List α) (m : TMem K), P m → (∀ x ∈ l, ∀ m, P m → Yields E (fun r => P r.2) (f m x)) →
    Yields E (fun r => P r.2) (allM f m l)
  | [], _, hm, _ => hm
  | x :: l, m, hm, hf => by
    have h := hf x (List.mem_cons_self ..) m hm
    unfold allM
    cases hx : f m x with
    | error e => rw [hx] at h; exact h
    | ok r =>
      rw [hx] at h
      obtain ⟨b, m'⟩ := r
      cases b with
      | false => exact h
      | true => exact allM_inv l m' h fun x hx => hf x (List.mem_cons_of_mem _ hx)

theorem filterM_inv {P : TMem K → Prop} {f : TMem K → α → Except Err (Bool × TMem K)} :
    ∀ (l : List α) (m : TMem K), P m → (∀ x ∈ l, ∀ m, P m → Yields E (fun r => P r.2) (f m x)) →
    Yields E (fun r => P r.2 ∧ ∀ x ∈ r.1, x ∈ l) (filterM f m l)
  | [], _, hm, _ => ⟨hm, fun _ h => h⟩
  | x :: l, m, hm, hf => by
    have h := hf x (List.mem_cons_self ..) m hm
    unfold filterM
    cases hx : f m x with
    | error e => rw [hx] at h; exact h
    | ok r =>
      rw [hx] at h
      obtain ⟨b, m'⟩ := r
      have h2 := filterM_inv l m' h fun x hx => hf x (List.mem_cons_of_mem _ hx)
      cases hl : filterM f m' l with
      | error e => rw [hl] at h2; simp only; rw [hl]; exact h2
      | ok r =>
        rw [hl] at h2
        simp only; rw [hl]
        refine ⟨h2.1, fun y hy => ?_⟩
        cases b with
        | false => exact List.mem_cons_of_mem _ (h2.2 y hy)
        | true =>
          rcases List.mem_cons.1 hy with rfl | hy
          · exact List.mem_cons_self ..
          · exact List.mem_cons_of_mem _ (h2.2 y hy)

theorem anyM_outcome {f : α → Except Err Bool} : ∀ (l : List α), (∀ x ∈ l, Yields E (fun _ => True) (f x)) →
    Yields E (fun _ => True) (anyM f l)
  | [], _ => trivial
  | x :: l, hf => by
    have h := hf x (List.mem_cons_self ..)
    unfold anyM
    cases hx : f x with
    | error e => rw [hx] at h; exact h
    | ok b =>
      cases b with
      | true => trivial
      | false => exact anyM_outcome l fun x hx => hf x (List.mem_cons_of_mem _ hx)

theorem anyM_false {f : α → Except Err Bool} : ∀ (l : List α), (∀ x ∈ l, f x ≠ .ok true) → anyM f l ≠ .ok true
  | [], _ => by simp [anyM]
  | x :: l, hf => by
    have h := hf x (List.mem_cons_self ..)
    unfold anyM
    cases hx : f x with
    | error e => simp
    | ok b =>
      cases b with
      | true => exact absurd hx h
      | false => exact anyM_false l fun x hx => hf x (List.mem_cons_of_mem _ hx)

end loops

theorem Yields.mono {α : Type} {E E' : Err → Prop} {P Q : α → Prop} {r : Except Err α} (h : Yields E P r) (hE : ∀ e, E e → E' e)
    (hP : ∀ x, P x → Q x) : Yields E' Q r := by
  cases r with
  | error e => exact hE e h
  | ok x => exact hP x h

/-! ## Mixed decisions do not occur -/

/-- Errors which are no sign of code which is not modelled. -/
abbrev Known : Err → Prop := fun e => e ≠ .notModelled

theorem merge_inv : ∀ (r : List Nat) (pre : Nat) (m : TMem K) (x : Nat),
    Yields (fun e => e = .ub) (fun s => SameDec m s.2 ∧ s.2.atom = m.atom ∧ s.2.dnf = m.dnf ∧ s.2.next = m.next ∧ ∀ y ∈ s.1, y ∈ x :: r)
      (merge pre m x r)
  | [], pre, m, x => by
    unfold merge
    refine ⟨.refl m, rfl, rfl, rfl, fun y hy => ?_⟩
    simp only at hy
    split at hy
    · simp at hy
    · exact hy
  | y :: r, pre, m, x => by
    have step : ∀ (pre : Nat), Yields (fun e => e = Err.ub)
        (fun s => SameDec m s.2 ∧ s.2.atom = m.atom ∧ s.2.dnf = m.dnf ∧ s.2.next = m.next ∧ ∀ z ∈ s.1, z ∈ x :: y :: r)
        (match merge (pre + 1) m y r with
          | .error e => .error e
          | .ok (l, m) => .ok (x :: l, m)) := by
      intro pre
      have h := merge_inv r (pre + 1) m y
      cases hm : merge (pre + 1) m y r with
      | error e => rw [hm] at h; exact h
      | ok s =>
        rw [hm] at h
        refine ⟨h.1, h.2.1, h.2.2.1, h.2.2.2.1, fun z hz => ?_⟩
        rcases List.mem_cons.1 hz with rfl | hz
        · exact List.mem_cons_self ..
        · exact List.mem_cons_of_mem _ (h.2.2.2.2 z hz)
    unfold merge
    split
    · refine Yields.mono (merge_inv r pre m y) (fun _ h => h) fun s h => ⟨h.1, h.2.1, h.2.2.1, h.2.2.2.1, fun z hz => List.mem_cons_of_mem _ (h.2.2.2.2 z hz)⟩
    · split
      · refine Yields.mono (merge_inv r pre _ x) (fun _ h => h) fun s h => ⟨h.1, h.2.1, h.2.2.1, h.2.2.2.1, fun z hz => ?_⟩
        rcases List.mem_cons.1 (h.2.2.2.2 z hz) with rfl | hz
        · exact List.mem_cons_self ..
        · exact List.mem_cons_of_mem _ (List.mem_cons_of_mem _ hz)
      · exact step pre
    · rfl
    · rfl
    · rfl
    · exact step pre

theorem intervalsOf_err (m : TMem K) (a : Nat) : Yields (fun e => e = .ub) (fun _ => True) (m.intervalsOf a) := by
  unfold intervalsOf
  split
  · trivial
  · rfl

theorem conjIntervals_err (m : TMem K) : ∀ (l : List Nat) acc, Yields (fun e => e = .ub) (fun _ => True) (m.conjIntervals acc l)
  | [], _ => trivial
  | a :: l, acc => by
    have h := intervalsOf_err m a
    unfold conjIntervals
    cases hi : m.intervalsOf a with
    | error e => rw [hi] at h; exact h
    | ok I => exact conjIntervals_err m l _

theorem sumIntervals_err (m : TMem K) : ∀ (l : List Nat) acc, Yields (fun e => e = .ub) (fun _ => True) (m.sumIntervals acc l)
  | [], _ => trivial
  | a :: l, acc => by
    have h := intervalsOf_err m a
    unfold sumIntervals
    cases hi : m.intervalsOf a with
    | error e => rw [hi] at h; exact h
    | ok I => exact sumIntervals_err m l _

theorem unionIntervals_err (m : TMem K) : ∀ (l : List (List Nat)), Yields (fun e => e = .ub) (fun _ => True) (m.unionIntervals l)
  | [] => trivial
  | c :: l => by
    have h := conjIntervals_err m c [Interval.default]
    unfold unionIntervals
    cases hi : m.conjIntervals [Interval.default] c with
    | error e => rw [hi] at h; exact h
    | ok I =>
      have h2 := unionIntervals_err m l
      cases hl : m.unionIntervals l with
      | error e => rw [hl] at h2; exact h2
      | ok J => trivial

variable [FloorRing K]

/-- Errors of the interval operations. -/
abbrev IErr : Err → Prop := fun e => e = .ub ∨ e = .lengthError ∨ e = .message

theorem plus_err (I : Interval K) : Yields IErr (fun _ => True) I.plus := by
  unfold Interval.plus
  split
  · trivial
  · exact .inl rfl
  · split
    · exact .inl rfl
    · simp only
      split
      · exact .inr (.inl rfl)
      · trivial

theorem plusMember_err (I : Interval K) : Yields IErr (fun _ => True) (Interval.plusMember I) := by
  unfold Interval.plusMember
  split
  · trivial
  · exact plus_err I

theorem mapM_err {α β : Type} {E : Err → Prop} {f : α → Except Err β} (hf : ∀ x, Yields E (fun _ => True) (f x)) :
    ∀ (l : List α), Yields E (fun _ => True) (l.mapM f)
  | [] => by simp [Yields, pure, Except.pure]
  | x :: l => by
    have h := hf x
    have h2 := mapM_err hf l
    rw [List.mapM_cons]
    cases hx : f x with
    | error e => rw [hx] at h; exact h
    | ok y =>
      cases hl : l.mapM f with
      | error e => rw [hl] at h2; exact h2
      | ok ys => trivial

theorem plusAll_err (S : List (Interval K)) : Yields IErr (fun _ => True) (Interval.plusAll S) := by
  unfold Interval.plusAll
  split
  · exact .inr (.inr rfl)
  · have h := mapM_err plusMember_err S
    cases hm : S.mapM Interval.plusMember with
    | error e => rw [hm] at h; exact h
    | ok P =>
      simp only [bind, Except.bind]
      split <;> trivial

theorem finishSNF_inv (m : TMem K) (c : Alphabet) (d : Nat) (l : List (List Nat)) :
    Yields (fun e => e = .ub) (fun m' => SameDec m m') (m.finishSNF c d l) := by
  have h := unionIntervals_err m l
  unfold finishSNF
  cases hu : m.unionIntervals l with
  | error e => rw [hu] at h; exact h
  | ok I => exact ⟨rfl, rfl⟩

theorem finishPlusSNF_inv (m : TMem K) (a d : Nat) : Yields IErr (fun r => SameDec m r.2) (m.finishPlusSNF a d) := by
  unfold finishPlusSNF
  split
  · split
    · next s _ =>
      have h := plusAll_err (m.sing s).2
      cases hp : Interval.plusAll (m.sing s).2 with
      | error e => rw [hp] at h; exact h
      | ok I => exact ⟨rfl, rfl⟩
    · exact .inl rfl
  · exact .inl rfl

theorem finishWithinSNF_inv (m : TMem K) (a b : Nat) (I : Interval K) :
    Yields (fun e => e = .ub) (fun r => SameDec m r.2) (m.finishWithinSNF a b I) := by
  unfold finishWithinSNF
  split
  · exact ⟨rfl, rfl⟩
  · rfl

theorem IErr.known {e : Err} (h : IErr e) : Known e := by
  rcases h with rfl | rfl | rfl <;> simp

theorem ub_known {e : Err} (h : e = .ub) : Known e := by subst h; simp

mutual

theorem snfAtom_known (c : Alphabet) : ∀ (fuel : Nat) (m : TMem K) (a : Nat),
    Yields Known (fun r => SameDec m r.2) (snfAtom c fuel m a)
  | 0, m, a => by unfold snfAtom; exact fun h => by cases h
  | fuel + 1, m, a => by
    unfold snfAtom
    split
    · exact ub_known rfl
    · exact .refl m
    · exact .refl m
    · next l _ =>
      have h := allM_inv (E := Known) (P := fun m' => SameDec m m') l m (.refl m)
        fun x _ m' hm' => Yields.mono (snfAtom_known c fuel m' x) (fun _ h => h) fun r hr => hm'.trans hr
      cases ha : allM (snfAtom c fuel) m l with
      | error e => rw [ha] at h; exact h
      | ok r =>
        rw [ha] at h
        obtain ⟨b, m1⟩ := r
        cases b with
        | false => exact h
        | true =>
          have h2 := sumIntervals_err m1 l [⟨.fin 0 true, .fin 0 true⟩]
          simp only
          cases hs : m1.sumIntervals [⟨.fin 0 true, .fin 0 true⟩] l with
          | error e => rw [hs] at h2; exact ub_known h2
          | ok I => exact h
    · next d _ =>
      have h := snfDnf_known c fuel m d
      cases hd : snfDnf c fuel m d with
      | error e => rw [hd] at h; exact h
      | ok m1 =>
        rw [hd] at h
        exact Yields.mono (finishPlusSNF_inv m1 a d) (fun _ h => h.known) fun r hr => SameDec.trans h hr
    · next b I _ =>
      have h := snfAtom_known c fuel m b
      cases hd : snfAtom c fuel m b with
      | error e => rw [hd] at h; exact h
      | ok r =>
        rw [hd] at h
        obtain ⟨t, m1⟩ := r
        cases t with
        | false => exact h
        | true => exact Yields.mono (finishWithinSNF_inv m1 a b I) (fun _ h => ub_known h) fun r hr => SameDec.trans h hr

theorem snfDnf_known (c : Alphabet) : ∀ (fuel : Nat) (m : TMem K) (d : Nat), Yields Known (fun m' => SameDec m m') (snfDnf c fuel m d)
  | 0, m, d => by unfold snfDnf; exact fun h => by cases h
  | fuel + 1, m, d => by
    unfold snfDnf
    have h := filterM_inv (E := Known) (P := fun m' => SameDec m m') (f := allM (snfAtom c fuel)) (m.dnf d) m (.refl m)
      fun l _ m' hm' => Yields.mono (allM_inv (E := Known) (P := fun m'' => SameDec m' m'') l m' (.refl m')
        fun x _ m'' hm'' => Yields.mono (snfAtom_known c fuel m'' x) (fun _ h => h) fun r hr => hm''.trans hr) (fun _ h => h) fun r hr => hm'.trans hr
    cases hf : filterM (allM (snfAtom c fuel)) m (m.dnf d) with
    | error e => rw [hf] at h; exact h
    | ok r =>
      rw [hf] at h
      obtain ⟨l, m1⟩ := r
      exact Yields.mono (finishSNF_inv m1 c d l) (fun _ h => ub_known h) fun r hr => SameDec.trans h.1 hr

end

theorem decisionOf_inv {m : TMem K} (hm : DecOk m) (a : Nat) : Yields (fun e => e = .ub) Decision.Ok (m.decisionOf a) := by
  unfold decisionOf
  split
  · rfl
  · next d h => exact hm.atom a d h

theorem concatLoop_inv {f : TMem K → Nat → Except Err (TMem K)} (hf : ∀ m a, DecOk m → Yields Known DecOk (f m a)) :
    ∀ (l : List Nat) (m : TMem K) (dec : Decision), DecOk m → dec.Ok →
    Yields Known (fun r => r.1.Ok ∧ DecOk r.2) (concatLoop f m dec l)
  | [], m, dec, hm, hd => ⟨hd, hm⟩
  | x :: l, m, dec, hm, hd => by
    have h := hf m x hm
    unfold concatLoop
    cases hx : f m x with
    | error e => rw [hx] at h; exact h
    | ok m1 =>
      rw [hx] at h
      have h2 := decisionOf_inv h x
      simp only
      cases hi : m1.decisionOf x with
      | error e => rw [hi] at h2; exact ub_known h2
      | ok i => rw [hi] at h2; exact concatLoop_inv hf l m1 _ h (Decision.ok_concat hd h2)

theorem plusMixed_false {m : TMem K} (hm : DecOk m) (a : Nat) : m.plusMixed a ≠ .ok true := by
  unfold plusMixed
  split
  · split
    · simp
    · next v h => simp [(hm.dnf _ v h).not_mixed]
  · simp

theorem plusMixed_err (m : TMem K) (a : Nat) : Yields (fun e => e = .ub) (fun _ => True) (m.plusMixed a) := by
  unfold plusMixed
  split
  · split
    · rfl
    · trivial
  · trivial

theorem atomMixed_false {m : TMem K} (hm : DecOk m) (a : Nat) : m.atomMixed a ≠ .ok true := by
  unfold atomMixed
  split
  · split
    · simp
    · next v h => simp [(hm.atom _ v h).not_mixed]
  · simp

theorem atomMixed_err (m : TMem K) (a : Nat) : Yields (fun e => e = .ub) (fun _ => True) (m.atomMixed a) := by
  unfold atomMixed
  split
  · split
    · rfl
    · trivial
  · trivial

theorem finishConcat_known {m : TMem K} (hm : DecOk m) (a : Nat) (l : List Nat) {dec : Decision} (hd : dec.Ok) :
    Yields Known DecOk (m.finishConcat a l dec) := by
  unfold finishConcat
  cases l with
  | nil => exact decOk_of_eq (decOk_setADec hm a hd) rfl rfl
  | cons x r =>
    have h := merge_inv r 0 m x
    simp only
    cases hg : merge 0 m x r with
    | error e => rw [hg] at h; exact ub_known h
    | ok s =>
      rw [hg] at h
      obtain ⟨l', m1⟩ := s
      have hm1 : DecOk m1 := decOk_of_eq hm h.1.1 h.1.2
      simp only
      split
      · next l'' _ =>
        have h1 := anyM_outcome (E := fun e => e = .ub) (f := plusMixed m1) l'' fun x _ => plusMixed_err m1 x
        have h2 := anyM_false (f := plusMixed m1) l'' fun x _ => plusMixed_false hm1 x
        cases ha : anyM (plusMixed m1) l'' with
        | error e => rw [ha] at h1; exact ub_known h1
        | ok b =>
          cases b with
          | true => exact absurd ha h2
          | false => exact decOk_of_eq (decOk_setADec hm1 a hd) rfl rfl
      · exact decOk_of_eq (decOk_setADec hm1 a hd) rfl rfl

theorem conjLoop_err {m : TMem K} (y : Nat) : ∀ (fuel : Nat) (d : Decision), Yields Known (fun _ => False) (m.conjLoop y fuel d)
  | 0, d => by unfold conjLoop; exact fun h => by cases h
  | fuel + 1, d => by
    unfold conjLoop
    unfold decisionOf
    cases m.adec y with
    | none => exact ub_known rfl
    | some i => exact conjLoop_err y fuel _

theorem conjDecision_known {m : TMem K} (hm : DecOk m) (fuel : Nat) (c : List Nat) : Yields Known Decision.Ok (m.conjDecision fuel c) := by
  unfold conjDecision
  split
  · exact ub_known rfl
  · exact Yields.mono (decisionOf_inv hm _) (fun _ h => ub_known h) fun _ h => h
  · next a y _ =>
    have h := decisionOf_inv hm a
    cases hd : m.decisionOf a with
    | error e => rw [hd] at h; exact ub_known h
    | ok d => exact Yields.mono (conjLoop_err y fuel d) (fun _ h => h) fun _ h => h.elim

theorem conjDecisions_known {m : TMem K} (hm : DecOk m) (fuel : Nat) :
    ∀ (l : List (List Nat)), Yields Known (fun ds => ∀ d ∈ ds, d.Ok) (m.conjDecisions fuel l)
  | [] => fun d hd => by simp at hd
  | c :: l => by
    have h := conjDecision_known hm fuel c
    unfold conjDecisions
    cases hc : m.conjDecision fuel c with
    | error e => rw [hc] at h; exact h
    | ok d =>
      rw [hc] at h
      have h2 := conjDecisions_known hm fuel l
      simp only
      cases hl : m.conjDecisions fuel l with
      | error e => rw [hl] at h2; exact h2
      | ok ds =>
        rw [hl] at h2
        intro x hx
        rcases List.mem_cons.1 hx with rfl | hx
        · exact h
        · exact h2 x hx

theorem ok_foldl : ∀ (ds : List Decision) (d : Decision), d.Ok → (∀ i ∈ ds, i.Ok) →
    (ds.foldl (fun d i => { constant := d.constant && i.constant, chars := setInter d.chars i.chars }) d).Ok
  | [], _, hd, _ => hd
  | i :: ds, d, hd, h => ok_foldl ds _ (Decision.ok_inter hd (h i (List.mem_cons_self ..))) fun j hj => h j (List.mem_cons_of_mem _ hj)

theorem disjDecision_known {ds : List Decision} (h : ∀ d ∈ ds, d.Ok) : Yields (fun e => e = .ub) Decision.Ok (disjDecision ds) := by
  cases ds with
  | nil => rfl
  | cons d ds => exact ok_foldl ds d (h d (List.mem_cons_self ..)) fun i hi => h i (List.mem_cons_of_mem _ hi)

theorem finishDnf_known (fuel : Nat) {m : TMem K} (hm : DecOk m) (d : Nat) : Yields Known DecOk (finishDnf fuel m d) := by
  have h1 := anyM_outcome (E := fun e => e = .ub) (f := anyM m.atomMixed) (m.dnf d) fun c _ => anyM_outcome c fun x _ => atomMixed_err m x
  have h2 := anyM_false (f := anyM m.atomMixed) (m.dnf d) fun c _ => anyM_false c fun x _ => atomMixed_false hm x
  unfold finishDnf
  cases ha : anyM (anyM m.atomMixed) (m.dnf d) with
  | error e => rw [ha] at h1; exact ub_known h1
  | ok b =>
    cases b with
    | true => exact absurd ha h2
    | false =>
      have h3 := conjDecisions_known hm fuel (m.dnf d)
      simp only
      cases hc : m.conjDecisions fuel (m.dnf d) with
      | error e => rw [hc] at h3; exact h3
      | ok ds =>
        rw [hc] at h3
        have h4 := disjDecision_known h3
        simp only
        cases hd : disjDecision ds with
        | error e => rw [hd] at h4; exact ub_known h4
        | ok v => rw [hd] at h4; exact decOk_setDDec hm d h4

theorem plusDec_ok {v : Decision} (hv : v.Ok) :
    Decision.Ok { chars := v.chars, constant := v.constant && (v.chars.length == 1 || (v.chars.length == 2 && v.hasEpsilon)) } := by
  rcases hv with hv | ⟨hv, c, hc⟩
  · exact .inl hv
  · exact .inr ⟨by simp [hv, hc], c, hc⟩

theorem finishPlus_known (fuel : Nat) {m : TMem K} (hm : DecOk m) (a d : Nat) : Yields Known DecOk (finishPlus fuel m a d) := by
  unfold finishPlus
  split
  · exact ub_known rfl
  · next v hv =>
    have hok := plusDec_ok (hm.dnf d v hv)
    have hm1 := decOk_setADec hm a hok
    revert hok hm1
    generalize ({ chars := v.chars, constant := v.constant && (v.chars.length == 1 || (v.chars.length == 2 && v.hasEpsilon)) } : Decision) = w
    intro hok hm1
    simp only [hok.not_mixed, Bool.false_eq_true, if_false]
    split
    · next c _ =>
      have h := snfAtom_known c fuel (m.setADec a w) a
      split
      · next e he => rw [he] at h; exact h
      · next b m1 he => rw [he] at h; exact decOk_of_eq hm1 h.1 h.2
    · exact hm1

theorem finishWithin_known {m : TMem K} (hm : DecOk m) (a b : Nat) (I : Interval K) : Yields Known DecOk (m.finishWithin a b I) := by
  unfold finishWithin
  split
  · exact ub_known rfl
  · next v hv =>
    have hok := hm.atom b v hv
    have hm1 := decOk_setADec hm a hok
    simp only
    split
    · exact decOk_of_eq hm1 rfl rfl
    · exact ub_known rfl
    · exact decOk_of_eq hm1 rfl rfl
    · simp only [hok.not_mixed, Bool.false_eq_true, if_false]; exact hm1
    · exact hm1

mutual

theorem normAtom_known : ∀ (fuel : Nat) (m : TMem K) (a : Nat), DecOk m → Yields Known DecOk (normAtom fuel m a)
  | 0, m, a, _ => by unfold normAtom; exact fun h => by cases h
  | fuel + 1, m, a, hm => by
    unfold normAtom
    split
    · exact ub_known rfl
    · exact decOk_setADec hm a (.inr ⟨rfl, _, rfl⟩)
    · exact decOk_setADec hm a (.inr ⟨rfl, _, rfl⟩)
    · next l _ =>
      have h := concatLoop_inv (fun m a hm => normAtom_known fuel m a hm) l m ⟨true, [0]⟩ hm (.inr ⟨rfl, _, rfl⟩)
      cases hc : concatLoop (normAtom fuel) m ⟨true, [0]⟩ l with
      | error e => rw [hc] at h; exact h
      | ok r => rw [hc] at h; exact finishConcat_known h.2 a l h.1
    · next d _ =>
      have h := normDnf_known fuel m d hm
      cases hd : normDnf fuel m d with
      | error e => rw [hd] at h; exact h
      | ok m1 => rw [hd] at h; exact finishPlus_known fuel h a d
    · next b I _ =>
      have h := normAtom_known fuel m b hm
      cases hd : normAtom fuel m b with
      | error e => rw [hd] at h; exact h
      | ok m1 => rw [hd] at h; exact finishWithin_known h a b I

theorem normDnf_known : ∀ (fuel : Nat) (m : TMem K) (d : Nat), DecOk m → Yields Known DecOk (normDnf fuel m d)
  | 0, m, d, _ => by unfold normDnf; exact fun h => by cases h
  | fuel + 1, m, d, hm => by
    unfold normDnf
    have h := forM_inv (E := Known) (P := DecOk) (f := forM (normAtom fuel)) (m.dnf d) m hm
      fun l _ m hm => forM_inv l m hm fun x _ m hm => normAtom_known fuel m x hm
    cases hf : forM (forM (normAtom fuel)) m (m.dnf d) with
    | error e => rw [hf] at h; exact h
    | ok m1 => rw [hf] at h; exact finishDnf_known fuel h d

end

end TMem
end Verif
