import Verif.Lemmas.NormalForm
import Verif.Lemmas.DNFLang

/-!
# Termination of the computation of the normal form
-/

set_option linter.unusedSectionVars false

namespace Verif.TMem

variable {K : Type} [Field K] [LinearOrder K]

/-- Height of an object: objects made by the constructor of `DNFTRE` are above the objects they point to, later objects are at the
bottom. -/
def rk (N a : Nat) : Nat := if a < N then a + 1 else 0

/-- Pointers in a node point to lower objects. -/
def NodeRk (N a : Nat) : ANode K → Prop
  | .concat l => ∀ x ∈ l, rk N x < rk N a
  | .plus d => rk N d < rk N a ∧ 0 < rk N d
  | .within b _ => rk N b < rk N a
  | _ => True

/-- Pointers point to lower objects; there are no proper conjunctions. -/
structure Ranked (N : Nat) (m : TMem K) : Prop where
  next : N ≤ m.next
  atom : ∀ a, NodeRk N a (m.atom a)
  dnf : ∀ d, ∀ c ∈ m.dnf d, ∃ a, c = [a] ∧ rk N a < rk N d

theorem NodeRk.up {N a b : Nat} {n : ANode K} (h : NodeRk N b n) (hb : rk N b < rk N a) : NodeRk N a n := by
  cases n with
  | concat l => exact fun x hx => lt_trans (h x hx) hb
  | plus d => exact ⟨lt_trans h.1 hb, h.2⟩
  | within c I => exact lt_trans (show rk N c < rk N b from h) hb
  | _ => trivial

theorem Ranked.setAtom {N : Nat} {m : TMem K} (h : Ranked N m) (a : Nat) {n : ANode K} (hn : NodeRk N a n) : Ranked N (m.setAtom a n) := by
  refine ⟨h.next, fun b => ?_, h.dnf⟩
  simp only [TMem.setAtom, put]
  split
  · next e => rw [e]; exact hn
  · exact h.atom b

theorem Ranked.of_eq {N : Nat} {m m' : TMem K} (h : Ranked N m) (h1 : m'.atom = m.atom) (h2 : m'.dnf = m.dnf) (h3 : m'.next = m.next) :
    Ranked N m' := ⟨h3 ▸ h.next, fun a => h1 ▸ h.atom a, fun d => h2 ▸ h.dnf d⟩

theorem Ranked.newSing {N : Nat} {m : TMem K} (h : Ranked N m) (v) : Ranked N (m.newSing v) :=
  ⟨le_trans h.next (Nat.le_succ _), h.atom, h.dnf⟩

theorem Ranked.newSingleton {N : Nat} {m : TMem K} (h : Ranked N m) (v) : Ranked N (m.newSingleton v).2 := by
  refine ⟨le_trans h.next (Nat.le_add_right _ 2), fun b => ?_, h.dnf⟩
  simp only [TMem.newSingleton, newAtom, put]
  split
  · trivial
  · exact h.atom b

theorem Ranked.setDnf {N : Nat} {m : TMem K} (h : Ranked N m) (d : Nat) {l} (hl : ∀ c ∈ l, ∃ a, c = [a] ∧ rk N a < rk N d) :
    Ranked N (m.setDnf d l) := by
  refine ⟨h.next, h.atom, fun b => ?_⟩
  simp only [TMem.setDnf, put]
  split
  · next e => rw [e]; exact hl
  · exact h.dnf b

/-- Errors other than lack of fuel. -/
abbrev Ends : Err → Prop := fun e => e ≠ .fuel

theorem ub_ends {e : Err} (h : e = .ub) : Ends e := by subst h; simp

theorem IErr.ends {e : Err} (h : IErr e) : Ends e := by
  rcases h with rfl | rfl | rfl <;> simp

variable [FloorRing K]

theorem finishSNF_rk {N : Nat} {m : TMem K} (h : Ranked N m) (c : Alphabet) {d : Nat} (hd : 0 < rk N d) (l : List (List Nat)) :
    Yields Ends (Ranked N) (m.finishSNF c d l) := by
  have h' := unionIntervals_err m l
  unfold finishSNF
  cases hu : m.unionIntervals l with
  | error e => rw [hu] at h'; exact ub_ends h'
  | ok I =>
    refine (h.newSingleton (c, I)).setDnf d fun e he => ⟨_, List.mem_singleton.1 he, ?_⟩
    have : ¬ (m.newSing (c, I)).next < N := by
      have := h.next
      show ¬ m.next + 1 < N
      omega
    rw [rk, if_neg this]
    exact hd

theorem finishPlusSNF_rk {N : Nat} {m : TMem K} (h : Ranked N m) (a d : Nat) : Yields Ends (fun r => Ranked N r.2) (m.finishPlusSNF a d) := by
  unfold finishPlusSNF
  split
  · split
    · next s _ =>
      have h' := plusAll_err (m.sing s).2
      cases hp : Interval.plusAll (m.sing s).2 with
      | error e => rw [hp] at h'; exact h'.ends
      | ok I => exact (h.setAtom a (n := .singleton s) trivial).of_eq rfl rfl rfl
    · exact ub_ends rfl
  · exact ub_ends rfl

theorem finishWithinSNF_rk {N : Nat} {m : TMem K} (h : Ranked N m) (a b : Nat) (I : Interval K) :
    Yields Ends (fun r => Ranked N r.2) (m.finishWithinSNF a b I) := by
  unfold finishWithinSNF
  split
  · next s _ => exact (h.setAtom a (n := .singleton s) trivial).of_eq rfl rfl rfl
  · exact ub_ends rfl

mutual

theorem snfAtom_rk (c : Alphabet) {N : Nat} : ∀ (fuel : Nat) (m : TMem K) (a : Nat), Ranked N m → rk N a < fuel →
    Yields Ends (fun r => Ranked N r.2) (snfAtom c fuel m a)
  | 0, m, a, _, hf => absurd hf (Nat.not_lt_zero _)
  | fuel + 1, m, a, h, hf => by
    have ha := h.atom a
    unfold snfAtom
    split
    · exact ub_ends rfl
    · exact h
    · exact h
    · next l hl =>
      rw [hl] at ha
      have h1 := allM_inv (E := Ends) (P := Ranked N) (f := snfAtom c fuel) l m h
        fun x hx m hm => snfAtom_rk c fuel m x hm (lt_of_lt_of_le (ha x hx) (Nat.lt_succ_iff.1 hf))
      cases he : allM (snfAtom c fuel) m l with
      | error e => rw [he] at h1; exact h1
      | ok r =>
        rw [he] at h1
        obtain ⟨b, m1⟩ := r
        cases b with
        | false => exact h1
        | true =>
          have h2 := sumIntervals_err m1 l [⟨.fin 0 true, .fin 0 true⟩]
          simp only
          cases hs : m1.sumIntervals [⟨.fin 0 true, .fin 0 true⟩] l with
          | error e => rw [hs] at h2; exact ub_ends h2
          | ok I => exact (h1.newSing (c, I)).setAtom a trivial
    · next d hd =>
      rw [hd] at ha
      have h1 := snfDnf_rk c fuel m d h (lt_of_lt_of_le ha.1 (Nat.lt_succ_iff.1 hf)) ha.2
      cases he : snfDnf c fuel m d with
      | error e => rw [he] at h1; exact h1
      | ok m1 => rw [he] at h1; exact finishPlusSNF_rk h1 a d
    · next b I hb =>
      rw [hb] at ha
      have h1 := snfAtom_rk c fuel m b h (lt_of_lt_of_le ha (Nat.lt_succ_iff.1 hf))
      cases he : snfAtom c fuel m b with
      | error e => rw [he] at h1; exact h1
      | ok r =>
        rw [he] at h1
        obtain ⟨t, m1⟩ := r
        cases t with
        | false => exact h1
        | true => exact finishWithinSNF_rk h1 a b I

theorem snfDnf_rk (c : Alphabet) {N : Nat} : ∀ (fuel : Nat) (m : TMem K) (d : Nat), Ranked N m → rk N d < fuel → 0 < rk N d →
    Yields Ends (Ranked N) (snfDnf c fuel m d)
  | 0, m, d, _, hf, _ => absurd hf (Nat.not_lt_zero _)
  | fuel + 1, m, d, h, hf, hd => by
    unfold snfDnf
    have h1 := filterM_inv (E := Ends) (P := Ranked N) (f := allM (snfAtom c fuel)) (m.dnf d) m h
      fun l hl m' hm' => allM_inv (E := Ends) (P := Ranked N) l m' hm' fun x hx m'' hm'' => by
        obtain ⟨y, rfl, hy⟩ := h.dnf d l hl
        rw [List.mem_singleton.1 hx]
        exact snfAtom_rk c fuel m'' y hm'' (lt_of_lt_of_le hy (Nat.lt_succ_iff.1 hf))
    cases he : filterM (allM (snfAtom c fuel)) m (m.dnf d) with
    | error e => rw [he] at h1; exact h1
    | ok r =>
      rw [he] at h1
      exact finishSNF_rk h1.1 c hd r.1

end

theorem concatLoop_rk {P : TMem K → Prop} {f : TMem K → Nat → Except Err (TMem K)} :
    ∀ (l : List Nat) (m : TMem K) (dec : Decision), P m → (∀ x ∈ l, ∀ m, P m → Yields Ends P (f m x)) →
    Yields Ends (fun r => P r.2) (concatLoop f m dec l)
  | [], m, dec, hm, _ => hm
  | x :: l, m, dec, hm, hf => by
    have h := hf x (List.mem_cons_self ..) m hm
    unfold concatLoop
    cases hx : f m x with
    | error e => rw [hx] at h; exact h
    | ok m1 =>
      rw [hx] at h
      simp only [decisionOf]
      cases m1.adec x with
      | none => exact ub_ends rfl
      | some i => exact concatLoop_rk l m1 _ h fun x hx => hf x (List.mem_cons_of_mem _ hx)

theorem finishConcat_rk {N : Nat} {m : TMem K} (hm : Ranked N m) (a : Nat) (l : List Nat) (dec : Decision)
    (hl : ∀ x ∈ l, rk N x < rk N a) (hk : DecOk m) : Yields Ends (Ranked N) (m.finishConcat a l dec) := by
  unfold finishConcat
  cases l with
  | nil => exact (hm.setAtom a (n := .concat []) fun x hx => by simp at hx).of_eq rfl rfl rfl
  | cons x r =>
    have h := merge_inv r 0 m x
    simp only
    cases hg : merge 0 m x r with
    | error e => rw [hg] at h; exact ub_ends h
    | ok s =>
      rw [hg] at h
      obtain ⟨l', m1⟩ := s
      obtain ⟨h1, h2, h3, h4, h5⟩ := h
      have hm1 : Ranked N m1 := hm.of_eq h2 h3 h4
      have hk1 : DecOk m1 := decOk_of_eq hk h1.1 h1.2
      have hn : NodeRk N a (m1.shorten l') := by
        unfold shorten
        split
        · next y =>
          exact (hm1.atom y).up (hl y (h5 y (List.mem_singleton.2 rfl)))
        · exact fun x hx => hl x (h5 x hx)
      simp only
      split
      · next l'' heq =>
        rw [heq] at hn
        have h1 := anyM_outcome (E := fun e => e = .ub) (f := plusMixed m1) l'' fun x _ => plusMixed_err m1 x
        have h2 := anyM_false (f := plusMixed m1) l'' fun x _ => plusMixed_false hk1 x
        cases ha : anyM (plusMixed m1) l'' with
        | error e => rw [ha] at h1; exact ub_ends h1
        | ok b =>
          cases b with
          | true => exact absurd ha h2
          | false => exact (hm1.setAtom a hn).of_eq rfl rfl rfl
      · exact (hm1.setAtom a hn).of_eq rfl rfl rfl

theorem conjDecisions_rk (m : TMem K) (fuel : Nat) : ∀ (l : List (List Nat)), (∀ c ∈ l, ∃ a, c = [a]) →
    Yields Ends (fun _ => True) (m.conjDecisions fuel l)
  | [], _ => trivial
  | c :: l, hl => by
    obtain ⟨a, rfl⟩ := hl c (List.mem_cons_self ..)
    have h2 := conjDecisions_rk m fuel l fun c hc => hl c (List.mem_cons_of_mem _ hc)
    simp only [conjDecisions, conjDecision, decisionOf]
    cases m.adec a with
    | none => exact ub_ends rfl
    | some d =>
      simp only
      cases he : m.conjDecisions fuel l with
      | error e => rw [he] at h2; exact h2
      | ok ds => trivial

theorem finishDnf_rk {N : Nat} (fuel : Nat) {m : TMem K} (hm : Ranked N m) (d : Nat) : Yields Ends (Ranked N) (finishDnf fuel m d) := by
  have h1 := anyM_outcome (E := fun e => e = .ub) (f := anyM m.atomMixed) (m.dnf d) fun c _ => anyM_outcome c fun x _ => atomMixed_err m x
  unfold finishDnf
  cases ha : anyM (anyM m.atomMixed) (m.dnf d) with
  | error e => rw [ha] at h1; exact ub_ends h1
  | ok b =>
    cases b with
    | true => exact fun h => by cases h
    | false =>
      have h3 := conjDecisions_rk m fuel (m.dnf d) fun c hc => (hm.dnf d c hc).imp fun _ h => h.1
      simp only
      cases hc : m.conjDecisions fuel (m.dnf d) with
      | error e => rw [hc] at h3; exact h3
      | ok ds =>
        simp only
        cases ds with
        | nil => exact ub_ends rfl
        | cons => exact hm.of_eq rfl rfl rfl

theorem finishPlus_rk {N : Nat} {fuel : Nat} {m : TMem K} (hm : Ranked N m) (a d : Nat) (hf : rk N a < fuel) :
    Yields Ends (Ranked N) (finishPlus fuel m a d) := by
  unfold finishPlus
  split
  · exact ub_ends rfl
  · next v hv =>
    simp only
    split
    · exact fun h => by cases h
    · split
      · next c _ =>
        have h := snfAtom_rk c fuel (m.setADec a ⟨v.constant && (v.chars.length == 1 || (v.chars.length == 2 && v.hasEpsilon)), v.chars⟩) a
          (hm.of_eq rfl rfl rfl) hf
        split
        · next e he => rw [he] at h; exact h
        · next b m1 he => rw [he] at h; exact h
      · exact hm.of_eq rfl rfl rfl

theorem finishWithin_rk {N : Nat} {m : TMem K} (hm : Ranked N m) (a b : Nat) (I : Interval K) :
    Yields Ends (Ranked N) (m.finishWithin a b I) := by
  unfold finishWithin
  split
  · exact ub_ends rfl
  · next v hv =>
    simp only
    split
    · next s _ =>
      exact ((hm.setAtom b (n := .moved) trivial).setAtom a (n := .singleton s) trivial).of_eq rfl rfl rfl
    · exact ub_ends rfl
    · exact (hm.setAtom a (n := .epsilon) trivial).of_eq rfl rfl rfl
    · split
      · exact fun h => by cases h
      · exact hm.of_eq rfl rfl rfl
    · exact hm.of_eq rfl rfl rfl

/-- The invariant of the computation. -/
def RkOk (N : Nat) (m : TMem K) : Prop := Ranked N m ∧ DecOk m

theorem Yields.and {α : Type} {E E' : Err → Prop} {P Q : α → Prop} {r : Except Err α} (h : Yields E P r) (h' : Yields E' Q r) :
    Yields E (fun x => P x ∧ Q x) r := by
  cases r with
  | error e => exact h
  | ok x => exact ⟨h, h'⟩

mutual

theorem normAtom_rk {N : Nat} : ∀ (fuel : Nat) (m : TMem K) (a : Nat), RkOk N m → rk N a + 1 < fuel →
    Yields Ends (RkOk N) (normAtom fuel m a)
  | 0, m, a, _, hf => absurd hf (Nat.not_lt_zero _)
  | fuel + 1, m, a, h, hf => by
    refine Yields.and ?_ (normAtom_known (fuel + 1) m a h.2)
    have ha := h.1.atom a
    unfold normAtom
    split
    · exact ub_ends rfl
    · exact h.1.of_eq rfl rfl rfl
    · exact h.1.of_eq rfl rfl rfl
    · next l hl =>
      rw [hl] at ha
      have h1 := concatLoop_rk (P := RkOk N) (f := normAtom fuel) l m ⟨true, [0]⟩ h fun x hx m hm =>
        normAtom_rk fuel m x hm (by have := ha x hx; omega)
      cases hc : concatLoop (normAtom fuel) m ⟨true, [0]⟩ l with
      | error e => rw [hc] at h1; exact h1
      | ok r => rw [hc] at h1; exact finishConcat_rk h1.1 a l r.1 ha h1.2
    · next d hd =>
      rw [hd] at ha
      have h1 := normDnf_rk fuel m d h (by have := ha.1; omega)
      cases hc : normDnf fuel m d with
      | error e => rw [hc] at h1; exact h1
      | ok m1 => rw [hc] at h1; exact finishPlus_rk h1.1 a d (by omega)
    · next b I hb =>
      rw [hb] at ha
      have h1 := normAtom_rk fuel m b h (by have : rk N b < rk N a := ha; omega)
      cases hc : normAtom fuel m b with
      | error e => rw [hc] at h1; exact h1
      | ok m1 => rw [hc] at h1; exact finishWithin_rk h1.1 a b I

theorem normDnf_rk {N : Nat} : ∀ (fuel : Nat) (m : TMem K) (d : Nat), RkOk N m → rk N d + 1 < fuel →
    Yields Ends (RkOk N) (normDnf fuel m d)
  | 0, m, d, _, hf => absurd hf (Nat.not_lt_zero _)
  | fuel + 1, m, d, h, hf => by
    refine Yields.and ?_ (normDnf_known (fuel + 1) m d h.2)
    unfold normDnf
    have h1 := forM_inv (E := Ends) (P := RkOk N) (f := forM (normAtom fuel)) (m.dnf d) m h
      fun l hl m' hm' => forM_inv l m' hm' fun x hx m'' hm'' => by
        obtain ⟨y, rfl, hy⟩ := h.1.dnf d l hl
        rw [List.mem_singleton.1 hx]
        exact normAtom_rk fuel m'' y hm'' (by omega)
    cases hc : forM (forM (normAtom fuel)) m (m.dnf d) with
    | error e => rw [hc] at h1; exact h1
    | ok m1 => rw [hc] at h1; exact finishDnf_rk fuel h1.1 d

end


/-! ## The initial memory -/

/-- Pointers point to older objects; there are no proper conjunctions. -/
structure Ordered (m : TMem K) : Prop where
  atom : ∀ a, m.atom a = .moved ∨ NodeBelow a (m.atom a)
  dnf : ∀ d, ∀ c ∈ m.dnf d, ∃ a, c = [a] ∧ a < d

theorem ordered_empty : Ordered (TMem.empty : TMem K) := ⟨fun _ => .inl rfl, fun d c hc => by simp [empty] at hc⟩

theorem Ordered.newAtom {m : TMem K} (h : Ordered m) {n : ANode K} (hn : NodeBelow m.next n) : Ordered (m.newAtom n) := by
  refine ⟨fun a => ?_, h.dnf⟩
  simp only [TMem.newAtom, put]
  split
  · next e => rw [e]; exact .inr hn
  · exact h.atom a

theorem Ordered.newSing {m : TMem K} (h : Ordered m) (v) : Ordered (m.newSing v) := ⟨h.atom, h.dnf⟩

theorem Ordered.newSingleton {m : TMem K} (h : Ordered m) (v) : Ordered (m.newSingleton v).2 :=
  (h.newSing v).newAtom (Nat.lt_succ_self _ : m.next < m.next + 1)

theorem Ordered.newDnf {m : TMem K} (h : Ordered m) {l} (hl : ∀ c ∈ l, ∃ a, c = [a] ∧ a < m.next) : Ordered (m.newDnf l) := by
  refine ⟨h.atom, fun d => ?_⟩
  simp only [TMem.newDnf, put]
  split
  · next e => rw [e]; exact hl
  · exact h.dnf d

theorem Ordered.ranked {m : TMem K} (h : Ordered m) (hg : Fresh m) : Ranked m.next m := by
  have lt : ∀ {a b}, b < m.next → a < b → rk m.next a < rk m.next b := by
    intro a b hb ha
    rw [rk, rk, if_pos hb, if_pos (lt_trans ha hb)]
    omega
  refine ⟨le_refl _, fun a => ?_, fun d c hc => ?_⟩
  · by_cases ha : a < m.next
    · rcases h.atom a with h' | h'
      · rw [h']; trivial
      · revert h'
        cases m.atom a with
        | concat l => exact fun h' x hx => lt ha (h'.2 x hx)
        | plus d =>
          intro (h' : d < a)
          refine ⟨lt ha h', ?_⟩
          rw [rk, if_pos (lt_trans h' ha)]; omega
        | within b I => exact fun h' => lt ha h'
        | _ => exact fun _ => trivial
    · rw [hg.atom a (not_lt.1 ha)]; trivial
  · by_cases hd : d < m.next
    · obtain ⟨a, rfl, ha⟩ := h.dnf d c hc
      exact ⟨a, rfl, lt hd ha⟩
    · rw [hg.dnf d (not_lt.1 hd)] at hc
      simp at hc

theorem mapM_inv {α β : Type} {f : TMem K → α → Except Err (β × TMem K)} {P : TMem K → Prop} {Q : β → Prop} :
    ∀ (l : List α) (m : TMem K), P m → (∀ x ∈ l, ∀ m, P m → ∀ y m', f m x = .ok (y, m') → P m' ∧ Q y) →
    ∀ ys m', mapM f m l = .ok (ys, m') → P m' ∧ ∀ y ∈ ys, Q y
  | [], m, hP, _, ys, m', h => by
    cases h; exact ⟨hP, fun y hy => by simp at hy⟩
  | x :: l, m, hP, hs, ys, m', h => by
    cases h1 : f m x with
    | error e => simp [mapM, h1] at h
    | ok r =>
      obtain ⟨y, m1⟩ := r
      obtain ⟨hP1, q1⟩ := hs x (List.mem_cons_self ..) m hP y m1 h1
      cases h2 : mapM f m1 l with
      | error e => simp [mapM, h1, h2] at h
      | ok r =>
        obtain ⟨zs, m2⟩ := r
        obtain ⟨hP2, q2⟩ := mapM_inv l m1 hP1 (fun x hx => hs x (List.mem_cons_of_mem _ hx)) zs m2 h2
        simp only [mapM, h1, h2, Except.ok.injEq, Prod.mk.injEq] at h
        obtain ⟨rfl, rfl⟩ := h
        exact ⟨hP2, fun z hz => by
          rcases List.mem_cons.1 hz with rfl | hz
          · exact q1
          · exact q2 z hz⟩

theorem mapM_one {α β : Type} {f : TMem K → α → Except Err (β × TMem K)} {m m' : TMem K} {x : α} {ys : List β}
    (h : mapM f m [x] = .ok (ys, m')) : ∃ y, ys = [y] ∧ f m x = .ok (y, m') := by
  cases h1 : f m x with
  | error e => simp [mapM, h1] at h
  | ok r =>
    simp only [mapM, h1, Except.ok.injEq, Prod.mk.injEq] at h
    exact ⟨r.1, h.1.symm, by rw [← h.2]⟩

variable [IsStrictOrderedRing K]

theorem mkConcat_ordered {m : TMem K} (h : Good m) (ho : Ordered m) {a b : Nat} (ha : a < m.next) (hb : b < m.next)
    (ma : m.atom a ≠ .moved) (mb : m.atom b ≠ .moved) {c : Nat} {m' : TMem K} (hc : m.mkConcat a b = .ok (c, m')) : Ordered m' := by
  have hp : ∀ a < m.next, m.atom a ≠ .moved → ∀ x ∈ m.parts a, x < m.next := by
    intro a ha ma
    have hw := (h.wf.atom a ha).resolve_left ma
    unfold parts
    split
    · next l hl => rw [hl] at hw; exact hw.2
    · simp
    · exact fun x hx => by rw [List.mem_singleton.1 hx]; exact ha
  unfold mkConcat at hc
  split at hc
  · cases hc; exact ho.newAtom trivial
  · cases hc
  · next l' h1 h2 =>
    cases hc
    exact ho.newAtom ⟨h1, fun x hx => (List.mem_append.1 hx).elim (hp a ha ma x) (hp b hb mb x)⟩

theorem mkWithin_ordered {m : TMem K} (ho : Ordered m) {a : Nat} (ha : a < m.next) {I : Interval K}
    {c : Nat} {m' : TMem K} (hc : m.mkWithin a I = .ok (c, m')) : Ordered m' := by
  unfold mkWithin at hc
  split at hc
  · cases hc; exact ho.newSingleton _
  · cases hc
  · cases hc; exact ho.newAtom ha

theorem toDNF_ordered : ∀ (e : TRE K) (m : TMem K), e.ConjFree → Good m → Ordered m → ∀ l m', e.toDNF m = .ok (l, m') →
    Ordered m' ∧ ∀ c ∈ l, ∃ a, c = [a]
  | .atom c, m, _, h, ho, l, m', hl => by
    cases hl
    exact ⟨ho.newSingleton _, fun c hc => ⟨_, List.mem_singleton.1 hc⟩⟩
  | .epsilon, m, _, h, ho, l, m', hl => by
    cases hl
    exact ⟨ho.newAtom trivial, fun c hc => ⟨_, List.mem_singleton.1 hc⟩⟩
  | .plus e, m, he, h, ho, l, m', hl => by
    cases h1 : e.toDNF m with
    | error x => simp [TRE.toDNF, h1, bind, Except.bind] at hl
    | ok r =>
      obtain ⟨l1, m1⟩ := r
      have k := toDNF_post e m h l1 m1 h1
      obtain ⟨k1, k2⟩ := toDNF_ordered e m he h ho l1 m1 h1
      simp only [TRE.toDNF, h1, bind, Except.bind] at hl
      cases hl
      refine ⟨(k1.newDnf fun c hc => ?_).newAtom (Nat.lt_succ_self _ : m1.next < m1.next + 1), fun c hc => ⟨_, List.mem_singleton.1 hc⟩⟩
      obtain ⟨a, rfl⟩ := k2 c hc
      exact ⟨a, rfl, k.below _ hc a (List.mem_singleton.2 rfl)⟩
  | .concat e f, m, he, h, ho, l, m', hl => by
    cases h1 : e.toDNF m with
    | error x => simp [TRE.toDNF, h1, bind, Except.bind] at hl
    | ok r =>
      obtain ⟨l1, m1⟩ := r
      have k := toDNF_post e m h l1 m1 h1
      obtain ⟨k1, k2⟩ := toDNF_ordered e m he.1 h ho l1 m1 h1
      cases h2 : f.toDNF m1 with
      | error x => simp [TRE.toDNF, h1, h2, bind, Except.bind] at hl
      | ok r =>
        obtain ⟨l2, m2⟩ := r
        have k' := toDNF_post f m1 k.good l2 m2 h2
        obtain ⟨k3, k4⟩ := toDNF_ordered f m1 he.2 k.good k1 l2 m2 h2
        simp only [TRE.toDNF, h1, h2, bind, Except.bind] at hl
        split at hl
        · cases hl
        · next r hr =>
          cases hl
          have := mapM_inv (P := fun m => Good m ∧ Ordered m ∧ Ext m2 m) (Q := fun c : List Nat => ∃ a, c = [a]) (pairs l1 l2) m2
            ⟨k'.good, k3, Ext.rfl' m2⟩ (fun p hp m hP t m' ht => by
              obtain ⟨hp1, hp2⟩ := mem_pairs.1 hp
              obtain ⟨a, ha⟩ := k2 _ hp1
              obtain ⟨b, hb⟩ := k4 _ hp2
              have e1 : pairs p.1 p.2 = [(a, b)] := by rw [ha, hb]; rfl
              rw [e1] at ht
              obtain ⟨c, rfl, hc⟩ := mapM_one ht
              have ex := k'.ext.trans hP.2.2
              have b1 : a < m1.next := k.below _ hp1 a (by rw [ha]; exact List.mem_singleton.2 rfl)
              have b2 : b < m2.next := k'.below _ hp2 b (by rw [hb]; exact List.mem_singleton.2 rfl)
              have n1 : m.atom a ≠ .moved := by
                rw [ex.atom a b1]; exact k.nomoved _ hp1 a (by rw [ha]; exact List.mem_singleton.2 rfl)
              have n2 : m.atom b ≠ .moved := by
                rw [hP.2.2.atom b b2]; exact k'.nomoved _ hp2 b (by rw [hb]; exact List.mem_singleton.2 rfl)
              obtain ⟨g1, g2, _⟩ := mkConcat_post hP.1 (lt_of_lt_of_le b1 ex.next) (lt_of_lt_of_le b2 hP.2.2.next) n1 n2 hc
              exact ⟨⟨g1, mkConcat_ordered hP.1 hP.2.1 (lt_of_lt_of_le b1 ex.next) (lt_of_lt_of_le b2 hP.2.2.next) n1 n2 hc,
                hP.2.2.trans g2⟩, c, rfl⟩) _ _ hr
          exact ⟨this.1.2.1, fun c hc => this.2 c (List.mem_filter.1 hc).1⟩
  | .disj e f, m, he, h, ho, l, m', hl => by
    cases h1 : e.toDNF m with
    | error x => simp [TRE.toDNF, h1, bind, Except.bind] at hl
    | ok r =>
      obtain ⟨l1, m1⟩ := r
      have k := toDNF_post e m h l1 m1 h1
      obtain ⟨k1, k2⟩ := toDNF_ordered e m he.1 h ho l1 m1 h1
      cases h2 : f.toDNF m1 with
      | error x => simp [TRE.toDNF, h1, h2, bind, Except.bind] at hl
      | ok r =>
        obtain ⟨l2, m2⟩ := r
        obtain ⟨k3, k4⟩ := toDNF_ordered f m1 he.2 k.good k1 l2 m2 h2
        simp only [TRE.toDNF, h1, h2, bind, Except.bind] at hl
        cases hl
        exact ⟨k3, fun c hc => (List.mem_append.1 hc).elim (k2 c) (k4 c)⟩
  | .conj e f, m, he, h, ho, l, m', hl => he.elim
  | .within e I, m, he, h, ho, l, m', hl => by
    cases h1 : e.toDNF m with
    | error x => simp [TRE.toDNF, h1, bind, Except.bind] at hl
    | ok r =>
      obtain ⟨l1, m1⟩ := r
      have k := toDNF_post e m h l1 m1 h1
      obtain ⟨k1, k2⟩ := toDNF_ordered e m he h ho l1 m1 h1
      simp only [TRE.toDNF, h1, bind, Except.bind] at hl
      have := mapM_inv (P := fun m => Good m ∧ Ordered m ∧ Ext m1 m) (Q := fun c : List Nat => ∃ a, c = [a]) l1 m1
        ⟨k.good, k1, Ext.rfl' m1⟩ (fun c hc m hP t m' ht => by
          obtain ⟨a, rfl⟩ := k2 c hc
          obtain ⟨b, rfl, hb⟩ := mapM_one ht
          have b1 : a < m1.next := k.below _ hc a (List.mem_singleton.2 rfl)
          have n1 : m.atom a ≠ .moved := by
            rw [hP.2.2.atom a b1]; exact k.nomoved _ hc a (List.mem_singleton.2 rfl)
          have b2 := lt_of_lt_of_le b1 hP.2.2.next
          obtain ⟨m'', e1, _, g1, g2, _⟩ := mkWithin_spec hP.1 b2 n1 I
          have ho := mkWithin_ordered hP.2.1 b2 hb
          rw [e1] at hb
          cases hb
          exact ⟨⟨g1, ho, hP.2.2.trans g2⟩, _, rfl⟩) _ _ hl
      exact ⟨this.1.2.1, this.2⟩

theorem mapM_err' {α β : Type} {f : TMem K → α → Except Err (β × TMem K)} {E : Err → Prop} (hf : ∀ m x e, f m x = .error e → E e) :
    ∀ (l : List α) (m : TMem K) e, mapM f m l = .error e → E e
  | [], m, e, h => by cases h
  | x :: l, m, e, h => by
    unfold mapM at h
    cases h1 : f m x with
    | error e' => simp only [h1, Except.error.injEq] at h; rw [← h]; exact hf m x e' h1
    | ok r =>
      simp only [h1] at h
      cases h2 : mapM f r.2 l with
      | error e' => simp only [h2, Except.error.injEq] at h; rw [← h]; exact mapM_err' hf l r.2 e' h2
      | ok r' => simp [h2] at h

theorem toDNF_err : ∀ (e : TRE K) (m : TMem K) x, e.toDNF m = .error x → x = .ub
  | .atom c, m, x, h => by cases h
  | .epsilon, m, x, h => by cases h
  | .plus e, m, x, h => by
    cases h1 : e.toDNF m with
    | error y => simp only [TRE.toDNF, h1, bind, Except.bind, Except.error.injEq] at h; rw [← h]; exact toDNF_err e m y h1
    | ok r => simp [TRE.toDNF, h1, bind, Except.bind] at h
  | .concat e f, m, x, h => by
    cases h1 : e.toDNF m with
    | error y => simp only [TRE.toDNF, h1, bind, Except.bind, Except.error.injEq] at h; rw [← h]; exact toDNF_err e m y h1
    | ok r =>
      cases h2 : f.toDNF r.2 with
      | error y => simp only [TRE.toDNF, h1, h2, bind, Except.bind, Except.error.injEq] at h; rw [← h]; exact toDNF_err f r.2 y h2
      | ok r' =>
        simp only [TRE.toDNF, h1, h2, bind, Except.bind] at h
        split at h
        · next y hy =>
          cases h
          refine mapM_err' (E := fun x => x = .ub) (fun m p y hy => mapM_err' (E := fun x => x = .ub) (fun m q z hz => ?_) _ _ _ hy) _ _ _ hy
          unfold mkConcat at hz
          split at hz <;> cases hz
          rfl
        · cases h
  | .disj e f, m, x, h => by
    cases h1 : e.toDNF m with
    | error y => simp only [TRE.toDNF, h1, bind, Except.bind, Except.error.injEq] at h; rw [← h]; exact toDNF_err e m y h1
    | ok r =>
      cases h2 : f.toDNF r.2 with
      | error y => simp only [TRE.toDNF, h1, h2, bind, Except.bind, Except.error.injEq] at h; rw [← h]; exact toDNF_err f r.2 y h2
      | ok r' => simp [TRE.toDNF, h1, h2, bind, Except.bind] at h
  | .conj e f, m, x, h => by
    cases h1 : e.toDNF m with
    | error y => simp only [TRE.toDNF, h1, bind, Except.bind, Except.error.injEq] at h; rw [← h]; exact toDNF_err e m y h1
    | ok r =>
      cases h2 : f.toDNF r.2 with
      | error y => simp only [TRE.toDNF, h1, h2, bind, Except.bind, Except.error.injEq] at h; rw [← h]; exact toDNF_err f r.2 y h2
      | ok r' => simp [TRE.toDNF, h1, h2, bind, Except.bind] at h
  | .within e I, m, x, h => by
    cases h1 : e.toDNF m with
    | error y => simp only [TRE.toDNF, h1, bind, Except.bind, Except.error.injEq] at h; rw [← h]; exact toDNF_err e m y h1
    | ok r =>
      simp only [TRE.toDNF, h1, bind, Except.bind] at h
      refine mapM_err' (E := fun x => x = .ub) (fun m p y hy => mapM_err' (E := fun x => x = .ub) (fun m q z hz => ?_) _ _ _ hy) _ _ _ h
      unfold mkWithin at hz
      split at hz <;> cases hz
      rfl

/-- Decisions are not set by the constructors. -/
def NoDec (m : TMem K) : Prop := (∀ a, m.adec a = none) ∧ ∀ d, m.ddec d = none

theorem mapM_noDec {α β : Type} {f : TMem K → α → Except Err (β × TMem K)} (hf : ∀ m x y m', f m x = .ok (y, m') → SameDec m m') :
    ∀ (l : List α) (m : TMem K) ys m', mapM f m l = .ok (ys, m') → SameDec m m'
  | [], m, ys, m', h => by cases h; exact .refl m
  | x :: l, m, ys, m', h => by
    unfold mapM at h
    cases h1 : f m x with
    | error e' => simp [h1] at h
    | ok r =>
      simp only [h1] at h
      cases h2 : mapM f r.2 l with
      | error e' => simp [h2] at h
      | ok r' =>
        simp only [h2, Except.ok.injEq, Prod.mk.injEq] at h
        rw [← h.2]
        exact (hf m x r.1 r.2 h1).trans (mapM_noDec hf l r.2 r'.1 r'.2 h2)

theorem toDNF_sameDec : ∀ (e : TRE K) (m : TMem K) l m', e.toDNF m = .ok (l, m') → SameDec m m'
  | .atom c, m, l, m', h => by cases h; exact ⟨rfl, rfl⟩
  | .epsilon, m, l, m', h => by cases h; exact ⟨rfl, rfl⟩
  | .plus e, m, l, m', h => by
    cases h1 : e.toDNF m with
    | error y => simp [TRE.toDNF, h1, bind, Except.bind] at h
    | ok r =>
      have k := toDNF_sameDec e m r.1 r.2 h1
      simp only [TRE.toDNF, h1, bind, Except.bind] at h
      cases h
      exact ⟨k.1, k.2⟩
  | .concat e f, m, l, m', h => by
    cases h1 : e.toDNF m with
    | error y => simp [TRE.toDNF, h1, bind, Except.bind] at h
    | ok r =>
      have k := toDNF_sameDec e m r.1 r.2 h1
      cases h2 : f.toDNF r.2 with
      | error y => simp [TRE.toDNF, h1, h2, bind, Except.bind] at h
      | ok r' =>
        have k' := toDNF_sameDec f r.2 r'.1 r'.2 h2
        simp only [TRE.toDNF, h1, h2, bind, Except.bind] at h
        split at h
        · cases h
        · next y hy =>
          cases h
          refine (k.trans k').trans (mapM_noDec (fun m p y m' hy => mapM_noDec (fun m q z m' hz => ?_) _ _ _ _ hy) _ _ _ _ hy)
          unfold mkConcat at hz
          split at hz <;> cases hz <;> exact ⟨rfl, rfl⟩
  | .disj e f, m, l, m', h => by
    cases h1 : e.toDNF m with
    | error y => simp [TRE.toDNF, h1, bind, Except.bind] at h
    | ok r =>
      have k := toDNF_sameDec e m r.1 r.2 h1
      cases h2 : f.toDNF r.2 with
      | error y => simp [TRE.toDNF, h1, h2, bind, Except.bind] at h
      | ok r' =>
        have k' := toDNF_sameDec f r.2 r'.1 r'.2 h2
        simp only [TRE.toDNF, h1, h2, bind, Except.bind] at h
        cases h
        exact k.trans k'
  | .conj e f, m, l, m', h => by
    cases h1 : e.toDNF m with
    | error y => simp [TRE.toDNF, h1, bind, Except.bind] at h
    | ok r =>
      have k := toDNF_sameDec e m r.1 r.2 h1
      cases h2 : f.toDNF r.2 with
      | error y => simp [TRE.toDNF, h1, h2, bind, Except.bind] at h
      | ok r' =>
        have k' := toDNF_sameDec f r.2 r'.1 r'.2 h2
        simp only [TRE.toDNF, h1, h2, bind, Except.bind] at h
        cases h
        exact k.trans k'
  | .within e I, m, l, m', h => by
    cases h1 : e.toDNF m with
    | error y => simp [TRE.toDNF, h1, bind, Except.bind] at h
    | ok r =>
      have k := toDNF_sameDec e m r.1 r.2 h1
      simp only [TRE.toDNF, h1, bind, Except.bind] at h
      refine k.trans (mapM_noDec (fun m p y m' hy => mapM_noDec (fun m q z m' hz => ?_) _ _ _ _ hy) _ _ _ _ h)
      unfold mkWithin at hz
      split at hz <;> cases hz <;> exact ⟨rfl, rfl⟩

theorem toDNF_decOk {e : TRE K} {l : List (List Nat)} {m : TMem K} (h : e.toDNF TMem.empty = .ok (l, m)) : DecOk m := by
  have k := toDNF_sameDec e _ l m h
  exact ⟨fun a d hd => by rw [k.1] at hd; simp [empty] at hd, fun a d hd => by rw [k.2] at hd; simp [empty] at hd⟩

theorem normalForm_known (e : TRE K) (fuel : Nat) : Yields Known (fun _ => True) (e.normalForm fuel) := by
  unfold TRE.normalForm
  cases h : e.toDNF TMem.empty with
  | error x => exact ub_known (toDNF_err e _ x h)
  | ok r =>
    have hd : DecOk (r.2.newDnf r.1) := decOk_of_eq (toDNF_decOk h) rfl rfl
    have := normDnf_known fuel (r.2.newDnf r.1) r.2.next hd
    simp only
    cases hn : normDnf fuel (r.2.newDnf r.1) r.2.next with
    | error x => rw [hn] at this; exact this
    | ok m' => trivial

theorem normalForm_ends (e : TRE K) (he : e.ConjFree) : ∃ N, ∀ fuel, N ≤ fuel → Yields Ends (fun _ => True) (e.normalForm fuel) := by
  cases h : e.toDNF TMem.empty with
  | error x =>
    refine ⟨0, fun fuel _ => ?_⟩
    unfold TRE.normalForm
    rw [h]
    exact ub_ends (toDNF_err e _ x h)
  | ok r =>
    obtain ⟨l, m⟩ := r
    have k := toDNF_post e _ good_empty l m h
    obtain ⟨k1, k2⟩ := toDNF_ordered e _ he good_empty ordered_empty l m h
    have ho : Ordered (m.newDnf l) := k1.newDnf fun c hc => by
      obtain ⟨a, rfl⟩ := k2 c hc
      exact ⟨a, rfl, k.below _ hc a (List.mem_singleton.2 rfl)⟩
    have hr := ho.ranked (fresh_newDnf k.good.fresh l)
    refine ⟨m.next + 4, fun fuel hf => ?_⟩
    have := normDnf_rk fuel (m.newDnf l) m.next ⟨hr, decOk_of_eq (toDNF_decOk h) rfl rfl⟩ (by
      have : m.next < (m.newDnf l).next := Nat.lt_succ_self _
      rw [rk, if_pos this]
      omega)
    unfold TRE.normalForm
    rw [h]
    simp only
    cases hn : normDnf fuel (m.newDnf l) m.next with
    | error x => rw [hn] at this; exact this
    | ok m' => trivial

end Verif.TMem
