import Verif.Lemmas.NormalFormTerm

/-!
# The result of the normal form does not depend on the fuel; conjunctions of more than one expression
-/

namespace Verif.TMem

set_option linter.unusedSectionVars false

variable {K : Type} [Field K] [LinearOrder K] [FloorRing K]

/-- `r'` is `r`, unless `r` ran out of fuel. -/
def Mono {α : Type} (r r' : Except Err α) : Prop := r = .error .fuel ∨ r' = r

theorem Mono.rfl' {α : Type} (r : Except Err α) : Mono r r := .inr rfl

theorem mono_forM {α : Type} {f g : TMem K → α → Except Err (TMem K)} (h : ∀ m x, Mono (f m x) (g m x)) :
    ∀ (l : List α) m, Mono (forM f m l) (forM g m l)
  | [], m => .inr rfl
  | x :: l, m => by
    rcases h m x with e | e
    · left; simp [forM, e]
    · unfold forM
      rw [e]
      cases f m x with
      | error y => exact .inr rfl
      | ok m1 => exact mono_forM h l m1

theorem mono_allM {α : Type} {f g : TMem K → α → Except Err (Bool × TMem K)} (h : ∀ m x, Mono (f m x) (g m x)) :
    ∀ (l : List α) m, Mono (allM f m l) (allM g m l)
  | [], m => .inr rfl
  | x :: l, m => by
    rcases h m x with e | e
    · left; simp [allM, e]
    · unfold allM
      rw [e]
      cases f m x with
      | error y => exact .inr rfl
      | ok r => 
        obtain ⟨b, m1⟩ := r
        cases b
        · exact .inr rfl
        · exact mono_allM h l m1

theorem mono_filterM {α : Type} {f g : TMem K → α → Except Err (Bool × TMem K)} (h : ∀ m x, Mono (f m x) (g m x)) :
    ∀ (l : List α) m, Mono (filterM f m l) (filterM g m l)
  | [], m => .inr rfl
  | x :: l, m => by
    rcases h m x with e | e
    · left; simp [filterM, e]
    · unfold filterM
      rw [e]
      cases f m x with
      | error y => exact .inr rfl
      | ok r => 
        obtain ⟨b, m1⟩ := r
        rcases mono_filterM h l m1 with e | e
        · left; simp [e]
        · right; simp [e]

theorem mono_concatLoop {f g : TMem K → Nat → Except Err (TMem K)} (h : ∀ m x, Mono (f m x) (g m x)) :
    ∀ (l : List Nat) m dec, Mono (concatLoop f m dec l) (concatLoop g m dec l)
  | [], m, dec => .inr rfl
  | x :: l, m, dec => by
    rcases h m x with e | e
    · left; simp [concatLoop, e]
    · unfold concatLoop
      rw [e]
      cases f m x with
      | error y => exact .inr rfl
      | ok m1 =>
        simp only
        cases m1.decisionOf x with
        | error y => exact .inr rfl
        | ok i => exact mono_concatLoop h l m1 _

mutual

theorem mono_snfAtom (c : Alphabet) : ∀ (fuel : Nat) (m : TMem K) a, Mono (snfAtom c fuel m a) (snfAtom c (fuel + 1) m a)
  | 0, m, a => .inl rfl
  | fuel + 1, m, a => by
    rw [snfAtom, snfAtom]
    split
    · exact .inr rfl
    · exact .inr rfl
    · exact .inr rfl
    · next l _ =>
      rcases mono_allM (mono_snfAtom c fuel) l m with e | e
      · left; simp [e]
      · right; rw [e]
    · next d _ =>
      rcases mono_snfDnf c fuel m d with e | e
      · left; simp [e]
      · right; rw [e]
    · next b I _ =>
      rcases mono_snfAtom c fuel m b with e | e
      · left; simp [e]
      · right; rw [e]

theorem mono_snfDnf (c : Alphabet) : ∀ (fuel : Nat) (m : TMem K) d, Mono (snfDnf c fuel m d) (snfDnf c (fuel + 1) m d)
  | 0, m, d => .inl rfl
  | fuel + 1, m, d => by
    rw [snfDnf, snfDnf]
    rcases mono_filterM (fun m l => mono_allM (mono_snfAtom c fuel) l m) (m.dnf d) m with e | e
    · left; simp [e]
    · right; rw [e]

end

theorem mono_conjLoop (m : TMem K) (y : Nat) : ∀ fuel d, Mono (m.conjLoop y fuel d) (m.conjLoop y (fuel + 1) d)
  | 0, d => .inl rfl
  | fuel + 1, d => by
    rw [conjLoop, conjLoop]
    cases m.decisionOf y with
    | error e => exact .inr rfl
    | ok i => exact mono_conjLoop m y fuel _

theorem mono_conjDecision (m : TMem K) (fuel : Nat) : ∀ c, Mono (m.conjDecision fuel c) (m.conjDecision (fuel + 1) c)
  | [] => .inr rfl
  | [a] => .inr rfl
  | a :: y :: _ => by
    simp only [conjDecision]
    cases m.decisionOf a with
    | error e => exact .inr rfl
    | ok d => exact mono_conjLoop m y fuel d

theorem mono_conjDecisions (m : TMem K) (fuel : Nat) : ∀ l, Mono (m.conjDecisions fuel l) (m.conjDecisions (fuel + 1) l)
  | [] => .inr rfl
  | c :: l => by
    unfold conjDecisions
    rcases mono_conjDecision m fuel c with e | e
    · left; simp [e]
    · rw [e]
      cases m.conjDecision fuel c with
      | error e => exact .inr rfl
      | ok d =>
        rcases mono_conjDecisions m fuel l with e | e
        · left; simp [e]
        · right; simp [e]

theorem mono_finishDnf (fuel : Nat) (m : TMem K) (d : Nat) : Mono (finishDnf fuel m d) (finishDnf (fuel + 1) m d) := by
  unfold finishDnf
  split
  · exact .inr rfl
  · exact .inr rfl
  · rcases mono_conjDecisions m fuel (m.dnf d) with e | e
    · left; simp [e]
    · right; rw [e]

theorem mono_finishPlus (fuel : Nat) (m : TMem K) (a d : Nat) : Mono (finishPlus fuel m a d) (finishPlus (fuel + 1) m a d) := by
  unfold finishPlus
  split
  · exact .inr rfl
  · simp only
    split
    · exact .inr rfl
    · split
      · next c _ =>
        rcases mono_snfAtom c fuel (m.setADec a _) a with e | e
        · left; rw [e]
        · right; rw [e]
      · exact .inr rfl

mutual

theorem mono_normAtom : ∀ (fuel : Nat) (m : TMem K) a, Mono (normAtom fuel m a) (normAtom (fuel + 1) m a)
  | 0, m, a => .inl rfl
  | fuel + 1, m, a => by
    rw [normAtom, normAtom]
    split
    · exact .inr rfl
    · exact .inr rfl
    · exact .inr rfl
    · next l _ =>
      rcases mono_concatLoop (mono_normAtom fuel) l m ⟨true, [0]⟩ with e | e
      · left; simp [e]
      · right; rw [e]
    · next d _ =>
      rcases mono_normDnf fuel m d with e | e
      · left; simp [e]
      · rw [e]
        cases normDnf fuel m d with
        | error e => exact .inr rfl
        | ok m1 => exact mono_finishPlus fuel m1 a d
    · next b I _ =>
      rcases mono_normAtom fuel m b with e | e
      · left; simp [e]
      · right; rw [e]

theorem mono_normDnf : ∀ (fuel : Nat) (m : TMem K) d, Mono (normDnf fuel m d) (normDnf (fuel + 1) m d)
  | 0, m, d => .inl rfl
  | fuel + 1, m, d => by
    rw [normDnf, normDnf]
    rcases mono_forM (fun m l => mono_forM (mono_normAtom fuel) l m) (m.dnf d) m with e | e
    · left; simp [e]
    · rw [e]
      cases forM (forM (normAtom fuel)) m (m.dnf d) with
      | error e => exact .inr rfl
      | ok m1 => exact mono_finishDnf fuel m1 d

end

theorem mono_normalForm (e : TRE K) (fuel : Nat) : Mono (e.normalForm fuel) (e.normalForm (fuel + 1)) := by
  unfold TRE.normalForm
  split
  · exact .inr rfl
  · next l m _ =>
    rcases mono_normDnf fuel (m.newDnf l) m.next with e | e
    · left; simp [e]
    · right; rw [e]

theorem normalForm_stable {e : TRE K} {fuel : Nat} (h : e.normalForm fuel ≠ .error .fuel) : ∀ k, e.normalForm (fuel + k) = e.normalForm fuel
  | 0 => rfl
  | k + 1 => by
    have ih := normalForm_stable h k
    rcases mono_normalForm e (fuel + k) with x | x
    · rw [ih] at x; exact absurd x h
    · rw [← Nat.add_assoc, x, ih]

/-! ## Conjunctions -/

theorem mapM_exists {α β : Type} {f : TMem K → α → Except Err (β × TMem K)} {P : α → Prop} {Q : β → Prop}
    (hf : ∀ m x y m', P x → f m x = .ok (y, m') → Q y) :
    ∀ (l : List α) (m : TMem K) ys m', mapM f m l = .ok (ys, m') → (∃ x ∈ l, P x) → ∃ y ∈ ys, Q y
  | [], m, ys, m', h, hx => by obtain ⟨x, hx, _⟩ := hx; simp at hx
  | x :: l, m, ys, m', h, hx => by
    unfold mapM at h
    cases h1 : f m x with
    | error e' => simp [h1] at h
    | ok r =>
      simp only [h1] at h
      cases h2 : mapM f r.2 l with
      | error e' => simp [h2] at h
      | ok r' =>
        simp only [h2, Except.ok.injEq, Prod.mk.injEq] at h
        rw [← h.1]
        obtain ⟨x', hx', hp⟩ := hx
        rcases List.mem_cons.1 hx' with rfl | hx'
        · exact ⟨r.1, List.mem_cons_self .., hf m x' r.1 r.2 hp h1⟩
        · obtain ⟨y, hy, hq⟩ := mapM_exists hf l r.2 r'.1 r'.2 h2 ⟨x', hx', hp⟩
          exact ⟨y, List.mem_cons_of_mem _ hy, hq⟩

theorem mapM_length {α β : Type} {f : TMem K → α → Except Err (β × TMem K)} :
    ∀ (l : List α) (m : TMem K) ys m', mapM f m l = .ok (ys, m') → ys.length = l.length
  | [], m, ys, m', h => by cases h; rfl
  | x :: l, m, ys, m', h => by
    unfold mapM at h
    cases h1 : f m x with
    | error e' => simp [h1] at h
    | ok r =>
      simp only [h1] at h
      cases h2 : mapM f r.2 l with
      | error e' => simp [h2] at h
      | ok r' =>
        simp only [h2, Except.ok.injEq, Prod.mk.injEq] at h
        rw [← h.1, List.length_cons, List.length_cons, mapM_length l r.2 r'.1 r'.2 h2]

theorem pairs_length {α β : Type} (l : List α) (r : List β) : (pairs l r).length = l.length * r.length := by
  induction l with
  | nil => simp [pairs]
  | cons x l ih =>
    have : pairs (x :: l) r = (r.map fun y => (x, y)) ++ pairs l r := rfl
    rw [this, List.length_append, ih, List.length_map, List.length_cons, Nat.succ_mul, Nat.add_comm]

/-- There is a conjunction, and none is empty. -/
def Shape (l : List (List Nat)) : Prop := l ≠ [] ∧ ∀ c ∈ l, c ≠ []

/-- Some conjunction has two or more elements. -/
def Big (l : List (List Nat)) : Prop := ∃ c ∈ l, 2 ≤ c.length

theorem toDNF_shape : ∀ (e : TRE K) (m : TMem K) l m', e.toDNF m = .ok (l, m') → Shape l
  | .atom c, m, l, m', h => by cases h; exact ⟨by simp, by simp⟩
  | .epsilon, m, l, m', h => by cases h; exact ⟨by simp, by simp⟩
  | .plus e, m, l, m', h => by
    cases h1 : e.toDNF m with
    | error y => simp [TRE.toDNF, h1, bind, Except.bind] at h
    | ok r =>
      simp only [TRE.toDNF, h1, bind, Except.bind] at h
      cases h
      exact ⟨by simp, by simp⟩
  | .concat e f, m, l, m', h => by
    cases h1 : e.toDNF m with
    | error y => simp [TRE.toDNF, h1, bind, Except.bind] at h
    | ok r =>
      have k := toDNF_shape e m r.1 r.2 h1
      cases h2 : f.toDNF r.2 with
      | error y => simp [TRE.toDNF, h1, h2, bind, Except.bind] at h
      | ok r' =>
        have k' := toDNF_shape f r.2 r'.1 r'.2 h2
        simp only [TRE.toDNF, h1, h2, bind, Except.bind] at h
        split at h
        · cases h
        · next y hy =>
          cases h
          have hq : ∃ c ∈ y.1, c ≠ [] := by
            refine mapM_exists (P := fun p => p.1 ≠ [] ∧ p.2 ≠ []) (fun m p t m' hp ht => ?_) _ _ _ _ hy ?_
            · have := mapM_length _ _ _ _ ht
              rw [pairs_length] at this
              have a1 := List.length_pos_iff.2 hp.1
              have a2 := List.length_pos_iff.2 hp.2
              rw [← List.length_pos_iff, this]
              exact Nat.mul_pos a1 a2
            · obtain ⟨x, hx⟩ := List.exists_mem_of_ne_nil _ k.1
              obtain ⟨z, hz⟩ := List.exists_mem_of_ne_nil _ k'.1
              exact ⟨(x, z), mem_pairs.2 ⟨hx, hz⟩, k.2 x hx, k'.2 z hz⟩
          obtain ⟨c, hc, hn⟩ := hq
          exact ⟨List.ne_nil_of_mem (List.mem_filter.2 ⟨hc, by cases c <;> simp_all⟩), fun c hc => by
            have := (List.mem_filter.1 hc).2
            rintro rfl; simp at this⟩
  | .disj e f, m, l, m', h => by
    cases h1 : e.toDNF m with
    | error y => simp [TRE.toDNF, h1, bind, Except.bind] at h
    | ok r =>
      have k := toDNF_shape e m r.1 r.2 h1
      cases h2 : f.toDNF r.2 with
      | error y => simp [TRE.toDNF, h1, h2, bind, Except.bind] at h
      | ok r' =>
        have k' := toDNF_shape f r.2 r'.1 r'.2 h2
        simp only [TRE.toDNF, h1, h2, bind, Except.bind] at h
        cases h
        exact ⟨by simp [k.1], fun c hc => (List.mem_append.1 hc).elim (k.2 c) (k'.2 c)⟩
  | .conj e f, m, l, m', h => by
    cases h1 : e.toDNF m with
    | error y => simp [TRE.toDNF, h1, bind, Except.bind] at h
    | ok r =>
      have k := toDNF_shape e m r.1 r.2 h1
      cases h2 : f.toDNF r.2 with
      | error y => simp [TRE.toDNF, h1, h2, bind, Except.bind] at h
      | ok r' =>
        have k' := toDNF_shape f r.2 r'.1 r'.2 h2
        simp only [TRE.toDNF, h1, h2, bind, Except.bind] at h
        cases h
        obtain ⟨x, hx⟩ := List.exists_mem_of_ne_nil _ k.1
        obtain ⟨z, hz⟩ := List.exists_mem_of_ne_nil _ k'.1
        refine ⟨List.ne_nil_of_mem (a := x ++ z) (List.mem_filter.2 ⟨List.mem_map.2 ⟨(x, z), mem_pairs.2 ⟨hx, hz⟩, rfl⟩, ?_⟩), fun c hc => ?_⟩
        · simp [k.2 x hx]
        · have := (List.mem_filter.1 hc).2
          rintro rfl; simp at this
  | .within e I, m, l, m', h => by
    cases h1 : e.toDNF m with
    | error y => simp [TRE.toDNF, h1, bind, Except.bind] at h
    | ok r =>
      have k := toDNF_shape e m r.1 r.2 h1
      simp only [TRE.toDNF, h1, bind, Except.bind] at h
      refine ⟨?_, ?_⟩
      · rw [← List.length_pos_iff, mapM_length _ _ _ _ h]
        exact List.length_pos_iff.2 k.1
      · exact (mapM_inv (P := fun _ => True) (Q := fun c : List Nat => c ≠ []) r.1 r.2 trivial (fun c hc m _ t m' ht => ⟨trivial, by
          rw [← List.length_pos_iff, mapM_length _ _ _ _ ht]
          exact List.length_pos_iff.2 (k.2 c hc)⟩) _ _ h).2

theorem toDNF_big : ∀ (e : TRE K) (m : TMem K) l m', ¬ e.NoConj → e.toDNF m = .ok (l, m') → Big l
  | .atom c, m, l, m', he, h => absurd trivial he
  | .epsilon, m, l, m', he, h => absurd trivial he
  | .plus e, m, l, m', he, h => absurd trivial he
  | .concat e f, m, l, m', he, h => by
    cases h1 : e.toDNF m with
    | error y => simp [TRE.toDNF, h1, bind, Except.bind] at h
    | ok r =>
      have k := toDNF_shape e m r.1 r.2 h1
      cases h2 : f.toDNF r.2 with
      | error y => simp [TRE.toDNF, h1, h2, bind, Except.bind] at h
      | ok r' =>
        have k' := toDNF_shape f r.2 r'.1 r'.2 h2
        have big : ∃ p ∈ pairs r.1 r'.1, 2 ≤ p.1.length * p.2.length := by
          obtain ⟨x, hx⟩ := List.exists_mem_of_ne_nil _ k.1
          obtain ⟨z, hz⟩ := List.exists_mem_of_ne_nil _ k'.1
          by_cases h1' : e.NoConj
          · have h2' : ¬ f.NoConj := fun h => he ⟨h1', h⟩
            obtain ⟨c, hc, hn⟩ := toDNF_big f r.2 r'.1 r'.2 h2' h2
            have := List.length_pos_iff.2 (k.2 x hx)
            exact ⟨(x, c), mem_pairs.2 ⟨hx, hc⟩, by show 2 ≤ x.length * c.length; nlinarith⟩
          · obtain ⟨c, hc, hn⟩ := toDNF_big e m r.1 r.2 h1' h1
            have := List.length_pos_iff.2 (k'.2 z hz)
            exact ⟨(c, z), mem_pairs.2 ⟨hc, hz⟩, by show 2 ≤ c.length * z.length; nlinarith⟩
        simp only [TRE.toDNF, h1, h2, bind, Except.bind] at h
        split at h
        · cases h
        · next y hy =>
          cases h
          obtain ⟨c, hc, hn⟩ := mapM_exists (P := fun p => 2 ≤ p.1.length * p.2.length) (Q := fun c : List Nat => 2 ≤ c.length)
            (fun m p t m' hp ht => by
              rw [mapM_length _ _ _ _ ht, pairs_length]; exact hp) _ _ _ _ hy big
          refine ⟨c, List.mem_filter.2 ⟨hc, ?_⟩, hn⟩
          cases c <;> simp_all
  | .disj e f, m, l, m', he, h => by
    cases h1 : e.toDNF m with
    | error y => simp [TRE.toDNF, h1, bind, Except.bind] at h
    | ok r =>
      cases h2 : f.toDNF r.2 with
      | error y => simp [TRE.toDNF, h1, h2, bind, Except.bind] at h
      | ok r' =>
        have : Big r.1 ∨ Big r'.1 := by
          by_cases h1' : e.NoConj
          · exact .inr (toDNF_big f r.2 r'.1 r'.2 (fun h => he ⟨h1', h⟩) h2)
          · exact .inl (toDNF_big e m r.1 r.2 h1' h1)
        simp only [TRE.toDNF, h1, h2, bind, Except.bind] at h
        cases h
        rcases this with ⟨c, hc, hn⟩ | ⟨c, hc, hn⟩
        · exact ⟨c, List.mem_append_left _ hc, hn⟩
        · exact ⟨c, List.mem_append_right _ hc, hn⟩
  | .conj e f, m, l, m', he, h => by
    cases h1 : e.toDNF m with
    | error y => simp [TRE.toDNF, h1, bind, Except.bind] at h
    | ok r =>
      have k := toDNF_shape e m r.1 r.2 h1
      cases h2 : f.toDNF r.2 with
      | error y => simp [TRE.toDNF, h1, h2, bind, Except.bind] at h
      | ok r' =>
        have k' := toDNF_shape f r.2 r'.1 r'.2 h2
        simp only [TRE.toDNF, h1, h2, bind, Except.bind] at h
        cases h
        obtain ⟨x, hx⟩ := List.exists_mem_of_ne_nil _ k.1
        obtain ⟨z, hz⟩ := List.exists_mem_of_ne_nil _ k'.1
        refine ⟨x ++ z, List.mem_filter.2 ⟨List.mem_map.2 ⟨(x, z), mem_pairs.2 ⟨hx, hz⟩, rfl⟩, by simp [k.2 x hx]⟩, ?_⟩
        have := List.length_pos_iff.2 (k.2 x hx)
        have := List.length_pos_iff.2 (k'.2 z hz)
        rw [List.length_append]; omega
  | .within e I, m, l, m', he, h => by
    cases h1 : e.toDNF m with
    | error y => simp [TRE.toDNF, h1, bind, Except.bind] at h
    | ok r =>
      have k := toDNF_big e m r.1 r.2 he h1
      simp only [TRE.toDNF, h1, bind, Except.bind] at h
      exact mapM_exists (P := fun c : List Nat => 2 ≤ c.length) (Q := fun c : List Nat => 2 ≤ c.length)
        (fun m p t m' hp ht => by rw [mapM_length _ _ _ _ ht]; exact hp) _ _ _ _ h k

theorem conjLoop_not_ok (m : TMem K) (y : Nat) : ∀ fuel d v, m.conjLoop y fuel d ≠ .ok v
  | 0, d, v => by simp [conjLoop]
  | fuel + 1, d, v => by
    rw [conjLoop]
    cases m.decisionOf y with
    | error e => simp
    | ok i => exact conjLoop_not_ok m y fuel _ v

theorem conjDecisions_not_ok (m : TMem K) (fuel : Nat) : ∀ l, Big l → ∀ v, m.conjDecisions fuel l ≠ .ok v
  | [], h, v => by obtain ⟨c, hc, _⟩ := h; simp at hc
  | c :: l, h, v => by
    rw [conjDecisions]
    cases h1 : m.conjDecision fuel c with
    | error e => simp
    | ok d =>
      obtain ⟨c', hc, hn⟩ := h
      rcases List.mem_cons.1 hc with rfl | hc
      · match c', hn, h1 with
        | a :: y :: _, _, h1 =>
          unfold conjDecision at h1
          cases h2 : m.decisionOf a with
          | error e => simp [h2] at h1
          | ok d' =>
            simp only [h2] at h1
            exact absurd h1 (conjLoop_not_ok m y fuel d' d)
      · cases h2 : m.conjDecisions fuel l with
        | error e => simp [h2]
        | ok ds => exact absurd h2 (conjDecisions_not_ok m fuel l ⟨c', hc, hn⟩ ds)

/-- The list of the object `D` is `L`, and no repetition refers to it. -/
def Root (D : Nat) (L : List (List Nat)) (m : TMem K) : Prop := m.dnf D = L ∧ ∀ a, m.atom a ≠ .plus D

variable {D : Nat} {L : List (List Nat)}

theorem Root.of_eq {m m' : TMem K} (h : Root D L m) (h1 : m'.atom = m.atom) (h2 : m'.dnf = m.dnf) : Root D L m' :=
  ⟨h2 ▸ h.1, fun a => h1 ▸ h.2 a⟩

theorem Root.setAtom {m : TMem K} (h : Root D L m) (a : Nat) {n : ANode K} (hn : n ≠ .plus D) : Root D L (m.setAtom a n) := by
  refine ⟨h.1, fun b => ?_⟩
  simp only [TMem.setAtom, put]
  split
  · exact hn
  · exact h.2 b

theorem Root.newSingleton {m : TMem K} (h : Root D L m) (v) : Root D L (m.newSingleton v).2 := by
  refine ⟨h.1, fun b => ?_⟩
  simp only [TMem.newSingleton, newAtom, put]
  split
  · simp
  · exact h.2 b

/-- Any error. -/
abbrev AnyErr : Err → Prop := fun _ => True

theorem finishSNF_root {m : TMem K} (h : Root D L m) (c : Alphabet) {d : Nat} (hd : d ≠ D) (l : List (List Nat)) :
    Yields AnyErr (Root D L) (m.finishSNF c d l) := by
  unfold finishSNF
  cases m.unionIntervals l with
  | error e => trivial
  | ok I =>
    refine ⟨?_, (h.newSingleton (c, I)).2⟩
    simp only [setDnf, put, if_neg hd.symm]
    exact h.1

theorem finishPlusSNF_root {m : TMem K} (h : Root D L m) (a d : Nat) : Yields AnyErr (fun r => Root D L r.2) (m.finishPlusSNF a d) := by
  unfold finishPlusSNF
  split
  · split
    · next s _ =>
      cases Interval.plusAll (m.sing s).2 with
      | error e => trivial
      | ok I => exact (h.setAtom a (n := .singleton s) (by simp)).of_eq rfl rfl
    · trivial
  · trivial

theorem finishWithinSNF_root {m : TMem K} (h : Root D L m) (a b : Nat) (I : Interval K) :
    Yields AnyErr (fun r => Root D L r.2) (m.finishWithinSNF a b I) := by
  unfold finishWithinSNF
  split
  · next s _ => exact (h.setAtom a (n := .singleton s) (by simp)).of_eq rfl rfl
  · trivial

mutual

theorem snfAtom_root (c : Alphabet) : ∀ (fuel : Nat) (m : TMem K) (a : Nat), Root D L m →
    Yields AnyErr (fun r => Root D L r.2) (snfAtom c fuel m a)
  | 0, m, a, _ => trivial
  | fuel + 1, m, a, h => by
    have ha := h.2 a
    unfold snfAtom
    split
    · trivial
    · exact h
    · exact h
    · next l hl =>
      have h1 := allM_inv (E := AnyErr) (P := Root D L) (f := snfAtom c fuel) l m h fun x hx m hm => snfAtom_root c fuel m x hm
      cases he : allM (snfAtom c fuel) m l with
      | error e => trivial
      | ok r =>
        rw [he] at h1
        obtain ⟨b, m1⟩ := r
        cases b with
        | false => exact h1
        | true =>
          simp only
          cases hs : m1.sumIntervals [⟨.fin 0 true, .fin 0 true⟩] l with
          | error e => trivial
          | ok I => exact (h1.of_eq rfl rfl : Root D L (m1.newSing (c, I))).setAtom a (by simp)
    · next d hd =>
      rw [hd] at ha
      have h1 := snfDnf_root c fuel m d h (by rintro rfl; exact ha rfl)
      cases he : snfDnf c fuel m d with
      | error e => trivial
      | ok m1 => rw [he] at h1; exact finishPlusSNF_root h1 a d
    · next b I hb =>
      have h1 := snfAtom_root c fuel m b h
      cases he : snfAtom c fuel m b with
      | error e => trivial
      | ok r =>
        rw [he] at h1
        obtain ⟨t, m1⟩ := r
        cases t with
        | false => exact h1
        | true => exact finishWithinSNF_root h1 a b I

theorem snfDnf_root (c : Alphabet) : ∀ (fuel : Nat) (m : TMem K) (d : Nat), Root D L m → d ≠ D →
    Yields AnyErr (Root D L) (snfDnf c fuel m d)
  | 0, m, d, _, _ => trivial
  | fuel + 1, m, d, h, hd => by
    unfold snfDnf
    have h1 := filterM_inv (E := AnyErr) (P := Root D L) (f := allM (snfAtom c fuel)) (m.dnf d) m h
      fun l hl m' hm' => allM_inv (E := AnyErr) (P := Root D L) l m' hm' fun x hx m'' hm'' => snfAtom_root c fuel m'' x hm''
    cases he : filterM (allM (snfAtom c fuel)) m (m.dnf d) with
    | error e => trivial
    | ok r => rw [he] at h1; exact finishSNF_root h1.1 c hd r.1

end

theorem concatLoop_root {f : TMem K → Nat → Except Err (TMem K)} (hf : ∀ x m, Root D L m → Yields AnyErr (Root D L) (f m x)) :
    ∀ (l : List Nat) (m : TMem K) (dec : Decision), Root D L m → Yields AnyErr (fun r => Root D L r.2) (concatLoop f m dec l)
  | [], m, dec, hm => hm
  | x :: l, m, dec, hm => by
    have h := hf x m hm
    unfold concatLoop
    cases hx : f m x with
    | error e => trivial
    | ok m1 =>
      rw [hx] at h
      simp only [decisionOf]
      cases m1.adec x with
      | none => trivial
      | some i => exact concatLoop_root hf l m1 _ h

theorem finishConcat_root {m : TMem K} (hm : Root D L m) (a : Nat) (l : List Nat) (dec : Decision) :
    Yields AnyErr (Root D L) (m.finishConcat a l dec) := by
  unfold finishConcat
  cases l with
  | nil => exact (hm.setAtom a (n := .concat []) (by simp)).of_eq rfl rfl
  | cons x r =>
    have h := merge_inv r 0 m x
    simp only
    cases hg : merge 0 m x r with
    | error e => trivial
    | ok s =>
      rw [hg] at h
      obtain ⟨l', m1⟩ := s
      obtain ⟨h1, h2, h3, h4, h5⟩ := h
      have hm1 : Root D L m1 := hm.of_eq h2 h3
      have hn : m1.shorten l' ≠ .plus D := by
        unfold shorten
        split
        · next y => exact hm1.2 y
        · simp
      simp only
      split
      · next l'' heq =>
        rw [heq] at hn
        cases ha : anyM (plusMixed m1) l'' with
        | error e => trivial
        | ok b =>
          cases b with
          | true => trivial
          | false => exact (hm1.setAtom a hn).of_eq rfl rfl
      · exact (hm1.setAtom a hn).of_eq rfl rfl

theorem finishDnf_root (fuel : Nat) {m : TMem K} (hm : Root D L m) (d : Nat) : Yields AnyErr (Root D L) (finishDnf fuel m d) := by
  unfold finishDnf
  cases anyM (anyM m.atomMixed) (m.dnf d) with
  | error e => trivial
  | ok b =>
    cases b with
    | true => trivial
    | false =>
      simp only
      cases m.conjDecisions fuel (m.dnf d) with
      | error e => trivial
      | ok ds => cases ds with
        | nil => trivial
        | cons => exact hm.of_eq rfl rfl

theorem finishPlus_root {fuel : Nat} {m : TMem K} (hm : Root D L m) (a d : Nat) : Yields AnyErr (Root D L) (finishPlus fuel m a d) := by
  unfold finishPlus
  split
  · trivial
  · next v hv =>
    simp only
    split
    · trivial
    · split
      · next c _ =>
        have h := snfAtom_root c fuel (m.setADec a ⟨v.constant && (v.chars.length == 1 || (v.chars.length == 2 && v.hasEpsilon)), v.chars⟩) a
          (hm.of_eq rfl rfl)
        split
        · trivial
        · next b m1 he => rw [he] at h; exact h
      · exact hm.of_eq rfl rfl

theorem finishWithin_root {m : TMem K} (hm : Root D L m) (a b : Nat) (I : Interval K) : Yields AnyErr (Root D L) (m.finishWithin a b I) := by
  unfold finishWithin
  split
  · trivial
  · next v hv =>
    simp only
    split
    · next s _ => exact ((hm.setAtom b (n := .moved) (by simp)).setAtom a (n := .singleton s) (by simp)).of_eq rfl rfl
    · trivial
    · exact (hm.setAtom a (n := .epsilon) (by simp)).of_eq rfl rfl
    · split
      · trivial
      · exact hm.of_eq rfl rfl
    · exact hm.of_eq rfl rfl

mutual

theorem normAtom_root : ∀ (fuel : Nat) (m : TMem K) (a : Nat), Root D L m → Yields AnyErr (Root D L) (normAtom fuel m a)
  | 0, m, a, _ => trivial
  | fuel + 1, m, a, h => by
    unfold normAtom
    split
    · trivial
    · exact h.of_eq rfl rfl
    · exact h.of_eq rfl rfl
    · next l hl =>
      have h1 := concatLoop_root (f := normAtom fuel) (fun x m hm => normAtom_root fuel m x hm) l m ⟨true, [0]⟩ h
      cases hc : concatLoop (normAtom fuel) m ⟨true, [0]⟩ l with
      | error e => trivial
      | ok r => rw [hc] at h1; exact finishConcat_root h1 a l r.1
    · next d hd =>
      have h1 := normDnf_root fuel m d h
      cases hc : normDnf fuel m d with
      | error e => trivial
      | ok m1 => rw [hc] at h1; exact finishPlus_root h1 a d
    · next b I hb =>
      have h1 := normAtom_root fuel m b h
      cases hc : normAtom fuel m b with
      | error e => trivial
      | ok m1 => rw [hc] at h1; exact finishWithin_root h1 a b I

theorem normDnf_root : ∀ (fuel : Nat) (m : TMem K) (d : Nat), Root D L m → Yields AnyErr (Root D L) (normDnf fuel m d)
  | 0, m, d, _ => trivial
  | fuel + 1, m, d, h => by
    unfold normDnf
    have h1 := forM_inv (E := AnyErr) (P := Root D L) (f := forM (normAtom fuel)) (m.dnf d) m h
      fun l hl m' hm' => forM_inv l m' hm' fun x hx m'' hm'' => normAtom_root fuel m'' x hm''
    cases hc : forM (forM (normAtom fuel)) m (m.dnf d) with
    | error e => trivial
    | ok m1 => rw [hc] at h1; exact finishDnf_root fuel h1 d

end

theorem normDnf_big {fuel : Nat} {m m' : TMem K} (h : Root D L m) (hL : Big L) : normDnf fuel m D ≠ .ok m' := by
  cases fuel with
  | zero => simp [normDnf]
  | succ fuel =>
    unfold normDnf
    have h1 := forM_inv (E := AnyErr) (P := Root D L) (f := forM (normAtom fuel)) (m.dnf D) m h
      fun l hl m' hm' => forM_inv l m' hm' fun x hx m'' hm'' => normAtom_root fuel m'' x hm''
    cases hc : forM (forM (normAtom fuel)) m (m.dnf D) with
    | error e => simp
    | ok m1 =>
      rw [hc] at h1
      simp only [finishDnf]
      split
      · simp
      · simp
      · rw [h1.1]
        cases he : m1.conjDecisions fuel L with
        | error e => simp
        | ok ds => exact absurd he (conjDecisions_not_ok m1 fuel L hL ds)

theorem normalForm_big [IsStrictOrderedRing K] {e : TRE K} (he : ¬ e.NoConj) (fuel : Nat) (r) : e.normalForm fuel ≠ .ok r := by
  unfold TRE.normalForm
  cases h : e.toDNF TMem.empty with
  | error x => simp
  | ok s =>
    obtain ⟨l, m⟩ := s
    have k := toDNF_post e _ good_empty l m h
    have hb := toDNF_big e _ l m he h
    have hr : Root m.next l (m.newDnf l) := by
      refine ⟨by simp [newDnf, put], fun a ha => ?_⟩
      have ha : m.atom a = .plus m.next := ha
      by_cases h' : a < m.next
      · rcases k.good.wf.atom a h' with h'' | h''
        · rw [h''] at ha; cases ha
        · rw [ha] at h''
          exact absurd h'' (lt_irrefl _)
      · rw [k.good.fresh.atom a (not_lt.1 h')] at ha; cases ha
    simp only
    cases hn : normDnf fuel (m.newDnf l) m.next with
    | error x => simp
    | ok m' => exact absurd hn (normDnf_big hr hb)

end Verif.TMem
