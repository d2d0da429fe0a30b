import Verif.Lemmas.SignalTA
import Verif.Lemmas.TREConsts

/-!
# Maximal constants of the translation to signal automata
-/

set_option linter.unusedSectionVars false

namespace Verif

open TMem TA

variable {K : Type} [Field K] [LinearOrder K] [IsStrictOrderedRing K] [FloorRing K]

/-- The non-negative constants in guards of the entries `n` are at most those in `M`. -/
def CovBy (M : List Int) (n : Next Nat) : Prop :=
  ∀ p ∈ n, ∀ t ∈ p.2, ∀ g ∈ t.guard, 0 ≤ g.c → g.x < M.length ∧ g.c ≤ M.getD g.x 0

theorem CovBy.left {M : List Int} {n : Next Nat} (h : CovBy M n) (N : List Int) : CovBy (maxVec M N) n := by
  intro p hp t ht g hg h0
  obtain ⟨h1, h2⟩ := h p hp t ht g hg h0
  rw [maxVec_length, maxVec_getD]
  exact ⟨lt_max_of_lt_left h1, le_max_of_le_left h2⟩

theorem CovBy.right {M : List Int} {n : Next Nat} (h : CovBy M n) (N : List Int) : CovBy (maxVec N M) n := by
  intro p hp t ht g hg h0
  obtain ⟨h1, h2⟩ := h p hp t ht g hg h0
  rw [maxVec_length, maxVec_getD]
  exact ⟨lt_max_of_lt_right h1, le_max_of_le_right h2⟩

theorem CovBy.append {M : List Int} {n : Next Nat} (h : CovBy M n) (N : List Int) : CovBy (M ++ N) n := by
  intro p hp t ht g hg h0
  obtain ⟨h1, h2⟩ := h p hp t ht g hg h0
  rw [getD_append_left _ _ h1, List.length_append]
  exact ⟨by omega, h2⟩

theorem CovBy.push {M : List Int} {n : Next Nat} (h : CovBy M n) {c : Alphabet} {t : Transition Nat}
    (ht : ∀ g ∈ t.guard, 0 ≤ g.c → g.x < M.length ∧ g.c ≤ M.getD g.x 0) : CovBy M (n.push c t) := by
  induction n with
  | nil =>
    intro p hp t' ht'
    simp only [Next.push, List.mem_singleton] at hp
    subst hp
    rw [List.mem_singleton.1 ht']
    exact ht
  | cons q n ih =>
    obtain ⟨d, l⟩ := q
    have hn : CovBy M n := fun p hp => h p (List.mem_cons_of_mem _ hp)
    have hl := h (d, l) (List.mem_cons_self ..)
    intro p hp
    simp only [Next.push] at hp
    split at hp
    · rcases List.mem_cons.1 hp with rfl | hp
      · intro t' ht'
        rcases List.mem_append.1 ht' with ht' | ht'
        · exact hl t' ht'
        · rw [List.mem_singleton.1 ht']; exact ht
      · exact hn p hp
    · rcases List.mem_cons.1 hp with rfl | hp
      · exact hl
      · exact ih hn p hp

theorem CovBy.pushes {M : List Int} {α : Type} (f : α → Alphabet × Transition Nat) (l : List α) :
    ∀ {n : Next Nat}, CovBy M n → (∀ a ∈ l, ∀ g ∈ (f a).2.guard, 0 ≤ g.c → g.x < M.length ∧ g.c ≤ M.getD g.x 0) →
      CovBy M (l.foldl (fun m a => m.push (f a).1 (f a).2) n) := by
  induction l with
  | nil => intro n h _; exact h
  | cons a l ih =>
    intro n h hl
    exact ih (h.push (hl a (List.mem_cons_self ..))) fun b hb => hl b (List.mem_cons_of_mem _ hb)

/-- What holds of an automaton which was made with the addresses from `k` to `k'`. -/
structure ConstInv (alloc : Nat → Nat) (heap : Nat → TAState Nat) (k k' : Nat) (A : TA Nat) : Prop where
  le : k ≤ k'
  states : ∀ s ∈ A.states, ∃ j, k ≤ j ∧ j < k' ∧ s = alloc j
  init : ∀ s ∈ A.init, s ∈ A.states
  keep : ∀ a, (∀ j, k ≤ j → j < k' → a ≠ alloc j) → A.st a = heap a
  cov : ∀ s ∈ A.states, CovBy A.maxC (A.st s).next

theorem constInv_none (alloc : Nat → Nat) (heap : Nat → TAState Nat) (k : Nat) : ConstInv alloc heap k k (noneTA heap) :=
  ⟨le_refl _, by simp [noneTA], by simp [noneTA], fun _ _ => rfl, by simp [noneTA]⟩

theorem constInv_eps (alloc : Nat → Nat) (heap : Nat → TAState Nat) (k : Nat) : ConstInv alloc heap k (k + 1) (epsTA alloc heap k) := by
  refine ⟨by omega, ?_, fun s hs => hs, ?_, ?_⟩
  · intro s hs
    exact ⟨k, le_refl _, by omega, List.mem_singleton.1 hs⟩
  · intro a ha
    simp only [epsTA]
    rw [if_neg (ha k (le_refl _) (by omega))]
  · intro s hs
    rw [List.mem_singleton.1 hs]
    simp [epsTA, CovBy]

theorem foldl_max_ge (gs : List Constraint) (m : Int) :
    m ≤ gs.foldl (fun m g => max m g.c) m ∧ ∀ g ∈ gs, g.c ≤ gs.foldl (fun m g => max m g.c) m := by
  induction gs generalizing m with
  | nil => simp
  | cons g gs ih =>
    obtain ⟨h1, h2⟩ := ih (max m g.c)
    refine ⟨(le_max_left _ _).trans h1, fun g' hg' => ?_⟩
    rcases List.mem_cons.1 hg' with rfl | hg'
    · exact (le_max_right _ _).trans h1
    · exact h2 g' hg'

theorem intervalGuard_clock {I : Interval K} {g : List Constraint} (h : intervalGuard I = .ok g) : ∀ c ∈ g, c.x = 0 := by
  have hl : ∀ (b : Bnd K) l, lowerGuard b = .ok l → ∀ c ∈ l, c.x = 0 := by
    intro b l hb c hc
    cases b with
    | inf => cases hb
    | fin q s =>
      simp only [lowerGuard, Bnd.toInt] at hb
      split at hb
      · cases hb; cases hc
      · cases hb; rw [List.mem_singleton.1 hc]
  have hu : ∀ (b : Bnd K) l, upperGuard b = .ok l → ∀ c ∈ l, c.x = 0 := by
    intro b l hb c hc
    cases b with
    | inf => cases hb; cases hc
    | fin q s => cases hb; rw [List.mem_singleton.1 hc]
  unfold intervalGuard at h
  split at h
  · next l u h1 h2 =>
    cases h
    intro c hc
    rcases List.mem_append.1 hc with hc | hc
    · exact hl _ _ h1 c hc
    · exact hu _ _ h2 c hc
  · cases h
  · cases h

theorem guardsOf_clock : ∀ {S : List (Interval K)} {gs : List (List Constraint)}, guardsOf S = .ok gs → ∀ g ∈ gs, ∀ c ∈ g, c.x = 0
  | [], gs, h => by cases h; simp
  | I :: S, gs, h => by
    unfold guardsOf at h
    split at h
    · next g gs' h1 h2 =>
      cases h
      intro g' hg'
      rcases List.mem_cons.1 hg' with rfl | hg'
      · exact intervalGuard_clock h1
      · exact guardsOf_clock h2 g' hg'
    · cases h
    · cases h

theorem constInv_edge {alloc : Nat → Nat} (hinj : Function.Injective alloc) (heap : Nat → TAState Nat) (k : Nat) (c : Alphabet)
    {gs : List (List Constraint)} (hg : ∀ g ∈ gs, ∀ c ∈ g, c.x = 0) : ConstInv alloc heap k (k + 2) (edgeTA alloc heap k c gs) := by
  have hne : alloc (k + 1) ≠ alloc k := fun h => by have := hinj h; omega
  refine ⟨by omega, ?_, ?_, ?_, ?_⟩
  · intro s hs
    simp only [edgeTA, List.mem_cons, List.not_mem_nil, or_false] at hs
    rcases hs with rfl | rfl
    · exact ⟨k, le_refl _, by omega, rfl⟩
    · exact ⟨k + 1, by omega, by omega, rfl⟩
  · intro s hs
    simp only [edgeTA, List.mem_cons, List.not_mem_nil, or_false] at hs ⊢
    exact .inl hs
  · intro a ha
    simp only [edgeTA]
    rw [if_neg (ha k (le_refl _) (by omega)), if_neg (ha (k + 1) (by omega) (by omega))]
  · intro s hs
    simp only [edgeTA, List.mem_cons, List.not_mem_nil, or_false] at hs
    rcases hs with rfl | rfl
    · intro p hp t ht g hgt h0
      simp only [edgeTA, if_true, List.mem_singleton] at hp
      subst hp
      obtain ⟨g', hg', rfl⟩ := List.mem_map.1 ht
      have hgt : g ∈ g' := hgt
      have hle : g.c ≤ maxConst gs := (foldl_max_ge gs.flatten (-1)).2 g (List.mem_flatten.2 ⟨g', hg', hgt⟩)
      have hm : maxConst gs ≠ -1 := by omega
      simp only [edgeTA, if_neg hm, hg g' hg' g hgt]
      exact ⟨by simp, hle⟩
    · intro p hp
      simp only [edgeTA] at hp
      rw [if_neg hne, if_pos trivial] at hp
      cases hp

theorem constInv_sing {alloc : Nat → Nat} (hinj : Function.Injective alloc) {heap : Nat → TAState Nat} {k k' : Nat} {c : Alphabet}
    {S : List (Interval K)} {A : TA Nat} (h : singTA alloc heap k c S = .ok (A, k')) : ConstInv alloc heap k k' A := by
  unfold singTA at h
  split at h
  · cases h; exact constInv_none alloc heap k
  · split at h
    · cases h
    · next gs hgs => cases h; exact constInv_edge hinj heap k c (guardsOf_clock hgs)

section two
variable {alloc : Nat → Nat} (hinj : Function.Injective alloc) {heap : Nat → TAState Nat} {k k1 k2 : Nat} {A B : TA Nat}
  (hA : ConstInv alloc heap k k1 A) (hB : ConstInv alloc A.st k1 k2 B)
include hinj hA hB

theorem constInv_keep : ∀ s ∈ A.states, B.st s = A.st s := by
  intro s hs
  obtain ⟨j, hj1, hj2, rfl⟩ := hA.states s hs
  exact hB.keep _ fun i hi _ h => by have := hinj h; omega

theorem constInv_disj : ConstInv alloc heap k k2 (A.disjTA B) := by
  refine ⟨hA.le.trans hB.le, ?_, ?_, ?_, ?_⟩
  · intro s hs
    rcases List.mem_append.1 hs with hs | hs
    · obtain ⟨j, h1, h2, h3⟩ := hA.states s hs
      exact ⟨j, h1, h2.trans_le hB.le, h3⟩
    · obtain ⟨j, h1, h2, h3⟩ := hB.states s hs
      exact ⟨j, hA.le.trans h1, h2, h3⟩
  · intro s hs
    rcases List.mem_append.1 hs with hs | hs
    · exact List.mem_append_left _ (hA.init s hs)
    · exact List.mem_append_right _ (hB.init s hs)
  · intro a ha
    have h1 := hB.keep a fun j h1 h2 => ha j (hA.le.trans h1) h2
    have h2 := hA.keep a fun j h1 h2 => ha j h1 (h2.trans_le hB.le)
    exact h1.trans h2
  · intro s hs
    rcases List.mem_append.1 hs with hs | hs
    · have := (hA.cov s hs).left B.maxC
      rw [← constInv_keep hinj hA hB s hs] at this
      exact this
    · exact (hB.cov s hs).right A.maxC

theorem constInv_concat : ConstInv alloc heap k k2 (A.concat2 B) := by
  have hd := constInv_disj hinj hA hB
  have hbi : ∀ s ∈ A.init, s ∈ A.states := hA.init
  refine ⟨hd.le, hd.states, ?_, ?_, ?_⟩
  · intro s hs
    apply hd.init
    simp only [concat2] at hs
    split at hs
    · exact hs
    · exact List.mem_append_left _ hs
  · intro a ha
    have ha' : a ∉ A.states := fun h => by
      obtain ⟨j, h1, h2, h3⟩ := hd.states a (List.mem_append_left _ h)
      exact ha j h1 h2 h3
    have hb' : a ∉ B.init := fun h => by
      obtain ⟨j, h1, h2, h3⟩ := hd.states a (List.mem_append_right _ (hB.init a h))
      exact ha j h1 h2 h3
    rw [← hd.keep a ha]
    simp only [concat2, mapSt]
    rw [if_neg ha']
    split
    · simp only [mapSt]
      rw [if_neg hb', if_neg ha']
      rfl
    · simp only [mapSt]
      rw [if_neg ha']
      rfl
  · intro s hs
    have hnext : ((A.concat2 B).st s).next = (B.st s).next ∨ s ∈ A.states ∧ ((A.concat2 B).st s).next =
        (B.st s).next.map fun p => (p.1, ({ A with st := B.st } : TA Nat).concatEdges B.init B.clockSize p.2) := by
      by_cases h : s ∈ A.states
      · right
        refine ⟨h, ?_⟩
        simp only [concat2, mapSt]
        split_ifs <;> (simp only [mapSt, TAState.mapEdges]; first | rfl | (split_ifs <;> rfl))
      · left
        simp only [concat2, mapSt]
        split_ifs <;> (simp only [mapSt, TAState.mapEdges]; first | rfl | (split_ifs <;> rfl))
    have hc := hd.cov s hs
    have hc : CovBy (maxVec A.maxC B.maxC) (B.st s).next := hc
    show CovBy (maxVec A.maxC B.maxC) _
    rcases hnext with h | ⟨_, h⟩
    · rw [h]; exact hc
    · rw [h]
      intro p hp t ht g hg
      obtain ⟨q, hq, rfl⟩ := List.mem_map.1 hp
      have ht : t ∈ q.2 ++ _ := ht
      rcases List.mem_append.1 ht with ht | ht
      · exact hc q hq t ht g hg
      · obtain ⟨e, he, ht⟩ := List.mem_flatMap.1 ht
        split at ht
        · obtain ⟨i, _, rfl⟩ := List.mem_map.1 ht
          exact hc q hq e he g hg
        · cases ht

end two

theorem constInv_within {alloc : Nat → Nat} (hinj : Function.Injective alloc) {heap : Nat → TAState Nat} {k k1 k2 : Nat} {A B : TA Nat}
    {I : Interval K} (hA : ConstInv alloc heap k k1 A) (h : A.withinSignalTA alloc k1 I = .ok (B, k2)) : ConstInv alloc heap k k2 B := by
  unfold withinSignalTA at h
  split at h
  · cases h
  · split at h
    · cases h
    · next u hu =>
      cases h
      have hle := hA.le
      refine ⟨by omega, ?_, ?_, ?_, ?_⟩
      · intro s hs
        rcases List.mem_append.1 hs with hs | hs
        · obtain ⟨j, h1, h2, h3⟩ := hA.states s hs
          exact ⟨j, h1, by omega, h3⟩
        · simp only [List.mem_cons, List.not_mem_nil, or_false] at hs
          rcases hs with rfl | rfl
          · exact ⟨k1, hle, by omega, rfl⟩
          · exact ⟨k1 + 1, by omega, by omega, rfl⟩
      · intro s hs
        rw [List.mem_singleton.1 hs]
        simp
      · intro a ha
        have ha' : a ∉ A.states := fun h => by
          obtain ⟨j, h1, h2, h3⟩ := hA.states a h
          exact ha j h1 (by omega) h3
        simp only
        rw [if_neg (ha k1 hle (by omega)), if_neg (ha (k1 + 1) (by omega) (by omega)), if_neg ha']
        exact hA.keep a fun j h1 h2 => ha j h1 (by omega)
      · intro s hs
        simp only
        split_ifs with c1 c2 c3
        · refine CovBy.pushes id _ (by simp [CovBy]) ?_
          intro x hx
          obtain ⟨i, hi, hx⟩ := List.mem_flatMap.1 hx
          obtain ⟨p, hp, hx⟩ := List.mem_flatMap.1 hx
          obtain ⟨e, he, rfl⟩ := List.mem_map.1 hx
          exact (hA.cov i (hA.init i hi)).append [u] p hp e he
        · simp [CovBy]
        · exact (hA.cov s c3).append [u]
        · rcases List.mem_append.1 hs with hs | hs
          · exact absurd hs c3
          · simp only [List.mem_cons, List.not_mem_nil, or_false] at hs
            rcases hs with rfl | rfl
            · exact absurd rfl c1
            · exact absurd rfl c2

theorem constInv_concatSignal {alloc : Nat → Nat} (hinj : Function.Injective alloc)
    {f : (Nat → TAState Nat) → Nat → Nat → Except Err (TA Nat × Nat)}
    (hf : ∀ heap k a A k', f heap k a = .ok (A, k') → ConstInv alloc heap k k' A) :
    ∀ (l : List Nat) {heap : Nat → TAState Nat} {k0 k k' : Nat} {A B : TA Nat}, ConstInv alloc heap k0 k A →
      concatSignal f A k l = .ok (B, k') → ConstInv alloc heap k0 k' B
  | [], _, _, _, _, _, _, hA, h => by cases h; exact hA
  | a :: l, _, _, k, _, A, _, hA, h => by
    unfold concatSignal at h
    split at h
    · cases h
    · next C k1 hC => exact constInv_concatSignal hinj hf l (constInv_concat hinj hA (hf _ _ _ _ _ hC)) h

theorem constInv_altSignal {alloc : Nat → Nat} (hinj : Function.Injective alloc)
    {f : (Nat → TAState Nat) → Nat → Nat → Except Err (TA Nat × Nat)}
    (hf : ∀ heap k a A k', f heap k a = .ok (A, k') → ConstInv alloc heap k k' A) :
    ∀ (l : List (List Nat)) {heap : Nat → TAState Nat} {k0 k k' : Nat} {A B : TA Nat}, ConstInv alloc heap k0 k A →
      altSignal f A k l = .ok (B, k') → ConstInv alloc heap k0 k' B
  | [], _, _, _, _, _, _, hA, h => by cases h; exact hA
  | [] :: _, _, _, _, _, _, _, _, h => by cases h
  | [a] :: l, _, _, k, _, A, _, hA, h => by
    unfold altSignal at h
    split at h
    · cases h
    · next C k1 hC => exact constInv_altSignal hinj hf l (constInv_disj hinj hA (hf _ _ _ _ _ hC)) h
  | (_ :: _ :: _) :: _, _, _, _, _, _, _, _, h => by cases h

theorem constInv_atom {alloc : Nat → Nat} (hinj : Function.Injective alloc) (m : TMem K) :
    ∀ (fuel : Nat) (heap : Nat → TAState Nat) (k a : Nat) (A : TA Nat) (k' : Nat), m.signalAtom alloc fuel heap k a = .ok (A, k') →
      ConstInv alloc heap k k' A
  | 0, _, _, _, _, _, h => by cases h
  | fuel + 1, heap, k, a, A, k', h => by
    unfold signalAtom at h
    split at h
    · exact constInv_sing hinj h
    · cases h; exact constInv_eps alloc heap k
    · split at h
      · cases h
      · next d hd C k1 hC =>
        have h1 := constInv_altSignal hinj (constInv_atom hinj m fuel) _ (constInv_none alloc heap k) hC
        unfold plusSignalTA at h
        split at h
        · cases h
        · cases h; exact h1
    · cases h
    · split at h
      · cases h
      · next b l hl C k1 hC =>
        exact constInv_concatSignal hinj (constInv_atom hinj m fuel) _ (constInv_atom hinj m fuel _ _ _ _ _ hC) h
    · split at h
      · cases h
      · next b I hb C k1 hC => exact constInv_within hinj (constInv_atom hinj m fuel _ _ _ _ _ hC) h
    · cases h

theorem covBy_epsNext {M : List Int} (A : TA Nat) {n : Next Nat} (h : CovBy M n) : CovBy M (A.epsNext n) := by
  unfold epsNext
  refine CovBy.pushes (fun e => (epsilon, e)) _ ?_ ?_
  · intro p hp t ht
    obtain ⟨q, hq, rfl⟩ := List.mem_map.1 hp
    exact h q hq t (List.mem_of_mem_filter ht)
  · intro e he
    obtain ⟨p, hp, he⟩ := List.mem_flatMap.1 he
    exact h p hp e (List.mem_of_mem_filter he)

theorem signalTA_covBy {alloc : Nat → Nat} (hinj : Function.Injective alloc) {fuel : Nat} {e : TRE K} {A : TA Nat}
    (h : e.signalTA alloc fuel = .ok A) : ∀ s ∈ A.states, CovBy A.maxC (A.st s).next := by
  unfold TRE.signalTA at h
  split at h
  · cases h
  · split at h
    · cases h
    · next d m hd C k hC =>
      have h1 := constInv_altSignal hinj (constInv_atom hinj _ fuel) _ (constInv_none alloc _ 0) hC
      unfold renameEps at h
      split at h
      · cases h
      · cases h
        intro s (hs : s ∈ C.states)
        show CovBy C.maxC _
        simp only [owned, mapSt]
        rw [if_pos hs, if_pos hs]
        exact covBy_epsNext C (h1.cov s hs)

end Verif
