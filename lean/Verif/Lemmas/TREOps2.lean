import Verif.Lemmas.TREOps
import Mathlib.Algebra.Order.Floor.Ring

/-! The automata for time restriction and intersection. -/

set_option linter.unusedSectionVars false

namespace Verif

variable {K : Type} [Field K] [LinearOrder K] [IsStrictOrderedRing K]

namespace TA

/-! ### Time restriction -/

section within
variable [FloorRing K] {A : TA Nat} (h : A.Wf) (hn : A.clockSize < 256) {I : Interval K} {l u : Int} {ls us : Bool}
  (hl : I.lower = .fin (l : K) ls) (hu : I.upper = .fin (u : K) us)

theorem toInt_int (c : Int) (s : Bool) : (Bnd.fin (c : K) s).toInt = .ok c := by
  simp [Bnd.toInt]

/-- The automaton made by `within` when the dummy state is not used. -/
def restrictTA (A : TA Nat) (g : List Constraint) (u : Int) : TA Nat :=
  { states := A.states
    init := A.init.filter fun s => !(A.st s).zeroDuration
    st := fun a => if a ∈ A.states then
        { isMatch := (A.st a).isMatch
          zeroDuration := false
          next := (A.st a).next.map fun p => (p.1, p.2.map fun e => if A.isAcc e then { e with guard := e.guard ++ g } else e) }
      else A.st a
    maxC := A.maxC ++ [u] }

include h hl hu in
theorem within_eq : A.withinTA I = .ok (A.restrictTA (withinGuard A.clockSize u l us ls) u) := by
  simp only [withinTA, hl, hu, toInt_int, Bnd.flag]
  have hm : ∀ q, (if q ∈ A.states then { (A.st q) with zeroDuration := false } else A.st q : TAState Nat).isMatch = (A.st q).isMatch := by
    intro q; split <;> rfl
  have hx : ∀ q, (if q ∈ A.states then { (A.st q) with zeroDuration := false } else A.st q : TAState Nat).next = (A.st q).next := by
    intro q; split <;> rfl
  rw [if_neg]
  · simp only [mapSt, restrictTA, Except.ok.injEq, TA.mk.injEq, true_and, and_true]
    funext a
    by_cases ha : a ∈ A.states
    · simp only [ha, if_true, TAState.mapEdges]
      have hacc : ∀ e, isAcc ⟨A.states, A.init.filter (fun s => !(A.st s).zeroDuration),
          fun a => if a ∈ A.states then { (A.st a) with zeroDuration := false } else A.st a, A.maxC⟩ e = A.isAcc e := by
        intro e
        simp only [isAcc]
        split <;> [rfl; exact hm _]
      simp only [hacc]
      split
      · rfl
      · rename_i hne
        simp only [TAState.mk.injEq, true_and, and_true]
        simp only [List.isEmpty_iff, List.map_eq_nil_iff] at hne
        by_contra hmm
        exact hne (h.term a ha (by simpa using Ne.symm hmm))
    · simp only [ha, if_false]
  · simp only [needsDummy, mapSt, List.any_eq_true, not_exists, not_and]
    intro s hs p hp e he
    rw [hx] at hp
    split
    · simp
    · rename_i q hq
      simp only [hm, hx, Bool.and_eq_true, Bool.not_eq_true', not_and]
      intro hmm
      rw [h.term q (h.closed s hs p.1 e (h.mem_edges hs hp he) q hq) hmm]
      simp

variable (g : List Constraint)

theorem restrict_st {s : Nat} (hs : s ∈ A.states) : (A.restrictTA g u).st s =
    { isMatch := (A.st s).isMatch
      zeroDuration := false
      next := (A.st s).next.map fun p => (p.1, p.2.map fun e => if A.isAcc e then { e with guard := e.guard ++ g } else e) } := by
  simp only [restrictTA, if_pos hs]

theorem restrict_edges {s : Nat} (hs : s ∈ A.states) (a : Alphabet) : (A.restrictTA g u).edges s a =
    (A.edges s a).map fun e => if A.isAcc e then { e with guard := e.guard ++ g } else e := by
  rw [edges, restrict_st g hs]
  exact Next.at'_map (fun es => es.map fun e => if A.isAcc e then { e with guard := e.guard ++ g } else e) rfl _ _

include h in
theorem restrict_wf (hg : ∀ c ∈ g, c.x ≤ A.clockSize) : (A.restrictTA g u).Wf := by
  have hcs : (A.restrictTA g u).clockSize = A.clockSize + 1 := by simp [restrictTA, clockSize]
  refine ⟨h.nodup, fun s hs => h.init s (List.mem_filter.1 hs).1, ?_, ?_, ?_, ?_, ?_, ?_, ?_, ?_⟩
  · intro s (hs : s ∈ A.states)
    rw [restrict_st g hs]
    simpa [Function.comp_def] using h.keys s hs
  · intro s (hs : s ∈ A.states) p hp
    rw [restrict_st g hs] at hp
    obtain ⟨p', hp', rfl⟩ := List.mem_map.1 hp
    simpa using h.ne s hs p' hp'
  · intro s (hs : s ∈ A.states) a e he q hq
    rw [restrict_edges g hs] at he
    obtain ⟨e', he', rfl⟩ := List.mem_map.1 he
    refine h.closed s hs a e' he' q ?_
    split at hq <;> exact hq
  · intro s (hs : s ∈ A.states) a e he c hc
    rw [restrict_edges g hs] at he
    obtain ⟨e', he', rfl⟩ := List.mem_map.1 he
    rw [hcs]
    split at hc
    · rcases List.mem_append.1 hc with hc | hc
      · have := h.guards s hs a e' he' c hc; omega
      · have := hg c hc; omega
    · have := h.guards s hs a e' he' c hc; omega
  · intro s (hs : s ∈ A.states) a e he x hx
    rw [restrict_edges g hs] at he
    obtain ⟨e', he', rfl⟩ := List.mem_map.1 he
    rw [hcs]
    have : x ∈ e'.resets := by split at hx <;> exact hx
    have := h.resets s hs a e' he' x this
    omega
  · intro s (hs : s ∈ A.states)
    rw [restrict_edges g hs, h.lab s hs]; rfl
  · intro s (hs : s ∈ A.states) hm
    rw [restrict_st g hs] at hm ⊢
    simp only at hm ⊢
    rw [h.term s hs hm, List.map_nil]
  · intro s (hs : s ∈ A.states) hm
    rw [restrict_st g hs] at hm
    simp at hm

include hn hl hu in
theorem withinGuard_iff (v : Nat → K) :
    GuardHolds (withinGuard A.clockSize u l us ls) v ↔ I.Mem (v A.clockSize) := by
  simp only [GuardHolds, withinGuard, List.mem_cons, List.not_mem_nil, or_false, forall_eq_or_imp, forall_eq,
    Nat.mod_eq_of_lt hn, Interval.Mem, hl, hu, Interval.Above]
  cases ls <;> cases us <;> simp [Constraint.Holds, Bnd.sat, and_comm]

include h hn hl hu in
theorem acc_within {s : Nat} (hs : s ∈ A.states) (r : Nat → K) (w : TWord K) (hw : w ≠ []) :
    (A.restrictTA (withinGuard A.clockSize u l us ls) u).Acc s r w ↔ A.Acc s r w ∧ I.Mem (endTime 0 w - r A.clockSize) := by
  induction w generalizing s r with
  | nil => exact absurd rfl hw
  | cons p w ih =>
    obtain ⟨a, t⟩ := p
    have hmatch : ∀ q ∈ A.states, ((A.restrictTA (withinGuard A.clockSize u l us ls) u).st q).isMatch = (A.st q).isMatch := by
      intro q hq; rw [restrict_st _ hq]
    have hreset : ∀ e ∈ A.edges s a, resetAt r e.resets t A.clockSize = r A.clockSize := by
      intro e he
      rw [resetAt, if_neg]
      intro hx
      have := h.resets s hs a e he _ hx
      omega
    simp only [Acc, restrict_edges _ hs, List.mem_map]
    constructor
    · rintro ⟨_, ⟨e, he, rfl⟩, q, hq, hgd, hacc⟩
      have hq' : e.target = some q := by split at hq <;> exact hq
      have hqs := h.closed s hs a e he q hq'
      split at hgd
      · rename_i hc
        obtain ⟨q', hq'', hm⟩ := isAcc_iff.1 hc
        rw [hq'] at hq''
        have : q = q' := Option.some.inj hq''
        subst this
        rw [if_pos hc] at hacc
        have hg1 : GuardHolds e.guard (fun x => t - r x) := fun c hc => hgd c (List.mem_append_left _ hc)
        have hg2 := (withinGuard_iff hn hl hu (fun x => t - r x)).1 (fun c hc => hgd c (List.mem_append_right _ hc))
        cases w with
        | nil => exact ⟨⟨e, he, q, hq', hg1, hm⟩, hg2⟩
        | cons p w =>
          obtain ⟨b, t'⟩ := p
          obtain ⟨e', he', _⟩ := hacc
          rw [restrict_edges _ hqs, edges_nil (h.term q hqs hm)] at he'
          simp at he'
      · rename_i hc
        rw [if_neg hc] at hacc
        have hwne : w ≠ [] := by
          rintro rfl
          simp only [Acc, hmatch q hqs] at hacc
          exact hc (isAcc_iff.2 ⟨q, hq', hacc⟩)
        obtain ⟨h1, h2⟩ := (ih hqs _ hwne).1 hacc
        rw [hreset e he] at h2
        rw [endTime_cons, endTime_ne (t1 := 0) hwne]
        exact ⟨⟨e, he, q, hq', hgd, h1⟩, h2⟩
    · rintro ⟨⟨e, he, q, hq, hgd, hacc⟩, hmem⟩
      have hqs := h.closed s hs a e he q hq
      refine ⟨_, ⟨e, he, rfl⟩, q, by split <;> exact hq, ?_⟩
      by_cases hc : A.isAcc e = true
      · obtain ⟨q', hq'', hm⟩ := isAcc_iff.1 hc
        rw [hq] at hq''
        have : q = q' := Option.some.inj hq''
        subst this
        rw [if_pos hc]
        cases w with
        | nil =>
          refine ⟨fun c hc => ?_, by rw [Acc, hmatch q hqs]; exact hm⟩
          rcases List.mem_append.1 hc with hc | hc
          · exact hgd c hc
          · exact (withinGuard_iff hn hl hu (fun x => t - r x)).2 hmem c hc
        | cons p w =>
          obtain ⟨b, t'⟩ := p
          obtain ⟨e', he', _⟩ := hacc
          rw [edges_nil (h.term q hqs hm)] at he'
          simp at he'
      · rw [if_neg hc]
        have hwne : w ≠ [] := by
          rintro rfl
          exact hc (isAcc_iff.2 ⟨q, hq, hacc⟩)
        refine ⟨hgd, (ih hqs _ hwne).2 ⟨hacc, ?_⟩⟩
        rw [hreset e he]
        rwa [endTime_cons, endTime_ne (t1 := 0) hwne] at hmem

include h hn hl hu in
theorem accepts_within (hz : ∀ s ∈ A.states, (A.st s).zeroDuration = false) (t0 : K) (he : ¬ A.AcceptsFrom t0 [])
    (w : TWord K) :
    (A.restrictTA (withinGuard A.clockSize u l us ls) u).AcceptsFrom t0 w ↔ A.AcceptsFrom t0 w ∧ I.Mem (endTime t0 w - t0) := by
  have hinit : (A.restrictTA (withinGuard A.clockSize u l us ls) u).init = A.init := by
    simp only [restrictTA]
    rw [List.filter_eq_self]
    intro s hs
    simp [hz s (h.init s hs)]
  simp only [acceptsFrom_iff, hinit]
  by_cases hw : w = []
  · subst hw
    simp only [acceptsFrom_iff, Acc] at he ⊢
    constructor
    · rintro ⟨s, hs, hm⟩
      rw [restrict_st _ (h.init s hs)] at hm
      exact absurd ⟨s, hs, hm⟩ he
    · rintro ⟨hm, _⟩
      exact absurd hm he
  · constructor
    · rintro ⟨s, hs, ha⟩
      obtain ⟨h1, h2⟩ := (acc_within h hn hl hu (h.init s hs) _ _ hw).1 ha
      rw [endTime_ne (t1 := 0) hw]
      exact ⟨⟨s, hs, h1⟩, h2⟩
    · rintro ⟨⟨s, hs, ha⟩, hm⟩
      rw [endTime_ne (t1 := 0) hw] at hm
      exact ⟨s, hs, (acc_within h hn hl hu (h.init s hs) _ _ hw).2 ⟨ha, hm⟩⟩

end within

/-! ### Intersection -/

theorem mem_product {A B : TA Nat} {l1 l2 : List Nat} {p : Nat × Nat} :
    p ∈ productStates A B l1 l2 ↔ p.1 ∈ l1 ∧ p.2 ∈ l2 ∧ (A.st p.1).zeroDuration = (B.st p.2).zeroDuration := by
  obtain ⟨s, t⟩ := p
  simp only [productStates, List.mem_flatMap]
  constructor
  · rintro ⟨s1, h1, s2, h2, h⟩
    split at h
    · simp only [List.mem_singleton, Prod.mk.injEq] at h
      obtain ⟨rfl, rfl⟩ := h
      exact ⟨h1, h2, by assumption⟩
    · simp at h
  · rintro ⟨h1, h2, h⟩
    exact ⟨s, h1, t, h2, by simp [h]⟩

theorem product_nodup {A B : TA Nat} {l1 l2 : List Nat} (h1 : l1.Nodup) (h2 : l2.Nodup) : (productStates A B l1 l2).Nodup := by
  rw [productStates, List.nodup_flatMap]
  constructor
  · intro s1 _
    rw [List.nodup_flatMap]
    constructor
    · intro s2 _; split <;> simp
    · refine h2.imp fun {x y} hxy => ?_
      intro p hp hq
      simp only at hp hq
      split at hp <;> [skip; simp at hp]
      split at hq <;> [skip; simp at hq]
      simp only [List.mem_singleton] at hp hq
      rw [hp] at hq
      exact hxy (Prod.mk.inj hq).2
  · refine h1.imp fun {x y} hxy => ?_
    intro p hp hq
    obtain ⟨_, _, hp⟩ := List.mem_flatMap.1 hp
    obtain ⟨_, _, hq⟩ := List.mem_flatMap.1 hq
    split at hp <;> [skip; simp at hp]
    split at hq <;> [skip; simp at hq]
    simp only [List.mem_singleton] at hp hq
    rw [hp] at hq
    exact hxy (Prod.mk.inj hq).1

theorem placeName_lt {P : Type} [DecidableEq P] (alloc : Nat → Nat) (k : Nat) {ps : List P} {p : P} (hp : p ∈ ps) :
    ∃ i, k ≤ i ∧ i < k + ps.length ∧ placeName alloc k ps p = alloc i := by
  have := List.idxOf_lt_length_iff.2 hp
  exact ⟨k + ps.idxOf p, by omega, by omega, rfl⟩

section place
variable {P : Type} [DecidableEq P] {alloc : Nat → Nat} (hinj : Function.Injective alloc) {k : Nat} {heap : Nat → TAState Nat} {A : TA P}
include hinj

theorem placeName_inj {ps : List P} {p q : P} (hp : p ∈ ps) (h : placeName alloc k ps p = placeName alloc k ps q) : p = q := by
  have h1 : k + ps.idxOf p = k + ps.idxOf q := hinj h
  exact (List.idxOf_inj hp).1 (Nat.add_left_cancel h1)

theorem place_st {p : P} (hp : p ∈ A.states) : (A.place alloc k heap).st (placeName alloc k A.states p) =
    renameState (placeName alloc k A.states) (A.st p) := by
  have hf : A.states.find? (fun q => placeName alloc k A.states q == placeName alloc k A.states p) = some p := by
    rcases hc : A.states.find? (fun q => placeName alloc k A.states q == placeName alloc k A.states p) with _ | q
    · have := List.find?_eq_none.1 hc p hp
      simp at this
    · have h1 := List.find?_some hc
      simp only [beq_iff_eq] at h1
      rw [placeName_inj hinj (List.mem_of_find?_eq_some hc) h1]
  simp only [place, hf]

theorem place_edges {p : P} (hp : p ∈ A.states) (a : Alphabet) : (A.place alloc k heap).edges (placeName alloc k A.states p) a =
    (A.edges p a).map fun e => ⟨e.target.map (placeName alloc k A.states), e.resets, e.guard⟩ := by
  rw [edges, place_st hinj hp]
  exact Next.at'_map (fun es => es.map fun e => ⟨e.target.map (placeName alloc k A.states), e.resets, e.guard⟩) rfl _ _

theorem place_acc (hcl : ∀ p ∈ A.states, ∀ a, ∀ e ∈ A.edges p a, ∀ q, e.target = some q → q ∈ A.states) {p : P} (hp : p ∈ A.states)
    (r : Nat → K) (w : TWord K) : (A.place alloc k heap).Acc (placeName alloc k A.states p) r w ↔ A.Acc p r w := by
  induction w generalizing p r with
  | nil => simp only [Acc, place_st hinj hp, renameState]
  | cons x w ih =>
    obtain ⟨a, t⟩ := x
    simp only [Acc, place_edges hinj hp, List.mem_map]
    constructor
    · rintro ⟨_, ⟨e, he, rfl⟩, q, hq, hg, hacc⟩
      simp only [Option.map_eq_some_iff] at hq
      obtain ⟨q', hq', rfl⟩ := hq
      exact ⟨e, he, q', hq', hg, (ih (hcl p hp a e he q' hq') _).1 hacc⟩
    · rintro ⟨e, he, q, hq, hg, hacc⟩
      exact ⟨_, ⟨e, he, rfl⟩, placeName alloc k A.states q, by simp [hq], hg, (ih (hcl p hp a e he q hq) _).2 hacc⟩

end place

section conj
variable {L R : TA Nat} (hL : L.Wf) (hR : R.Wf) (hn : L.clockSize + R.clockSize ≤ 256)
include hL hR

theorem mem_conj_edges {s1 s2 : Nat} (hs : (s1, s2) ∈ (L.intersection R).states) {c : Alphabet} {e : Transition (Nat × Nat)} :
    e ∈ (L.intersection R).edges (s1, s2) c ↔
      ∃ e1 ∈ L.edges s1 c, ∃ e2 ∈ R.edges s2 c, ∃ q1 q2, e1.target = some q1 ∧ e2.target = some q2 ∧
          e = productTransition L.clockSize (toIState L R (q1, q2)) e1.resets e1.guard e2.resets e2.guard := by
  have h := mem_product.1 hs
  rw [mem_edges_intersection' (hL.keys s1 h.1)]
  constructor
  · rintro ⟨_, ⟨_, e1, he1, _⟩ | ⟨_, e1, he1, _⟩ | h'⟩
    · rw [hL.lab s1 h.1] at he1; simp at he1
    · rw [hR.lab s2 h.2.1] at he1; simp at he1
    · exact h'
  · intro h'
    refine ⟨?_, Or.inr (Or.inr h')⟩
    rw [toIState, if_pos h]; rfl

theorem conj_closed {p : Nat × Nat} (hp : p ∈ (L.intersection R).states) {a : Alphabet} {e : Transition (Nat × Nat)}
    (he : e ∈ (L.intersection R).edges p a) {q : Nat × Nat} (hq : e.target = some q) : q ∈ (L.intersection R).states := by
  obtain ⟨s1, s2⟩ := p
  obtain ⟨e1, _, e2, _, q1, q2, _, _, rfl⟩ := (mem_conj_edges hL hR hp).1 he
  simp only [productTransition] at hq
  have := toIState_eq hq
  subst this
  simp only [toIState] at hq
  split at hq
  · rename_i hc; exact mem_product.2 hc
  · simp at hq

theorem conj_next {p : Nat × Nat} : (((L.intersection R).st p).next.map (·.1)).Nodup ∧ ∀ x ∈ ((L.intersection R).st p).next, x.2 ≠ [] := by
  simp only [intersection]
  split
  · exact Next.foldl_push _ _ (by simp) (by simp)
  · simp

theorem conj_next_nil {s1 s2 : Nat} (hs : (s1, s2) ∈ (L.intersection R).states) (h1 : (L.st s1).next = []) :
    ((L.intersection R).st (s1, s2)).next = [] := by
  refine Next.eq_nil (conj_next hL hR).1 (conj_next hL hR).2 fun a => ?_
  rw [List.eq_nil_iff_forall_not_mem]
  intro e he
  obtain ⟨e1, he1, _⟩ := (mem_conj_edges hL hR hs).1 he
  rw [edges_nil h1] at he1
  simp at he1

include hn in
theorem conj_wf {alloc : Nat → Nat} (hinj : Function.Injective alloc) (k : Nat) (heap : Nat → TAState Nat) :
    ((L.intersection R).place alloc k heap).Wf := by
  have hcs : ((L.intersection R).place alloc k heap).clockSize = L.clockSize + R.clockSize := by
    simp [place, intersection, clockSize]
  set nm := placeName alloc k (L.intersection R).states with hnm
  have hstates : ∀ s, s ∈ ((L.intersection R).place alloc k heap).states → ∃ p ∈ (L.intersection R).states, nm p = s :=
    fun s hs => List.mem_map.1 hs
  have hed : ∀ p ∈ (L.intersection R).states, ∀ a, ∀ e ∈ ((L.intersection R).place alloc k heap).edges (nm p) a,
      ∃ e1 ∈ L.edges p.1 a, ∃ e2 ∈ R.edges p.2 a, e.guard = e1.guard ++ (e2.guard.map fun g => { g with x := shiftClock L.clockSize g.x }) ∧
        e.resets = e1.resets ++ e2.resets.map (shiftClock L.clockSize) := by
    intro p hp a e he
    rw [place_edges hinj hp] at he
    obtain ⟨e', he', rfl⟩ := List.mem_map.1 he
    obtain ⟨s1, s2⟩ := p
    obtain ⟨e1, he1, e2, he2, q1, q2, _, _, rfl⟩ := (mem_conj_edges hL hR hp).1 he'
    exact ⟨e1, he1, e2, he2, rfl, rfl⟩
  refine ⟨?_, ?_, ?_, ?_, ?_, ?_, ?_, ?_, ?_, ?_⟩
  · exact List.Nodup.map_on (fun x hx y hy hxy => placeName_inj hinj hx hxy) (product_nodup hL.nodup hR.nodup)
  · intro s hs
    obtain ⟨p, hp, rfl⟩ := List.mem_map.1 hs
    obtain ⟨h1, h2, h3⟩ := mem_product.1 hp
    exact List.mem_map.2 ⟨p, mem_product.2 ⟨hL.init _ h1, hR.init _ h2, h3⟩, rfl⟩
  · intro s hs
    obtain ⟨p, hp, rfl⟩ := hstates s hs
    rw [hnm, place_st hinj hp]
    simpa [renameState, Function.comp_def] using (conj_next hL hR (p := p)).1
  · intro s hs x hx
    obtain ⟨p, hp, rfl⟩ := hstates s hs
    rw [hnm, place_st hinj hp] at hx
    obtain ⟨x', hx', rfl⟩ := List.mem_map.1 hx
    simpa using (conj_next hL hR (p := p)).2 x' hx'
  · intro s hs a e he q hq
    obtain ⟨p, hp, rfl⟩ := hstates s hs
    rw [hnm, place_edges hinj hp] at he
    obtain ⟨e', he', rfl⟩ := List.mem_map.1 he
    simp only [Option.map_eq_some_iff] at hq
    obtain ⟨q', hq', rfl⟩ := hq
    exact List.mem_map.2 ⟨q', conj_closed hL hR hp he' hq', rfl⟩
  · intro s hs a e he g hg
    obtain ⟨p, hp, rfl⟩ := hstates s hs
    have hp' := mem_product.1 hp
    obtain ⟨e1, he1, e2, he2, hgd, _⟩ := hed p hp a e he
    rw [hgd] at hg
    rw [hcs]
    rcases List.mem_append.1 hg with hg | hg
    · have := hL.guards _ hp'.1 a e1 he1 g hg; omega
    · obtain ⟨g', hg', rfl⟩ := List.mem_map.1 hg
      have := hR.guards _ hp'.2.1 a e2 he2 g' hg'
      simp only [shiftClock_eq hn this]; omega
  · intro s hs a e he g hg
    obtain ⟨p, hp, rfl⟩ := hstates s hs
    have hp' := mem_product.1 hp
    obtain ⟨e1, he1, e2, he2, _, hgd⟩ := hed p hp a e he
    rw [hgd] at hg
    rw [hcs]
    rcases List.mem_append.1 hg with hg | hg
    · have := hL.resets _ hp'.1 a e1 he1 g hg; omega
    · obtain ⟨g', hg', rfl⟩ := List.mem_map.1 hg
      have := hR.resets _ hp'.2.1 a e2 he2 g' hg'
      rw [shiftClock_eq hn this]; omega
  · intro s hs
    obtain ⟨p, hp, rfl⟩ := hstates s hs
    rw [List.eq_nil_iff_forall_not_mem]
    intro e he
    obtain ⟨e1, he1, _⟩ := hed p hp _ e he
    rw [hL.lab _ (mem_product.1 hp).1] at he1
    simp at he1
  · intro s hs hm
    obtain ⟨⟨s1, s2⟩, hp, rfl⟩ := hstates s hs
    rw [hnm, place_st hinj hp] at hm ⊢
    simp only [renameState, intersection, Bool.and_eq_true] at hm
    have := conj_next_nil hL hR hp (hL.term _ (mem_product.1 hp).1 hm.1)
    simp only [renameState, this, List.map_nil]
  · intro s hs hm
    obtain ⟨⟨s1, s2⟩, hp, rfl⟩ := hstates s hs
    rw [hnm, place_st hinj hp] at hm ⊢
    simp only [renameState, intersection] at hm
    have := conj_next_nil hL hR hp (hL.zterm _ (mem_product.1 hp).1 hm)
    simp only [renameState, this, List.map_nil]

variable (hz1 : ∀ s ∈ L.states, (L.st s).zeroDuration = false) (hz2 : ∀ s ∈ R.states, (R.st s).zeroDuration = false)
include hn hz1 hz2

theorem acc_conj {s1 s2 : Nat} (h1 : s1 ∈ L.states) (h2 : s2 ∈ R.states) {r r1 r2 : Nat → K}
    (hr : Comb L.clockSize R.clockSize r r1 r2) (w : TWord K) :
    (L.intersection R).Acc (s1, s2) r w ↔ L.Acc s1 r1 w ∧ R.Acc s2 r2 w := by
  have hmem : ∀ {q1 q2}, q1 ∈ L.states → q2 ∈ R.states → (q1, q2) ∈ (L.intersection R).states := fun h1 h2 =>
    mem_product.2 ⟨h1, h2, (hz1 _ h1).trans (hz2 _ h2).symm⟩
  have hI : ∀ {q1 q2}, q1 ∈ L.states → q2 ∈ R.states → toIState L R (q1, q2) = some (q1, q2) := fun h1 h2 => by
    rw [toIState, if_pos ⟨h1, h2, (hz1 _ h1).trans (hz2 _ h2).symm⟩]
  induction w generalizing s1 s2 r r1 r2 with
  | nil => simp [Acc, intersection]
  | cons p w ih =>
    obtain ⟨a, t⟩ := p
    simp only [Acc, mem_conj_edges hL hR (hmem h1 h2)]
    constructor
    · rintro ⟨_, ⟨e1, he1, e2, he2, q1, q2, hq1, hq2, rfl⟩, q, hq, hg, hacc⟩
      have hq1' := hL.closed s1 h1 a e1 he1 q1 hq1
      have hq2' := hR.closed s2 h2 a e2 he2 q2 hq2
      simp only [productTransition, hI hq1' hq2', Option.some.injEq] at hq
      subst hq
      obtain ⟨g1, g2⟩ := (hr.guard hn (hL.guards s1 h1 a e1 he1) (hR.guards s2 h2 a e2 he2) t).1 hg
      obtain ⟨i1, i2⟩ := (ih hq1' hq2' (hr.reset hn (hL.resets s1 h1 a e1 he1) (hR.resets s2 h2 a e2 he2) t)).1 hacc
      exact ⟨⟨e1, he1, q1, hq1, g1, i1⟩, ⟨e2, he2, q2, hq2, g2, i2⟩⟩
    · rintro ⟨⟨e1, he1, q1, hq1, g1, i1⟩, ⟨e2, he2, q2, hq2, g2, i2⟩⟩
      have hq1' := hL.closed s1 h1 a e1 he1 q1 hq1
      have hq2' := hR.closed s2 h2 a e2 he2 q2 hq2
      exact ⟨_, ⟨e1, he1, e2, he2, q1, q2, hq1, hq2, rfl⟩, (q1, q2), hI hq1' hq2',
        (hr.guard hn (hL.guards s1 h1 a e1 he1) (hR.guards s2 h2 a e2 he2) t).2 ⟨g1, g2⟩,
        (ih hq1' hq2' (hr.reset hn (hL.resets s1 h1 a e1 he1) (hR.resets s2 h2 a e2 he2) t)).2 ⟨i1, i2⟩⟩

theorem accepts_conj {alloc : Nat → Nat} (hinj : Function.Injective alloc) (k : Nat) (heap : Nat → TAState Nat) (t0 : K) (w : TWord K) :
    ((L.intersection R).place alloc k heap).AcceptsFrom t0 w ↔ L.AcceptsFrom t0 w ∧ R.AcceptsFrom t0 w := by
  simp only [acceptsFrom_iff]
  have hcl : ∀ p ∈ (L.intersection R).states, ∀ a, ∀ e ∈ (L.intersection R).edges p a, ∀ q, e.target = some q →
    q ∈ (L.intersection R).states := fun p hp a e he q hq => conj_closed hL hR hp he hq
  have hmem : ∀ {q1 q2}, q1 ∈ L.states → q2 ∈ R.states → (q1, q2) ∈ (L.intersection R).states := fun h1 h2 =>
    mem_product.2 ⟨h1, h2, (hz1 _ h1).trans (hz2 _ h2).symm⟩
  constructor
  · rintro ⟨s, hs, ha⟩
    obtain ⟨⟨s1, s2⟩, hp, rfl⟩ := List.mem_map.1 hs
    obtain ⟨h1, h2, _⟩ := mem_product.1 hp
    rw [place_acc hinj hcl (hmem (hL.init _ h1) (hR.init _ h2))] at ha
    obtain ⟨i1, i2⟩ := (acc_conj hL hR hn hz1 hz2 (hL.init _ h1) (hR.init _ h2) (r := fun _ => t0) (r1 := fun _ => t0)
      (r2 := fun _ => t0) ⟨fun _ _ => rfl, fun _ _ => rfl⟩ w).1 ha
    exact ⟨⟨s1, h1, i1⟩, ⟨s2, h2, i2⟩⟩
  · rintro ⟨⟨s1, h1, i1⟩, ⟨s2, h2, i2⟩⟩
    have hin : (s1, s2) ∈ (L.intersection R).init :=
      mem_product.2 ⟨h1, h2, (hz1 _ (hL.init _ h1)).trans (hz2 _ (hR.init _ h2)).symm⟩
    refine ⟨_, List.mem_map.2 ⟨(s1, s2), hin, rfl⟩, ?_⟩
    rw [place_acc hinj hcl (hmem (hL.init _ h1) (hR.init _ h2))]
    exact (acc_conj hL hR hn hz1 hz2 (hL.init _ h1) (hR.init _ h2) (r := fun _ => t0) (r1 := fun _ => t0)
      (r2 := fun _ => t0) ⟨fun _ _ => rfl, fun _ _ => rfl⟩ w).2 ⟨i1, i2⟩

end conj

end TA
end Verif
