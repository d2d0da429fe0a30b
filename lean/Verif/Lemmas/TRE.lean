import Verif.Lemmas.TREOps2

/-! The translation of expressions. -/

set_option linter.unusedSectionVars false

namespace Verif

variable {K : Type} [Field K] [LinearOrder K] [IsStrictOrderedRing K] [FloorRing K]

namespace TRE

theorem Plain.clocks {e : TRE K} (h : e.Plain) : e.clocks ≤ 256 := by
  induction e with
  | atom c => simp [TRE.clocks]
  | epsilon => simp [TRE.clocks]
  | plus e ih => exact ih h
  | concat e f ih1 ih2 => have := ih1 h.1; have := ih2 h.2; simp only [TRE.clocks]; omega
  | disj e f ih1 ih2 => have := ih1 h.1; have := ih2 h.2; simp only [TRE.clocks]; omega
  | conj e f ih1 ih2 => exact h.2.2
  | within e I ih => have := h.2.1; simp only [TRE.clocks]; omega

theorem repeat_nil {P : K → TWord K → Prop} {t0 : K} {w : TWord K} (h : Repeat P t0 w) (hw : w = []) : ∃ t0, P t0 [] := by
  induction h with
  | one h => exact ⟨_, hw ▸ h⟩
  | more h _ ih => exact ih (List.append_eq_nil_iff.1 hw).2

theorem den_nil (e : TRE K) (t0 : K) : e.Den t0 [] ↔ e.Nullable := by
  induction e generalizing t0 with
  | atom c => simp [Den, Nullable]
  | epsilon => simp [Den, Nullable]
  | plus e ih =>
    simp only [Den, Nullable]
    constructor
    · intro h
      obtain ⟨t, ht⟩ := repeat_nil h rfl
      exact (ih t).1 ht
    · intro h; exact .one ((ih t0).2 h)
  | concat e f ih1 ih2 =>
    simp only [Den, Nullable]
    constructor
    · rintro ⟨u, v, hw, h1, h2⟩
      obtain ⟨rfl, rfl⟩ := List.append_eq_nil_iff.1 hw.symm
      exact ⟨(ih1 _).1 h1, (ih2 _).1 h2⟩
    · rintro ⟨h1, h2⟩
      exact ⟨[], [], rfl, (ih1 _).2 h1, (ih2 _).2 h2⟩
  | disj e f ih1 ih2 => simp only [Den, Nullable, ih1, ih2]
  | conj e f ih1 ih2 => simp only [Den, Nullable, ih1, ih2]
  | within e I ih => simp only [Den, Nullable, ih, endTime_nil, sub_self]

theorem not_nullable {e : TRE K} (h : e.EpsilonFree) : ¬ e.Nullable := by
  induction e with
  | atom c => simp [Nullable]
  | epsilon => exact absurd h (by simp [EpsilonFree])
  | plus e ih => exact ih h
  | concat e f ih1 _ => exact fun hn => ih1 h.1 hn.1
  | disj e f ih1 ih2 => exact fun hn => hn.elim (ih1 h.1) (ih2 h.2)
  | conj e f ih1 _ => exact fun hn => ih1 h.1 hn.1
  | within e I ih => exact fun hn => ih h hn.1

theorem EpsilonFree.regular {e : TRE K} (h : e.EpsilonFree) : e.Regular := by
  induction e with
  | atom c => trivial
  | epsilon => trivial
  | plus e ih => exact ⟨ih h, not_nullable h⟩
  | concat e f ih1 ih2 => exact ⟨ih1 h.1, ih2 h.2, fun hn => absurd hn (not_nullable h.2)⟩
  | disj e f ih1 ih2 => exact ⟨ih1 h.1, ih2 h.2⟩
  | conj e f ih1 ih2 => exact ⟨ih1 h.1, ih2 h.2, not_nullable h.1, not_nullable h.2⟩
  | within e I ih => exact ⟨ih h, not_nullable h⟩

end TRE

/-- What the translation of `e` guarantees. -/
structure TransOk (alloc : Nat → Nat) (heap : Nat → TAState Nat) (k k' : Nat) (e : TRE K) (A : TA Nat) : Prop where
  wf : A.Wf
  one : ∀ s ∈ A.states, ∀ s' ∈ A.states, (A.st s).isMatch = true → (A.st s').isMatch = true → s = s'
  live : ∀ s ∈ A.states, (A.st s).next = [] → (A.st s).isMatch = true
  le : k ≤ k'
  range : ∀ s ∈ A.states, ∃ i, k ≤ i ∧ i < k' ∧ s = alloc i
  frame : ∀ a, (∀ i, k ≤ i → i < k' → a ≠ alloc i) → A.st a = heap a
  clocks : A.clockSize = e.clocks
  lang : e.Regular → ∀ t0 w, A.AcceptsFrom t0 w ↔ e.Den t0 w
  zinit : e.Regular → ∀ s ∈ A.states, (A.st s).zeroDuration = true → (A.st s).isMatch = true → s ∈ A.init
  nonnull : e.Regular → ∀ s ∈ A.states, ∀ a, ∀ t ∈ A.edges s a, t.target ≠ none
  consts : ∀ P : Int → Prop, e.Consts P → ∀ s ∈ A.states, ∀ a, ∀ t ∈ A.edges s a, ∀ g ∈ t.guard, P g.c

/-- The end of the translation. -/
theorem TransOk.finish {alloc : Nat → Nat} {heap : Nat → TAState Nat} {k k' : Nat} {e : TRE K} {A : TA Nat} (wf : A.Wf) (le : k ≤ k')
    (range : ∀ s ∈ A.states, ∃ i, k ≤ i ∧ i < k' ∧ s = alloc i)
    (frame : ∀ a, (∀ i, k ≤ i → i < k' → a ≠ alloc i) → A.st a = heap a)
    (clocks : A.clockSize = e.clocks)
    (lang : e.Regular → ∀ t0 w, A.AcceptsFrom t0 w ↔ e.Den t0 w)
    (zinit : e.Regular → ∀ s ∈ A.states, (A.st s).zeroDuration = true → (A.st s).isMatch = true → s ∈ A.init)
    (nonnull : e.Regular → ∀ s ∈ A.states, ∀ a, ∀ t ∈ A.edges s a, t.target ≠ none)
    (consts : ∀ P : Int → Prop, e.Consts P → ∀ s ∈ A.states, ∀ a, ∀ t ∈ A.edges s a, ∀ g ∈ t.guard, P g.c) :
    TransOk alloc heap k k' e A.finish := by
  obtain ⟨hk, live⟩ := TA.finish_spec wf
  refine ⟨hk.wf, hk.one, live, le, fun s hs => range s (hk.sub s hs), fun a ha => ?_, ?_, fun hr t0 w => (hk.lang t0 w).trans (lang hr t0 w),
    fun hr => hk.zinit (zinit hr), fun hr => hk.nonnull (nonnull hr), ?_⟩
  · rw [hk.frame a, frame a ha]
    intro hs
    obtain ⟨i, h1, h2, h3⟩ := range a hs
    exact ha i h1 h2 h3
  · rw [TA.clockSize, hk.maxC]; exact clocks
  · intro P hP s hs a t ht g hg
    obtain ⟨t', ht', hgt⟩ := hk.guard s hs a t ht
    exact consts P hP s (hk.sub s hs) a t' ht' g (hgt ▸ hg)

/-- Without the empty word no state has the flag. -/
theorem TransOk.nozero {alloc : Nat → Nat} {heap : Nat → TAState Nat} {k k' : Nat} {e : TRE K} {A : TA Nat}
    (h : TransOk alloc heap k k' e A) (hr : e.Regular) (hn : ¬ e.Nullable) : ∀ s ∈ A.states, (A.st s).zeroDuration = false := by
  intro s hs
  by_contra hz
  simp only [Bool.not_eq_false] at hz
  have hm := h.live s hs (h.wf.zterm s hs hz)
  refine hn ((e.den_nil 0).1 ((h.lang hr 0 []).1 ?_))
  exact (TA.acceptsFrom_iff _ _ _).2 ⟨s, h.zinit hr s hs hz hm, hm⟩

section two
variable {alloc : Nat → Nat} (hinj : Function.Injective alloc) {heap : Nat → TAState Nat} {k k1 k2 : Nat} {e f : TRE K} {A B : TA Nat}
  (hA : TransOk alloc heap k k1 e A) (hB : TransOk alloc A.st k1 k2 f B)
include hinj hA hB

theorem two_disjoint : ∀ s ∈ A.states, s ∉ B.states := by
  intro s hs hs'
  obtain ⟨i, _, hi, rfl⟩ := hA.range s hs
  obtain ⟨j, hj, _, hij⟩ := hB.range _ hs'
  have := hinj hij
  omega

theorem two_keep : ∀ s ∈ A.states, B.st s = A.st s := by
  intro s hs
  refine hB.frame s fun i hi1 _ hsi => ?_
  obtain ⟨j, _, hj, hjs⟩ := hA.range s hs
  have := hinj (hjs.symm.trans hsi)
  omega

theorem two_frame {a : Nat} (ha : ∀ i, k ≤ i → i < k2 → a ≠ alloc i) : B.st a = heap a := by
  have h1 := hA.le
  have h2 := hB.le
  rw [hB.frame a fun i hi1 hi2 => ha i (by omega) hi2, hA.frame a fun i hi1 hi2 => ha i hi1 (by omega)]

theorem two_range {s : Nat} (hs : s ∈ A.states ∨ s ∈ B.states) : ∃ i, k ≤ i ∧ i < k2 ∧ s = alloc i := by
  have h1 := hA.le
  have h2 := hB.le
  rcases hs with hs | hs
  · obtain ⟨i, hi1, hi2, h⟩ := hA.range s hs
    exact ⟨i, hi1, by omega, h⟩
  · obtain ⟨i, hi1, hi2, h⟩ := hB.range s hs
    exact ⟨i, by omega, hi2, h⟩

theorem two_wf : ({ A with st := B.st } : TA Nat).Wf := hA.wf.congr (two_keep hinj hA hB)

theorem TransOk.concat (he : e.Plain) (hf : f.Plain) : TransOk alloc heap k k2 (.concat e f) (A.concat2 B).finish := by
  have hkeep := two_keep hinj hA hB
  have hd := two_disjoint hinj hA hB
  have hw := two_wf hinj hA hB
  have hss : ({ A with st := B.st } : TA Nat).st = B.st := rfl
  have heq : A.concat2 B = ({ A with st := B.st } : TA Nat).concat2 B := rfl
  have hn : B.clockSize ≤ 256 := by rw [hB.clocks]; exact hf.clocks
  have hlangA : ∀ t0 (w : TWord K), ({ A with st := B.st } : TA Nat).AcceptsFrom t0 w ↔ A.AcceptsFrom t0 w :=
    fun t0 w => TA.accepts_congr hA.wf hkeep t0 w
  have hstates : ∀ s, s ∈ (A.concat2 B).states → s ∈ A.states ∨ s ∈ B.states := fun s hs => List.mem_append.1 hs
  refine TransOk.finish ?_ (hA.le.trans hB.le) (fun s hs => two_range hinj hA hB (hstates s hs)) (fun a ha => ?_) ?_ ?_ ?_ ?_ ?_
  · rw [heq]; exact TA.concat2_wf hss hw hB.wf hd hn
  · have hna : a ∉ A.states := fun hs => by
      obtain ⟨i, h1, h2, h3⟩ := two_range hinj hA hB (Or.inl hs)
      exact ha i h1 h2 h3
    have hnb : a ∉ B.init := fun hs => by
      obtain ⟨i, h1, h2, h3⟩ := two_range hinj hA hB (Or.inr (hB.wf.init a hs))
      exact ha i h1 h2 h3
    rw [heq, TA.concat2_right hss hw hB.wf hd hna, if_neg fun h => hnb h.2]
    exact two_frame hinj hA hB ha
  · rw [heq, TA.concat2_clockSize hss hw hB.wf hd]
    simp only [TRE.clocks, ← hA.clocks, ← hB.clocks]
    rfl
  · intro hr t0 w
    rw [heq, TA.accepts_concat2 hss hw hB.wf hd hn]
    simp only [TRE.Den, hlangA, hA.lang hr.1, hB.lang hr.2.1]
  · intro hr s hs hz hm
    rcases hstates s hs with hs | hs
    · rw [heq, TA.concat2_left hss hw hB.wf hd hs] at hm
      simp at hm
    · rw [heq, TA.concat2_right hss hw hB.wf hd (fun h => hd s h hs)] at hz hm
      split at hz
      · simp at hz
      · rename_i hc
        rw [if_neg hc] at hm
        have hsi := hB.zinit hr.2.1 s hs hz hm
        have hnull : f.Nullable := (f.den_nil 0).1 ((hB.lang hr.2.1 0 []).1 ((TA.acceptsFrom_iff _ _ _).2 ⟨s, hsi, hm⟩))
        obtain ⟨t0, w, hden⟩ := hr.2.2 hnull
        rw [← hA.lang hr.1, ← hlangA] at hden
        rcases TA.hasAccEdge_of_accepts hw hden with h | ⟨i, hi, hm'⟩
        · exact absurd ⟨h, hsi⟩ hc
        · have hany : (A.init.any fun s => (B.st s).isMatch) = true := List.any_eq_true.2 ⟨i, hi, hm'⟩
          simp only [TA.concat2, hany, if_true]
          exact List.mem_append_right _ hsi
  · intro hr s hs a t ht
    rcases hstates s hs with hs | hs
    · rw [heq, TA.concat2_edges_left hss hw hB.wf hd hs, TA.mem_concatEdges hss hw hB.wf hd] at ht
      have : ∀ t ∈ ({ A with st := B.st } : TA Nat).edges s a, t.target ≠ none := by
        intro t ht
        simp only [TA.edges, hkeep s hs] at ht
        exact hA.nonnull hr.1 s hs a t ht
      rcases ht with ht | ⟨e', he', q', _, _, i, hi, rfl⟩
      · exact this t ht
      · simp
    · rw [heq, TA.concat2_edges_right hss hw hB.wf hd (fun h => hd s h hs)] at ht
      exact hB.nonnull hr.2.1 s hs a t ht
  · intro P hP s hs a t ht
    rcases hstates s hs with hs | hs
    · rw [heq, TA.concat2_edges_left hss hw hB.wf hd hs, TA.mem_concatEdges hss hw hB.wf hd] at ht
      have : ∀ t ∈ ({ A with st := B.st } : TA Nat).edges s a, ∀ g ∈ t.guard, P g.c := by
        intro t ht
        simp only [TA.edges, hkeep s hs] at ht
        exact hA.consts P hP.1 s hs a t ht
      rcases ht with ht | ⟨e', he', q', _, _, i, hi, rfl⟩
      · exact this t ht
      · exact this e' he'
    · rw [heq, TA.concat2_edges_right hss hw hB.wf hd (fun h => hd s h hs)] at ht
      exact hB.consts P hP.2 s hs a t ht

theorem TransOk.disj : TransOk alloc heap k k2 (.disj e f) (A.disjTA B).finish := by
  have hkeep := two_keep hinj hA hB
  have hd := two_disjoint hinj hA hB
  have hw := two_wf hinj hA hB
  have hss : ({ A with st := B.st } : TA Nat).st = B.st := rfl
  have heq : A.disjTA B = ({ A with st := B.st } : TA Nat).disjTA B := rfl
  have hlangA : ∀ t0 (w : TWord K), ({ A with st := B.st } : TA Nat).AcceptsFrom t0 w ↔ A.AcceptsFrom t0 w :=
    fun t0 w => TA.accepts_congr hA.wf hkeep t0 w
  have hstates : ∀ s, s ∈ (A.disjTA B).states → s ∈ A.states ∨ s ∈ B.states := fun s hs => List.mem_append.1 hs
  refine TransOk.finish ?_ (hA.le.trans hB.le) (fun s hs => two_range hinj hA hB (hstates s hs)) (fun a ha => two_frame hinj hA hB ha)
    ?_ ?_ ?_ ?_ ?_
  · rw [heq]; exact TA.disj_wf hss hw hB.wf hd
  · simp only [TA.disjTA, TA.clockSize, TRE.clocks, maxVec_length, ← hA.clocks, ← hB.clocks]
  · intro hr t0 w
    rw [heq, TA.accepts_disj hss hw hB.wf hd]
    simp only [TRE.Den, hlangA, hA.lang hr.1, hB.lang hr.2]
  · intro hr s hs hz hm
    rcases hstates s hs with hs | hs
    · have hz' : (A.st s).zeroDuration = true := by rw [← hkeep s hs]; exact hz
      have hm' : (A.st s).isMatch = true := by rw [← hkeep s hs]; exact hm
      exact List.mem_append_left _ (hA.zinit hr.1 s hs hz' hm')
    · exact List.mem_append_right _ (hB.zinit hr.2 s hs hz hm)
  · intro hr s hs a t ht
    rcases hstates s hs with hs | hs
    · have : t ∈ A.edges s a := by
        have h2 : t ∈ (B.st s).next.at' a := ht
        rw [hkeep s hs] at h2
        exact h2
      exact hA.nonnull hr.1 s hs a t this
    · exact hB.nonnull hr.2 s hs a t ht
  · intro P hP s hs a t ht
    rcases hstates s hs with hs | hs
    · have : t ∈ A.edges s a := by
        have h2 : t ∈ (B.st s).next.at' a := ht
        rw [hkeep s hs] at h2
        exact h2
      exact hA.consts P hP.1 s hs a t this
    · exact hB.consts P hP.2 s hs a t ht

theorem TransOk.conj (hn : e.clocks + f.clocks ≤ 256) :
    TransOk alloc heap k (A.conjTA alloc k2 B).2 (.conj e f) (A.conjTA alloc k2 B).1.finish := by
  have hkeep := two_keep hinj hA hB
  have hw := two_wf hinj hA hB
  set L : TA Nat := { A with st := B.st } with hLdef
  have hlangA : ∀ t0 (w : TWord K), L.AcceptsFrom t0 w ↔ A.AcceptsFrom t0 w := fun t0 w => TA.accepts_congr hA.wf hkeep t0 w
  have hn' : L.clockSize + B.clockSize ≤ 256 := by
    rw [hB.clocks]
    have : L.clockSize = e.clocks := hA.clocks
    rw [this]; exact hn
  have h1 := hA.le
  have h2 := hB.le
  have heq : A.conjTA alloc k2 B = ((L.intersection B).place alloc k2 B.st, k2 + (L.intersection B).states.length) := rfl
  rw [heq]
  simp only
  have hzL : TRE.Regular (.conj e f) → ∀ s ∈ L.states, (L.st s).zeroDuration = false := by
    intro hr s hs
    have : L.st s = A.st s := hkeep s hs
    rw [this]
    exact hA.nozero hr.1 hr.2.2.1 s hs
  have hzB : TRE.Regular (.conj e f) → ∀ s ∈ B.states, (B.st s).zeroDuration = false := fun hr => hB.nozero hr.2.1 hr.2.2.2
  have hrange : ∀ s ∈ ((L.intersection B).place alloc k2 B.st).states, ∃ p ∈ (L.intersection B).states,
      s = TA.placeName alloc k2 (L.intersection B).states p := by
    intro s hs
    obtain ⟨p, hp, rfl⟩ := List.mem_map.1 hs
    exact ⟨p, hp, rfl⟩
  refine TransOk.finish (TA.conj_wf hw hB.wf hn' hinj _ _) (by omega) (fun s hs => ?_) (fun a ha => ?_) ?_ ?_ ?_ ?_ ?_
  · obtain ⟨p, hp, rfl⟩ := hrange s hs
    obtain ⟨i, hi1, hi2, h⟩ := TA.placeName_lt alloc k2 hp
    exact ⟨i, by omega, hi2, h⟩
  · have hf : (L.intersection B).states.find? (fun q => TA.placeName alloc k2 (L.intersection B).states q == a) = none := by
      rw [List.find?_eq_none]
      intro p hp hpa
      simp only [beq_iff_eq] at hpa
      obtain ⟨i, hi1, hi2, h⟩ := TA.placeName_lt alloc k2 hp
      exact ha i (by omega) hi2 (hpa.symm.trans h)
    simp only [TA.place, hf]
    exact two_frame hinj hA hB fun i hi1 hi2 => ha i hi1 (by omega)
  · have : L.clockSize = e.clocks := hA.clocks
    simp only [TRE.clocks, ← this, ← hB.clocks]
    simp [TA.place, TA.intersection, TA.clockSize]
  · intro hr t0 w
    rw [TA.accepts_conj hw hB.wf hn' (hzL hr) (hzB hr) hinj, hlangA, hA.lang hr.1, hB.lang hr.2.1]
    rfl
  · intro hr s hs hz _
    obtain ⟨⟨s1, s2⟩, hp, rfl⟩ := hrange s hs
    rw [TA.place_st hinj hp] at hz
    simp only [TA.renameState, TA.intersection] at hz
    rw [hzL hr s1 (TA.mem_product.1 hp).1] at hz
    simp at hz
  · intro hr s hs a t ht
    obtain ⟨⟨s1, s2⟩, hp, rfl⟩ := hrange s hs
    rw [TA.place_edges hinj hp] at ht
    obtain ⟨t', ht', rfl⟩ := List.mem_map.1 ht
    obtain ⟨e1, he1, e2, he2, q1, q2, hq1, hq2, rfl⟩ := (TA.mem_conj_edges hw hB.wf hp).1 ht'
    have m1 := hw.closed s1 (TA.mem_product.1 hp).1 a e1 he1 q1 hq1
    have m2 := hB.wf.closed s2 (TA.mem_product.1 hp).2.1 a e2 he2 q2 hq2
    simp only [TA.productTransition, TA.toIState]
    rw [if_pos ⟨m1, m2, (hzL hr q1 m1).trans (hzB hr q2 m2).symm⟩]
    simp
  · intro P hP s hs a t ht
    obtain ⟨⟨s1, s2⟩, hp, rfl⟩ := hrange s hs
    rw [TA.place_edges hinj hp] at ht
    obtain ⟨t', ht', rfl⟩ := List.mem_map.1 ht
    obtain ⟨e1, he1, e2, he2, q1, q2, hq1, hq2, rfl⟩ := (TA.mem_conj_edges hw hB.wf hp).1 ht'
    intro g hg
    simp only [TA.productTransition, List.mem_append, List.mem_map] at hg
    rcases hg with hg | ⟨g', hg', rfl⟩
    · have hs1 := (TA.mem_product.1 hp).1
      have he1' : e1 ∈ (B.st s1).next.at' a := he1
      rw [hkeep s1 hs1] at he1'
      exact hA.consts P hP.1 s1 hs1 a e1 he1' g hg
    · exact hB.consts P hP.2 s2 (TA.mem_product.1 hp).2.1 a e2 he2 g' hg'

end two

theorem TransOk.plus {alloc : Nat → Nat} {heap : Nat → TAState Nat} {k k1 : Nat} {e : TRE K} {A : TA Nat}
    (hA : TransOk alloc heap k k1 e A) (he : e.Plain) : TransOk alloc heap k k1 (.plus e) A.plusTA.finish := by
  have hn : A.clockSize ≤ 256 := by rw [hA.clocks]; exact he.clocks
  refine TransOk.finish (TA.plus_wf hA.wf hn) hA.le hA.range (fun a ha => ?_) hA.clocks ?_ ?_ ?_ ?_
  · rw [← hA.frame a ha]
    have hs : a ∉ A.states := fun hs => by
      obtain ⟨i, h1, h2, h3⟩ := hA.range a hs
      exact ha i h1 h2 h3
    simp only [TA.plusTA, TA.mapSt, if_neg hs]
  · intro hr t0 w
    rw [TA.accepts_plus hA.wf hn (hA.nozero hr.1 hr.2)]
    · have : A.AcceptsFrom = e.Den := by
        funext t0 w
        exact propext (hA.lang hr.1 t0 w)
      rw [this]
      rfl
    · intro t0 h
      exact hr.2 ((e.den_nil t0).1 ((hA.lang hr.1 t0 []).1 h))
  · intro hr s (hs : s ∈ A.states) hz _
    rw [TA.plus_st hs] at hz
    simp only [TAState.mapEdges, hA.nozero hr.1 hr.2 s hs] at hz
    simp at hz
  · intro hr s (hs : s ∈ A.states) a t ht
    rw [TA.plus_edges hs, TA.mem_plusEdges] at ht
    rcases ht with ht | ⟨e', he', q', _, _, _, i, hi, _, rfl⟩
    · exact hA.nonnull hr.1 s hs a t ht
    · simp
  · intro P hP s (hs : s ∈ A.states) a t ht
    rw [TA.plus_edges hs, TA.mem_plusEdges] at ht
    rcases ht with ht | ⟨e', he', q', _, _, _, i, hi, _, rfl⟩
    · exact hA.consts P hP s hs a t ht
    · exact hA.consts P hP s hs a e' he'

theorem TransOk.within {alloc : Nat → Nat} {heap : Nat → TAState Nat} {k k1 : Nat} {e : TRE K} {A : TA Nat}
    (hA : TransOk alloc heap k k1 e A) {I : Interval K} (he : (TRE.within e I).Plain) :
    ∃ B, A.withinTA I = .ok B ∧ TransOk alloc heap k (k1 + 1) (.within e I) B.finish := by
  obtain ⟨_, hn, ⟨l, ls, hl⟩, ⟨u, us, hu⟩⟩ := he
  have hn' : A.clockSize < 256 := by rw [hA.clocks]; exact hn
  refine ⟨_, TA.within_eq hA.wf hl hu, ?_⟩
  have h1 := hA.le
  refine TransOk.finish (TA.restrict_wf hA.wf _ ?_) (by omega) (fun s hs => ?_) (fun a ha => ?_) ?_ ?_ ?_ ?_ ?_
  · intro c hc
    simp only [TA.withinGuard, List.mem_cons, List.not_mem_nil, or_false] at hc
    rcases hc with rfl | rfl <;> simp [Nat.mod_eq_of_lt hn']
  · obtain ⟨i, hi1, hi2, h⟩ := hA.range s hs
    exact ⟨i, hi1, by omega, h⟩
  · have hs : a ∉ A.states := fun hs => by
      obtain ⟨i, h1, h2, h3⟩ := hA.range a hs
      exact ha i h1 (by omega) h3
    rw [← hA.frame a fun i hi1 hi2 => ha i hi1 (by omega)]
    simp only [TA.restrictTA, if_neg hs]
  · simp only [TRE.clocks, ← hA.clocks]
    simp [TA.restrictTA, TA.clockSize]
  · intro hr t0 w
    rw [TA.accepts_within hA.wf hn' hl hu (hA.nozero hr.1 hr.2), hA.lang hr.1]
    · rfl
    · intro h
      exact hr.2 ((e.den_nil t0).1 ((hA.lang hr.1 t0 []).1 h))
  · intro hr s (hs : s ∈ A.states) hz _
    rw [TA.restrict_st _ hs] at hz
    simp at hz
  · intro hr s (hs : s ∈ A.states) a t ht
    rw [TA.restrict_edges _ hs] at ht
    obtain ⟨t', ht', rfl⟩ := List.mem_map.1 ht
    have := hA.nonnull hr.1 s hs a t' ht'
    split <;> exact this
  · intro P hP s (hs : s ∈ A.states) a t ht
    rw [TA.restrict_edges _ hs] at ht
    obtain ⟨t', ht', rfl⟩ := List.mem_map.1 ht
    have := hA.consts P hP.1 s hs a t' ht'
    intro g hg
    split at hg
    · rcases List.mem_append.1 hg with hg | hg
      · exact this g hg
      · simp only [TA.withinGuard, List.mem_cons, List.not_mem_nil, or_false] at hg
        rcases hg with rfl | rfl
        · exact hP.2 u us (.inr hu)
        · exact hP.2 l ls (.inl hl)
    · exact this g hg

theorem TransOk.atom {alloc : Nat → Nat} (hinj : Function.Injective alloc) (heap : Nat → TAState Nat) (k : Nat) {c : Alphabet}
    (hc : c ≠ epsilon) : TransOk alloc heap k (k + 2) (.atom c : TRE K) (TA.atomTA alloc k heap c).finish := by
  have hne : alloc (k + 1) ≠ alloc k := fun h => by have := hinj h; omega
  have hst0 : (TA.atomTA alloc k heap c).st (alloc k) = ⟨false, false, [(c, [⟨some (alloc (k + 1)), [], []⟩])]⟩ := by
    simp [TA.atomTA]
  have hst1 : (TA.atomTA alloc k heap c).st (alloc (k + 1)) = ⟨true, false, []⟩ := by
    simp [TA.atomTA, hne]
  have hmem : ∀ s, s ∈ (TA.atomTA alloc k heap c).states ↔ s = alloc k ∨ s = alloc (k + 1) := fun s => by simp [TA.atomTA]
  have he0 : ∀ a, (TA.atomTA alloc k heap c).edges (alloc k) a = if c = a then [⟨some (alloc (k + 1)), [], []⟩] else [] := by
    intro a; rw [TA.edges, hst0, Next.at'_cons, Next.at'_nil]
  have he1 : ∀ a, (TA.atomTA alloc k heap c).edges (alloc (k + 1)) a = [] := by
    intro a; rw [TA.edges, hst1, Next.at'_nil]
  have hed : ∀ s ∈ (TA.atomTA alloc k heap c).states, ∀ a, ∀ e ∈ (TA.atomTA alloc k heap c).edges s a,
      a = c ∧ e = ⟨some (alloc (k + 1)), [], []⟩ := by
    intro s hs a e he
    rcases (hmem s).1 hs with rfl | rfl
    · rw [he0] at he
      split at he
      · rename_i h; exact ⟨h.symm, by simpa using he⟩
      · simp at he
    · rw [he1] at he; simp at he
  refine TransOk.finish ⟨?_, ?_, ?_, ?_, ?_, ?_, ?_, ?_, ?_, ?_⟩ (by omega) ?_ ?_ rfl ?_ ?_ ?_ ?_
  · simp [TA.atomTA, hne.symm]
  · simp [TA.atomTA]
  · intro s hs
    rcases (hmem s).1 hs with rfl | rfl
    · simp [hst0]
    · simp [hst1]
  · intro s hs
    rcases (hmem s).1 hs with rfl | rfl
    · simp [hst0]
    · simp [hst1]
  · intro s hs a e he q hq
    obtain ⟨_, rfl⟩ := hed s hs a e he
    simp only [Option.some.injEq] at hq
    exact (hmem q).2 (Or.inr hq.symm)
  · intro s hs a e he g hg
    obtain ⟨_, rfl⟩ := hed s hs a e he
    simp at hg
  · intro s hs a e he g hg
    obtain ⟨_, rfl⟩ := hed s hs a e he
    simp at hg
  · intro s hs
    rw [List.eq_nil_iff_forall_not_mem]
    intro e he
    exact hc (hed s hs _ e he).1.symm
  · intro s hs hm
    rcases (hmem s).1 hs with rfl | rfl
    · simp [hst0] at hm
    · simp [hst1]
  · intro s hs hm
    rcases (hmem s).1 hs with rfl | rfl
    · simp [hst0] at hm
    · simp [hst1]
  · intro s hs
    rcases (hmem s).1 hs with rfl | rfl
    · exact ⟨k, by omega, by omega, rfl⟩
    · exact ⟨k + 1, by omega, by omega, rfl⟩
  · intro a ha
    have h1 := ha k (by omega) (by omega)
    have h2 := ha (k + 1) (by omega) (by omega)
    simp [TA.atomTA, h1, h2]
  · intro _ t0 w
    have hinit : (TA.atomTA alloc k heap c).init = [alloc k] := rfl
    rw [TA.acceptsFrom_iff]
    simp only [hinit, List.mem_singleton, exists_eq_left, TRE.Den]
    cases w with
    | nil => simp [TA.Acc, hst0]
    | cons p w =>
      obtain ⟨a, t⟩ := p
      simp only [TA.Acc, he0]
      constructor
      · rintro ⟨e, he, q, hq, _, hacc⟩
        split at he
        · rename_i hca
          simp only [List.mem_singleton] at he
          subst he
          simp only [Option.some.injEq] at hq
          subst hq
          cases w with
          | nil => exact ⟨t, by rw [hca]⟩
          | cons p w =>
            obtain ⟨b, t'⟩ := p
            simp only [TA.Acc, he1] at hacc
            simp at hacc
        · simp at he
      · rintro ⟨t', h⟩
        simp only [List.cons.injEq, Prod.mk.injEq] at h
        obtain ⟨⟨rfl, rfl⟩, rfl⟩ := h
        refine ⟨_, by rw [if_pos rfl]; exact List.mem_singleton.2 rfl, _, rfl, by simp [GuardHolds], ?_⟩
        simp [TA.Acc, hst1]
  · intro _ s hs hz
    rcases (hmem s).1 hs with rfl | rfl
    · simp [hst0] at hz
    · simp [hst1] at hz
  · intro _ s hs a e he
    obtain ⟨_, rfl⟩ := hed s hs a e he
    simp
  · intro _ _ s hs a e he g hg
    obtain ⟨_, rfl⟩ := hed s hs a e he
    simp at hg

theorem TransOk.epsilon (alloc : Nat → Nat) (heap : Nat → TAState Nat) (k : Nat) :
    TransOk alloc heap k (k + 1) (.epsilon : TRE K) (TA.epsilonTA alloc k heap).finish := by
  have hst0 : (TA.epsilonTA alloc k heap).st (alloc k) = ⟨true, true, []⟩ := by simp [TA.epsilonTA]
  have hmem : ∀ s, s ∈ (TA.epsilonTA alloc k heap).states ↔ s = alloc k := fun s => by simp [TA.epsilonTA]
  have he0 : ∀ s ∈ (TA.epsilonTA alloc k heap).states, ∀ a, (TA.epsilonTA alloc k heap).edges s a = [] := by
    intro s hs a; rw [(hmem s).1 hs, TA.edges, hst0, Next.at'_nil]
  refine TransOk.finish ⟨?_, ?_, ?_, ?_, ?_, ?_, ?_, ?_, ?_, ?_⟩ (by omega) ?_ ?_ rfl ?_ ?_ ?_ ?_
  · simp [TA.epsilonTA]
  · simp [TA.epsilonTA]
  · intro s hs; rw [(hmem s).1 hs]; simp [hst0]
  · intro s hs; rw [(hmem s).1 hs]; simp [hst0]
  · intro s hs a e he; rw [he0 s hs] at he; simp at he
  · intro s hs a e he; rw [he0 s hs] at he; simp at he
  · intro s hs a e he; rw [he0 s hs] at he; simp at he
  · intro s hs; exact he0 s hs _
  · intro s hs _; rw [(hmem s).1 hs]; simp [hst0]
  · intro s hs _; rw [(hmem s).1 hs]; simp [hst0]
  · intro s hs; exact ⟨k, by omega, by omega, (hmem s).1 hs⟩
  · intro a ha
    have h1 := ha k (by omega) (by omega)
    simp [TA.epsilonTA, h1]
  · intro _ t0 w
    have hinit : (TA.epsilonTA alloc k heap).init = [alloc k] := rfl
    rw [TA.acceptsFrom_iff]
    simp only [hinit, List.mem_singleton, exists_eq_left, TRE.Den]
    cases w with
    | nil => simp [TA.Acc, hst0]
    | cons p w =>
      obtain ⟨a, t⟩ := p
      simp [TA.Acc, he0 (alloc k) ((hmem _).2 rfl)]
  · intro _ s hs _ _
    rw [(hmem s).1 hs]; simp [TA.epsilonTA]
  · intro _ s hs a e he; rw [he0 s hs] at he; simp at he
  · intro _ _ s hs a e he; rw [he0 s hs] at he; simp at he

theorem TRE.toEventTA_spec {alloc : Nat → Nat} (hinj : Function.Injective alloc) (e : TRE K) (he : e.Plain)
    (heap : Nat → TAState Nat) (k : Nat) :
    ∃ A k', e.toEventTA alloc heap k = .ok (A, k') ∧ TransOk alloc heap k k' e A := by
  induction e generalizing heap k with
  | atom c => exact ⟨_, _, rfl, TransOk.atom hinj heap k he⟩
  | epsilon => exact ⟨_, _, rfl, TransOk.epsilon alloc heap k⟩
  | plus e ih =>
    obtain ⟨A, k1, h1, hA⟩ := ih he heap k
    exact ⟨_, _, by simp only [toEventTA, h1]; rfl, hA.plus he⟩
  | concat e f ih1 ih2 =>
    obtain ⟨A, k1, h1, hA⟩ := ih1 he.1 heap k
    obtain ⟨B, k2, h2, hB⟩ := ih2 he.2 A.st k1
    refine ⟨_, _, ?_, TransOk.concat hinj hA hB he.1 he.2⟩
    simp only [toEventTA, h1, bind, Except.bind, h2]; rfl
  | disj e f ih1 ih2 =>
    obtain ⟨A, k1, h1, hA⟩ := ih1 he.1 heap k
    obtain ⟨B, k2, h2, hB⟩ := ih2 he.2 A.st k1
    refine ⟨_, _, ?_, TransOk.disj hinj hA hB⟩
    simp only [toEventTA, h1, bind, Except.bind, h2]; rfl
  | conj e f ih1 ih2 =>
    obtain ⟨A, k1, h1, hA⟩ := ih1 he.1 heap k
    obtain ⟨B, k2, h2, hB⟩ := ih2 he.2.1 A.st k1
    refine ⟨_, _, ?_, TransOk.conj hinj hA hB he.2.2⟩
    simp only [toEventTA, h1, bind, Except.bind, h2]; rfl
  | within e I ih =>
    obtain ⟨A, k1, h1, hA⟩ := ih he.1 heap k
    obtain ⟨B, h2, hB⟩ := hA.within he
    refine ⟨_, _, ?_, hB⟩
    simp only [toEventTA, h1, bind, Except.bind, h2]; rfl

end Verif
