import Verif.Lemmas.TREClusters
import Verif.Spec.DNF

/-!
# The last clock of translated expressions is compared

For expressions without conjunction, every automaton made by the translation has a transition which compares the last clock; it
stays when states without transitions are removed.
-/

set_option linter.unusedSectionVars false

namespace Verif

namespace TA

/-- An accepting state can be reached by transitions, guards left aside. -/
inductive Good (A : TA Nat) : Nat → Prop
  | acc {s : Nat} : s ∈ A.states → (A.st s).isMatch = true → Good A s
  | step {s q : Nat} {a : Alphabet} {t : Transition Nat} : s ∈ A.states → t ∈ A.edges s a → t.target = some q → Good A q → Good A s

/-- A transition with a guard for the last clock which leads to an accepting state. -/
def Compared (A : TA Nat) : Prop :=
  0 < A.clockSize → ∃ s ∈ A.states, ∃ a, ∃ t ∈ A.edges s a, ∃ q, t.target = some q ∧ A.Good q ∧ ∃ g ∈ t.guard, g.x + 1 = A.clockSize

/-- An initial state from which an accepting state can be reached by at least one transition. -/
def Starts (A : TA Nat) : Prop := ∃ i ∈ A.init, A.Good i ∧ (A.st i).isMatch = false

theorem Good.mem {A : TA Nat} {s : Nat} (h : A.Good s) : s ∈ A.states := by
  cases h <;> assumption

theorem Good.next_ne {A : TA Nat} {s : Nat} (h : A.Good s) (hm : (A.st s).isMatch = false) : (A.st s).next ≠ [] := by
  cases h with
  | acc hs h => rw [hm] at h; cases h
  | step hs ht hq hg => intro hn; rw [edges_nil hn] at ht; cases ht

theorem Good.notStuck {A : TA Nat} {s : Nat} (h : A.Good s) : s ∉ A.stuck := by
  intro hs
  obtain ⟨-, hm, hn⟩ := mem_stuck.1 hs
  exact h.next_ne hm hn

theorem next_ne_of_edge {A : TA Nat} {s : Nat} {a : Alphabet} {t : Transition Nat} (h : t ∈ A.edges s a) : (A.st s).next ≠ [] := by
  intro hn; rw [edges_nil hn] at h; cases h

/-- The last transition of a path. -/
theorem Good.last {A : TA Nat} {s : Nat} (h : A.Good s) (hm : (A.st s).isMatch = false) :
    ∃ s ∈ A.states, ∃ a, ∃ t ∈ A.edges s a, ∃ q ∈ A.states, t.target = some q ∧ (A.st q).isMatch = true := by
  induction h with
  | acc hs h => rw [hm] at h; cases h
  | @step s q a t hs ht hq hg ih =>
    cases hb : (A.st q).isMatch with
    | true => exact ⟨s, hs, a, t, ht, q, hg.mem, hq, hb⟩
    | false => exact ih hb

/-! ### The end of the translation -/

theorem rep_edge {A : TA Nat} {s : Nat} {a : Alphabet} {t : Transition Nat} (h : t ∈ A.edges s a) : rep A.terminals s = s := by
  rw [rep, if_neg]
  intro hs
  exact next_ne_of_edge h (mem_terminals.1 hs).2.2

theorem Good.merge {A : TA Nat} (hw : A.Wf) {s : Nat} (h : A.Good s) : A.mergeAccepting.Good (rep A.terminals s) := by
  induction h with
  | @acc s hs hm =>
    have ht : s ∈ A.terminals := mem_terminals.2 ⟨hs, hm, hw.term s hs hm⟩
    refine .acc (rep_states hw.nodup hs) ?_
    rw [merge_isMatch]
    exact (mem_terminals.1 (rep_mem ht)).2.1
  | @step s q a t hs ht hq hg ih =>
    have hr := rep_edge ht
    refine .step (a := a) (t := redirect A.terminals t) (rep_states hw.nodup hs) ?_ ?_ ih
    · rw [hr, merge_edges hs]; exact List.mem_map_of_mem ht
    · rw [redirect_target, hq]; rfl

theorem Good.removeStuck {A : TA Nat} (hw : A.Wf) {s : Nat} (h : A.Good s) : A.removeStuckStates.Good s := by
  induction h with
  | @acc s hs hm => exact .acc (stuck_states.2 ⟨hs, (Good.acc hs hm).notStuck⟩) (by rw [stuck_isMatch]; exact hm)
  | @step s q a t hs ht hq hg ih =>
    refine .step (a := a) (t := t) (stuck_states.2 ⟨hs, (Good.step hs ht hq hg).notStuck⟩) ?_ hq ih
    rw [stuck_edges hw hs, List.mem_filter]
    refine ⟨ht, ?_⟩
    rw [keepEdge, hq]
    simpa using hg.notStuck

theorem Compared.merge {A : TA Nat} (hw : A.Wf) (h : A.Compared) : A.mergeAccepting.Compared := by
  intro hc
  have hcs : A.mergeAccepting.clockSize = A.clockSize := by rw [clockSize, merge_maxC]; rfl
  obtain ⟨s, hs, a, t, ht, q, hq, hg, g, hgm, hx⟩ := h (by omega)
  have hr := rep_edge ht
  refine ⟨s, hr ▸ rep_states hw.nodup hs, a, redirect A.terminals t, ?_, _, ?_, hg.merge hw, g, by rwa [redirect_guard], by omega⟩
  · rw [merge_edges hs]; exact List.mem_map_of_mem ht
  · rw [redirect_target, hq]; rfl

theorem Compared.removeStuck {A : TA Nat} (hw : A.Wf) (h : A.Compared) : A.removeStuckStates.Compared := by
  intro hc
  obtain ⟨s, hs, a, t, ht, q, hq, hg, g, hgm, hx⟩ := h hc
  refine ⟨s, stuck_states.2 ⟨hs, (Good.step hs ht hq hg).notStuck⟩, a, t, ?_, q, hq, hg.removeStuck hw, g, hgm, hx⟩
  rw [stuck_edges hw hs, List.mem_filter]
  refine ⟨ht, ?_⟩
  rw [keepEdge, hq]
  simpa using hg.notStuck

theorem Starts.merge {A : TA Nat} (hw : A.Wf) (h : A.Starts) : A.mergeAccepting.Starts := by
  obtain ⟨i, hi, hg, hm⟩ := h
  have hn := hg.next_ne hm
  have hr : rep A.terminals i = i := by
    rw [rep, if_neg]
    intro hs
    exact hn (mem_terminals.1 hs).2.2
  refine ⟨i, (merge_init hw.nodup).2 ⟨i, hi, hr.symm⟩, ?_, by rw [merge_isMatch]; exact hm⟩
  have := hg.merge hw
  rwa [hr] at this

theorem Starts.removeStuck {A : TA Nat} (hw : A.Wf) (h : A.Starts) : A.removeStuckStates.Starts := by
  obtain ⟨i, hi, hg, hm⟩ := h
  exact ⟨i, stuck_init.2 ⟨hi, hg.notStuck⟩, hg.removeStuck hw, by rw [stuck_isMatch]; exact hm⟩

theorem reduceLoop_compared (n : Nat) (A : TA Nat) (hw : A.Wf) (h1 : A.Compared) (h2 : A.Starts) :
    (reduceLoop n A).Compared ∧ (reduceLoop n A).Starts := by
  induction n generalizing A with
  | zero => exact ⟨h1, h2⟩
  | succ n ih =>
    rw [reduceLoop]
    split
    · exact ⟨h1.removeStuck hw, h2.removeStuck hw⟩
    · exact ih _ hw.removeStuck (h1.removeStuck hw) (h2.removeStuck hw)

theorem finish_compared {A : TA Nat} (hw : A.Wf) (h1 : A.Compared) (h2 : A.Starts) : A.finish.Compared ∧ A.finish.Starts :=
  reduceLoop_compared _ _ hw.merge (h1.merge hw) (h2.merge hw)

/-! ### The cases -/

theorem Good.congr {A : TA Nat} {st : Nat → TAState Nat} (hst : ∀ s ∈ A.states, st s = A.st s) {s : Nat} (h : A.Good s) :
    ({ A with st := st } : TA Nat).Good s := by
  induction h with
  | @acc s hs hm => exact .acc hs (by rw [← hst s hs] at hm; exact hm)
  | @step s q a t hs ht hq hg ih =>
    refine .step (a := a) (t := t) hs ?_ hq ih
    rw [edges, ← hst s hs] at ht
    exact ht

theorem compared_congr {A : TA Nat} {st : Nat → TAState Nat} (hst : ∀ s ∈ A.states, st s = A.st s) (hw : A.Wf) (c : A.Compared) (h : A.Starts) :
    ({ A with st := st } : TA Nat).Compared ∧ ({ A with st := st } : TA Nat).Starts := by
  obtain ⟨j, hj, hgj, hmj⟩ := h
  refine ⟨fun hc => ?_, j, hj, hgj.congr hst, by rw [← hst j hgj.mem] at hmj; exact hmj⟩
  obtain ⟨s, hs, a, t, ht, q, hq, hg, g, hgm, hx⟩ := c hc
  refine ⟨s, hs, a, t, ?_, q, hq, hg.congr hst, g, hgm, hx⟩
  rw [edges, ← hst s hs] at ht
  exact ht

section concat
variable {L R : TA Nat} (hst : L.st = R.st) (hL : L.Wf) (hR : R.Wf) (hd : ∀ s ∈ L.states, s ∉ R.states)
include hst hL hR hd

theorem Good.concatRight {s : Nat} (h : R.Good s) : (L.concat2 R).Good s := by
  induction h with
  | @acc s hs hm =>
    refine .acc (List.mem_append_right _ hs) ?_
    rw [concat2_right hst hL hR hd fun h => hd s h hs]
    split <;> exact hm
  | @step s q a t hs ht hq hg ih =>
    refine .step (a := a) (t := t) (List.mem_append_right _ hs) ?_ hq ih
    rw [concat2_edges_right hst hL hR hd fun h => hd s h hs]
    exact ht

/-- A transition of the first automaton on a path to an accepting state, in the concatenation. -/
theorem concat_edge {i : Nat} (hi : i ∈ R.init) (hgi : R.Good i) {s q : Nat} {a : Alphabet} {t : Transition Nat} (hs : s ∈ L.states)
    (ht : t ∈ L.edges s a) (hq : t.target = some q) (hg : (L.st q).isMatch = false → (L.concat2 R).Good q) :
    ∃ t' ∈ (L.concat2 R).edges s a, ∃ q', t'.target = some q' ∧ (L.concat2 R).Good q' ∧ t'.guard = t.guard := by
  rw [concat2_edges_left hst hL hR hd hs]
  cases hb : (L.st q).isMatch with
  | true =>
    exact ⟨_, (mem_concatEdges hst hL hR hd).2 (.inr ⟨t, ht, q, hq, hb, i, hi, rfl⟩), i, rfl, hgi.concatRight hst hL hR hd, rfl⟩
  | false => exact ⟨t, (mem_concatEdges hst hL hR hd).2 (.inl ht), q, hq, hg hb, rfl⟩

theorem Good.concatLeft {i : Nat} (hi : i ∈ R.init) (hgi : R.Good i) {s : Nat} (h : L.Good s) (hm : (L.st s).isMatch = false) :
    (L.concat2 R).Good s := by
  induction h with
  | acc hs h => rw [hm] at h; cases h
  | @step s q a t hs ht hq hg ih =>
    obtain ⟨t', ht', q', hq', hg', -⟩ := concat_edge hst hL hR hd hi hgi hs ht hq ih
    exact .step (List.mem_append_left _ hs) ht' hq' hg'

theorem concat_compared (cL : L.Compared) (sL : L.Starts) (cR : R.Compared) (sR : R.Starts) :
    (L.concat2 R).Compared ∧ (L.concat2 R).Starts := by
  obtain ⟨i, hi, hgi, -⟩ := sR
  obtain ⟨j, hj, hgj, hmj⟩ := sL
  have hcs := concat2_clockSize hst hL hR hd
  constructor
  · intro hc
    rw [hcs] at hc ⊢
    by_cases hle : R.clockSize ≤ L.clockSize
    · obtain ⟨s, hs, a, t, ht, q, hq, hg, g, hgm, hx⟩ := cL (by omega)
      obtain ⟨t', ht', q', hq', hg', hgg⟩ := concat_edge hst hL hR hd hi hgi hs ht hq fun hb => Good.concatLeft hst hL hR hd hi hgi hg hb
      exact ⟨s, List.mem_append_left _ hs, a, t', ht', q', hq', hg', g, hgg ▸ hgm, by omega⟩
    · obtain ⟨s, hs, a, t, ht, q, hq, hg, g, hgm, hx⟩ := cR (by omega)
      refine ⟨s, List.mem_append_right _ hs, a, t, ?_, q, hq, hg.concatRight hst hL hR hd, g, hgm, by omega⟩
      rw [concat2_edges_right hst hL hR hd fun h => hd s h hs]
      exact ht
  · refine ⟨j, ?_, Good.concatLeft hst hL hR hd hi hgi hgj hmj, ?_⟩
    · simp only [concat2]
      split
      · exact List.mem_append_left _ hj
      · exact hj
    · rw [concat2_left hst hL hR hd hgj.mem]

theorem Good.disjLeft {s : Nat} (h : L.Good s) : (L.disjTA R).Good s := by
  induction h with
  | @acc s hs hm => exact .acc (List.mem_append_left _ hs) (by rw [hst] at hm; exact hm)
  | @step s q a t hs ht hq hg ih =>
    refine .step (a := a) (t := t) (List.mem_append_left _ hs) ?_ hq ih
    rw [edges, hst] at ht
    exact ht

theorem Good.disjRight {s : Nat} (h : R.Good s) : (L.disjTA R).Good s := by
  induction h with
  | @acc s hs hm => exact .acc (List.mem_append_right _ hs) hm
  | @step s q a t hs ht hq hg ih => exact .step (a := a) (t := t) (List.mem_append_right _ hs) ht hq ih

theorem disj_compared (cL : L.Compared) (sL : L.Starts) (cR : R.Compared) : (L.disjTA R).Compared ∧ (L.disjTA R).Starts := by
  obtain ⟨j, hj, hgj, hmj⟩ := sL
  have hcs : (L.disjTA R).clockSize = max L.clockSize R.clockSize := maxVec_length _ _
  constructor
  · intro hc
    rw [hcs] at hc ⊢
    by_cases hle : R.clockSize ≤ L.clockSize
    · obtain ⟨s, hs, a, t, ht, q, hq, hg, g, hgm, hx⟩ := cL (by omega)
      refine ⟨s, List.mem_append_left _ hs, a, t, ?_, q, hq, hg.disjLeft hst hL hR hd, g, hgm, by omega⟩
      rw [edges, hst] at ht
      exact ht
    · obtain ⟨s, hs, a, t, ht, q, hq, hg, g, hgm, hx⟩ := cR (by omega)
      exact ⟨s, List.mem_append_right _ hs, a, t, ht, q, hq, hg.disjRight hst hL hR hd, g, hgm, by omega⟩
  · refine ⟨j, List.mem_append_left _ hj, hgj.disjLeft hst hL hR hd, ?_⟩
    rw [hst] at hmj
    exact hmj

end concat

theorem Good.plus {A : TA Nat} {s : Nat} (h : A.Good s) : A.plusTA.Good s := by
  induction h with
  | @acc s hs hm => exact .acc hs (by rw [plus_st hs]; exact hm)
  | @step s q a t hs ht hq hg ih => exact .step (a := a) (t := t) hs (by rw [plus_edges hs]; exact mem_plusEdges.2 (.inl ht)) hq ih

theorem plus_compared {A : TA Nat} (c : A.Compared) (h : A.Starts) : A.plusTA.Compared ∧ A.plusTA.Starts := by
  obtain ⟨j, hj, hgj, hmj⟩ := h
  refine ⟨fun hc => ?_, j, hj, hgj.plus, by rw [plus_st hgj.mem]; exact hmj⟩
  obtain ⟨s, hs, a, t, ht, q, hq, hg, g, hgm, hx⟩ := c hc
  exact ⟨s, hs, a, t, by rw [plus_edges hs]; exact mem_plusEdges.2 (.inl ht), q, hq, hg.plus, g, hgm, hx⟩

theorem Good.restrict {A : TA Nat} (gs : List Constraint) (u : Int) {s : Nat} (h : A.Good s) : (A.restrictTA gs u).Good s := by
  induction h with
  | @acc s hs hm => exact .acc hs (by rw [restrict_st gs hs]; exact hm)
  | @step s q a t hs ht hq hg ih =>
    refine .step (a := a) (t := if A.isAcc t then { t with guard := t.guard ++ gs } else t) hs
      (by rw [restrict_edges gs hs]; exact List.mem_map_of_mem ht) ?_ ih
    split <;> exact hq

theorem restrict_compared {A : TA Nat} (hw : A.Wf) (gs : List Constraint) (u : Int) (hgs : ∃ g ∈ gs, g.x = A.clockSize) (h : A.Starts) :
    (A.restrictTA gs u).Compared ∧ (A.restrictTA gs u).Starts := by
  obtain ⟨j, hj, hgj, hmj⟩ := h
  have hcs : (A.restrictTA gs u).clockSize = A.clockSize + 1 := by simp [restrictTA, clockSize]
  constructor
  · intro _
    rw [hcs]
    obtain ⟨s, hs, a, t, ht, q, hq', hq, hm⟩ := hgj.last hmj
    obtain ⟨g, hg, hx⟩ := hgs
    refine ⟨s, hs, a, { t with guard := t.guard ++ gs }, ?_, q, hq, (Good.acc hq' hm).restrict gs u, g, List.mem_append_right _ hg, by omega⟩
    rw [restrict_edges gs hs]
    refine List.mem_map.2 ⟨t, ht, ?_⟩
    rw [if_pos (isAcc_iff.2 ⟨q, hq, hm⟩)]
  · refine ⟨j, List.mem_filter.2 ⟨hj, ?_⟩, hgj.restrict gs u, by rw [restrict_st gs hgj.mem]; exact hmj⟩
    cases hz : (A.st j).zeroDuration with
    | false => rfl
    | true => exact absurd (hw.zterm j hgj.mem hz) (hgj.next_ne hmj)

theorem atom_compared {alloc : Nat → Nat} (hinj : Function.Injective alloc) (k : Nat) (heap : Nat → TAState Nat) (c : Alphabet) :
    (atomTA alloc k heap c).Compared ∧ (atomTA alloc k heap c).Starts := by
  have hne : alloc (k + 1) ≠ alloc k := fun h => by have := hinj h; omega
  refine ⟨fun h => by simp [atomTA, clockSize] at h, alloc k, by simp [atomTA], ?_, by simp [atomTA]⟩
  refine .step (q := alloc (k + 1)) (a := c) (t := ⟨some (alloc (k + 1)), [], []⟩) (by simp [atomTA]) ?_ rfl (.acc (by simp [atomTA]) (by simp [atomTA, hne]))
  simp [edges, atomTA, Next.at'_cons]

end TA

variable {K : Type} [Field K] [LinearOrder K] [IsStrictOrderedRing K] [FloorRing K]

theorem TRE.toEventTA_compared {alloc : Nat → Nat} (hinj : Function.Injective alloc) (e : TRE K) (he : e.Plain) (hε : e.EpsilonFree)
    (hc : e.ConjFree) (heap : Nat → TAState Nat) (k : Nat) :
    ∃ A k', e.toEventTA alloc heap k = .ok (A, k') ∧ TransOk alloc heap k k' e A ∧ A.Compared ∧ A.Starts := by
  induction e generalizing heap k with
  | atom c =>
    obtain ⟨h1, h2⟩ := TA.atom_compared hinj k heap c
    exact ⟨_, _, rfl, TransOk.atom hinj heap k he, TA.finish_compared (TA.atomTA_wf hinj heap k he) h1 h2⟩
  | epsilon => exact hε.elim
  | plus e ih =>
    obtain ⟨A, k1, h1, hA, cA, sA⟩ := ih he hε hc heap k
    have hn : A.clockSize ≤ 256 := by rw [hA.clocks]; exact TRE.Plain.clocks he
    obtain ⟨j1, j2⟩ := TA.plus_compared cA sA
    exact ⟨_, _, by simp only [toEventTA, h1]; rfl, hA.plus he, TA.finish_compared (TA.plus_wf hA.wf hn) j1 j2⟩
  | concat e f ih1 ih2 =>
    obtain ⟨A, k1, h1, hA, cA, sA⟩ := ih1 he.1 hε.1 hc.1 heap k
    obtain ⟨B, k2, h2, hB, cB, sB⟩ := ih2 he.2 hε.2 hc.2 A.st k1
    have hd := two_disjoint hinj hA hB
    have hn : B.clockSize ≤ 256 := by rw [hB.clocks]; exact TRE.Plain.clocks he.2
    have hw := two_wf hinj hA hB
    obtain ⟨lA, mA⟩ := TA.compared_congr (two_keep hinj hA hB) hA.wf cA sA
    obtain ⟨j1, j2⟩ := TA.concat_compared (L := { A with st := B.st }) (R := B) rfl hw hB.wf hd lA mA cB sB
    exact ⟨_, _, by simp only [toEventTA, h1, bind, Except.bind, h2]; rfl, TransOk.concat hinj hA hB he.1 he.2,
      TA.finish_compared (TA.concat2_wf (L := { A with st := B.st }) rfl hw hB.wf hd hn) j1 j2⟩
  | disj e f ih1 ih2 =>
    obtain ⟨A, k1, h1, hA, cA, sA⟩ := ih1 he.1 hε.1 hc.1 heap k
    obtain ⟨B, k2, h2, hB, cB, sB⟩ := ih2 he.2 hε.2 hc.2 A.st k1
    have hd := two_disjoint hinj hA hB
    have hw := two_wf hinj hA hB
    obtain ⟨lA, mA⟩ := TA.compared_congr (two_keep hinj hA hB) hA.wf cA sA
    obtain ⟨j1, j2⟩ := TA.disj_compared (L := { A with st := B.st }) (R := B) rfl hw hB.wf hd lA mA cB
    exact ⟨_, _, by simp only [toEventTA, h1, bind, Except.bind, h2]; rfl, TransOk.disj hinj hA hB,
      TA.finish_compared (TA.disj_wf (L := { A with st := B.st }) rfl hw hB.wf hd) j1 j2⟩
  | conj e f ih1 ih2 => exact hc.elim
  | within e I ih =>
    obtain ⟨A, k1, h1, hA, cA, sA⟩ := ih he.1 hε hc heap k
    obtain ⟨B, h2, hB⟩ := hA.within he
    refine ⟨_, _, ?_, hB, ?_⟩
    · simp only [toEventTA, h1, bind, Except.bind, h2]; rfl
    · obtain ⟨_, hn, ⟨l, ls, hl⟩, ⟨u, us, hu⟩⟩ := he
      have hn' : A.clockSize < 256 := by rw [hA.clocks]; exact hn
      rw [TA.within_eq hA.wf hl hu, Except.ok.injEq] at h2
      subst h2
      obtain ⟨j1, j2⟩ := TA.restrict_compared hA.wf (TA.withinGuard A.clockSize u l us ls) u
        ⟨_, List.mem_cons_self, Nat.mod_eq_of_lt hn'⟩ sA
      refine TA.finish_compared (TA.restrict_wf hA.wf _ ?_) j1 j2
      intro c hc
      simp only [TA.withinGuard, List.mem_cons, List.not_mem_nil, or_false] at hc
      rcases hc with rfl | rfl <;> simp [Nat.mod_eq_of_lt hn']

end Verif
