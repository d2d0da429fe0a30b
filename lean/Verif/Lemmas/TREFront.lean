import Verif.Lemmas.TRELate

/-!
# The order of the initial states of the automaton of an expression
-/

namespace Verif

namespace TA

/-- There is an accepting state. -/
def HasAcc (A : TA Nat) : Prop := ∃ s ∈ A.states, (A.st s).isMatch = true

/-- The initial states are in the order of their addresses. -/
def SortedInit (A : TA Nat) : Prop := A.init.Pairwise (· ≤ ·)

/-- No initial state is accepting. -/
def NoMatchInit (A : TA Nat) : Prop := ∀ s ∈ A.init, (A.st s).isMatch = false

theorem reduceLoop_hasAcc (n : Nat) (A : TA Nat) (h : A.HasAcc) : (reduceLoop n A).HasAcc := by
  induction n generalizing A with
  | zero => exact h
  | succ n ih =>
    have h' : A.removeStuckStates.HasAcc := by
      obtain ⟨s, hs, hm⟩ := h
      refine ⟨s, stuck_states.2 ⟨hs, fun hb => ?_⟩, by rw [stuck_isMatch]; exact hm⟩
      have := (List.mem_filter.1 hb).2
      simp [isStuck, hm] at this
    rw [reduceLoop]
    split
    · exact h'
    · exact ih _ h'

theorem reduceLoop_sorted (n : Nat) (A : TA Nat) (h : A.SortedInit) : (reduceLoop n A).SortedInit := by
  induction n generalizing A with
  | zero => exact h
  | succ n ih =>
    have h' : A.removeStuckStates.SortedInit := List.Pairwise.sublist List.filter_sublist h
    rw [reduceLoop]
    split
    · exact h'
    · exact ih _ h'

theorem HasAcc.finish {A : TA Nat} (hw : A.Wf) (h : A.HasAcc) : A.finish.HasAcc := by
  refine reduceLoop_hasAcc _ _ ?_
  obtain ⟨s, hs, hm⟩ := h
  have ht : s ∈ A.terminals := mem_terminals.2 ⟨hs, hm, hw.term s hs hm⟩
  rcases hc : A.terminals with _ | ⟨f, l⟩
  · rw [hc] at ht
    cases ht
  · have hf : f ∈ A.terminals := by rw [hc]; exact List.mem_cons_self
    obtain ⟨h1, h2, -⟩ := mem_terminals.1 hf
    have hnd := terminals_nodup hw.nodup
    rw [hc] at hnd
    refine ⟨f, ?_, ?_⟩
    · rw [merge_states, List.mem_filter]
      refine ⟨h1, ?_⟩
      rw [hc]
      have := (List.nodup_cons.1 hnd).1
      simp only [List.tail_cons, this, decide_false, Bool.not_false]
    · rw [merge_st, if_pos h1]
      exact h2

theorem SortedInit.finish {A : TA Nat} (hn : A.NoMatchInit) (h : A.SortedInit ∨ ∃ s ∈ A.terminals, ∃ s' ∈ A.terminals, s ≠ s') :
    A.finish.SortedInit := by
  refine reduceLoop_sorted _ _ ?_
  unfold SortedInit mergeAccepting
  simp only
  split
  · rename_i front x rest hts
    simp only
    refine List.Pairwise.sublist List.filter_sublist ?_
    rw [if_neg]
    · exact List.pairwise_insertionSort _ _
    · rintro ⟨-, ha⟩
      obtain ⟨s, hs, hs'⟩ := List.any_eq_true.1 ha
      rw [List.mem_insertionSort] at hs
      have : s ∈ A.terminals := by
        rw [hts]
        exact List.mem_cons_of_mem _ (of_decide_eq_true hs')
      have h1 := hn s hs
      rw [(mem_terminals.1 this).2.1] at h1
      cases h1
  · rename_i hts
    rcases h with h | ⟨s, hs, s', hs', hne⟩
    · exact h
    · exfalso
      rcases hc : A.terminals with _ | ⟨a, _ | ⟨b, l⟩⟩
      · rw [hc] at hs; cases hs
      · rw [hc, List.mem_singleton] at hs hs'
        exact hne (hs.trans hs'.symm)
      · exact hts _ _ _ hc

end TA

variable {K : Type} [Field K] [LinearOrder K] [IsStrictOrderedRing K] [FloorRing K]

theorem TransOk.noMatchInit {alloc : Nat → Nat} {heap : Nat → TAState Nat} {k k' : Nat} {e : TRE K} {A : TA Nat}
    (h : TransOk alloc heap k k' e A) (hε : e.EpsilonFree) : A.NoMatchInit := by
  intro s hs
  by_contra hm
  simp only [Bool.not_eq_false] at hm
  exact TRE.not_nullable hε ((e.den_nil 0).1 ((h.lang hε.regular 0 []).1 ((TA.acceptsFrom_iff _ _ _).2 ⟨s, hs, hm⟩)))

theorem TRE.toEventTA_front {alloc : Nat → Nat} (hinj : Function.Injective alloc) (e : TRE K) (he : e.Plain) (hε : e.EpsilonFree)
    (heap : Nat → TAState Nat) (k : Nat) :
    ∃ A k', e.toEventTA alloc heap k = .ok (A, k') ∧ TransOk alloc heap k k' e A ∧ A.HasAcc ∧ (e.FrontSorted → A.SortedInit) := by
  induction e generalizing heap k with
  | atom c =>
    have hok := TransOk.atom (K := K) hinj heap k he
    have hne : alloc (k + 1) ≠ alloc k := fun h => by have := hinj h; omega
    have hw : (TA.atomTA alloc k heap c).Wf := TA.atomTA_wf hinj heap k he
    refine ⟨_, _, rfl, hok, TA.HasAcc.finish hw ⟨alloc (k + 1), by simp [TA.atomTA], by simp [TA.atomTA, hne]⟩,
      fun _ => TA.SortedInit.finish ?_ (Or.inl ?_)⟩
    · intro s hs
      simp only [TA.atomTA, List.mem_singleton] at hs
      subst hs
      simp [TA.atomTA]
    · simp [TA.SortedInit, TA.atomTA]
  | epsilon => exact hε.elim
  | plus e ih =>
    obtain ⟨A, k1, h1, hA, aA, sA⟩ := ih he hε heap k
    have hn : A.clockSize ≤ 256 := by rw [hA.clocks]; exact TRE.Plain.clocks (e := e) he
    refine ⟨_, _, by simp only [toEventTA, h1]; rfl, hA.plus he, TA.HasAcc.finish (TA.plus_wf hA.wf hn) ?_,
      fun hf => TA.SortedInit.finish ?_ (Or.inl (sA hf))⟩
    · obtain ⟨s, hs, hm⟩ := aA
      exact ⟨s, hs, by rw [TA.plus_st hs]; exact hm⟩
    · intro s hs
      rw [TA.plus_st (hA.wf.init s hs)]
      exact hA.noMatchInit hε s hs
  | concat e f ih1 ih2 =>
    obtain ⟨A, k1, h1, hA, aA, sA⟩ := ih1 he.1 hε.1 heap k
    obtain ⟨B, k2, h2, hB, aB, -⟩ := ih2 he.2 hε.2 A.st k1
    have hkeep := two_keep hinj hA hB
    have hd := two_disjoint hinj hA hB
    have hw := two_wf hinj hA hB
    have hss : ({ A with st := B.st } : TA Nat).st = B.st := rfl
    have heq : A.concat2 B = ({ A with st := B.st } : TA Nat).concat2 B := rfl
    have hn : B.clockSize ≤ 256 := by rw [hB.clocks]; exact he.2.clocks
    have hinit : (A.concat2 B).init = A.init := by
      have : (A.init.any fun s => (B.st s).isMatch) = false := by
        rw [List.any_eq_false]
        intro s hs
        rw [hkeep s (hA.wf.init s hs), hA.noMatchInit hε.1 s hs]
        simp
      simp only [TA.concat2, this]
      simp
    refine ⟨_, _, by simp only [toEventTA, h1, bind, Except.bind, h2]; rfl, TransOk.concat hinj hA hB he.1 he.2,
      TA.HasAcc.finish (TA.concat2_wf (L := { A with st := B.st }) hss hw hB.wf hd hn) ?_, fun hf => TA.SortedInit.finish ?_ (Or.inl ?_)⟩
    · obtain ⟨s, hs, hm⟩ := aB
      have hsA : s ∉ A.states := fun h => hd s h hs
      refine ⟨s, List.mem_append_right _ hs, ?_⟩
      rw [heq, TA.concat2_right hss hw hB.wf hd hsA]
      split <;> exact hm
    · intro s hs
      rw [hinit] at hs
      have := hA.wf.init s hs
      simp only [TA.concat2, TA.mapSt, if_pos this]
    · unfold TA.SortedInit
      rw [hinit]
      exact sA hf
  | disj e f ih1 ih2 =>
    obtain ⟨A, k1, h1, hA, aA, -⟩ := ih1 he.1 hε.1 heap k
    obtain ⟨B, k2, h2, hB, aB, -⟩ := ih2 he.2 hε.2 A.st k1
    have hkeep := two_keep hinj hA hB
    have hd := two_disjoint hinj hA hB
    have hw := two_wf hinj hA hB
    have hss : ({ A with st := B.st } : TA Nat).st = B.st := rfl
    have heq : A.disjTA B = ({ A with st := B.st } : TA Nat).disjTA B := rfl
    have hwf : (A.disjTA B).Wf := TA.disj_wf (L := { A with st := B.st }) hss hw hB.wf hd
    obtain ⟨s, hs, hm⟩ := aA
    obtain ⟨s', hs', hm'⟩ := aB
    have hms : ((A.disjTA B).st s).isMatch = true := by
      show (B.st s).isMatch = true
      rw [hkeep s hs]
      exact hm
    refine ⟨_, _, by simp only [toEventTA, h1, bind, Except.bind, h2]; rfl, TransOk.disj hinj hA hB,
      TA.HasAcc.finish hwf ⟨s', List.mem_append_right _ hs', hm'⟩, fun _ => TA.SortedInit.finish ?_ (Or.inr ?_)⟩
    · intro i hi
      show (B.st i).isMatch = false
      rcases List.mem_append.1 hi with hi | hi
      · rw [hkeep i (hA.wf.init i hi)]
        exact hA.noMatchInit hε.1 i hi
      · exact hB.noMatchInit hε.2 i hi
    · have m1 : s ∈ (A.disjTA B).states := List.mem_append_left _ hs
      have m2 : s' ∈ (A.disjTA B).states := List.mem_append_right _ hs'
      exact ⟨s, TA.mem_terminals.2 ⟨m1, hms, hwf.term s m1 hms⟩, s', TA.mem_terminals.2 ⟨m2, hm', hwf.term s' m2 hm'⟩,
        fun h => hd s hs (h ▸ hs')⟩
  | conj e f ih1 ih2 =>
    obtain ⟨A, k1, h1, hA, aA, -⟩ := ih1 he.1 hε.1 heap k
    obtain ⟨B, k2, h2, hB, aB, -⟩ := ih2 he.2.1 hε.2 A.st k1
    have hkeep := two_keep hinj hA hB
    have hw := two_wf hinj hA hB
    have hn : ({ A with st := B.st } : TA Nat).clockSize + B.clockSize ≤ 256 := by
      have h3 : ({ A with st := B.st } : TA Nat).clockSize = e.clocks := hA.clocks
      rw [h3, hB.clocks]
      exact he.2.2
    refine ⟨_, _, by simp only [toEventTA, h1, bind, Except.bind, h2]; rfl, TransOk.conj hinj hA hB he.2.2,
      TA.HasAcc.finish (TA.conj_wf hw hB.wf hn hinj _ _) ?_, fun hf => hf.elim⟩
    obtain ⟨s, hs, hm⟩ := aA
    obtain ⟨s', hs', hm'⟩ := aB
    have hm2 : (B.st s).isMatch = true := by rw [hkeep s hs]; exact hm
    have hp : (s, s') ∈ (({ A with st := B.st } : TA Nat).intersection B).states := by
      refine TA.mem_product.2 ⟨hs, hs', ?_⟩
      show (B.st s).zeroDuration = (B.st s').zeroDuration
      rw [hkeep s hs, hA.nozero hε.1.regular (TRE.not_nullable hε.1) s hs, hB.nozero hε.2.regular (TRE.not_nullable hε.2) s' hs']
    refine ⟨_, List.mem_map.2 ⟨_, hp, rfl⟩, ?_⟩
    show (((({ A with st := B.st } : TA Nat).intersection B).place alloc k2 B.st).st _).isMatch = true
    rw [TA.place_st hinj hp]
    simp only [TA.renameState, TA.intersection, Bool.and_eq_true]
    exact ⟨hm2, hm'⟩
  | within e I ih =>
    obtain ⟨A, k1, h1, hA, aA, sA⟩ := ih he.1 hε heap k
    obtain ⟨B, h2, hB⟩ := hA.within he
    refine ⟨_, _, by simp only [toEventTA, h1, bind, Except.bind, h2]; rfl, hB, ?_⟩
    obtain ⟨_, hn, ⟨l, ls, hl⟩, ⟨u, us, hu⟩⟩ := he
    have hn' : A.clockSize < 256 := by rw [hA.clocks]; exact hn
    have := TA.within_eq hA.wf hl hu
    rw [h2] at this
    cases this
    have hwf := TA.restrict_wf (g := TA.withinGuard A.clockSize u l us ls) (u := u) hA.wf (by
      intro c hc
      simp only [TA.withinGuard, List.mem_cons, List.not_mem_nil, or_false] at hc
      rcases hc with rfl | rfl <;> simp [Nat.mod_eq_of_lt hn'])
    refine ⟨TA.HasAcc.finish hwf ?_, fun hf => TA.SortedInit.finish ?_ (Or.inl ?_)⟩
    · obtain ⟨s, hs, hm⟩ := aA
      exact ⟨s, hs, by rw [TA.restrict_st _ hs]; exact hm⟩
    · intro s hs
      have hs' : s ∈ A.init := by
        first | exact hs | exact List.mem_of_mem_filter hs
      rw [TA.restrict_st _ (hA.wf.init s hs')]
      exact hA.noMatchInit hε s hs'
    · first | exact sA hf | exact List.Pairwise.sublist List.filter_sublist (sA hf)

end Verif
