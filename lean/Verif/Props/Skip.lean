import Verif.Props.Matcher
import Verif.Lemmas.ZATerm
import Verif.Examples.Zones

/-!
# Properties of the skip tables (C13, C14)
-/

set_option linter.unusedSectionVars false

namespace Verif.Props

variable {S K : Type} [DecidableEq S] [Field K] [LinearOrder K] [IsStrictOrderedRing K]

/-! ## C13 -/

/-- **C13, what holds** (`_partial`: for patterns whose cycles are loops at a state, or ordered, without guard and resets). -/
theorem sunday_sound_partial (A : TA S) (hcl : A.Closed) (hM : A.MapOk) (hac : A.LoopsOk) (addr : S → Nat) (Ap : TA S)
    (hp : prepare addr A = .ok Ap) (fuel : Nat) (T : Tables S) (h : makeTables K fuel Ap = .ok T) : SundaySound K A T := by
  obtain ⟨h1, -⟩ := makeTables_spec h
  exact sunday_sound hcl (prepare_spec hp) h1 (prepare_live (prepare_spec hp) hcl hM hac)

/-- **C13, what holds** (`_partial`: for patterns, cyclic or not, for which `removeDeadStates` keeps all live states). -/
theorem sunday_sound_live_partial (A : TA S) (hcl : A.Closed) (addr : S → Nat) (Ap : TA S)
    (hp : prepare addr A = .ok Ap) (fuel : Nat) (T : Tables S) (h : makeTables K fuel Ap = .ok T)
    (hlive : ∀ (Z : ZA S K) alive, ta2za fuel Ap ZA.none = .ok Z → Z.liveStates fuel = .ok alive →
      ∀ i, Z.Reachable i → Z.Live i → i ∈ alive) : SundaySound K A T :=
  sunday_sound hcl (prepare_spec hp) (makeTables_spec h).1 hlive

/-! ## C14 -/

/-- **C14, what holds** (`_partial`: for patterns whose upper bounds are on clocks reset since the start, without
`zeroDuration` states and with at most 128 clocks). -/
theorem kmp_sound_partial (A : TA S) (hC : A.ClocksDeclared) (hcl : A.Closed) (hM : A.MapOk) (hU : A.Shiftable)
    (hz : A.NoZeroDuration) (hsz : 2 * A.clockSize ≤ 256) (addr : S → Nat) (Ap : TA S) (hp : prepare addr A = .ok Ap)
    (fuel : Nat) (T : Tables S) (h : makeTables K fuel Ap = .ok T) (hS : SundaySound K A T) : KMPSound K A T := by
  obtain ⟨-, beta, h2, h3⟩ := makeTables_spec h
  exact kmp_sound (prepare_spec hp) h2 h3 hS.length hM hC hcl hz hU hsz

/-! ## Refutations -/

theorem loop_mapOk : loopPattern.MapOk := by
  intro s
  simp only [loopPattern]
  split_ifs <;> simp

theorem loop_closed : loopPattern.Closed := by
  refine ⟨by decide, ?_⟩
  intro s _ a e he q hq
  simp only [TA.edges, loopPattern] at he
  split_ifs at he <;> simp only [Next.at'_cons, Next.at'_nil] at he <;> (try split_ifs at he) <;>
    simp at he <;> (try subst he) <;> simp at hq <;> subst hq <;> decide

theorem loop_upper : loopPattern.UpperAfterReset := by
  refine ⟨fun _ _ => False, by simp, ?_⟩
  intro s a e he
  refine ⟨?_, by simp⟩
  simp only [TA.edges, loopPattern] at he
  split_ifs at he <;> simp only [Next.at'_cons, Next.at'_nil] at he <;> (try split_ifs at he) <;>
    simp at he <;> (try subst he) <;> simp

theorem loop_noZero : loopPattern.NoZeroDuration := by unfold TA.NoZeroDuration; decide

theorem two_mapOk : twoPattern.MapOk := by
  intro s
  simp only [twoPattern]
  split_ifs <;> simp

theorem two_closed : twoPattern.Closed := by
  refine ⟨by decide, ?_⟩
  intro s _ a e he q hq
  simp only [TA.edges, twoPattern] at he
  split_ifs at he <;> simp only [Next.at'_cons, Next.at'_nil] at he <;> (try split_ifs at he) <;>
    simp at he <;> (try subst he) <;> simp at hq <;> subst hq <;> decide

/-- **C13 is false** for an untimed pattern with a loop. -/
theorem sunday_sound_wrong :
    ¬ ∀ (A : TA Nat) (addr : Nat → Nat) (Ap : TA Nat) (fuel : Nat) (T : Tables Nat), A.NoSilent → A.ClocksDeclared →
      A.Closed → A.MapOk → prepare addr A = .ok Ap → makeTables ℚ fuel Ap = .ok T → SundaySound ℚ A T := by
  intro h
  obtain ⟨z, hz, -⟩ := matcher_complete_tables_partial loopPattern loop_declared loop_noSilent loopLog loop_log.1
    loop_log.2.1 loop_log.2.2 id 20 20 (by decide) [] (Or.inl loop_run) (by
      intro Ap T hp hT
      have hS := h loopPattern id Ap 20 T loop_noSilent loop_declared loop_closed loop_mapOk hp hT
      exact ⟨hS, kmp_sound_partial loopPattern loop_declared loop_closed loop_mapOk (.inl loop_upper) loop_noZero (by decide)
        id Ap hp 20 T hT hS⟩) 0 5 loop_match (by decide +kernel)
  cases hz

/-- **C14 is false** for an acyclic pattern with one clock, even though its quick-search table is sound. -/
theorem kmp_sound_wrong :
    ¬ ∀ (A : TA Nat) (addr : Nat → Nat) (Ap : TA Nat) (fuel : Nat) (T : Tables Nat), A.NoSilent → A.ClocksDeclared →
      A.Closed → A.MapOk → A.Acyclic → prepare addr A = .ok Ap → makeTables ℚ fuel Ap = .ok T → SundaySound ℚ A T →
      KMPSound ℚ A T := by
  intro h
  obtain ⟨zs, h1, h2⟩ := two_run
  obtain ⟨z, hz, hh⟩ := matcher_complete_tables_partial twoPattern two_declared two_noSilent twoLog two_log.1
    two_log.2.1 two_log.2.2 id 20 20 (by decide) zs (Or.inl h1) (by
      intro Ap T hp hT
      have hS := sunday_sound_partial (K := ℚ) twoPattern two_closed two_mapOk two_acyclic.loopsOk id Ap hp 20 T hT
      exact ⟨hS, h twoPattern id Ap 20 T two_noSilent two_declared two_closed two_mapOk two_acyclic hp hT hS⟩)
    (5 / 2) 6 two_match (by decide +kernel)
  exact h2 z hz hh

/-- The tables of the sample pattern are built; it meets the hypotheses of the positive theorems. -/
example : samplePattern.Closed ∧ samplePattern.MapOk ∧ samplePattern.LoopsOk ∧ samplePattern.ClocksDeclared ∧
    samplePattern.Shiftable ∧ samplePattern.NoZeroDuration ∧
    ∃ Ap T, prepare id samplePattern = .ok Ap ∧ makeTables ℚ 20 Ap = .ok T ∧ SundaySound ℚ samplePattern T ∧
      KMPSound ℚ samplePattern T := by
  obtain ⟨zs, h, -⟩ := sample_has
  obtain ⟨Ap, T, hp, hT, -⟩ := monaaDollar_inv (vector_implements sampleLog) (k := 0) rfl (by decide) h
  have hS := sunday_sound_partial (K := ℚ) samplePattern samplePattern_closed samplePattern_mapOk samplePattern_acyclic.loopsOk
    id Ap hp 20 T hT
  exact ⟨samplePattern_closed, samplePattern_mapOk, samplePattern_acyclic.loopsOk, samplePattern_declared, .inl samplePattern_upper,
    samplePattern_noZero, Ap, T, hp, hT, hS, kmp_sound_partial _ samplePattern_declared samplePattern_closed
      samplePattern_mapOk (.inl samplePattern_upper) samplePattern_noZero (by decide) id Ap hp 20 T hT hS⟩

end Verif.Props
