import Verif.Examples.Pattern
import Mathlib.Data.Rat.Floor
import Mathlib.Tactic.NormNum

/-!
# Patterns for which matches are lost
-/

namespace Verif.Props

/-- `1 -A→ 2 -B→ 4 -$→ 5` with the loop `2 -C→ 3 -D→ 2`: no clocks. -/
def loopPattern : TA Nat :=
  { states := [1, 2, 3, 4, 5], init := [1]
    st := fun s =>
      if s = 1 then ⟨false, false, [(65, [⟨some 2, [], []⟩])]⟩
      else if s = 2 then ⟨false, false, [(67, [⟨some 3, [], []⟩]), (66, [⟨some 4, [], []⟩])]⟩
      else if s = 3 then ⟨false, false, [(68, [⟨some 2, [], []⟩])]⟩
      else if s = 4 then ⟨false, false, [(36, [⟨some 5, [], []⟩])]⟩
      else if s = 5 then ⟨true, false, []⟩
      else ⟨false, false, []⟩
    maxC := [] }

/-- A log which is matched going once through the loop. -/
def loopLog : TWord ℚ := [(65, 1), (67, 2), (68, 3), (66, 4)]

/-- The call returned no zone. -/
def okNil {α : Type} : Except Err (List α) → Bool
  | .ok [] => true
  | _ => false

theorem okNil_eq {α : Type} {r : Except Err (List α)} (h : okNil r = true) : r = .ok [] := by
  unfold okNil at h
  split at h
  · rfl
  · cases h

theorem loop_run : monaaDollar id 20 20 (vectorCont ℚ) loopPattern loopLog = .ok [] :=
  okNil_eq (by decide +kernel)

theorem loop_match : loopPattern.Match loopLog 0 5 := by
  have e : between loopLog 0 5 = loopLog := by decide +kernel
  refine ⟨by norm_num, by norm_num, ?_⟩
  rw [e]
  refine ⟨1, by decide, 5, ?_, rfl⟩
  refine ⟨⟨some 2, [], []⟩, by decide, 2, rfl, by simp [GuardHolds], ?_⟩
  refine ⟨⟨some 3, [], []⟩, by decide, 3, rfl, by simp [GuardHolds], ?_⟩
  refine ⟨⟨some 2, [], []⟩, by decide, 2, rfl, by simp [GuardHolds], ?_⟩
  refine ⟨⟨some 4, [], []⟩, by decide, 4, rfl, by simp [GuardHolds], ?_⟩
  refine ⟨⟨some 5, [], []⟩, by decide, 5, rfl, by simp [GuardHolds], rfl⟩

/-- `0 -a{x0<1}/x0→ 1 -a{x0>1}→ 2 -$→ 3`. -/
def twoPattern : TA Nat :=
  { states := [0, 1, 2, 3], init := [0]
    st := fun s =>
      if s = 0 then ⟨false, false, [(97, [⟨some 1, [0], [⟨0, .lt, 1⟩]⟩])]⟩
      else if s = 1 then ⟨false, false, [(97, [⟨some 2, [], [⟨0, .gt, 1⟩]⟩])]⟩
      else if s = 2 then ⟨false, false, [(36, [⟨some 3, [], []⟩])]⟩
      else if s = 3 then ⟨true, false, []⟩
      else ⟨false, false, []⟩
    maxC := [1] }

def twoLog : TWord ℚ := [(97, 1), (97, 3), (97, 5), (97, 7)]

/-- `t` is outside the begin interval of the zone. -/
def beginExcludes (z : Zone ℚ) (t : ℚ) : Bool :=
  decide (z.n = 3) && (match z.get 1 0 with | .fin c true => decide (c < t) | .fin c false => decide (c ≤ t) | _ => false) ||
  decide (z.n = 3) && (match z.get 0 1 with | .fin c true => decide (c < -t) | .fin c false => decide (c ≤ -t) | _ => false)

theorem beginExcludes_has {z : Zone ℚ} {t t' : ℚ} (h : beginExcludes z t = true) : ¬ z.Has t t' := by
  intro hz
  unfold beginExcludes at h
  simp only [Bool.or_eq_true, Bool.and_eq_true, decide_eq_true_eq] at h
  rcases h with ⟨hn, h⟩ | ⟨hn, h⟩
  · have h1 := hz 1 0 (by omega) (by omega)
    split at h
    · rename_i c hc
      rw [hc, Verif.sat_t] at h1
      simp [Zone.ext] at h1 h
      linarith
    · rename_i c hc
      rw [hc, Verif.sat_f] at h1
      simp [Zone.ext] at h1 h
      linarith
    · cases h
  · have h1 := hz 0 1 (by omega) (by omega)
    split at h
    · rename_i c hc
      rw [hc, Verif.sat_t] at h1
      simp [Zone.ext] at h1 h
      linarith
    · rename_i c hc
      rw [hc, Verif.sat_f] at h1
      simp [Zone.ext] at h1 h
      linarith
    · cases h

/-- The call returned only zones with a property. -/
def okAll {α : Type} (p : α → Bool) : Except Err (List α) → Bool
  | .ok zs => zs.all p
  | _ => false

theorem okAll_eq {α : Type} {p : α → Bool} {r : Except Err (List α)} (h : okAll p r = true) :
    ∃ zs, r = .ok zs ∧ ∀ z ∈ zs, p z = true := by
  unfold okAll at h
  split at h
  · exact ⟨_, rfl, List.all_eq_true.1 h⟩
  · cases h

theorem two_check : okAll (fun z => beginExcludes z (5 / 2))
    (monaaDollar id 20 20 (vectorCont ℚ) twoPattern twoLog) = true := by decide +kernel

theorem two_run : ∃ zs, monaaDollar id 20 20 (vectorCont ℚ) twoPattern twoLog = .ok zs ∧
    ∀ z ∈ zs, ¬ z.Has (5 / 2) 6 := by
  obtain ⟨zs, h1, h2⟩ := okAll_eq two_check
  exact ⟨zs, h1, fun z hz => beginExcludes_has (h2 z hz)⟩

theorem two_match : twoPattern.Match twoLog (5 / 2) 6 := by
  have e : between twoLog (5 / 2) 6 = [(97, 3), (97, 5)] := by decide +kernel
  refine ⟨by norm_num, by norm_num, ?_⟩
  rw [e]
  refine ⟨0, by decide, 3, ?_, rfl⟩
  refine ⟨⟨some 1, [0], [⟨0, .lt, 1⟩]⟩, by decide, 1, rfl, by norm_num [GuardHolds, Constraint.Holds] <;> decide, ?_⟩
  refine ⟨⟨some 2, [], [⟨0, .gt, 1⟩]⟩, by decide, 2, rfl, by norm_num [GuardHolds, Constraint.Holds, resetAt] <;> decide, ?_⟩
  refine ⟨⟨some 3, [], []⟩, by decide, 3, rfl, by simp [GuardHolds], rfl⟩

theorem loop_noSilent : loopPattern.NoSilent := by unfold TA.NoSilent; decide

theorem loop_declared : loopPattern.ClocksDeclared := by
  intro s a e he
  simp only [TA.edges, loopPattern] at he
  split_ifs at he <;> simp only [Next.at'_cons, Next.at'_nil] at he <;> (try split_ifs at he) <;>
    simp at he <;> (try subst he) <;> simp [loopPattern, TA.clockSize]

theorem loop_log : LogOk loopLog ∧ LogStrict loopLog ∧ LettersOk loopLog :=
  ⟨⟨by decide +kernel, by decide +kernel, by decide⟩, ⟨by decide +kernel, by decide +kernel⟩, by unfold LettersOk; decide⟩

theorem two_noSilent : twoPattern.NoSilent := by unfold TA.NoSilent; decide

theorem two_declared : twoPattern.ClocksDeclared := by
  intro s a e he
  simp only [TA.edges, twoPattern] at he
  split_ifs at he <;> simp only [Next.at'_cons, Next.at'_nil] at he <;> (try split_ifs at he) <;>
    simp at he <;> (try subst he) <;> simp [twoPattern, TA.clockSize]

theorem two_log : LogOk twoLog ∧ LogStrict twoLog ∧ LettersOk twoLog :=
  ⟨⟨by decide +kernel, by decide +kernel, by decide⟩, ⟨by decide +kernel, by decide +kernel⟩, by unfold LettersOk; decide⟩

theorem two_acyclic : twoPattern.Acyclic := by
  refine ⟨fun s => 3 - s, ?_⟩
  intro s a e he q hq
  simp only [TA.edges, twoPattern] at he
  split_ifs at he <;> simp only [Next.at'_cons, Next.at'_nil] at he <;> (try split_ifs at he) <;>
    simp at he <;> (try subst he) <;> simp at hq <;> subst hq <;> (beta_reduce; omega)

end Verif.Props
