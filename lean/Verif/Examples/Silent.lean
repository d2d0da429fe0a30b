import Verif.Lemmas.Static
import Verif.Examples.Signal

/-!
# Patterns with silent transitions
-/

namespace Verif.Props

open Bnd

/-! ### a silent transition without reset -/

/-- `0 -ε{x0>1}→ 1 -a{x0≤3}→ 2`, where 2 is accepting. -/
def silentPattern : TA Nat :=
  { states := [0, 1, 2], init := [0]
    st := fun s =>
      if s = 0 then ⟨false, false, [(0, [⟨some 1, [], [⟨0, .gt, 1⟩]⟩])]⟩
      else if s = 1 then ⟨false, false, [(97, [⟨some 2, [], [⟨0, .le, 3⟩]⟩])]⟩
      else if s = 2 then ⟨true, false, []⟩
      else ⟨false, false, []⟩
    maxC := [3] }

def silentLog : TWord ℚ := [(97, 5)]

theorem silentLog_ok : LogOk silentLog ∧ ∀ e ∈ silentLog, e.1 ≠ epsilon :=
  ⟨⟨by decide +kernel, by decide +kernel, by decide⟩, by decide⟩

theorem silentPattern_edges (s : Nat) (a : Alphabet) (e : Transition Nat) (he : e ∈ silentPattern.edges s a) :
    (s = 0 ∧ a = 0 ∧ e = ⟨some 1, [], [⟨0, .gt, 1⟩]⟩) ∨ (s = 1 ∧ a = 97 ∧ e = ⟨some 2, [], [⟨0, .le, 3⟩]⟩) := by
  simp only [TA.edges, silentPattern] at he
  split_ifs at he with h0 h1 h2
  · simp only [Next.at'_cons, Next.at'_nil] at he
    split_ifs at he with ha
    · simp only [List.mem_singleton] at he; exact Or.inl ⟨h0, ha.symm, he⟩
    · simp at he
  · simp only [Next.at'_cons, Next.at'_nil] at he
    split_ifs at he with ha
    · simp only [List.mem_singleton] at he; exact Or.inr ⟨h1, ha.symm, he⟩
    · simp at he
  · simp [Next.at'_nil] at he
  · simp [Next.at'_nil] at he

theorem silentPattern_keep : silentPattern.SilentKeep := by
  intro s e he
  rcases silentPattern_edges s 0 e he with ⟨_, _, rfl⟩ | ⟨_, _, rfl⟩ <;> rfl

theorem silentPattern_declared : silentPattern.ClocksDeclared := by
  intro s a e he
  rcases silentPattern_edges s a e he with ⟨_, _, rfl⟩ | ⟨_, _, rfl⟩ <;> simp [silentPattern, TA.clockSize]

theorem silentPattern_silent : ¬ silentPattern.NoSilent := by unfold TA.NoSilent; decide

/-- The begin lies in `[0, 4)`, the end in `(1, 5]`, and the duration in `(1, 3]`. -/
def silentMatchZone : Zone ℚ :=
  sixZone ⟨.fin 4 false, .fin 0 true, .fin 5 true, .fin (-1) false, .fin 3 true, .fin (-1) false⟩

theorem silent_check : okOne silentMatchZone (monaa 20 20 20 (vectorCont ℚ) none silentPattern silentLog).1 = true := by
  decide +kernel

theorem silent_has : ∃ zs, (monaa 20 20 20 (vectorCont ℚ) none silentPattern silentLog).1 = .ok zs ∧
    ∃ z ∈ zs, z.Has 2 4 := by
  refine ⟨[silentMatchZone], okOne_eq silent_check, silentMatchZone, by simp, ?_⟩
  refine sixZone_Sat.2 ?_
  simp only [Six.Sat, sat_t, sat_f]
  norm_num

/-! ### a silent transition with a reset -/

/-- `0 -ε/x0→ 1 -a{x0≥3}→ 2`, where 2 is accepting. -/
def resetPattern : TA Nat :=
  { states := [0, 1, 2], init := [0]
    st := fun s =>
      if s = 0 then ⟨false, false, [(0, [⟨some 1, [0], []⟩])]⟩
      else if s = 1 then ⟨false, false, [(97, [⟨some 2, [], [⟨0, .ge, 3⟩]⟩])]⟩
      else if s = 2 then ⟨true, false, []⟩
      else ⟨false, false, []⟩
    maxC := [3] }

theorem resetPattern_edges (s : Nat) (a : Alphabet) (e : Transition Nat) (he : e ∈ resetPattern.edges s a) :
    (s = 0 ∧ a = 0 ∧ e = ⟨some 1, [0], []⟩) ∨ (s = 1 ∧ a = 97 ∧ e = ⟨some 2, [], [⟨0, .ge, 3⟩]⟩) := by
  simp only [TA.edges, resetPattern] at he
  split_ifs at he with h0 h1 h2
  · simp only [Next.at'_cons, Next.at'_nil] at he
    split_ifs at he with ha
    · simp only [List.mem_singleton] at he; exact Or.inl ⟨h0, ha.symm, he⟩
    · simp at he
  · simp only [Next.at'_cons, Next.at'_nil] at he
    split_ifs at he with ha
    · simp only [List.mem_singleton] at he; exact Or.inr ⟨h1, ha.symm, he⟩
    · simp at he
  · simp [Next.at'_nil] at he
  · simp [Next.at'_nil] at he

theorem resetPattern_declared : resetPattern.ClocksDeclared := by
  intro s a e he
  rcases resetPattern_edges s a e he with ⟨_, _, rfl⟩ | ⟨_, _, rfl⟩ <;> simp [resetPattern, TA.clockSize]

theorem resetPattern_closed : resetPattern.Closed := by
  refine ⟨by decide, ?_⟩
  intro s _ a e he q hq
  rcases resetPattern_edges s a e he with ⟨_, _, rfl⟩ | ⟨_, _, rfl⟩ <;>
    simp only [Option.some.injEq] at hq <;> subst hq <;> decide

/-- The begin lies in `[0, 5)`, the end in `[3, 5]`, in this order. -/
def resetMatchZone : Zone ℚ :=
  sixZone ⟨.fin 5 false, .fin 0 true, .fin 5 true, .fin (-3) true, .fin 5 true, .fin 0 true⟩

theorem reset_check : okOne resetMatchZone (monaa 20 20 20 (vectorCont ℚ) none resetPattern silentLog).1 = true := by
  decide +kernel

theorem reset_has : (monaa 20 20 20 (vectorCont ℚ) none resetPattern silentLog).1 = .ok [resetMatchZone] ∧
    resetMatchZone.Has 2 3 := by
  refine ⟨okOne_eq reset_check, ?_⟩
  refine sixZone_Sat.2 ?_
  simp only [Six.Sat, sat_t, sat_f]
  norm_num

/-- After the reset the letter may only be read 3 later. -/
theorem reset_run {s : Nat} {r : Nat → ℚ} {now : ℚ} {w : TWord ℚ} {s' : Nat} (h : resetPattern.SReads s r now w s')
    (hr : s = 1 → now - r 0 ≤ 0) (hw : ∀ e ∈ w, e.2 ≤ now + 1) : s = 0 ∨ s = 1 → s' = 0 ∨ s' = 1 := by
  suffices H : ∀ T, (s = 1 → T ≤ r 0) → T ≤ now → (∀ e ∈ w, e.2 ≤ T + 1) → s = 0 ∨ s = 1 → s' = 0 ∨ s' = 1 by
    exact H now (fun h => by have := hr h; linarith) (le_refl _) hw
  intro T
  clear hr hw
  induction h with
  | done => exact fun _ _ _ h => h
  | event e q he hq ha ht hg h ih =>
    intro h1 h2 h3 h4
    rcases resetPattern_edges _ _ e he with ⟨rfl, rfl, rfl⟩ | ⟨rfl, rfl, rfl⟩
    · exact absurd rfl ha
    · exfalso
      have := hg ⟨0, .ge, 3⟩ (by simp)
      simp only [Constraint.Holds] at this
      have h5 := h1 rfl
      have h6 := h3 _ List.mem_cons_self
      norm_num at this h6
      linarith
  | silent t e q he hq ht hg h ih =>
    intro h1 h2 h3 h4
    rcases resetPattern_edges _ _ e he with ⟨rfl, -, rfl⟩ | ⟨rfl, h5, rfl⟩
    · simp only [Option.some.injEq] at hq
      subst hq
      refine ih (fun _ => ?_) (by linarith) h3 (Or.inr rfl)
      simp only [resetAt, List.mem_singleton, if_true]
      linarith
    · exact absurd h5 (by decide)

theorem reset_not_match : ¬ resetPattern.SilentMatch silentLog 2 3 := by
  rintro ⟨-, -, a, ha, s, hs, s', hr, hm⟩
  have e1 : between silentLog 2 3 = [] := by decide +kernel
  rw [e1] at hr
  simp only [resetPattern, List.mem_singleton] at hs
  subst hs
  have := reset_run hr (by simp) (by simp; norm_num) (Or.inl rfl)
  rcases this with rfl | rfl <;> exact absurd hm (by decide)

/-! ### a pattern without clocks -/

/-- `0 -ε→ 1 -a→ 2`, where 2 is accepting. -/
def clocklessPattern : TA Nat :=
  { states := [0, 1, 2], init := [0]
    st := fun s =>
      if s = 0 then ⟨false, false, [(0, [⟨some 1, [], []⟩])]⟩
      else if s = 1 then ⟨false, false, [(97, [⟨some 2, [], []⟩])]⟩
      else if s = 2 then ⟨true, false, []⟩
      else ⟨false, false, []⟩
    maxC := [] }

/-- Whether the result is undefined behaviour. -/
def isUb {α : Type} : Except Err α → Bool
  | .error .ub => true
  | _ => false

theorem isUb_eq {α : Type} {r : Except Err α} (h : isUb r = true) : r = .error .ub := by
  unfold isUb at h
  split at h
  · rfl
  · cases h

theorem clockless_static : (monaa 20 20 20 (vectorCont ℚ) none clocklessPattern silentLog).2 = some 0 := by
  decide +kernel

theorem after_clockless : isUb (monaa 20 20 20 (vectorCont ℚ) (some 0) silentPattern silentLog).1 = true := by
  decide +kernel

theorem ne_of_ub {α : Type} {r r' : Except Err α} {x : α} (h : r = .error .ub) (h' : r' = .ok x) : r ≠ r' := by
  subst h h'
  intro h
  cases h

theorem silent_after_clockless : (monaa 20 20 20 (vectorCont ℚ) (some 0) silentPattern silentLog).1 ≠
    (monaa 20 20 20 (vectorCont ℚ) none silentPattern silentLog).1 :=
  ne_of_ub (isUb_eq after_clockless) (okOne_eq silent_check)

end Verif.Props
