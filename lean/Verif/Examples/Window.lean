import Verif.Examples.Loop

/-!
# A pattern with a restriction of the duration of the whole match
-/

namespace Verif.Props

/-- `0 -a→ 0, 0 -a→ 1 -b{x0>1, x0≤7}→ 2 -$→ 3`: some `a`, and a `b` between one and seven units after the begin of the match. -/
def windowPattern : TA Nat :=
  { states := [0, 1, 2, 3], init := [0]
    st := fun s =>
      if s = 0 then ⟨false, false, [(97, [⟨some 0, [], []⟩, ⟨some 1, [], []⟩])]⟩
      else if s = 1 then ⟨false, false, [(98, [⟨some 2, [], [⟨0, .gt, 1⟩, ⟨0, .le, 7⟩]⟩])]⟩
      else if s = 2 then ⟨false, false, [(36, [⟨some 3, [], []⟩])]⟩
      else if s = 3 then ⟨true, false, []⟩
      else ⟨false, false, []⟩
    maxC := [7] }

theorem windowPattern_edges (s : Nat) (a : Alphabet) (e : Transition Nat) (he : e ∈ windowPattern.edges s a) :
    (s = 0 ∧ a = 97 ∧ (e = ⟨some 0, [], []⟩ ∨ e = ⟨some 1, [], []⟩)) ∨
    (s = 1 ∧ a = 98 ∧ e = ⟨some 2, [], [⟨0, .gt, 1⟩, ⟨0, .le, 7⟩]⟩) ∨
    (s = 2 ∧ a = 36 ∧ e = ⟨some 3, [], []⟩) := by
  simp only [TA.edges, windowPattern] at he
  split_ifs at he with h0 h1 h2 h3
  · simp only [Next.at'_cons, Next.at'_nil] at he
    split_ifs at he with ha
    · exact Or.inl ⟨h0, ha.symm, by simpa using he⟩
    · simp at he
  · simp only [Next.at'_cons, Next.at'_nil] at he
    split_ifs at he with ha
    · simp only [List.mem_singleton] at he; exact Or.inr (Or.inl ⟨h1, ha.symm, he⟩)
    · simp at he
  · simp only [Next.at'_cons, Next.at'_nil] at he
    split_ifs at he with ha
    · simp only [List.mem_singleton] at he; exact Or.inr (Or.inr ⟨h2, ha.symm, he⟩)
    · simp at he
  · simp [Next.at'_nil] at he
  · simp [Next.at'_nil] at he

theorem windowPattern_tidy : windowPattern.Tidy := by
  intro s hs
  simp only [windowPattern, List.mem_cons, List.not_mem_nil, or_false, not_or] at hs ⊢
  rw [if_neg hs.1, if_neg hs.2.1, if_neg hs.2.2.1, if_neg hs.2.2.2]

theorem windowPattern_closed : windowPattern.Closed := by
  refine ⟨by decide, ?_⟩
  intro s _ a e he q hq
  rcases windowPattern_edges s a e he with ⟨_, _, rfl | rfl⟩ | ⟨_, _, rfl⟩ | ⟨_, _, rfl⟩ <;>
    simp only [Option.some.injEq] at hq <;> subst hq <;> decide

theorem windowPattern_declared : windowPattern.ClocksDeclared := by
  intro s a e he
  rcases windowPattern_edges s a e he with ⟨_, _, rfl | rfl⟩ | ⟨_, _, rfl⟩ | ⟨_, _, rfl⟩ <;>
    simp [windowPattern, TA.clockSize]

theorem windowPattern_mapOk : windowPattern.MapOk := by
  intro s
  simp only [windowPattern]
  split_ifs <;> simp

theorem windowPattern_noSilent : windowPattern.NoSilent := by
  intro s hs
  simp only [windowPattern, List.mem_cons, List.not_mem_nil, or_false] at hs
  rcases hs with rfl | rfl | rfl | rfl <;> rfl

theorem windowPattern_loops : windowPattern.PlainLoops := by
  refine ⟨fun s => 3 - s, ?_⟩
  intro s a e he q hq
  rcases windowPattern_edges s a e he with ⟨rfl, _, rfl | rfl⟩ | ⟨rfl, _, rfl⟩ | ⟨rfl, _, rfl⟩ <;>
    simp only [Option.some.injEq] at hq <;> subst hq <;> simp

theorem windowPattern_cyclic : ¬ windowPattern.Acyclic := by
  rintro ⟨rank, h⟩
  exact absurd (h 0 97 ⟨some 0, [], []⟩ (by decide) 0 rfl) (lt_irrefl _)

theorem windowPattern_oneWindow : windowPattern.OneWindow := by
  refine ⟨1, fun s a ha e he => ?_⟩
  rcases windowPattern_edges s a e he with ⟨rfl, _, rfl | rfl⟩ | ⟨rfl, _, rfl⟩ | ⟨rfl, h, rfl⟩
  · simp
  · simp
  · refine ⟨rfl, by simp [Constraint.IsUpper], .inr (.inr fun q hq b e' he' => ?_)⟩
    cases hq
    rcases windowPattern_edges 2 b e' he' with ⟨h, _⟩ | ⟨h, _⟩ | ⟨_, h, _⟩
    · cases h
    · cases h
    · exact h
  · exact absurd h ha

/-- The clock with the upper bound is never reset. -/
theorem windowPattern_notUpper : ¬ windowPattern.UpperAfterReset := by
  rintro ⟨F, hi, hF⟩
  have h1 := (hF 1 98 ⟨some 2, [], [⟨0, .gt, 1⟩, ⟨0, .le, 7⟩]⟩ (by decide)).1 ⟨0, .le, 7⟩ (by decide) (by simp [Constraint.IsUpper])
  rcases (hF 0 97 ⟨some 1, [], []⟩ (by decide)).2 1 rfl 0 h1 with h | h
  · exact hi 0 (by decide) 0 h
  · cases h

theorem windowPattern_noZero : windowPattern.NoZeroDuration := by
  intro s hs
  simp only [windowPattern, List.mem_cons, List.not_mem_nil, or_false] at hs
  rcases hs with rfl | rfl | rfl | rfl <;> rfl

theorem windowPattern_labels : windowPattern.LabelsOk := by
  intro s a hne
  obtain ⟨e, he⟩ := List.exists_mem_of_ne_nil _ hne
  rcases windowPattern_edges s a e he with ⟨_, rfl, _⟩ | ⟨_, rfl, _⟩ | ⟨_, rfl, _⟩ <;> decide

/-- The part of the log from 1/2 to 5 is a match which uses the loop. -/
theorem window_match : windowPattern.Match sampleLog (1 / 2) 5 := by
  refine ⟨by norm_num, by norm_num, 0, by decide, 3, ?_, by decide⟩
  rw [stay_between]
  refine ⟨⟨some 0, [], []⟩, by decide, 0, rfl, by norm_num [GuardHolds], ⟨some 1, [], []⟩, by decide, 1, rfl, by norm_num [GuardHolds],
    ⟨some 2, [], [⟨0, .gt, 1⟩, ⟨0, .le, 7⟩]⟩, by decide, 2, rfl, ?_, ⟨some 3, [], []⟩, by decide, 3, rfl, by norm_num [GuardHolds], rfl⟩
  norm_num [GuardHolds, Constraint.Holds, resetAt]
  decide

end Verif.Props
