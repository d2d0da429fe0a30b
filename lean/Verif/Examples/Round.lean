import Verif.Examples.Pattern
import Verif.Spec.Loops

/-!
# A pattern with a cycle of two states
-/

namespace Verif.Props

/-- `0 -a→ 1, 1 -b→ 0, 1 -b/x0→ 2 -a{x0>1, x0≤3}→ 3 -$→ 4`: `ab` some times, and an `a` between one and three units after the last `b`. -/
def roundPattern : TA Nat :=
  { states := [0, 1, 2, 3, 4], init := [0]
    st := fun s =>
      if s = 0 then ⟨false, false, [(97, [⟨some 1, [], []⟩])]⟩
      else if s = 1 then ⟨false, false, [(98, [⟨some 0, [], []⟩, ⟨some 2, [0], []⟩])]⟩
      else if s = 2 then ⟨false, false, [(97, [⟨some 3, [], [⟨0, .gt, 1⟩, ⟨0, .le, 3⟩]⟩])]⟩
      else if s = 3 then ⟨false, false, [(36, [⟨some 4, [], []⟩])]⟩
      else if s = 4 then ⟨true, false, []⟩
      else ⟨false, false, []⟩
    maxC := [3] }

theorem roundPattern_edges (s : Nat) (a : Alphabet) (e : Transition Nat) (he : e ∈ roundPattern.edges s a) :
    (s = 0 ∧ a = 97 ∧ e = ⟨some 1, [], []⟩) ∨ (s = 1 ∧ a = 98 ∧ (e = ⟨some 0, [], []⟩ ∨ e = ⟨some 2, [0], []⟩)) ∨
    (s = 2 ∧ a = 97 ∧ e = ⟨some 3, [], [⟨0, .gt, 1⟩, ⟨0, .le, 3⟩]⟩) ∨ (s = 3 ∧ a = 36 ∧ e = ⟨some 4, [], []⟩) := by
  simp only [TA.edges, roundPattern] at he
  split_ifs at he with h0 h1 h2 h3 h4
  · simp only [Next.at'_cons, Next.at'_nil] at he
    split_ifs at he with ha
    · exact Or.inl ⟨h0, ha.symm, by simpa using he⟩
    · simp at he
  · simp only [Next.at'_cons, Next.at'_nil] at he
    split_ifs at he with ha
    · exact Or.inr (Or.inl ⟨h1, ha.symm, by simpa using he⟩)
    · simp at he
  · simp only [Next.at'_cons, Next.at'_nil] at he
    split_ifs at he with ha
    · simp only [List.mem_singleton] at he; exact Or.inr (Or.inr (Or.inl ⟨h2, ha.symm, he⟩))
    · simp at he
  · simp only [Next.at'_cons, Next.at'_nil] at he
    split_ifs at he with ha
    · simp only [List.mem_singleton] at he; exact Or.inr (Or.inr (Or.inr ⟨h3, ha.symm, he⟩))
    · simp at he
  · simp [Next.at'_nil] at he
  · simp [Next.at'_nil] at he

theorem roundPattern_tidy : roundPattern.Tidy := by
  intro s hs
  simp only [roundPattern, List.mem_cons, List.not_mem_nil, or_false, not_or] at hs ⊢
  rw [if_neg hs.1, if_neg hs.2.1, if_neg hs.2.2.1, if_neg hs.2.2.2.1, if_neg hs.2.2.2.2]

theorem roundPattern_closed : roundPattern.Closed := by
  refine ⟨by decide, ?_⟩
  intro s _ a e he q hq
  rcases roundPattern_edges s a e he with ⟨_, _, rfl⟩ | ⟨_, _, rfl | rfl⟩ | ⟨_, _, rfl⟩ | ⟨_, _, rfl⟩ <;>
    simp only [Option.some.injEq] at hq <;> subst hq <;> decide

theorem roundPattern_declared : roundPattern.ClocksDeclared := by
  intro s a e he
  rcases roundPattern_edges s a e he with ⟨_, _, rfl⟩ | ⟨_, _, rfl | rfl⟩ | ⟨_, _, rfl⟩ | ⟨_, _, rfl⟩ <;>
    simp [roundPattern, TA.clockSize]

theorem roundPattern_mapOk : roundPattern.MapOk := by
  intro s
  simp only [roundPattern]
  split_ifs <;> simp

theorem roundPattern_noSilent : roundPattern.NoSilent := by
  intro s hs
  simp only [roundPattern, List.mem_cons, List.not_mem_nil, or_false] at hs
  rcases hs with rfl | rfl | rfl | rfl | rfl <;> rfl

theorem roundPattern_labels : roundPattern.LabelsOk := by
  intro s a hne
  obtain ⟨e, he⟩ := List.exists_mem_of_ne_nil _ hne
  rcases roundPattern_edges s a e he with ⟨_, rfl, _⟩ | ⟨_, rfl, _⟩ | ⟨_, rfl, _⟩ | ⟨_, rfl, _⟩ <;> decide

theorem roundPattern_noZero : roundPattern.NoZeroDuration := by
  intro s hs
  simp only [roundPattern, List.mem_cons, List.not_mem_nil, or_false] at hs
  rcases hs with rfl | rfl | rfl | rfl | rfl <;> rfl

theorem roundPattern_upper : roundPattern.UpperAfterReset := by
  refine ⟨fun s x => s = 2 ∧ x = 0, ?_, ?_⟩
  · intro s hs x
    simp only [roundPattern, List.mem_singleton] at hs
    subst hs
    simp
  · intro s a e he
    rcases roundPattern_edges s a e he with ⟨rfl, _, rfl⟩ | ⟨rfl, _, rfl | rfl⟩ | ⟨rfl, _, rfl⟩ | ⟨rfl, _, rfl⟩ <;>
      simp [Constraint.IsUpper]

/-- The states 0 and 1 are a level; the transition from 1 to 0 comes before the one which leaves the level. -/
theorem roundPattern_ordered : roundPattern.OrderedLoops := by
  let level : Nat → Nat := fun s => if s = 0 then 3 else if s = 1 then 3 else if s = 2 then 2 else if s = 3 then 1 else 0
  refine ⟨level, fun s => 1 - s, ?_⟩
  intro s hs
  have hone : ∀ {s c es}, (roundPattern.st s).next = [(c, es)] → level s = 3 → (s = 0 ∧ c = 97 ∧ es = [⟨some 1, [], []⟩]) ∨
      (s = 1 ∧ c = 98 ∧ es = [⟨some 0, [], []⟩, ⟨some 2, [0], []⟩]) := by
    intro s c es h hl
    simp only [level] at hl
    split_ifs at hl with h0 h1 h2 h3
    · subst h0
      simp only [roundPattern, if_true, List.cons.injEq, Prod.mk.injEq, and_true] at h
      exact Or.inl ⟨rfl, h.1.symm, h.2.symm⟩
    · subst h1
      simp only [roundPattern, one_ne_zero, if_false, if_true, List.cons.injEq, Prod.mk.injEq, and_true] at h
      exact Or.inr ⟨rfl, h.1.symm, h.2.symm⟩
    · cases hl
    · cases hl
  have hlt : ∀ {t : Nat} {k : Nat}, t ∈ roundPattern.states → level t = k → k = 2 ∧ t = 2 ∨ k = 1 ∧ t = 3 ∨ k = 3 ∨ k = 0 := by
    intro t k ht h
    simp only [roundPattern, List.mem_cons, List.not_mem_nil, or_false] at ht
    rcases ht with rfl | rfl | rfl | rfl | rfl <;> simp [level] at h <;> omega
  simp only [roundPattern, List.mem_cons, List.not_mem_nil, or_false] at hs
  rcases hs with rfl | rfl | rfl | rfl | rfl
  · refine .inr ⟨rfl, by decide, 97, _, rfl, ?_, by simp, .inr ⟨[], _, 1, rfl, rfl, rfl, by decide⟩, ?_⟩
    · simp [level]
    · intro t ht c' fs hl hn
      refine ⟨?_, fun h => by cases h⟩
      rintro - e he ⟨q, hq, hq'⟩
      simp only [List.mem_singleton] at he
      subst he
      cases hq
      simp [level] at hq'
  · refine .inr ⟨rfl, by decide, 98, _, rfl, ?_, ?_, .inl ⟨_, List.mem_cons_of_mem _ (List.mem_singleton.2 rfl), 2, rfl, by decide⟩, ?_⟩
    · simp [level]
    · simp only [List.pairwise_cons, List.mem_singleton, forall_eq, List.not_mem_nil, false_imp_iff, implies_true, List.Pairwise.nil, and_true]
      exact fun _ => ⟨2, rfl, by decide⟩
    · intro t ht c' fs hl hn
      refine ⟨?_, fun h => by cases h⟩
      rcases hone hn hl with ⟨rfl, rfl, rfl⟩ | ⟨rfl, rfl, rfl⟩
      · rintro ⟨f, hf, q, hq, hq'⟩
        simp only [List.mem_singleton] at hf
        subst hf
        cases hq
        simp [level] at hq'
      · exact fun _ e he _ => he
  · refine .inr ⟨rfl, by decide, 97, _, rfl, ?_, by simp, .inl ⟨_, List.mem_singleton.2 rfl, 3, rfl, by decide⟩, ?_⟩
    · simp [level]
    · intro t ht c' fs hl hn
      rcases hlt ht hl with ⟨-, rfl⟩ | ⟨h, -⟩ | h | h
      · simp only [roundPattern, List.cons.injEq, Prod.mk.injEq] at hn
        obtain ⟨⟨rfl, rfl⟩, -⟩ := hn
        exact ⟨fun _ e he _ => he, fun h => h⟩
      all_goals simp [level] at h
  · refine .inr ⟨rfl, by decide, 36, _, rfl, ?_, by simp, .inl ⟨_, List.mem_singleton.2 rfl, 4, rfl, by decide⟩, ?_⟩
    · simp [level]
    · intro t ht c' fs hl hn
      rcases hlt ht hl with ⟨h, -⟩ | ⟨-, rfl⟩ | h | h
      · simp [level] at h
      · simp only [roundPattern, List.cons.injEq, Prod.mk.injEq] at hn
        obtain ⟨⟨rfl, rfl⟩, -⟩ := hn
        exact ⟨fun _ e he _ => he, fun h => h⟩
      all_goals simp [level] at h
  · exact .inl ⟨rfl, rfl⟩

theorem roundPattern_not_plain : ¬ roundPattern.PlainLoops := by
  rintro ⟨rank, h⟩
  rcases h 0 97 ⟨some 1, [], []⟩ (by decide) 1 rfl with h1 | ⟨h1, -⟩
  · rcases h 1 98 ⟨some 0, [], []⟩ (by decide) 0 rfl with h2 | ⟨h2, -⟩
    · omega
    · cases h2
  · cases h1

/-- `a` at 1, `b` at 2, `a` at 3, `b` at 4, `a` at 6. -/
def roundLog : TWord ℚ := [(97, 1), (98, 2), (97, 3), (98, 4), (97, 6), (97, 8)]

theorem round_log : LogOk roundLog ∧ LogStrict roundLog ∧ LettersOk roundLog :=
  ⟨⟨by decide +kernel, by decide +kernel, by decide⟩, ⟨by decide +kernel, by decide +kernel⟩, by unfold LettersOk; decide⟩

theorem round_between : between roundLog (1 / 2) 7 = [(97, 1), (98, 2), (97, 3), (98, 4), (97, 6)] := by decide +kernel

/-- The part of the log from 1/2 to 7 is a match which uses the cycle. -/
theorem round_match : roundPattern.Match roundLog (1 / 2) 7 := by
  refine ⟨by norm_num, by norm_num, 0, by decide, 4, ?_, by decide⟩
  rw [round_between]
  refine ⟨⟨some 1, [], []⟩, by decide, 1, rfl, by norm_num [GuardHolds], ⟨some 0, [], []⟩, by decide, 0, rfl, by norm_num [GuardHolds],
    ⟨some 1, [], []⟩, by decide, 1, rfl, by norm_num [GuardHolds], ⟨some 2, [0], []⟩, by decide, 2, rfl, by norm_num [GuardHolds],
    ⟨some 3, [], [⟨0, .gt, 1⟩, ⟨0, .le, 3⟩]⟩, by decide, 3, rfl, ?_, ⟨some 4, [], []⟩, by decide, 4, rfl, by norm_num [GuardHolds], rfl⟩
  norm_num [GuardHolds, Constraint.Holds, resetAt]
  decide

end Verif.Props
