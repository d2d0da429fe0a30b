import Verif.Props.SameLanguage

/-!
# Patterns with the same language give the same results: signals (C92)
-/

set_option linter.unusedSectionVars false

namespace Verif.Props

variable {S S₁ S₂ K : Type} [DecidableEq S] [DecidableEq S₁] [DecidableEq S₂] [Field K] [LinearOrder K] [IsStrictOrderedRing K]

/-- What `signal_complete_partial` needs of a pattern. -/
structure GoodSignal (A : TA S) : Prop where
  tidy : A.Tidy
  declared : A.ClocksDeclared
  noSilent : A.NoSilent
  closed : A.Closed
  mapOk : A.MapOk
  loops : A.LoopsOk
  upper : A.UpperAfterReset
  final : A.FinalLower
  noZero : A.NoZeroDuration
  size : 2 * A.clockSize ≤ 256

theorem goodSignal_iff {A : TA S} (hA : GoodSignal A) {w : TWord K} (hw : LogOk w) (hstr : LogStrict w) (hlet : LettersOk w)
    {fuel steps efuel : Nat} {st : Option Nat} (hs : w.length < steps) {zs : List (Zone K)}
    (h : (monaa fuel steps efuel (vectorCont K) st A w).1 = .ok zs ∨
      (monaa fuel steps efuel (lazyCont K) st A (Lazy.mk0 w)).1 = .ok zs) {t t' : K} (htt : t < t') :
    (∃ z ∈ zs, z.Has t t') ↔
      0 ≤ t ∧ ∃ a, letterAt w t' = some a ∧ A.Accepts ((between w t t').map (fun e => (e.1, e.2 - t)) ++ [(a, t' - t)]) := by
  constructor
  · rintro ⟨z, hz, ht⟩
    obtain ⟨h0, -, a, ha, hacc⟩ := signal_sound A hA.tidy hA.noSilent w hw fuel steps efuel st hs zs h z hz t t' ht
    exact ⟨h0, a, ha, hacc⟩
  · rintro ⟨h0, a, ha, hacc⟩
    refine signal_complete_partial A hA.declared hA.noSilent hA.closed hA.mapOk hA.loops hA.upper hA.final hA.noZero hA.size w hw hstr hlet
      fuel steps efuel st hs zs h t t' htt ⟨h0, htt.le, a, ha, (acceptsFrom_shift A _ _).2 ?_⟩
    rw [List.map_append]
    simpa using hacc

/-- **C92, what holds** for `monaa` (`_partial`: for patterns which meet the conditions of `signal_complete_partial`, and `t < t'`).  If a
pattern accepts the words which one of two others accepts, then the pairs reported for it are those reported for one of the others,
for both containers and whatever the calls before were. -/
theorem same_signals_partial (A : TA S) (A₁ : TA S₁) (A₂ : TA S₂) (hA : GoodSignal A) (hA₁ : GoodSignal A₁) (hA₂ : GoodSignal A₂)
    (hL : ∀ u : TWord K, A.Accepts u ↔ A₁.Accepts u ∨ A₂.Accepts u)
    (w : TWord K) (hw : LogOk w) (hstr : LogStrict w) (hlet : LettersOk w)
    (fuel fuel₁ fuel₂ steps steps₁ steps₂ efuel efuel₁ efuel₂ : Nat) (st st₁ st₂ : Option Nat)
    (hs : w.length < steps) (hs₁ : w.length < steps₁) (hs₂ : w.length < steps₂) (zs zs₁ zs₂ : List (Zone K))
    (h : (monaa fuel steps efuel (vectorCont K) st A w).1 = .ok zs ∨
      (monaa fuel steps efuel (lazyCont K) st A (Lazy.mk0 w)).1 = .ok zs)
    (h₁ : (monaa fuel₁ steps₁ efuel₁ (vectorCont K) st₁ A₁ w).1 = .ok zs₁ ∨
      (monaa fuel₁ steps₁ efuel₁ (lazyCont K) st₁ A₁ (Lazy.mk0 w)).1 = .ok zs₁)
    (h₂ : (monaa fuel₂ steps₂ efuel₂ (vectorCont K) st₂ A₂ w).1 = .ok zs₂ ∨
      (monaa fuel₂ steps₂ efuel₂ (lazyCont K) st₂ A₂ (Lazy.mk0 w)).1 = .ok zs₂)
    (t t' : K) (htt : t < t') :
    (∃ z ∈ zs, z.Has t t') ↔ (∃ z ∈ zs₁, z.Has t t') ∨ ∃ z ∈ zs₂, z.Has t t' := by
  rw [goodSignal_iff hA hw hstr hlet hs h htt, goodSignal_iff hA₁ hw hstr hlet hs₁ h₁ htt, goodSignal_iff hA₂ hw hstr hlet hs₂ h₂ htt]
  simp only [hL]
  constructor
  · rintro ⟨h0, a, ha, h | h⟩
    · exact .inl ⟨h0, a, ha, h⟩
    · exact .inr ⟨h0, a, ha, h⟩
  · rintro (⟨h0, a, ha, h⟩ | ⟨h0, a, ha, h⟩)
    · exact ⟨h0, a, ha, .inl h⟩
    · exact ⟨h0, a, ha, .inr h⟩

/-! ### sample -/

/-- `0 -a/x0→ 1 -b{x0>c}→ 2`, where 2 is accepting; `signalPattern` is `afterPattern 1`. -/
def afterPattern (c : Int) : TA Nat :=
  { states := [0, 1, 2], init := [0]
    st := fun s =>
      if s = 0 then ⟨false, false, [(97, [⟨some 1, [0], []⟩])]⟩
      else if s = 1 then ⟨false, false, [(98, [⟨some 2, [], [⟨0, .gt, c⟩]⟩])]⟩
      else if s = 2 then ⟨true, false, []⟩
      else ⟨false, false, []⟩
    maxC := [c] }

theorem after_edges {c : Int} {s : Nat} {a : Alphabet} {e : Transition Nat} (he : e ∈ (afterPattern c).edges s a) :
    (s = 0 ∧ a = 97 ∧ e = ⟨some 1, [0], []⟩) ∨ (s = 1 ∧ a = 98 ∧ e = ⟨some 2, [], [⟨0, .gt, c⟩]⟩) := by
  simp only [TA.edges, afterPattern] at he
  split_ifs at he with h0 h1 h2
  · simp only [Next.at'_cons, Next.at'_nil] at he
    split_ifs at he with ha
    · simp only [List.mem_singleton] at he; exact Or.inl ⟨h0, ha.symm, he⟩
    · simp at he
  · simp only [Next.at'_cons, Next.at'_nil] at he
    split_ifs at he with ha
    · simp only [List.mem_singleton] at he; exact Or.inr ⟨h1, ha.symm, he⟩
    · simp at he
  · simp [Next.at'_nil] at he
  · simp [Next.at'_nil] at he

theorem after_good (c : Int) : GoodSignal (afterPattern c) where
  tidy := by
    intro s hs
    simp only [afterPattern, List.mem_cons, List.not_mem_nil, or_false, not_or] at hs ⊢
    rw [if_neg hs.1, if_neg hs.2.1, if_neg hs.2.2]
  declared := by
    intro s a e he
    rcases after_edges he with ⟨_, _, rfl⟩ | ⟨_, _, rfl⟩ <;> simp [afterPattern, TA.clockSize]
  noSilent := by
    intro s hs
    simp only [afterPattern, List.mem_cons, List.not_mem_nil, or_false] at hs ⊢
    rcases hs with rfl | rfl | rfl <;> rfl
  closed := by
    refine ⟨by simp [afterPattern], ?_⟩
    intro s _ a e he q hq
    rcases after_edges he with ⟨_, _, rfl⟩ | ⟨_, _, rfl⟩ <;> cases hq <;> simp [afterPattern]
  mapOk := by
    intro s
    simp only [afterPattern]
    split_ifs <;> simp
  loops := .inl ⟨fun s => 2 - s, by
    intro s a e he q hq
    rcases after_edges he with ⟨rfl, _, rfl⟩ | ⟨rfl, _, rfl⟩ <;> cases hq <;> simp⟩
  upper := ⟨fun _ _ => False, by simp, by
    intro s a e he
    rcases after_edges he with ⟨rfl, _, rfl⟩ | ⟨rfl, _, rfl⟩ <;> simp [Constraint.IsUpper]⟩
  final := by
    intro s a e he q _ _
    rcases after_edges he with ⟨rfl, _, rfl⟩ | ⟨rfl, _, rfl⟩ <;> simp [Constraint.IsUpper]
  noZero := by
    intro s hs
    simp only [afterPattern, List.mem_cons, List.not_mem_nil, or_false] at hs ⊢
    rcases hs with rfl | rfl | rfl <;> rfl
  size := by simp [afterPattern, TA.clockSize]

/-- A larger constant gives fewer words. -/
theorem after_less {c d : Int} (h : c ≤ d) {u : TWord ℚ} : (afterPattern d).Accepts u → (afterPattern c).Accepts u := by
  rintro ⟨s, hs, s', hr, hm⟩
  have hs0 : s = 0 := by simpa [afterPattern] using hs
  subst hs0
  refine ⟨0, by simp [afterPattern], s', ?_, ?_⟩
  swap
  · simp only [afterPattern] at hm ⊢
    split_ifs at hm ⊢ <;> exact hm
  clear hm
  clear hs
  generalize (fun _ => (0 : ℚ)) = r at hr ⊢
  generalize 0 = s at hr ⊢
  induction u generalizing s r with
  | nil => exact hr
  | cons a u ih =>
    obtain ⟨e, he, q, hq, hg, hr⟩ := hr
    rcases after_edges he with ⟨rfl, ha, rfl⟩ | ⟨rfl, ha, rfl⟩
    · exact ⟨_, by rw [ha]; simp [TA.edges, afterPattern, Next.at'_cons], q, hq, hg, ih _ _ hr⟩
    · refine ⟨⟨some 2, [], [⟨0, .gt, c⟩]⟩, by rw [ha]; simp [TA.edges, afterPattern, Next.at'_cons], q, hq, ?_, ih _ _ hr⟩
      intro g hg'
      have h1 := hg _ (List.mem_singleton.2 rfl)
      rw [List.mem_singleton] at hg'
      subst hg'
      have h2 : (c : ℚ) ≤ d := by exact_mod_cast h
      exact ⟨by simp, by simp, by simp, fun _ => lt_of_le_of_lt h2 (h1.2.2.2 rfl)⟩

theorem of_any {x : Except Err (List (Zone ℚ))} (h : (x.toOption.any fun zs => !zs.isEmpty) = true) : ∃ zs, x = .ok zs ∧ zs ≠ [] := by
  cases x with
  | error e => cases h
  | ok zs => exact ⟨zs, rfl, by simpa [Except.toOption] using h⟩

theorem after_check : (([1, 2] : List Int).all fun c =>
    (monaa 20 20 20 (vectorCont ℚ) none (afterPattern c) signalLog).1.toOption.any fun zs => !zs.isEmpty) = true := by decide +kernel

/-- The hypotheses of `same_signals_partial` are met by the constants 1, 1 and 2 and a signal which is `a` until 3, then `b` until 6;
something is reported for each. -/
example : GoodSignal (afterPattern 1) ∧ GoodSignal (afterPattern 2) ∧
    (∀ u : TWord ℚ, (afterPattern 1).Accepts u ↔ (afterPattern 1).Accepts u ∨ (afterPattern 2).Accepts u) ∧
    LogOk signalLog ∧ LogStrict signalLog ∧ LettersOk signalLog ∧
    ∀ c ∈ ([1, 2] : List Int), ∃ zs : List (Zone ℚ), (monaa 20 20 20 (vectorCont ℚ) none (afterPattern c) signalLog).1 = .ok zs ∧ zs ≠ [] := by
  obtain ⟨k1, k2, k3⟩ := signalLog_ok
  have hle : (1 : Int) ≤ 2 := by decide
  refine ⟨after_good 1, after_good 2, fun u => ⟨.inl, fun h => h.elim id fun h => after_less hle h⟩, k1, k2, k3, ?_⟩
  exact fun c hc => of_any (List.all_eq_true.1 after_check c hc)

end Verif.Props
