import Verif.Lemmas.UnitSignal
import Verif.Props.Unit

/-!
# The unit of time for patterns given as expressions (C94)

`e.scale k` is the expression `e` with the ends of all time restrictions multiplied by `k`.
-/

namespace Verif.Props

variable {K : Type} [Field K] [LinearOrder K] [IsStrictOrderedRing K] [FloorRing K]

/-- Translation of the expression and matching, as `monaa -e` does it. -/
def matchExpr (alloc addr : Nat → Nat) (fuel steps : Nat) (e : TRE K) (w : TWord K) : Except Err (List (Zone K)) :=
  match e.eventTA alloc with
  | .error x => .error x
  | .ok A => monaaDollar addr fuel steps (vectorCont K) A w

/-- **C94.** For every expression whose time restrictions have whole (or no) ends: `toEventTA` gives, for the expression in the
other unit, the same error or the same automaton in the other unit. -/
theorem translation_unit (k : Int) (hk : 0 < k) (alloc : Nat → Nat) (e : TRE K) (he : e.IntEnds) :
    (∀ A, e.eventTA alloc = .ok A → (e.scale k).eventTA alloc = .ok (A.scale k)) ∧
    ∀ x, e.eventTA alloc = .error x → (e.scale k).eventTA alloc = .error x := by
  have h := TRE.eventTA_scale hk alloc e he
  exact ⟨fun A hA => by rw [h, hA]; rfl, fun x hx => by rw [h, hx]; rfl⟩

/-- **C94.** The same for the translation to signal automata, with the normal form: the same error (also if the loops are not
finished with the given bound) or the same automaton in the other unit. -/
theorem signal_translation_unit (k : Int) (hk : 0 < k) (alloc : Nat → Nat) (nfuel : Nat) (e : TRE K) (he : e.IntEnds) :
    (∀ A, e.signalTA alloc nfuel = .ok A → (e.scale k).signalTA alloc nfuel = .ok (A.scale k)) ∧
    ∀ x, e.signalTA alloc nfuel = .error x → (e.scale k).signalTA alloc nfuel = .error x := by
  have h := TRE.signalTA_scale hk alloc nfuel e he
  exact ⟨fun A hA => by rw [h, hA]; rfl, fun x hx => by rw [h, hx]; rfl⟩

/-- **C94.** For every expression whose time restrictions have whole (or no) ends, and every log: translation and matching of the
expression and the log in the other unit give the same error, or as many zones in the same order, each with the same pairs in the
other unit. -/
theorem expression_unit (k : Int) (hk : 0 < k) (alloc addr : Nat → Nat) (fuel steps : Nat) (e : TRE K) (he : e.IntEnds)
    (w : TWord K) :
    UnitAgree k (matchExpr alloc addr fuel steps e w) (matchExpr alloc addr fuel steps (e.scale k) (scaleLog k w)) := by
  have h := translation_unit k hk alloc e he
  unfold matchExpr
  cases hA : e.eventTA alloc with
  | error x => rw [h.2 x hA]; rfl
  | ok A =>
    rw [h.1 A hA]
    exact (dollar_unit k hk A w addr fuel steps).1

/-- `(ab)%(2,5]`. -/
def unitE : TRE ℚ := .within (.concat (.atom 97) (.atom 98)) ⟨.fin 2 false, .fin 5 true⟩

/-- The hypothesis is met by an expression which is translated, and whose translation in the other unit differs. -/
example : unitE.IntEnds ∧ ((unitE.eventTA id).toOption.map fun A => A.maxC) = some [5] ∧
    (((unitE.scale 1000).eventTA id).toOption.map fun A => A.maxC) = some [5000] := by
  refine ⟨⟨⟨trivial, trivial⟩, ?_, ?_⟩, by decide +kernel, by decide +kernel⟩
  · rintro c s h
    simp only [Bnd.fin.injEq] at h
    exact ⟨2, by rw [← h.1]; norm_num⟩
  · rintro c s h
    simp only [Bnd.fin.injEq] at h
    exact ⟨5, by rw [← h.1]; norm_num⟩

/-- `(a%(2,5])b` has a signal automaton, and another one in the other unit. -/
example : (((TRE.concat (.within (.atom 97) ⟨.fin 2 false, .fin 5 true⟩) (.atom 98) : TRE ℚ).signalTA id 20).toOption.map fun A => A.maxC) = some [5] ∧
    ((((TRE.concat (.within (.atom 97) ⟨.fin 2 false, .fin 5 true⟩) (.atom 98) : TRE ℚ).scale 1000).signalTA id 20).toOption.map fun A => A.maxC) =
      some [5000] := by
  constructor <;> decide +kernel

/-- A restriction with an end which is no whole number; no text denotes it. -/
def halfE : TRE ℚ := .within (.atom 97) ⟨.fin 0 true, .fin (1 / 2) true⟩

/-- The hypothesis on the ends is necessary: `toEventTA` truncates, and the truncated end in the other unit is another one. -/
theorem translation_unit_needs_whole_ends : ∃ (e : TRE ℚ) (A : TA Nat), e.eventTA id = .ok A ∧ (e.scale 2).eventTA id ≠ .ok (A.scale 2) := by
  have h1 : ((halfE.eventTA id).toOption.map fun A => A.maxC) = some [0] := by decide +kernel
  have h2 : (((halfE.scale 2).eventTA id).toOption.map fun A => A.maxC) = some [1] := by decide +kernel
  cases h : halfE.eventTA id with
  | error x => rw [h] at h1; cases h1
  | ok A =>
    refine ⟨halfE, A, h, fun h' => ?_⟩
    rw [h] at h1
    rw [h'] at h2
    simp only [Except.toOption, Option.map_some, Option.some.injEq] at h1 h2
    simp only [TA.scale, h1] at h2
    cases h2

end Verif.Props
