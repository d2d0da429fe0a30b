import Verif.Lemmas.Interval
import Mathlib.Data.Rat.Floor
import Mathlib.Tactic.NormNum

/-!
# Properties of intervals (C24-C28)
-/

set_option linter.unusedSectionVars false

namespace Verif.Props

open Interval

variable {K : Type*} [Field K] [LinearOrder K] [IsStrictOrderedRing K]

/-- `contain` decides membership (used to read all statements below in terms of the API). -/
theorem interval_contain_iff (I : Interval K) (v : K) : I.contain v = true ↔ I.Mem v :=
  contain_iff_mem

/-- The constructors give `[0,∞)`, `(l,∞)` and `(l,u)`. -/
theorem interval_constructors (l u : Int) (v : K) :
    ((Interval.default : Interval K).Mem v ↔ 0 ≤ v) ∧ ((above l : Interval K).Mem v ↔ (l : K) < v) ∧
    ((openI l u : Interval K).Mem v ↔ (l : K) < v ∧ v < (u : K)) := by
  simp [Interval.default, above, openI, Mem, Above, Bnd.sat]

/-! ## C24 -/

/-- **C24 is violated**: `[1,2] && (1,2]` is `[1,2]`: on equal lower ends the closed one wins. -/
theorem interval_inter_wrong :
    ¬ ∀ (I J : Interval ℚ) (v : ℚ), (inter I J).Mem v ↔ I.Mem v ∧ J.Mem v := by
  intro h
  have := (h ⟨.fin 1 true, .fin 2 true⟩ ⟨.fin 1 false, .fin 2 true⟩ 1).1 (by
    simp [inter, Bnd.max, Bnd.min, Bnd.blt, Mem, Above, Bnd.sat])
  simp [Mem, Above] at this

/-- **C24, what holds** (`_partial`): membership in `I && J` is membership in both, except that the
common lower end is wrongly included when exactly one of the two intervals is open there. -/
theorem interval_inter_partial (I J : Interval K) (v : K) :
    ((I.Mem v ∧ J.Mem v) → (inter I J).Mem v) ∧
    ((inter I J).Mem v → (I.Mem v ∧ J.Mem v) ∨ ∃ s, I.lower = .fin v s ∧ J.lower = .fin v (!s)) :=
  ⟨fun h => mem_inter_of h.1 h.2, mem_inter⟩

/-- A non-trivial instance on which the second alternative is excluded: `(1,5) && (2,7]`. -/
example : (⟨.fin 1 false, .fin 5 false⟩ : Interval ℚ).lower ≠ (⟨.fin 2 false, .fin 7 true⟩ : Interval ℚ).lower ∧
    (inter (⟨.fin 1 false, .fin 5 false⟩ : Interval ℚ) ⟨.fin 2 false, .fin 7 true⟩) = ⟨.fin 2 false, .fin 5 false⟩ := by
  decide +kernel

/-! ## C25 -/

/-- **C25 is violated** by the same intervals. -/
theorem interval_land_wrong :
    ¬ ∀ (S T : List (Interval ℚ)) (v : ℚ), MemAny (land S T) v ↔ MemAny S v ∧ MemAny T v := by
  intro h
  have := (h [⟨.fin 1 true, .fin 2 true⟩] [⟨.fin 1 false, .fin 2 true⟩] 1).1 (by
    refine ⟨⟨.fin 1 true, .fin 2 true⟩, by decide +kernel, by simp [Mem, Above, Bnd.sat]⟩)
  obtain ⟨_, J, hJ, hv⟩ := this
  rw [List.mem_singleton] at hJ
  subst hJ
  simp [Mem, Above] at hv

/-- **C25, what holds** (`_partial`): `land` never loses a common value, and is exact whenever no two
lower ends coincide with different flags.  Missing: exactness at such ends (false, see above). -/
theorem interval_land_partial (S T : List (Interval K)) :
    (∀ v, MemAny S v ∧ MemAny T v → MemAny (land S T) v) ∧
    ((∀ I ∈ S, ∀ J ∈ T, ∀ c s t, I.lower = .fin c s → J.lower = .fin c t → s = t) →
      ∀ v, MemAny (land S T) v → MemAny S v ∧ MemAny T v) := by
  have key : ∀ v, MemAny (land S T) v ↔ ∃ I ∈ S, ∃ J ∈ T, (inter I J).Mem v := by
    intro v
    have : MemAny (land S T) v ↔ ∃ J ∈ T, MemAny (land1 S J) v := by
      simp only [MemAny, land, List.mem_flatMap]
      constructor
      · rintro ⟨L, ⟨J, hJ, hL⟩, hv⟩; exact ⟨J, hJ, L, hL, hv⟩
      · rintro ⟨J, hJ, L, hL, hv⟩; exact ⟨L, ⟨J, hJ, hL⟩, hv⟩
    rw [this]
    simp only [memAny_land1]
    constructor
    · rintro ⟨J, hJ, I, hI, h⟩; exact ⟨I, hI, J, hJ, h⟩
    · rintro ⟨I, hI, J, hJ, h⟩; exact ⟨J, hJ, I, hI, h⟩
  constructor
  · rintro v ⟨⟨I, hI, h1⟩, J, hJ, h2⟩
    exact (key v).2 ⟨I, hI, J, hJ, mem_inter_of h1 h2⟩
  · intro hno v hv
    obtain ⟨I, hI, J, hJ, h⟩ := (key v).1 hv
    rcases mem_inter h with h | ⟨s, h1, h2⟩
    · exact ⟨⟨I, hI, h.1⟩, J, hJ, h.2⟩
    · have := hno I hI J hJ v s _ h1 h2
      cases s <;> simp at this

/-- **C25** for a single interval on the right (`land(vector, Interval)`). -/
theorem interval_land1_partial (S : List (Interval K)) (J : Interval K) :
    (∀ v, MemAny S v ∧ J.Mem v → MemAny (land1 S J) v) ∧
    ((∀ I ∈ S, ∀ c s t, I.lower = .fin c s → J.lower = .fin c t → s = t) →
      ∀ v, MemAny (land1 S J) v → MemAny S v ∧ J.Mem v) := by
  constructor
  · rintro v ⟨⟨I, hI, h1⟩, h2⟩
    exact memAny_land1.2 ⟨I, hI, mem_inter_of h1 h2⟩
  · intro hno v hv
    obtain ⟨I, hI, h⟩ := memAny_land1.1 hv
    rcases mem_inter h with h | ⟨s, h1, h2⟩
    · exact ⟨⟨I, hI, h.1⟩, h.2⟩
    · have := hno I hI v s _ h1 h2
      cases s <;> simp at this

/-- Instance: two intervals meeting a third, all lower ends different; one intersection is dropped. -/
example : land [(⟨.fin 1 true, .fin 3 false⟩ : Interval ℚ), ⟨.fin 6 true, .fin 7 true⟩] [⟨.fin 2 false, .fin 5 true⟩]
    = [⟨.fin 2 false, .fin 3 false⟩] := by decide +kernel

/-! ## C26 -/

/-- **C26 is violated** for empty operands: `(3,1) + (0,10)` is `(3,11)`. -/
theorem interval_add_wrong :
    ¬ ∀ (I J : Interval ℚ) (v : ℚ), (add I J).Mem v ↔ ∃ a b, I.Mem a ∧ J.Mem b ∧ v = a + b := by
  intro h
  obtain ⟨a, b, ha, _⟩ := (h (openI 3 1) (openI 0 10) 5).1 (by
    simp [add, openI, Mem, Above, Bnd.sat]; norm_num)
  simp [openI, Mem, Above, Bnd.sat] at ha
  linarith [ha.1, ha.2]

/-- **C26, what holds** (`_partial`): for non-empty intervals the sum is the Minkowski sum.
Missing: empty operands, for which the claim is false. -/
theorem interval_add_partial (I J : Interval K) (hI : ∃ a, I.Mem a) (hJ : ∃ b, J.Mem b) (v : K) :
    (add I J).Mem v ↔ ∃ a b, I.Mem a ∧ J.Mem b ∧ v = a + b :=
  ⟨exists_of_mem_add hI hJ, fun ⟨_, _, ha, hb, e⟩ => e ▸ mem_add_of ha hb⟩

/-- **C26** for sets of non-empty intervals (`+=`). -/
theorem interval_addAll_partial (S T : List (Interval K)) (hS : ∀ I ∈ S, ∃ a, I.Mem a)
    (hT : ∀ I ∈ T, ∃ b, I.Mem b) (v : K) :
    MemAny (addAll S T) v ↔ ∃ a b, MemAny S a ∧ MemAny T b ∧ v = a + b :=
  ⟨exists_of_memAny_add hS hT, fun ⟨_, _, ha, hb, e⟩ => e ▸ memAny_add_of ha hb⟩

example : ∃ a, (⟨.fin 1 false, .fin 2 true⟩ : Interval ℚ).Mem a :=
  ⟨2, by simp [Mem, Above, Bnd.sat]⟩

section
variable [FloorRing K]

/-! ## C27 -/

/-- **C27 is violated**: `(1,2)⁺` is computed as `(1,∞)`, but 2 is not a sum of values of `(1,2)`. -/
theorem interval_plus_wrong :
    (openI 1 2 : Interval ℚ).plus = .ok [⟨.fin 1 false, .inf false⟩] ∧
    MemAny [(⟨.fin 1 false, .inf false⟩ : Interval ℚ)] 2 ∧ ¬ SumOf (openI 1 2 : Interval ℚ).Mem 2 := by
  refine ⟨by decide +kernel, ⟨_, List.mem_singleton.2 rfl, by simp [Mem, Above, Bnd.sat]⟩, ?_⟩
  rintro ⟨l, hne, hl, e⟩
  have h := list_sum_mem (c := 1) (u := 2) (s := false) (t := false) hne (by simpa [openI] using hl)
  rw [← e] at h
  simp only [Mem, Above, Bnd.sat, one_mul] at h
  have h1 : (l.length : ℚ) < 2 := h.1
  have h2 : (1 : ℚ) < l.length := by linarith [h.2]
  have h1' : l.length < 2 := by exact_mod_cast h1
  have h2' : 1 < l.length := by exact_mod_cast h2
  omega

/-- **C27 is violated** also for a single point: `[1,1]⁺` divides by zero and converts an infinite
`double` to `int`. -/
theorem interval_plus_point_ub : (⟨.fin 1 true, .fin 1 true⟩ : Interval ℚ).plus = .error .ub := by
  decide +kernel

/-- **C27, what holds** (`_partial`): for `0 ≤ l`, and `l < u` or `u = ∞`, `plus` returns, and the union of
the result is the set of sums of one or more values of `I` plus, if both ends are open and
`l = k (u - l)` for a positive integer `k`, the single wrong value `(k+1) l`. -/
theorem interval_plus_partial (I : Interval K) (h : I.Good) :
    ∃ P, I.plus = .ok P ∧ ∀ v, MemAny P v ↔ SumOf I.Mem v ∨ Gap I v := by
  obtain ⟨P, hP, _, h1, h2, h3⟩ := plus_spec h
  exact ⟨P, hP, fun v => ⟨h3 v, fun h => h.elim (h1 v) (h2 v)⟩⟩

/-- Instance: `[5,7)⁺ = [5,7) ∪ [10,14) ∪ [15,∞)`; no gap value exists since one end is closed. -/
example : (⟨.fin 5 true, .fin 7 false⟩ : Interval ℚ).Good ∧
    (⟨.fin 5 true, .fin 7 false⟩ : Interval ℚ).plus = .ok [⟨.fin 5 true, .fin 7 false⟩,
      ⟨.fin 10 true, .fin 14 false⟩, ⟨.fin 15 true, .inf false⟩] ∧
    ∀ v, ¬ Gap (⟨.fin 5 true, .fin 7 false⟩ : Interval ℚ) v := by
  refine ⟨⟨5, true, rfl, by norm_num, ?_⟩, by decide +kernel, ?_⟩
  · intro u t h; simp at h; rw [← h.1]; norm_num
  · rintro v ⟨l, u, e, _⟩; simp at e

/-! ## C28 -/

/-- **C28 is violated**: by the interval `(1,2)` of C27, and for 32 or more intervals the function throws. -/
theorem interval_plusAll_wrong :
    plusAll [(openI 1 2 : Interval ℚ)] = .ok [⟨.fin 1 false, .inf false⟩] ∧
    (∀ S : List (Interval ℚ), 32 ≤ S.length → plusAll S = .error .message) := by
  refine ⟨by decide +kernel, fun S h => ?_⟩
  rw [plusAll, if_pos h]

/-- **C28, what holds** (`_partial`): for fewer than 32 intervals with `0 ≤ l < u ≤ ∞`, `plus` returns,
no sum of one or more values is lost, and nothing is added unless some interval has a gap value.
Missing: exactness in presence of gap values, and 32 or more intervals. -/
theorem interval_plusAll_partial (S : List (Interval K)) (h : ∀ I ∈ S, I.Good) (hlen : S.length < 32) :
    ∃ P, plusAll S = .ok P ∧ (∀ v, SumOf (MemAny S) v → MemAny P v) ∧
      ((∀ I ∈ S, ∀ v, ¬ Gap I v) → ∀ v, MemAny P v → SumOf (MemAny S) v) := plusAll_spec h hlen

/-- Instance: `plus({[2,3), [5,7)})` is computed from three subsets. -/
example : plusAll [(⟨.fin 2 true, .fin 3 false⟩ : Interval ℚ), ⟨.fin 5 true, .fin 7 false⟩] =
    .ok [⟨.fin 2 true, .fin 3 false⟩, ⟨.fin 4 true, .inf false⟩, ⟨.fin 5 true, .fin 7 false⟩,
      ⟨.fin 10 true, .fin 14 false⟩, ⟨.fin 15 true, .inf false⟩,
      ⟨.fin 7 true, .fin 10 false⟩, ⟨.fin 12 true, .fin 17 false⟩, ⟨.fin 17 true, .inf false⟩,
      ⟨.fin 9 true, .inf false⟩, ⟨.fin 14 true, .inf false⟩, ⟨.fin 19 true, .inf false⟩] := by
  decide +kernel

end

end Verif.Props
