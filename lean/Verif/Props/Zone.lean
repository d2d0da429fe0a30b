import Verif.Lemmas.Zone
import Verif.Lemmas.Constraint
import Mathlib.Algebra.Order.Floor.Ring
import Mathlib.Data.Rat.Floor
import Mathlib.Tactic.IntervalCases
import Mathlib.Tactic.NormNum

/-!
# Properties of zones (C15-C23)

Times range over an arbitrary linearly ordered field `K` (ℚ, ℝ, ...).
-/

set_option linter.unusedSectionVars false

namespace Verif.Props

variable {K : Type*} [Field K] [LinearOrder K] [IsStrictOrderedRing K]

open Zone

/-! Auxiliary: spec-level canonicity (tight and non-empty) is the triangle inequality. -/

theorem canon_iff {z : Zone K} : z.Canon ↔ z.Nonempty ∧ z.Tight := by
  constructor
  · intro h; exact ⟨canon_nonempty h, canon_tight h⟩
  · rintro ⟨⟨v, hv⟩, ht⟩
    refine ⟨fun k i j hk hi hj hij => ?_, fun i j hi hj => sat_pair hv hi hj⟩
    rw [Bnd.le'_iff]
    refine ht i j hi hj hij _ (fun w hw => ?_)
    have := Bnd.sat_add (hw i k hi hk) (hw k j hk hj)
    have e : ext w i - ext w k + (ext w k - ext w j) = ext w i - ext w j := by ring
    rwa [e] at this

/-- **C15.** `isSatisfiable` decides whether the zone has a solution, for every matrix of
strict, non-strict or infinite bounds of every size. -/
theorem zone_isSatisfiable_iff (z : Zone K) :
    z.isSatisfiable.1 = true ↔ ∃ v : Nat → K, z.Sat v := isSatisfiable_iff'

/-- **C16.** Canonization keeps exactly the solutions. -/
theorem zone_canonize_solutions (z : Zone K) (v : Nat → K) : z.canonize.Sat v ↔ z.Sat v :=
  canonize_Sat

/-- **C16.** Canonization of a satisfiable zone makes every bound the strongest possible one. -/
theorem zone_canonize_tight (z : Zone K) (h : z.Nonempty) : z.canonize.Tight := by
  obtain ⟨v, hv⟩ := h
  exact canon_tight (canon_of_sat hv)

/-- **C17.** `tighten(x, y, c)` keeps exactly the solutions with `x - y ≺ c`. -/
theorem zone_tighten_solutions (z : Zone K) (x y : Nat) (hx : x < z.n) (hy : y < z.n) (c : Bnd K)
    (v : Nat → K) :
    (z.tighten x y c).Sat v ↔ z.Sat v ∧ c.sat (ext v x - ext v y) := tighten_Sat hx hy

/-- **C17.** If the zone was canonical, `tighten` leaves it canonical unless it becomes empty. -/
theorem zone_tighten_tight (z : Zone K) (x y : Nat) (hx : x < z.n) (hy : y < z.n) (c : Bnd K)
    (ht : z.Tight) (hne : (z.tighten x y c).Nonempty) : (z.tighten x y c).Tight := by
  have hz : z.Nonempty := by
    obtain ⟨v, hv⟩ := hne
    exact ⟨v, ((tighten_Sat hx hy).1 hv).1⟩
  exact canon_tight (tighten_canon (canon_iff.2 ⟨hz, ht⟩) hx hy hne)

/-- **C18.** On a canonical satisfiable zone, `reset(x)` gives exactly the valuations obtained by
setting clock `x` to 0 in a solution, and the result is canonical again. -/
theorem zone_reset_solutions (z : Zone K) (x : Nat) (hx : x < z.getNumOfVar) (hne : z.Nonempty)
    (ht : z.Tight) :
    (∀ v' : Nat → K, (z.reset x).Sat v' ↔
      ∃ v, z.Sat v ∧ ∀ i, i < z.getNumOfVar → v' i = if i = x then 0 else v i) ∧
    (z.reset x).Nonempty ∧ (z.reset x).Tight := by
  have hx' : x + 1 < z.n := by simp only [getNumOfVar] at hx; omega
  have hc := canon_iff.2 ⟨hne, ht⟩
  refine ⟨fun v' => ?_, canon_iff.1 (reset_canon hc hx')⟩
  rw [reset_Sat hc hx']
  simp only [Function.update_apply, getNumOfVar]
  constructor
  · rintro ⟨v, hv, h⟩; exact ⟨v, hv, fun i hi => h i (by omega)⟩
  · rintro ⟨v, hv, h⟩; exact ⟨v, hv, fun i hi => h i (by omega)⟩

/-- **C19.** On a canonical satisfiable zone, `elapse()` gives exactly the valuations obtained
from a solution by one common strictly positive delay. -/
theorem zone_elapse_solutions (z : Zone K) (hn : 0 < z.n) (hne : z.Nonempty) (ht : z.Tight)
    (v' : Nat → K) :
    z.elapse.Sat v' ↔
      ∃ v, z.Sat v ∧ ∃ d, 0 < d ∧ ∀ i, i < z.getNumOfVar → v' i = v i + d := by
  rw [elapse_Sat (canon_iff.2 ⟨hne, ht⟩) hn]
  simp only [getNumOfVar]
  constructor
  · rintro ⟨v, hv, d, hd, h⟩; exact ⟨v, hv, d, hd, fun i hi => h i (by omega)⟩
  · rintro ⟨v, hv, d, hd, h⟩; exact ⟨v, hv, d, hd, fun i hi => h i (by omega)⟩

/-- **C20.** Abstraction only adds valuations, bounds below `M` are untouched, and every other
bound is dropped. -/
theorem zone_abstractize (z : Zone K) :
    (∀ v, z.Sat v → z.abstractize.Sat v) ∧
    (∀ i j, i < z.n → j < z.n → Bnd.blt (z.get i j) z.M = true → z.abstractize.get i j = z.get i j) ∧
    (∀ i j, i < z.n → j < z.n → Bnd.blt (z.get i j) z.M = false →
      ∀ d, (z.abstractize.get i j).sat d) := by
  refine ⟨fun v => abstractize_Sat, fun i j hi hj h => ?_, fun i j hi hj h d => ?_⟩
  · rw [abstractize, get_build hi hj]; simp [Bnd.bge, h]
  · rw [abstractize, get_build hi hj]; simp [Bnd.bge, h, Bnd.sat]

/-- **C21.** On a canonical satisfiable zone, `cutVars(lo, hi)` denotes exactly the restrictions of
the solutions to the clocks `lo..hi`. -/
theorem zone_cutVars_solutions (z : Zone K) (lo hi : Nat) (hlh : lo ≤ hi) (hhi : hi < z.getNumOfVar)
    (hne : z.Nonempty) (ht : z.Tight) (v' : Nat → K) :
    (z.cutVars lo hi).Sat v' ↔ ∃ v, z.Sat v ∧ ∀ i, i ≤ hi - lo → v' i = v (lo + i) :=
  cutVars_Sat (canon_iff.2 ⟨hne, ht⟩) hlh (by simp only [getNumOfVar] at hhi; omega)

/-! ## C22 -/

/-- The zone `0 ≤ x ≤ u` of one clock. -/
def upTo (u : K) : Zone K :=
  build 2 (.fin 10 true) fun i j => if i = 1 ∧ j = 0 then .fin u true else .fin 0 true

theorem upTo_sat (u : K) (v : Nat → K) : (upTo u).Sat v ↔ 0 ≤ v 0 ∧ v 0 ≤ u := by
  constructor
  · intro h
    have h1 := h 0 1 (by simp [upTo]) (by simp [upTo])
    have h2 := h 1 0 (by simp [upTo]) (by simp [upTo])
    rw [upTo, get_build (by omega) (by omega)] at h1 h2
    simp [Bnd.sat, ext] at h1 h2
    exact ⟨h1, h2⟩
  · rintro ⟨h1, h2⟩ i j hi hj
    simp only [upTo, build_n] at hi hj
    rw [upTo, get_build hi hj]
    interval_cases i <;> interval_cases j <;> simp [Bnd.sat, ext, h1, h2]

/-- **C22 is violated.** `intersectionAssign` does not compute the intersection: the value of
`cwiseMin` is thrown away.  Intersecting `0 ≤ x ≤ 2` with `0 ≤ x ≤ 1` leaves `x = 2` in the zone. -/
theorem zone_intersectionAssign_wrong :
    ¬ ∀ (z w : Zone ℚ), z.n = w.n → ∀ v, (z.intersectionAssign w).Sat v ↔ z.Sat v ∧ w.Sat v := by
  intro h
  have := (h (upTo 2) (upTo 1) rfl (fun _ => 2)).1 (by
    rw [show (upTo (2 : ℚ)).intersectionAssign (upTo 1) = upTo 2 from rfl, upTo_sat]; norm_num)
  rw [upTo_sat] at this
  have h2 := (upTo_sat (1 : ℚ) (fun _ => 2)).1 this.2
  norm_num at h2

/-- **C22, what remains true**: no common solution is lost, and the result is the intersection
exactly if the first zone is contained in the second.  Missing: the intersection itself. -/
theorem zone_intersectionAssign_partial (z w : Zone K) :
    (∀ v, z.Sat v ∧ w.Sat v → (z.intersectionAssign w).Sat v) ∧
    ((∀ v, (z.intersectionAssign w).Sat v ↔ z.Sat v ∧ w.Sat v) ↔ ∀ v, z.Sat v → w.Sat v) := by
  have e : z.intersectionAssign w = z := rfl
  rw [e]
  refine ⟨fun v h => h.1, fun h v hv => ((h v).1 hv).2, fun h v => ⟨fun hv => ⟨hv, h v hv⟩, And.left⟩⟩

/-! ## C23 -/

section makeGuard
variable [FloorRing K]

/-- All finite bounds of the zone are integers (always the case for zones built by `ta2za`, whose
constants are `int`s). -/
def IntCells (z : Zone K) : Prop :=
  ∀ i j, i < z.n → j < z.n → ∀ c s, z.get i j = .fin c s → ∃ k : ℤ, c = (k : K)

theorem intCells_close1 {z : Zone K} (h : IntCells z) {x : Nat} (hx : x < z.n) :
    IntCells (z.close1 x) := by
  have hadd : ∀ a b : Bnd K, (∀ c s, a = .fin c s → ∃ k : ℤ, c = (k : K)) →
      (∀ c s, b = .fin c s → ∃ k : ℤ, c = (k : K)) →
      ∀ c s, a + b = .fin c s → ∃ k : ℤ, c = (k : K) := by
    intro a b ha hb c s hc
    rcases a with ⟨a, sa⟩ | sa <;> rcases b with ⟨b, sb⟩ | sb <;> simp at hc
    obtain ⟨ka, rfl⟩ := ha a sa rfl
    obtain ⟨kb, rfl⟩ := hb b sb rfl
    exact ⟨ka + kb, by rw [← hc.1]; push_cast; ring⟩
  have hmin : ∀ a b : Bnd K, (∀ c s, a = .fin c s → ∃ k : ℤ, c = (k : K)) →
      (∀ c s, b = .fin c s → ∃ k : ℤ, c = (k : K)) →
      ∀ c s, Bnd.min a b = .fin c s → ∃ k : ℤ, c = (k : K) := by
    intro a b ha hb c s hc
    rcases Bnd.min_eq a b with e | e <;> rw [e] at hc
    · exact ha c s hc
    · exact hb c s hc
  intro i j hi hj
  simp only [close1_n] at hi hj
  rw [close1, get_build hi hj]
  refine hmin _ _ (h i j hi hj) (hadd _ _ ?_ (h i x hi hx))
  split
  · exact h x j hx hj
  · exact hmin _ _ (h x j hx hj) (hadd _ _ (h x j hx hj) (h x x hx hx))

theorem intCells_canonize {z : Zone K} (h : IntCells z) : IntCells z.canonize := by
  have : ∀ (l : List Nat) (z : Zone K), (∀ x ∈ l, x < z.n) → IntCells z → IntCells (l.foldl close1 z) := by
    intro l
    induction l with
    | nil => intro z _ h; exact h
    | cons a l ih =>
      intro z hl h
      exact ih _ (fun x hx => hl x (List.mem_cons_of_mem _ hx))
        (intCells_close1 h (hl a List.mem_cons_self))
  exact this _ z (by simp) h

theorem truncInt_int (k : ℤ) : truncInt (k : K) = k := by
  unfold truncInt; split <;> simp

/-- **C23, what holds** (`_partial`: the guard is *not* the strongest one, lower bounds are missing,
see `zone_makeGuard_wrong`).  For a satisfiable zone with integer bounds and non-negative clocks and
a positive maximal constant: every solution satisfies the guard, and every clock with a finite upper
bound below the maximal constant has that bound in the guard. -/
theorem zone_makeGuard_partial (z : Zone K) (hint : IntCells z) (hne : z.Nonempty)
    (hpos : ∀ v, z.Sat v → ∀ i, i < z.getNumOfVar → 0 ≤ v i)
    (m : K) (hm : 0 < m) (hM : z.M = .fin m true) :
    (∀ v, z.Sat v → GuardHolds z.makeGuard v) ∧
    (∀ i, i < z.getNumOfVar → ∀ (c : ℤ) (s : Bool), z.canonize.get (i + 1) 0 = .fin (c : K) s → (c : K) < m →
      ⟨i, if s then .le else .lt, c⟩ ∈ z.makeGuard) := by
  have hn : 0 < z.getNumOfVar → 0 < z.n := by simp only [getNumOfVar]; omega
  have hcan : ∀ i j, i < z.n → j < z.n → z.canonize.abstractize.get i j =
      if Bnd.bge (z.canonize.get i j) z.M then .inf false else z.canonize.get i j := by
    intro i j hi hj
    rw [abstractize, get_build (by simpa using hi) (by simpa using hj), canonize_M]
  have hi1 : ∀ i, i < z.getNumOfVar → i + 1 < z.n := by intro i; simp only [getNumOfVar]; omega
  obtain ⟨v0, hv0⟩ := hne
  have hC := canon_of_sat hv0
  constructor
  · intro v hv g hg
    simp only [makeGuard, List.mem_flatMap, List.mem_range, List.mem_append, getNumOfVar,
      abstractize_n, canonize_n, abstractize_M, canonize_M] at hg
    obtain ⟨i, hi, hg⟩ := hg
    have hi' : i < z.getNumOfVar := hi
    have h0 := hn (by omega)
    have hvc := canonize_Sat.2 hv
    rcases hg with hg | hg
    · rw [hcan 0 (i + 1) h0 (hi1 i hi')] at hg
      have hle : Bnd.le' (z.canonize.get 0 (i + 1)) (.fin 0 true) := by
        rw [Bnd.le'_iff]
        refine canon_tight hC 0 (i + 1) (by simpa) (by simpa using hi1 i hi') (by omega) _ ?_
        intro w hw
        have := hpos w (canonize_Sat.1 hw) i hi'
        simp [ext, Bnd.sat, this]
      rcases hc : z.canonize.get 0 (i + 1) with ⟨c, s⟩ | s
      · rw [hc] at hle hg
        simp only [Bnd.le'] at hle
        have hc0 : c ≤ 0 := by rcases hle with h | h; exacts [h.le, h.1.le]
        have : Bnd.bge (.fin c s) z.M = false := by
          rw [hM]; simp [Bnd.bge, Bnd.blt]; intro h; exact absurd (lt_of_le_of_lt hc0 hm) (not_lt.2 h)
        rw [this] at hg
        simp only [Bool.false_eq_true, if_false, guardLower] at hg
        split at hg
        · rename_i hcs
          have hcz : c = 0 ∧ s = false := by
            rcases hcs with h | h
            · exact absurd h (not_lt.2 hc0)
            · exact h
          obtain ⟨rfl, rfl⟩ := hcz
          simp only [List.mem_singleton] at hg
          subst hg
          have := hvc 0 (i + 1) (by simpa) (by simpa using hi1 i hi')
          rw [hc] at this
          have e : truncInt (0 : K) = 0 := by have := truncInt_int (K := K) 0; simpa using this
          simp [Bnd.sat, ext] at this
          simp [Constraint.Holds, e, this]
        · simp at hg
      · rw [hc] at hle; simp [Bnd.le'] at hle
    · rw [hcan (i + 1) 0 (hi1 i hi') h0] at hg
      unfold guardUpper at hg
      by_cases hb : Bnd.bge (z.canonize.get (i + 1) 0) z.M = true
      · rw [if_pos hb, hM] at hg; simp [Bnd.blt] at hg
      · rw [if_neg hb] at hg
        split at hg
        · rcases hc : z.canonize.get (i + 1) 0 with ⟨c, s⟩ | s
          · rw [hc] at hg
            simp only [List.mem_singleton] at hg
            subst hg
            obtain ⟨k, rfl⟩ := intCells_canonize hint (i + 1) 0 (by simpa using hi1 i hi') (by simpa) c s hc
            have := hvc (i + 1) 0 (by simpa using hi1 i hi') (by simpa)
            rw [hc] at this
            rw [truncInt_int]
            cases s <;> simp_all [Bnd.sat, ext, Constraint.Holds]
          · rw [hc, hM] at hb; simp [Bnd.bge, Bnd.blt] at hb
        · simp at hg
  · intro i hi c s hc hcm
    have h0 := hn (by omega)
    simp only [makeGuard, List.mem_flatMap, List.mem_range, List.mem_append, getNumOfVar,
      abstractize_n, canonize_n, abstractize_M, canonize_M]
    refine ⟨i, hi, Or.inr ?_⟩
    rw [hcan (i + 1) 0 (hi1 i hi) h0, hc]
    have h1 : Bnd.blt (.fin (c : K) s) z.M = true := by rw [hM]; simp [Bnd.blt, hcm]
    have h2 : Bnd.bge (.fin (c : K) s) z.M = false := by simp [Bnd.bge, h1]
    rw [h2]
    simp [guardUpper, h1, truncInt_int]

end makeGuard

/-- The zone `2 ≤ x ≤ 3` of one clock with maximal constant 10. -/
def twoThree : Zone ℚ :=
  build 2 (.fin 10 true) fun i j =>
    if i = 1 ∧ j = 0 then .fin 3 true else if i = 0 ∧ j = 1 then .fin (-2) true else .fin 0 true

theorem twoThree_sat (v : Nat → ℚ) : twoThree.Sat v ↔ 2 ≤ v 0 ∧ v 0 ≤ 3 := by
  constructor
  · intro h
    have h1 := h 0 1 (by simp [twoThree]) (by simp [twoThree])
    have h2 := h 1 0 (by simp [twoThree]) (by simp [twoThree])
    rw [twoThree, get_build (by omega) (by omega)] at h1 h2
    simp [Bnd.sat, ext] at h1 h2
    exact ⟨h1, h2⟩
  · rintro ⟨h1, h2⟩ i j hi hj
    simp only [twoThree, build_n] at hi hj
    rw [twoThree, get_build hi hj]
    interval_cases i <;> interval_cases j <;> simp [Bnd.sat, ext] <;> linarith

/-- **C23 is violated.** `makeGuard` is not the strongest guard: for `2 ≤ x ≤ 3` the returned guard is
just `x ≤ 3`, which admits `x = 0`, although `x ≥ 2` with `2 < M` holds on the whole zone. -/
theorem zone_makeGuard_wrong :
    twoThree.makeGuard = [⟨0, .le, 3⟩] ∧
    (∀ v, twoThree.Sat v → (⟨0, .ge, 2⟩ : Constraint).Holds (v 0)) ∧
    ¬ ∀ v : Nat → ℚ, GuardHolds twoThree.makeGuard v → (⟨0, .ge, 2⟩ : Constraint).Holds (v 0) := by
  have e : twoThree.makeGuard = [⟨0, .le, 3⟩] := by decide +kernel
  refine ⟨e, fun v hv => ?_, fun h => ?_⟩
  · have := (twoThree_sat v).1 hv
    simp [Constraint.Holds, this]
  · have := h (fun _ => 0) (by rw [e]; intro c hc; simp at hc; subst hc; simp [Constraint.Holds])
    norm_num [Constraint.Holds] at this

/-! ## Non-vacuity -/

/-- A zone of two clocks: `1 < x ≤ 3`, `y - x ≤ 2`, `y ≥ 0`. -/
def sampleZone : Zone ℚ :=
  ((((universal 2 (.fin 10 true)).tighten 0 1 (.fin (-1) false)).tighten 1 0 (.fin 3 true)).tighten 2 1
    (.fin 2 true)).tighten 0 2 (.fin 0 true)

theorem sampleZone_nonempty : sampleZone.Nonempty := by
  rw [← isSatisfiable_iff']; decide +kernel

/-- The hypotheses of C16-C19, C21 are met by `sampleZone` after canonization: it has three rows, a
solution, tight bounds, and the derived bound `y < ...` is really computed (`y ≤ 5`). -/
example : sampleZone.canonize.n = 3 ∧ sampleZone.canonize.Nonempty ∧ sampleZone.canonize.Tight ∧
    sampleZone.canonize.get 2 0 = .fin 5 true ∧ 1 < sampleZone.canonize.getNumOfVar := by
  refine ⟨by decide +kernel, ?_, zone_canonize_tight _ sampleZone_nonempty, by decide +kernel, by decide +kernel⟩
  obtain ⟨v, hv⟩ := sampleZone_nonempty
  exact ⟨v, canonize_Sat.2 hv⟩

/-- C15 has instances of both kinds: `x ≤ 3 ∧ x > 3` is rejected. -/
example : ((sampleZone.tighten 0 1 (.fin (-3) false)).isSatisfiable.1 = false) ∧
    sampleZone.isSatisfiable.1 = true := by
  constructor <;> decide +kernel

/-- C17 (tightness): tightening `sampleZone.canonize` by `x ≤ 2` stays satisfiable. -/
example : (sampleZone.canonize.tighten 1 0 (.fin 2 true)).Nonempty := by
  rw [← isSatisfiable_iff']; decide +kernel

/-- C20: both kinds of cells occur (5 is kept, 12 is dropped for `M = (10, true)`). -/
example : Bnd.blt (.fin (5 : ℚ) true) (.fin 10 true) = true ∧ Bnd.blt (.fin (12 : ℚ) true) (.fin 10 true) = false := by
  constructor <;> decide +kernel

/-- C23 (partial): `twoThree` meets the hypotheses. -/
example : IntCells twoThree ∧ twoThree.Nonempty ∧
    (∀ v, twoThree.Sat v → ∀ i, i < twoThree.getNumOfVar → 0 ≤ v i) ∧ twoThree.M = .fin 10 true := by
  refine ⟨?_, ⟨fun _ => 2, (twoThree_sat _).2 (by norm_num)⟩, ?_, rfl⟩
  · intro i j hi hj c s h
    simp only [twoThree, build_n] at hi hj
    rw [twoThree, get_build hi hj] at h
    split at h
    · simp at h; exact ⟨3, by rw [← h.1]; norm_num⟩
    · split at h
      · simp at h; exact ⟨-2, by rw [← h.1]; norm_num⟩
      · simp at h; exact ⟨0, by rw [← h.1]; norm_num⟩
  · intro v hv i hi
    simp only [twoThree, getNumOfVar, build_n] at hi
    have : i = 0 := by omega
    subst this
    linarith [((twoThree_sat v).1 hv).1]

end Verif.Props
