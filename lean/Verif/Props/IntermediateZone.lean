import Verif.Lemmas.IntermediateZone
import Mathlib.Algebra.Order.Field.Rat

/-!
# Properties of intermediate zones (C45, C56-C58)

`IZone` is the model of `IntermediateZone`.  `z.Sat v`: the assignment `v` of instants is a solution of `z`, where variable
0 has the value 0 and variable `x + 1` the value `v x`, written `Zone.ext v`.  `z.InUse x`: `x` is a variable of `z` in
use.  `Built z`: `z` comes up when a match is followed.
-/

set_option linter.unusedSectionVars false

namespace Verif.Props

variable {K : Type} [Field K] [LinearOrder K] [IsStrictOrderedRing K]

/-! ### samples -/

/-- The match begins in `[1, 4)`. -/
def izOne : IZone ℚ := .ofInterval (.fin 1 true) (.fin 4 false)
/-- One more instant, in `(2, 5]`. -/
def izThree : IZone ℚ := izOne.alloc (.fin 5 true) (.fin (-2) false)
/-- Still one more, in `(2, 5]`. -/
def izZone : IZone ℚ := izThree.alloc (.fin 5 true) (.fin (-2) false)

theorem izOne_built : IZone.Built izOne := .start _ _ _

theorem izOne_sat {v : Nat → ℚ} : izOne.Sat v ↔ v 0 < 4 ∧ 1 ≤ v 0 := by
  simp only [izOne, IZone.ofInterval, IZone.Sat, Bnd.sat, Bool.false_eq_true, if_true, if_false]
  constructor <;> rintro ⟨a, b⟩ <;> constructor <;> linarith

theorem izThree_built : IZone.Built izThree := by
  refine .alloc izOne_built _ _ ⟨fun _ => 2, izOne_sat.2 ⟨by norm_num, by norm_num⟩⟩ ?_ ?_
  · intro v hv
    have := (izOne_sat.1 hv).1
    simp only [izOne, IZone.ofInterval, IZone.newestClock, Zone.ext, Bnd.sat, if_true]
    linarith
  · intro _ t ht
    simp only [Bnd.sat, Bool.false_eq_true, if_false] at ht
    exact ⟨fun _ => 1, izOne_sat.2 ⟨by norm_num, by norm_num⟩, by linarith⟩

theorem izThree_sat {v : Nat → ℚ} : izThree.Sat v ↔ (v 0 < 4 ∧ 1 ≤ v 0) ∧ v 1 ≤ 5 ∧ 2 < v 1 ∧ v 0 ≤ v 1 := by
  unfold izThree
  rw [IZone.alloc_sat (IZone.built_ok izOne_built), izOne_sat]
  simp only [izOne, IZone.ofInterval, IZone.alloc, IZone.newestClock, Zone.ext, Bnd.sat, Bool.false_eq_true, if_true,
    if_false]
  constructor
  · rintro ⟨a, b, c, d⟩
    exact ⟨a, b, by linarith, d⟩
  · rintro ⟨a, b, c, d⟩
    exact ⟨a, b, by linarith, d⟩

theorem izThree_nonempty : izThree.Nonempty := ⟨fun _ => 3, izThree_sat.2 (by norm_num)⟩

theorem izZone_built : IZone.Built izZone := by
  refine .alloc izThree_built _ _ izThree_nonempty ?_ ?_
  · intro v hv
    have := (izThree_sat.1 hv).2.1
    simp only [izThree, izOne, IZone.ofInterval, IZone.alloc, IZone.newestClock, Zone.ext, Bnd.sat, if_true]
    linarith
  · intro h
    exact absurd h (by decide)

theorem izZone_newest : izZone.newestClock = 3 := rfl

theorem izZone_sat {v : Nat → ℚ} : izZone.Sat v ↔
    ((v 0 < 4 ∧ 1 ≤ v 0) ∧ v 1 ≤ 5 ∧ 2 < v 1 ∧ v 0 ≤ v 1) ∧ v 2 ≤ 5 ∧ 2 < v 2 ∧ v 1 ≤ v 2 := by
  unfold izZone
  rw [IZone.alloc_sat (IZone.built_ok izThree_built), izThree_sat]
  simp only [izThree, izOne, IZone.ofInterval, IZone.alloc, IZone.newestClock, Zone.ext, Bnd.sat, Bool.false_eq_true,
    if_true, if_false]
  constructor
  · rintro ⟨a, b, c, d⟩
    exact ⟨a, b, by linarith, d⟩
  · rintro ⟨a, b, c, d⟩
    exact ⟨a, b, by linarith, d⟩

theorem izZone_nonempty : izZone.Nonempty := ⟨fun _ => 3, izZone_sat.2 (by norm_num)⟩

/-! ## C45 -/

/-- **C45 is false** of a constraint between a variable and itself: in the interval representation the unsatisfiable
constraint `0 - 0 ≤ -1` is ignored. -/
theorem izone_tighten_wrong :
    ¬ ∀ (z z' : IZone ℚ) (x y : Nat) (c : Bnd ℚ), IZone.Built z → z.InUse x → z.InUse y → z.tighten x y c = .ok z' →
      ∀ v, z'.Sat v ↔ z.Sat v ∧ c.sat (Zone.ext v x - Zone.ext v y) := by
  intro h
  have := (h izThree izThree 0 0 (.fin (-1) true) izThree_built (by exact Nat.zero_le _) (by exact Nat.zero_le _) rfl
    (fun _ => 3)).1 (izThree_sat.2 (by norm_num))
  have h2 := this.2
  simp only [Zone.ext, Bnd.sat, if_true] at h2
  norm_num at h2

/-- **C45, what holds** (`_partial`: the variables are different).  On the intermediate zones which come up, in either
representation, a constraint between variables in use can be added, which gives an intermediate zone of this kind over the
same variables, whose solutions are exactly the old ones which satisfy the constraint. -/
theorem izone_tighten_partial (z : IZone K) (hz : IZone.Built z) (x y : Nat) (hxy : x ≠ y) (hx : z.InUse x)
    (hy : z.InUse y) (c : Bnd K) :
    ∃ z', z.tighten x y c = .ok z' ∧ IZone.Built z' ∧ (∀ k, z'.InUse k ↔ z.InUse k) ∧
      ∀ v, z'.Sat v ↔ z.Sat v ∧ c.sat (Zone.ext v x - Zone.ext v y) := by
  have hok := IZone.built_ok hz
  obtain ⟨z', hz'⟩ := IZone.tighten_defined hok hx hy c
  exact ⟨z', hz', .tighten hz hxy hx hy c hz', (IZone.tighten_used hz').2.2, IZone.tighten_sat hok hxy hx hy hz'⟩

/-- The hypotheses hold in all three representations. -/
example : (IZone.Built izOne ∧ izOne.InUse 0 ∧ izOne.InUse 1) ∧ (IZone.Built izThree ∧ izThree.InUse 2 ∧ izThree.InUse 1) ∧
    (IZone.Built izZone ∧ izZone.InUse 3 ∧ izZone.InUse 1) :=
  ⟨⟨izOne_built, by simp [izOne, IZone.ofInterval, IZone.InUse], by simp [izOne, IZone.ofInterval, IZone.InUse]⟩,
    ⟨izThree_built, by simp [izThree, izOne, IZone.alloc, IZone.ofInterval, IZone.InUse],
      by simp [izThree, izOne, IZone.alloc, IZone.ofInterval, IZone.InUse]⟩, izZone_built, rfl, rfl⟩

/-! ## C56 -/

/-- **C56.** Adding an instant to an intermediate zone with solutions gives a zone of this kind with one more variable in
use, which was not in use before.  The solutions are exactly the solutions of the old zone with a new instant within the given
bounds, not before the newest instant so far. -/
theorem izone_alloc (z : IZone K) (hz : IZone.Built z) (upper lower : Bnd K) (hne : z.Nonempty)
    (hup : z.AtMost z.newestClock upper)
    (hlo : z.newestClock = 1 → ∀ t, lower.sat (-t) → ∃ v, z.Sat v ∧ v 0 ≤ t) :
    ∃ k, (z.alloc upper lower).newestClock = k ∧ ¬ z.InUse k ∧ IZone.Built (z.alloc upper lower) ∧
      (∀ x, (z.alloc upper lower).InUse x ↔ z.InUse x ∨ x = k) ∧
      ∀ v, (z.alloc upper lower).Sat v ↔
        z.Sat v ∧ upper.sat (Zone.ext v k) ∧ lower.sat (-Zone.ext v k) ∧ Zone.ext v z.newestClock ≤ Zone.ext v k := by
  have hok := IZone.built_ok hz
  have hd : z ≠ .dead := by
    rintro rfl
    obtain ⟨v, hv⟩ := hne
    exact hv
  obtain ⟨h1, h2⟩ := IZone.alloc_inUse hok hd upper lower
  exact ⟨_, rfl, h1, .alloc hz upper lower hne hup hlo, h2, IZone.alloc_sat hok upper lower⟩

/-- The hypotheses hold of a zone in the matrix representation. -/
example : IZone.Built izZone ∧ izZone.Nonempty ∧ izZone.AtMost izZone.newestClock (.fin 5 true) ∧
    (izZone.newestClock = 1 → ∀ t, (Bnd.fin (-2 : ℚ) false).sat (-t) → ∃ v, izZone.Sat v ∧ v 0 ≤ t) := by
  refine ⟨izZone_built, izZone_nonempty, fun v hv => ?_, fun h => absurd h (by decide)⟩
  have := (izZone_sat.1 hv).2.1
  simpa [izZone_newest, Zone.ext, Bnd.sat] using this

/-! ## C57 -/

/-- **C57.** Dropping the variables which are no longer needed keeps, of every solution, exactly the values of the remaining
variables: 0, the beginning, the newest instant and those at which some clock was reset.  The answer zone contains exactly
the pairs (beginning, newest instant) of the solutions. -/
theorem izone_project (z : IZone K) (hz : IZone.Built z) (hne : z.Nonempty) (rt : List (RTime K))
    (hrt : ∀ x, RTime.var x ∈ rt → z.InUse x) :
    (∃ z', z.update rt = .ok z' ∧ IZone.Built z' ∧ z'.newestClock = z.newestClock ∧
      (∀ x, x = 0 ∨ x = 1 ∨ x = z.newestClock ∨ RTime.var x ∈ rt → z'.InUse x) ∧
      (∀ v', z'.Sat v' ↔ ∃ v, z.Sat v ∧ ∀ x, z'.InUse x → Zone.ext v x = Zone.ext v' x)) ∧
    (z.newestClock ≠ 1 → ∀ v', z.toAns.Sat v' ↔
      ∃ v, z.Sat v ∧ Zone.ext v 1 = v' 0 ∧ Zone.ext v z.newestClock = v' 1) := by
  have hok := IZone.built_ok hz
  have hd : z ≠ .dead := by
    rintro rfl
    obtain ⟨v, hv⟩ := hne
    exact hv
  obtain ⟨z', hz'⟩ := IZone.update_defined hok hrt
  exact ⟨⟨z', hz', .update hz hne rt hrt hz', IZone.update_newest hz', fun x hx => (IZone.update_inUse hok hrt hz' x).2 hd hx,
    IZone.update_sat hok hne hz'⟩, fun h => IZone.toAns_sat hok hne h⟩

/-- A zone with four variables where variable 2 is dropped. -/
example : IZone.Built izZone ∧ izZone.Nonempty ∧ izZone.newestClock ≠ 1 ∧ izZone.InUse 2 ∧
    (∀ x, RTime.var x ∈ [RTime.at (3 : ℚ), .var 1] → izZone.InUse x) ∧
    ∃ z', izZone.update [.at 3, .var 1] = .ok z' ∧ ¬ z'.InUse 2 := by
  refine ⟨izZone_built, izZone_nonempty, by decide, rfl, ?_, _, rfl, Bool.false_ne_true⟩
  intro x hx
  simp only [List.mem_cons, reduceCtorEq, RTime.var.injEq, List.not_mem_nil, or_false, false_or] at hx
  subst hx
  rfl

/-! ## C58 -/

/-- **C58.** `isSatisfiableCanonized` holds exactly of the intermediate zones with a solution. -/
theorem izone_isSat (z : IZone K) (hz : IZone.Built z) : z.isSat = true ↔ ∃ v, z.Sat v :=
  IZone.isSat_iff (IZone.built_ok hz)

/-- Both cases occur in the matrix representation. -/
example : IZone.Built izZone ∧ izZone.isSat = true ∧
    ∃ z', izZone.tighten 3 1 (.fin (-1) true) = .ok z' ∧ IZone.Built z' ∧ z'.isSat = false := by
  obtain ⟨z', h1, h2, -, h4⟩ := izone_tighten_partial izZone izZone_built 3 1 (by decide) rfl rfl (.fin (-1) true)
  refine ⟨izZone_built, (izone_isSat _ izZone_built).2 izZone_nonempty, z', h1, h2, ?_⟩
  by_contra hc
  obtain ⟨v, hv⟩ := (izone_isSat _ h2).1 (by simpa using hc)
  obtain ⟨hv, hc⟩ := (h4 v).1 hv
  have := izZone_sat.1 hv
  simp only [Zone.ext, Bnd.sat, if_true] at hc
  linarith [this.1.2.2.2, this.2.2.2]

end Verif.Props
