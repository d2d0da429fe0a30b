import Verif.Props.Order

/-!
# The order of the ends reported by `monaaNotNecessaryDollar` (C90)
-/

namespace Verif.Props

open Bnd

/-- `0 -a→ 1 -a→ 2 -a→ 3`, where 2 and 3 are accepting. -/
def threePattern : TA Nat :=
  { states := [0, 1, 2, 3], init := [0]
    st := fun s =>
      if s = 0 then ⟨false, false, [(97, [⟨some 1, [], []⟩])]⟩
      else if s = 1 then ⟨false, false, [(97, [⟨some 2, [], []⟩])]⟩
      else if s = 2 then ⟨true, false, [(97, [⟨some 3, [], []⟩])]⟩
      else if s = 3 then ⟨true, false, []⟩
      else ⟨false, false, []⟩
    maxC := [] }

def threeLog : TWord ℚ := [(97, 1), (97, 2), (97, 3)]

theorem threeLog_ok : LogOk threeLog := ⟨by decide +kernel, by decide +kernel, by decide⟩

def threeZone1 : Zone ℚ := sixZone ⟨.fin 1 false, .fin 0 true, .fin 2 true, .fin 2 true, .fin 2 true, .fin 0 true⟩
def threeZone2 : Zone ℚ := sixZone ⟨.fin 1 false, .fin 0 true, .fin 3 true, .fin 3 true, .fin 3 true, .fin 0 true⟩
def threeZone3 : Zone ℚ := sixZone ⟨.fin 2 false, .fin (-1) true, .fin 3 true, .fin 3 true, .fin 2 true, .fin 0 true⟩

theorem three_run : monaaNotNecessaryDollar id 20 20 (vectorCont ℚ) threePattern threeLog = .ok [threeZone1, threeZone2, threeZone3] :=
  okZones_eq (by decide +kernel)

/-- The second part of **C90** is false for `monaaNotNecessaryDollar` (because of the wrong sign of C12): the pair `(0, 2)` is in a zone
reported before one with the pair `(0, 1/2)`, although there is an event between the two ends. -/
theorem optional_ends_wrong :
    ¬ ∀ (A : TA Nat) (w : TWord ℚ) (fuel steps : Nat) (zs : List (Zone ℚ)), LogOk w → w.length < steps →
      monaaNotNecessaryDollar id fuel steps (vectorCont ℚ) A w = .ok zs → zs.Pairwise fun z z' => z.EndsBefore w z' := by
  intro h
  have h1 := h threePattern threeLog 20 20 _ threeLog_ok (by decide) three_run
  have h2 := (List.pairwise_cons.1 h1).1 threeZone2 (by simp)
  have a : threeZone1.Has 0 2 := sixZone_Sat.2 (by simp only [Six.Sat, Bnd.sat]; norm_num)
  have b : threeZone2.Has 0 (1 / 2) := sixZone_Sat.2 (by simp only [Six.Sat, Bnd.sat]; norm_num)
  have := h2 0 2 0 (1 / 2) a b (fun _ _ => Iff.rfl) (97, 1) (by simp [threeLog]) (by norm_num)
  norm_num at this

end Verif.Props
