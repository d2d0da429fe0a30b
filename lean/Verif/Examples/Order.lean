import Verif.Examples.Signal
import Verif.Examples.Silent

/-!
# Patterns and logs with several results
-/

namespace Verif.Props

open Bnd

/-- `0 -a→ 1 -b→ 2 -$→ 3, 1 -$→ 3`. -/
def orderPattern : TA Nat :=
  { states := [0, 1, 2, 3], init := [0]
    st := fun s =>
      if s = 0 then ⟨false, false, [(97, [⟨some 1, [], []⟩])]⟩
      else if s = 1 then ⟨false, false, [(36, [⟨some 3, [], []⟩]), (98, [⟨some 2, [], []⟩])]⟩
      else if s = 2 then ⟨false, false, [(36, [⟨some 3, [], []⟩])]⟩
      else if s = 3 then ⟨true, false, []⟩
      else ⟨false, false, []⟩
    maxC := [] }

def orderLog : TWord ℚ := [(97, 1), (98, 2), (97, 3)]

theorem orderLog_ok : LogOk orderLog := ⟨by decide +kernel, by decide +kernel, by decide⟩

/-- The call returned these zones. -/
def okZones (zs : List (Zone ℚ)) : Except Err (List (Zone ℚ)) → Bool
  | .ok zs' => decide (zs' = zs)
  | _ => false

theorem okZones_eq {zs : List (Zone ℚ)} {r : Except Err (List (Zone ℚ))} (h : okZones zs r = true) : r = .ok zs := by
  unfold okZones at h
  split at h
  · simp only [decide_eq_true_eq] at h
    rw [h]
  · cases h

def orderZone1 : Zone ℚ :=
  sixZone ⟨.fin 1 false, .fin 0 true, .fin 2 true, .fin (-1) false, .fin 2 true, .fin 0 false⟩

def orderZone2 : Zone ℚ :=
  sixZone ⟨.fin 1 false, .fin 0 true, .fin 3 true, .fin (-2) false, .fin 3 true, .fin (-1) false⟩

def orderZone3 : Zone ℚ :=
  sixZone ⟨.fin 3 false, .fin (-2) true, .inf true, .fin (-3) false, .inf true, .fin 0 false⟩

theorem order_run : monaaDollar id 20 20 (vectorCont ℚ) orderPattern orderLog = .ok [orderZone1, orderZone2, orderZone3] :=
  okZones_eq (by decide +kernel)

theorem orderOptional_run :
    monaaNotNecessaryDollar id 20 20 (vectorCont ℚ) orderPattern orderLog = .ok [orderZone1, orderZone2, orderZone3] :=
  okZones_eq (by decide +kernel)

theorem order_has : orderZone1.Has 0 2 ∧ orderZone2.Has 0 3 ∧ orderZone3.Has (5 / 2) 4 := by
  refine ⟨sixZone_Sat.2 ?_, sixZone_Sat.2 ?_, sixZone_Sat.2 ?_⟩ <;> simp only [Six.Sat, Bnd.sat] <;> norm_num

/-- `0 -a→ 1 -b→ 2`, where 2 is accepting. -/
def orderSignalPattern : TA Nat :=
  { states := [0, 1, 2], init := [0]
    st := fun s =>
      if s = 0 then ⟨false, false, [(97, [⟨some 1, [], []⟩])]⟩
      else if s = 1 then ⟨false, false, [(98, [⟨some 2, [], []⟩])]⟩
      else if s = 2 then ⟨true, false, []⟩
      else ⟨false, false, []⟩
    maxC := [] }

/-- The signal is `a` until 1, `b` until 3, `a` until 5, `b` until 8. -/
def orderSignal : TWord ℚ := [(97, 1), (98, 3), (97, 5), (98, 8)]

theorem orderSignal_ok : LogOk orderSignal := ⟨by decide +kernel, by decide +kernel, by decide⟩

def orderSignal1 : Zone ℚ :=
  sixZone ⟨.fin 1 false, .fin 0 true, .fin 3 true, .fin (-1) false, .fin 3 true, .fin 0 false⟩

def orderSignal2 : Zone ℚ :=
  sixZone ⟨.fin 5 false, .fin (-3) true, .fin 8 true, .fin (-5) false, .fin 5 true, .fin 0 false⟩

theorem orderSignal_run :
    (monaa 20 20 20 (vectorCont ℚ) none orderSignalPattern orderSignal).1 = .ok [orderSignal1, orderSignal2] :=
  okZones_eq (by decide +kernel)

theorem orderSignal_has : orderSignal1.Has 0 3 ∧ orderSignal2.Has 4 7 := by
  refine ⟨sixZone_Sat.2 ?_, sixZone_Sat.2 ?_⟩ <;> simp only [Six.Sat, sat_t, sat_f] <;> norm_num

def orderSilent : TWord ℚ := [(97, 5), (97, 9)]

theorem orderSilent_ok : LogOk orderSilent := ⟨by decide +kernel, by decide +kernel, by decide⟩

def orderSilent2 : Zone ℚ :=
  sixZone ⟨.fin 8 false, .fin (-5) true, .fin 9 true, .fin (-6) false, .fin 3 true, .fin (-1) false⟩

theorem orderSilent_run :
    (monaa 20 20 20 (vectorCont ℚ) none silentPattern orderSilent).1 = .ok [silentMatchZone, orderSilent2] :=
  okZones_eq (by decide +kernel)

theorem orderSilent_has : silentMatchZone.Has 2 4 ∧ orderSilent2.Has 6 8 := by
  refine ⟨sixZone_Sat.2 ?_, sixZone_Sat.2 ?_⟩ <;> simp only [Six.Sat, sat_t, sat_f] <;> norm_num

end Verif.Props
