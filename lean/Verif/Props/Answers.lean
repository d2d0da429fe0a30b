import Verif.Spec.Answers
import Verif.Lemmas.Six
import Mathlib.Data.Rat.Floor

/-!
# Properties of the output containers (C09, C49)
-/

namespace Verif.Props

variable {K : Type}

theorem ansNum_size (ops : List (AnsOp K)) (v : List (Zone K)) (n : Nat) (h : v.length = n) :
    (ansAfter (ansVec K) v ops).length = ansAfter (ansNum K) n ops := by
  induction ops generalizing v n with
  | nil => exact h
  | cons o ops ih =>
    cases o with
    | push z => exact ih _ _ (by simp [AnsOp.exec, ansVec, ansNum, h])
    | clear => exact ih _ _ rfl
    | reserve k => exact ih _ _ h

theorem ansPrinter_count [Neg K] (ops : List (AnsOp K)) (v : List (Zone K)) (p : Printer K) (h : v.length = p.count) :
    (ansAfter (ansVec K) v ops).length = (ansAfter (ansPrinter K) p ops).count := by
  induction ops generalizing v p with
  | nil => exact h
  | cons o ops ih =>
    cases o with
    | push z => exact ih _ _ (by simp [AnsOp.exec, ansVec, ansPrinter, h])
    | clear => exact ih _ _ rfl
    | reserve k => exact ih _ _ h

theorem ansVec_append (ops : List (AnsOp K)) (v : List (Zone K)) :
    ansAfter (ansVec K) v ops
      = (if ops.any AnsOp.isClear then [] else v) ++ pushedZones ops := by
  induction ops generalizing v with
  | nil => simp [ansAfter, pushedZones]
  | cons o ops ih =>
    have : ansAfter (ansVec K) v (o :: ops) = ansAfter (ansVec K) (o.exec (ansVec K) v) ops := rfl
    rw [this, ih]
    cases o with
    | push z =>
      simp only [AnsOp.exec, ansVec, pushedZones, List.any_cons, AnsOp.isClear, Bool.false_or]
      split_ifs <;> simp
    | clear => simp [AnsOp.exec, ansVec, pushedZones, AnsOp.isClear]
    | reserve k => simp [AnsOp.exec, ansVec, pushedZones, AnsOp.isClear]

/-- **C09.** After the same sequence of calls, the vector, the counting and the printing container, quiet or not, report
the same size: the number of zones pushed since the last `clear`; and the vector holds exactly these zones. -/
theorem answers_size [Neg K] (quiet : Bool) (ops : List (AnsOp K)) :
    ansAfter (ansVec K) [] ops = pushedZones ops ∧
    (ansVec K).size (ansAfter (ansVec K) [] ops) = (pushedZones ops).length ∧
    (ansNum K).size (ansAfter (ansNum K) 0 ops) = (pushedZones ops).length ∧
    (ansPrinter K).size (ansAfter (ansPrinter K) (Printer.new quiet) ops) = (pushedZones ops).length := by
  have h : ansAfter (ansVec K) [] ops = pushedZones ops := by rw [ansVec_append]; simp
  refine ⟨h, by rw [h]; rfl, ?_, ?_⟩
  · rw [← h]
    exact (ansNum_size ops [] 0 rfl).symm
  · rw [← h]
    exact (ansPrinter_count ops [] (Printer.new quiet) rfl).symm

/-- **C09.** The quiet printer prints nothing; the other one prints exactly one block per pushed zone, in the order in which
they were pushed (also for those pushed before a `clear`). -/
theorem answers_printed [Neg K] (ops : List (AnsOp K)) :
    (ansAfter (ansPrinter K) (Printer.new true) ops).out = [] ∧
    (ansAfter (ansPrinter K) (Printer.new false) ops).out = (allPushed ops).flatMap printBlock := by
  have h1 : ∀ (ops : List (AnsOp K)) (p : Printer K), p.isQuiet = true →
      (ansAfter (ansPrinter K) p ops).out = p.out := by
    intro ops
    induction ops with
    | nil => exact fun _ _ => rfl
    | cons o ops ih =>
      intro p hp
      refine (ih (o.exec (ansPrinter K) p) ?_).trans ?_ <;> cases o <;> simp [AnsOp.exec, ansPrinter, hp]
  have h2 : ∀ (ops : List (AnsOp K)) (p : Printer K), p.isQuiet = false →
      (ansAfter (ansPrinter K) p ops).out = p.out ++ (allPushed ops).flatMap printBlock := by
    intro ops
    induction ops with
    | nil => exact fun p _ => by simp [ansAfter, allPushed]
    | cons o ops ih =>
      intro p hp
      refine (ih (o.exec (ansPrinter K) p) ?_).trans ?_ <;> cases o <;> simp [AnsOp.exec, ansPrinter, hp, allPushed]
  exact ⟨h1 ops _ rfl, h2 ops (Printer.new false) rfl⟩

/-- A history with a `clear` in the middle. -/
example : let z : Zone ℚ := Zone.zero 3 (.inf false)
    let ops : List (AnsOp ℚ) := [.push z, .reserve 7, .clear, .push z, .push z]
    (pushedZones ops).length = 2 ∧ (allPushed ops).length = 3 ∧
      (ansAfter (ansPrinter ℚ) (Printer.new false) ops).out.length = 12 := by decide +kernel

variable [Field K] [LinearOrder K] [IsStrictOrderedRing K]

theorem between'_iff {l u : Bnd K} (hl : ∃ c s, l = .fin c s) (x : K) :
    between' (negFirst l) x u ↔ l.sat (-x) ∧ u.sat x := by
  obtain ⟨c, s, rfl⟩ := hl
  unfold between' negFirst
  refine and_congr ?_ ?_
  · cases s
    · simp only [sat_f]
      constructor <;> intro h <;> linarith
    · simp only [sat_t]
      constructor <;> intro h <;> linarith
  · cases u with
    | inf s => simp [Bnd.sat]
    | fin c s => cases s <;> simp [sat_t, sat_f]

/-- **C49.** The four lines printed for a zone with finite lower bounds describe exactly the zone: a pair of instants
satisfies the three inequalities if and only if it is in the zone. -/
theorem printed_block_exact (z : Zone K) (hn : z.n = 3) (hdiag : ∀ i < 3, (z.get i i).sat 0)
    (hfin : (∃ c s, z.get 0 1 = .fin c s) ∧ (∃ c s, z.get 0 2 = .fin c s) ∧ ∃ c s, z.get 1 2 = .fin c s) (t t' : K) :
    (∀ l ∈ printBlock z, l.Holds t t') ↔ z.Has t t' := by
  obtain ⟨f1, f2, f3⟩ := hfin
  have e : (∀ l ∈ printBlock z, l.Holds t t') ↔
      (((z.get 0 1).sat (-t) ∧ (z.get 1 0).sat t) ∧ ((z.get 0 2).sat (-t') ∧ (z.get 2 0).sat t') ∧
        (z.get 1 2).sat (-(t' - t)) ∧ (z.get 2 1).sat (t' - t)) := by
    rw [← between'_iff f1, ← between'_iff f2, ← between'_iff f3]
    simp [printBlock, OutLine.Holds]
  rw [e]
  unfold Zone.Has Zone.Sat
  rw [hn]
  constructor
  · rintro ⟨⟨h1, h2⟩, ⟨h3, h4⟩, h5, h6⟩ i j hi hj
    have hi' : i = 0 ∨ i = 1 ∨ i = 2 := by omega
    have hj' : j = 0 ∨ j = 1 ∨ j = 2 := by omega
    rcases hi' with rfl | rfl | rfl <;> rcases hj' with rfl | rfl | rfl <;> simp only [Zone.ext] <;>
      simp <;> first | exact hdiag _ (by omega) | assumption | simpa using h5
  · intro h
    have g1 := h 0 1 (by omega) (by omega)
    have g2 := h 1 0 (by omega) (by omega)
    have g3 := h 0 2 (by omega) (by omega)
    have g4 := h 2 0 (by omega) (by omega)
    have g5 := h 1 2 (by omega) (by omega)
    have g6 := h 2 1 (by omega) (by omega)
    simp [Zone.ext] at g1 g2 g3 g4 g5 g6
    exact ⟨⟨g1, g2⟩, ⟨g3, g4⟩, by simpa using g5, g6⟩

/-- A zone meeting the hypotheses, and its text. -/
example : let z : Zone ℚ := Zone.build 3 (.inf false) fun i j =>
      if i = 0 ∧ j = 1 then .fin (-1) false else if i = 1 ∧ j = 0 then .fin 2 true
      else if i = 0 ∧ j = 2 then .fin (-3) true else if i = 2 ∧ j = 0 then .inf false
      else if i = 1 ∧ j = 2 then .fin (-1) true else if i = 2 ∧ j = 1 then .inf false else .fin 0 true
    z.n = 3 ∧ (∀ i < 3, z.get i i = .fin 0 true) ∧
      printBlock z = [.row (.fin 1 false) "t" (.fin 2 true), .row (.fin 3 true) "t'" (.inf false),
        .row (.fin 1 true) "t' - t" (.inf false), .separator] := by decide +kernel

end Verif.Props
