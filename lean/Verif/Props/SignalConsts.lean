import Verif.Lemmas.SignalConsts
import Verif.Props.SignalTA
import Verif.Props.Consts
import Verif.Props.Dot

/-!
# C87: maximal constants of signal automata and of loaded automata
-/

namespace Verif.Props

open Verif

variable {K : Type} [Field K] [LinearOrder K] [IsStrictOrderedRing K] [FloorRing K]

/-- **C87 for signal automata.**  Whenever the translation of an expression succeeds, every non-negative constant of a guard belongs to a declared
clock and is at most the maximal constant of the clock.  (Negative constants come only from negative ends of time restrictions, which no
text denotes.)  The ends of time restrictions need not be in order. -/
theorem signalTA_consts (alloc : Nat → Nat) (hinj : Function.Injective alloc) (e : TRE K) (fuel : Nat) (A : TA Nat)
    (h : e.signalTA alloc fuel = .ok A) :
    ∀ s ∈ A.states, ∀ a, ∀ t ∈ A.edges s a, ∀ g ∈ t.guard, 0 ≤ g.c → g.x < A.clockSize ∧ g.c ≤ A.maxC.getD g.x 0 :=
  fun s hs _ t ht => signalTA_covBy hinj h s hs _ (TA.entry_of_edge ht) t ht

/-- `a%[1,7] b%[2,3]`: the clock is shared, and its maximal constant is that of the first letter. -/
def twoParts : TRE ℚ := .concat (.within litA ⟨.fin 1 true, .fin 7 true⟩) (.within litB ⟨.fin 2 true, .fin 3 true⟩)

example : ∃ A, twoParts.signalTA down 30 = .ok A ∧ A.maxC = [7] ∧
    (∃ s ∈ A.states, ∃ t ∈ A.edges s 97, ∃ g ∈ t.guard, g.x = 0 ∧ g.c = 7) ∧ ∃ s ∈ A.states, ∃ t ∈ A.edges s 98, ∃ g ∈ t.guard, g.x = 0 ∧ g.c = 3 := by
  have key : (twoParts.signalTA down 30).toOption.any (fun A => decide (A.maxC = [7]) &&
      (A.states.any fun s => (A.edges s 97).any fun t => t.guard.any fun g => decide (g.x = 0 ∧ g.c = 7)) &&
      A.states.any fun s => (A.edges s 98).any fun t => t.guard.any fun g => decide (g.x = 0 ∧ g.c = 3)) = true := by decide +kernel
  cases hA : twoParts.signalTA down 30 with
  | error x => rw [hA] at key; cases key
  | ok A =>
    rw [hA] at key
    simp only [Except.toOption, Option.any_some, List.any_eq_true, decide_eq_true_eq, Bool.and_eq_true] at key
    exact ⟨A, rfl, key.1.1, key.1.2, key.2⟩

/-- **C87 for automata from files.** -/
theorem loaded_consts (alloc : Nat → Nat) (G : DotGraph) (hG : G.Ok) : (convBoostTA alloc G).ConstsCovered :=
  fun s _ a t ht g hg => ((loaded_clocks_partial alloc G hG).1 s a t ht g hg).2

example : smallGraph.Ok ∧ (convBoostTA up smallGraph).maxC = [5, 2] := ⟨smallGraph_ok, by decide +kernel⟩

end Verif.Props
