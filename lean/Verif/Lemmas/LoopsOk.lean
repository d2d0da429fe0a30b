import Verif.Lemmas.ZAFinite
import Verif.Lemmas.KMP

set_option linter.unusedSectionVars false

/-! The conditions on cycles hold for the automaton without `$`. -/

namespace Verif

variable {S K : Type} [Field K] [LinearOrder K] [IsStrictOrderedRing K] [DecidableEq S]

theorem prepare_loopsOk {A Ap : TA S} (hp : Prepared A Ap) (h : A.LoopsOk) : Ap.LoopsOk := by
  rcases h with ⟨rank, h⟩ | h
  · exact .inl ⟨rank, fun s a e he => h s a e (prepare_edges hp he)⟩
  · exact .inr (h.dropDollar hp.1 fun s _ => hp.2.2.1 s)

theorem prepare_live {A Ap : TA S} (hp : Prepared A Ap) (hcl : A.Closed) (hM : A.MapOk) (h : A.LoopsOk) {fuel : Nat} :
    ∀ (Z : ZA S K) alive, ta2za fuel Ap ZA.none = .ok Z → Z.liveStates fuel = .ok alive →
      ∀ i, Z.Reachable i → Z.Live i → i ∈ alive :=
  live_of_loopsOk (prepare_closed hp hcl) (prepare_mapOk hp hM) (prepare_loopsOk hp h)

end Verif
