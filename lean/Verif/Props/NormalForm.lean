import Verif.Lemmas.NormalFormConj
import Verif.Props.DNF

/-!
# C43, C67: the computation of the normal form
-/

namespace Verif.Props

open TMem

variable {K : Type} [Field K] [LinearOrder K] [IsStrictOrderedRing K] [FloorRing K]

/-- **C43, partial**: the computation of the normal form returns (or fails in a defined or undefined way) for every expression without
conjunction; the nesting of calls is bounded, and the result is the same for all larger bounds. Missing: conjunctions, for which it is false
(`normalForm_conj_wrong`). -/
theorem normalForm_terminates_partial (e : TRE K) (he : e.ConjFree) :
    ∃ N r, r ≠ .error .fuel ∧ ∀ fuel, N ≤ fuel → e.normalForm fuel = r := by
  obtain ⟨N, h⟩ := normalForm_ends e he
  have hr : e.normalForm N ≠ .error .fuel := by
    have := h N (le_refl N)
    intro h'
    rw [h'] at this
    exact this rfl
  refine ⟨N, e.normalForm N, hr, fun fuel hf => ?_⟩
  obtain ⟨k, rfl⟩ := Nat.exists_eq_add_of_le hf
  exact normalForm_stable hr k

/-- `(a|(ab)+)%(1,3)b` meets the hypothesis; its normal form is computed. -/
example : (TRE.concat (.within (.disj litA (.plus (.concat litA litB))) ⟨.fin 1 false, .fin 3 false⟩) litB).ConjFree ∧
    ((TRE.concat (.within (.disj litA (.plus (.concat litA litB))) ⟨.fin 1 false, .fin 3 false⟩) litB).normalForm 20).isOk := by
  refine ⟨⟨⟨trivial, trivial, trivial⟩, trivial⟩, by decide +kernel⟩

/-- **C43 is false** for every expression with a conjunction, at any place: the computation of the normal form never returns a result. -/
theorem normalForm_conj_wrong (e : TRE K) (he : ¬ e.ConjFree) (fuel : Nat) (r : Nat × TMem K) : e.normalForm fuel ≠ .ok r :=
  normalForm_conj he fuel r

/-- `b(((a&b)%(1,2)b)+)` has a conjunction below a restriction, a concatenation and a repetition. -/
example : ¬ (TRE.concat litB (.plus (.concat (.within (.conj litA litB) ⟨.fin 1 false, .fin 2 false⟩) litB))).ConjFree := fun h => h.2.1

theorem conjLoop_fuel {m : TMem K} {y : Nat} {i : Decision} (h : m.adec y = some i) : ∀ fuel d, m.conjLoop y fuel d = .error .fuel
  | 0, _ => rfl
  | fuel + 1, d => by
    simp only [conjLoop, decisionOf, h]
    exact conjLoop_fuel h fuel _

/-- **C43 is false**: for `a & b`, every bound on the number of iterations is exceeded. -/
theorem normalForm_terminates_wrong (fuel : Nat) : (TRE.conj litA litB).normalForm fuel = .error .fuel := by
  match fuel with
  | 0 => rfl
  | 1 => rfl
  | fuel + 2 =>
    have h : ∀ (m : TMem ℚ) i, m.adec 3 = some i → m.adec 1 ≠ none → m.dnf 4 = [[1, 3]] → m.atom 1 = .singleton 0 → m.atom 3 = .singleton 2 →
        finishDnf (fuel + 1) m 4 = .error .fuel := by
      intro m i h3 h1 hd ha hb
      have e : m.conjDecisions (fuel + 1) [[1, 3]] = .error .fuel := by
        cases h1' : m.adec 1 with
        | none => exact absurd h1' h1
        | some d => simp only [conjDecisions, conjDecision, decisionOf, h1', conjLoop_fuel h3]
      unfold finishDnf
      simp only [hd, anyM, atomMixed, ha, hb, e]
    have e1 : (TRE.conj litA litB).toDNF TMem.empty = .ok ([[1, 3]], ((TMem.empty : TMem ℚ).newSingleton
      (97, [Interval.default])).2.newSingleton (98, [Interval.default]) |>.2) := rfl
    unfold TRE.normalForm
    rw [e1]
    simp only [normDnf, newSingleton, newSing, newAtom, newDnf, normAtom, TMem.forM, put, empty, setADec, if_true, reduceCtorEq,
      Nat.reduceEqDiff, if_false, Nat.reduceAdd]
    rw [h _ ⟨true, [98]⟩ rfl (by decide) rfl rfl rfl]

/-- **C43 is false** also because of undefined behaviour: the repetition `(a%[1,1])+` of an interval without interior. -/
theorem normalForm_defined_wrong : ∀ fuel, 5 ≤ fuel →
    (TRE.plus (.within litA ⟨.fin 1 true, .fin 1 true⟩)).normalForm fuel = .error .ub := by
  have h : (TRE.plus (.within litA ⟨.fin 1 true, .fin 1 true⟩)).normalForm 5 = .error .ub := by
    have : (match (TRE.plus (.within litA ⟨.fin 1 true, .fin 1 true⟩)).normalForm 5 with
      | .error e => some e
      | .ok _ => none) = some .ub := by decide +kernel
    split at this
    · next e he => rw [he]; cases this; rfl
    · cases this
  intro fuel hf
  obtain ⟨k, rfl⟩ := Nat.exists_eq_add_of_le hf
  rw [normalForm_stable (by rw [h]; simp) k, h]

/-- **C67**: the code for repetitions with mixed decision is dead: for no expression is it reached (the model has the outcome
`notModelled` in these places). -/
theorem normalForm_no_mixed (e : TRE K) (fuel : Nat) : e.normalForm fuel ≠ .error .notModelled := by
  have := normalForm_known e fuel
  intro h
  rw [h] at this
  exact this rfl

/-- The normal form of `((a|b)+|(ab)+a)+`, with repetitions of several letters, is computed. -/
example : ((TRE.plus (.disj (.plus (.disj litA litB)) (.concat (.plus (.concat litA litB)) litA))).normalForm 20).isOk := by decide +kernel

end Verif.Props
