import Verif.Lemmas.DNFLang
import Verif.Props.TRE
import Mathlib.Tactic.NormNum

/-!
# C42: disjunctive normal form of timed regular expressions

The meaning is given by signals: a letter holds for some duration, and the factors of a concatenation follow each other in time.
-/

set_option linter.unusedSectionVars false

namespace Verif.Props

open Verif TMem

variable {K : Type} [Field K] [LinearOrder K] [IsStrictOrderedRing K]

/-! ## C42 -/

/-- **C42** (no signal is lost).  If the normal form is made, it has every signal of the expression. -/
theorem dnf_complete (e : TRE K) {l : List (List Nat)} {m : TMem K} (h : e.toDNF TMem.empty = .ok (l, m)) {x : Sig K}
    (hx : e.Signals x) : Den m (.alt l) x := (toDNF_post e _ good_empty l m h).den x hx

/-- **C42**, restricted: the normal form is made and has exactly the signals of the expression, if no conjunction and no empty word is
directly below a concatenation, and the restrictions of a letter do not have lower ends which differ only in strictness.
Missing: the other expressions, for which the claim is false. -/
theorem dnf_lang_partial (e : TRE K) (he : e.Distributes) :
    ∃ l m, e.toDNF TMem.empty = .ok (l, m) ∧ ∀ x, Den m (.alt l) x ↔ e.Signals x := by
  obtain ⟨l, m, h, hok⟩ := toDNF_spec e _ he good_empty
  exact ⟨l, m, h, hok.den⟩

/-- `(((a|b)%[1,2]) b)+ & (ab)%(0,3)`. -/
def dnfEx : TRE ℚ :=
  .conj (.plus (.concat (.within (.disj litA litB) ⟨.fin 1 true, .fin 2 true⟩) litB))
    (.within (.concat litA litB) ⟨.fin 0 false, .fin 3 false⟩)

theorem dnfEx_distributes : dnfEx.Distributes := by
  refine ⟨⟨⟨⟨trivial, trivial⟩, ?_⟩, trivial, ⟨trivial, trivial⟩, trivial, fun h => h, fun h => h⟩,
    ⟨trivial, trivial, trivial, trivial, fun h => h, fun h => h⟩, fun c s t h => h.elim⟩
  rintro c s t (h | h) h'
  all_goals
    cases h
    simp at h'

/-- The signal a a b b of duration 2.5 (1.5 of a, then b). -/
theorem dnfEx_signal : dnfEx.Signals ((Sig.const 97 (3/2) (by norm_num)).app (Sig.const 98 1 (by norm_num))) := by
  refine ⟨.one ⟨_, _, rfl, ⟨.inl ⟨_, _, rfl⟩, ?_⟩, _, _, rfl⟩, ⟨⟨_, _, rfl, ⟨_, _, rfl⟩, _, _, rfl⟩, ?_⟩⟩
  · constructor <;> norm_num [Interval.Above, Sig.const, Bnd.sat]
  · constructor <;> norm_num [Interval.Above, Sig.const, Sig.app, Bnd.sat]

example : ∃ l m x, dnfEx.toDNF TMem.empty = .ok (l, m) ∧ Den m (.alt l) x := by
  obtain ⟨l, m, h, hx⟩ := dnf_lang_partial dnfEx dnfEx_distributes
  exact ⟨l, m, _, h, (hx _).2 dnfEx_signal⟩

/-- What is observed of a result of `toDNF`: the list, and the nodes at the first addresses. -/
def dnfView (n : Nat) (r : Except Err (List (List Nat) × TMem ℚ)) :
    Err ⊕ (List (List Nat) × List (ANode ℚ × Alphabet × List (Interval ℚ))) :=
  match r with
  | .error e => .inl e
  | .ok (l, m) => .inr (l, (List.range n).map fun a => (m.atom a, m.sing a))

instance : DecidableEq (Alphabet × List (Interval ℚ)) := instDecidableEqProd
instance : DecidableEq (ANode ℚ × Alphabet × List (Interval ℚ)) := instDecidableEqProd

theorem dnfView_ok {n : Nat} {r : Except Err (List (List Nat) × TMem ℚ)} {l v} (h : dnfView n r = .inr (l, v)) :
    ∃ m, r = .ok (l, m) ∧ ∀ a b, a < n → v[a]? = some b → m.atom a = b.1 ∧ m.sing a = b.2 := by
  cases r with
  | error e => cases h
  | ok r =>
    obtain ⟨l', m⟩ := r
    simp only [dnfView, Sum.inr.injEq, Prod.mk.injEq] at h
    obtain ⟨rfl, rfl⟩ := h
    refine ⟨m, rfl, fun a b ha hb => ?_⟩
    rw [List.getElem?_map, List.getElem?_range ha] at hb
    simp only [Option.map_some, Option.some.injEq] at hb
    rw [← hb]
    exact ⟨rfl, rfl⟩

/-- `((a%[1,1]) & (a%[2,2])) a`. -/
def dnfBad : TRE ℚ :=
  .concat (.conj (.within litA ⟨.fin 1 true, .fin 1 true⟩) (.within litA ⟨.fin 2 true, .fin 2 true⟩)) litA

theorem dnfBad_view : dnfView 12 (dnfBad.toDNF TMem.empty) = .inr ([[10, 11]],
    [(.moved, 97, [⟨.fin 0 true, .inf false⟩]), (.singleton 0, 0, []),
     (.moved, 97, [⟨.fin 1 true, .fin 1 true⟩]), (.singleton 2, 0, []),
     (.moved, 97, [⟨.fin 0 true, .inf false⟩]), (.singleton 4, 0, []),
     (.moved, 97, [⟨.fin 2 true, .fin 2 true⟩]), (.singleton 6, 0, []),
     (.moved, 97, [⟨.fin 0 true, .inf false⟩]), (.singleton 8, 0, []),
     (.concat [3, 9], 0, []), (.concat [7, 9], 0, [])]) := by decide +kernel

/-- **C42 is false**: the concatenation is distributed over a conjunction.  `((a%[1,1]) & (a%[2,2])) a` has no signals at all, the normal
form has the signal a of duration 2. -/
theorem dnf_lang_wrong : (∀ x, ¬ dnfBad.Signals x) ∧
    ∃ l m, dnfBad.toDNF TMem.empty = .ok (l, m) ∧ Den m (.alt l) (Sig.const 97 2 (by norm_num)) := by
  constructor
  · rintro x ⟨y, z, rfl, ⟨⟨_, h1⟩, _, h2⟩, _⟩
    have a1 : y.dur ≤ 1 := by simpa [Interval.Above, Bnd.sat] using h1.2
    have a2 : 2 ≤ y.dur := by simpa [Interval.Above, Bnd.sat] using h2.1
    linarith
  · obtain ⟨m, h, hv⟩ := dnfView_ok dnfBad_view
    have s3 := (hv 3 _ (by decide) rfl).1
    have s7 := (hv 7 _ (by decide) rfl).1
    have s9 := (hv 9 _ (by decide) rfl).1
    have d3 : Den m (.atom 3) (Sig.const 97 1 (by norm_num)) := (den_singleton s3).2
      ⟨1, by norm_num, by rw [(hv 2 _ (by decide) rfl).2], by
        rw [(hv 2 _ (by decide) rfl).2]
        exact ⟨_, List.mem_singleton.2 rfl, by constructor <;> norm_num [Interval.Above, Bnd.sat]⟩⟩
    have d7 : Den m (.atom 7) (Sig.const 97 2 (by norm_num)) := (den_singleton s7).2
      ⟨2, by norm_num, by rw [(hv 6 _ (by decide) rfl).2], by
        rw [(hv 6 _ (by decide) rfl).2]
        exact ⟨_, List.mem_singleton.2 rfl, by constructor <;> norm_num [Interval.Above, Bnd.sat]⟩⟩
    have d9 : ∀ d h, Den m (.atom 9) (Sig.const 97 d h) := fun d h => (den_singleton s9).2
      ⟨d, h, by rw [(hv 8 _ (by decide) rfl).2], by
        rw [(hv 8 _ (by decide) rfl).2]
        exact ⟨_, List.mem_singleton.2 rfl, by simpa [Interval.Mem, Interval.Above, Bnd.sat] using h⟩⟩
    refine ⟨_, m, h, den_alt.2 ⟨_, List.mem_singleton.2 rfl, fun b hb => ?_⟩⟩
    rcases List.mem_cons.1 hb with rfl | hb
    · rw [den_concat (hv 10 _ (by decide) rfl).1]
      refine den_cons.2 ⟨_, _, ?_, d3, den_seq_one.2 (d9 1 (by norm_num))⟩
      rw [Sig.const_app]
      exact Sig.const_congr _ _ _ (by norm_num)
    · rw [List.mem_singleton.1 hb, den_concat (hv 11 _ (by decide) rfl).1]
      refine den_cons.2 ⟨_, _, ?_, d7, den_seq_one.2 (d9 0 (by norm_num))⟩
      rw [Sig.const_app]
      exact Sig.const_congr _ _ _ (by norm_num)

/-- **C42 is false** already for a restricted letter: `a%(0,2)` has no signal of duration 0, its normal form has one (the strict lower end
0 is not distinguished from the closed one when the restrictions are intersected). -/
theorem dnf_lang_wrong_strict : ¬ (TRE.within litA ⟨.fin 0 false, .fin 2 false⟩).Signals Sig.nil ∧
    ∃ l m, (TRE.within litA ⟨.fin 0 false, .fin 2 false⟩).toDNF TMem.empty = .ok (l, m) ∧ Den m (.alt l) Sig.nil := by
  constructor
  · rintro ⟨_, h, _⟩
    simp [Interval.Above, Sig.nil] at h
  · obtain ⟨m, h, hv⟩ := dnfView_ok (n := 4) (r := (TRE.within litA ⟨.fin 0 false, .fin 2 false⟩).toDNF TMem.empty)
      (l := [[3]]) (v := [(.moved, 97, [⟨.fin 0 true, .inf false⟩]), (.singleton 0, 0, []),
        (.moved, 97, [⟨.fin 0 true, .fin 2 false⟩]), (.singleton 2, 0, [])]) (by decide +kernel)
    refine ⟨_, m, h, den_alt.2 ⟨_, List.mem_singleton.2 rfl, fun b hb => ?_⟩⟩
    rw [List.mem_singleton.1 hb]
    refine (den_singleton (hv 3 _ (by decide) rfl).1).2 ⟨0, le_refl _, (Sig.const_zero _ _).symm, ?_⟩
    rw [(hv 2 _ (by decide) rfl).2]
    exact ⟨_, List.mem_singleton.2 rfl, by constructor <;> norm_num [Interval.Above, Bnd.sat]⟩

/-- **C42 is false**: the normal form of `b*a` (that is, `(ε|b+)a`) is undefined behaviour. -/
theorem dnf_defined_wrong : (TRE.concat (.disj .epsilon (.plus litB)) litA).toDNF TMem.empty = .error .ub := by
  have : dnfView 0 ((TRE.concat (.disj .epsilon (.plus litB)) litA).toDNF TMem.empty) = .inl .ub := by decide +kernel
  cases h : (TRE.concat (.disj .epsilon (.plus litB)) litA).toDNF TMem.empty with
  | error e => rw [h] at this; cases this; rfl
  | ok r => rw [h] at this; cases this

end Verif.Props
