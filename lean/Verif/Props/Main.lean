import Verif.Lemmas.Main
import Mathlib.Tactic.ByContra
import Mathlib.Order.Basic

/-!
# Properties of the command line program (C44, C50)
-/

namespace Verif.Props

variable {E T R : Type}

theorem conflict_iff (o : Options) : ((o.ascii && o.binary) || (o.signal && o.event)) = true ↔ o.Conflict := by
  simp [Options.Conflict]

theorem takePositional_flags (o : Options) :
    (takePositional o).signal = o.signal ∧ (takePositional o).quiet = o.quiet :=
  ⟨(foldl_flags o o.positional).2.2.2.2.2.2.1, (foldl_flags o o.positional).2.1⟩

theorem matchInput_eq (W : World E T R) (o : Options) (hn : o.Named) (b : Bool) (A : T) :
    matchInput W (takePositional o) b A =
      if (asked o).2 ≠ "stdin" ∧ W.opens (asked o).2 = false then .fail 1
      else match (if o.signal then W.monaa (asked o).2 b A else W.monaaDollar (asked o).2 b A) with
        | .ok r => .matched r o.quiet
        | .error e => .died e := by
  unfold matchInput
  rw [(takePositional_asked o hn).1, (takePositional_flags o).1, (takePositional_flags o).2]
  rfl

/-- **C44.** The program matches if and only if the command line is consistent, the pattern can be had and the log be
opened; the answers are those of the matcher for the chosen mode on the pattern and the log asked for. -/
theorem main_matched_iff (W : World E T R) (o : Options) (hn : o.Named) (r : R) (q : Bool) :
    mainProgram W o = .matched r q ↔
      o.Consistent ∧ q = o.quiet ∧ ∃ A, PatternIs W o (.ok A) ∧
        ((asked o).2 = "stdin" ∨ W.opens (asked o).2 = true) ∧
        (if o.signal then W.monaa else W.monaaDollar) (asked o).2 o.binary A = .ok r := by
  rw [main_eq W o hn]
  have key : ∀ A, matchInput W (takePositional o) o.binary A = .matched r q ↔
      q = o.quiet ∧ ((asked o).2 = "stdin" ∨ W.opens (asked o).2 = true) ∧
        (if o.signal then W.monaa else W.monaaDollar) (asked o).2 o.binary A = .ok r := by
    intro A
    rw [matchInput_eq W o hn]
    have e : (if o.signal then W.monaa (asked o).2 o.binary A else W.monaaDollar (asked o).2 o.binary A)
        = (if o.signal then W.monaa else W.monaaDollar) (asked o).2 o.binary A := by split_ifs <;> rfl
    rw [e]
    by_cases hc : (asked o).2 ≠ "stdin" ∧ W.opens (asked o).2 = false
    · rw [if_pos hc]
      obtain ⟨h1, h2⟩ := hc
      simp [h1, h2]
    · rw [if_neg hc]
      have hc' : (asked o).2 = "stdin" ∨ W.opens (asked o).2 = true := by
        by_contra h
        rw [not_or] at h
        exact hc ⟨h.1, by simpa using h.2⟩
      cases (if o.signal then W.monaa else W.monaaDollar) (asked o).2 o.binary A with
      | ok r' =>
        simp only [Outcome.matched.injEq, Except.ok.injEq, hc', true_and]
        exact ⟨fun h => ⟨h.2.symm, h.1⟩, fun h => ⟨h.2, h.1.symm⟩⟩
      | error x => simp
  by_cases hv : o.version = true
  · simp [hv, Options.Consistent]
  rw [if_neg hv]
  by_cases hh : (asked o).1 = .none ∨ o.help = true
  · rw [if_pos hh]
    constructor
    · intro h; cases h
    · rintro ⟨⟨-, h2, -, h4⟩, -⟩
      rcases hh with hh | hh
      · rw [hh] at h4; simp at h4
      · simp [h2] at hh
  rw [if_neg hh]
  rw [not_or] at hh
  by_cases hcf : o.Conflict
  · rw [if_pos ((conflict_iff o).2 hcf)]
    simp [Options.Consistent, hcf]
  rw [if_neg (fun h => hcf ((conflict_iff o).1 h))]
  have hv' : o.version = false := by simpa using hv
  have hh' : o.help = false := by simpa using hh.2
  cases hs : (asked o).1 with
  | none => exact absurd hs hh.1
  | both => simp [Options.Consistent, hs]
  | expression e =>
    rcases hp : W.parse e with x | (_ | e')
    iterate 2
      constructor
      · intro h; simp [hp] at h
      · rintro ⟨-, -, A, hA, -⟩
        generalize hx : (Except.ok A : Except Err T) = x at hA
        cases hA with
        | expression h hp' =>
          rw [hs] at h
          cases h
          rw [hp] at hp'
          cases hp'
        | file h => rw [hs] at h; cases h
    ·
      simp only [hp]
      constructor
      · intro h
        split at h
        · rename_i A hA
          obtain ⟨k1, k2, k3⟩ := (key A).1 h
          refine ⟨⟨hv', hh', hcf, Or.inl ⟨e, hs⟩⟩, k1, A, ?_, k2, k3⟩
          rw [← hA]
          exact .expression hs hp
        · cases h
      · rintro ⟨-, k1, A, hA, k2, k3⟩
        generalize hx : (Except.ok A : Except Err T) = x at hA
        cases hA with
        | expression h hp' =>
          rw [hs] at h
          cases h
          rw [hp] at hp'
          cases hp'
          rw [← hx]
          exact (key A).2 ⟨k1, k2, k3⟩
        | file h => rw [hs] at h; cases h
  | file f =>
    simp only
    by_cases hsig : o.signal = true
    · rw [if_pos hsig]
      simp [Options.Consistent, hs, hsig]
    · rw [if_neg hsig]
      constructor
      · intro h
        split at h
        · rename_i A hA
          obtain ⟨k1, k2, k3⟩ := (key A).1 h
          refine ⟨⟨hv', hh', hcf, Or.inr ⟨⟨f, hs⟩, by simpa using hsig⟩⟩, k1, A, ?_, k2, k3⟩
          rw [← hA]
          exact .file hs
        · cases h
      · rintro ⟨-, k1, A, hA, k2, k3⟩
        generalize hx : (Except.ok A : Except Err T) = x at hA
        cases hA with
        | expression h _ => rw [hs] at h; cases h
        | file h =>
          rw [hs] at h
          cases h
          rw [← hx]
          exact (key A).2 ⟨k1, k2, k3⟩

/-- **C44.** The program fails with status 2 exactly if the command line is consistent and the expression cannot be
parsed. -/
theorem main_status_two_iff (W : World E T R) (o : Options) (hn : o.Named) :
    mainProgram W o = .fail 2 ↔
      o.Consistent ∧ ∃ e, (asked o).1 = .expression e ∧ W.parse e = .ok none := by
  rw [main_eq W o hn]
  have key : ∀ A, matchInput W (takePositional o) o.binary A ≠ .fail 2 := by
    intro A
    rw [matchInput_eq W o hn]
    split_ifs with h1 h2
    · simp
    · cases W.monaa (asked o).2 o.binary A <;> simp
    · cases W.monaaDollar (asked o).2 o.binary A <;> simp
  by_cases hv : o.version = true
  · simp [hv, Options.Consistent]
  rw [if_neg hv]
  by_cases hh : (asked o).1 = .none ∨ o.help = true
  · rw [if_pos hh]
    constructor
    · intro h; cases h
    · rintro ⟨⟨-, h2, -, h4⟩, -⟩
      rcases hh with hh | hh
      · rw [hh] at h4; simp at h4
      · simp [h2] at hh
  rw [if_neg hh]
  rw [not_or] at hh
  by_cases hcf : o.Conflict
  · rw [if_pos ((conflict_iff o).2 hcf)]
    simp [Options.Consistent, hcf]
  rw [if_neg (fun h => hcf ((conflict_iff o).1 h))]
  have hv' : o.version = false := by simpa using hv
  have hh' : o.help = false := by simpa using hh.2
  cases hs : (asked o).1 with
  | none => exact absurd hs hh.1
  | both => simp
  | expression e =>
    rcases hp : W.parse e with x | (_ | e')
    · simp [Options.Consistent, hv', hh', hcf, hs, hp]
    · simp [Options.Consistent, hv', hh', hcf, hs, hp]
    ·
      simp only [hp]
      constructor
      · intro h
        split at h
        · exact absurd h (key _)
        · cases h
      · rintro ⟨-, e2, h1, h2⟩
        cases h1
        rw [hp] at h2
        cases h2
  | file f =>
    simp only
    constructor
    · intro h
      split_ifs at h
      · simp at h
      · split at h
        · exact absurd h (key _)
        · cases h
    · rintro ⟨-, e2, h1, h2⟩
      cases h1

/-- **C44.** The program fails with status 1 exactly if it was not asked for help or the version and there is a pattern,
and either the options are inconsistent, or the pattern can be had and the log cannot be opened. -/
theorem main_status_one_iff (W : World E T R) (o : Options) (hn : o.Named) :
    mainProgram W o = .fail 1 ↔
      o.version = false ∧ o.help = false ∧ (asked o).1 ≠ .none ∧
      (¬ o.Consistent ∨ ((∃ A, PatternIs W o (.ok A)) ∧ (asked o).2 ≠ "stdin" ∧ W.opens (asked o).2 = false)) := by
  rw [main_eq W o hn]
  have key : ∀ A, matchInput W (takePositional o) o.binary A = .fail 1 ↔
      ((asked o).2 ≠ "stdin" ∧ W.opens (asked o).2 = false) := by
    intro A
    rw [matchInput_eq W o hn]
    split_ifs with h1 h2
    · simp [h1]
    · cases W.monaa (asked o).2 o.binary A <;> simp_all
    · cases W.monaaDollar (asked o).2 o.binary A <;> simp_all
  by_cases hv : o.version = true
  · simp [hv]
  rw [if_neg hv]
  by_cases hh : (asked o).1 = .none ∨ o.help = true
  · rw [if_pos hh]
    rcases hh with hh | hh <;> simp [hh]
  rw [if_neg hh]
  rw [not_or] at hh
  have hv' : o.version = false := by simpa using hv
  have hh' : o.help = false := by simpa using hh.2
  by_cases hcf : o.Conflict
  · rw [if_pos ((conflict_iff o).2 hcf)]
    simp [Options.Consistent, hcf, hv', hh', hh.1]
  rw [if_neg (fun h => hcf ((conflict_iff o).1 h))]
  cases hs : (asked o).1 with
  | none => exact absurd hs hh.1
  | both => simp [Options.Consistent, hs, hv', hh']
  | expression e =>
    have hcons : o.Consistent := ⟨hv', hh', hcf, Or.inl ⟨e, hs⟩⟩
    simp only [hv', hh', true_and, hcons, not_true, false_or, ne_eq, reduceCtorEq, not_false_iff]
    rcases hp : W.parse e with x | (_ | e')
    iterate 2
      simp only
      constructor
      · intro h; simp at h
      · rintro ⟨⟨A, hA⟩, -⟩
        generalize hx : (Except.ok A : Except Err T) = x at hA
        cases hA with
        | expression h hp' =>
          rw [hs] at h
          cases h
          rw [hp] at hp'
          cases hp'
        | file h => rw [hs] at h; cases h
    · simp only [hp]
      constructor
      · intro h
        split at h
        · rename_i A hA
          refine ⟨⟨A, ?_⟩, (key A).1 h⟩
          rw [← hA]
          exact .expression hs hp
        · cases h
      · rintro ⟨⟨A, hA⟩, k⟩
        generalize hx : (Except.ok A : Except Err T) = x at hA
        cases hA with
        | expression h hp' =>
          rw [hs] at h
          cases h
          rw [hp] at hp'
          cases hp'
          rw [← hx]
          exact (key A).2 k
        | file h => rw [hs] at h; cases h
  | file f =>
    simp only
    by_cases hsig : o.signal = true
    · rw [if_pos hsig]
      simp [Options.Consistent, hs, hsig, hv', hh']
    · rw [if_neg hsig]
      have hcons : o.Consistent := ⟨hv', hh', hcf, Or.inr ⟨⟨f, hs⟩, by simpa using hsig⟩⟩
      simp only [hv', hh', true_and, hcons, not_true, false_or, ne_eq, reduceCtorEq, not_false_iff]
      constructor
      · intro h
        split at h
        · rename_i A hA
          refine ⟨⟨A, ?_⟩, (key A).1 h⟩
          rw [← hA]
          exact .file hs
        · cases h
      · rintro ⟨⟨A, hA⟩, k⟩
        generalize hx : (Except.ok A : Except Err T) = x at hA
        cases hA with
        | expression h _ => rw [hs] at h; cases h
        | file h =>
          rw [hs] at h
          cases h
          rw [← hx]
          exact (key A).2 k

/-- A world in which everything can be read and matched, except the expression `"("`, the log `"missing"` and the automaton
`"broken.dot"`. -/
def toyWorld : World String String (List String) where
  parse e := if e = "(" then .ok none else .ok (some e)
  signalTA e := .ok e
  eventTA e := .ok e
  loadTA f := if f = "broken.dot" then .error .message else .ok f
  opens f := decide (f ≠ "missing")
  monaa f _ A := .ok [f, A]
  monaaDollar f _ A := .ok [f, A]

/-- A command line without options. -/
def toyOptions : Options :=
  { help := false, quiet := false, version := false, ascii := false, binary := false, event := false, signal := false
    input := "stdin", automaton := "", expression := "", positional := [] }

/-- The cases occur. -/
example :
    (mainProgram toyWorld { toyOptions with positional := ["ab", "log"] } = .matched ["log", "ab"] false) ∧
    (mainProgram toyWorld { toyOptions with expression := "(", positional := ["log"] }).status = some 2 ∧
    (mainProgram toyWorld { toyOptions with expression := "ab", input := "missing" }).status = some 1 ∧
    (mainProgram toyWorld { toyOptions with automaton := "f.dot", signal := true }).status = some 1 ∧
    (mainProgram toyWorld { toyOptions with ascii := true, binary := true, expression := "ab" }).status = some 1 ∧
    (mainProgram toyWorld toyOptions = .usage) := by decide +kernel

/-- **C50 is false**: if the file of the automaton does not exist or is not a graph, the program does not exit with status 2 (the
exception of the graph reader is not caught). -/
theorem parse_error_status_wrong :
    ¬ ∀ (W : World String String (List String)) (o : Options) (f : String), o.Named → o.Consistent →
      (asked o).1 = .file f → (∃ x, W.loadTA f = .error x) → (mainProgram W o).status = some 2 := by
  intro h
  have := h toyWorld { toyOptions with automaton := "broken.dot" } "broken.dot" (by simp [Options.Named, toyOptions])
    ⟨rfl, rfl, by simp [Options.Conflict, toyOptions], Or.inr ⟨⟨"broken.dot", by decide +kernel⟩, rfl⟩⟩
    (by decide +kernel) ⟨.message, by decide +kernel⟩
  exact absurd this (by decide +kernel)

/-- **C50, what holds** (`_partial`: expressions only). -/
theorem parse_error_status_partial (W : World E T R) (o : Options) (hn : o.Named) (hc : o.Consistent) (e : String)
    (he : (asked o).1 = .expression e) : (mainProgram W o) = .fail 2 ↔ W.parse e = .ok none := by
  rw [main_status_two_iff W o hn]
  constructor
  · rintro ⟨-, e', h1, h2⟩
    rw [he] at h1
    cases h1
    exact h2
  · exact fun h => ⟨hc, e, he, h⟩

end Verif.Props
