import Verif.Spec.Main
import Mathlib.Tactic.SplitIfs

/-!
# The command line program
-/

namespace Verif

theorem foldl_flags (o : Options) (l : List String) :
    (l.foldl usePositional o).help = o.help ∧ (l.foldl usePositional o).quiet = o.quiet ∧
    (l.foldl usePositional o).version = o.version ∧ (l.foldl usePositional o).ascii = o.ascii ∧
    (l.foldl usePositional o).binary = o.binary ∧ (l.foldl usePositional o).event = o.event ∧
    (l.foldl usePositional o).signal = o.signal ∧ (l.foldl usePositional o).automaton = o.automaton := by
  induction l generalizing o with
  | nil => simp
  | cons s l ih =>
    simp only [List.foldl_cons]
    obtain ⟨h1, h2, h3, h4, h5, h6, h7, h8⟩ := ih (usePositional o s)
    rw [h1, h2, h3, h4, h5, h6, h7, h8]
    unfold usePositional
    split_ifs <;> simp

theorem isEmpty_iff_eq (s : String) : s.isEmpty = true ↔ s = "" := by simp [String.isEmpty_iff]

theorem foldl_input (o : Options) (l : List String) (hp : o.automaton ≠ "" ∨ o.expression ≠ "")
    (hl : ∀ s ∈ l, s ≠ "" ∧ s ≠ "stdin") :
    (l.foldl usePositional o).input = askedLog o l ∧ (l.foldl usePositional o).expression = o.expression := by
  induction l generalizing o with
  | nil => simp [askedLog]
  | cons s l ih =>
    have hne : (o.automaton.isEmpty && o.expression.isEmpty) = false := by
      rw [Bool.and_eq_false_iff]
      rcases hp with hp | hp
      · left
        cases h : o.automaton.isEmpty
        · rfl
        · exact absurd ((isEmpty_iff_eq _).1 h) hp
      · right
        cases h : o.expression.isEmpty
        · rfl
        · exact absurd ((isEmpty_iff_eq _).1 h) hp
    simp only [List.foldl_cons]
    have hl' : ∀ x ∈ l, x ≠ "" ∧ x ≠ "stdin" := fun x hx => hl x (by simp [hx])
    by_cases hi : o.input = "stdin"
    · have hu : usePositional o s = { o with input := s } := by simp [usePositional, hne, hi]
      rw [hu]
      obtain ⟨h1, h2⟩ := ih { o with input := s } hp hl'
      rw [h1, h2]
      simp [askedLog, hi, (hl s (by simp)).2]
    · have hu : usePositional o s = o := by simp [usePositional, hne, hi]
      rw [hu]
      obtain ⟨h1, h2⟩ := ih o hp hl'
      rw [h1, h2]
      simp [askedLog, hi]

/-- The pattern and the log after the loop over the free arguments. -/
theorem takePositional_asked (o : Options) (hn : o.Named) :
    (takePositional o).input = (asked o).2 ∧
    (match (asked o).1 with
      | .none => (takePositional o).automaton = "" ∧ (takePositional o).expression = ""
      | .expression e => (takePositional o).automaton = "" ∧ (takePositional o).expression = e ∧ e ≠ ""
      | .file f => (takePositional o).automaton = f ∧ f ≠ "" ∧ (takePositional o).expression = ""
      | .both => (takePositional o).automaton ≠ "" ∧ (takePositional o).expression ≠ "") := by
  have ha : (takePositional o).automaton = o.automaton := (foldl_flags o o.positional).2.2.2.2.2.2.2
  rw [ha]
  unfold takePositional asked
  split_ifs with h1 h2 h2
  · cases hp : o.positional with
    | nil => simp [h1, h2]
    | cons s l =>
      have hs := hn s (by simp [hp])
      have hu : usePositional o s = { o with expression := s } := by simp [usePositional, h1, h2]
      simp only [List.foldl_cons, hu]
      obtain ⟨g1, g2⟩ := foldl_input { o with expression := s } l (Or.inr hs.1)
        (fun x hx => hn x (by simp [hp, hx]))
      rw [g1, g2]
      exact ⟨rfl, h1, rfl, hs.1⟩
  · obtain ⟨g1, g2⟩ := foldl_input o o.positional (Or.inr h2) hn
    exact ⟨g1, h1, g2, h2⟩
  · obtain ⟨g1, g2⟩ := foldl_input o o.positional (Or.inl h1) hn
    exact ⟨g1, rfl, h1, g2.trans h2⟩
  · obtain ⟨g1, g2⟩ := foldl_input o o.positional (Or.inl h1) hn
    exact ⟨g1, h1, by rw [g2]; exact h2⟩

variable {E T R : Type}

/-- The program as a function of what is asked. -/
theorem main_eq (W : World E T R) (o : Options) (hn : o.Named) :
    mainProgram W o =
      if o.version then .version
      else if (asked o).1 = .none ∨ o.help = true then .usage
      else if (o.ascii && o.binary) || (o.signal && o.event) then .fail 1
      else match (asked o).1 with
        | .none => .usage
        | .both => .fail 1
        | .expression e => match W.parse e with
          | .error x => .died x
          | .ok none => .fail 2
          | .ok (some e) => match (if o.signal then W.signalTA e else W.eventTA e) with
            | .ok A => matchInput W (takePositional o) o.binary A
            | .error x => .died x
        | .file f => if o.signal then .fail 1 else match W.loadTA f with
          | .ok A => matchInput W (takePositional o) o.binary A
          | .error x => .died x := by
  obtain ⟨h1, h2, h3, h4, h5, h6, h7, -⟩ := foldl_flags o o.positional
  change (takePositional o).help = _ at h1
  change (takePositional o).version = _ at h3
  change (takePositional o).ascii = _ at h4
  change (takePositional o).binary = _ at h5
  change (takePositional o).event = _ at h6
  change (takePositional o).signal = _ at h7
  obtain ⟨-, hp⟩ := takePositional_asked o hn
  unfold mainProgram readPattern
  simp only [h1, h3, h4, h5, h6, h7]
  cases hs : (asked o).1 with
  | none =>
    rw [hs] at hp
    simp [hp.1, hp.2]
  | expression e =>
    rw [hs] at hp
    have : e.isEmpty = false := by
      cases h : e.isEmpty
      · rfl
      · exact absurd ((isEmpty_iff_eq _).1 h) hp.2.2
    simp [hp.1, hp.2.1, this]
    rfl
  | file f =>
    rw [hs] at hp
    have : f.isEmpty = false := by
      cases h : f.isEmpty
      · rfl
      · exact absurd ((isEmpty_iff_eq _).1 h) hp.2.1
    simp [hp.1, hp.2.2, this]
    rfl
  | both =>
    rw [hs] at hp
    have e1 : (takePositional o).automaton.isEmpty = false := by
      cases h : (takePositional o).automaton.isEmpty
      · rfl
      · exact absurd ((isEmpty_iff_eq _).1 h) hp.1
    have e2 : (takePositional o).expression.isEmpty = false := by
      cases h : (takePositional o).expression.isEmpty
      · rfl
      · exact absurd ((isEmpty_iff_eq _).1 h) hp.2
    simp [e1, e2]

end Verif
