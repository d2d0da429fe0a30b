import Verif.Lemmas.DeepCopy
import Mathlib.Data.Rat.Floor

/-!
# Properties of the copy of an automaton (C31)
-/

namespace Verif.Props

variable {K : Type} [Field K] [LinearOrder K]

/-- **C31.** For every closed automaton and every choice of fresh addresses, `deepCopy` returns a closed automaton which
uses only the new addresses, has as many states and the same clocks, and accepts the same timed words from every
starting instant; the states of the original are not changed. -/
theorem deepCopy_independent (alloc : Nat → Nat) (hinj : Function.Injective alloc) (A : TA Nat) (hA : A.Closed)
    (hfresh : ∀ s ∈ A.states, ∀ i, s ≠ alloc i) :
    ∃ B m, deepCopy alloc A = .ok (B, m) ∧
      B.Closed ∧ B.states = (List.range A.states.length).map alloc ∧ (∀ b ∈ B.states, b ∉ A.states) ∧
      B.maxC = A.maxC ∧ (∀ s ∈ A.states, B.st s = A.st s) ∧
      ∀ (t0 : K) (w : TWord K), B.AcceptsFrom t0 w ↔ A.AcceptsFrom t0 w := by
  obtain ⟨B, m, h1, h2, h3⟩ := deepCopy_spec hinj hfresh hA.1
  refine ⟨B, m, h1, ⟨?_, ?_⟩, h3, h2.disjoint, h2.maxC, ?_, accepts_copy h2 hA⟩
  · intro b hb
    obtain ⟨s, -, hs⟩ := (mem_mapM_iff h2.init b).1 hb
    exact h2.mem s b hs
  · intro b hb a e he q hq
    obtain ⟨s, -, -, -, hs⟩ := h2.cover b hb
    unfold TA.edges Next.at' Next.find at he
    rw [hs, List.find?_map] at he
    cases hf : ((A.st s).next.find?
        ((fun p : Alphabet × List (Transition Nat) => p.1 == a) ∘
          fun p : Alphabet × List (Transition Nat) => (p.1, p.2.map (retarget m)))) with
    | none =>
      rw [hf] at he
      simp at he
    | some p =>
      rw [hf] at he
      simp only [Option.map_some, Option.getD_some, List.mem_map] at he
      obtain ⟨e', -, rfl⟩ := he
      simp only [retarget] at hq
      cases ht : e'.target with
      | none => simp [ht] at hq
      | some x =>
        rw [ht] at hq
        exact h2.mem x q hq
  · intro s hs
    exact h2.keeps s fun hb => h2.disjoint s hb hs

/-- `old2new` maps every state to its copy: same flags, and the same transitions with the targets replaced. -/
theorem deepCopy_map (alloc : Nat → Nat) (hinj : Function.Injective alloc) (A : TA Nat) (hA : A.Closed)
    (hfresh : ∀ s ∈ A.states, ∀ i, s ≠ alloc i) (B : TA Nat) (m : Nat → Option Nat)
    (h : deepCopy alloc A = .ok (B, m)) :
    (∀ s, (∃ b, m s = some b) ↔ s ∈ A.states) ∧
    ∀ s b, m s = some b → b ∈ B.states ∧ (B.st b).isMatch = (A.st s).isMatch ∧
      (B.st b).zeroDuration = (A.st s).zeroDuration ∧
      ∀ a, B.edges b a = (A.edges s a).map fun e => { e with target := e.target.bind m } := by
  obtain ⟨B', m', h1, h2, -⟩ := deepCopy_spec hinj hfresh hA.1
  rw [h] at h1
  cases h1
  refine ⟨fun s => by rw [← h2.dom, Option.isSome_iff_exists], fun s b hb => ?_⟩
  exact ⟨h2.mem s b hb, (h2.state s b hb).1, (h2.state s b hb).2.1, fun a => edges_copy h2 hb a⟩

/-- A two-state automaton with a loop and a reset. -/
def copySample : TA Nat where
  states := [3, 8]
  init := [3]
  st s := if s = 3 then ⟨false, false, [(97, [⟨some 3, [0], []⟩, ⟨some 8, [], [⟨0, .le, 5⟩]⟩])]⟩
    else ⟨true, false, []⟩
  maxC := [5]

/-- The hypotheses are met, and the copy is what one expects. -/
example : copySample.Closed ∧ (∀ s ∈ copySample.states, ∀ i, s ≠ 10 + i) ∧
    (deepCopy (10 + ·) copySample).toOption.map (fun p => (p.1.states, p.1.init, p.1.st 10)) =
      some ([10, 11], [10], ⟨false, false, [(97, [⟨some 10, [0], []⟩, ⟨some 11, [], [⟨0, .le, 5⟩]⟩])]⟩) := by
  refine ⟨⟨by simp [copySample], ?_⟩, ?_, by decide +kernel⟩
  · intro s hs a e he q hq
    simp only [TA.edges, Next.at', Next.find, copySample] at he
    split_ifs at he
    · simp only [List.find?_cons, List.find?_nil] at he
      split at he
      · simp at he
        rcases he with rfl | rfl <;> simp at hq <;> subst hq <;> simp [copySample]
      · simp at he
    · simp at he
  · intro s hs i
    simp [copySample] at hs
    omega

end Verif.Props
