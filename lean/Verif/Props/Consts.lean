import Verif.Lemmas.TREConsts
import Verif.Props.TRE
import Verif.Props.IntersectionSignal

/-!
# C87: maximal constants
-/

set_option linter.unusedSectionVars false

namespace Verif.Props

open Verif

variable {K : Type} [Field K] [LinearOrder K] [IsStrictOrderedRing K] [FloorRing K]

/-- `a%(5,3)`. -/
def reversed : TRE ℚ := .within litA (Interval.openI 5 3)

/-- **C87 is false** for time restrictions with the ends in the wrong order: the automaton of `a%(5,3)` compares its clock to 5,
but its maximal constant is 3. -/
theorem eventTA_consts_wrong :
    reversed.Plain ∧ ∃ A, reversed.eventTA up = .ok A ∧ ¬ A.ConstsCovered := by
  have hp : reversed.Plain := ⟨litA_plain, by decide, openI_int 5 3⟩
  obtain ⟨A, k, hA, -⟩ := eventTA_spec up_inj hp
  refine ⟨hp, _, hA, fun h => ?_⟩
  have key : (reversed.eventTA up).toOption.any (fun A => A.states.any fun s =>
      (A.edges s 97).any fun t => t.guard.any fun g => decide (A.maxC.getD g.x 0 < g.c)) = true := by decide +kernel
  rw [hA] at key
  simp only [Except.toOption, Option.any_some, List.any_eq_true, decide_eq_true_eq] at key
  obtain ⟨s, hs, t, ht, g, hg, hlt⟩ := key
  exact absurd (h s hs 97 t ht g hg) (by omega)

/-- **C87, what holds for expressions** (`_partial`: the ends of time restrictions are in order). -/
theorem eventTA_consts_partial (alloc : Nat → Nat) (hinj : Function.Injective alloc) (e : TRE K) (he : e.Plain) (ho : e.EndsInOrder) :
    ∃ A, e.eventTA alloc = .ok A ∧ A.ConstsCovered := by
  obtain ⟨A, k, h, hok, hc⟩ := e.toEventTA_covered hinj he ho (fun _ => ⟨false, false, []⟩) 0
  refine ⟨A.owned, by rw [TRE.eventTA, h]; rfl, fun s (hs : s ∈ A.states) a t ht => ?_⟩
  rw [owned_edges hs] at ht
  exact hc s hs a t ht

theorem burst_ordered : burst.EndsInOrder := by
  refine ⟨⟨trivial, trivial, trivial⟩, fun l ls u us hl hu => ?_⟩
  simp only [Interval.openI, Bnd.fin.injEq] at hl hu
  rw [← hl.1, ← hu.1]
  norm_num

example : burst.Plain ∧ burst.EndsInOrder ∧ ∃ A, burst.eventTA down = .ok A ∧ A.maxC = [4] ∧
    ∃ s ∈ A.states, ∃ t ∈ A.edges s 97, ∃ g ∈ t.guard, g.x = 0 ∧ g.c = 4 := by
  obtain ⟨A, k, hA, -⟩ := eventTA_spec down_inj burst_plain
  refine ⟨burst_plain, burst_ordered, A.owned, hA, ?_⟩
  have key : (burst.eventTA down).toOption.any (fun A => decide (A.maxC = [4]) && A.states.any fun s =>
      (A.edges s 97).any fun t => t.guard.any fun g => decide (g.x = 0 ∧ g.c = 4)) = true := by decide +kernel
  rw [hA] at key
  simpa only [Except.toOption, Option.any_some, List.any_eq_true, decide_eq_true_eq, Bool.and_eq_true] using key

section product
variable {S T : Type} [DecidableEq S] [DecidableEq T]

/-- **C87 for products.** -/
theorem product_consts (A : TA S) (B : TA T) (hA : A.MapOk) (hcA : A.ClocksDeclared) (hcB : B.ClocksDeclared)
    (hn : A.clockSize + B.clockSize ≤ 256) (h1 : A.ConstsCovered) (h2 : B.ConstsCovered) :
    (A.intersection B).ConstsCovered ∧ (A.intersectionSignal B).ConstsCovered :=
  ⟨h1.intersection hA hcA hcB hn h2, h1.intersectionSignal hA hcA hcB hn h2⟩

/-- The product of signal automata is again declared and closed (as `intersection_wellFormed` for events). -/
theorem signalProduct_wellFormed (A : TA S) (B : TA T) (hA : A.MapOk) (hcA : A.ClocksDeclared) (hcB : B.ClocksDeclared)
    (hlA : A.Closed) (hlB : B.Closed) (hn : A.clockSize + B.clockSize ≤ 256) :
    (A.intersectionSignal B).ClocksDeclared ∧ (A.intersectionSignal B).Closed := by
  have hsize : (A.intersectionSignal B).clockSize = A.clockSize + B.clockSize := by
    simp [TA.intersectionSignal, TA.clockSize]
  constructor
  · rintro ⟨s1, s2⟩ a e he
    rw [hsize]
    have aux : ∀ (r1 r2 : List Nat) (g1 g2 : List Constraint) (t : Option (S × T)),
        (∀ g ∈ g1, g.x < A.clockSize) → (∀ x ∈ r1, x < A.clockSize) →
        (∀ g ∈ g2, g.x < B.clockSize) → (∀ x ∈ r2, x < B.clockSize) →
        (∀ g ∈ (TA.productTransition A.clockSize t r1 g1 r2 g2).guard, g.x < A.clockSize + B.clockSize) ∧
        ∀ x ∈ (TA.productTransition A.clockSize t r1 g1 r2 g2).resets, x < A.clockSize + B.clockSize := by
      intro r1 r2 g1 g2 t h1 h2 h3 h4
      simp only [TA.productTransition, List.mem_append, List.mem_map]
      constructor
      · rintro g (hg | ⟨g', hg', rfl⟩)
        · have := h1 g hg; omega
        · have := h3 g' hg'; simp only [TA.shiftClock_eq hn this]; omega
      · rintro x (hx | ⟨x', hx', rfl⟩)
        · have := h2 x hx; omega
        · have := h4 x' hx'; rw [TA.shiftClock_eq hn this]; omega
    rcases TA.signalEdge_cases hA he with ⟨a, e1, he1, e2, he2, q, rfl⟩ | ⟨a, e1, he1, q, rfl⟩ | ⟨a, e2, he2, q, rfl⟩
    · exact aux _ _ _ _ _ (hcA _ _ _ he1).1 (hcA _ _ _ he1).2 (hcB _ _ _ he2).1 (hcB _ _ _ he2).2
    · exact aux _ _ _ _ _ (hcA _ _ _ he1).1 (hcA _ _ _ he1).2 (by simp) (by simp)
    · exact aux _ _ _ _ _ (by simp) (by simp) (hcB _ _ _ he2).1 (hcB _ _ _ he2).2
  · constructor
    · intro p hp
      obtain ⟨h1, h2, h3⟩ := mem_productStates.1 hp
      exact mem_productStates.2 ⟨hlA.1 _ h1, hlB.1 _ h2, h3⟩
    · rintro ⟨s1, s2⟩ _ a e he q hq
      have hsome : ∃ p, TA.toIState A B p = some q := by
        rcases TA.signalEdge_cases hA he with ⟨_, e1, _, e2, _, p, rfl⟩ | ⟨_, e1, _, p, rfl⟩ | ⟨_, e2, _, p, rfl⟩ <;> exact ⟨_, hq⟩
      obtain ⟨p, hp⟩ := hsome
      have e' := TA.toIState_eq hp
      subst e'
      simp only [TA.toIState] at hp
      split at hp
      · exact mem_productStates.2 (by assumption)
      · simp at hp

end product

/-- Two automata with the maximal constants 7 and 2. -/
def sevenTA : TA Nat := pathTA [7] [[(97, [⟨some 1, [], [⟨0, .le, 7⟩]⟩])]]
def twoTA : TA Nat := pathTA [2] [[(97, [⟨some 1, [], [⟨0, .ge, 2⟩]⟩])]]

example : sevenTA.MapOk ∧ twoTA.MapOk ∧ sevenTA.ClocksDeclared ∧ twoTA.ClocksDeclared ∧ sevenTA.Closed ∧ twoTA.Closed ∧
    sevenTA.ConstsCovered ∧ twoTA.ConstsCovered ∧
    ((sevenTA.intersectionSignal twoTA).edges (0, 0) 97).any (fun t => t.guard.any fun g => decide (g = ⟨1, .ge, 2⟩)) = true := by
  obtain ⟨a1, a2, a3, a4, a5⟩ := pathTA_ok [7] [[(97, [⟨some 1, [], [⟨0, .le, 7⟩]⟩])]] (by decide)
  obtain ⟨b1, b2, b3, b4, b5⟩ := pathTA_ok [2] [[(97, [⟨some 1, [], [⟨0, .ge, 2⟩]⟩])]] (by decide)
  refine ⟨a1, b1, a3, b3, a4, b4, ?_, ?_, by decide +kernel⟩
  · intro s hs a e he g hg
    have hm := TA.entry_of_edge he
    have hs : s ∈ [0, 1] := hs
    simp only [List.mem_cons, List.not_mem_nil, or_false] at hs
    rcases hs with rfl | rfl
    · have := (by decide +kernel : ∀ l ∈ (sevenTA.st 0).next, ∀ e ∈ l.2, ∀ g ∈ e.guard, g.c ≤ sevenTA.maxC.getD g.x 0)
      exact this _ hm e he g hg
    · cases hm
  · intro s hs a e he g hg
    have hm := TA.entry_of_edge he
    have hs : s ∈ [0, 1] := hs
    simp only [List.mem_cons, List.not_mem_nil, or_false] at hs
    rcases hs with rfl | rfl
    · have := (by decide +kernel : ∀ l ∈ (twoTA.st 0).next, ∀ e ∈ l.2, ∀ g ∈ e.guard, g.c ≤ twoTA.maxC.getD g.x 0)
      exact this _ hm e he g hg
    · cases hm

end Verif.Props
