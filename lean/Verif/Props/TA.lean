import Verif.Lemmas.Intersection
import Mathlib.Data.Rat.Floor
import Mathlib.Tactic.NormNum

/-!
# Properties of timed automata (C29, C30)
-/

set_option linter.unusedSectionVars false

namespace Verif.Props

variable {S T K : Type} [Field K] [LinearOrder K] [IsStrictOrderedRing K]

/-- **C29.** If all clocks are declared, `isMember` terminates without undefined behaviour and returns
true exactly if some run from an initial state reads the word, one transition per event, and ends in an
accepting state.  The word is arbitrary (times need not be ordered). -/
theorem isMember_iff (A : TA S) (hA : A.ClocksDeclared) (w : TWord K) :
    ∃ b, A.isMember w = .ok b ∧ (b = true ↔ A.Accepts w) := TA.isMember_spec hA w

/-- **C29**, automata without silent transitions: `isMember` decides acceptance in the semantics with
silent moves, on words with non-decreasing non-negative times. -/
theorem isMember_iff_silent (A : TA S) (hA : A.ClocksDeclared) (hε : ∀ s, A.edges s epsilon = [])
    (w : TWord K) (hw : ∀ p ∈ w, p.1 ≠ epsilon) (hmon : List.IsChain (· ≤ ·) (0 :: w.map (·.2))) :
    ∃ b, A.isMember w = .ok b ∧ (b = true ↔ A.SAccepts w) := by
  obtain ⟨b, hb, h⟩ := TA.isMember_spec hA w
  refine ⟨b, hb, h.trans ?_⟩
  simp only [TA.Accepts, TA.AcceptsFrom, TA.SAccepts]
  constructor
  · rintro ⟨s, hs, s', hr, hm⟩
    exact ⟨s, hs, s', (TA.sreads_iff_reads hε).2 ⟨hr, hw, hmon⟩, hm⟩
  · rintro ⟨s, hs, s', hr, hm⟩
    exact ⟨s, hs, s', ((TA.sreads_iff_reads hε).1 hr).1, hm⟩

/-- A small automaton: `0 -a{x0>1}/x0:=0→ 1 -b{x0≤2, x1<5}→ 2`, state 2 accepting. -/
def sampleTA : TA Nat :=
  { states := [0, 1, 2], init := [0]
    st := fun s =>
      if s = 0 then ⟨false, false, [(97, [⟨some 1, [0], [⟨0, .gt, 1⟩]⟩])]⟩
      else if s = 1 then ⟨false, false, [(98, [⟨some 2, [], [⟨0, .le, 2⟩, ⟨1, .lt, 5⟩]⟩])]⟩
      else if s = 2 then ⟨true, false, []⟩
      else ⟨false, false, []⟩
    maxC := [2, 5] }

theorem sampleTA_edges (s : Nat) (a : Alphabet) (e : Transition Nat) (he : e ∈ sampleTA.edges s a) :
    (s = 0 ∧ a = 97 ∧ e = ⟨some 1, [0], [⟨0, .gt, 1⟩]⟩) ∨
    (s = 1 ∧ a = 98 ∧ e = ⟨some 2, [], [⟨0, .le, 2⟩, ⟨1, .lt, 5⟩]⟩) := by
  simp only [TA.edges, sampleTA] at he
  split_ifs at he with h0 h1 h2
  · simp only [Next.at'_cons, Next.at'_nil] at he
    split_ifs at he with ha
    · simp only [List.mem_singleton] at he; exact Or.inl ⟨h0, ha.symm, he⟩
    · simp at he
  · simp only [Next.at'_cons, Next.at'_nil] at he
    split_ifs at he with ha
    · simp only [List.mem_singleton] at he; exact Or.inr ⟨h1, ha.symm, he⟩
    · simp at he
  · simp [Next.at'_nil] at he
  · simp [Next.at'_nil] at he

theorem sampleTA_declared : sampleTA.ClocksDeclared := by
  intro s a e he
  rcases sampleTA_edges s a e he with ⟨_, _, rfl⟩ | ⟨_, _, rfl⟩ <;> simp [sampleTA, TA.clockSize]

/-- Both answers occur for `sampleTA`. -/
example : sampleTA.ClocksDeclared ∧ sampleTA.isMember [(97, (3 / 2 : ℚ)), (98, 3)] = .ok true ∧
    sampleTA.isMember [(97, (3 / 2 : ℚ)), (98, 4)] = .ok false :=
  ⟨sampleTA_declared, by decide +kernel, by decide +kernel⟩

/-- The precondition is needed: an undeclared clock is an out-of-bounds access. -/
example : ({ sampleTA with maxC := [2] } : TA Nat).isMember [(97, (3 / 2 : ℚ)), (98, 3)] = .error .ub := by
  decide +kernel

/-! ## C30 -/

section product
variable [DecidableEq S] [DecidableEq T]

theorem mem_productStates {A : TA S} {B : TA T} {l1 : List S} {l2 : List T} {p : S × T} :
    p ∈ TA.productStates A B l1 l2 ↔
      p.1 ∈ l1 ∧ p.2 ∈ l2 ∧ (A.st p.1).zeroDuration = (B.st p.2).zeroDuration := by
  obtain ⟨s, t⟩ := p
  simp only [TA.productStates, List.mem_flatMap]
  constructor
  · rintro ⟨s1, h1, s2, h2, h⟩
    split at h
    · simp only [List.mem_singleton, Prod.mk.injEq] at h
      obtain ⟨rfl, rfl⟩ := h
      exact ⟨h1, h2, by assumption⟩
    · simp at h
  · rintro ⟨h1, h2, h⟩
    exact ⟨s, h1, t, h2, by simp [h]⟩

/-- **C30, what holds** (`_partial`: needs that the `zeroDuration` flag is used uniformly and that the
number of clocks fits in a `uint8_t`; see `intersection_wrong`).  The product accepts exactly the words
accepted by both automata, with silent moves. -/
theorem intersection_silent_partial (A : TA S) (B : TA T) (hA : A.MapOk) (hcA : A.ClocksDeclared)
    (hcB : B.ClocksDeclared) (hlA : A.Closed) (hlB : B.Closed) (hf : A.SameFlag B)
    (hn : A.clockSize + B.clockSize ≤ 256) (w : TWord K) :
    (A.intersection B).SAccepts w ↔ A.SAccepts w ∧ B.SAccepts w := by
  constructor
  · rintro ⟨p, hp, p', hr, hm⟩
    have hp := mem_productStates.1 hp
    obtain ⟨h1, h2⟩ := TA.sreads_intersection_fwd hA hcA hcB hn (r1 := fun _ => 0) (r2 := fun _ => 0)
      ⟨fun _ _ => rfl, fun _ _ => rfl⟩ hr
    simp only [TA.intersection, Bool.and_eq_true] at hm
    exact ⟨⟨p.1, hp.1, p'.1, h1, hm.1⟩, ⟨p.2, hp.2.1, p'.2, h2, hm.2⟩⟩
  · rintro ⟨⟨s1, hs1, s1', h1, m1⟩, ⟨s2, hs2, s2', h2, m2⟩⟩
    have hs1' := hlA.1 s1 hs1
    have hs2' := hlB.1 s2 hs2
    refine ⟨(s1, s2), mem_productStates.2 ⟨hs1, hs2, ?_⟩, (s1', s2'), ?_, ?_⟩
    · obtain ⟨b, hb1, hb2⟩ := hf; simp only; rw [hb1 s1 hs1', hb2 s2 hs2']
    · exact TA.sreads_intersection_bwd hA hcA hcB hn hf hlA hlB h1 hs1' le_rfl le_rfl hs2'
        ⟨fun _ _ => rfl, fun _ _ => rfl⟩ h2
    · simp [TA.intersection, m1, m2]

/-- **C30, what holds** (`_partial`), for runs without silent moves (the semantics of `isMember`). -/
theorem intersection_partial (A : TA S) (B : TA T) (hA : A.MapOk) (hcA : A.ClocksDeclared)
    (hcB : B.ClocksDeclared) (hlA : A.Closed) (hlB : B.Closed) (hf : A.SameFlag B)
    (hn : A.clockSize + B.clockSize ≤ 256) (w : TWord K) (hw : ∀ p ∈ w, p.1 ≠ epsilon) :
    (A.intersection B).Accepts w ↔ A.Accepts w ∧ B.Accepts w := by
  constructor
  · rintro ⟨p, hp, p', hr, hm⟩
    have hp := mem_productStates.1 hp
    obtain ⟨h1, h2⟩ := TA.reads_intersection_fwd hA hcA hcB hn hw (r1 := fun _ => 0) (r2 := fun _ => 0)
      (r := fun _ => 0) ⟨fun _ _ => rfl, fun _ _ => rfl⟩ (s1 := p.1) (s2 := p.2) hr
    simp only [TA.intersection, Bool.and_eq_true] at hm
    exact ⟨⟨p.1, hp.1, p'.1, h1, hm.1⟩, ⟨p.2, hp.2.1, p'.2, h2, hm.2⟩⟩
  · rintro ⟨⟨s1, hs1, s1', h1, m1⟩, ⟨s2, hs2, s2', h2, m2⟩⟩
    have hs1' := hlA.1 s1 hs1
    have hs2' := hlB.1 s2 hs2
    refine ⟨(s1, s2), mem_productStates.2 ⟨hs1, hs2, ?_⟩, (s1', s2'), ?_, ?_⟩
    · obtain ⟨b, hb1, hb2⟩ := hf; simp only; rw [hb1 s1 hs1', hb2 s2 hs2']
    · exact TA.reads_intersection_bwd hA hcA hcB hn hf hlA hlB hs1' hs2'
        ⟨fun _ _ => rfl, fun _ _ => rfl⟩ h1 h2
    · simp [TA.intersection, m1, m2]

/-- The product of declared, closed automata is again declared and closed (so it can be matched,
complemented with another product, or tested with `isMember`). -/
theorem intersection_wellFormed (A : TA S) (B : TA T) (hA : A.MapOk) (hcA : A.ClocksDeclared)
    (hcB : B.ClocksDeclared) (hlA : A.Closed) (hlB : B.Closed)
    (hn : A.clockSize + B.clockSize ≤ 256) :
    (A.intersection B).ClocksDeclared ∧ (A.intersection B).Closed := by
  have hsize : (A.intersection B).clockSize = A.clockSize + B.clockSize := by
    simp [TA.intersection, TA.clockSize]
  constructor
  · rintro ⟨s1, s2⟩ a e he
    rw [hsize]
    obtain ⟨_, he⟩ := (TA.mem_edges_intersection hA).1 he
    have aux : ∀ (r1 r2 : List Nat) (g1 g2 : List Constraint) (t : Option (S × T)),
        (∀ g ∈ g1, g.x < A.clockSize) → (∀ x ∈ r1, x < A.clockSize) →
        (∀ g ∈ g2, g.x < B.clockSize) → (∀ x ∈ r2, x < B.clockSize) →
        (∀ g ∈ (TA.productTransition A.clockSize t r1 g1 r2 g2).guard, g.x < A.clockSize + B.clockSize) ∧
        ∀ x ∈ (TA.productTransition A.clockSize t r1 g1 r2 g2).resets, x < A.clockSize + B.clockSize := by
      intro r1 r2 g1 g2 t h1 h2 h3 h4
      simp only [TA.productTransition, List.mem_append, List.mem_map]
      constructor
      · rintro g (hg | ⟨g', hg', rfl⟩)
        · have := h1 g hg; omega
        · have := h3 g' hg'; simp only [TA.shiftClock_eq hn this]; omega
      · rintro x (hx | ⟨x', hx', rfl⟩)
        · have := h2 x hx; omega
        · have := h4 x' hx'; rw [TA.shiftClock_eq hn this]; omega
    rcases he with ⟨_, e1, he1, q1, _, rfl⟩ | ⟨_, e2, he2, q2, _, rfl⟩ | ⟨e1, he1, e2, he2, q1, q2, _, _, rfl⟩
    · exact aux _ _ _ _ _ (hcA _ _ _ he1).1 (hcA _ _ _ he1).2 (by simp) (by simp)
    · exact aux _ _ _ _ _ (by simp) (by simp) (hcB _ _ _ he2).1 (hcB _ _ _ he2).2
    · exact aux _ _ _ _ _ (hcA _ _ _ he1).1 (hcA _ _ _ he1).2 (hcB _ _ _ he2).1 (hcB _ _ _ he2).2
  · constructor
    · intro p hp
      obtain ⟨h1, h2, h3⟩ := mem_productStates.1 hp
      exact mem_productStates.2 ⟨hlA.1 _ h1, hlB.1 _ h2, h3⟩
    · rintro ⟨s1, s2⟩ _ a e he q hq
      obtain ⟨_, he⟩ := (TA.mem_edges_intersection hA).1 he
      have hsome : ∃ p, TA.toIState A B p = some q := by
        rcases he with ⟨_, e1, _, q1, _, rfl⟩ | ⟨_, e2, _, q2, _, rfl⟩ | ⟨e1, _, e2, _, q1, q2, _, _, rfl⟩ <;>
          exact ⟨_, hq⟩
      obtain ⟨p, hp⟩ := hsome
      have e' := TA.toIState_eq hp
      subst e'
      simp only [TA.toIState] at hp
      split at hp
      · exact mem_productStates.2 (by assumption)
      · simp at hp

end product

/-- **C30 is violated** when the flag `zeroDuration` is mixed: both automata below accept the word `a`
at time 1, the product has no initial state.  (Such automata occur in the translation of expressions
with ε.) -/
theorem intersection_wrong :
    ∃ A B : TA Nat, A.MapOk ∧ A.ClocksDeclared ∧ B.ClocksDeclared ∧ A.Closed ∧ B.Closed ∧
      A.isMember [(97, (1 : ℚ))] = .ok true ∧ B.isMember [(97, (1 : ℚ))] = .ok true ∧
      (A.intersection B).isMember [(97, (1 : ℚ))] = .ok false := by
  let B : TA Nat :=
    { states := [0, 1], init := [0]
      st := fun s => if s = 0 then ⟨false, false, [(97, [⟨some 1, [], []⟩])]⟩ else ⟨true, false, []⟩
      maxC := [] }
  let A : TA Nat :=
    { states := [0, 1], init := [0]
      st := fun s => if s = 0 then ⟨false, true, [(97, [⟨some 1, [], []⟩])]⟩ else ⟨true, false, []⟩
      maxC := [] }
  have hd : ∀ b : Bool, ∀ s a, ∀ e ∈ ((if s = 0 then ⟨false, b, [(97, [⟨some 1, [], []⟩])]⟩
      else ⟨true, false, []⟩ : TAState Nat)).next.at' a, e = ⟨some 1, [], []⟩ := by
    intro b s a e he
    split at he
    · simp only [Next.at'_cons, Next.at'_nil] at he
      split at he
      · simpa using he
      · simp at he
    · simp [Next.at'_nil] at he
  refine ⟨A, B, ?_, ?_, ?_, ?_, ?_, by decide +kernel, by decide +kernel, by decide +kernel⟩
  · intro s; by_cases h : s = 0 <;> simp [A, h]
  · intro s a e he; have := hd true s a e he; subst this; simp
  · intro s a e he; have := hd false s a e he; subst this; simp
  · refine ⟨by simp [A], fun s _ a e he q hq => ?_⟩
    have := hd true s a e he; subst this; simp at hq; subst hq; simp [A]
  · refine ⟨by simp [B], fun s _ a e he q hq => ?_⟩
    have := hd false s a e he; subst this; simp at hq; subst hq; simp [B]

/-- The hypotheses of `intersection_partial` are met by `sampleTA` with itself, and the product has the
shifted clocks. -/
example : sampleTA.MapOk ∧ sampleTA.ClocksDeclared ∧ sampleTA.Closed ∧ sampleTA.SameFlag sampleTA ∧
    sampleTA.clockSize + sampleTA.clockSize ≤ 256 ∧
    (sampleTA.intersection sampleTA).edges (1, 1) 98 =
      [⟨some (2, 2), [], [⟨0, .le, 2⟩, ⟨1, .lt, 5⟩, ⟨2, .le, 2⟩, ⟨3, .lt, 5⟩]⟩] := by
  refine ⟨?_, sampleTA_declared, ?_, ⟨false, ?_, ?_⟩, by decide, by decide +kernel⟩
  · intro s
    simp only [sampleTA]
    split_ifs <;> simp
  · refine ⟨by simp [sampleTA], fun s _ a e he q hq => ?_⟩
    rcases sampleTA_edges s a e he with ⟨_, _, rfl⟩ | ⟨_, _, rfl⟩ <;> simp at hq <;> subst hq <;> simp [sampleTA]
  · intro s hs; simp [sampleTA] at hs; rcases hs with rfl | rfl | rfl <;> simp [sampleTA]
  · intro s hs; simp [sampleTA] at hs; rcases hs with rfl | rfl | rfl <;> simp [sampleTA]

end Verif.Props
