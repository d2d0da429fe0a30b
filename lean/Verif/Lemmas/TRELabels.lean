import Verif.Lemmas.TRELate
import Verif.Lemmas.Parser

/-!
# The labels of the automaton of an expression are its letters
-/

namespace Verif

namespace TA

/-- The labels of the transitions of the states of `A` satisfy `P`. -/
def LabelsIn (P : Alphabet → Prop) (A : TA Nat) : Prop := ∀ s ∈ A.states, ∀ a, ∀ _t ∈ A.edges s a, P a

variable {P : Alphabet → Prop}

theorem LabelsIn.finish {A : TA Nat} (hw : A.Wf) (h : A.LabelsIn P) : A.finish.LabelsIn P := by
  obtain ⟨-, hf⟩ := finish_from hw
  intro s hs a t ht
  obtain ⟨hs', hf⟩ := hf s hs
  obtain ⟨t', ht', -⟩ := hf a t ht
  exact h s hs' a t' ht'

theorem LabelsIn.congr {A : TA Nat} (h : A.LabelsIn P) {st : Nat → TAState Nat} (hst : ∀ s ∈ A.states, st s = A.st s) :
    ({ A with st := st } : TA Nat).LabelsIn P := by
  intro s hs a t ht
  simp only [edges, hst s hs] at ht
  exact h s hs a t ht

section two
variable {L R : TA Nat} (hst : L.st = R.st) (hL : L.Wf) (hR : R.Wf) (hd : ∀ s ∈ L.states, s ∉ R.states)
include hst hL hR hd

theorem LabelsIn.concat (h1 : L.LabelsIn P) (h2 : R.LabelsIn P) : (L.concat2 R).LabelsIn P := by
  intro s hs a t ht
  by_cases hsL : s ∈ L.states
  · rw [concat2_edges_left hst hL hR hd hsL, mem_concatEdges hst hL hR hd] at ht
    rcases ht with ht | ⟨e', he', -⟩
    · exact h1 s hsL a t ht
    · exact h1 s hsL a e' he'
  · have hsR : s ∈ R.states := (List.mem_append.1 hs).resolve_left hsL
    rw [concat2_edges_right hst hL hR hd hsL] at ht
    exact h2 s hsR a t ht

omit hL hR hd in
theorem LabelsIn.disj (h1 : L.LabelsIn P) (h2 : R.LabelsIn P) : (L.disjTA R).LabelsIn P := by
  intro s hs a t ht
  have ht' : t ∈ (R.st s).next.at' a := ht
  rcases List.mem_append.1 hs with hs | hs
  · rw [← hst] at ht'
    exact h1 s hs a t ht'
  · exact h2 s hs a t ht'

end two

theorem LabelsIn.conj {L R : TA Nat} (hL : L.Wf) (hR : R.Wf) {alloc : Nat → Nat} (hinj : Function.Injective alloc)
    (h1 : L.LabelsIn P) (k : Nat) (heap : Nat → TAState Nat) : ((L.intersection R).place alloc k heap).LabelsIn P := by
  intro s hs a t ht
  obtain ⟨⟨s1, s2⟩, hp, rfl⟩ := List.mem_map.1 hs
  rw [place_edges hinj hp] at ht
  obtain ⟨t', ht', rfl⟩ := List.mem_map.1 ht
  obtain ⟨e1, he1, -⟩ := (mem_conj_edges hL hR hp).1 ht'
  exact h1 s1 (mem_product.1 hp).1 a e1 he1

theorem LabelsIn.plus {A : TA Nat} (h : A.LabelsIn P) : A.plusTA.LabelsIn P := by
  intro s (hs : s ∈ A.states) a t ht
  rw [plus_edges hs, mem_plusEdges] at ht
  rcases ht with ht | ⟨e', he', -⟩
  · exact h s hs a t ht
  · exact h s hs a e' he'

theorem epsilonTA_wf (alloc : Nat → Nat) (heap : Nat → TAState Nat) (k : Nat) : (TA.epsilonTA alloc k heap).Wf := by
  have hst0 : (TA.epsilonTA alloc k heap).st (alloc k) = ⟨true, true, []⟩ := by simp [TA.epsilonTA]
  have hmem : ∀ s, s ∈ (TA.epsilonTA alloc k heap).states ↔ s = alloc k := fun s => by simp [TA.epsilonTA]
  have he0 : ∀ s ∈ (TA.epsilonTA alloc k heap).states, ∀ a, (TA.epsilonTA alloc k heap).edges s a = [] := by
    intro s hs a; rw [(hmem s).1 hs, TA.edges, hst0, Next.at'_nil]
  refine ⟨?_, ?_, ?_, ?_, ?_, ?_, ?_, ?_, ?_, ?_⟩
  · simp [TA.epsilonTA]
  · simp [TA.epsilonTA]
  · intro s hs; rw [(hmem s).1 hs]; simp [hst0]
  · intro s hs; rw [(hmem s).1 hs]; simp [hst0]
  · intro s hs a e he; rw [he0 s hs] at he; simp at he
  · intro s hs a e he; rw [he0 s hs] at he; simp at he
  · intro s hs a e he; rw [he0 s hs] at he; simp at he
  · intro s hs; exact he0 s hs _
  · intro s hs _; rw [(hmem s).1 hs]; simp [hst0]
  · intro s hs _; rw [(hmem s).1 hs]; simp [hst0]

end TA

variable {K : Type} [Field K] [LinearOrder K] [IsStrictOrderedRing K] [FloorRing K]

theorem TRE.toEventTA_labels {alloc : Nat → Nat} (hinj : Function.Injective alloc) {P : Alphabet → Prop} (e : TRE K) (he : e.Plain)
    (hP : e.LettersIn P) (heap : Nat → TAState Nat) (k : Nat) :
    ∃ A k', e.toEventTA alloc heap k = .ok (A, k') ∧ TransOk alloc heap k k' e A ∧ A.LabelsIn P := by
  induction e generalizing heap k with
  | atom c =>
    have hok := TransOk.atom (K := K) hinj heap k he
    have hne : alloc (k + 1) ≠ alloc k := fun h => by have := hinj h; omega
    refine ⟨_, _, rfl, hok, TA.LabelsIn.finish (TA.atomTA_wf hinj heap k he) ?_⟩
    intro s hs a e he
    simp only [TA.atomTA, List.mem_cons, List.not_mem_nil, or_false] at hs
    rcases hs with rfl | rfl
    · simp only [TA.edges, TA.atomTA, if_true, Next.at'_cons, Next.at'_nil] at he
      split at he
      · rename_i h
        exact h ▸ hP
      · simp at he
    · simp only [TA.edges, TA.atomTA, if_true, if_neg hne, Next.at'_nil] at he
      cases he
  | epsilon =>
    refine ⟨_, _, rfl, TransOk.epsilon alloc heap k, TA.LabelsIn.finish (TA.epsilonTA_wf alloc heap k) ?_⟩
    intro s hs a t ht
    simp only [TA.epsilonTA, List.mem_singleton] at hs
    subst hs
    simp [TA.edges, TA.epsilonTA, Next.at'_nil] at ht
  | plus e ih =>
    obtain ⟨A, k1, h1, hA, lA⟩ := ih he hP heap k
    have hn : A.clockSize ≤ 256 := by rw [hA.clocks]; exact TRE.Plain.clocks (e := e) he
    exact ⟨_, _, by simp only [toEventTA, h1]; rfl, hA.plus he, TA.LabelsIn.finish (TA.plus_wf hA.wf hn) lA.plus⟩
  | concat e f ih1 ih2 =>
    obtain ⟨A, k1, h1, hA, lA⟩ := ih1 he.1 hP.1 heap k
    obtain ⟨B, k2, h2, hB, lB⟩ := ih2 he.2 hP.2 A.st k1
    have hkeep := two_keep hinj hA hB
    have hd := two_disjoint hinj hA hB
    have hw := two_wf hinj hA hB
    have hss : ({ A with st := B.st } : TA Nat).st = B.st := rfl
    have heq : A.concat2 B = ({ A with st := B.st } : TA Nat).concat2 B := rfl
    have hn : B.clockSize ≤ 256 := by rw [hB.clocks]; exact he.2.clocks
    refine ⟨_, _, by simp only [toEventTA, h1, bind, Except.bind, h2]; rfl, TransOk.concat hinj hA hB he.1 he.2, ?_⟩
    rw [heq]
    exact TA.LabelsIn.finish (TA.concat2_wf hss hw hB.wf hd hn) (TA.LabelsIn.concat hss hw hB.wf hd (lA.congr hkeep) lB)
  | disj e f ih1 ih2 =>
    obtain ⟨A, k1, h1, hA, lA⟩ := ih1 he.1 hP.1 heap k
    obtain ⟨B, k2, h2, hB, lB⟩ := ih2 he.2 hP.2 A.st k1
    have hkeep := two_keep hinj hA hB
    have hd := two_disjoint hinj hA hB
    have hw := two_wf hinj hA hB
    have hss : ({ A with st := B.st } : TA Nat).st = B.st := rfl
    have heq : A.disjTA B = ({ A with st := B.st } : TA Nat).disjTA B := rfl
    refine ⟨_, _, by simp only [toEventTA, h1, bind, Except.bind, h2]; rfl, TransOk.disj hinj hA hB, ?_⟩
    rw [heq]
    exact TA.LabelsIn.finish (TA.disj_wf hss hw hB.wf hd) (TA.LabelsIn.disj hss (lA.congr hkeep) lB)
  | conj e f ih1 ih2 =>
    obtain ⟨A, k1, h1, hA, lA⟩ := ih1 he.1 hP.1 heap k
    obtain ⟨B, k2, h2, hB, lB⟩ := ih2 he.2.1 hP.2 A.st k1
    have hkeep := two_keep hinj hA hB
    have hw := two_wf hinj hA hB
    have hn : ({ A with st := B.st } : TA Nat).clockSize + B.clockSize ≤ 256 := by
      have h3 : ({ A with st := B.st } : TA Nat).clockSize = e.clocks := hA.clocks
      rw [h3, hB.clocks]
      exact he.2.2
    refine ⟨_, _, by simp only [toEventTA, h1, bind, Except.bind, h2]; rfl, TransOk.conj hinj hA hB he.2.2, ?_⟩
    exact TA.LabelsIn.finish (TA.conj_wf hw hB.wf hn hinj _ _) (TA.LabelsIn.conj hw hB.wf hinj (lA.congr hkeep) _ _)
  | within e I ih =>
    obtain ⟨A, k1, h1, hA, lA⟩ := ih he.1 hP heap k
    obtain ⟨B, h2, hB⟩ := hA.within he
    refine ⟨_, _, by simp only [toEventTA, h1, bind, Except.bind, h2]; rfl, hB, ?_⟩
    obtain ⟨_, hn, ⟨l, ls, hl⟩, ⟨u, us, hu⟩⟩ := he
    have hn' : A.clockSize < 256 := by rw [hA.clocks]; exact hn
    have := TA.within_eq hA.wf hl hu
    rw [h2] at this
    cases this
    refine TA.LabelsIn.finish (TA.restrict_wf hA.wf _ ?_) ?_
    · intro c hc
      simp only [TA.withinGuard, List.mem_cons, List.not_mem_nil, or_false] at hc
      rcases hc with rfl | rfl <;> simp [Nat.mod_eq_of_lt hn']
    · intro s (hs : s ∈ A.states) a t ht
      rw [TA.restrict_edges _ hs] at ht
      obtain ⟨t', ht', rfl⟩ := List.mem_map.1 ht
      exact lA s hs a t' ht'

end Verif
