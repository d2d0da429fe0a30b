import Verif.Lemmas.TRE
import Verif.Spec.TRELate
import Verif.Spec.Skip

/-!
# Automata of expressions in which only letters are repeated have only plain loops; upper bounds after resets
-/

namespace Verif

namespace TA

/-- `PlainLoops` for the states of `A`. -/
def Ranked (A : TA Nat) : Prop :=
  ∃ r : Nat → Nat, ∀ s ∈ A.states, ∀ a, ∀ t ∈ A.edges s a, ∀ q, t.target = some q →
    r q < r s ∨ (q = s ∧ t.guard = [] ∧ t.resets = [])

/-- All transitions start at the only initial state `x` and have no guards and no resets. -/
structure LoopsAt (A : TA Nat) (x : Nat) : Prop where
  init : ∀ s ∈ A.init, s = x
  edges : ∀ s ∈ A.states, ∀ a, ∀ t ∈ A.edges s a, s = x ∧ t.guard = [] ∧ t.resets = []

/-- `UpperAfterReset` for the states of `A`. -/
def LateTA (A : TA Nat) : Prop :=
  ∃ F : Nat → Nat → Prop, (∀ s ∈ A.init, ∀ x, ¬ F s x) ∧
    ∀ s ∈ A.states, ∀ a, ∀ t ∈ A.edges s a, (∀ g ∈ t.guard, g.IsUpper → F s g.x) ∧
      ∀ q, t.target = some q → ∀ x, F q x → F s x ∨ x ∈ t.resets

/-- The transitions of `A` are those of `A0` after the merge of the accepting states. -/
def FromMerge (A0 A : TA Nat) : Prop :=
  (∀ s ∈ A.init, ∃ i ∈ A0.init, s = rep A0.terminals i) ∧
  ∀ s ∈ A.states, s ∈ A0.states ∧ ∀ a, ∀ t ∈ A.edges s a, ∃ t' ∈ A0.edges s a, t.guard = t'.guard ∧ t.resets = t'.resets ∧
    t.target = t'.target.map (rep A0.terminals)

theorem reduceLoop_from {A0 : TA Nat} (n : Nat) (A : TA Nat) (hw : A.Wf) (h : FromMerge A0 A) : FromMerge A0 (reduceLoop n A) := by
  induction n generalizing A with
  | zero => exact h
  | succ n ih =>
    have h' : FromMerge A0 A.removeStuckStates := by
      refine ⟨fun s hs => h.1 s (stuck_init.1 hs).1, fun s hs => ?_⟩
      have hs' := (stuck_states.1 hs).1
      refine ⟨(h.2 s hs').1, fun a t ht => ?_⟩
      rw [stuck_edges hw hs', List.mem_filter] at ht
      exact (h.2 s hs').2 a t ht.1
    rw [reduceLoop]
    split
    · exact h'
    · exact ih _ hw.removeStuck h'

theorem finish_from {A : TA Nat} (hw : A.Wf) : FromMerge A A.finish := by
  refine reduceLoop_from _ _ hw.merge ⟨fun s hs => (merge_init hw.nodup).1 hs, fun s hs => ⟨merge_states_sub hs, fun a t ht => ?_⟩⟩
  rw [merge_edges (merge_states_sub hs), List.mem_map] at ht
  obtain ⟨t', ht', rfl⟩ := ht
  exact ⟨t', ht', redirect_guard _ _, redirect_resets _ _, redirect_target _ _⟩

theorem not_terminal {A : TA Nat} {s : Nat} {a : Alphabet} {t : Transition Nat} (h : t ∈ A.edges s a) : s ∉ A.terminals := by
  intro hs
  rw [edges_nil (mem_terminals.1 hs).2.2] at h
  cases h

theorem Ranked.finish {A : TA Nat} (hw : A.Wf) (h : A.Ranked) : A.finish.Ranked := by
  obtain ⟨r, hr⟩ := h
  obtain ⟨-, hf⟩ := finish_from hw
  refine ⟨fun s => if s ∈ A.terminals then 0 else r s + 1, fun s hs a t ht q hq => ?_⟩
  obtain ⟨hs', hf⟩ := hf s hs
  obtain ⟨t', ht', h1, h2, htt⟩ := hf a t ht
  rw [hq, eq_comm, Option.map_eq_some_iff] at htt
  obtain ⟨q', hq', rfl⟩ := htt
  simp only
  rw [if_neg (not_terminal ht')]
  by_cases hq2 : q' ∈ A.terminals
  · rw [if_pos (rep_mem hq2)]
    left
    omega
  · have : rep A.terminals q' = q' := by rw [rep, if_neg hq2]
    rw [this, if_neg hq2, h1, h2]
    rcases hr s hs' a t' ht' q' hq' with h | h
    · left
      omega
    · exact Or.inr h

theorem LoopsAt.finish {A : TA Nat} (hw : A.Wf) {x : Nat} (hm : ∀ s ∈ A.init, (A.st s).isMatch = false) (h : A.LoopsAt x) :
    A.finish.LoopsAt x := by
  obtain ⟨hfi, hf⟩ := finish_from hw
  refine ⟨fun s hs => ?_, fun s hs a t ht => ?_⟩
  · obtain ⟨i, hi, rfl⟩ := hfi s hs
    have : i ∉ A.terminals := fun ht => by
      have := (mem_terminals.1 ht).2.1
      rw [hm i hi] at this
      cases this
    rw [rep, if_neg this, h.init i hi]
  · obtain ⟨hs', hf⟩ := hf s hs
    obtain ⟨t', ht', h1, h2, -⟩ := hf a t ht
    rw [h1, h2]
    exact h.edges s hs' a t' ht'

theorem LoopsAt.plus {A : TA Nat} {x : Nat} (hc : A.clockSize = 0) (h : A.LoopsAt x) : A.plusTA.LoopsAt x := by
  refine ⟨h.init, fun s (hs : s ∈ A.states) a t ht => ?_⟩
  rw [plus_edges hs, mem_plusEdges] at ht
  rcases ht with ht | ⟨e, he, q, hq, -, -, i, hi, -, rfl⟩
  · exact h.edges s hs a t ht
  · obtain ⟨h1, h2, h3⟩ := h.edges s hs a e he
    exact ⟨h1, h2, by simp only [h3, hc]; rfl⟩

theorem LoopsAt.ranked {A : TA Nat} {x : Nat} (h : A.LoopsAt x) : A.Ranked := by
  refine ⟨fun s => if s = x then 1 else 0, fun s hs a t ht q hq => ?_⟩
  obtain ⟨rfl, h2, h3⟩ := h.edges s hs a t ht
  by_cases hqs : q = s
  · exact Or.inr ⟨hqs, h2, h3⟩
  · left
    simp [hqs]

theorem LoopsAt.late {A : TA Nat} {x : Nat} (h : A.LoopsAt x) : A.LateTA := by
  refine ⟨fun _ _ => False, fun _ _ _ h => h, fun s hs a t ht => ⟨fun g hg => ?_, fun _ _ _ h => h.elim⟩⟩
  rw [(h.edges s hs a t ht).2.1] at hg
  cases hg

theorem LateTA.finish {A : TA Nat} (hw : A.Wf) (h : A.LateTA) : A.finish.LateTA := by
  obtain ⟨F, hi, hF⟩ := h
  obtain ⟨hfi, hf⟩ := finish_from hw
  refine ⟨fun s x => s ∉ A.terminals ∧ F s x, fun s hs x hx => ?_, fun s hs a t ht => ?_⟩
  · obtain ⟨i, hi', rfl⟩ := hfi s hs
    by_cases h : i ∈ A.terminals
    · exact hx.1 (rep_mem h)
    · rw [rep, if_neg h] at hx
      exact hi i hi' x hx.2
  · obtain ⟨hs', hf⟩ := hf s hs
    obtain ⟨t', ht', h1, h2, htt⟩ := hf a t ht
    obtain ⟨g1, g2⟩ := hF s hs' a t' ht'
    rw [h1, h2]
    refine ⟨fun g hg hu => ⟨not_terminal ht', g1 g hg hu⟩, fun q hq x hx => ?_⟩
    rw [hq, eq_comm, Option.map_eq_some_iff] at htt
    obtain ⟨q', hq', rfl⟩ := htt
    have hq2 : q' ∉ A.terminals := fun h => hx.1 (rep_mem h)
    rw [rep, if_neg hq2] at hx
    rcases g2 q' hq' x hx.2 with h | h
    · exact .inl ⟨not_terminal ht', h⟩
    · exact .inr h

section concat
variable {L R : TA Nat} (hst : L.st = R.st) (hL : L.Wf) (hR : R.Wf) (hd : ∀ s ∈ L.states, s ∉ R.states)
include hst hL hR hd

theorem Ranked.concat (h1 : L.Ranked) (h2 : R.Ranked) : (L.concat2 R).Ranked := by
  obtain ⟨r1, h1⟩ := h1
  obtain ⟨r2, h2⟩ := h2
  have hle : ∀ s ∈ R.states, r2 s ≤ (R.states.map r2).sum := fun s hs => List.single_le_sum (by simp) _ (List.mem_map.2 ⟨s, hs, rfl⟩)
  classical
  refine ⟨fun s => if s ∈ L.states then r1 s + (R.states.map r2).sum + 1 else r2 s, fun s hs a t ht q hq => ?_⟩
  by_cases hsL : s ∈ L.states
  · rw [concat2_edges_left hst hL hR hd hsL, mem_concatEdges hst hL hR hd] at ht
    simp only [if_pos hsL]
    rcases ht with ht | ⟨e', he', q', hq', -, i, hi, rfl⟩
    · rw [if_pos (hL.closed s hsL a t ht q hq)]
      rcases h1 s hsL a t ht q hq with h | h
      · left
        omega
      · exact Or.inr h
    · cases hq
      left
      have hiR := hR.init q hi
      rw [if_neg fun h => hd q h hiR]
      have := hle q hiR
      omega
  · have hsR : s ∈ R.states := (List.mem_append.1 hs).resolve_left hsL
    rw [concat2_edges_right hst hL hR hd hsL] at ht
    simp only [if_neg hsL]
    have hqR := hR.closed s hsR a t ht q hq
    rw [if_neg fun h => hd q h hqR]
    exact h2 s hsR a t ht q hq

theorem LateTA.concat (hn : R.clockSize ≤ 256) (h1 : L.LateTA) (hnull : ∀ s ∈ L.init, (L.st s).isMatch = false) : (L.concat2 R).LateTA := by
  obtain ⟨F, hi, hF⟩ := h1
  have hinit : (L.concat2 R).init = L.init := by
    have : (L.init.any fun s => (R.st s).isMatch) = false := by
      rw [List.any_eq_false]
      intro s hs
      rw [← hst, hnull s hs]
      simp
    simp only [concat2, this]
    simp
  refine ⟨fun s x => s ∈ L.states ∧ F s x ∨ s ∈ R.states ∧ x < R.clockSize, fun s hs x hx => ?_, fun s hs a t ht => ?_⟩
  · rw [hinit] at hs
    rcases hx with hx | hx
    · exact hi s hs x hx.2
    · exact hd s (hL.init s hs) hx.1
  · by_cases hsL : s ∈ L.states
    · rw [concat2_edges_left hst hL hR hd hsL, mem_concatEdges hst hL hR hd] at ht
      rcases ht with ht | ⟨e', he', q', hq', -, i, hi, rfl⟩
      · obtain ⟨g1, g2⟩ := hF s hsL a t ht
        refine ⟨fun g hg hu => .inl ⟨hsL, g1 g hg hu⟩, fun q hq x hx => ?_⟩
        have hqL := hL.closed s hsL a t ht q hq
        rcases hx with hx | hx
        · rcases g2 q hq x hx.2 with h | h
          · exact .inl (.inl ⟨hsL, h⟩)
          · exact .inr h
        · exact absurd hx.1 (hd q hqL)
      · obtain ⟨g1, g2⟩ := hF s hsL a e' he'
        refine ⟨fun g hg hu => .inl ⟨hsL, g1 g hg hu⟩, fun q hq x hx => .inr ?_⟩
        cases hq
        rcases hx with hx | hx
        · exact absurd (hR.init i hi) (hd i hx.1)
        · exact (mem_allClocks hn).2 hx.2
    · have hsR : s ∈ R.states := (List.mem_append.1 hs).resolve_left hsL
      rw [concat2_edges_right hst hL hR hd hsL] at ht
      refine ⟨fun g hg hu => .inr ⟨hsR, hR.guards s hsR a t ht g hg⟩, fun q hq x hx => .inl ?_⟩
      have hqR := hR.closed s hsR a t ht q hq
      rcases hx with hx | hx
      · exact absurd hqR (hd q hx.1)
      · exact .inr ⟨hsR, hx.2⟩

theorem Ranked.disj (h1 : L.Ranked) (h2 : R.Ranked) : (L.disjTA R).Ranked := by
  obtain ⟨r1, h1⟩ := h1
  obtain ⟨r2, h2⟩ := h2
  classical
  refine ⟨fun s => if s ∈ L.states then r1 s else r2 s, fun s hs a t ht q hq => ?_⟩
  have ht' : t ∈ (R.st s).next.at' a := ht
  by_cases hsL : s ∈ L.states
  · rw [← hst] at ht'
    simp only [if_pos hsL, if_pos (hL.closed s hsL a t ht' q hq)]
    exact h1 s hsL a t ht' q hq
  · have hsR : s ∈ R.states := (List.mem_append.1 hs).resolve_left hsL
    have hqR := hR.closed s hsR a t ht' q hq
    simp only [if_neg hsL]
    rw [if_neg fun h => hd q h hqR]
    exact h2 s hsR a t ht' q hq

theorem LateTA.disj (h1 : L.LateTA) (h2 : R.LateTA) : (L.disjTA R).LateTA := by
  obtain ⟨F, hi, hF⟩ := h1
  obtain ⟨G, hj, hG⟩ := h2
  refine ⟨fun s x => s ∈ L.states ∧ F s x ∨ s ∈ R.states ∧ G s x, fun s hs x hx => ?_, fun s hs a t ht => ?_⟩
  · rcases List.mem_append.1 hs with hs | hs
    · rcases hx with hx | hx
      · exact hi s hs x hx.2
      · exact hd s (hL.init s hs) hx.1
    · rcases hx with hx | hx
      · exact hd s hx.1 (hR.init s hs)
      · exact hj s hs x hx.2
  · have ht' : t ∈ (R.st s).next.at' a := ht
    by_cases hsL : s ∈ L.states
    · rw [← hst] at ht'
      obtain ⟨g1, g2⟩ := hF s hsL a t ht'
      refine ⟨fun g hg hu => .inl ⟨hsL, g1 g hg hu⟩, fun q hq x hx => ?_⟩
      rcases hx with hx | hx
      · exact (g2 q hq x hx.2).imp (fun h => .inl ⟨hsL, h⟩) id
      · exact absurd hx.1 (hd q (hL.closed s hsL a t ht' q hq))
    · have hsR : s ∈ R.states := (List.mem_append.1 hs).resolve_left hsL
      obtain ⟨g1, g2⟩ := hG s hsR a t ht'
      refine ⟨fun g hg hu => .inr ⟨hsR, g1 g hg hu⟩, fun q hq x hx => ?_⟩
      rcases hx with hx | hx
      · exact absurd (hR.closed s hsR a t ht' q hq) (hd q hx.1)
      · exact (g2 q hq x hx.2).imp (fun h => .inr ⟨hsR, h⟩) id

end concat

section conj
variable {L R : TA Nat} (hL : L.Wf) (hR : R.Wf) {alloc : Nat → Nat} (hinj : Function.Injective alloc)
include hL hR hinj

theorem Ranked.conj (h1 : L.Ranked) (h2 : R.Ranked) (k : Nat) (heap : Nat → TAState Nat) : ((L.intersection R).place alloc k heap).Ranked := by
  obtain ⟨r1, h1⟩ := h1
  obtain ⟨r2, h2⟩ := h2
  have hr : ∃ r : Nat → Nat, ∀ p ∈ (L.intersection R).states, r (placeName alloc k (L.intersection R).states p) = r1 p.1 + r2 p.2 := by
    refine ⟨fun a => ((L.intersection R).states.find? fun p => placeName alloc k (L.intersection R).states p == a).elim 0 fun p => r1 p.1 + r2 p.2, fun p hp => ?_⟩
    rcases hc : (L.intersection R).states.find? (fun q => placeName alloc k (L.intersection R).states q == placeName alloc k (L.intersection R).states p) with _ | q
    · have := List.find?_eq_none.1 hc p hp
      simp at this
    · have h1 := List.find?_some hc
      simp only [beq_iff_eq] at h1
      simp only [hc, Option.elim_some]
      rw [placeName_inj hinj (List.mem_of_find?_eq_some hc) h1]
  obtain ⟨r, hr⟩ := hr
  refine ⟨r, fun s hs a t ht q hq => ?_⟩
  obtain ⟨⟨s1, s2⟩, hp, rfl⟩ := List.mem_map.1 hs
  rw [place_edges hinj hp] at ht
  obtain ⟨t', ht', rfl⟩ := List.mem_map.1 ht
  simp only [Option.map_eq_some_iff] at hq
  obtain ⟨q', hq', rfl⟩ := hq
  rw [hr _ hp, hr _ (conj_closed hL hR hp ht' hq')]
  obtain ⟨e1, he1, e2, he2, q1, q2, hq1, hq2, rfl⟩ := (mem_conj_edges hL hR hp).1 ht'
  simp only [productTransition] at hq'
  have := toIState_eq hq'
  subst this
  rcases h1 s1 (mem_product.1 hp).1 a e1 he1 q1 hq1 with k1 | ⟨rfl, g1, r1⟩ <;>
    rcases h2 s2 (mem_product.1 hp).2.1 a e2 he2 q2 hq2 with k2 | ⟨rfl, g2, r2⟩
  · left
    simp only
    omega
  · left
    simp only
    omega
  · left
    simp only
    omega
  · exact Or.inr ⟨rfl, by simp [productTransition, g1, g2], by simp [productTransition, r1, r2]⟩

theorem LateTA.conj (hn : L.clockSize + R.clockSize ≤ 256) (h1 : L.LateTA) (h2 : R.LateTA) (k : Nat) (heap : Nat → TAState Nat) :
    ((L.intersection R).place alloc k heap).LateTA := by
  obtain ⟨F, hi, hF⟩ := h1
  obtain ⟨G, hj, hG⟩ := h2
  refine ⟨fun s x => ∃ p ∈ (L.intersection R).states, s = placeName alloc k (L.intersection R).states p ∧
    (F p.1 x ∧ x < L.clockSize ∨ ∃ y, G p.2 y ∧ y < R.clockSize ∧ x = y + L.clockSize), fun s hs x hx => ?_, fun s hs a t ht => ?_⟩
  · obtain ⟨⟨s1, s2⟩, hp, rfl⟩ := List.mem_map.1 hs
    obtain ⟨p, hp', he, hx⟩ := hx
    have := placeName_inj hinj hp' he.symm
    subst this
    have hp2 : s1 ∈ L.init ∧ s2 ∈ R.init := by
      simp only [intersection, productStates, List.mem_flatMap] at hp
      obtain ⟨a, ha, b, hb, hab⟩ := hp
      split at hab
      · simp only [List.mem_singleton, Prod.mk.injEq] at hab
        rw [hab.1, hab.2]
        exact ⟨ha, hb⟩
      · cases hab
    rcases hx with hx | ⟨y, hy, -⟩
    · exact hi _ hp2.1 _ hx.1
    · exact hj _ hp2.2 _ hy
  · obtain ⟨⟨s1, s2⟩, hp, rfl⟩ := List.mem_map.1 hs
    rw [place_edges hinj hp] at ht
    obtain ⟨t', ht', rfl⟩ := List.mem_map.1 ht
    have hcl := fun q hq => conj_closed hL hR hp ht' (q := q) hq
    obtain ⟨e1, he1, e2, he2, q1, q2, hq1, hq2, rfl⟩ := (mem_conj_edges hL hR hp).1 ht'
    have hs1 := (mem_product.1 hp).1
    have hs2 := (mem_product.1 hp).2.1
    obtain ⟨g1, g2⟩ := hF s1 hs1 a e1 he1
    obtain ⟨k1, k2⟩ := hG s2 hs2 a e2 he2
    have hsh : ∀ y, y < R.clockSize → shiftClock L.clockSize y = y + L.clockSize := fun y hy => Nat.mod_eq_of_lt (by omega)
    constructor
    · intro g hg hu
      refine ⟨(s1, s2), hp, rfl, ?_⟩
      simp only [productTransition, List.mem_append, List.mem_map] at hg
      rcases hg with hg | ⟨g', hg', rfl⟩
      · exact .inl ⟨g1 g hg hu, hL.guards s1 hs1 a e1 he1 g hg⟩
      · have := hR.guards s2 hs2 a e2 he2 g' hg'
        exact .inr ⟨g'.x, k1 g' hg' hu, this, hsh _ this⟩
    · intro q hq x hx
      obtain ⟨p, hp', he, hx⟩ := hx
      simp only [Option.map_eq_some_iff] at hq
      obtain ⟨q', hq', rfl⟩ := hq
      have hq'' : toIState L R (q1, q2) = some q' := hq'
      have h3 := toIState_eq hq''
      have h4 := placeName_inj hinj hp' he.symm
      subst h4
      subst h3
      simp only [productTransition, List.mem_append, List.mem_map]
      rcases hx with ⟨hx, hxn⟩ | ⟨y, hy, hyn, rfl⟩
      · rcases g2 q1 hq1 x hx with h | h
        · exact .inl ⟨(s1, s2), hp, rfl, .inl ⟨h, hxn⟩⟩
        · exact .inr (.inl h)
      · rcases k2 q2 hq2 y hy with h | h
        · exact .inl ⟨(s1, s2), hp, rfl, .inr ⟨y, h, hyn, rfl⟩⟩
        · exact .inr (.inr ⟨y, h, hsh y hyn⟩)

end conj

theorem Ranked.congr {A : TA Nat} (h : A.Ranked) {st : Nat → TAState Nat} (hst : ∀ s ∈ A.states, st s = A.st s) :
    ({ A with st := st } : TA Nat).Ranked := by
  obtain ⟨r, hr⟩ := h
  refine ⟨r, fun s hs a t ht => ?_⟩
  simp only [edges, hst s hs] at ht
  exact hr s hs a t ht

theorem LateTA.congr {A : TA Nat} (h : A.LateTA) {st : Nat → TAState Nat} (hst : ∀ s ∈ A.states, st s = A.st s) :
    ({ A with st := st } : TA Nat).LateTA := by
  obtain ⟨F, hi, hF⟩ := h
  refine ⟨F, hi, fun s hs a t ht => ?_⟩
  simp only [edges, hst s hs] at ht
  exact hF s hs a t ht

end TA

theorem TA.atomTA_wf {alloc : Nat → Nat} (hinj : Function.Injective alloc) (heap : Nat → TAState Nat) (k : Nat) {c : Alphabet}
    (hc : c ≠ epsilon) : (TA.atomTA alloc k heap c).Wf := by
  have hne : alloc (k + 1) ≠ alloc k := fun h => by have := hinj h; omega
  have hst0 : (TA.atomTA alloc k heap c).st (alloc k) = ⟨false, false, [(c, [⟨some (alloc (k + 1)), [], []⟩])]⟩ := by
    simp [TA.atomTA]
  have hst1 : (TA.atomTA alloc k heap c).st (alloc (k + 1)) = ⟨true, false, []⟩ := by
    simp [TA.atomTA, hne]
  have hmem : ∀ s, s ∈ (TA.atomTA alloc k heap c).states ↔ s = alloc k ∨ s = alloc (k + 1) := fun s => by simp [TA.atomTA]
  have hed : ∀ s ∈ (TA.atomTA alloc k heap c).states, ∀ a, ∀ e ∈ (TA.atomTA alloc k heap c).edges s a,
      a = c ∧ e = ⟨some (alloc (k + 1)), [], []⟩ := by
    intro s hs a e he
    rcases (hmem s).1 hs with rfl | rfl
    · rw [TA.edges, hst0, Next.at'_cons, Next.at'_nil] at he
      split at he
      · rename_i h; exact ⟨h.symm, by simpa using he⟩
      · simp at he
    · rw [TA.edges, hst1, Next.at'_nil] at he; simp at he
  refine ⟨?_, ?_, ?_, ?_, ?_, ?_, ?_, ?_, ?_, ?_⟩
  · simp [TA.atomTA, hne.symm]
  · simp [TA.atomTA]
  · intro s hs
    rcases (hmem s).1 hs with rfl | rfl
    · simp [hst0]
    · simp [hst1]
  · intro s hs
    rcases (hmem s).1 hs with rfl | rfl
    · simp [hst0]
    · simp [hst1]
  · intro s hs a e he q hq
    obtain ⟨_, rfl⟩ := hed s hs a e he
    simp only [Option.some.injEq] at hq
    exact (hmem q).2 (Or.inr hq.symm)
  · intro s hs a e he g hg
    obtain ⟨_, rfl⟩ := hed s hs a e he
    simp at hg
  · intro s hs a e he g hg
    obtain ⟨_, rfl⟩ := hed s hs a e he
    simp at hg
  · intro s hs
    rw [List.eq_nil_iff_forall_not_mem]
    intro e he
    exact hc (hed s hs _ e he).1.symm
  · intro s hs hm
    rcases (hmem s).1 hs with rfl | rfl
    · simp [hst0] at hm
    · simp [hst1]
  · intro s hs hm
    rcases (hmem s).1 hs with rfl | rfl
    · simp [hst0] at hm
    · simp [hst1]

variable {K : Type} [Field K] [LinearOrder K] [IsStrictOrderedRing K] [FloorRing K]

omit [IsStrictOrderedRing K] [FloorRing K] [LinearOrder K] [Field K] in
theorem TRE.Letter.free {e : TRE K} (h : e.Letter) : e.EpsilonFree ∧ e.clocks = 0 := by
  induction e with
  | atom c => exact ⟨trivial, rfl⟩
  | plus e ih => exact ih h
  | _ => exact h.elim

theorem TransOk.init_noMatch {alloc : Nat → Nat} {heap : Nat → TAState Nat} {k k' : Nat} {e : TRE K} {A : TA Nat}
    (hA : TransOk alloc heap k k' e A) (hε : e.EpsilonFree) : ∀ s ∈ A.init, (A.st s).isMatch = false := by
  intro s hs
  by_contra hm
  simp only [Bool.not_eq_false] at hm
  exact TRE.not_nullable hε ((e.den_nil 0).1 ((hA.lang hε.regular 0 []).1 ((TA.acceptsFrom_iff _ _ _).2 ⟨s, hs, hm⟩)))

theorem TRE.toEventTA_letter {alloc : Nat → Nat} (hinj : Function.Injective alloc) (e : TRE K) (he : e.Plain) (hl : e.Letter)
    (heap : Nat → TAState Nat) (k : Nat) :
    ∃ A k', e.toEventTA alloc heap k = .ok (A, k') ∧ TransOk alloc heap k k' e A ∧ ∃ x, A.LoopsAt x := by
  induction e with
  | atom c =>
    have hne : alloc (k + 1) ≠ alloc k := fun h => by have := hinj h; omega
    refine ⟨_, _, rfl, TransOk.atom (K := K) hinj heap k he, alloc k, TA.LoopsAt.finish (TA.atomTA_wf hinj heap k he) ?_ ⟨?_, ?_⟩⟩
    · intro s hs
      simp only [TA.atomTA, List.mem_singleton] at hs
      subst hs
      simp [TA.atomTA]
    · intro s hs
      simpa [TA.atomTA] using hs
    · intro s hs a e he
      simp only [TA.atomTA, List.mem_cons, List.not_mem_nil, or_false] at hs
      rcases hs with rfl | rfl
      · simp only [TA.edges, TA.atomTA, if_true, Next.at'_cons, Next.at'_nil] at he
        split at he
        · simp only [List.mem_singleton] at he
          subst he
          exact ⟨rfl, rfl, rfl⟩
        · simp at he
      · simp only [TA.edges, TA.atomTA, if_true, if_neg hne, Next.at'_nil] at he
        cases he
  | plus e ih =>
    obtain ⟨A, k', h, hA, x, hx⟩ := ih he hl
    have hc : A.clockSize = 0 := by rw [hA.clocks]; exact (TRE.Letter.free hl).2
    refine ⟨_, _, by simp only [toEventTA, h]; rfl, hA.plus he, x, TA.LoopsAt.finish (TA.plus_wf hA.wf (by omega)) (fun s hs => ?_) (hx.plus hc)⟩
    rw [TA.plus_st (hA.wf.init s hs)]
    exact hA.init_noMatch (TRE.Letter.free hl).1 s hs
  | _ => exact hl.elim

theorem TRE.toEventTA_late {alloc : Nat → Nat} (hinj : Function.Injective alloc) (e : TRE K) (he : e.Plain) (hε : e.EpsilonFree)
    (hp : e.LetterLoops) (heap : Nat → TAState Nat) (k : Nat) :
    ∃ A k', e.toEventTA alloc heap k = .ok (A, k') ∧ TransOk alloc heap k k' e A ∧ A.Ranked ∧ (e.Late → A.LateTA) := by
  induction e generalizing heap k with
  | atom c =>
    have hok := TransOk.atom (K := K) hinj heap k he
    have hne : alloc (k + 1) ≠ alloc k := fun h => by have := hinj h; omega
    have hed : ∀ s ∈ (TA.atomTA alloc k heap c).states, ∀ a, ∀ e ∈ (TA.atomTA alloc k heap c).edges s a,
        s = alloc k ∧ e = ⟨some (alloc (k + 1)), [], []⟩ := by
      intro s hs a e he
      simp only [TA.atomTA, List.mem_cons, List.not_mem_nil, or_false] at hs
      rcases hs with rfl | rfl
      · simp only [TA.edges, TA.atomTA, if_true, Next.at'_cons, Next.at'_nil] at he
        split at he
        · exact ⟨rfl, by simpa using he⟩
        · simp at he
      · simp only [TA.edges, TA.atomTA, if_true, if_neg hne, Next.at'_nil] at he
        cases he
    have hw : (TA.atomTA alloc k heap c).Wf := TA.atomTA_wf hinj heap k he
    refine ⟨_, _, rfl, hok, TA.Ranked.finish hw ⟨fun s => if s = alloc k then 1 else 0, fun s hs a t ht q hq => ?_⟩,
      fun _ => TA.LateTA.finish hw ⟨fun _ _ => False, fun _ _ _ h => h, fun s hs a t ht => ?_⟩⟩
    · obtain ⟨rfl, rfl⟩ := hed s hs a t ht
      cases hq
      left
      simp [hne]
    · obtain ⟨rfl, rfl⟩ := hed s hs a t ht
      exact ⟨fun g hg => (List.not_mem_nil hg).elim, fun _ _ _ h => h.elim⟩
  | epsilon => exact hε.elim
  | plus e ih =>
    obtain ⟨A, k', h, hA, x, hx⟩ := TRE.toEventTA_letter hinj (.plus e) he hp heap k
    exact ⟨A, k', h, hA, hx.ranked, fun _ => hx.late⟩
  | concat e f ih1 ih2 =>
    obtain ⟨A, k1, h1, hA, rA, lA⟩ := ih1 he.1 hε.1 hp.1 heap k
    obtain ⟨B, k2, h2, hB, rB, -⟩ := ih2 he.2 hε.2 hp.2 A.st k1
    have hkeep := two_keep hinj hA hB
    have hd := two_disjoint hinj hA hB
    have hw := two_wf hinj hA hB
    have hss : ({ A with st := B.st } : TA Nat).st = B.st := rfl
    have heq : A.concat2 B = ({ A with st := B.st } : TA Nat).concat2 B := rfl
    have hn : B.clockSize ≤ 256 := by rw [hB.clocks]; exact he.2.clocks
    refine ⟨_, _, by simp only [toEventTA, h1, bind, Except.bind, h2]; rfl, TransOk.concat hinj hA hB he.1 he.2, ?_, fun hl => ?_⟩
    · rw [heq]
      exact TA.Ranked.finish (TA.concat2_wf hss hw hB.wf hd hn) (TA.Ranked.concat hss hw hB.wf hd (rA.congr hkeep) rB)
    · rw [heq]
      refine TA.LateTA.finish (TA.concat2_wf hss hw hB.wf hd hn) (TA.LateTA.concat hss hw hB.wf hd hn ((lA hl).congr hkeep) fun s hs => ?_)
      by_contra hm
      simp only [Bool.not_eq_false] at hm
      refine not_nullable hε.1 ((e.den_nil 0).1 ((hA.lang hε.1.regular 0 []).1 ((TA.acceptsFrom_iff _ _ _).2 ⟨s, hs, ?_⟩)))
      show (A.st s).isMatch = true
      rw [← hkeep s (hA.wf.init s hs)]
      exact hm
  | disj e f ih1 ih2 =>
    obtain ⟨A, k1, h1, hA, rA, lA⟩ := ih1 he.1 hε.1 hp.1 heap k
    obtain ⟨B, k2, h2, hB, rB, lB⟩ := ih2 he.2 hε.2 hp.2 A.st k1
    have hkeep := two_keep hinj hA hB
    have hd := two_disjoint hinj hA hB
    have hw := two_wf hinj hA hB
    have hss : ({ A with st := B.st } : TA Nat).st = B.st := rfl
    have heq : A.disjTA B = ({ A with st := B.st } : TA Nat).disjTA B := rfl
    refine ⟨_, _, by simp only [toEventTA, h1, bind, Except.bind, h2]; rfl, TransOk.disj hinj hA hB, ?_, fun hl => ?_⟩
    · rw [heq]
      exact TA.Ranked.finish (TA.disj_wf hss hw hB.wf hd) (TA.Ranked.disj hss hw hB.wf hd (rA.congr hkeep) rB)
    · rw [heq]
      exact TA.LateTA.finish (TA.disj_wf hss hw hB.wf hd) (TA.LateTA.disj hss hw hB.wf hd ((lA hl.1).congr hkeep) (lB hl.2))
  | conj e f ih1 ih2 =>
    obtain ⟨A, k1, h1, hA, rA, lA⟩ := ih1 he.1 hε.1 hp.1 heap k
    obtain ⟨B, k2, h2, hB, rB, lB⟩ := ih2 he.2.1 hε.2 hp.2 A.st k1
    have hkeep := two_keep hinj hA hB
    have hw := two_wf hinj hA hB
    have hn : ({ A with st := B.st } : TA Nat).clockSize + B.clockSize ≤ 256 := by
      have h3 : ({ A with st := B.st } : TA Nat).clockSize = e.clocks := hA.clocks
      rw [h3, hB.clocks]
      exact he.2.2
    refine ⟨_, _, by simp only [toEventTA, h1, bind, Except.bind, h2]; rfl, TransOk.conj hinj hA hB he.2.2, ?_, fun hl => ?_⟩
    · exact TA.Ranked.finish (TA.conj_wf hw hB.wf hn hinj _ _) (TA.Ranked.conj hw hB.wf hinj (rA.congr hkeep) rB _ _)
    · exact TA.LateTA.finish (TA.conj_wf hw hB.wf hn hinj _ _) (TA.LateTA.conj hw hB.wf hinj hn ((lA hl.1).congr hkeep) (lB hl.2) _ _)
  | within e I ih =>
    obtain ⟨A, k1, h1, hA, rA, -⟩ := ih he.1 hε hp heap k
    obtain ⟨B, h2, hB⟩ := hA.within he
    refine ⟨_, _, by simp only [toEventTA, h1, bind, Except.bind, h2]; rfl, hB, ?_, fun hl => hl.elim⟩
    obtain ⟨_, hn, ⟨l, ls, hl⟩, ⟨u, us, hu⟩⟩ := he
    have hn' : A.clockSize < 256 := by rw [hA.clocks]; exact hn
    have := TA.within_eq hA.wf hl hu
    rw [h2] at this
    cases this
    refine TA.Ranked.finish (TA.restrict_wf hA.wf _ ?_) ?_
    · intro c hc
      simp only [TA.withinGuard, List.mem_cons, List.not_mem_nil, or_false] at hc
      rcases hc with rfl | rfl <;> simp [Nat.mod_eq_of_lt hn']
    · obtain ⟨r, hr⟩ := rA
      refine ⟨r, fun s (hs : s ∈ A.states) a t ht q hq => ?_⟩
      rw [TA.restrict_edges _ hs] at ht
      obtain ⟨t', ht', rfl⟩ := List.mem_map.1 ht
      have hq' : t'.target = some q := by split at hq <;> exact hq
      rcases hr s hs a t' ht' q hq' with h | ⟨rfl, h⟩
      · exact Or.inl h
      · have hacc : A.isAcc t' = false := by
          simp only [TA.isAcc, hq']
          by_contra hm
          rw [Bool.not_eq_false] at hm
          rw [TA.edges_nil (hA.wf.term q hs hm)] at ht'
          cases ht'
        rw [hacc]
        exact Or.inr ⟨rfl, h⟩

end Verif
