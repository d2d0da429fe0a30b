import Verif.Lemmas.Sunday
import Verif.Lemmas.ZATerm
import Verif.Lemmas.ZoneStable

set_option linter.unusedSectionVars false

/-! Automata whose only cycles are loops at a state without guard and resets: no live state is removed from the zone automaton. -/

namespace Verif

variable {S K : Type} [Field K] [LinearOrder K] [IsStrictOrderedRing K] [DecidableEq S]

open Bnd Zone

theorem findNode_of_beq {N : List (ZNode S K)} {n : ZNode S K} (hn : n ∈ N) {z : Zone K} (h : n.zone.beq z = true) :
    findNode N n.s z ≠ none := by
  unfold findNode
  intro h'
  rw [List.findIdx?_eq_none_iff] at h'
  have := h' n hn
  simp [h] at this

/-- A rank decreases along all transitions but loops at a state without guard and resets. -/
def LoopRank (A : TA S) (rank : S → Nat) : Prop :=
  ∀ s c e q, (c, e) ∈ outEdges A s → e.target = some q → rank q < rank s ∨ (q = s ∧ e.guard = [] ∧ e.resets = [])

theorem TA.Acyclic.plainLoops {A : TA S} (h : A.Acyclic) : A.PlainLoops := by
  obtain ⟨rank, h⟩ := h
  exact ⟨rank, fun s a e he q hq => Or.inl (h s a e he q hq)⟩

theorem loopRank_of {A : TA S} (hM : A.MapOk) {rank : S → Nat} (h : ∀ s a, ∀ e ∈ A.edges s a, ∀ q, e.target = some q →
    rank q < rank s ∨ (q = s ∧ e.guard = [] ∧ e.resets = [])) : LoopRank A rank :=
  fun s c e q he hq => h s c e ((mem_outEdges_iff hM).1 he) q hq

theorem maxBound_fin (A : TA S) : ∃ c, (maxBound A : Bnd K) = .fin c true := by
  unfold maxBound
  split
  · exact ⟨_, rfl⟩
  · exact ⟨_, rfl⟩

theorem zoneSucc_plain {n : Nat} {z z' : Zone K} {e : Transition S} (hg : e.guard = []) (hr : e.resets = [])
    (h : zoneSucc n z.elapse e = .ok (some z')) : z' = z.pass := by
  unfold zoneSucc at h
  rw [hg, hr] at h
  simp only [zoneGuard, zoneReset, bind, Except.bind, isSatisfiable_snd] at h
  split_ifs at h
  · simp only [Except.ok.injEq, Option.some.injEq] at h
    exact h.symm
  · cases h

theorem beq_symm {a b : Zone K} (h : a.beq b = true) : b.beq a = true := by
  simp only [Zone.beq, Bool.and_eq_true, decide_eq_true_eq, List.all_eq_true, List.mem_range, Bool.or_eq_true] at h ⊢
  refine ⟨h.1.symm, fun i hi j hj => ?_⟩
  rcases h.2 i (by omega) j (by omega) with e | e
  · exact Or.inl e
  · exact Or.inr e.symm

/-- The zones compared as equal are the same after time has passed: `elapse` overwrites the cell (0,0). -/
theorem pass_beq {a b : Zone K} (h : a.beq b = true) (hM : a.M = b.M) : a.pass.Same b.pass := by
  simp only [Zone.beq, Bool.and_eq_true, decide_eq_true_eq, List.all_eq_true, List.mem_range, Bool.or_eq_true] at h
  obtain ⟨h1, h2⟩ := h
  have he : a.elapse.Same b.elapse := by
    refine ⟨h1, hM, fun i j hi hj => ?_⟩
    simp only [elapse_n] at hi hj
    rw [elapse_get hi hj, elapse_get (by omega) (by omega)]
    split_ifs with hj0 hi0
    · rfl
    · subst hi0
      rcases h2 0 hi j hj with h | h
      · exact absurd h.2 hj0
      · rw [h]
    · rcases h2 i hi j hj with h | h
      · exact absurd h.2 hj0
      · exact h
  exact he.canonize.abstractize.canonize

/-- Time passing does not change the zone. -/
def Passed (z : Zone K) : Prop := z.pass.beq z = true

theorem same_symm {a b : Zone K} (h : a.Same b) : b.Same a :=
  ⟨h.1.symm, h.2.1.symm, fun i j hi hj => (h.2.2 i j (by rw [h.1]; exact hi) (by rw [h.1]; exact hj)).symm⟩

theorem beq_of_same {a b c : Zone K} (h : a.Same b) (h' : b.beq c = true) : a.beq c = true := by
  simp only [Zone.beq, Bool.and_eq_true, decide_eq_true_eq, List.all_eq_true, List.mem_range, Bool.or_eq_true] at h' ⊢
  obtain ⟨h1, -, h3⟩ := h
  refine ⟨h1.trans h'.1, fun i hi j hj => ?_⟩
  rcases h'.2 i (by omega) j (by omega) with e | e
  · exact Or.inl e
  · exact Or.inr ((h3 i j hi hj).trans e)

/-- What is the same as a zone after time has passed does not change when time passes. -/
theorem passed_of_beq {A : TA S} {z y : Zone K} (hz : z.Canon) (hM : z.M = maxBound A) (hy : y.M = maxBound A)
    (h : y.beq z.pass = true) : Passed y := by
  obtain ⟨v, hv⟩ := canon_nonempty hz
  obtain ⟨b, hb⟩ := maxBound_fin (K := K) A
  have h1 := (pass_beq h (by rw [hy, pass_M, hM])).trans (pass_pass (hM.trans hb) hv)
  exact beq_of_same h1 (beq_symm h)

/-- A transition of the zone automaton decreases the rank of the state, or stays at the state; then the new zone does not change when
time passes, and if that already holds for the old zone, the new state of the zone automaton does not come later in the list. -/
structure LoopNodes (A : TA S) (rank : S → Nat) (N : List (ZNode S K)) : Prop where
  canon : ZonesCanon A N
  edges : ∀ (i : Nat) (n : ZNode S K), N[i]? = some n → ∀ p ∈ n.next, ∃ nj : ZNode S K, N[p.2]? = some nj ∧
    (rank nj.s < rank n.s ∨ (nj.s = n.s ∧ Passed nj.zone ∧ (Passed n.zone → p.2 ≤ i)))

theorem pushEdge_get {N : List (ZNode S K)} {i k : Nat} {c : Alphabet} {j : Nat} {n' : ZNode S K} (h : (pushEdge N i c j)[k]? = some n') :
    ∃ n, N[k]? = some n ∧ n'.s = n.s ∧ n'.zone = n.zone ∧ ∀ p ∈ n'.next, p ∈ n.next ∨ (k = i ∧ p = (c, j)) := by
  unfold pushEdge at h
  rw [List.getElem?_modify] at h
  rcases hN : N[k]? with _ | n0
  · simp [hN] at h
  · simp only [hN, Option.map_eq_map, Option.map_some, Option.some.injEq] at h
    subst h
    refine ⟨n0, rfl, ?_⟩
    split_ifs with he
    · refine ⟨rfl, rfl, fun p hp => ?_⟩
      rcases List.mem_append.1 hp with hp | hp
      · exact Or.inl hp
      · exact Or.inr ⟨he.symm, by simpa using hp⟩
    · exact ⟨rfl, rfl, fun p hp => Or.inl hp⟩

theorem LoopNodes.push {A : TA S} {rank : S → Nat} {N : List (ZNode S K)} (h : LoopNodes A rank N) {i j : Nat} {c : Alphabet}
    {n nj : ZNode S K} (hi : N[i]? = some n) (hj : N[j]? = some nj)
    (he : rank nj.s < rank n.s ∨ (nj.s = n.s ∧ Passed nj.zone ∧ (Passed n.zone → j ≤ i))) : LoopNodes A rank (pushEdge N i c j) := by
  have hle := nodesLe_pushEdge N i c j
  refine ⟨zonesCanon_push h.canon _ _ _, fun k n' hk p hp => ?_⟩
  obtain ⟨n0, hk0, e1, e2, e3⟩ := pushEdge_get hk
  rw [e1, e2]
  rcases e3 p hp with hp | ⟨rfl, rfl⟩
  · obtain ⟨m, hm, hx⟩ := h.edges k n0 hk0 p hp
    obtain ⟨m', hm', f1, f2, -⟩ := hle _ _ hm
    exact ⟨m', hm', by rw [f1, f2]; exact hx⟩
  · rw [hi] at hk0
    cases hk0
    obtain ⟨m', hm', f1, f2, -⟩ := hle _ _ hj
    exact ⟨m', hm', by rw [f1, f2]; exact he⟩

theorem LoopNodes.append {A : TA S} {rank : S → Nat} {N : List (ZNode S K)} (h : LoopNodes A rank N) {l : List (ZNode S K)}
    (hl : ∀ n ∈ l, n.zone.n = A.clockSize + 1 ∧ n.zone.Canon ∧ n.zone.M = maxBound A) (hl' : ∀ n ∈ l, n.next = []) :
    LoopNodes A rank (N ++ l) := by
  refine ⟨?_, fun i n hi p hp => ?_⟩
  · intro n hn
    rcases List.mem_append.1 hn with h1 | h1
    · exact h.canon n h1
    · exact hl n h1
  · by_cases hlt : i < N.length
    · rw [List.getElem?_append_left hlt] at hi
      obtain ⟨nj, hj, hx⟩ := h.edges i n hi p hp
      exact ⟨nj, by rw [List.getElem?_append_left (List.getElem?_eq_some_iff.1 hj).1]; exact hj, hx⟩
    · rw [List.getElem?_append_right (by omega)] at hi
      rw [hl' n (List.mem_of_getElem? hi)] at hp
      simp at hp

theorem expandAll_loopNodes {A : TA S} {rank : S → Nat} (hr : LoopRank A rank) {fuel : Nat} {N N' : List (ZNode S K)} {conf : List Nat}
    (hN : LoopNodes A rank N) (h : expandAll A fuel N conf = .ok N') : LoopNodes A rank N' := by
  refine expandAll_inv (LoopNodes A rank) ?_ ?_ hN h
  · intro N i c e q z j n hN hi he ht hz hc hj
    obtain ⟨nj, hnj, rfl, hb⟩ := findNode_some hj
    refine hN.push hi hnj ?_
    rcases hr n.s c e _ he ht with h1 | ⟨h1, h2, h3⟩
    · exact Or.inl h1
    · obtain ⟨-, c2, c3⟩ := hN.canon n (List.mem_of_getElem? hi)
      obtain ⟨-, d2, d3⟩ := hN.canon nj (List.mem_of_getElem? hnj)
      have hp := zoneSucc_plain h2 h3 hz
      subst hp
      refine Or.inr ⟨h1, passed_of_beq c2 c3 d3 hb, fun hpn => ?_⟩
      unfold findNode at hj
      rw [List.findIdx?_eq_some_iff_getElem] at hj
      obtain ⟨hj1, -, hj2⟩ := hj
      by_contra hlt
      have := hj2 i (by omega)
      obtain ⟨hi1, hi2⟩ := List.getElem?_eq_some_iff.1 hi
      rw [hi2, ← h1] at this
      simp [beq_symm hpn] at this
  · intro N i c e q z n hN hi he ht hz hc hj
    obtain ⟨c1, c2, c3⟩ := hN.canon n (List.mem_of_getElem? hi)
    obtain ⟨w1, -⟩ := zoneSucc_wf (by simpa using c1) hz
    obtain ⟨w2, w3⟩ := zoneSucc_canon (by simpa using c1) hz
    have hap : LoopNodes A rank (N ++ [⟨q, z, (A.st q).isMatch, []⟩]) :=
      hN.append (by simpa using ⟨w1, w2, by rw [w3]; simpa using c3⟩) (by simp)
    refine hap.push (i := i) (n := n) (nj := ⟨q, z, (A.st q).isMatch, []⟩) ?_ (by simp) ?_
    · rw [List.getElem?_append_left (List.getElem?_eq_some_iff.1 hi).1]
      exact hi
    · rcases hr n.s c e _ he ht with h1 | ⟨h1, h2, h3⟩
      · exact Or.inl h1
      · have hp := zoneSucc_plain h2 h3 hz
        subst hp
        refine Or.inr ⟨h1, passed_of_beq c2 c3 (by simpa using c3) (Zone.Same.beq ⟨rfl, rfl, fun _ _ _ _ => rfl⟩), fun hpn => ?_⟩
        subst h1
        exact absurd hj (findNode_of_beq (List.mem_of_getElem? hi) (beq_symm hpn))

theorem ta2za_loopNodes {A : TA S} {rank : S → Nat} (hr : LoopRank A rank) {fuel : Nat} {Z : ZA S K}
    (h : ta2za fuel A ZA.none = .ok Z) : LoopNodes A rank Z.nodes := by
  have h0 : LoopNodes A rank (ZA.none : ZA S K).nodes := ⟨fun n hn => by simp [ZA.none] at hn, fun i n hn => by simp [ZA.none] at hn⟩
  unfold ta2za at h
  simp only at h
  split_ifs at h with hemp
  · cases h
    exact h0
  · simp only [bind, Except.bind] at h
    split at h
    · cases h
    · rename_i N' hN'
      simp only [Except.ok.injEq] at h
      subst h
      refine expandAll_loopNodes hr (h0.append ?_ ?_) hN'
      · intro n hn
        obtain ⟨s, -, rfl⟩ := List.mem_map.1 hn
        exact ⟨by simp, zero_canon _ _, by simp⟩
      · intro n hn
        obtain ⟨s, -, rfl⟩ := List.mem_map.1 hn
        rfl

open Classical in
/-- A rank of the states of the zone automaton: the rank of the state, then whether time passing changes the zone, then the place. -/
noncomputable def nodeRank (rank : S → Nat) (N : List (ZNode S K)) (i : Nat) : Nat :=
  match N[i]? with
  | none => 0
  | some n => (2 * rank n.s + if Passed n.zone then 0 else 1) * (N.length + 1) + i

theorem LoopNodes.rank {A : TA S} {rank : S → Nat} {N : List (ZNode S K)} (h : LoopNodes A rank N) {i : Nat} {n : ZNode S K}
    (hi : N[i]? = some n) {p : Alphabet × Nat} (hp : p ∈ n.next) : p.2 = i ∨ nodeRank rank N p.2 < nodeRank rank N i := by
  obtain ⟨nj, hj, hx⟩ := h.edges i n hi p hp
  have hj' := (List.getElem?_eq_some_iff.1 hj).1
  have key : ∀ a b : Nat, a < b → a * (N.length + 1) + p.2 < b * (N.length + 1) + i := by
    intro a b hab
    have : (a + 1) * (N.length + 1) ≤ b * (N.length + 1) := Nat.mul_le_mul_right _ hab
    rw [Nat.add_mul] at this
    omega
  unfold nodeRank
  rw [hi, hj]
  simp only
  rcases hx with hlt | ⟨e, h1, h2⟩
  · right
    refine key _ _ ?_
    split_ifs <;> omega
  · rw [e, if_pos h1]
    split_ifs with hpn
    · have := h2 hpn
      omega
    · exact Or.inr (key _ _ (by omega))

theorem live_of_loops {A : TA S} {fuel : Nat} {rank : S → Nat} (hrank : LoopRank A rank) :
    ∀ (Z : ZA S K) alive, ta2za fuel A ZA.none = .ok Z → Z.liveStates fuel = .ok alive →
      ∀ i, Z.Reachable i → Z.Live i → i ∈ alive := by
  intro Z alive hZ halive i hr hl
  refine ZA.liveStates_complete (complete_wellFormed hZ) (rank := nodeRank rank Z.nodes) ?_ halive hr hl
  rintro i c j ⟨n, hn, hp⟩
  exact (ta2za_loopNodes hrank hZ).rank hn hp

end Verif
