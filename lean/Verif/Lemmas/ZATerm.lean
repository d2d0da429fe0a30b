import Verif.Lemmas.ZA
import Mathlib.Data.Fintype.EquivFin

set_option linter.unusedSectionVars false

/-! Termination of the construction of the zone automaton. -/

namespace Verif

variable {S K : Type} [Field K] [LinearOrder K] [IsStrictOrderedRing K]

open Bnd Zone

/-! ### no undefined behaviour -/

theorem zoneGuard_ok {n : Nat} {gs : List Constraint} (h : ∀ g ∈ gs, g.x < n) (z : Zone K) :
    ∃ z', zoneGuard n z gs = .ok z' := by
  induction gs generalizing z with
  | nil => exact ⟨z, rfl⟩
  | cons g gs ih =>
    unfold zoneGuard
    rw [if_pos (h g (by simp))]
    exact ih (fun g hg => h g (by simp [hg])) _

theorem zoneReset_ok {n : Nat} {xs : List Nat} (h : ∀ x ∈ xs, x < n) (z : Zone K) :
    ∃ z', zoneReset n z xs = .ok z' := by
  induction xs generalizing z with
  | nil => exact ⟨z, rfl⟩
  | cons x xs ih =>
    unfold zoneReset
    rw [if_pos (h x (by simp))]
    exact ih (fun x hx => h x (by simp [hx])) _

theorem zoneSucc_ok {n : Nat} {e : Transition S} (hg : ∀ g ∈ e.guard, g.x < n) (hr : ∀ x ∈ e.resets, x < n)
    (z : Zone K) : ∃ r, zoneSucc n z e = .ok r := by
  unfold zoneSucc
  obtain ⟨z1, h1⟩ := zoneGuard_ok hg z
  rw [h1]
  simp only [bind, Except.bind]
  split_ifs
  · obtain ⟨z2, h2⟩ := zoneReset_ok hr z1.isSatisfiable.2
    rw [h2]
    exact ⟨_, rfl⟩
  · exact ⟨_, rfl⟩

variable [DecidableEq S]

/-- The transitions use declared clocks and letters of the array. -/
def EdgesOk (A : TA S) : Prop :=
  ∀ s, ∀ p ∈ outEdges A s, p.1 < 127 ∧ (∀ g ∈ p.2.guard, g.x < A.clockSize) ∧ ∀ x ∈ p.2.resets, x < A.clockSize

/-- The states in `next` have a smaller rank. -/
def RankLt (rank : S → Nat) (R : Nat) (st : List (ZNode S K) × List Nat) : Prop :=
  ∀ j ∈ st.2, ∃ n, st.1[j]? = some n ∧ rank n.s < R

theorem RankLt.mono {rank : S → Nat} {R : Nat} {N N' : List (ZNode S K)} {l : List Nat} (h : RankLt rank R (N, l))
    (hle : NodesLe N N') : RankLt rank R (N', l) := by
  intro j hj
  obtain ⟨n, hn, hr⟩ := h j hj
  obtain ⟨n', hn', e, -⟩ := hle j n hn
  exact ⟨n', hn', by rw [e]; exact hr⟩

theorem expandEdge_ok {A : TA S} {i : Nat} {c : Alphabet} {e : Transition S}
    (hc : c < 127) (hg : ∀ g ∈ e.guard, g.x < A.clockSize) (hr : ∀ x ∈ e.resets, x < A.clockSize)
    (now : Zone K) (st : List (ZNode S K) × List Nat) : ∃ st', expandEdge A i now c e st = .ok st' ∧
      ∀ (rank : S → Nat) R, (∀ q, e.target = some q → rank q < R) → RankLt rank R st → RankLt rank R st' := by
  unfold expandEdge
  split
  · exact ⟨_, rfl, fun _ _ _ h => h⟩
  · rename_i q ht
    obtain ⟨r, hr⟩ := zoneSucc_ok hg hr now
    rw [hr]
    simp only [bind, Except.bind]
    cases r with
    | none => exact ⟨_, rfl, fun _ _ _ h => h⟩
    | some z =>
      simp only [hc, if_true]
      split
      · exact ⟨_, rfl, fun _ _ _ h => h.mono (nodesLe_pushEdge _ _ _ _)⟩
      · refine ⟨_, rfl, fun rank R hq h => ?_⟩
        have h1 : RankLt rank R (st.1 ++ [⟨q, z, (A.st q).isMatch, []⟩], st.2 ++ [st.1.length]) := by
          intro j hj
          rcases List.mem_append.1 hj with hj | hj
          · exact (RankLt.mono h (nodesLe_append _ _)) j hj
          · simp only [List.mem_singleton] at hj
            subst hj
            exact ⟨⟨q, z, (A.st q).isMatch, []⟩, by simp, hq q ht⟩
        exact h1.mono (nodesLe_pushEdge _ _ _ _)

theorem expandNode_ok {A : TA S} (hA : EdgesOk A) (i : Nat) (st : List (ZNode S K) × List Nat) :
    ∃ st', expandNode A i st = .ok st' ∧ ∀ (rank : S → Nat) R, (∀ n, st.1[i]? = some n → ∀ p ∈ outEdges A n.s, ∀ q,
      p.2.target = some q → rank q < R) → RankLt rank R st → RankLt rank R st' := by
  unfold expandNode
  split
  · exact ⟨_, rfl, fun _ _ _ h => h⟩
  · rename_i n0 hi
    have key : ∀ (ps : List (Alphabet × Transition S)) (st : List (ZNode S K) × List Nat),
        (∀ p ∈ ps, p ∈ outEdges A n0.s) →
        ∃ st', ps.foldlM (fun st p => expandEdge A i n0.zone.elapse p.1 p.2 st) st = Except.ok st' ∧
          ∀ (rank : S → Nat) R, (∀ p ∈ ps, ∀ q, p.2.target = some q → rank q < R) → RankLt rank R st →
            RankLt rank R st' := by
      intro ps
      induction ps with
      | nil => intro st _; exact ⟨st, rfl, fun _ _ _ h => h⟩
      | cons p ps ih =>
        intro st hps
        obtain ⟨h1, h2, h3⟩ := hA n0.s p (hps p (by simp))
        obtain ⟨st1, e1, r1⟩ := expandEdge_ok (i := i) h1 h2 h3 n0.zone.elapse st
        obtain ⟨st2, e2, r2⟩ := ih st1 (fun p hp => hps p (by simp [hp]))
        refine ⟨st2, ?_, fun rank R hq h => r2 rank R (fun p hp => hq p (by simp [hp])) (r1 rank R (hq p (by simp)) h)⟩
        rw [List.foldlM_cons]
        simp only [bind, Except.bind]
        rw [e1]
        exact e2
    obtain ⟨st', e, r⟩ := key (outEdges A n0.s) st (fun p hp => hp)
    exact ⟨st', e, fun rank R hq h => r rank R (hq n0 hi) h⟩

theorem expandRound_ok {A : TA S} (hA : EdgesOk A) (cs : List Nat) (st : List (ZNode S K) × List Nat) :
    ∃ st', cs.foldlM (fun st i => expandNode A i st) st = Except.ok st' ∧ ∀ (rank : S → Nat) R,
      (∀ s c e q, (c, e) ∈ outEdges A s → e.target = some q → rank q < rank s) →
      RankLt rank (R + 1) (st.1, cs) → RankLt rank R st → RankLt rank R st' := by
  induction cs generalizing st with
  | nil => exact ⟨st, rfl, fun _ _ _ _ h => h⟩
  | cons c cs ih =>
    obtain ⟨st1, e1, r1⟩ := expandNode_ok hA c st
    obtain ⟨st2, e2, r2⟩ := ih st1
    refine ⟨st2, ?_, fun rank R hrank hcs h => ?_⟩
    · rw [List.foldlM_cons]
      simp only [bind, Except.bind]
      rw [e1]
      exact e2
    · have hle := (expandNode_spec e1).1
      refine r2 rank R hrank ?_ (r1 rank R ?_ h)
      · exact RankLt.mono (fun j hj => hcs j (by simp only [List.mem_cons] at hj ⊢; exact Or.inr hj)) hle
      · intro n hn p hp q hq
        obtain ⟨n', hn', hlt⟩ := hcs c (by simp)
        rw [hn] at hn'
        cases hn'
        have := hrank n.s p.1 p.2 q hp hq
        omega

/-- Either the search ends, or it needs more rounds. -/
theorem expandAll_ok_or_fuel {A : TA S} (hA : EdgesOk A) (fuel : Nat) (N : List (ZNode S K)) (conf : List Nat) :
    (∃ N', expandAll A fuel N conf = .ok N') ∨ expandAll A fuel N conf = .error .fuel := by
  induction fuel generalizing N conf with
  | zero => exact Or.inr rfl
  | succ fuel ih =>
    unfold expandAll
    split_ifs
    · exact Or.inl ⟨N, rfl⟩
    · obtain ⟨st', e, -⟩ := expandRound_ok hA conf (N, [])
      simp only [bind, Except.bind]
      rw [e]
      exact ih _ _

theorem expandAll_acyclic {A : TA S} (hA : EdgesOk A) {rank : S → Nat}
    (hrank : ∀ s c e q, (c, e) ∈ outEdges A s → e.target = some q → rank q < rank s) {fuel : Nat}
    {N : List (ZNode S K)} {conf : List Nat} (h : RankLt rank fuel (N, conf)) :
    ∃ N', expandAll A (fuel + 1) N conf = .ok N' := by
  induction fuel generalizing N conf with
  | zero =>
    cases conf with
    | nil => exact ⟨N, rfl⟩
    | cons c cs =>
      obtain ⟨n, -, hlt⟩ := h c (by simp)
      omega
  | succ fuel ih =>
    unfold expandAll
    split_ifs
    · exact ⟨N, rfl⟩
    · obtain ⟨st', e, r⟩ := expandRound_ok hA conf (N, [])
      simp only [bind, Except.bind]
      rw [e]
      exact ih (r rank fuel hrank h (by intro j hj; simp at hj))

theorem ta2za_ok_or_fuel {A : TA S} (hA : EdgesOk A) (fuel : Nat) (Z : ZA S K) :
    (∃ Z', ta2za fuel A Z = .ok Z') ∨ ta2za fuel A Z = .error .fuel := by
  unfold ta2za
  simp only
  split_ifs
  · exact Or.inl ⟨Z, rfl⟩
  · simp only [bind, Except.bind]
    rcases expandAll_ok_or_fuel hA fuel (Z.nodes ++ (A.init.filter fun s =>
      (findNode Z.nodes s (Zone.zero (A.clockSize + 1) (maxBound A))).isNone).map fun s =>
        (⟨s, Zone.zero (A.clockSize + 1) (maxBound A), (A.st s).isMatch, []⟩ : ZNode S K))
        ((List.range (A.init.filter fun s =>
      (findNode Z.nodes s (Zone.zero (A.clockSize + 1) (maxBound A))).isNone).length).map (Z.nodes.length + ·)) with ⟨N', h⟩ | h
    · rw [h]
      exact Or.inl ⟨_, rfl⟩
    · rw [h]
      exact Or.inr rfl

theorem ta2za_acyclic {A : TA S} (hA : EdgesOk A) {rank : S → Nat}
    (hrank : ∀ s c e q, (c, e) ∈ outEdges A s → e.target = some q → rank q < rank s) :
    ∃ fuel, ∃ Z : ZA S K, ta2za fuel A ZA.none = .ok Z := by
  obtain ⟨R, hR⟩ : ∃ R, ∀ s ∈ A.init, rank s < R := by
    generalize A.init = l
    induction l with
    | nil => exact ⟨0, by simp⟩
    | cons s l ih =>
      obtain ⟨R, h⟩ := ih
      refine ⟨max R (rank s + 1), ?_⟩
      intro s' hs'
      rcases List.mem_cons.1 hs' with rfl | hs'
      · omega
      · have := h s' hs'
        omega
  refine ⟨R + 1, ?_⟩
  unfold ta2za
  simp only
  split_ifs
  · exact ⟨_, rfl⟩
  · simp only [bind, Except.bind]
    obtain ⟨N', h⟩ := expandAll_acyclic hA hrank (fuel := R) (N := (ZA.none : ZA S K).nodes ++ (A.init.filter fun s =>
      (findNode (ZA.none : ZA S K).nodes s (Zone.zero (A.clockSize + 1) (maxBound A))).isNone).map fun s =>
        (⟨s, Zone.zero (A.clockSize + 1) (maxBound A), (A.st s).isMatch, []⟩ : ZNode S K))
        (conf := (List.range (A.init.filter fun s =>
      (findNode (ZA.none : ZA S K).nodes s (Zone.zero (A.clockSize + 1) (maxBound A))).isNone).length).map ((ZA.none : ZA S K).nodes.length + ·))
      (by
        intro j hj
        obtain ⟨k, hk, rfl⟩ := List.mem_map.1 hj
        rw [List.mem_range] at hk
        simp only [ZA.none, List.nil_append, List.length_nil, Nat.zero_add] at hk ⊢
        rw [List.getElem?_map, List.getElem?_eq_getElem hk]
        refine ⟨_, rfl, hR _ ?_⟩
        exact (List.mem_filter.1 (List.getElem_mem hk)).1)
    rw [h]
    exact ⟨_, rfl⟩

/-! ### a construction which does not end -/

theorem zoneGuard_M {n : Nat} {gs : List Constraint} {z z' : Zone K} (h : zoneGuard n z gs = .ok z') : z'.M = z.M := by
  induction gs generalizing z with
  | nil => cases h; rfl
  | cons g gs ih =>
    unfold zoneGuard at h
    split_ifs at h
    rw [ih h]
    cases g.odr <;> rfl

theorem zoneReset_canon {n : Nat} {xs : List Nat} {z z' : Zone K} (hn : z.n = n + 1) (hz : z.Canon)
    (h : zoneReset n z xs = .ok z') : z'.Canon ∧ z'.n = n + 1 ∧ z'.M = z.M := by
  induction xs generalizing z with
  | nil => cases h; exact ⟨hz, hn, rfl⟩
  | cons x xs ih =>
    unfold zoneReset at h
    split_ifs at h with hx
    obtain ⟨h1, h2, h3⟩ := ih (by simpa using hn) (reset_canon hz (by omega)) h
    exact ⟨h1, h2, by rw [h3]; simp⟩

theorem zoneSucc_canon {n : Nat} {z : Zone K} (hn : z.n = n + 1) {e : Transition S} {z' : Zone K}
    (h : zoneSucc n z e = .ok (some z')) : z'.Canon ∧ z'.M = z.M := by
  unfold zoneSucc at h
  simp only [bind, Except.bind] at h
  split at h
  · cases h
  · rename_i z1 hz1
    obtain ⟨h1, -⟩ := zoneGuard_sat hn hz1
    by_cases hb : z1.isSatisfiable.1 = true
    · rw [if_pos hb] at h
      split at h
      · cases h
      · rename_i z2 hz2
        simp only [Except.ok.injEq, Option.some.injEq] at h
        subst h
        obtain ⟨v, hv⟩ := isSatisfiable_iff'.1 hb
        rw [isSatisfiable_snd] at hz2
        obtain ⟨h3, h4⟩ := zoneReset_sat (z := z1.canonize) (by simpa using h1) hz2 (canonize_Sat.2 hv)
        obtain ⟨-, -, h5⟩ := zoneReset_canon (by simpa using h1) (canon_of_sat hv) hz2
        refine ⟨canon_of_sat (abstractize_Sat h4), ?_⟩
        simp [h5, zoneGuard_M hz1]
    · rw [if_neg hb] at h
      cases h

theorem zero_canon (n : Nat) (M : Bnd K) : (Zone.zero n M : Zone K).Canon := by
  constructor
  · intro k i j hk hi hj _
    simp only [zero_n] at hk hi hj
    rw [Zone.zero, get_build hi hj, get_build hi hk, get_build hk hj]
    show le' _ (Bnd.fin (0 + 0) (true && true))
    simp [le']
  · intro i j hi hj
    simp only [zero_n] at hi hj
    rw [Zone.zero, get_build hi hj, get_build hj hi]
    show Bnd.sat (Bnd.fin (0 + 0) (true && true)) 0
    simp [Bnd.sat]

/-- All zones are closed and have the bound `M` of the automaton. -/
def ZonesCanon (A : TA S) (N : List (ZNode S K)) : Prop :=
  ∀ n ∈ N, n.zone.n = A.clockSize + 1 ∧ n.zone.Canon ∧ n.zone.M = maxBound A

theorem zonesCanon_push {A : TA S} {N : List (ZNode S K)} (h : ZonesCanon A N) (i : Nat) (c : Alphabet) (j : Nat) :
    ZonesCanon A (pushEdge N i c j) := by
  intro n' hn'
  obtain ⟨k, hk⟩ := List.mem_iff_getElem?.1 hn'
  unfold pushEdge at hk
  rw [List.getElem?_modify] at hk
  rcases hN : N[k]? with _ | n0
  · simp [hN] at hk
  · have h0 := h n0 (List.mem_of_getElem? hN)
    simp only [hN, Option.map_eq_map, Option.map_some, Option.some.injEq] at hk
    subst hk
    split_ifs <;> exact h0

theorem expandAll_zonesCanon {A : TA S} {fuel : Nat} {N N' : List (ZNode S K)} {conf : List Nat}
    (hN : ZonesCanon A N) (h : expandAll A fuel N conf = .ok N') : ZonesCanon A N' := by
  refine expandAll_inv (ZonesCanon A) ?_ ?_ hN h
  · intro N i c e q z j n hN hi he ht hz hc hj
    exact zonesCanon_push hN _ _ _
  · intro N i c e q z n hN hi he ht hz hc hj
    obtain ⟨a1, a2, a3⟩ := hN n (List.mem_of_getElem? hi)
    refine zonesCanon_push ?_ _ _ _
    intro n' hn'
    rcases List.mem_append.1 hn' with h1 | h1
    · exact hN n' h1
    · simp only [List.mem_singleton] at h1
      subst h1
      obtain ⟨w1, -⟩ := zoneSucc_wf (by simpa using a1) hz
      obtain ⟨w2, w3⟩ := zoneSucc_canon (by simpa using a1) hz
      exact ⟨w1, w2, by rw [w3]; simpa using a3⟩

theorem ta2za_zonesCanon {A : TA S} {fuel : Nat} {Z Z' : ZA S K} (hZ : ZonesCanon A Z.nodes)
    (h : ta2za fuel A Z = .ok Z') : ZonesCanon A Z'.nodes := by
  unfold ta2za at h
  simp only at h
  split_ifs at h with hemp
  · cases h
    exact hZ
  · simp only [bind, Except.bind] at h
    split at h
    · cases h
    · rename_i N' hN'
      simp only [Except.ok.injEq] at h
      subst h
      refine expandAll_zonesCanon ?_ hN'
      intro n hn
      rcases List.mem_append.1 hn with hn | hn
      · exact hZ n hn
      · obtain ⟨s, -, rfl⟩ := List.mem_map.1 hn
        exact ⟨by simp, zero_canon _ _, by simp⟩

/-- A tight upper bound below `M` survives the abstraction. -/
theorem abstractize_keeps {z : Zone K} (hz : z.Canon) {i j : Nat} (hi : i < z.n) (hj : j < z.n) (hij : i ≠ j)
    {b c : K} (hM : z.M = .fin c true) (hb : b < c) (he : z.Entails i j (.fin b true)) :
    z.abstractize.get i j = z.get i j ∧ ∀ v : Nat → K, z.abstractize.Sat v → ext v i - ext v j ≤ b := by
  have hle : ∀ d, (z.get i j).sat d → d ≤ b := fun d hd => by
    have := canon_tight hz i j hi hj hij _ he d hd
    simpa [Bnd.sat] using this
  have hlt : Bnd.bge (z.get i j) z.M = false := by
    rw [hM]
    have h' : le' (z.get i j) (.fin b true) := le'_iff.2 (fun d hd => by simpa [Bnd.sat] using hle d hd)
    rcases hg : z.get i j with ⟨a, s⟩ | s
    · rw [hg] at h'
      have hab : a ≤ b := by
        cases s <;> simp [le'] at h' <;> rcases h' with h' | h' <;> linarith
      have : a < c := lt_of_le_of_lt hab hb
      simp [Bnd.bge, Bnd.blt, this]
    · rw [hg] at h'
      simp [le'] at h'
  have hget : z.abstractize.get i j = z.get i j := by
    rw [abstractize, get_build hi hj, hlt]
    simp
  refine ⟨hget, fun v hv => ?_⟩
  have := hv i j (by simpa using hi) (by simpa using hj)
  rw [hget] at this
  exact hle _ this

/-- Going once through a loop `{x0 ≥ 1} / x0` adds at least one to a clock which is not reset. -/
theorem zoneSucc_loop {z z' : Zone K} (hn : z.n = 3) (hz : z.Canon) {c : K} (hM : z.M = .fin c true) (hc : 0 < c) {b : K}
    (hb : 0 ≤ b) (h0 : ∀ v : Nat → K, z.Sat v → v 0 ≤ 0 ∧ b ≤ v 1) (hv : z.Sat (fun x => if x = 0 then 0 else b))
    {q : Option S} (h : zoneSucc 2 z.elapse ⟨q, [0], [⟨0, .ge, 1⟩]⟩ = .ok (some z')) :
    (∀ v : Nat → K, z'.Sat v → v 0 ≤ 0 ∧ b + 1 ≤ v 1) ∧ z'.Sat (fun x => if x = 0 then 0 else b + 1) := by
  constructor
  · unfold zoneSucc at h
    simp only [bind, Except.bind] at h
    split at h
    · cases h
    · rename_i z1 hz1
      obtain ⟨h1, h2⟩ := zoneGuard_sat (by simpa using hn) hz1
      by_cases hsat : z1.isSatisfiable.1 = true
      · rw [if_pos hsat] at h
        split at h
        · cases h
        · rename_i z2 hz2
          simp only [Except.ok.injEq, Option.some.injEq] at h
          subst h
          obtain ⟨u, hu⟩ := isSatisfiable_iff'.1 hsat
          rw [isSatisfiable_snd] at hz2
          have hcan : z1.canonize.Canon := canon_of_sat hu
          simp only [zoneReset, Nat.zero_lt_succ, if_true, Except.ok.injEq, show (0:Nat) < 2 from by omega] at hz2
          have hcan2 : z2.Canon := by rw [← hz2]; exact reset_canon hcan (by simp [h1])
          have hn2 : z2.n = 3 := by rw [← hz2]; simp [h1]
          have hM2 : z2.M = .fin c true := by rw [← hz2]; simp [zoneGuard_M hz1, hM]
          have ent : ∀ v : Nat → K, z2.Sat v → v 0 ≤ 0 ∧ b + 1 ≤ v 1 := by
            intro v hv
            rw [← hz2, reset_Sat hcan (by simp [h1])] at hv
            obtain ⟨v1, hv1, e1⟩ := hv
            rw [canonize_Sat, h2, elapse_Sat hz (by omega)] at hv1
            obtain ⟨⟨v2, hv2, d, hd, e2⟩, hg⟩ := hv1
            have k0 := e1 0 (by simp [h1])
            have k1 := e1 1 (by simp [h1])
            have l0 := e2 0 (by omega)
            have l1 := e2 1 (by omega)
            obtain ⟨m0, m1⟩ := h0 v2 hv2
            simp [GuardHolds, Constraint.Holds] at hg
            simp at k0
            simp [Function.update_apply] at k1
            constructor
            · rw [k0]
            · rw [k1]
              linarith
          have e1 : z2.Entails 1 0 (.fin 0 true) := by
            intro v hv
            simp [Bnd.sat, ext, (ent v hv).1]
          have e2 : z2.Entails 0 2 (.fin (-(b + 1)) true) := by
            intro v hv
            have := (ent v hv).2
            simp only [Bnd.sat, ext]
            linarith
          intro v hv
          rw [canonize_Sat] at hv
          have a1 := (abstractize_keeps hcan2 (by omega) (by omega) (by omega) hM2 hc e1).2 v hv
          have a2 := (abstractize_keeps hcan2 (by omega) (by omega) (by omega) hM2 (by linarith) e2).2 v hv
          simp only [ext] at a1 a2
          constructor <;> linarith
      · rw [if_neg hsat] at h
        cases h
  · obtain ⟨z'', e, -, hs⟩ := zoneSucc_sat (by simpa using hn) h hv (d := 1) one_pos (by
      simp [GuardHolds, Constraint.Holds])
    cases e
    convert hs using 1
    funext x
    by_cases hx : x = 0 <;> simp [hx]

/-- The initial states have the zone of all clocks 0. -/
theorem ta2za_start {A : TA S} {fuel : Nat} {Z : ZA S K} (h : ta2za fuel A ZA.none = .ok Z) (s : S) (hs : s ∈ A.init) :
    ∃ (i : Nat) (n : ZNode S K), Z.nodes[i]? = some n ∧ n.s = s ∧ n.zone = Zone.zero (A.clockSize + 1) (maxBound A) ∧
      i ∈ Z.init := by
  have hf : (A.init.filter fun s => (findNode (ZA.none : ZA S K).nodes s
      (Zone.zero (A.clockSize + 1) (maxBound A))).isNone) = A.init := by
    rw [List.filter_eq_self]
    intro s _
    simp [ZA.none, findNode]
  unfold ta2za at h
  simp only at h
  rw [hf] at h
  split_ifs at h with hemp
  · rw [List.isEmpty_iff] at hemp
    rw [hemp] at hs
    cases hs
  · simp only [bind, Except.bind] at h
    split at h
    · cases h
    · rename_i N' hN'
      simp only [Except.ok.injEq] at h
      subst h
      obtain ⟨hle, -⟩ := expandAll_spec (by
        intro i hi
        left
        simp only [ZA.none, List.nil_append, List.length_map, List.length_nil, Nat.zero_add, List.map_id', List.mem_range] at hi ⊢
        exact hi) hN'
      obtain ⟨k, hk⟩ := List.mem_iff_getElem?.1 hs
      obtain ⟨n', hn', f1, f2, -⟩ := hle k ⟨s, Zone.zero (A.clockSize + 1) (maxBound A), (A.st s).isMatch, []⟩
        (by simp [ZA.none, hk])
      refine ⟨k, n', hn', f1, f2, ?_⟩
      obtain ⟨hlt, -⟩ := List.getElem?_eq_some_iff.1 hk
      simp [ZA.none, hlt]

/-- An automaton with two clocks and a transition `s -{x0 ≥ 1}/x0→ s` from the initial state to itself has no finite zone
automaton. -/
theorem ta2za_diverges {A : TA S} {s : S} {a : Alphabet} (hs : s ∈ A.init) (hsz : A.clockSize = 2) {c : K} (hc : 0 < c)
    (hM : (maxBound A : Bnd K) = .fin c true) (he : (⟨some s, [0], [⟨0, .ge, 1⟩]⟩ : Transition S) ∈ A.edges s a)
    (fuel : Nat) (Z : ZA S K) : ta2za fuel A ZA.none ≠ .ok Z := by
  intro h
  obtain ⟨hC, hinit, -⟩ := ta2za_spec (complete_nil A) h
  have hcan := ta2za_zonesCanon (A := A) (Z := ZA.none) (by intro n hn; simp [ZA.none] at hn) h
  -- the first state
  have start : ∃ (i : Nat) (n : ZNode S K), Z.nodes[i]? = some n ∧ n.s = s ∧ n.zone = Zone.zero 3 (maxBound A) := by
    obtain ⟨i, n, h1, h2, h3, -⟩ := ta2za_start h s hs
    exact ⟨i, n, h1, h2, by rw [h3, hsz]⟩
  have key : ∀ k : Nat, ∃ (i : Nat) (n : ZNode S K), Z.nodes[i]? = some n ∧ n.s = s ∧
      (∀ v : Nat → K, n.zone.Sat v → v 0 ≤ 0 ∧ (k : K) ≤ v 1) ∧ n.zone.Sat (fun x => if x = 0 then 0 else (k : K)) := by
    intro k
    induction k with
    | zero =>
      obtain ⟨i, n, h1, h2, h3⟩ := start
      refine ⟨i, n, h1, h2, ?_, ?_⟩
      · intro v hv
        rw [h3] at hv
        have p1 := hv 1 0 (by simp) (by simp)
        have p2 := hv 0 2 (by simp) (by simp)
        rw [Zone.zero, get_build (by omega) (by omega)] at p1 p2
        simp only [Bnd.sat, ext] at p1 p2
        constructor
        · linarith
        · push_cast
          linarith
      · rw [h3]
        simpa using zero_sat 3 (maxBound A)
    | succ k ih =>
      obtain ⟨i, n, h1, h2, h3, h4⟩ := ih
      obtain ⟨hlt, -⟩ := List.getElem?_eq_some_iff.1 h1
      obtain ⟨c1, c2, c3⟩ := hcan n (List.mem_of_getElem? h1)
      obtain ⟨⟨r, hr⟩, hedge⟩ := hC.full i hlt n h1 (a, _) (mem_outEdges (by rw [h2]; exact he)) s rfl
      simp only at hr hedge
      have hn3 : n.zone.n = 3 := by omega
      obtain ⟨z', rfl, -, -⟩ := zoneSucc_sat c1 hr h4 (d := 1) one_pos (by simp [GuardHolds, Constraint.Holds])
      obtain ⟨-, n', j, nj, -, -, hnj, hsj, hbeq⟩ := hedge z' hr
      rw [hsz] at hr
      obtain ⟨g1, g2⟩ := zoneSucc_loop hn3 c2 (c3.trans hM) hc (Nat.cast_nonneg k) h3 h4 hr
      obtain ⟨d1, d2, -⟩ := hcan nj (List.mem_of_getElem? hnj)
      have hz'c := (zoneSucc_canon (by simpa using hn3) hr).1
      have hz'n := (zoneSucc_wf (by simpa using hn3) hr).1
      refine ⟨j, nj, hnj, hsj, ?_, ?_⟩
      · intro v hv
        push_cast
        refine g1 v (beq_sat ?_ hv (hz'c.diag (by omega)))
        simp only [Zone.beq, Bool.and_eq_true, decide_eq_true_eq, List.all_eq_true, List.mem_range,
          Bool.or_eq_true] at hbeq ⊢
        refine ⟨hbeq.1.symm, fun i hi j hj => ?_⟩
        rcases hbeq.2 i (by omega) j (by omega) with e | e
        · exact Or.inl e
        · exact Or.inr e.symm
      · push_cast
        exact beq_sat hbeq g2 (d2.diag (by omega))
  choose f n h1 h2 h3 h4 using key
  have hinj : Function.Injective f := by
    intro k k' hkk
    have e : n k = n k' := by
      have := h1 k
      rw [hkk, h1 k'] at this
      exact (Option.some.inj this).symm
    have a1 := (h3 k _ (e ▸ h4 k')).2
    have a2 := (h3 k' _ (e ▸ h4 k)).2
    simp at a1 a2
    omega
  have hlt : ∀ k, f k < Z.nodes.length := fun k => (List.getElem?_eq_some_iff.1 (h1 k)).1
  exact not_injective_infinite_finite (fun k => (⟨f k, hlt k⟩ : Fin Z.nodes.length))
    (fun k k' hk => hinj (by simpa using hk))

end Verif
