import Verif.Lemmas.Total
import Mathlib.Algebra.Order.Archimedean.Basic

/-!
# Loops for which no finite zone automaton exists
-/

namespace Verif

open Zone

variable {S K : Type} [Field K] [LinearOrder K] [IsStrictOrderedRing K] [DecidableEq S]

/-- The points after resets come from points before. -/
theorem zoneReset_from {n : Nat} {xs : List Nat} {z z' : Zone K} (hn : z.n = n + 1) (hz : z.Canon)
    (h : zoneReset n z xs = .ok z') {v : Nat → K} (hv : z'.Sat v) :
    ∃ u, z.Sat u ∧ ∀ x, x < n → v x = if x ∈ xs then 0 else u x := by
  induction xs generalizing z with
  | nil =>
    cases h
    exact ⟨v, hv, fun x _ => by simp⟩
  | cons x xs ih =>
    unfold zoneReset at h
    split_ifs at h with hx
    obtain ⟨u, hu, he⟩ := ih (by simpa using hn) (reset_canon hz (by omega)) h
    rw [reset_Sat hz (by omega)] at hu
    obtain ⟨u', hu', he'⟩ := hu
    refine ⟨u', hu', fun y hy => ?_⟩
    rw [he y hy, he' y (by omega)]
    by_cases h1 : y = x
    · subst h1
      simp
    · simp [h1]

/-- The successor zone before the abstraction, and where its points come from. -/
theorem zoneSucc_from {n : Nat} {z z' : Zone K} (hn : z.n = n + 1) (hz : z.Canon) {e : Transition S}
    (h : zoneSucc n z.elapse e = .ok (some z')) :
    ∃ z2 : Zone K, z' = z2.abstractize.canonize ∧ z2.Canon ∧ z2.n = n + 1 ∧ z2.M = z.M ∧
      ∀ v : Nat → K, z2.Sat v → ∃ (u : Nat → K) (d : K), z.Sat u ∧ 0 < d ∧ (∃ u' : Nat → K, (∀ i, i < n → u' i = u i + d) ∧
        GuardHolds e.guard u') ∧ ∀ x, x < n → v x = if x ∈ e.resets then 0 else u x + d := by
  unfold zoneSucc at h
  simp only [bind, Except.bind] at h
  split at h
  · cases h
  · rename_i z1 hz1
    obtain ⟨h1, h2⟩ := zoneGuard_sat (by simpa using hn) hz1
    by_cases hsat : z1.isSatisfiable.1 = true
    · rw [if_pos hsat] at h
      split at h
      · cases h
      · rename_i z2 hz2
        simp only [Except.ok.injEq, Option.some.injEq] at h
        obtain ⟨u, hu⟩ := isSatisfiable_iff'.1 hsat
        rw [isSatisfiable_snd] at hz2
        have hcan : z1.canonize.Canon := canon_of_sat hu
        obtain ⟨c1, c2, c3⟩ := zoneReset_canon (by simpa using h1) hcan hz2
        refine ⟨z2, h.symm, c1, c2, by rw [c3]; simp [zoneGuard_M hz1], fun v hv => ?_⟩
        obtain ⟨u, hu, he⟩ := zoneReset_from (by simpa using h1) hcan hz2 hv
        rw [canonize_Sat, h2, elapse_Sat hz (by omega)] at hu
        obtain ⟨⟨u0, hu0, d, hd, e0⟩, hg⟩ := hu
        refine ⟨u0, d, hu0, hd, ⟨u, fun i hi => e0 i (by omega), hg⟩, fun x hx => ?_⟩
        rw [he x hx, e0 x (by omega)]
    · rw [if_neg hsat] at h
      cases h

/-- Lower bounds survive the abstraction. -/
theorem abstract_lower {z : Zone K} (hz : z.Canon) {c : K} (hM : z.M = .fin c true) (hc : 0 < c) {y : Nat} (hy : y + 1 < z.n) {b : K}
    (hb : 0 ≤ b) (h : ∀ v : Nat → K, z.Sat v → b ≤ v y) : ∀ v : Nat → K, z.abstractize.canonize.Sat v → b ≤ v y := by
  have e : z.Entails 0 (y + 1) (.fin (-b) true) := by
    intro v hv
    have := h v hv
    simp only [Bnd.sat, ext]
    linarith
  intro v hv
  rw [canonize_Sat] at hv
  have := (abstractize_keeps hz (by omega) hy (by omega) hM (by linarith) e).2 v hv
  simp only [ext] at this
  linarith

/-- An upper bound 0 survives the abstraction. -/
theorem abstract_upper {z : Zone K} (hz : z.Canon) {c : K} (hM : z.M = .fin c true) (hc : 0 < c) {x : Nat} (hx : x + 1 < z.n)
    (h : ∀ v : Nat → K, z.Sat v → v x ≤ 0) : ∀ v : Nat → K, z.abstractize.canonize.Sat v → v x ≤ 0 := by
  have e : z.Entails (x + 1) 0 (.fin 0 true) := by
    intro v hv
    have := h v hv
    simp only [Bnd.sat, ext]
    linarith
  intro v hv
  rw [canonize_Sat] at hv
  have := (abstractize_keeps hz hx (by omega) (by omega) hM hc e).2 v hv
  simp only [ext] at this
  linarith

/-- No clock is negative. -/
def NonNeg (n : Nat) (z : Zone K) : Prop := ∀ v : Nat → K, z.Sat v → ∀ x, x < n → 0 ≤ v x

theorem zoneSucc_nonNeg {n : Nat} {z z' : Zone K} (hn : z.n = n + 1) (hz : z.Canon) {c : K} (hM : z.M = .fin c true) (hc : 0 < c)
    (h0 : NonNeg n z) {e : Transition S} (h : zoneSucc n z.elapse e = .ok (some z')) : NonNeg n z' := by
  obtain ⟨z2, rfl, h1, h2, h3, h4⟩ := zoneSucc_from hn hz h
  intro v hv x hx
  refine abstract_lower h1 (h3.trans hM) hc (by omega) (le_refl 0) (fun v hv => ?_) v hv
  obtain ⟨u, d, hu, hd, -, he⟩ := h4 v hv
  rw [he x hx]
  split_ifs
  · exact le_refl 0
  · have := h0 u hu x hx
    linarith

/-- All zones of a zone automaton are without negative clocks. -/
theorem ta2za_nonNeg {A : TA S} {c : K} (hM : (maxBound A : Bnd K) = .fin c true) (hc : 0 < c) {fuel : Nat} {Z : ZA S K}
    (h : ta2za fuel A ZA.none = .ok Z) : ∀ n ∈ Z.nodes, NonNeg A.clockSize n.zone := by
  have key : ∀ {N N' : List (ZNode S K)} {conf : List Nat}, (ZonesCanon A N ∧ ∀ n ∈ N, NonNeg A.clockSize n.zone) →
      expandAll A fuel N conf = .ok N' → ZonesCanon A N' ∧ ∀ n ∈ N', NonNeg A.clockSize n.zone := by
    intro N N' conf hN hexp
    have hpush : ∀ (N : List (ZNode S K)) (i : Nat) (a : Alphabet) (j : Nat), (∀ n ∈ N, NonNeg A.clockSize n.zone) →
        ∀ n ∈ pushEdge N i a j, NonNeg A.clockSize n.zone := by
      intro N i a j hN n hn
      obtain ⟨k, hk⟩ := List.mem_iff_getElem?.1 hn
      unfold pushEdge at hk
      rw [List.getElem?_modify] at hk
      rcases hNk : N[k]? with _ | n0
      · rw [hNk] at hk
        simp at hk
      · have h0 := hN n0 (List.mem_of_getElem? hNk)
        simp only [hNk, Option.map_eq_map, Option.map_some, Option.some.injEq] at hk
        subst hk
        split_ifs <;> exact h0
    refine expandAll_inv (fun N => ZonesCanon A N ∧ ∀ n ∈ N, NonNeg A.clockSize n.zone) ?_ ?_ hN hexp
    · intro N i a e q z j n hN hi he ht hz hc' hj
      exact ⟨zonesCanon_push hN.1 _ _ _, hpush _ _ _ _ hN.2⟩
    · intro N i a e q z n hN hi he ht hz hc' hj
      obtain ⟨a1, a2, a3⟩ := hN.1 n (List.mem_of_getElem? hi)
      refine ⟨zonesCanon_push ?_ _ _ _, hpush _ _ _ _ ?_⟩
      · intro n' hn'
        rcases List.mem_append.1 hn' with h1 | h1
        · exact hN.1 n' h1
        · simp only [List.mem_singleton] at h1
          subst h1
          obtain ⟨w1, -⟩ := zoneSucc_wf (by simpa using a1) hz
          obtain ⟨w2, w3⟩ := zoneSucc_canon (by simpa using a1) hz
          exact ⟨w1, w2, by rw [w3]; simpa using a3⟩
      · intro n' hn'
        rcases List.mem_append.1 hn' with h1 | h1
        · exact hN.2 n' h1
        · simp only [List.mem_singleton] at h1
          subst h1
          exact zoneSucc_nonNeg a1 a2 (a3.trans hM) hc (hN.2 n (List.mem_of_getElem? hi)) hz
  unfold ta2za at h
  simp only at h
  split_ifs at h with hemp
  · cases h
    intro n hn
    simp [ZA.none] at hn
  · simp only [bind, Except.bind] at h
    split at h
    · cases h
    · rename_i N' hN'
      simp only [Except.ok.injEq] at h
      subst h
      refine (key ⟨?_, ?_⟩ hN').2
      · intro n hn
        simp only [ZA.none, List.nil_append] at hn
        obtain ⟨s, -, rfl⟩ := List.mem_map.1 hn
        exact ⟨by simp, zero_canon _ _, by simp⟩
      · intro n hn
        simp only [ZA.none, List.nil_append] at hn
        obtain ⟨s, -, rfl⟩ := List.mem_map.1 hn
        intro v hv x hx
        have := hv 0 (x + 1) (by simp) (by simpa using hx)
        rw [Zone.zero, get_build (by omega) (by omega)] at this
        simp only [Bnd.sat, ext] at this
        linarith

/-- One transition from a point of a node leads to a node with the point after the transition; its zone has no other points than the
successor zone. -/
theorem complete_point {A : TA S} {Z : ZA S K} (hC : Complete A Z.nodes) (hcan : ZonesCanon A Z.nodes) {n : ZNode S K} (hn : n ∈ Z.nodes)
    {a : Alphabet} {e : Transition S} (he : e ∈ A.edges n.s a) {q : S} (hq : e.target = some q) {v : Nat → K} (hv : n.zone.Sat v) {d : K}
    (hd : 0 < d) (hg : GuardHolds e.guard fun x => v x + d) :
    ∃ nj ∈ Z.nodes, nj.s = q ∧ nj.zone.Sat (fun x => if x ∈ e.resets then 0 else v x + d) ∧
      ∃ z', zoneSucc A.clockSize n.zone.elapse e = .ok (some z') ∧ ∀ u : Nat → K, nj.zone.Sat u → z'.Sat u := by
  obtain ⟨i, hi⟩ := List.mem_iff_getElem?.1 hn
  obtain ⟨hlt, -⟩ := List.getElem?_eq_some_iff.1 hi
  obtain ⟨c1, c2, c3⟩ := hcan n hn
  obtain ⟨⟨r, hr⟩, hedge⟩ := hC.full i hlt n hi (a, e) (mem_outEdges he) q hq
  simp only at hr hedge
  obtain ⟨z', rfl, hzn, hzs⟩ := zoneSucc_sat c1 hr hv hd hg
  obtain ⟨-, n', j, nj, -, -, hnj, hsj, hbeq⟩ := hedge z' hr
  have hmem := List.mem_of_getElem? hnj
  obtain ⟨d1, d2, -⟩ := hcan nj hmem
  have hz'c := (zoneSucc_canon (by simpa using c1) hr).1
  exact ⟨nj, hmem, hsj, beq_sat hbeq hzs (d2.diag (by omega)), z', hr, fun u hu =>
    beq_sat (beq_symm hbeq) hu (hz'c.diag (by omega))⟩

/-- A loop which resets the clock `x` after at least `c > 0` and does not reset the clock `y` has no finite zone automaton, if it can be
taken again and again. -/
theorem loop_diverges [Archimedean K] {A : TA S} {Z : ZA S K} (hC : Complete A Z.nodes) (hcan : ZonesCanon A Z.nodes)
    (hnn : ∀ n ∈ Z.nodes, NonNeg A.clockSize n.zone) {M : K} (hM : (maxBound A : Bnd K) = .fin M true) (hM0 : 0 < M)
    {s : S} {a : Alphabet} {e : Transition S} (he : e ∈ A.edges s a) (hq : e.target = some s) {x y : Nat} (hx : x ∈ e.resets) (hxn : x < A.clockSize)
    (hy : y ∉ e.resets) (hyn : y < A.clockSize) {c : K} (hc : 0 < c) (hg : ∀ v : Nat → K, GuardHolds e.guard v → c ≤ v x)
    (P : (Nat → K) → Prop) (hP : ∀ v, P v → ∃ d, 0 < d ∧ GuardHolds e.guard (fun x => v x + d) ∧ P (fun x => if x ∈ e.resets then 0 else v x + d))
    {n : ZNode S K} (hn : n ∈ Z.nodes) (hs : n.s = s) {v : Nat → K} (hv : n.zone.Sat v) (hv' : P v) : False := by
  have first : ∃ n1 ∈ Z.nodes, n1.s = s ∧ (∃ v, n1.zone.Sat v ∧ P v) ∧ ∀ v : Nat → K, n1.zone.Sat v → v x ≤ 0 := by
    obtain ⟨d, hd, hgd, hP'⟩ := hP v hv'
    subst hs
    obtain ⟨c1, c2, c3⟩ := hcan n hn
    obtain ⟨n1, h1, h2, h3, z', h4, h5⟩ := complete_point hC hcan hn he hq hv hd hgd
    refine ⟨n1, h1, h2, ⟨_, h3, hP'⟩, fun v hv => ?_⟩
    obtain ⟨z2, rfl, k1, k2, k3, k4⟩ := zoneSucc_from c1 c2 h4
    refine abstract_upper k1 (k3.trans (c3.trans hM)) hM0 (by omega) (fun v hv => ?_) v (h5 v hv)
    obtain ⟨u, d, -, -, -, he⟩ := k4 v hv
    rw [he x hxn, if_pos hx]
  have key : ∀ k : Nat, ∃ n1 ∈ Z.nodes, n1.s = s ∧ (∃ v, n1.zone.Sat v ∧ P v) ∧
      ∀ v : Nat → K, n1.zone.Sat v → v x ≤ 0 ∧ (k : K) * c ≤ v y := by
    intro k
    induction k with
    | zero =>
      obtain ⟨n1, h1, h2, h3, h4⟩ := first
      exact ⟨n1, h1, h2, h3, fun v hv => ⟨h4 v hv, by simpa using hnn n1 h1 v hv y hyn⟩⟩
    | succ k ih =>
      obtain ⟨n1, h1, rfl, ⟨v, hv, hv'⟩, h4⟩ := ih
      obtain ⟨d, hd, hgd, hP'⟩ := hP v hv'
      obtain ⟨c1, c2, c3⟩ := hcan n1 h1
      obtain ⟨n2, g1, g2, g3, z', g4, g5⟩ := complete_point hC hcan h1 he hq hv hd hgd
      refine ⟨n2, g1, g2, ⟨_, g3, hP'⟩, fun v hv => ?_⟩
      obtain ⟨z2, rfl, k1, k2, k3, k4⟩ := zoneSucc_from c1 c2 g4
      constructor
      · refine abstract_upper k1 (k3.trans (c3.trans hM)) hM0 (by omega) (fun v hv => ?_) v (g5 v hv)
        obtain ⟨u, d, -, -, -, he⟩ := k4 v hv
        rw [he x hxn, if_pos hx]
      · refine abstract_lower k1 (k3.trans (c3.trans hM)) hM0 (by omega) (by positivity) (fun v hv => ?_) v (g5 v hv)
        obtain ⟨u, d, hu, hd, ⟨u', hu', hgu⟩, he⟩ := k4 v hv
        rw [he y hyn, if_neg hy]
        obtain ⟨b1, b2⟩ := h4 u hu
        have b3 := hg u' hgu
        rw [hu' x hxn] at b3
        push_cast
        linarith
  obtain ⟨B, hB⟩ : ∃ B : K, ∀ n ∈ Z.nodes, n.zone.Nonempty → ∃ v, n.zone.Sat v ∧ v y ≤ B := by
    generalize Z.nodes = N
    induction N with
    | nil => exact ⟨0, by simp⟩
    | cons n N ih =>
      obtain ⟨B, hB⟩ := ih
      by_cases hne : n.zone.Nonempty
      · obtain ⟨v, hv⟩ := id hne
        refine ⟨max B (v y), fun n' hn' h => ?_⟩
        rcases List.mem_cons.1 hn' with rfl | hn'
        · exact ⟨v, hv, le_max_right _ _⟩
        · obtain ⟨u, hu, hle⟩ := hB n' hn' h
          exact ⟨u, hu, le_trans hle (le_max_left _ _)⟩
      · refine ⟨B, fun n' hn' h => ?_⟩
        rcases List.mem_cons.1 hn' with rfl | hn'
        · exact absurd h hne
        · exact hB n' hn' h
  obtain ⟨k, hk⟩ := Archimedean.arch (B + 1) hc
  obtain ⟨n1, h1, -, ⟨v, hv, -⟩, h4⟩ := key k
  obtain ⟨u, hu, hle⟩ := hB n1 h1 ⟨v, hv⟩
  have := (h4 u hu).2
  rw [nsmul_eq_mul] at hk
  linarith

section kmp
variable {A : TA S} {m n : Nat} {o : S}

theorem a2_maxBound {c : Int} (hc : c ∈ A.maxC) (h0 : 0 < c) : ∃ M : K, (maxBound (kmpA2 A m n o) : Bnd K) = .fin M true ∧ 0 < M := by
  have hmem : c ∈ (kmpA2 A m n o).maxC := by
    have : (kmpA2 A m n o).maxC = A.maxC ++ A.maxC := rfl
    rw [this]
    exact List.mem_append_left _ hc
  unfold maxBound
  revert hmem
  rcases (kmpA2 A m n o).maxC with _ | ⟨b, bs⟩ <;> intro hmem
  · simp at hmem
  · refine ⟨_, rfl, ?_⟩
    have key : ∀ (l : List Int) (b : Int), (b ≤ l.foldl max b) ∧ ∀ c ∈ l, c ≤ l.foldl max b := by
      intro l
      induction l with
      | nil => exact fun b => ⟨le_refl b, by simp⟩
      | cons a l ih =>
        intro b
        obtain ⟨h1, h2⟩ := ih (max b a)
        refine ⟨le_trans (le_max_left b a) h1, fun c hc => ?_⟩
        rcases List.mem_cons.1 hc with rfl | hc
        · exact le_trans (le_max_right b c) h1
        · exact h2 c hc
    have : c ≤ bs.foldl max b := by
      rcases List.mem_cons.1 hmem with rfl | hmem
      · exact (key bs c).1
      · exact (key bs b).2 c hmem
    exact_mod_cast lt_of_lt_of_le h0 this

/-- The construction of the table for a pattern with a loop at an initial state whose guard has a positive lower bound on a clock which the
loop resets does not end. -/
theorem kmpTable_diverges [Archimedean K] (hM : A.MapOk) (hC : A.ClocksDeclared) (hL : A.LabelsOk) (hA : A.Closed) (hz : A.NoZeroDuration)
    {s : S} (hs : s ∈ A.init) {a : Alphabet} (ha : 1 ≤ a) {e : Transition S} (he : e ∈ A.edges s a) (ht : e.target = some s)
    (hr : ∀ g ∈ e.guard, g.x ∈ e.resets) {d : K} (hd : 0 < d) (hg : ∀ g ∈ e.guard, g.Holds d) {g : Constraint} (hge : g ∈ e.guard)
    (hlow : ¬ g.IsUpper) (hpos : 0 < g.c) (hmax : ∃ c ∈ A.maxC, 0 < c) (hm : 1 ≤ m) (fuel : Nat) :
    kmpTable K fuel A m = .error .fuel := by
  have hM0 : (kmpA0 A m 1).MapOk := a0_mapOk hM
  have key : ∀ o, ta2za fuel (kmpA2 A m 1 o) (ZA.none : ZA (KState S × DState S) K) = .error .fuel := by
    intro o
    rcases ta2za_ok_or_fuel (K := K) (a2_edgesOk (m := m) (n := 1) (o := o) hM hC hL) fuel ZA.none with ⟨Z, hZ⟩ | h
    swap
    · exact h
    exfalso
    obtain ⟨c, hc, hc0⟩ := hmax
    obtain ⟨M, hM1, hM2⟩ := a2_maxBound (K := K) (m := m) (n := 1) (o := o) hc hc0
    obtain ⟨hcomp, hinit, -⟩ := ta2za_spec (complete_nil _) hZ
    have hcan := ta2za_zonesCanon (A := kmpA2 A m 1 o) (Z := ZA.none) (by intro n hn; simp [ZA.none] at hn) hZ
    have hnn := ta2za_nonNeg hM1 hM2 hZ
    have hsA : s ∈ A.states := hA.1 s hs
    have hF : TA.SameFlag (kmpA0 A m 1) (kmpAs A o) := a2_sameFlag hz
    have hdum : DState.dummy s ∈ (kmpAs A o).states := by
      simp only [kmpAs, List.mem_append, List.mem_map]
      exact Or.inr ⟨s, hsA, rfl⟩
    have horg : DState.orig s ∈ (kmpAs A o).states := by
      simp only [kmpAs, List.mem_append, List.mem_map]
      exact Or.inl ⟨s, hsA, rfl⟩
    have hk : ∀ k, k ≤ m → KState.ext k ∈ (kmpA0 A m 1).states := by
      intro k hk
      simp only [kmpA0, List.mem_append, List.mem_map, List.mem_cons, List.mem_range]
      exact Or.inr (Or.inr ⟨k, by omega, rfl⟩)
    have hko : KState.orig s ∈ (kmpA0 A m 1).states := by
      simp only [kmpA0, List.mem_append, List.mem_map, List.mem_cons, List.mem_range]
      exact Or.inl ⟨s, hsA, rfl⟩
    have hal : a ∈ letters := mem_letters.2 ⟨ha, hL s a (List.ne_nil_of_mem he)⟩
    -- the edges
    have e1 : (⟨some (KState.ext 1, DState.dummy s), [], []⟩ : Transition (KState S × DState S)) ∈
        (kmpA2 A m 1 o).edges (.ext 1, .orig s) epsilon :=
      (TA.mem_edges_intersection hM0).2 ⟨by rw [TA.toIState_some hF (hk 1 hm) horg]; rfl, Or.inr (Or.inl ⟨rfl, _,
        (as_orig s epsilon _).2 (Or.inr ⟨rfl, rfl⟩), .dummy s, rfl, by
          rw [TA.toIState_some hF (hk 1 hm) hdum]; rfl⟩)⟩
    have e2 : (⟨some (KState.ext 0, DState.dummy s), List.range A.clockSize, []⟩ : Transition (KState S × DState S)) ∈
        (kmpA2 A m 1 o).edges (.ext 1, .dummy s) a :=
      (TA.mem_edges_intersection hM0).2 ⟨by rw [TA.toIState_some hF (hk 1 hm) hdum]; rfl, Or.inr (Or.inr ⟨_,
        (a0_ext_succ 0 a _).2 ⟨hal, rfl⟩, _, (as_dummy s a _).2 ⟨hal, rfl⟩, .ext 0, .dummy s, rfl, rfl, by
          rw [TA.toIState_some hF (hk 0 (by omega)) hdum]; simp [TA.productTransition]⟩)⟩
    have e3 : (⟨some (KState.orig s, DState.dummy s), e.resets, widen e.guard⟩ : Transition (KState S × DState S)) ∈
        (kmpA2 A m 1 o).edges (.ext 0, .dummy s) a :=
      (TA.mem_edges_intersection hM0).2 ⟨by rw [TA.toIState_some hF (hk 0 (by omega)) hdum]; rfl, Or.inr (Or.inr ⟨_,
        (a0_ext_zero a _ hM).2 ⟨s, hs, e, he, rfl⟩, _, (as_dummy s a _).2 ⟨hal, rfl⟩, .orig s, .dummy s, by
          simp [widenEdge, liftEdge, ht], rfl, by
          rw [TA.toIState_some hF hko hdum]; simp [TA.productTransition, widenEdge, liftEdge]⟩)⟩
    have e4 : (⟨some (KState.orig s, DState.dummy s), e.resets, e.guard⟩ : Transition (KState S × DState S)) ∈
        (kmpA2 A m 1 o).edges (.orig s, .dummy s) a :=
      (TA.mem_edges_intersection hM0).2 ⟨by rw [TA.toIState_some hF hko hdum]; rfl, Or.inr (Or.inr ⟨_,
        (a0_orig s a _).2 (Or.inl ⟨e, he, rfl⟩), _, (as_dummy s a _).2 ⟨hal, rfl⟩, .orig s, .dummy s, by
          simp [liftEdge, ht], rfl, by
          rw [TA.toIState_some hF hko hdum]; simp [TA.productTransition, liftEdge]⟩)⟩
    -- the path
    obtain ⟨i, n0, hi, hs0, hv0, -⟩ := hinit (.ext 1, .orig s) (by
      simp only [kmpA2, TA.intersection, TA.productStates, List.mem_flatMap]
      refine ⟨.ext 1, by simp [kmpA0], .orig s, by simp only [kmpAs, List.mem_map]; exact ⟨s, hs, rfl⟩, ?_⟩
      have h0 : ((kmpA0 A m 1).st (.ext 1)).zeroDuration = false := rfl
      have h1 : ((kmpAs A o).st (.orig s)).zeroDuration = false := hz s hsA
      rw [if_pos (by rw [h0, h1])]
      simp)
    have hw := hC s a e he
    obtain ⟨n1, m1, s1, v1, -⟩ := complete_point hcomp hcan (List.mem_of_getElem? hi) (by rw [hs0]; exact e1) rfl hv0 one_pos
      (by simp [GuardHolds])
    obtain ⟨n2, m2, s2, v2, -⟩ := complete_point hcomp hcan m1 (by rw [s1]; exact e2) rfl v1 one_pos
      (by simp [GuardHolds])
    obtain ⟨n3, m3, s3, v3, -⟩ := complete_point hcomp hcan m2 (by rw [s2]; exact e3) rfl v2 hd (by
      intro g' hg'
      have hmem : g' ∈ e.guard := List.mem_of_mem_filter hg'
      have := hw.1 g' hmem
      simp only [List.mem_range, this, if_true, zero_add]
      exact hg g' hmem)
    have hgx : g.x ∈ e.resets := hr g hge
    have hsz : (kmpA2 A m 1 o).clockSize = A.clockSize + A.clockSize := by simp [kmpA2, TA.intersection, TA.clockSize, kmpA0, kmpAs]
    have hlt := hw.2 g.x hgx
    refine loop_diverges hcomp hcan hnn hM1 hM2 e4 rfl (x := g.x) (y := A.clockSize) hgx (by omega)
      (fun hy => absurd (hw.2 _ hy) (by omega)) (by omega) (c := (g.c : K)) (by exact_mod_cast hpos) ?_
      (fun v => ∀ x ∈ e.resets, v x = 0) ?_ m3 s3 v3 ?_
    · intro v hv
      have := hv g hge
      revert this hlow
      clear * -
      rcases g with ⟨x, _ | _ | _ | _, c⟩ <;> simp [Constraint.Holds, Constraint.IsUpper, le_of_lt] <;> intro h <;>
        first | exact h | exact le_of_lt h
    · intro v hv
      refine ⟨d, hd, ?_, fun x hx => by simp only; rw [if_pos hx]⟩
      intro g' hg'
      simp only
      rw [hv _ (hr g' hg'), zero_add]
      exact hg g' hg'
    · intro x hx
      simp only
      rw [if_pos hx]
  unfold kmpTable
  rcases hst : A.states with _ | ⟨o, os⟩
  · exact absurd (hA.1 s hs) (by rw [hst]; simp)
  · obtain ⟨m, rfl⟩ := Nat.exists_eq_succ_of_ne_zero (by omega : m ≠ 0)
    unfold kmpLoop kmpSearch
    simp only [bind, Except.bind]
    rw [key o]

end kmp

end Verif
