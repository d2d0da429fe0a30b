import Verif.Spec.ZA
import Verif.Lemmas.Zone
import Verif.Lemmas.TA
import Verif.Lemmas.Intersection

set_option linter.unusedSectionVars false

/-! Zone automata cover the runs of timed automata. -/

namespace Verif

variable {S K : Type} [Field K] [LinearOrder K] [IsStrictOrderedRing K]

open Bnd Zone

theorem zoneGuard_sat {n : Nat} {gs : List Constraint} {z z' : Zone K} (hn : z.n = n + 1)
    (h : zoneGuard n z gs = .ok z') :
    z'.n = n + 1 ∧ ∀ v : Nat → K, z'.Sat v ↔ z.Sat v ∧ GuardHolds gs v := by
  induction gs generalizing z with
  | nil =>
    cases h
    exact ⟨hn, fun v => by simp [GuardHolds]⟩
  | cons g gs ih =>
    unfold zoneGuard at h
    split_ifs at h with hx
    obtain ⟨h1, h2⟩ := ih (by cases g.odr <;> simpa using hn) h
    refine ⟨h1, fun v => ?_⟩
    rw [h2 v]
    have hx1 : g.x + 1 < z.n := by omega
    have hx0 : 0 < z.n := by omega
    rcases g with ⟨x, odr, c⟩
    cases odr <;> simp only [] <;> rw [tighten_Sat (by assumption) (by assumption)] <;>
      simp [GuardHolds, Constraint.Holds, Bnd.sat, Zone.ext, and_assoc, neg_lt_neg_iff, neg_le_neg_iff]

theorem zoneReset_sat {n : Nat} {xs : List Nat} {z z' : Zone K} (hn : z.n = n + 1)
    (h : zoneReset n z xs = .ok z') {v : Nat → K} (hv : z.Sat v) :
    z'.n = n + 1 ∧ z'.Sat (fun x => if x ∈ xs then 0 else v x) := by
  induction xs generalizing z v with
  | nil =>
    cases h
    exact ⟨hn, by simpa using hv⟩
  | cons x xs ih =>
    unfold zoneReset at h
    split_ifs at h with hx
    obtain ⟨h1, h2⟩ := ih (by simpa using hn) h (sat_reset (by omega) hv)
    refine ⟨h1, ?_⟩
    convert h2 using 1
    funext y
    by_cases hy : y ∈ xs
    · simp [hy]
    · by_cases hxy : y = x
      · simp [hxy]
      · simp [hy, hxy, Function.update_apply]

theorem zoneSucc_sat {n : Nat} {z : Zone K} (hn : z.n = n + 1) {e : Transition S} {r : Option (Zone K)}
    (h : zoneSucc n z.elapse e = .ok r) {v : Nat → K} (hv : z.Sat v) {d : K} (hd : 0 < d)
    (hg : GuardHolds e.guard (fun x => v x + d)) :
    ∃ z', r = some z' ∧ z'.n = n + 1 ∧ z'.Sat (fun x => if x ∈ e.resets then 0 else v x + d) := by
  unfold zoneSucc at h
  simp only [bind, Except.bind] at h
  split at h
  · cases h
  · rename_i z1 hz1
    obtain ⟨h1, h2⟩ := zoneGuard_sat (by simpa using hn) hz1
    have hs : z1.Sat (fun x => v x + d) := (h2 _).2 ⟨sat_elapse hv hd, hg⟩
    have hsat : z1.isSatisfiable.1 = true := isSatisfiable_iff'.2 ⟨_, hs⟩
    rw [if_pos hsat] at h
    split at h
    · cases h
    · rename_i z2 hz2
      cases h
      obtain ⟨h3, h4⟩ := zoneReset_sat (z := z1.canonize) (by simpa using h1) hz2 (canonize_Sat.2 hs)
      exact ⟨_, rfl, by simpa using h3, canonize_Sat.2 (abstractize_Sat h4)⟩

theorem isSatisfiable_snd (z : Zone K) : z.isSatisfiable.2 = z.canonize := rfl

theorem zoneSucc_wf {n : Nat} {z : Zone K} (hn : z.n = n + 1) {e : Transition S} {z' : Zone K}
    (h : zoneSucc n z e = .ok (some z')) : z'.n = n + 1 ∧ z'.Nonempty := by
  unfold zoneSucc at h
  simp only [bind, Except.bind] at h
  split at h
  · cases h
  · rename_i z1 hz1
    obtain ⟨h1, -⟩ := zoneGuard_sat hn hz1
    by_cases hb : z1.isSatisfiable.1 = true
    · rw [if_pos hb] at h
      split at h
      · cases h
      · rename_i z2 hz2
        simp only [Except.ok.injEq, Option.some.injEq] at h
        subst h
        obtain ⟨v, hv⟩ := isSatisfiable_iff'.1 hb
        obtain ⟨h3, h4⟩ := zoneReset_sat (z := z1.canonize) (by simpa using h1) hz2 (canonize_Sat.2 hv)
        exact ⟨by simpa using h3, _, canonize_Sat.2 (abstractize_Sat h4)⟩
    · rw [if_neg hb] at h
      cases h

theorem beq_sat {z z' : Zone K} (h : z.beq z' = true) {v : Nat → K} (hv : z'.Sat v)
    (h0 : (z.get 0 0).sat 0) : z.Sat v := by
  simp only [Zone.beq, Bool.and_eq_true, decide_eq_true_eq, List.all_eq_true, List.mem_range,
    Bool.or_eq_true] at h
  obtain ⟨h1, h2⟩ := h
  intro i j hi hj
  rcases h2 i hi j hj with ⟨rfl, rfl⟩ | h3
  · simpa using h0
  · rw [h3]
    exact hv i j (h1 ▸ hi) (h1 ▸ hj)

/-! ### the breadth first search -/

/-- The state of the search `N'` extends `N`. -/
def NodesLe (N N' : List (ZNode S K)) : Prop :=
  ∀ (i : Nat) (n : ZNode S K), N[i]? = some n → ∃ n' : ZNode S K, N'[i]? = some n' ∧ n'.s = n.s ∧ n'.zone = n.zone ∧ n'.isMatch = n.isMatch ∧
    ∀ p ∈ n.next, p ∈ n'.next

theorem NodesLe.refl (N : List (ZNode S K)) : NodesLe N N := fun _ n h => ⟨n, h, rfl, rfl, rfl, fun _ h => h⟩

theorem NodesLe.trans {N N' N'' : List (ZNode S K)} (h1 : NodesLe N N') (h2 : NodesLe N' N'') : NodesLe N N'' := by
  intro i n h
  obtain ⟨n', h', a, b, c, d⟩ := h1 i n h
  obtain ⟨n'', h'', a', b', c', d'⟩ := h2 i n' h'
  exact ⟨n'', h'', a'.trans a, b'.trans b, c'.trans c, fun p hp => d' p (d p hp)⟩

theorem NodesLe.length {N N' : List (ZNode S K)} (h : NodesLe N N') : N.length ≤ N'.length := by
  by_contra hc
  have hl : N'.length < N.length := by omega
  obtain ⟨n', h', -⟩ := h N'.length _ (List.getElem?_eq_getElem hl)
  rw [List.getElem?_eq_none (Nat.le_refl _)] at h'
  cases h'

theorem nodesLe_pushEdge (N : List (ZNode S K)) (i : Nat) (c : Alphabet) (j : Nat) :
    NodesLe N (pushEdge N i c j) := by
  intro k n hk
  unfold pushEdge
  by_cases h : i = k
  · subst h
    exact ⟨{ n with next := n.next ++ [(c, j)] }, by simp [List.getElem?_modify, hk], rfl, rfl, rfl,
      fun p hp => by simp [hp]⟩
  · exact ⟨n, by simp [List.getElem?_modify, hk, h], rfl, rfl, rfl, fun p hp => hp⟩

theorem nodesLe_append (N M : List (ZNode S K)) : NodesLe N (N ++ M) := by
  intro k n hk
  refine ⟨n, ?_, rfl, rfl, rfl, fun p hp => hp⟩
  obtain ⟨h, -⟩ := List.getElem?_eq_some_iff.1 hk
  rw [List.getElem?_append_left h, hk]

theorem pushEdge_length (N : List (ZNode S K)) (i : Nat) (c : Alphabet) (j : Nat) :
    (pushEdge N i c j).length = N.length := by simp [pushEdge]

theorem pushEdge_mem {N : List (ZNode S K)} {i : Nat} {n : ZNode S K} (hn : N[i]? = some n) (c : Alphabet)
    (j : Nat) : ∃ n', (pushEdge N i c j)[i]? = some n' ∧ n'.s = n.s ∧ n'.zone = n.zone ∧ (c, j) ∈ n'.next :=
  ⟨{ n with next := n.next ++ [(c, j)] }, by simp [pushEdge, List.getElem?_modify, hn], rfl, rfl, by simp⟩

variable [DecidableEq S]

/-- The transition `(c, e)` of the state `i` has its edge. -/
def EdgeDone (A : TA S) (N : List (ZNode S K)) (i : Nat) (s : S) (zone : Zone K) (p : Alphabet × Transition S) :
    Prop :=
  ∀ q, p.2.target = some q → (∃ r, zoneSucc A.clockSize zone.elapse p.2 = .ok r) ∧
    ∀ z, zoneSucc A.clockSize zone.elapse p.2 = .ok (some z) → p.1 < 127 ∧
      ∃ (n : ZNode S K) (j : Nat) (nj : ZNode S K), N[i]? = some n ∧ (p.1, j) ∈ n.next ∧ N[j]? = some nj ∧ nj.s = q ∧ nj.zone.beq z = true

/-- The state `i` has all its edges. -/
def Expanded (A : TA S) (N : List (ZNode S K)) (i : Nat) : Prop :=
  ∀ n : ZNode S K, N[i]? = some n → ∀ p ∈ outEdges A n.s, EdgeDone A N i n.s n.zone p

theorem EdgeDone.mono {A : TA S} {N N' : List (ZNode S K)} (hle : NodesLe N N') {i : Nat} {s : S}
    {zone : Zone K} {p : Alphabet × Transition S} (h : EdgeDone A N i s zone p) : EdgeDone A N' i s zone p := by
  intro q hq
  obtain ⟨h1, h2⟩ := h q hq
  refine ⟨h1, fun z hz => ?_⟩
  obtain ⟨hc, n, j, nj, hn, hj, hnj, hs, hb⟩ := h2 z hz
  obtain ⟨n', hn', -, -, -, hsub⟩ := hle i n hn
  obtain ⟨nj', hnj', e1, e2, -, -⟩ := hle j nj hnj
  exact ⟨hc, n', j, nj', hn', hsub _ hj, hnj', e1.trans hs, by rw [e2]; exact hb⟩

theorem Expanded.mono {A : TA S} {N N' : List (ZNode S K)} (hle : NodesLe N N') {i : Nat} (hi : i < N.length)
    (h : Expanded A N i) : Expanded A N' i := by
  intro n' hn' p hp
  obtain ⟨n, hn, e1, e2, -⟩ := hle i _ (List.getElem?_eq_getElem hi)
  rw [hn'] at hn
  cases hn
  rw [e1, e2]
  rw [e1] at hp
  exact (h _ (List.getElem?_eq_getElem hi) p hp).mono hle

theorem findNode_some {N : List (ZNode S K)} {q : S} {z : Zone K} {j : Nat} (h : findNode N q z = some j) :
    ∃ nj, N[j]? = some nj ∧ nj.s = q ∧ nj.zone.beq z = true := by
  unfold findNode at h
  rw [List.findIdx?_eq_some_iff_getElem] at h
  obtain ⟨hj, h1, -⟩ := h
  simp only [Bool.and_eq_true, decide_eq_true_eq] at h1
  exact ⟨_, List.getElem?_eq_getElem hj, h1.1, h1.2⟩

theorem beq_self (z : Zone K) : z.beq z = true := by simp [Zone.beq]

theorem beq_n {z z' : Zone K} (h : z.beq z' = true) : z.n = z'.n := by
  simp only [Zone.beq, Bool.and_eq_true, decide_eq_true_eq] at h
  exact h.1

theorem expandEdge_spec {A : TA S} {i : Nat} {n0 : ZNode S K} {c : Alphabet} {e : Transition S}
    {st st' : List (ZNode S K) × List Nat} (hi : st.1[i]? = some n0)
    (h : expandEdge A i n0.zone.elapse c e st = .ok st') :
    NodesLe st.1 st'.1 ∧ (∀ k ∈ st.2, k ∈ st'.2) ∧
      (∀ k, st.1.length ≤ k → k < st'.1.length → k ∈ st'.2) ∧
      EdgeDone A st'.1 i n0.s n0.zone (c, e) := by
  unfold expandEdge at h
  split at h
  · rename_i ht
    cases h
    refine ⟨NodesLe.refl _, fun k hk => hk, fun k h1 h2 => by omega, ?_⟩
    intro q hq
    simp [ht] at hq
  · rename_i q ht
    simp only [bind, Except.bind] at h
    split at h
    · cases h
    · rename_i r hr
      split at h
      · cases h
        refine ⟨NodesLe.refl _, fun k hk => hk, fun k h1 h2 => by omega, ?_⟩
        intro q' hq'
        refine ⟨⟨_, hr⟩, fun z hz => ?_⟩
        simp only at hz
        rw [hr] at hz
        cases hz
      · rename_i z
        split_ifs at h with hc
        split at h
        · rename_i j hj
          cases h
          obtain ⟨nj, hnj, e1, e2⟩ := findNode_some hj
          have hle := nodesLe_pushEdge st.1 i c j
          refine ⟨hle, fun k hk => hk, fun k h1 h2 => by rw [pushEdge_length] at h2; omega, ?_⟩
          intro q' hq'
          simp only [ht, Option.some.injEq] at hq'
          subst hq'
          refine ⟨⟨_, hr⟩, fun z' hz' => ?_⟩
          simp only at hz'
          rw [hr] at hz'
          cases hz'
          obtain ⟨n', hn', -, -, hm⟩ := pushEdge_mem hi c j
          obtain ⟨nj', hnj', f1, f2, -⟩ := hle j nj hnj
          exact ⟨hc, n', j, nj', hn', hm, hnj', f1.trans e1, by rw [f2]; exact e2⟩
        · cases h
          have hi' : (st.1 ++ [⟨q, z, (A.st q).isMatch, []⟩])[i]? = some n0 := by
            obtain ⟨h, -⟩ := List.getElem?_eq_some_iff.1 hi
            rw [List.getElem?_append_left h, hi]
          have hle := (nodesLe_append st.1 [⟨q, z, (A.st q).isMatch, []⟩]).trans
            (nodesLe_pushEdge _ i c st.1.length)
          refine ⟨hle, fun k hk => by simp [hk], fun k h1 h2 => ?_, ?_⟩
          · rw [pushEdge_length] at h2
            simp at h2
            simp
            right
            omega
          · intro q' hq'
            simp only [ht, Option.some.injEq] at hq'
            subst hq'
            refine ⟨⟨_, hr⟩, fun z' hz' => ?_⟩
            simp only at hz'
            rw [hr] at hz'
            cases hz'
            obtain ⟨n', hn', -, -, hm⟩ := pushEdge_mem hi' c st.1.length
            have hnew : (st.1 ++ [⟨q, z, (A.st q).isMatch, []⟩])[st.1.length]? =
                some ⟨q, z, (A.st q).isMatch, []⟩ := by simp
            obtain ⟨nj', hnj', f1, f2, -⟩ := nodesLe_pushEdge _ i c st.1.length _ _ hnew
            exact ⟨hc, n', _, nj', hn', hm, hnj', f1, by rw [f2]; exact beq_self z⟩

theorem expandNode_spec {A : TA S} {i : Nat} {st st' : List (ZNode S K) × List Nat}
    (h : expandNode A i st = .ok st') :
    NodesLe st.1 st'.1 ∧ (∀ k ∈ st.2, k ∈ st'.2) ∧
      (∀ k, st.1.length ≤ k → k < st'.1.length → k ∈ st'.2) ∧ (i < st.1.length → Expanded A st'.1 i) := by
  unfold expandNode at h
  split at h
  · rename_i hi
    cases h
    refine ⟨NodesLe.refl _, fun k hk => hk, fun k h1 h2 => by omega, fun hc => ?_⟩
    rw [List.getElem?_eq_none_iff] at hi
    omega
  · rename_i n0 hi
    have key : ∀ (ps : List (Alphabet × Transition S)) (st st' : List (ZNode S K) × List Nat) (n : ZNode S K),
        st.1[i]? = some n → n.s = n0.s → n.zone = n0.zone →
        ps.foldlM (fun st p => expandEdge A i n0.zone.elapse p.1 p.2 st) st = Except.ok st' →
        NodesLe st.1 st'.1 ∧ (∀ k ∈ st.2, k ∈ st'.2) ∧
          (∀ k, st.1.length ≤ k → k < st'.1.length → k ∈ st'.2) ∧
          ∀ p ∈ ps, EdgeDone A st'.1 i n0.s n0.zone p := by
      intro ps
      induction ps with
      | nil =>
        intro st st' n hn e1 e2 h
        cases h
        exact ⟨NodesLe.refl _, fun k hk => hk, fun k h1 h2 => by omega, by simp⟩
      | cons p ps ih =>
        intro st st' n hn e1 e2 h
        rw [List.foldlM_cons] at h
        simp only [bind, Except.bind] at h
        split at h
        · cases h
        · rename_i st1 hst1
          have hst1' : expandEdge A i n.zone.elapse p.1 p.2 st = .ok st1 := by rw [e2]; exact hst1
          obtain ⟨a1, a2, a3, a4⟩ := expandEdge_spec hn hst1'
          obtain ⟨n1, hn1, f1, f2, -⟩ := a1 i n hn
          obtain ⟨b1, b2, b3, b4⟩ := ih st1 st' n1 hn1 (f1.trans e1) (f2.trans e2) h
          refine ⟨a1.trans b1, fun k hk => b2 k (a2 k hk), ?_, ?_⟩
          · intro k h1 h2
            rcases Nat.lt_or_ge k st1.1.length with hc | hc
            · exact b2 k (a3 k h1 hc)
            · exact b3 k hc h2
          · intro p' hp'
            rcases List.mem_cons.1 hp' with rfl | hp'
            · rw [e1, e2] at a4
              exact a4.mono b1
            · exact b4 p' hp'
    obtain ⟨a1, a2, a3, a4⟩ := key _ _ _ n0 hi rfl rfl h
    refine ⟨a1, a2, a3, fun _ n' hn' p hp => ?_⟩
    obtain ⟨n1, hn1, f1, f2, -⟩ := a1 i n0 hi
    rw [hn'] at hn1
    cases hn1
    rw [f1, f2]
    rw [f1] at hp
    exact a4 p hp

theorem expandAll_spec {A : TA S} {fuel : Nat} {N N' : List (ZNode S K)} {conf : List Nat}
    (hex : ∀ i, i < N.length → i ∈ conf ∨ Expanded A N i) (h : expandAll A fuel N conf = .ok N') :
    NodesLe N N' ∧ ∀ i, i < N'.length → Expanded A N' i := by
  induction fuel generalizing N conf with
  | zero => simp [expandAll] at h
  | succ fuel ih =>
    unfold expandAll at h
    split_ifs at h with hemp
    · cases h
      refine ⟨NodesLe.refl _, fun i hi => ?_⟩
      rcases hex i hi with hc | hc
      · simp only [List.isEmpty_iff] at hemp
        subst hemp
        simp at hc
      · exact hc
    · have key : ∀ (cs : List Nat) (st st' : List (ZNode S K) × List Nat),
          (∀ i, i < st.1.length → i ∈ cs ∨ i ∈ st.2 ∨ Expanded A st.1 i) →
          cs.foldlM (fun st i => expandNode A i st) st = Except.ok st' →
          NodesLe st.1 st'.1 ∧ ∀ i, i < st'.1.length → i ∈ st'.2 ∨ Expanded A st'.1 i := by
        intro cs
        induction cs with
        | nil =>
          intro st st' hex h
          cases h
          exact ⟨NodesLe.refl _, fun i hi => by simpa using hex i hi⟩
        | cons c cs ihc =>
          intro st st' hex h
          rw [List.foldlM_cons] at h
          simp only [bind, Except.bind] at h
          split at h
          · cases h
          · rename_i st1 hst1
            obtain ⟨a1, a2, a3, a4⟩ := expandNode_spec hst1
            obtain ⟨b1, b2⟩ := ihc st1 st' (by
              intro i hi
              rcases Nat.lt_or_ge i st.1.length with hlt | hge
              · rcases hex i hlt with h1 | h1 | h1
                · rcases List.mem_cons.1 h1 with rfl | h1
                  · exact Or.inr (Or.inr (a4 hlt))
                  · exact Or.inl h1
                · exact Or.inr (Or.inl (a2 i h1))
                · exact Or.inr (Or.inr (h1.mono a1 hlt))
              · exact Or.inr (Or.inl (a3 i hge hi))) h
            exact ⟨a1.trans b1, b2⟩
      simp only [bind, Except.bind] at h
      split at h
      · cases h
      · rename_i st1 hst1
        obtain ⟨a1, a2⟩ := key conf (N, []) st1 (fun i hi => by
          rcases hex i hi with h1 | h1
          · exact Or.inl h1
          · exact Or.inr (Or.inr h1)) hst1
        obtain ⟨b1, b2⟩ := ih a2 h
        exact ⟨a1.trans b1, b2⟩

/-! ### what holds of every state of the search -/

theorem expandAll_inv {A : TA S} (P : List (ZNode S K) → Prop)
    (hP : ∀ (N : List (ZNode S K)) (i : Nat) (c : Alphabet) (e : Transition S) (q : S) (z : Zone K) (j : Nat)
      (n : ZNode S K), P N → N[i]? = some n → (c, e) ∈ outEdges A n.s → e.target = some q →
      zoneSucc A.clockSize n.zone.elapse e = .ok (some z) → c < 127 → findNode N q z = some j →
      P (pushEdge N i c j))
    (hP' : ∀ (N : List (ZNode S K)) (i : Nat) (c : Alphabet) (e : Transition S) (q : S) (z : Zone K)
      (n : ZNode S K), P N → N[i]? = some n → (c, e) ∈ outEdges A n.s → e.target = some q →
      zoneSucc A.clockSize n.zone.elapse e = .ok (some z) → c < 127 → findNode N q z = none →
      P (pushEdge (N ++ [⟨q, z, (A.st q).isMatch, []⟩]) i c N.length))
    {fuel : Nat} {N N' : List (ZNode S K)} {conf : List Nat} (hN : P N)
    (h : expandAll A fuel N conf = .ok N') : P N' := by
  have hedge : ∀ {i : Nat} {n0 : ZNode S K} {c : Alphabet} {e : Transition S}
      {st st' : List (ZNode S K) × List Nat}, st.1[i]? = some n0 → (c, e) ∈ outEdges A n0.s → P st.1 →
      expandEdge A i n0.zone.elapse c e st = .ok st' → P st'.1 := by
    intro i n0 c e st st' hi hc hPst h
    unfold expandEdge at h
    split at h
    · cases h
      exact hPst
    · rename_i q ht
      simp only [bind, Except.bind] at h
      split at h
      · cases h
      · rename_i r hr
        split at h
        · cases h
          exact hPst
        · split_ifs at h with hc127
          split at h
          · cases h
            exact hP _ _ _ _ _ _ _ _ hPst hi hc ht hr hc127 (by assumption)
          · cases h
            exact hP' _ _ _ _ _ _ _ hPst hi hc ht hr hc127 (by assumption)
  have hnode : ∀ {i : Nat} {st st' : List (ZNode S K) × List Nat}, P st.1 → expandNode A i st = .ok st' →
      P st'.1 := by
    intro i st st' hPst h
    unfold expandNode at h
    split at h
    · cases h
      exact hPst
    · rename_i n0 hi
      have key : ∀ (ps : List (Alphabet × Transition S)) (st st' : List (ZNode S K) × List Nat) (n : ZNode S K),
          st.1[i]? = some n → n.s = n0.s → n.zone = n0.zone → P st.1 →
          (∀ p ∈ ps, p ∈ outEdges A n0.s) →
          ps.foldlM (fun st p => expandEdge A i n0.zone.elapse p.1 p.2 st) st = Except.ok st' → P st'.1 := by
        intro ps
        induction ps with
        | nil =>
          intro st st' n hn e1 e2 hPst _ h
          cases h
          exact hPst
        | cons p ps ih =>
          intro st st' n hn e1 e2 hPst hsub h
          rw [List.foldlM_cons] at h
          simp only [bind, Except.bind] at h
          split at h
          · cases h
          · rename_i st1 hst1
            have hst1' : expandEdge A i n.zone.elapse p.1 p.2 st = .ok st1 := by rw [e2]; exact hst1
            have hPst1 := hedge hn (by rw [e1]; exact hsub p (by simp)) hPst hst1'
            obtain ⟨a1, -⟩ := expandEdge_spec hn hst1'
            obtain ⟨n1, hn1, f1, f2, -⟩ := a1 i n hn
            exact ih st1 st' n1 hn1 (f1.trans e1) (f2.trans e2) hPst1 (fun p hp => hsub p (by simp [hp])) h
      exact key _ _ _ n0 hi rfl rfl hPst (fun p hp => hp) h
  induction fuel generalizing N conf with
  | zero => simp [expandAll] at h
  | succ fuel ih =>
    unfold expandAll at h
    split_ifs at h with hemp
    · cases h
      exact hN
    · simp only [bind, Except.bind] at h
      split at h
      · cases h
      · rename_i st1 hst1
        have key : ∀ (cs : List Nat) (st st' : List (ZNode S K) × List Nat), P st.1 →
            cs.foldlM (fun st i => expandNode A i st) st = Except.ok st' → P st'.1 := by
          intro cs
          induction cs with
          | nil =>
            intro st st' hPst h
            cases h
            exact hPst
          | cons c cs ihc =>
            intro st st' hPst h
            rw [List.foldlM_cons] at h
            simp only [bind, Except.bind] at h
            split at h
            · cases h
            · rename_i st2 hst2
              exact ihc _ _ (hnode hPst hst2) h
        exact ih (key conf (N, []) st1 hN hst1) h

/-! ### the zone automaton -/

/-- A state with a proper zone, whose edges come from transitions. -/
structure NodeOk (A : TA S) (N : List (ZNode S K)) (n : ZNode S K) : Prop where
  size : n.zone.n = A.clockSize + 1
  nonempty : n.zone.Nonempty
  edges : ∀ p ∈ n.next, p.1 < 127 ∧ ∃ nj : ZNode S K, N[p.2]? = some nj ∧
    ∃ e, (p.1, e) ∈ outEdges A n.s ∧ e.target = some nj.s

theorem NodeOk.mono {A : TA S} {N N' : List (ZNode S K)} (hle : NodesLe N N') {n : ZNode S K}
    (h : NodeOk A N n) : NodeOk A N' n := by
  refine ⟨h.size, h.nonempty, fun p hp => ?_⟩
  obtain ⟨h1, nj, h2, e, h3, h4⟩ := h.edges p hp
  obtain ⟨nj', h2', f, -⟩ := hle _ _ h2
  exact ⟨h1, nj', h2', e, h3, by rw [f]; exact h4⟩

/-- All states are proper. -/
def NodesOk (A : TA S) (N : List (ZNode S K)) : Prop := ∀ n ∈ N, NodeOk A N n

theorem NodesOk.push {A : TA S} {N : List (ZNode S K)} (h : NodesOk A N) {i j : Nat} {c : Alphabet}
    {n nj : ZNode S K} (hi : N[i]? = some n) (hj : N[j]? = some nj) (hc : c < 127) {e : Transition S}
    (he : (c, e) ∈ outEdges A n.s) (ht : e.target = some nj.s) : NodesOk A (pushEdge N i c j) := by
  have hle := nodesLe_pushEdge N i c j
  intro n' hn'
  obtain ⟨k, hk⟩ := List.mem_iff_getElem?.1 hn'
  unfold pushEdge at hk
  rw [List.getElem?_modify] at hk
  by_cases hik : i = k
  · subst hik
    simp only [if_true, hi, Option.map_eq_map, Option.map_some, Option.some.injEq] at hk
    subst hk
    have h0 := (h n (List.mem_of_getElem? hi)).mono hle
    refine ⟨h0.size, h0.nonempty, fun p hp => ?_⟩
    simp only [List.mem_append, List.mem_singleton] at hp
    rcases hp with hp | rfl
    · exact h0.edges p hp
    · obtain ⟨nj', hj', f, -⟩ := hle _ _ hj
      exact ⟨hc, nj', hj', e, he, by rw [f]; exact ht⟩
  · simp only [hik, if_false] at hk
    rcases hN : N[k]? with _ | n0
    · simp [hN] at hk
    · simp only [hN, Option.map_eq_map, Option.map_some, Option.some.injEq, id_eq] at hk
      subst hk
      exact (h n0 (List.mem_of_getElem? hN)).mono hle

theorem expandAll_nodesOk {A : TA S} {fuel : Nat} {N N' : List (ZNode S K)} {conf : List Nat}
    (hN : NodesOk A N) (h : expandAll A fuel N conf = .ok N') : NodesOk A N' := by
  refine expandAll_inv (NodesOk A) ?_ ?_ hN h
  · intro N i c e q z j n hN hi he ht hz hc hj
    obtain ⟨nj, hnj, hs, -⟩ := findNode_some hj
    exact hN.push hi hnj hc he (by rw [hs]; exact ht)
  · intro N i c e q z n hN hi he ht hz hc hj
    have hn0 := hN n (List.mem_of_getElem? hi)
    obtain ⟨w1, w2⟩ := zoneSucc_wf (by simpa using hn0.size) hz
    have hle := nodesLe_append N [⟨q, z, (A.st q).isMatch, []⟩]
    refine NodesOk.push (n := n) (nj := ⟨q, z, (A.st q).isMatch, []⟩) ?_ ?_ (by simp) hc he ht
    · intro n' hn'
      rcases List.mem_append.1 hn' with h1 | h1
      · exact (hN n' h1).mono hle
      · simp only [List.mem_singleton] at h1
        subst h1
        exact ⟨w1, w2, by simp⟩
    · obtain ⟨h, -⟩ := List.getElem?_eq_some_iff.1 hi
      rw [List.getElem?_append_left h, hi]

theorem expandAll_isMatch {A : TA S} {fuel : Nat} {N N' : List (ZNode S K)} {conf : List Nat}
    (hN : ∀ n ∈ N, n.isMatch = (A.st n.s).isMatch) (h : expandAll A fuel N conf = .ok N') :
    ∀ n ∈ N', n.isMatch = (A.st n.s).isMatch := by
  have push : ∀ (N : List (ZNode S K)) i c j, (∀ n ∈ N, n.isMatch = (A.st n.s).isMatch) →
      ∀ n ∈ pushEdge N i c j, n.isMatch = (A.st n.s).isMatch := by
    intro N i c j hN n hn
    obtain ⟨k, hk⟩ := List.mem_iff_getElem?.1 hn
    unfold pushEdge at hk
    rw [List.getElem?_modify] at hk
    rcases hk' : N[k]? with _ | n0
    · simp [hk'] at hk
    · have := hN n0 (List.mem_of_getElem? hk')
      rw [hk'] at hk
      split_ifs at hk <;> simp only [Option.map_eq_map, Option.map_some, Option.some.injEq, id_eq] at hk <;>
        subst hk <;> exact this
  refine expandAll_inv (fun N => ∀ n ∈ N, n.isMatch = (A.st n.s).isMatch) ?_ ?_ hN h
  · intro N i c e q z j n hN hi he ht hz hc hj
    exact push _ _ _ _ hN
  · intro N i c e q z n hN hi he ht hz hc hj
    refine push _ _ _ _ ?_
    intro n' hn'
    rcases List.mem_append.1 hn' with h1 | h1
    · exact hN n' h1
    · simp only [List.mem_singleton] at h1
      subst h1
      rfl

/-- The states are proper and have all their edges. -/
structure Complete (A : TA S) (N : List (ZNode S K)) : Prop where
  ok : NodesOk A N
  full : ∀ i, i < N.length → Expanded A N i

theorem complete_nil (A : TA S) : Complete A ([] : List (ZNode S K)) :=
  ⟨fun n hn => by simp at hn, fun i hi => by simp at hi⟩

theorem zero_sat (n : Nat) (M : Bnd K) : (Zone.zero n M : Zone K).Sat (fun _ => 0) := by
  intro i j hi hj
  have e : ∀ i, Zone.ext (fun _ => (0 : K)) i = 0 := by
    intro i
    cases i <;> rfl
  have hi' : i < n := hi
  have hj' : j < n := hj
  rw [e, e, Zone.zero, get_build hi' hj']
  simp [Bnd.sat]

theorem ta2za_spec {A : TA S} {fuel : Nat} {Z Z' : ZA S K} (hZ : Complete A Z.nodes)
    (h : ta2za fuel A Z = .ok Z') :
    Complete A Z'.nodes ∧
      (∀ s ∈ A.init, ∃ (i : Nat) (n : ZNode S K), Z'.nodes[i]? = some n ∧ n.s = s ∧
        n.zone.Sat (fun _ => 0) ∧ (Z.nodes = [] → i ∈ Z'.init)) ∧
      (Z.nodes = [] → (∀ n ∈ Z'.nodes, n.isMatch = (A.st n.s).isMatch)) := by
  unfold ta2za at h
  simp only at h
  split_ifs at h with hemp
  · cases h
    refine ⟨hZ, ?_, ?_⟩
    · intro s hs
      rw [List.isEmpty_iff, List.filter_eq_nil_iff] at hemp
      have := hemp s hs
      rw [Bool.not_eq_true, Option.isNone_eq_false_iff] at this
      obtain ⟨i, hi⟩ := Option.isSome_iff_exists.1 this
      obtain ⟨n, hn, hs', hb⟩ := findNode_some hi
      obtain ⟨v, hv⟩ := (hZ.ok n (List.mem_of_getElem? hn)).nonempty
      refine ⟨i, n, hn, hs', ?_, ?_⟩
      · refine beq_sat hb (zero_sat _ _) (sat_diag hv ?_)
        have := (hZ.ok n (List.mem_of_getElem? hn)).size
        omega
      · intro h0
        rw [h0] at hn
        simp at hn
    · intro h0
      rw [h0]
      simp
  · simp only [bind, Except.bind] at h
    split at h
    · cases h
    · rename_i N' hN'
      simp only [Except.ok.injEq] at h
      subst h
      set z0 : Zone K := Zone.zero (A.clockSize + 1) (maxBound A) with hz0
      set init := A.init.filter fun s => (findNode Z.nodes s z0).isNone with hinit
      set new : List (ZNode S K) := init.map fun s => ⟨s, z0, (A.st s).isMatch, []⟩ with hnew
      have hle0 := nodesLe_append Z.nodes new
      have hok : NodesOk A (Z.nodes ++ new) := by
        intro n hn
        rcases List.mem_append.1 hn with hn | hn
        · exact (hZ.ok n hn).mono hle0
        · rw [hnew] at hn
          obtain ⟨s, -, rfl⟩ := List.mem_map.1 hn
          exact ⟨by simp [hz0, Zone.zero], ⟨_, zero_sat _ _⟩, by simp⟩
      obtain ⟨hle, hex⟩ := expandAll_spec (conf := (List.range init.length).map (Z.nodes.length + ·)) (by
        intro i hi
        rcases Nat.lt_or_ge i Z.nodes.length with hc | hc
        · exact Or.inr ((hZ.full i hc).mono hle0 hc)
        · left
          simp only [List.length_append, hnew, List.length_map] at hi
          simp only [List.mem_map, List.mem_range]
          exact ⟨i - Z.nodes.length, by omega, by omega⟩) hN'
      refine ⟨⟨expandAll_nodesOk hok hN', hex⟩, ?_, ?_⟩
      · intro s hs
        rcases hf : findNode Z.nodes s z0 with _ | i
        · have hsi : s ∈ init := by
            rw [hinit, List.mem_filter]
            exact ⟨hs, by simp [hf]⟩
          obtain ⟨k, hk⟩ := List.mem_iff_getElem?.1 hsi
          have hk' : (Z.nodes ++ new)[Z.nodes.length + k]? = some ⟨s, z0, (A.st s).isMatch, []⟩ := by
            rw [List.getElem?_append_right (by omega)]
            simp [hnew, hk]
          obtain ⟨n', hn', f1, f2, -⟩ := hle _ _ hk'
          refine ⟨_, n', hn', f1, by rw [f2]; exact zero_sat _ _, fun _ => ?_⟩
          obtain ⟨hlt, -⟩ := List.getElem?_eq_some_iff.1 hk
          simp only [List.mem_append, List.mem_map, List.mem_range]
          exact Or.inr ⟨k, hlt, rfl⟩
        · obtain ⟨n, hn, hs', hb⟩ := findNode_some hf
          obtain ⟨v, hv⟩ := (hZ.ok n (List.mem_of_getElem? hn)).nonempty
          obtain ⟨n', hn', f1, f2, -⟩ := (hle0.trans hle) _ _ hn
          refine ⟨i, n', hn', f1.trans hs', ?_, ?_⟩
          · rw [f2]
            refine beq_sat hb (zero_sat _ _) (sat_diag hv ?_)
            have := (hZ.ok n (List.mem_of_getElem? hn)).size
            omega
          · intro h0
            rw [h0] at hn
            simp at hn
      · intro h0
        refine expandAll_isMatch ?_ hN'
        intro n hn
        rw [h0] at hn
        rw [List.nil_append, hnew] at hn
        obtain ⟨s, -, rfl⟩ := List.mem_map.1 hn
        rfl

theorem mem_outEdges {A : TA S} {s : S} {a : Alphabet} {e : Transition S} (h : e ∈ A.edges s a) :
    (a, e) ∈ outEdges A s := by
  unfold TA.edges Next.at' Next.find at h
  rcases hf : (A.st s).next.find? fun p => p.1 == a with _ | p
  · simp [hf] at h
  · simp only [hf, Option.map_some, Option.getD_some] at h
    have h1 := List.find?_some hf
    simp only [beq_iff_eq] at h1
    subst h1
    unfold outEdges
    rw [List.mem_flatMap]
    exact ⟨p, List.mem_of_find?_eq_some hf, List.mem_map.2 ⟨e, h, rfl⟩⟩

/-- One step. -/
theorem complete_step {A : TA S} {N : List (ZNode S K)} (hN : Complete A N) {i : Nat} {n : ZNode S K}
    (hi : N[i]? = some n) {v : Nat → K} (hv : n.zone.Sat v) {d : K} (hd : 0 < d) {a : Alphabet}
    {e : Transition S} (he : e ∈ A.edges n.s a) {q : S} (hq : e.target = some q)
    (hg : GuardHolds e.guard (fun x => v x + d)) :
    ∃ (j : Nat) (nj : ZNode S K), (a, j) ∈ n.next ∧ N[j]? = some nj ∧ nj.s = q ∧
      nj.zone.Sat (fun x => if x ∈ e.resets then 0 else v x + d) := by
  obtain ⟨hlt, -⟩ := List.getElem?_eq_some_iff.1 hi
  obtain ⟨⟨r, hr⟩, h2⟩ := hN.full i hlt n hi (a, e) (mem_outEdges he) q hq
  have hsz := (hN.ok n (List.mem_of_getElem? hi)).size
  obtain ⟨z', rfl, hz1, hz2⟩ := zoneSucc_sat hsz hr hv hd hg
  obtain ⟨-, n', j, nj, hn', hj, hnj, hs, hb⟩ := h2 z' hr
  rw [hi] at hn'
  cases hn'
  obtain ⟨v', hv'⟩ := (hN.ok nj (List.mem_of_getElem? hnj)).nonempty
  refine ⟨j, nj, hj, hnj, hs, beq_sat hb hz2 (sat_diag hv' ?_)⟩
  have := (hN.ok nj (List.mem_of_getElem? hnj)).size
  omega

/-- Runs over strictly increasing times have paths with the same labels. -/
theorem complete_reads {A : TA S} {Z : ZA S K} (hN : Complete A Z.nodes) {u : TWord K} {s s' : S}
    {r : Nat → K} {now : K} (hnow : ∀ e ∈ u, now < e.2) (hu : u.Pairwise fun a b => a.2 < b.2) {i : Nat}
    {n : ZNode S K} (hi : Z.nodes[i]? = some n) (hs : n.s = s) (hv : n.zone.Sat (fun x => now - r x))
    (h : A.Reads s r u s') :
    ∃ (j : Nat) (nj : ZNode S K), Z.Path i (u.map (·.1)) j ∧ Z.nodes[j]? = some nj ∧ nj.s = s' := by
  induction u generalizing s r now i n with
  | nil => exact ⟨i, n, .nil i, hi, hs.trans h⟩
  | cons p u ih =>
    obtain ⟨a, t⟩ := p
    obtain ⟨e, he, q, hq, hg, h⟩ := h
    have ht : now < t := hnow (a, t) (by simp)
    subst hs
    have hfun : (fun x => now - r x + (t - now)) = fun x => t - r x := by
      funext x
      ring
    obtain ⟨j, nj, hj, hnj, hsj, hvj⟩ := complete_step hN hi hv (d := t - now) (by linarith) he hq
      (by rw [hfun]; exact hg)
    rw [List.pairwise_cons] at hu
    have hvj' : nj.zone.Sat (fun x => t - resetAt r e.resets t x) := by
      convert hvj using 1
      funext x
      unfold resetAt
      split_ifs <;> ring
    obtain ⟨k, nk, hp, hnk, hsk⟩ := ih (now := t) (fun e he => hu.1 e he) hu.2 hnj hsj hvj' h
    exact ⟨k, nk, .cons ⟨n, hi, hj⟩ hp, hnk, hsk⟩

end Verif
