import Verif.Lemmas.ZAFinite
import Verif.Lemmas.KMP
import Verif.Lemmas.Monaa

set_option linter.unusedSectionVars false

/-! The skip tables of acyclic patterns are built in finite time. -/

namespace Verif

variable {S K : Type} [Field K] [LinearOrder K] [IsStrictOrderedRing K] [DecidableEq S]

open Bnd Zone

/-! ### a measure of the states of the zone automaton -/

/-- The states in `next` have a measure below `R`. -/
def MuLt (μ : S → Zone K → Nat) (R : Nat) (st : List (ZNode S K) × List Nat) : Prop :=
  ∀ j ∈ st.2, ∃ n, st.1[j]? = some n ∧ μ n.s n.zone < R

theorem MuLt.mono {μ : S → Zone K → Nat} {R : Nat} {N N' : List (ZNode S K)} {l : List Nat} (h : MuLt μ R (N, l))
    (hle : NodesLe N N') : MuLt μ R (N', l) := by
  intro j hj
  obtain ⟨n, hn, hr⟩ := h j hj
  obtain ⟨n', hn', e, e', -⟩ := hle j n hn
  exact ⟨n', hn', by rw [e, e']; exact hr⟩

/-- A transition leads to the same state of the zone automaton, or to one with a smaller measure. -/
def MuDec (A : TA S) (μ : S → Zone K → Nat) : Prop :=
  ∀ (s : S) (z : Zone K), z.n = A.clockSize + 1 → z.Canon → z.M = maxBound A → ∀ c e q z', (c, e) ∈ outEdges A s →
    e.target = some q → zoneSucc A.clockSize z.elapse e = .ok (some z') → (q = s ∧ z.beq z' = true) ∨ μ q z' < μ s z

theorem expandEdge_mu {A : TA S} (hA : EdgesOk A) {μ : S → Zone K → Nat} (hμ : MuDec A μ) {i : Nat} {n : ZNode S K}
    {p : Alphabet × Transition S} (hp : p ∈ outEdges A n.s) {R : Nat} (hR : μ n.s n.zone ≤ R)
    {st : List (ZNode S K) × List Nat} (hi : st.1[i]? = some n) (hc : ZonesCanon A st.1) (hm : MuLt μ R st) :
    ∃ st', expandEdge A i n.zone.elapse p.1 p.2 st = .ok st' ∧ ZonesCanon A st'.1 ∧ MuLt μ R st' ∧
      ∃ n', st'.1[i]? = some n' ∧ n'.s = n.s ∧ n'.zone = n.zone := by
  obtain ⟨h1, h2, h3⟩ := hA n.s p hp
  obtain ⟨c1, c2, c3⟩ := hc n (List.mem_of_getElem? hi)
  unfold expandEdge
  split
  · exact ⟨_, rfl, hc, hm, n, hi, rfl, rfl⟩
  · rename_i q ht
    obtain ⟨r, hr⟩ := zoneSucc_ok h2 h3 n.zone.elapse
    rw [hr]
    simp only [bind, Except.bind]
    cases r with
    | none => exact ⟨_, rfl, hc, hm, n, hi, rfl, rfl⟩
    | some z =>
      simp only [h1, if_true]
      split
      · have hle := nodesLe_pushEdge st.1 i p.1 (by assumption)
        obtain ⟨n', f1, f2, f3, -⟩ := hle i n hi
        exact ⟨_, rfl, zonesCanon_push hc _ _ _, MuLt.mono hm hle, n', f1, f2, f3⟩
      · rename_i hf
        have hle := (nodesLe_append st.1 [⟨q, z, (A.st q).isMatch, []⟩]).trans
          (nodesLe_pushEdge (st.1 ++ [⟨q, z, (A.st q).isMatch, []⟩]) i p.1 st.1.length)
        obtain ⟨n', f1, f2, f3, -⟩ := hle i n hi
        obtain ⟨w1, -⟩ := zoneSucc_wf (by simpa using c1) hr
        obtain ⟨w2, w3⟩ := zoneSucc_canon (by simpa using c1) hr
        refine ⟨_, rfl, zonesCanon_push ?_ _ _ _, ?_, n', f1, f2, f3⟩
        · intro n' hn'
          rcases List.mem_append.1 hn' with h | h
          · exact hc n' h
          · simp only [List.mem_singleton] at h
            subst h
            exact ⟨w1, w2, by rw [w3]; simpa using c3⟩
        · intro j hj
          rcases List.mem_append.1 hj with hj | hj
          · exact (MuLt.mono hm hle) j hj
          · simp only [List.mem_singleton] at hj
            subst hj
            obtain ⟨n'', g1, g2, g3, -⟩ := nodesLe_pushEdge (st.1 ++ [⟨q, z, (A.st q).isMatch, []⟩]) i p.1 st.1.length
              st.1.length ⟨q, z, (A.st q).isMatch, []⟩ (by simp)
            refine ⟨n'', g1, ?_⟩
            rw [g2, g3]
            rcases hμ n.s n.zone c1 c2 c3 p.1 p.2 q z hp ht hr with ⟨rfl, hb⟩ | hlt
            · exact absurd hf (findNode_of_beq (List.mem_of_getElem? hi) hb)
            · show μ q z < R
              omega

theorem expandNode_mu {A : TA S} (hA : EdgesOk A) {μ : S → Zone K → Nat} (hμ : MuDec A μ) {i : Nat} {R : Nat}
    {st : List (ZNode S K) × List Nat} (hi : ∃ n, st.1[i]? = some n ∧ μ n.s n.zone < R + 1) (hc : ZonesCanon A st.1)
    (hm : MuLt μ R st) : ∃ st', expandNode A i st = .ok st' ∧ ZonesCanon A st'.1 ∧ MuLt μ R st' := by
  obtain ⟨n0, hi, hlt⟩ := hi
  unfold expandNode
  rw [hi]
  simp only
  have key : ∀ (ps : List (Alphabet × Transition S)) (st : List (ZNode S K) × List Nat),
      (∀ p ∈ ps, p ∈ outEdges A n0.s) → (∃ n, st.1[i]? = some n ∧ n.s = n0.s ∧ n.zone = n0.zone) →
      ZonesCanon A st.1 → MuLt μ R st →
      ∃ st', ps.foldlM (fun st p => expandEdge A i n0.zone.elapse p.1 p.2 st) st = Except.ok st' ∧
        ZonesCanon A st'.1 ∧ MuLt μ R st' := by
    intro ps
    induction ps with
    | nil => intro st _ _ hc hm; exact ⟨st, rfl, hc, hm⟩
    | cons p ps ih =>
      rintro st hps ⟨n, hn, e1, e2⟩ hc hm
      obtain ⟨st1, g1, g2, g3, n', g4, g5, g6⟩ := expandEdge_mu hA hμ (i := i) (n := n) (p := p)
        (by rw [e1]; exact hps p (by simp)) (R := R) (by rw [e1, e2]; omega) hn hc hm
      obtain ⟨st2, f1, f2, f3⟩ := ih st1 (fun p hp => hps p (by simp [hp])) ⟨n', g4, by rw [g5, e1], by rw [g6, e2]⟩ g2 g3
      refine ⟨st2, ?_, f2, f3⟩
      rw [List.foldlM_cons]
      simp only [bind, Except.bind]
      rw [← e2, g1]
      simp only [e2]
      exact f1
  exact key _ st (fun p hp => hp) ⟨n0, hi, rfl, rfl⟩ hc hm

theorem expandRound_mu {A : TA S} (hA : EdgesOk A) {μ : S → Zone K → Nat} (hμ : MuDec A μ) {R : Nat} (cs : List Nat)
    (st : List (ZNode S K) × List Nat) (hcs : MuLt μ (R + 1) (st.1, cs)) (hc : ZonesCanon A st.1) (hm : MuLt μ R st) :
    ∃ st', cs.foldlM (fun st i => expandNode A i st) st = Except.ok st' ∧ ZonesCanon A st'.1 ∧ MuLt μ R st' := by
  induction cs generalizing st with
  | nil => exact ⟨st, rfl, hc, hm⟩
  | cons c cs ih =>
    obtain ⟨st1, e1, e2, e3⟩ := expandNode_mu hA hμ (st := st) (hcs c (by simp)) hc hm
    have hle := (expandNode_spec e1).1
    obtain ⟨st2, f1, f2, f3⟩ := ih st1
      (MuLt.mono (fun j hj => hcs j (by simp only [List.mem_cons] at hj ⊢; exact Or.inr hj)) hle) e2 e3
    refine ⟨st2, ?_, f2, f3⟩
    rw [List.foldlM_cons]
    simp only [bind, Except.bind]
    rw [e1]
    exact f1

theorem expandAll_mu {A : TA S} (hA : EdgesOk A) {μ : S → Zone K → Nat} (hμ : MuDec A μ) {R fuel : Nat}
    {N : List (ZNode S K)} {conf : List Nat} (hc : ZonesCanon A N) (h : MuLt μ R (N, conf)) (hf : R < fuel) :
    ∃ N', expandAll A fuel N conf = .ok N' := by
  induction R generalizing N conf fuel with
  | zero =>
    obtain ⟨fuel, rfl⟩ := Nat.exists_eq_succ_of_ne_zero (by omega : fuel ≠ 0)
    cases conf with
    | nil => exact ⟨N, rfl⟩
    | cons c cs =>
      obtain ⟨n, -, hlt⟩ := h c (by simp)
      omega
  | succ R ih =>
    obtain ⟨fuel, rfl⟩ := Nat.exists_eq_succ_of_ne_zero (by omega : fuel ≠ 0)
    unfold expandAll
    split_ifs
    · exact ⟨N, rfl⟩
    · obtain ⟨st', e, r1, r2⟩ := expandRound_mu hA hμ conf (N, []) h hc (by intro j hj; simp at hj)
      simp only [bind, Except.bind]
      rw [e]
      exact ih r1 r2 (by omega)

theorem ta2za_mu {A : TA S} (hA : EdgesOk A) {μ : S → Zone K → Nat} (hμ : MuDec A μ) {R fuel : Nat}
    (hR : ∀ s ∈ A.init, μ s (Zone.zero (A.clockSize + 1) (maxBound A)) < R) (hf : R < fuel) {Z : ZA S K}
    (hZ : ZonesCanon A Z.nodes) : ∃ Z', ta2za fuel A Z = .ok Z' := by
  unfold ta2za
  simp only
  split_ifs
  · exact ⟨_, rfl⟩
  · simp only [bind, Except.bind]
    generalize hI : (A.init.filter fun s =>
      (findNode Z.nodes s (Zone.zero (A.clockSize + 1) (maxBound A))).isNone) = I
    have hI' : ∀ s ∈ I, s ∈ A.init := by
      intro s hs
      rw [← hI] at hs
      exact (List.mem_filter.1 hs).1
    obtain ⟨N', h⟩ := expandAll_mu hA hμ (R := R) (fuel := fuel) (N := Z.nodes ++ I.map fun s =>
        (⟨s, Zone.zero (A.clockSize + 1) (maxBound A), (A.st s).isMatch, []⟩ : ZNode S K))
        (conf := (List.range I.length).map (Z.nodes.length + ·))
      (by
        intro n hn
        rcases List.mem_append.1 hn with hn | hn
        · exact hZ n hn
        · obtain ⟨s, -, rfl⟩ := List.mem_map.1 hn
          exact ⟨by simp, zero_canon _ _, by simp⟩)
      (by
        intro j hj
        obtain ⟨k, hk, rfl⟩ := List.mem_map.1 hj
        rw [List.mem_range] at hk
        refine ⟨⟨I[k], Zone.zero (A.clockSize + 1) (maxBound A), (A.st I[k]).isMatch, []⟩, ?_,
          hR _ (hI' _ (List.getElem_mem hk))⟩
        simp [List.getElem?_append_right, hk])
      hf
    rw [h]
    exact ⟨_, rfl⟩

/-! ### automata whose only cycles are plain loops -/

/-- The measure: twice the rank, and one if a loop changes the zone. -/
def loopMu (rank : S → Nat) (s : S) (z : Zone K) : Nat := 2 * rank s + if z.pass.beq z then 0 else 1

theorem loopMu_dec {A : TA S} {rank : S → Nat} (h : LoopRank A rank) : MuDec A (loopMu (K := K) rank) := by
  intro s z hn hz hM c e q z' he hq hs
  rcases h s c e q he hq with hlt | ⟨rfl, hg, hr⟩
  · right
    unfold loopMu
    split_ifs <;> omega
  · have hp := zoneSucc_plain hg hr hs
    subst hp
    by_cases hb : z.pass.beq z = true
    · exact Or.inl ⟨rfl, beq_symm hb⟩
    · right
      obtain ⟨v, hv⟩ := canon_nonempty hz
      obtain ⟨b, hb'⟩ := maxBound_fin (K := K) A
      have := (pass_pass (hM.trans hb') hv).beq
      unfold loopMu
      rw [if_pos this, if_neg hb]
      omega

theorem ta2za_loops {A : TA S} (hA : EdgesOk A) {rank : S → Nat} (h : LoopRank A rank) {R fuel : Nat}
    (hR : ∀ s ∈ A.init, rank s < R) (hf : 2 * R < fuel) {Z : ZA S K} (hZ : ZonesCanon A Z.nodes) :
    ∃ Z', ta2za fuel A Z = .ok Z' := by
  refine ta2za_mu hA (loopMu_dec h) (R := 2 * R) ?_ hf hZ
  intro s hs
  have := hR s hs
  unfold loopMu
  split_ifs <;> omega

/-! ### more rounds do not change the result -/

theorem expandAll_mono {A : TA S} {fuel : Nat} {N N' : List (ZNode S K)} {conf : List Nat}
    (h : expandAll A fuel N conf = .ok N') {fuel' : Nat} (hf : fuel ≤ fuel') : expandAll A fuel' N conf = .ok N' := by
  induction fuel generalizing N conf fuel' with
  | zero => simp [expandAll] at h
  | succ fuel ih =>
    obtain ⟨fuel', rfl⟩ := Nat.exists_eq_succ_of_ne_zero (by omega : fuel' ≠ 0)
    unfold expandAll at h ⊢
    split_ifs at h ⊢
    · exact h
    · simp only [bind, Except.bind] at h ⊢
      split at h
      · cases h
      · exact ih h (by omega)

theorem ta2za_mono {A : TA S} {fuel : Nat} {Z Z' : ZA S K} (h : ta2za fuel A Z = .ok Z') {fuel' : Nat}
    (hf : fuel ≤ fuel') : ta2za fuel' A Z = .ok Z' := by
  unfold ta2za at h ⊢
  simp only at h ⊢
  split_ifs at h ⊢
  · exact h
  · simp only [bind, Except.bind] at h ⊢
    split at h
    · cases h
    · rename_i N' hN'
      rw [expandAll_mono hN' hf]
      exact h

theorem deadLoop_mono {Z : ZA S K} {fuel : Nat} {stack : List (Nat × List Nat)} {reach out : List Nat}
    (h : Z.deadLoop fuel stack reach = .ok out) {fuel' : Nat} (hf : fuel ≤ fuel') :
    Z.deadLoop fuel' stack reach = .ok out := by
  induction fuel generalizing stack reach fuel' with
  | zero => simp [ZA.deadLoop] at h
  | succ fuel ih =>
    obtain ⟨fuel', rfl⟩ := Nat.exists_eq_succ_of_ne_zero (by omega : fuel' ≠ 0)
    rcases stack with _ | ⟨⟨i, P⟩, stack⟩
    · exact h
    · rw [ZA.deadLoop_cons] at h ⊢
      exact ih h (by omega)

/-! ### quick search -/

theorem closureLoop_edges {Z : ZA S K} {alive : List Nat} {P : Nat → Prop}
    (hP : ∀ i j, P i → Z.Edge i epsilon j → P j) {fuel : Nat} {waiting closure : List Nat} (hw : ∀ i ∈ waiting, P i)
    (hc : ∀ i ∈ closure, P i) : ∀ i ∈ Z.closureLoop alive fuel waiting closure, P i := by
  induction fuel generalizing waiting closure with
  | zero => exact hc
  | succ fuel ih =>
    rcases waiting with _ | ⟨i, waiting⟩
    · exact hc
    · unfold ZA.closureLoop
      simp only
      have hs : ∀ j ∈ (Z.succsOf i epsilon).filter fun j => decide (j ∈ alive), P j := by
        intro j hj
        exact hP i j (hw i (by simp)) (ZA.mem_succsOf.1 (List.mem_filter.1 hj).1)
      have hv : ∀ (js next visited : List Nat), (∀ j ∈ js, P j) → (∀ j ∈ next, P j) → (∀ j ∈ visited, P j) →
          (∀ j ∈ (ZA.visitSuccs js next visited).1, P j) ∧ ∀ j ∈ (ZA.visitSuccs js next visited).2, P j := by
        intro js
        induction js with
        | nil => intro next visited _ h1 h2; exact ⟨h1, h2⟩
        | cons j js ih =>
          intro next visited h0 h1 h2
          unfold ZA.visitSuccs
          split_ifs
          · exact ih _ _ (fun k hk => h0 k (by simp [hk])) h1 h2
          · refine ih _ _ (fun k hk => h0 k (by simp [hk])) ?_ ?_ <;>
            · intro k hk
              rcases List.mem_append.1 hk with hk | hk
              · first | exact h1 k hk | exact h2 k hk
              · simp only [List.mem_singleton] at hk
                subst hk
                exact h0 _ (by simp)
      obtain ⟨v1, v2⟩ := hv _ [] closure hs (by simp) hc
      refine ih ?_ v2
      intro k hk
      rcases List.mem_append.1 hk with hk | hk
      · exact hw k (by simp [hk])
      · exact v1 k hk

/-- The states after one pass have a smaller rank. -/
theorem sundayStep_rank {Z : ZA S K} {alive cs : List Nat} {rk : Nat → Nat} (hrk : ∀ i c j, Z.Edge i c j → rk j < rk i)
    {R : Nat} (h : ∀ i ∈ cs, rk i < R + 1) : ∀ p ∈ sundayStep Z alive cs, rk p.2 < R := by
  intro p hp
  simp only [sundayStep, List.mem_flatMap, List.mem_map, List.mem_filter] at hp
  obtain ⟨i, hi, j, hj, c, -, k, ⟨hk, -⟩, rfl⟩ := hp
  have h1 : rk j < R + 1 := closureLoop_edges (P := fun i => rk i < R + 1)
    (fun i j hi he => lt_trans (hrk i _ j he) hi) (by simpa using h i hi) (by simpa using h i hi) j hj
  have := hrk j c k (ZA.mem_succsOf.1 hk)
  simp only
  omega

theorem sundaySets_total {Z : ZA S K} {alive : List Nat} {rk : Nat → Nat} (hrk : ∀ i c j, Z.Edge i c j → rk j < rk i)
    {R fuel : Nat} (hf : R < fuel) {cs : List Nat} (h : ∀ i ∈ cs, rk i < R) :
    (∃ sets, sundaySets Z alive fuel cs = .ok sets) ∨ sundaySets Z alive fuel cs = .error (.exit 10) := by
  induction R generalizing fuel cs with
  | zero =>
    obtain ⟨fuel, rfl⟩ := Nat.exists_eq_succ_of_ne_zero (by omega : fuel ≠ 0)
    cases cs with
    | nil => exact Or.inr rfl
    | cons c cs => exact absurd (h c (by simp)) (by omega)
  | succ R ih =>
    obtain ⟨fuel, rfl⟩ := Nat.exists_eq_succ_of_ne_zero (by omega : fuel ≠ 0)
    unfold sundaySets
    split_ifs
    · exact Or.inr rfl
    · simp only
      split_ifs
      · exact Or.inl ⟨_, rfl⟩
      · simp only [bind, Except.bind]
        have hlt : ∀ i ∈ (sundayStep Z alive cs).map (·.2), rk i < R := by
          intro i hi
          obtain ⟨p, hp, rfl⟩ := List.mem_map.1 hi
          exact sundayStep_rank hrk h p hp
        rcases ih (by omega : R < fuel) hlt with ⟨sets, hs⟩ | hs
        · rw [hs]
          exact Or.inl ⟨_, rfl⟩
        · rw [hs]
          exact Or.inr rfl

theorem sundaySets_mono {Z : ZA S K} {alive : List Nat} {fuel : Nat} {cs : List Nat}
    (h : sundaySets Z alive fuel cs ≠ .error .fuel) {fuel' : Nat} (hf : fuel ≤ fuel') :
    sundaySets Z alive fuel' cs = sundaySets Z alive fuel cs := by
  induction fuel generalizing cs fuel' with
  | zero => exact absurd rfl h
  | succ fuel ih =>
    obtain ⟨fuel', rfl⟩ := Nat.exists_eq_succ_of_ne_zero (by omega : fuel' ≠ 0)
    unfold sundaySets at h ⊢
    split_ifs with h1
    · rfl
    · rw [if_neg h1] at h
      simp only at h ⊢
      split_ifs with h2
      · rfl
      · rw [if_neg h2] at h
        simp only [bind] at h ⊢
        rw [ih (fun h' => h (by rw [h']; rfl)) (by omega)]

/-- If an accepting state can be reached with letters, the search does not stop with exit status 10. -/
theorem sundaySets_found {Z : ZA S K} {alive : List Nat} {i j : Nat} {l : List Alphabet} {cs : List Nat}
    (hi : i ∈ cs) (p : Z.Path i l j) (hj : Z.isMatch j = true) (hne : l ≠ []) (hl : ∀ c ∈ l, 1 ≤ c ∧ c < 127)
    (hal : ∀ l₁ l₂ k, l = l₁ ++ l₂ → Z.Path i l₁ k → Z.Path k l₂ j → k ∈ alive) (fuel : Nat) :
    sundaySets Z alive fuel cs ≠ .error (.exit 10) := by
  induction l generalizing i cs fuel with
  | nil => exact absurd rfl hne
  | cons c l ih =>
    cases fuel with
    | zero => simp [sundaySets]
    | succ fuel =>
      cases p with
      | @cons _ _ k _ _ he p' =>
        have hk : k ∈ alive := hal [c] l k rfl (.cons he (.nil k)) p'
        have hmem : (c, k) ∈ sundayStep Z alive cs := mem_sundayStep hi (hl c (by simp)) he hk
        unfold sundaySets
        rw [if_neg (by simp only [List.isEmpty_iff]; rintro rfl; simp at hi)]
        simp only
        split_ifs with hacc
        · simp
        · have hln : l ≠ [] := by
            rintro rfl
            cases p'
            exact hacc (List.any_eq_true.2 ⟨_, hmem, hj⟩)
          have := ih (i := k) (cs := (sundayStep Z alive cs).map (·.2)) (List.mem_map.2 ⟨_, hmem, rfl⟩) p' hln
            (fun c hc => hl c (by simp [hc])) (fun l₁ l₂ k' e p1 p2 => hal (c :: l₁) l₂ k' (by simp [e]) (.cons he p1) p2) fuel
          intro hcontra
          simp only [bind, Except.bind] at hcontra
          split at hcontra
          · rename_i err herr
            cases hcontra
            exact this herr
          · cases hcontra

/-- If an accepting state can be reached with letters, the search ends. -/
theorem sundaySets_reach {Z : ZA S K} {alive : List Nat} {i j : Nat} {l : List Alphabet} {cs : List Nat}
    (hi : i ∈ cs) (p : Z.Path i l j) (hj : Z.isMatch j = true) (hne : l ≠ []) (hl : ∀ c ∈ l, 1 ≤ c ∧ c < 127)
    (hal : ∀ l₁ l₂ k, l = l₁ ++ l₂ → Z.Path i l₁ k → Z.Path k l₂ j → k ∈ alive) :
    ∃ sets, sundaySets Z alive l.length cs = .ok sets := by
  induction l generalizing i cs with
  | nil => exact absurd rfl hne
  | cons c l ih =>
    cases p with
    | @cons _ _ k _ _ he p' =>
      have hk : k ∈ alive := hal [c] l k rfl (.cons he (.nil k)) p'
      have hmem : (c, k) ∈ sundayStep Z alive cs := mem_sundayStep hi (hl c (by simp)) he hk
      rw [List.length_cons]
      unfold sundaySets
      rw [if_neg (by simp only [List.isEmpty_iff]; rintro rfl; simp at hi)]
      simp only
      split_ifs with hacc
      · exact ⟨_, rfl⟩
      · have hln : l ≠ [] := by
          rintro rfl
          cases p'
          exact hacc (List.any_eq_true.2 ⟨_, hmem, hj⟩)
        obtain ⟨sets, hs⟩ := ih (i := k) (cs := (sundayStep Z alive cs).map (·.2)) (List.mem_map.2 ⟨_, hmem, rfl⟩) p' hln
          (fun c hc => hl c (by simp [hc])) (fun l₁ l₂ k' e p1 p2 => hal (c :: l₁) l₂ k' (by simp [e]) (.cons he p1) p2)
        simp only [bind, Except.bind]
        rw [hs]
        exact ⟨_, rfl⟩

/-- Without silent transitions the search ends, if all states which can reach an accepting state are kept. -/
theorem sundaySets_live {Z : ZA S K} (hlab : ∀ i c j, Z.Edge i c j → 1 ≤ c ∧ c < 127) {alive : List Nat} (hal : ∀ i ∈ alive, Z.Live i)
    (hcl : ∀ i ∈ alive, ∀ c j, Z.Edge i c j → Z.Live j → j ∈ alive) (cs : List Nat) :
    ∃ fuel, (∃ sets, sundaySets Z alive fuel cs = .ok sets) ∨ sundaySets Z alive fuel cs = .error (.exit 10) := by
  rcases cs with _ | ⟨i, cs⟩
  · exact ⟨1, Or.inr rfl⟩
  · rcases hn : (sundayStep Z alive (i :: cs)) with _ | ⟨p, ps⟩
    · refine ⟨2, Or.inr ?_⟩
      unfold sundaySets
      simp only [List.isEmpty_cons, Bool.false_eq_true, if_false, hn]
      rfl
    · have hp : p ∈ sundayStep Z alive (i :: cs) := by rw [hn]; simp
      have hpal : p.2 ∈ alive := by
        simp only [sundayStep, List.mem_flatMap, List.mem_map, List.mem_filter, decide_eq_true_eq] at hp
        obtain ⟨_, -, _, -, _, -, k, ⟨-, hk⟩, rfl⟩ := hp
        exact hk
      by_cases hm : Z.isMatch p.2 = true
      · refine ⟨1, Or.inl ?_⟩
        unfold sundaySets
        simp only [List.isEmpty_cons, Bool.false_eq_true, if_false]
        rw [if_pos (List.any_eq_true.2 ⟨p, hp, hm⟩)]
        exact ⟨_, rfl⟩
      · obtain ⟨l, j, n, hpath, hj, hjm⟩ := hal _ hpal
        have hjm' : Z.isMatch j = true := ZA.isMatch_iff.2 ⟨n, hj, hjm⟩
        have hln : l ≠ [] := by
          rintro rfl
          cases hpath
          exact hm hjm'
        have hlet : ∀ {i l k}, Z.Path i l k → ∀ c ∈ l, 1 ≤ c ∧ c < 127 := by
          intro i l k h
          induction h with
          | nil => simp
          | cons e _ ih =>
            intro c hc
            rcases List.mem_cons.1 hc with rfl | hc
            · exact hlab _ _ _ e
            · exact ih c hc
        have hall : ∀ {i l₁ k}, Z.Path i l₁ k → i ∈ alive → ∀ l₂, Z.Path k l₂ j → k ∈ alive := by
          intro i l₁ k h
          induction h with
          | nil => exact fun h _ _ => h
          | cons e p ih =>
            intro hi l₂ p2
            exact ih (hcl _ hi _ _ e (ZA.live_of_path (p.append p2) (ZA.live_of_isMatch hjm'))) l₂ p2
        obtain ⟨sets, hs⟩ := sundaySets_reach (cs := (sundayStep Z alive (i :: cs)).map (·.2)) (List.mem_map.2 ⟨p, hp, rfl⟩) hpath hjm' hln
          (hlet hpath) (fun l₁ l₂ k _ p1 p2 => hall p1 hpal l₂ p2)
        refine ⟨l.length + 1, Or.inl ?_⟩
        unfold sundaySets
        simp only [List.isEmpty_cons, Bool.false_eq_true, if_false]
        split_ifs
        · exact ⟨_, rfl⟩
        · simp only [bind, Except.bind]
          rw [hs]
          exact ⟨_, rfl⟩

/-- The quick-search table is built, unless no accepting state is found, if the zone automaton is built, no live state is removed from it,
and the search ends. -/
theorem sundayTable_ends {A : TA S} {f1 : Nat} {Z : ZA S K} (hZ : ta2za f1 A ZA.none = .ok Z)
    (hlive' : ∀ fuel (Z : ZA S K) alive, ta2za fuel A ZA.none = .ok Z → Z.liveStates fuel = .ok alive →
      ∀ i, Z.Reachable i → Z.Live i → i ∈ alive)
    (hsearch : ∀ alive, (∀ i ∈ alive, Z.Live i) → (∀ i ∈ alive, ∀ c j, Z.Edge i c j → Z.Live j → j ∈ alive) →
      ∃ R, (∃ sets, sundaySets Z alive R (Z.init.filter fun i => decide (i ∈ alive)) = .ok sets) ∨
        sundaySets Z alive R (Z.init.filter fun i => decide (i ∈ alive)) = .error (.exit 10)) :
    ∃ N r, (∀ fuel, N ≤ fuel → sundayTable K fuel A = r) ∧ ((∃ x, r = .ok x) ∨ r = .error (.exit 10)) ∧
      ((∃ (t : K) (u : TWord K), u ≠ [] ∧ LettersOk u ∧ (∀ e ∈ u, t < e.2) ∧ u.Pairwise (fun a b => a.2 < b.2) ∧
        ∃ s₀ ∈ A.init, ∃ s, A.Reads s₀ (fun _ => t) u s ∧ (A.st s).isMatch = true) → ∃ x, r = .ok x) := by
  obtain ⟨f2, alive, hal⟩ := ZA.liveStates_terminates (complete_wellFormed hZ)
  obtain ⟨hC, hinit, hmatchN⟩ := ta2za_spec (complete_nil A) hZ
  have hlive := hlive' (max f1 f2) Z alive (ta2za_mono hZ (by omega)) (deadLoop_mono hal (by omega))
  obtain ⟨R, hsets⟩ := hsearch alive (ZA.liveStates_sound hal) (fun i hi c j he hj => by
    obtain ⟨i₀, hi₀, l, hp⟩ := ZA.liveStates_reachable hal i hi
    exact hlive j ⟨i₀, hi₀, l ++ [c], hp.append (.cons he (.nil j))⟩ hj)
  have hdef : ∀ fuel, max (max f1 f2) R ≤ fuel → sundayTable K fuel A =
      (sundaySets Z alive R (Z.init.filter fun i => decide (i ∈ alive))).bind
      fun sets => .ok (sets.length, sundayDelta sets, sets.getD (sets.length - 1) []) := by
    intro fuel hf
    have hZ' := ta2za_mono hZ (fuel' := fuel) (by omega)
    have hal' : Z.liveStates fuel = .ok alive := deadLoop_mono hal (by omega)
    rw [← sundaySets_mono (fuel' := fuel) (by rcases hsets with ⟨_, h⟩ | h <;> rw [h] <;> simp) (by omega)]
    unfold sundayTable
    simp only [bind]
    rw [hZ']
    simp only [Except.bind]
    rw [hal']
  refine ⟨_, _, hdef, ?_⟩
  constructor
  · rcases hsets with ⟨sets, hs⟩ | hs
    · rw [hs]
      exact Or.inl ⟨_, rfl⟩
    · rw [hs]
      exact Or.inr rfl
  · rintro ⟨t, u, hne, hlet, ht, hsort, s₀, hs₀, s, hr, hmatch⟩
    obtain ⟨i, n, hi, hs, hv, hii⟩ := hinit s₀ hs₀
    obtain ⟨j, nj, hp, hnj, hsj⟩ := complete_reads hC ht hsort hi hs (now := t) (r := fun _ => t)
      (by simpa using hv) hr
    have hmj : Z.isMatch j = true := by
      refine ZA.isMatch_iff.2 ⟨nj, hnj, ?_⟩
      rw [hmatchN rfl nj (List.mem_of_getElem? hnj), hsj]
      exact hmatch
    have hii' := hii rfl
    have hal2 : ∀ l₁ l₂ k, u.map (·.1) = l₁ ++ l₂ → Z.Path i l₁ k → Z.Path k l₂ j → k ∈ alive :=
      fun l₁ l₂ k _ p1 p2 => hlive k ⟨i, hii', l₁, p1⟩ (ZA.live_of_path p2 (ZA.live_of_isMatch hmj))
    have hnot := sundaySets_found (cs := Z.init.filter fun i => decide (i ∈ alive)) (by
      rw [List.mem_filter]
      exact ⟨hii', decide_eq_true (hal2 [] _ i rfl (.nil i) hp)⟩) hp hmj (by simpa using hne) (by
        intro c hc
        obtain ⟨e, he, rfl⟩ := List.mem_map.1 hc
        exact hlet e he) hal2 R
    rcases hsets with ⟨sets, hs⟩ | hs
    · rw [hs]
      exact ⟨_, rfl⟩
    · exact absurd hs hnot

/-- The quick-search table of an acyclic automaton is built, unless no accepting state is found. -/
theorem sundayTable_total {A : TA S} (hA : EdgesOk A) {rank : S → Nat}
    (hrank : ∀ s c e q, (c, e) ∈ outEdges A s → e.target = some q → rank q < rank s) :
    ∃ N r, (∀ fuel, N ≤ fuel → sundayTable K fuel A = r) ∧ ((∃ x, r = .ok x) ∨ r = .error (.exit 10)) ∧
      ((∃ (t : K) (u : TWord K), u ≠ [] ∧ LettersOk u ∧ (∀ e ∈ u, t < e.2) ∧ u.Pairwise (fun a b => a.2 < b.2) ∧
        ∃ s₀ ∈ A.init, ∃ s, A.Reads s₀ (fun _ => t) u s ∧ (A.st s).isMatch = true) → ∃ x, r = .ok x) := by
  obtain ⟨f1, Z, hZ⟩ := ta2za_acyclic (K := K) hA hrank
  obtain ⟨hC, -, -⟩ := ta2za_spec (complete_nil A) hZ
  let rk : Nat → Nat := fun i => match Z.nodes[i]? with | none => 0 | some n => rank n.s
  have hrk : ∀ i c j, Z.Edge i c j → rk j < rk i := by
    rintro i c j ⟨n, hn, hp⟩
    obtain ⟨-, nj, hj, e, he, ht⟩ := (hC.ok n (List.mem_of_getElem? hn)).edges _ hp
    simp only at hj
    simp only [rk, hn, hj]
    exact hrank _ _ _ _ he ht
  refine sundayTable_ends hZ (fun fuel => live_of_acyclic hrank) fun alive _ _ => ?_
  obtain ⟨R, hR⟩ : ∃ R, ∀ i ∈ Z.init.filter (fun i => decide (i ∈ alive)), rk i < R := by
    generalize Z.init.filter (fun i => decide (i ∈ alive)) = l
    induction l with
    | nil => exact ⟨0, by simp⟩
    | cons s l ih =>
      obtain ⟨R, h⟩ := ih
      refine ⟨max R (rk s + 1), ?_⟩
      intro s' hs'
      rcases List.mem_cons.1 hs' with rfl | hs'
      · omega
      · have := h s' hs'
        omega
  exact ⟨R + 1, sundaySets_total (alive := alive) hrk (R := R) (fuel := R + 1) (by omega) hR⟩

theorem edge_label {A : TA S} (hA : A.Closed) (hM : A.MapOk) {fuel : Nat} {Z : ZA S K} (hZ : ta2za fuel A ZA.none = .ok Z)
    (hε : ∀ s ∈ A.states, ∀ e, e ∉ A.edges s epsilon) : ∀ i c j, Z.Edge i c j → 1 ≤ c ∧ c < 127 := by
  obtain ⟨hC, -, -⟩ := ta2za_spec (complete_nil A) hZ
  rintro i c j ⟨n, hn, hp⟩
  obtain ⟨h1, nj, hj, e, he, ht⟩ := (hC.ok n (List.mem_of_getElem? hn)).edges _ hp
  refine ⟨Nat.one_le_iff_ne_zero.2 ?_, h1⟩
  rintro rfl
  exact hε n.s (ta2za_states hA hM hZ n (List.mem_of_getElem? hn)) e ((mem_outEdges_iff hM).1 he)

/-- The quick-search table of an automaton without silent transitions and with harmless cycles is built, unless no accepting state is
found. -/
theorem sundayTable_loops {A : TA S} (hcl : A.Closed) (hM : A.MapOk) (hA : EdgesOk A) (hl : A.LoopsOk)
    (hε : ∀ s ∈ A.states, ∀ e, e ∉ A.edges s epsilon) :
    ∃ N r, (∀ fuel, N ≤ fuel → sundayTable K fuel A = r) ∧ ((∃ x, r = .ok x) ∨ r = .error (.exit 10)) ∧
      ((∃ (t : K) (u : TWord K), u ≠ [] ∧ LettersOk u ∧ (∀ e ∈ u, t < e.2) ∧ u.Pairwise (fun a b => a.2 < b.2) ∧
        ∃ s₀ ∈ A.init, ∃ s, A.Reads s₀ (fun _ => t) u s ∧ (A.st s).isMatch = true) → ∃ x, r = .ok x) := by
  obtain ⟨B, hB⟩ := ta2za_plainCycles (K := K) hcl hM hA hl.plainCycles
  obtain ⟨Z, hZ⟩ := hB B le_rfl ZA.none
  exact sundayTable_ends hZ (fun fuel => live_of_loopsOk hcl hM hl) fun alive h1 h2 => sundaySets_live (edge_label hcl hM hZ hε) h1 h2 _

/-! ### KMP -/

section kmp
variable {A : TA S} {m n : Nat} {o : S}

/-- The rank of a state of `A0`. -/
def kRank (rank : S → Nat) (R : Nat) : KState S → Nat
  | .orig s => rank s + 1
  | .ext k => R + 2 + k
  | .acc => 0

/-- The rank of a state of `As`. -/
def dRank (rank : S → Nat) : DState S → Nat
  | .orig s => rank s + 1
  | .dummy _ => 0

theorem a0_dec (hA : A.Closed) (hM : A.MapOk) {rank : S → Nat} (hrank : ∀ s ∈ A.states, ∀ a, ∀ e ∈ A.edges s a, ∀ q, e.target = some q →
      rank q < rank s ∨ (rank q = rank s ∧ e.guard = [] ∧ e.resets = []))
    {R : Nat} (hR : ∀ s ∈ A.init, rank s ≤ R) {q q' : KState S} (hqS : q ∈ (kmpA0 A m n).states) {c : Alphabet}
    {e : Transition (KState S)} (he : e ∈ (kmpA0 A m n).edges q c) (hq : e.target = some q') :
    kRank rank R q' < kRank rank R q ∨ (kRank rank R q' = kRank rank R q ∧ e.guard = [] ∧ e.resets = []) := by
  rcases q with s | k | _
  · have hsS : s ∈ A.states := by simpa [kmpA0] using hqS
    rcases (a0_orig s c e).1 he with ⟨e', he', rfl⟩ | ⟨e', he', q1, hq1, -, rfl⟩
    · simp only [liftEdge, Option.map_eq_some_iff] at hq
      obtain ⟨q1, h1, rfl⟩ := hq
      rcases hrank s hsS c e' he' q1 h1 with this | ⟨h, g, r⟩
      · left
        simp only [kRank]
        omega
      · exact Or.inr ⟨by simp only [kRank, h], g, r⟩
    · left
      simp only [Option.some.injEq] at hq
      subst hq
      simp [kRank]
  · left
    rcases k with _ | k
    · obtain ⟨s, hs, e', he', rfl⟩ := (a0_ext_zero c e hM).1 he
      simp only [liftEdge, widenEdge, Option.map_eq_some_iff] at hq
      obtain ⟨q1, h1, rfl⟩ := hq
      have := hR s hs
      simp only [kRank]
      rcases hrank s (hA.1 s hs) c e' he' q1 h1 with h | ⟨h, -⟩ <;> omega
    · obtain ⟨-, rfl⟩ := (a0_ext_succ k c e).1 he
      simp only [Option.some.injEq] at hq
      subst hq
      simp only [kRank]
      omega
  · right
    obtain ⟨h1, rfl⟩ := (a0_acc c e).1 he
    simp only [Option.some.injEq] at hq
    exact ⟨by rw [hq], rfl, rfl⟩

theorem as_dec {rank : S → Nat} (hrank : ∀ s ∈ A.states, ∀ a, ∀ e ∈ A.edges s a, ∀ q, e.target = some q →
      rank q < rank s ∨ (rank q = rank s ∧ e.guard = [] ∧ e.resets = []))
    {q q' : DState S} (hqS : q ∈ (kmpAs A o).states) {c : Alphabet} {e : Transition (DState S)} (he : e ∈ (kmpAs A o).edges q c)
    (hq : e.target = some q') :
    dRank rank q' < dRank rank q ∨ (dRank rank q' = dRank rank q ∧ e.guard = [] ∧ e.resets = []) := by
  rcases q with s | s
  · have hsS : s ∈ A.states := by simpa [kmpAs] using hqS
    rcases (as_orig s c e).1 he with ⟨e', he', rfl⟩ | ⟨-, rfl⟩
    · simp only [liftEdge, Option.map_eq_some_iff] at hq
      obtain ⟨q1, h1, rfl⟩ := hq
      rcases hrank s hsS c e' he' q1 h1 with this | ⟨h, g, r⟩
      · left
        simp only [dRank]
        omega
      · exact Or.inr ⟨by simp only [dRank, h], g, r⟩
    · left
      simp only [Option.some.injEq] at hq
      subst hq
      simp [dRank]
  · right
    obtain ⟨h1, rfl⟩ := (as_dummy s c e).1 he
    simp only [Option.some.injEq] at hq
    exact ⟨by rw [hq], rfl, rfl⟩

theorem a2_mapOk : (kmpA2 A m n o).MapOk := by
  intro p
  simp only [kmpA2, TA.intersection]
  split_ifs
  · exact foldl_push_nodup _ _ (by simp)
  · simp

theorem a2_mem {p : KState S × DState S} (h : (TA.toIState (kmpA0 A m n) (kmpAs A o) p).isSome) :
    p.1 ∈ (kmpA0 A m n).states ∧ p.2 ∈ (kmpAs A o).states := by
  unfold TA.toIState at h
  split_ifs at h with h1
  · exact ⟨h1.1, h1.2.1⟩
  · simp at h

theorem a2_target (hM : A.MapOk) {p q : KState S × DState S} {c : Alphabet} {e : Transition (KState S × DState S)}
    (he : e ∈ (kmpA2 A m n o).edges p c) (hq : e.target = some q) :
    q.1 ∈ (kmpA0 A m n).states ∧ q.2 ∈ (kmpAs A o).states := by
  obtain ⟨s1, s2⟩ := p
  rw [kmpA2, TA.mem_edges_intersection (a0_mapOk hM)] at he
  have key : ∀ p, TA.toIState (kmpA0 A m n) (kmpAs A o) p = some q → q.1 ∈ (kmpA0 A m n).states ∧ q.2 ∈ (kmpAs A o).states := by
    intro p hp
    have := TA.toIState_eq hp
    subst this
    exact a2_mem (by rw [hp]; rfl)
  obtain ⟨-, ⟨rfl, e1, he1, q1, hq1, rfl⟩ | ⟨rfl, e2, he2, q2, hq2, rfl⟩ | ⟨e1, he1, e2, he2, q1, q2, hq1, hq2, rfl⟩⟩ := he <;>
  exact key _ hq

theorem a2_cycleRank (hA : A.Closed) (hM : A.MapOk) {rank : S → Nat}
    (hrank : ∀ s ∈ A.states, ∀ a, ∀ e ∈ A.edges s a, ∀ q, e.target = some q → rank q < rank s ∨ (rank q = rank s ∧ e.guard = [] ∧ e.resets = []))
    {R : Nat} (hR : ∀ s ∈ A.init, rank s ≤ R) (X : List (KState S × DState S)) :
    CycleRank (kmpA2 A m n o) X (fun p => kRank rank R p.1 + dRank rank p.2) := by
  rintro ⟨s1, s2⟩ - c e q he hq
  have he' := (mem_outEdges_iff a2_mapOk).1 he
  rw [kmpA2, TA.mem_edges_intersection (a0_mapOk hM)] at he'
  obtain ⟨hI, ⟨rfl, e1, he1, q1, hq1, rfl⟩ | ⟨rfl, e2, he2, q2, hq2, rfl⟩ | ⟨e1, he1, e2, he2, q1, q2, hq1, hq2, rfl⟩⟩ := he'
  · have hqe := TA.toIState_eq hq
    subst hqe
    rcases a0_dec hA hM hrank hR (a2_mem hI).1 he1 hq1 with h | ⟨h, g1, r1⟩
    · left
      simpa using h
    · exact Or.inr ⟨by simp only [h], by simp [TA.productTransition, g1], by simp [TA.productTransition, r1]⟩
  · have hqe := TA.toIState_eq hq
    subst hqe
    rcases as_dec hrank (a2_mem hI).2 he2 hq2 with h | ⟨h, g2, r2⟩
    · left
      simpa using h
    · exact Or.inr ⟨by simp only [h], by simp [TA.productTransition, g2], by simp [TA.productTransition, r2]⟩
  · have hqe := TA.toIState_eq hq
    subst hqe
    rcases a0_dec hA hM hrank hR (a2_mem hI).1 he1 hq1 with h1 | ⟨h1, g1, r1⟩ <;>
    rcases as_dec hrank (a2_mem hI).2 he2 hq2 with h2 | ⟨h2, g2, r2⟩
    · left
      simp only at h1 h2 ⊢
      omega
    · left
      simp only at h1 h2 ⊢
      omega
    · left
      simp only at h1 h2 ⊢
      omega
    · exact Or.inr ⟨by simp only [h1, h2], by simp [TA.productTransition, g1, g2], by simp [TA.productTransition, r1, r2]⟩

theorem a2_labels (hM : A.MapOk) (hL : A.LabelsOk) : (kmpA2 A m n o).LabelsOk := by
  rintro ⟨s1, s2⟩ c he
  obtain ⟨e, he⟩ := List.exists_mem_of_ne_nil _ he
  rw [kmpA2, TA.mem_edges_intersection (a0_mapOk hM)] at he
  obtain ⟨-, ⟨rfl, -⟩ | ⟨rfl, -⟩ | ⟨-, -, e2, he2, -⟩⟩ := he
  · simp [epsilon]
  · simp [epsilon]
  · rcases s2 with s | s
    · rcases (as_orig s c e2).1 he2 with ⟨e', he', -⟩ | ⟨rfl, -⟩
      · exact hL s c (List.ne_nil_of_mem he')
      · simp [epsilon]
    · exact (mem_letters.1 ((as_dummy s c e2).1 he2).1).2

theorem a2_clocks (hM : A.MapOk) (hC : A.ClocksDeclared) : (kmpA2 A m n o).ClocksDeclared := by
  rintro ⟨s1, s2⟩ c e he
  have hsz : (kmpA2 A m n o).clockSize = A.clockSize + A.clockSize := by simp [kmpA2, TA.intersection, TA.clockSize, kmpA0, kmpAs]
  have hsh : ∀ x, x < A.clockSize → TA.shiftClock (kmpA0 A m n).clockSize x < A.clockSize + A.clockSize := by
    intro x hx
    have h0 : (kmpA0 A m n).clockSize = A.clockSize := rfl
    have := Nat.mod_le (x + A.clockSize) 256
    unfold TA.shiftClock
    rw [h0]
    omega
  rw [hsz]
  rw [kmpA2, TA.mem_edges_intersection (a0_mapOk hM)] at he
  have h0 : ∀ {q c e}, e ∈ (kmpA0 A m n).edges q c → (∀ g ∈ e.guard, g.x < A.clockSize) ∧ ∀ x ∈ e.resets, x < A.clockSize :=
    fun he => a0_clocks hM hC _ _ _ he
  have hs : ∀ {q c e}, e ∈ (kmpAs A o).edges q c → (∀ g ∈ e.guard, g.x < A.clockSize) ∧ ∀ x ∈ e.resets, x < A.clockSize :=
    fun he => as_clocks hC _ _ _ he
  have key : ∀ (tgt : Option (KState S × DState S)) (r1 r2 : List Nat) (g1 g2 : List Constraint), (∀ g ∈ g1, g.x < A.clockSize) → (∀ x ∈ r1, x < A.clockSize) →
      (∀ g ∈ g2, g.x < A.clockSize) → (∀ x ∈ r2, x < A.clockSize) →
      (∀ g ∈ (TA.productTransition (kmpA0 A m n).clockSize tgt r1 g1 r2 g2).guard, g.x < A.clockSize + A.clockSize) ∧
      ∀ x ∈ (TA.productTransition (kmpA0 A m n).clockSize tgt r1 g1 r2 g2).resets, x < A.clockSize + A.clockSize := by
    intro tgt r1 r2 g1 g2 a1 a2 a3 a4
    constructor
    · intro g hg
      simp only [TA.productTransition, List.mem_append, List.mem_map] at hg
      rcases hg with hg | ⟨g', hg', rfl⟩
      · have := a1 g hg
        omega
      · exact hsh _ (a3 g' hg')
    · intro x hx
      simp only [TA.productTransition, List.mem_append, List.mem_map] at hx
      rcases hx with hx | ⟨x', hx', rfl⟩
      · have := a2 x hx
        omega
      · exact hsh _ (a4 x' hx')
  obtain ⟨-, ⟨rfl, e1, he1, q1, hq1, rfl⟩ | ⟨rfl, e2, he2, q2, hq2, rfl⟩ | ⟨e1, he1, e2, he2, q1, q2, hq1, hq2, rfl⟩⟩ := he
  · exact key _ _ _ _ _ (h0 he1).1 (h0 he1).2 (by simp) (by simp)
  · exact key _ _ _ _ _ (by simp) (by simp) (hs he2).1 (hs he2).2
  · exact key _ _ _ _ _ (h0 he1).1 (h0 he1).2 (hs he2).1 (hs he2).2

theorem a2_edgesOk (hM : A.MapOk) (hC : A.ClocksDeclared) (hL : A.LabelsOk) : EdgesOk (kmpA2 A m n o) := by
  rintro s ⟨a, e⟩ hp
  have he := (mem_outEdges_iff a2_mapOk).1 hp
  exact ⟨a2_labels hM hL s a (List.ne_nil_of_mem he), a2_clocks hM hC s a e he⟩

theorem a2_ta2za (hA : A.Closed) (hM : A.MapOk) (hC : A.ClocksDeclared) (hL : A.LabelsOk) (hl : A.PlainCycles) (hn : n ≤ m) :
    ∃ B, ∀ fuel, B ≤ fuel → ∀ Z : ZA (KState S × DState S) K, ∃ Z', ta2za fuel (kmpA2 A m n o) Z = .ok Z' := by
  obtain ⟨rank, hrank⟩ := hl
  obtain ⟨R, hR⟩ : ∃ R, ∀ s ∈ A.init, rank s ≤ R := by
    generalize A.init = l
    induction l with
    | nil => exact ⟨0, by simp⟩
    | cons s l ih =>
      obtain ⟨R, h⟩ := ih
      refine ⟨max R (rank s), ?_⟩
      intro s' hs'
      rcases List.mem_cons.1 hs' with rfl | hs'
      · omega
      · have := h s' hs'
        omega
  have h0 : (kmpA0 A m n).Closed := a0_closed hM hA hn
  have hs : (kmpAs A o).Closed := as_closed hA
  refine ta2za_cycles (a2_edgesOk hM hC hL)
    (X := (kmpA0 A m n).states.flatMap fun a => (kmpAs A o).states.map fun b => (a, b)) ?_ ?_ (a2_cycleRank hA hM hrank hR _)
  · rintro ⟨q1, q2⟩ hp
    simp only [kmpA2, TA.intersection, TA.productStates, List.mem_flatMap] at hp
    obtain ⟨s1, hs1, s2, hs2, hp⟩ := hp
    split_ifs at hp
    · simp only [List.mem_singleton, Prod.mk.injEq] at hp
      obtain ⟨rfl, rfl⟩ := hp
      exact List.mem_flatMap.2 ⟨_, h0.1 _ hs1, List.mem_map.2 ⟨_, hs.1 _ hs2, rfl⟩⟩
    · simp at hp
  · intro p _ c e q he hq
    obtain ⟨h1, h2⟩ := a2_target hM ((mem_outEdges_iff a2_mapOk).1 he) hq
    exact List.mem_flatMap.2 ⟨_, h1, List.mem_map.2 ⟨_, h2, rfl⟩⟩

theorem exists_bound {α : Type} (P : α → Nat → Prop) (hmono : ∀ x B B', B ≤ B' → P x B → P x B') (l : List α) (h : ∀ x ∈ l, ∃ B, P x B) :
    ∃ B, ∀ x ∈ l, P x B := by
  induction l with
  | nil => exact ⟨0, by simp⟩
  | cons x l ih =>
    obtain ⟨B1, h1⟩ := h x (by simp)
    obtain ⟨B2, h2⟩ := ih fun y hy => h y (by simp [hy])
    refine ⟨max B1 B2, fun y hy => ?_⟩
    rcases List.mem_cons.1 hy with rfl | hy
    · exact hmono _ _ _ (le_max_left _ _) h1
    · exact hmono _ _ _ (le_max_right _ _) (h2 y hy)

variable (hA : A.Closed) (hM : A.MapOk) (hC : A.ClocksDeclared) (hL : A.LabelsOk) (hl : A.PlainCycles)

theorem kmpSearch_total {fuel : Nat} {k n : Nat} (hkn : k + n ≤ m + 1)
    (hB : ∀ n, n ≤ m → ∀ Z : ZA (KState S × DState S) K, ∃ Z', ta2za fuel (kmpA2 A m n o) Z = .ok Z') (Z : ZA (KState S × DState S) K) :
    ∃ r Z', kmpSearch fuel A m o k n Z = .ok (r, Z') := by
  induction k generalizing n Z with
  | zero => exact ⟨none, Z, rfl⟩
  | succ k ih =>
    obtain ⟨Z1, h1⟩ := hB n (by omega) Z
    unfold kmpSearch
    simp only [bind, Except.bind]
    rw [h1]
    simp only
    split_ifs
    · exact ih (by omega) _
    · exact ⟨_, _, rfl⟩

include hA hM hC hL hl

theorem kmpTable_total : ∃ N, ∀ fuel, N ≤ fuel → ∃ beta, kmpTable K fuel A m = .ok beta := by
  obtain ⟨B, hB⟩ := exists_bound (fun (x : S × Nat) B => ∀ fuel, B ≤ fuel → ∀ Z : ZA (KState S × DState S) K,
      ∃ Z', ta2za fuel (kmpA2 A m x.2 x.1) Z = .ok Z') (fun x B B' h h' fuel hf => h' fuel (by omega))
    (A.states.flatMap fun o => (List.range (m + 1)).map fun n => (o, n)) (by
      intro x hx
      obtain ⟨o, -, hx⟩ := List.mem_flatMap.1 hx
      obtain ⟨n, hn, rfl⟩ := List.mem_map.1 hx
      exact a2_ta2za hA hM hC hL hl (by rw [List.mem_range] at hn; omega))
  refine ⟨B, fun fuel hf => ?_⟩
  have key : ∀ (os : List S) (beta : List (S × Nat)) (Z : ZA (KState S × DState S) K), (∀ o ∈ os, o ∈ A.states) →
      ∃ beta', kmpLoop fuel A m os beta Z = .ok beta' := by
    intro os
    induction os with
    | nil => intro beta Z _; exact ⟨beta, rfl⟩
    | cons o os ih =>
      intro beta Z hos
      obtain ⟨r, Z', h1⟩ := kmpSearch_total (o := o) (fuel := fuel) (k := m) (n := 1) (by omega) (A := A) (m := m) (fun n hn =>
        hB (o, n) (List.mem_flatMap.2 ⟨o, hos o (by simp), List.mem_map.2 ⟨n, by rw [List.mem_range]; omega, rfl⟩⟩) fuel hf) Z
      unfold kmpLoop
      simp only [bind, Except.bind]
      rw [h1]
      exact ih _ Z' fun o ho => hos o (by simp [ho])
  exact key _ _ _ fun o ho => ho

end kmp
end Verif
