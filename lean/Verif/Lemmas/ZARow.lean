import Verif.Lemmas.Loops

set_option linter.unusedSectionVars false

/-! The edges of a state of the zone automaton, in the order of the transitions of the automaton. -/

namespace Verif

variable {S K : Type} [Field K] [LinearOrder K] [IsStrictOrderedRing K] [DecidableEq S]

open Bnd Zone

/-- The states found in `N` are found in `N'`. -/
def Ext (N N' : List (ZNode S K)) : Prop := ∀ q z j, findNode N q z = some j → findNode N' q z = some j

theorem Ext.refl (N : List (ZNode S K)) : Ext N N := fun _ _ _ h => h

theorem Ext.trans {N N' N'' : List (ZNode S K)} (h : Ext N N') (h' : Ext N' N'') : Ext N N'' :=
  fun q z j hj => h' q z j (h q z j hj)

theorem findIdx?_modify_eq {α : Type} (p : α → Bool) (f : α → α) (hf : ∀ a, p (f a) = p a) (l : List α) (i : Nat) :
    (l.modify i f).findIdx? p = l.findIdx? p := by
  induction l generalizing i with
  | nil => simp
  | cons a l ih =>
    rcases i with _ | i
    · simp [List.findIdx?_cons, hf]
    · simp [List.findIdx?_cons, ih]

theorem findNode_pushEdge (N : List (ZNode S K)) (i : Nat) (c : Alphabet) (j : Nat) (q : S) (z : Zone K) :
    findNode (pushEdge N i c j) q z = findNode N q z := by
  unfold findNode pushEdge
  refine findIdx?_modify_eq _ _ ?_ N i
  intro a
  rfl

theorem ext_append (N l : List (ZNode S K)) : Ext N (N ++ l) := by
  intro q z j h
  unfold findNode at h ⊢
  rw [List.findIdx?_append, h]
  rfl

/-- The edges `nx` belong to the transitions `es`, in this order. -/
inductive Row (A : TA S) (N : List (ZNode S K)) (zone : Zone K) : List (Alphabet × Transition S) → List (Alphabet × Nat) → Prop
  | nil : Row A N zone [] []
  | skip {c e es nx} (h : e.target = none ∨ zoneSucc A.clockSize zone.elapse e = .ok none) (r : Row A N zone es nx) :
      Row A N zone ((c, e) :: es) nx
  | take {c e q z j es nx} (hq : e.target = some q) (hz : zoneSucc A.clockSize zone.elapse e = .ok (some z))
      (hj : findNode N q z = some j) (r : Row A N zone es nx) : Row A N zone ((c, e) :: es) ((c, j) :: nx)

theorem Row.mono {A : TA S} {N N' : List (ZNode S K)} (hle : Ext N N') {zone : Zone K} {es nx} (h : Row A N zone es nx) :
    Row A N' zone es nx := by
  induction h with
  | nil => exact .nil
  | skip h _ ih => exact .skip h ih
  | take hq hz hj _ ih => exact .take hq hz (hle _ _ _ hj) ih

theorem Row.append {A : TA S} {N : List (ZNode S K)} {zone : Zone K} {es nx es' nx'} (h : Row A N zone es nx)
    (h' : Row A N zone es' nx') : Row A N zone (es ++ es') (nx ++ nx') := by
  induction h with
  | nil => exact h'
  | skip h _ ih => exact .skip h ih
  | take hq hz hj _ ih => exact .take hq hz hj ih

/-- An edge comes from a transition; the edges after it come from the transitions after it. -/
theorem Row.split {A : TA S} {N : List (ZNode S K)} {zone : Zone K} {es : List (Alphabet × Transition S)} {pre : List (Alphabet × Nat)}
    {c : Alphabet} {j : Nat} {post : List (Alphabet × Nat)} (h : Row A N zone es (pre ++ (c, j) :: post)) :
    ∃ es1 e es2 q z, es = es1 ++ (c, e) :: es2 ∧ e.target = some q ∧ zoneSucc A.clockSize zone.elapse e = .ok (some z) ∧
      findNode N q z = some j ∧ Row A N zone es1 pre ∧ Row A N zone es2 post := by
  generalize hn : pre ++ (c, j) :: post = nx at h
  induction h generalizing pre with
  | nil => simp at hn
  | @skip c' e' es' nx' h r ih =>
    obtain ⟨es1, e, es2, q, z, rfl, h1, h2, h3, h4, h5⟩ := ih hn
    exact ⟨(c', e') :: es1, e, es2, q, z, rfl, h1, h2, h3, .skip h h4, h5⟩
  | @take c' e' q' z' j' es' nx' hq hz hj r ih =>
    rcases pre with _ | ⟨p, pre⟩
    · simp only [List.nil_append, List.cons.injEq, Prod.mk.injEq] at hn
      obtain ⟨⟨rfl, rfl⟩, rfl⟩ := hn
      exact ⟨[], e', es', q', z', rfl, hq, hz, hj, .nil, r⟩
    · simp only [List.cons_append, List.cons.injEq] at hn
      obtain ⟨rfl, hn⟩ := hn
      obtain ⟨es1, e, es2, q, z, rfl, h1, h2, h3, h4, h5⟩ := ih hn
      exact ⟨(c', e') :: es1, e, es2, q, z, rfl, h1, h2, h3, .take hq hz hj h4, h5⟩

/-- A transition which is possible has its edge. -/
theorem Row.of_mem {A : TA S} {N : List (ZNode S K)} {zone : Zone K} {es : List (Alphabet × Transition S)} {nx : List (Alphabet × Nat)}
    (h : Row A N zone es nx) {c : Alphabet} {e : Transition S} (he : (c, e) ∈ es) {q : S} (hq : e.target = some q) {z : Zone K}
    (hz : zoneSucc A.clockSize zone.elapse e = .ok (some z)) : ∃ j, (c, j) ∈ nx ∧ findNode N q z = some j := by
  induction h with
  | nil => simp at he
  | skip h _ ih =>
    rcases List.mem_cons.1 he with he | he
    · cases he
      rcases h with h | h
      · rw [hq] at h
        cases h
      · rw [hz] at h
        cases h
    · exact ih he
  | take hq' hz' hj _ ih =>
    rcases List.mem_cons.1 he with he | he
    · cases he
      rw [hq] at hq'
      cases hq'
      rw [hz] at hz'
      cases hz'
      exact ⟨_, by simp, hj⟩
    · obtain ⟨j, h1, h2⟩ := ih he
      exact ⟨j, by simp [h1], h2⟩

/-- The edges `add` are added to the state `i`; the new states have no edges and are appended to the states to be visited. -/
structure Grow (i : Nat) (s : S) (zone : Zone K) (add : List (Alphabet × Nat)) (st st' : List (ZNode S K) × List Nat) : Prop where
  ext : Ext st.1 st'.1
  len : st.1.length ≤ st'.1.length
  same : ∀ k, k ≠ i → k < st.1.length → st'.1[k]? = st.1[k]?
  row : ∃ n n', st.1[i]? = some n ∧ st'.1[i]? = some n' ∧ n.s = s ∧ n.zone = zone ∧ n'.s = s ∧ n'.zone = zone ∧ n'.next = n.next ++ add
  fresh : ∀ (k : Nat) (n : ZNode S K), st.1.length ≤ k → st'.1[k]? = some n → n.next = []
  conf : st'.2 = st.2 ++ List.range' st.1.length (st'.1.length - st.1.length)

theorem Grow.refl {i : Nat} {s : S} {zone : Zone K} {st : List (ZNode S K) × List Nat} {n : ZNode S K} (hn : st.1[i]? = some n)
    (hs : n.s = s) (hz : n.zone = zone) : Grow i s zone [] st st :=
  ⟨Ext.refl _, le_rfl, fun _ _ _ => rfl, ⟨n, n, hn, hn, hs, hz, hs, hz, by simp⟩, fun k n' hk hn' => by
    have := (List.getElem?_eq_some_iff.1 hn').1
    omega, by simp⟩

theorem Grow.trans {i : Nat} {s : S} {zone : Zone K} {add add' : List (Alphabet × Nat)} {st st' st'' : List (ZNode S K) × List Nat}
    (h : Grow i s zone add st st') (h' : Grow i s zone add' st' st'') : Grow i s zone (add ++ add') st st'' := by
  obtain ⟨n, n', h1, h2, h3, h4, h5, h6, h7⟩ := h.row
  obtain ⟨m, m', g1, g2, g3, g4, g5, g6, g7⟩ := h'.row
  rw [h2] at g1
  cases g1
  have hi : i < st.1.length := (List.getElem?_eq_some_iff.1 h1).1
  have l1 := h.len
  have l2 := h'.len
  refine ⟨h.ext.trans h'.ext, l1.trans l2, fun k hk hlt => ?_, ⟨n, m', h1, g2, h3, h4, g5, g6, by rw [g7, h7, List.append_assoc]⟩, ?_, ?_⟩
  · rw [h'.same k hk (by omega), h.same k hk hlt]
  · intro k n'' hk hn''
    by_cases hlt : k < st'.1.length
    · rw [h'.same k (by omega) hlt] at hn''
      exact h.fresh k n'' hk hn''
    · exact h'.fresh k n'' (by omega) hn''
  · rw [h'.conf, h.conf, List.append_assoc, List.append_cancel_left_eq]
    have := List.range'_append_1 (s := st.1.length) (m := st'.1.length - st.1.length) (n := st''.1.length - st'.1.length)
    rw [show st.1.length + (st'.1.length - st.1.length) = st'.1.length by omega] at this
    rw [this]
    congr 1
    omega

theorem expandEdge_grow {A : TA S} {i : Nat} {n0 : ZNode S K} {c : Alphabet} {e : Transition S}
    {st st' : List (ZNode S K) × List Nat} (hi : st.1[i]? = some n0)
    (h : expandEdge A i n0.zone.elapse c e st = .ok st') :
    ∃ add, Grow i n0.s n0.zone add st st' ∧ Row A st'.1 n0.zone [(c, e)] add := by
  have hil := (List.getElem?_eq_some_iff.1 hi).1
  unfold expandEdge at h
  split at h
  · rename_i ht
    cases h
    exact ⟨[], Grow.refl hi rfl rfl, .skip (Or.inl ht) .nil⟩
  · rename_i q ht
    simp only [bind, Except.bind] at h
    split at h
    · cases h
    · rename_i r hr
      split at h
      · cases h
        exact ⟨[], Grow.refl hi rfl rfl, .skip (Or.inr hr) .nil⟩
      · rename_i z
        split_ifs at h with hc
        split at h
        · rename_i j hj
          cases h
          refine ⟨[(c, j)], ⟨?_, ?_, ?_, ?_, ?_, ?_⟩, ?_⟩
          · intro q z j h
            rw [findNode_pushEdge]
            exact h
          · simp [pushEdge]
          · intro k hk hlt
            simp [pushEdge, List.getElem?_modify, Ne.symm hk]
          · exact ⟨n0, { n0 with next := n0.next ++ [(c, j)] }, hi, by simp [pushEdge, List.getElem?_modify, hi], rfl, rfl, rfl, rfl, rfl⟩
          · intro k n hk hn
            have := (List.getElem?_eq_some_iff.1 hn).1
            simp only [pushEdge_length] at this
            omega
          · simp [pushEdge_length]
          · exact .take ht hr (by rw [findNode_pushEdge]; exact hj) .nil
        · rename_i hj
          cases h
          refine ⟨[(c, st.1.length)], ⟨?_, ?_, ?_, ?_, ?_, ?_⟩, ?_⟩
          · intro q z j h
            rw [findNode_pushEdge]
            exact ext_append _ _ _ _ _ h
          · simp [pushEdge]
          · intro k hk hlt
            simp [pushEdge, List.getElem?_modify, Ne.symm hk, List.getElem?_append_left hlt]
          · refine ⟨n0, { n0 with next := n0.next ++ [(c, st.1.length)] }, hi, ?_, rfl, rfl, rfl, rfl, rfl⟩
            simp [pushEdge, List.getElem?_modify, List.getElem?_append_left hil, hi]
          · intro k n hk hn
            have := (List.getElem?_eq_some_iff.1 hn).1
            simp only [pushEdge_length, List.length_append, List.length_singleton] at this
            have hkl : k = st.1.length := by omega
            subst hkl
            simp only [pushEdge, List.getElem?_modify, List.getElem?_concat_length, Option.map_eq_map, Option.map_some,
              if_neg (Nat.ne_of_lt hil), id, Option.some.injEq] at hn
            rw [← hn]
          · simp [pushEdge_length]
          · refine .take ht hr ?_ .nil
            rw [findNode_pushEdge]
            unfold findNode at hj ⊢
            rw [List.findIdx?_append, hj]
            simp [List.findIdx?_cons, beq_self]

theorem expandNode_grow {A : TA S} {i : Nat} {n0 : ZNode S K} {st st' : List (ZNode S K) × List Nat} (hi : st.1[i]? = some n0)
    (h : expandNode A i st = .ok st') :
    ∃ add, Grow i n0.s n0.zone add st st' ∧ Row A st'.1 n0.zone (outEdges A n0.s) add := by
  unfold expandNode at h
  rw [hi] at h
  simp only at h
  have key : ∀ (ps : List (Alphabet × Transition S)) (st st' : List (ZNode S K) × List Nat) (n : ZNode S K),
      st.1[i]? = some n → n.s = n0.s → n.zone = n0.zone →
      ps.foldlM (fun st p => expandEdge A i n0.zone.elapse p.1 p.2 st) st = Except.ok st' →
      ∃ add, Grow i n0.s n0.zone add st st' ∧ Row A st'.1 n0.zone ps add := by
    intro ps
    induction ps with
    | nil =>
      intro st st' n hn e1 e2 h
      cases h
      exact ⟨[], Grow.refl hn e1 e2, .nil⟩
    | cons p ps ih =>
      intro st st' n hn e1 e2 h
      rw [List.foldlM_cons] at h
      simp only [bind, Except.bind] at h
      split at h
      · cases h
      · rename_i st1 hst1
        have hst1' : expandEdge A i n.zone.elapse p.1 p.2 st = .ok st1 := by rw [e2]; exact hst1
        obtain ⟨add, g, r⟩ := expandEdge_grow hn hst1'
        rw [e1, e2] at g
        rw [e2] at r
        obtain ⟨n1, n1', -, h2, -, -, h5, h6, -⟩ := g.row
        obtain ⟨add', g', r'⟩ := ih st1 st' n1' h2 h5 h6 h
        exact ⟨add ++ add', g.trans g', (r.mono g'.ext).append r'⟩
  exact key _ _ _ n0 hi rfl rfl h

/-- The states outside the list have the edges of their transitions, those in the list have none yet. -/
structure RowInv (A : TA S) (N : List (ZNode S K)) (todo : List Nat) : Prop where
  nodup : todo.Nodup
  lt : ∀ i ∈ todo, i < N.length
  empty : ∀ i ∈ todo, ∀ n : ZNode S K, N[i]? = some n → n.next = []
  row : ∀ i, i ∉ todo → ∀ n : ZNode S K, N[i]? = some n → Row A N n.zone (outEdges A n.s) n.next

theorem RowInv.grow {A : TA S} {i : Nat} {todo : List Nat} {st st' : List (ZNode S K) × List Nat}
    (h : RowInv A st.1 (i :: todo ++ st.2)) (hs : expandNode A i st = .ok st') : RowInv A st'.1 (todo ++ st'.2) := by
  have hil := h.lt i (by simp)
  obtain ⟨n0, hn0⟩ : ∃ n0, st.1[i]? = some n0 := ⟨_, List.getElem?_eq_getElem hil⟩
  obtain ⟨add, g, r⟩ := expandNode_grow hn0 hs
  have hnd := h.nodup
  simp only [List.cons_append, List.nodup_cons] at hnd
  have hlen := g.len
  have hmem : ∀ k, k ∈ todo ++ st'.2 ↔ (k ∈ todo ++ st.2 ∨ (st.1.length ≤ k ∧ k < st'.1.length)) := by
    intro k
    rw [g.conf]
    simp only [List.mem_append, List.mem_range'_1]
    constructor
    · rintro (h | h | h)
      · exact Or.inl (Or.inl h)
      · exact Or.inl (Or.inr h)
      · exact Or.inr (by omega)
    · rintro ((h | h) | h)
      · exact Or.inl h
      · exact Or.inr (Or.inl h)
      · exact Or.inr (Or.inr (by omega))
  refine ⟨?_, ?_, ?_, ?_⟩
  · rw [g.conf, ← List.append_assoc]
    refine List.Nodup.append hnd.2 List.nodup_range' ?_
    intro k hk hk'
    have := h.lt k (by simp only [List.cons_append, List.mem_cons]; exact Or.inr hk)
    rw [List.mem_range'_1] at hk'
    omega
  · intro k hk
    rcases (hmem k).1 hk with hk | hk
    · have := h.lt k (by simp only [List.cons_append, List.mem_cons]; exact Or.inr hk)
      omega
    · exact hk.2
  · intro k hk n hn
    rcases (hmem k).1 hk with hk | hk
    · have hki : k ≠ i := by
        rintro rfl
        exact hnd.1 hk
      have hk' : k ∈ i :: todo ++ st.2 := by simp only [List.cons_append, List.mem_cons]; exact Or.inr hk
      rw [g.same k hki (h.lt k hk')] at hn
      exact h.empty k hk' n hn
    · exact g.fresh k n hk.1 hn
  · intro k hk n hn
    rw [hmem] at hk
    push Not at hk
    have hkl : k < st.1.length := by
      have := (List.getElem?_eq_some_iff.1 hn).1
      by_contra hc
      have := hk.2 (by omega)
      omega
    by_cases hki : k = i
    · subst hki
      obtain ⟨m, m', h1, h2, h3, h4, h5, h6, h7⟩ := g.row
      rw [hn] at h2
      cases h2
      rw [h5, h6, h7, h.empty k (by simp) m h1]
      exact r
    · rw [g.same k hki hkl] at hn
      refine (h.row k ?_ n hn).mono g.ext
      simp only [List.cons_append, List.mem_cons]
      rintro (h | h)
      · exact hki h
      · exact hk.1 h

theorem expandAll_row {A : TA S} {fuel : Nat} {N N' : List (ZNode S K)} {conf : List Nat} (h0 : RowInv A N conf)
    (h : expandAll A fuel N conf = .ok N') : RowInv A N' [] := by
  induction fuel generalizing N conf with
  | zero => simp [expandAll] at h
  | succ fuel ih =>
    unfold expandAll at h
    split_ifs at h with hemp
    · cases h
      simp only [List.isEmpty_iff] at hemp
      subst hemp
      exact h0
    · have key : ∀ (cs : List Nat) (st st' : List (ZNode S K) × List Nat), RowInv A st.1 (cs ++ st.2) →
          cs.foldlM (fun st i => expandNode A i st) st = Except.ok st' → RowInv A st'.1 st'.2 := by
        intro cs
        induction cs with
        | nil =>
          intro st st' hx h
          cases h
          exact hx
        | cons c cs ihc =>
          intro st st' hx h
          rw [List.foldlM_cons] at h
          simp only [bind, Except.bind] at h
          split at h
          · cases h
          · rename_i st1 hst1
            exact ihc st1 st' (hx.grow hst1) h
      simp only [bind, Except.bind] at h
      split at h
      · cases h
      · rename_i st1 hst1
        exact ih (key conf (N, []) st1 (by simpa using h0) hst1) h

theorem ta2za_row {A : TA S} {fuel : Nat} {Z : ZA S K} (h : ta2za fuel A ZA.none = .ok Z) (i : Nat) (n : ZNode S K)
    (hn : Z.nodes[i]? = some n) : Row A Z.nodes n.zone (outEdges A n.s) n.next := by
  unfold ta2za at h
  simp only at h
  split_ifs at h with hemp
  · cases h
    simp [ZA.none] at hn
  · simp only [bind, Except.bind] at h
    split at h
    · cases h
    · rename_i N' hN'
      simp only [Except.ok.injEq] at h
      subst h
      refine (expandAll_row ⟨?_, ?_, ?_, ?_⟩ hN').row i (by simp) n hn
      · refine List.Nodup.map ?_ List.nodup_range
        intro a b hab
        simpa using hab
      · intro k hk
        simp only [ZA.none, List.length_nil, List.mem_map, List.mem_range] at hk
        obtain ⟨a, ha, rfl⟩ := hk
        simp only [ZA.none, List.nil_append, List.length_map]
        omega
      · intro k hk n' hn'
        simp only [ZA.none, List.nil_append, List.getElem?_map, Option.map_eq_some_iff] at hn'
        obtain ⟨s, -, rfl⟩ := hn'
        rfl
      · intro k hk n' hn'
        exfalso
        apply hk
        have := (List.getElem?_eq_some_iff.1 hn').1
        simp only [ZA.none, List.nil_append, List.length_map] at this
        simp only [ZA.none, List.length_nil, List.mem_map, List.mem_range]
        exact ⟨k, this, by omega⟩

end Verif
