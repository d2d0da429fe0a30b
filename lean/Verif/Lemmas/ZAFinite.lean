import Verif.Lemmas.Clusters
import Verif.Model.Monaa
import Mathlib.Data.Set.Finite.Lattice
import Mathlib.Logic.Relation

set_option linter.unusedSectionVars false

/-! The zone automaton is built if the zones which can be reached are finitely many. -/

namespace Verif

variable {S K : Type} [Field K] [LinearOrder K] [IsStrictOrderedRing K] [DecidableEq S]

open Bnd Zone

/-- A step of the zone automaton. -/
def ZStep (A : TA S) (p p' : S × Zone K) : Prop :=
  ∃ c e, (c, e) ∈ outEdges A p.1 ∧ e.target = some p'.1 ∧ zoneSucc A.clockSize p.2.elapse e = .ok (some p'.2)

/-- The zones which can be reached. -/
def ZReach (A : TA S) (p : S × Zone K) : Set (S × Zone K) := {p' | Relation.ReflTransGen (ZStep A) p p'}

theorem zstep_finite (A : TA S) (p : S × Zone K) : {p' | ZStep A p p'}.Finite := by
  classical
  let f : Alphabet × Transition S → Option (S × Zone K) := fun x => match x.2.target, zoneSucc A.clockSize p.2.elapse x.2 with
    | some q, .ok (some z) => some (q, z)
    | _, _ => none
  refine (((outEdges A p.1).filterMap f).finite_toSet).subset ?_
  rintro ⟨q, z⟩ ⟨c, e, he, hq, hz⟩
  simp only [Set.mem_setOf_eq, List.mem_filterMap]
  refine ⟨(c, e), he, ?_⟩
  simp only at hq hz
  simp [f, hq, hz]

/-- The zone is one of those which occur. -/
def ZoneOk (A : TA S) (z : Zone K) : Prop := z.n = A.clockSize + 1 ∧ z.Canon ∧ z.M = maxBound A

theorem ZStep.ok {A : TA S} {p p' : S × Zone K} (h : ZStep A p p') (hp : ZoneOk A p.2) : ZoneOk A p'.2 := by
  obtain ⟨c, e, -, -, hz⟩ := h
  obtain ⟨c1, c2, c3⟩ := hp
  obtain ⟨w1, -⟩ := zoneSucc_wf (by simpa using c1) hz
  obtain ⟨w2, w3⟩ := zoneSucc_canon (by simpa using c1) hz
  exact ⟨w1, w2, by rw [w3]; simpa using c3⟩

theorem zreach_head {A : TA S} {p : S × Zone K} : ZReach A p ⊆ {p} ∪ ⋃ p' ∈ {p' | ZStep A p p'}, ZReach A p' := by
  intro x hx
  rcases Relation.ReflTransGen.cases_head hx with rfl | ⟨p', h1, h2⟩
  · exact Or.inl rfl
  · exact Or.inr (Set.mem_biUnion (show p' ∈ {p' | ZStep A p p'} from h1) h2)

/-- The levels do not increase along the transitions of the states in the list, and the transitions within a level are free. -/
def CycleRank (A : TA S) (X : List S) (level : S → Nat) : Prop :=
  ∀ s ∈ X, ∀ c e q, (c, e) ∈ outEdges A s → e.target = some q → level q < level s ∨ (level q = level s ∧ e.guard = [] ∧ e.resets = [])

theorem zreach_finite {A : TA S} {X : List S} (hX : ∀ s ∈ X, ∀ c e q, (c, e) ∈ outEdges A s → e.target = some q → q ∈ X)
    {level : S → Nat} (h : CycleRank A X level) :
    ∀ (L : Nat) (p : S × Zone K), p.1 ∈ X → level p.1 = L → ZoneOk A p.2 → (ZReach A p).Finite := by
  intro L
  induction L using Nat.strong_induction_on with
  | _ L ih =>
    -- zones which do not change when time passes
    have stable : ∀ p : S × Zone K, p.1 ∈ X → level p.1 = L → ZoneOk A p.2 → Passed p.2 → (ZReach A p).Finite := by
      rintro ⟨s, z⟩ hsX hs hz hp
      simp only at hsX hs hz hp
      have hel : z.pass.elapse = z.elapse := elapse_eq hp (by rw [pass_M])
      have hpp : z.pass.pass = z.pass := pass_congr hel
      have hzp : ZoneOk A z.pass := by
        obtain ⟨c1, c2, c3⟩ := hz
        have hz' := zoneSucc_free (S := S) (n := A.clockSize) c2 (e := ⟨none, [], []⟩) rfl rfl
        obtain ⟨w1, -⟩ := zoneSucc_wf (by simpa using c1) hz'
        obtain ⟨w2, w3⟩ := zoneSucc_canon (by simpa using c1) hz'
        exact ⟨w1, w2, by rw [w3]; simpa using c3⟩
      let C : Set (S × Zone K) := {(s, z)} ∪ (fun q => (q, z.pass)) '' {q | q ∈ X}
      have hC : C.Finite := (Set.finite_singleton _).union ((List.finite_toSet X).image _)
      let B : Set (S × Zone K) := C ∪ ⋃ p ∈ C, ⋃ p' ∈ {p' | ZStep A p p' ∧ level p'.1 < L ∧ ZoneOk A p'.2 ∧ p'.1 ∈ X}, ZReach A p'
      have hB : B.Finite := by
        refine hC.union (hC.biUnion fun p _ => ?_)
        refine Set.Finite.biUnion ((zstep_finite A p).subset fun x hx => hx.1) ?_
        intro p' hp'
        exact ih _ hp'.2.1 p' hp'.2.2.2 rfl hp'.2.2.1
      refine hB.subset ?_
      intro x hx
      have hx' : Relation.ReflTransGen (ZStep A) (s, z) x := hx
      clear hx
      have : x ∈ B ∧ (x ∈ C → level x.1 ≤ L) := by
        induction hx' with
        | refl => exact ⟨Or.inl (Or.inl rfl), fun _ => le_of_eq hs⟩
        | @tail y x hy hyx ihx =>
          obtain ⟨hy1, hy2⟩ := ihx
          rcases hy1 with hyC | hyB
          · -- within the level, or leaving it
            have hyl := hy2 hyC
            have hyok : ZoneOk A y.2 := by
              rcases hyC with rfl | ⟨q, -, rfl⟩
              · exact hz
              · exact hzp
            have hyel : y.2.elapse = z.elapse := by
              rcases hyC with rfl | ⟨q, -, rfl⟩
              · rfl
              · exact hel
            obtain ⟨c, e, he, hq, hz'⟩ := hyx
            have hyX : y.1 ∈ X := by
              rcases hyC with rfl | ⟨q, hq, rfl⟩
              · exact hsX
              · exact hq
            have hxX : x.1 ∈ X := hX _ hyX _ _ _ he hq
            have hxok : ZoneOk A x.2 := ZStep.ok ⟨c, e, he, hq, hz'⟩ hyok
            rcases h _ hyX _ _ _ he hq with hlt | ⟨heq, hg, hr⟩
            · refine ⟨Or.inr (Set.mem_biUnion hyC (Set.mem_biUnion
                (show x ∈ {p' | ZStep A y p' ∧ level p'.1 < L ∧ ZoneOk A p'.2 ∧ p'.1 ∈ X} from ⟨⟨c, e, he, hq, hz'⟩, by omega, hxok, hxX⟩) .refl)), fun _ => by omega⟩
            · have hx2 : x.2 = z.pass := by
                rw [zoneSucc_plain hg hr hz', pass_congr hyel]
              exact ⟨Or.inl (Or.inr ⟨x.1, hxX, by rw [← hx2]⟩), fun _ => by omega⟩
          · obtain ⟨p, hpC, hyB⟩ := Set.mem_iUnion₂.1 hyB
            obtain ⟨p', hp', hyB⟩ := Set.mem_iUnion₂.1 hyB
            have hlev : ∀ {a b : S × Zone K}, a.1 ∈ X → Relation.ReflTransGen (ZStep A) a b → b.1 ∈ X ∧ level b.1 ≤ level a.1 := by
              intro a b ha hab
              induction hab with
              | refl => exact ⟨ha, le_rfl⟩
              | tail _ hbc ihb =>
                obtain ⟨c, e, he, hq, -⟩ := hbc
                refine ⟨hX _ ihb.1 _ _ _ he hq, ?_⟩
                rcases h _ ihb.1 _ _ _ he hq with hlt | ⟨heq, -⟩ <;> omega
            have hxr : x ∈ ZReach A p' := Relation.ReflTransGen.tail hyB hyx
            exact ⟨Or.inr (Set.mem_biUnion hpC (Set.mem_biUnion hp' hxr)), fun _ => by
              have := (hlev hp'.2.2.2 hxr).2
              have := hp'.2.1
              omega⟩
      exact this.1
    rintro p hpX hp hz
    by_cases hpass : Passed p.2
    · exact stable p hpX hp hz hpass
    · refine Set.Finite.subset ((Set.finite_singleton p).union (Set.Finite.biUnion (zstep_finite A p) ?_)) zreach_head
      intro p' hp'
      have hok := ZStep.ok hp' hz
      obtain ⟨c, e, he, hq, hz'⟩ := hp'
      have hpX' := hX _ hpX _ _ _ he hq
      rcases h _ hpX _ _ _ he hq with hlt | ⟨heq, hg, hr⟩
      · exact ih _ (by omega) p' hpX' rfl hok
      · refine stable p' hpX' (by omega) hok ?_
        have := zoneSucc_plain hg hr hz'
        exact passed_of_beq hz.2.1 hz.2.2 hok.2.2 (by rw [this]; exact beq_self _)

/-! ### the search ends -/

theorem beq_trans {a b c : Zone K} (h : a.beq b = true) (h' : b.beq c = true) : a.beq c = true := by
  simp only [Zone.beq, Bool.and_eq_true, decide_eq_true_eq, List.all_eq_true, List.mem_range, Bool.or_eq_true] at h h' ⊢
  refine ⟨h.1.trans h'.1, fun i hi j hj => ?_⟩
  rcases h.2 i hi j hj with e | e
  · exact Or.inl e
  · rcases h'.2 i (by omega) j (by omega) with e' | e'
    · exact Or.inl e'
    · exact Or.inr (e.trans e')

theorem findNode_isNone {N : List (ZNode S K)} {q : S} {z : Zone K} :
    findNode N q z = none ↔ ∀ n ∈ N, n.s = q → n.zone.beq z = false := by
  unfold findNode
  rw [List.findIdx?_eq_none_iff]
  constructor
  · intro h n hn hs
    have := h n hn
    simpa [hs] using this
  · intro h n hn
    by_cases hs : n.s = q
    · simp [hs, h n hn hs]
    · simp [hs]

theorem findNode_congr {N : List (ZNode S K)} {q : S} {z z' : Zone K} (h : z.beq z' = true) : findNode N q z = none ↔ findNode N q z' = none := by
  rw [findNode_isNone, findNode_isNone]
  constructor
  · intro h1 n hn hs
    by_contra hc
    rw [Bool.not_eq_false] at hc
    have := beq_trans hc (beq_symm h)
    rw [h1 n hn hs] at this
    cases this
  · intro h1 n hn hs
    by_contra hc
    rw [Bool.not_eq_false] at hc
    have := beq_trans hc h
    rw [h1 n hn hs] at this
    cases this

/-- The zones of `F` which have no state yet. -/
def unseen (F : List (S × Zone K)) (N : List (ZNode S K)) : Nat := (F.filter fun p => (findNode N p.1 p.2).isNone).length

theorem unseen_le {F : List (S × Zone K)} {N N' : List (ZNode S K)} (h : Ext N N') : unseen F N' ≤ unseen F N := by
  unfold unseen
  induction F with
  | nil => simp
  | cons p F ih =>
    rw [List.filter_cons, List.filter_cons]
    rcases hN : findNode N p.1 p.2 with _ | j
    · rcases hN' : findNode N' p.1 p.2 with _ | j'
      · simpa using ih
      · simp only [Option.isNone_some, Bool.false_eq_true, if_false, Option.isNone_none, if_true, List.length_cons]
        omega
    · rw [h _ _ _ hN]
      simpa using ih

theorem unseen_lt {F : List (S × Zone K)} {N N' : List (ZNode S K)} (h : Ext N N') {p : S × Zone K} (hp : p ∈ F)
    (h1 : findNode N p.1 p.2 = none) (h2 : findNode N' p.1 p.2 ≠ none) : unseen F N' < unseen F N := by
  obtain ⟨F1, F2, rfl⟩ := List.append_of_mem hp
  have e1 := unseen_le (F := F1) h
  have e2 := unseen_le (F := F2) h
  unfold unseen at e1 e2 ⊢
  obtain ⟨j, hj⟩ := Option.ne_none_iff_exists'.1 h2
  simp only [List.filter_append, List.filter_cons, h1, hj, Option.isNone_none, Option.isNone_some, if_true, Bool.false_eq_true, if_false,
    List.length_append, List.length_cons]
  omega

/-- The states in the list have a zone which is in `F`. -/
def InF (A : TA S) (F : List (S × Zone K)) (N : List (ZNode S K)) (l : List Nat) : Prop :=
  ∀ j ∈ l, ∃ n : ZNode S K, N[j]? = some n ∧ n.zone.M = maxBound A ∧ ∃ z, (n.s, z) ∈ F ∧ z.M = maxBound A ∧ n.zone.beq z = true

theorem InF.mono {A : TA S} {F : List (S × Zone K)} {N N' : List (ZNode S K)} {l : List Nat} (h : InF A F N l) (hle : NodesLe N N') :
    InF A F N' l := by
  intro j hj
  obtain ⟨n, hn, h1, z, h2⟩ := h j hj
  obtain ⟨n', hn', e1, e2, -⟩ := hle j n hn
  exact ⟨n', hn', by rw [e2]; exact h1, z, by rw [e1, e2]; exact h2⟩

/-- What one step of the search does: the new states are in `F`, and if there are new states, fewer zones of `F` are without state. -/
structure Shrink (A : TA S) (F : List (S × Zone K)) (st st' : List (ZNode S K) × List Nat) : Prop where
  le : NodesLe st.1 st'.1
  ext : Ext st.1 st'.1
  inF : InF A F st.1 st.2 → InF A F st'.1 st'.2
  dec : st'.2 = st.2 ∨ unseen F st'.1 < unseen F st.1

theorem Shrink.refl (A : TA S) (F : List (S × Zone K)) (st : List (ZNode S K) × List Nat) : Shrink A F st st :=
  ⟨NodesLe.refl _, Ext.refl _, id, Or.inl rfl⟩

theorem Shrink.trans {A : TA S} {F : List (S × Zone K)} {st st' st'' : List (ZNode S K) × List Nat} (h : Shrink A F st st')
    (h' : Shrink A F st' st'') : Shrink A F st st'' := by
  refine ⟨h.le.trans h'.le, h.ext.trans h'.ext, fun hi => h'.inF (h.inF hi), ?_⟩
  rcases h.dec with e | e
  · rcases h'.dec with e' | e'
    · exact Or.inl (e'.trans e)
    · exact Or.inr (lt_of_lt_of_le e' (unseen_le h.ext))
  · exact Or.inr (lt_of_le_of_lt (unseen_le h'.ext) e)

section search
variable {A : TA S} (hA : EdgesOk A) {F : List (S × Zone K)}
  (hF : ∀ p ∈ F, ∀ p', p.2.M = maxBound A → ZStep A p p' → p' ∈ F ∧ p'.2.M = maxBound A)

include hA hF

theorem expandEdge_shrink {i : Nat} {n : ZNode S K} {z : Zone K} (hzF : (n.s, z) ∈ F) (hzM : z.M = maxBound A) (hnM : n.zone.M = maxBound A)
    (hb : n.zone.beq z = true) {p : Alphabet × Transition S} (hp : p ∈ outEdges A n.s) (st : List (ZNode S K) × List Nat) :
    ∃ st', expandEdge A i n.zone.elapse p.1 p.2 st = .ok st' ∧ Shrink A F st st' := by
  obtain ⟨h1, h2, h3⟩ := hA n.s p hp
  unfold expandEdge
  split
  · exact ⟨_, rfl, Shrink.refl _ _ _⟩
  · rename_i q ht
    obtain ⟨r, hr⟩ := zoneSucc_ok h2 h3 n.zone.elapse
    rw [hr]
    simp only [bind, Except.bind]
    cases r with
    | none => exact ⟨_, rfl, Shrink.refl _ _ _⟩
    | some z' =>
      simp only [h1, if_true]
      split
      · rename_i j hj
        refine ⟨_, rfl, nodesLe_pushEdge _ _ _ _, ?_, fun hi => hi.mono (nodesLe_pushEdge _ _ _ _), Or.inl rfl⟩
        intro q z j h
        rw [findNode_pushEdge]
        exact h
      · rename_i hf
        have hle := (nodesLe_append st.1 [⟨q, z', (A.st q).isMatch, []⟩]).trans
          (nodesLe_pushEdge (st.1 ++ [⟨q, z', (A.st q).isMatch, []⟩]) i p.1 st.1.length)
        have hext : Ext st.1 (pushEdge (st.1 ++ [⟨q, z', (A.st q).isMatch, []⟩]) i p.1 st.1.length) := by
          intro q z j h
          rw [findNode_pushEdge]
          exact ext_append _ _ _ _ _ h
        obtain ⟨hF1, hF2⟩ := hF (n.s, z) hzF (q, z') hzM ⟨p.1, p.2, hp, ht, by
          show zoneSucc A.clockSize z.elapse p.2 = _
          rw [← elapse_eq hb (by rw [hnM, hzM])]
          exact hr⟩
        refine ⟨_, rfl, hle, hext, ?_, Or.inr ?_⟩
        · intro hi j hj
          rcases List.mem_append.1 hj with hj | hj
          · exact hi.mono hle j hj
          · simp only [List.mem_singleton] at hj
            subst hj
            obtain ⟨n'', g1, g2, g3, -⟩ := nodesLe_pushEdge (st.1 ++ [⟨q, z', (A.st q).isMatch, []⟩]) i p.1 st.1.length
              st.1.length ⟨q, z', (A.st q).isMatch, []⟩ (by simp)
            exact ⟨n'', g1, by rw [g3]; exact hF2, z', by rw [g2]; exact hF1, hF2, by rw [g3]; exact beq_self _⟩
        · refine unseen_lt hext hF1 hf ?_
          simp only
          rw [findNode_pushEdge, Ne, findNode_isNone]
          intro hc
          have := hc ⟨q, z', (A.st q).isMatch, []⟩ (by simp) rfl
          rw [beq_self] at this
          cases this

theorem expandNode_shrink {i : Nat} {st : List (ZNode S K) × List Nat} (hi : InF A F st.1 [i]) :
    ∃ st', expandNode A i st = .ok st' ∧ Shrink A F st st' := by
  obtain ⟨n, hn, hnM, z, hzF, hzM, hb⟩ := hi i (by simp)
  unfold expandNode
  rw [hn]
  simp only
  have key : ∀ (ps : List (Alphabet × Transition S)) (st : List (ZNode S K) × List Nat), (∀ p ∈ ps, p ∈ outEdges A n.s) →
      ∃ st', ps.foldlM (fun st p => expandEdge A i n.zone.elapse p.1 p.2 st) st = Except.ok st' ∧ Shrink A F st st' := by
    intro ps
    induction ps with
    | nil => intro st _; exact ⟨st, rfl, Shrink.refl _ _ _⟩
    | cons p ps ih =>
      intro st hps
      obtain ⟨st1, g1, g2⟩ := expandEdge_shrink hA hF hzF hzM hnM hb (i := i) (hps p (by simp)) st
      obtain ⟨st2, f1, f2⟩ := ih st1 (fun p hp => hps p (by simp [hp]))
      refine ⟨st2, ?_, g2.trans f2⟩
      rw [List.foldlM_cons]
      simp only [bind, Except.bind]
      rw [g1]
      exact f1
  exact key _ st (fun p hp => hp)

theorem expandAll_shrink {U fuel : Nat} {N : List (ZNode S K)} {conf : List Nat} (hi : InF A F N conf) (hU : unseen F N ≤ U)
    (hf : U + 1 < fuel) : ∃ N', expandAll A fuel N conf = .ok N' := by
  induction U using Nat.strong_induction_on generalizing N conf fuel with
  | _ U ih =>
    obtain ⟨fuel, rfl⟩ := Nat.exists_eq_succ_of_ne_zero (by omega : fuel ≠ 0)
    unfold expandAll
    split_ifs with hemp
    · exact ⟨N, rfl⟩
    · have key : ∀ (cs : List Nat) (st : List (ZNode S K) × List Nat), InF A F st.1 cs →
          ∃ st', cs.foldlM (fun st i => expandNode A i st) st = Except.ok st' ∧ Shrink A F st st' := by
        intro cs
        induction cs with
        | nil => intro st _; exact ⟨st, rfl, Shrink.refl _ _ _⟩
        | cons c cs ihc =>
          intro st hcs
          obtain ⟨st1, g1, g2⟩ := expandNode_shrink hA hF (i := c) (st := st) (fun j hj => hcs j (by
            simp only [List.mem_singleton] at hj
            simp [hj]))
          obtain ⟨st2, f1, f2⟩ := ihc st1 (InF.mono (fun j hj => hcs j (by simp [hj])) g2.le)
          refine ⟨st2, ?_, g2.trans f2⟩
          rw [List.foldlM_cons]
          simp only [bind, Except.bind]
          rw [g1]
          exact f1
      obtain ⟨st', e, hs⟩ := key conf (N, []) hi
      simp only [bind, Except.bind]
      rw [e]
      rcases hs.dec with h | h
      · simp only at h ⊢
        rw [h]
        obtain ⟨fuel, rfl⟩ := Nat.exists_eq_succ_of_ne_zero (by omega : fuel ≠ 0)
        exact ⟨st'.1, by simp [expandAll]⟩
      · refine ih (unseen F st'.1) (lt_of_lt_of_le h hU) (hs.inF (by intro j hj; simp at hj)) le_rfl ?_
        have : unseen F st'.1 < U := lt_of_lt_of_le h hU
        omega

theorem ta2za_shrink (hI : ∀ s ∈ A.init, (s, Zone.zero (A.clockSize + 1) (maxBound A)) ∈ F) {fuel : Nat} (hf : F.length + 1 < fuel)
    (Z : ZA S K) : ∃ Z', ta2za fuel A Z = .ok Z' := by
  unfold ta2za
  simp only
  split_ifs
  · exact ⟨_, rfl⟩
  · simp only [bind, Except.bind]
    generalize hI' : (A.init.filter fun s =>
      (findNode Z.nodes s (Zone.zero (A.clockSize + 1) (maxBound A))).isNone) = I
    have hIm : ∀ s ∈ I, s ∈ A.init := by
      intro s hs
      rw [← hI'] at hs
      exact (List.mem_filter.1 hs).1
    obtain ⟨N', h⟩ := expandAll_shrink hA hF (U := F.length) (fuel := fuel) (N := Z.nodes ++ I.map fun s =>
        (⟨s, Zone.zero (A.clockSize + 1) (maxBound A), (A.st s).isMatch, []⟩ : ZNode S K))
        (conf := (List.range I.length).map (Z.nodes.length + ·))
      (by
        intro j hj
        obtain ⟨k, hk, rfl⟩ := List.mem_map.1 hj
        rw [List.mem_range] at hk
        refine ⟨⟨I[k], Zone.zero (A.clockSize + 1) (maxBound A), (A.st I[k]).isMatch, []⟩, ?_, rfl, _, hI _ (hIm _ (List.getElem_mem hk)), rfl,
          beq_self _⟩
        simp [List.getElem?_append_right, hk])
      (List.length_filter_le _ _) hf
    rw [h]
    exact ⟨_, rfl⟩

end search

/-- The construction ends, from whatever zone automaton it starts, if finitely many zones can be reached from the initial states. -/
theorem ta2za_finite {A : TA S} (hA : EdgesOk A)
    (h : ∀ s ∈ A.init, (ZReach A (s, (Zone.zero (A.clockSize + 1) (maxBound A) : Zone K))).Finite) :
    ∃ B, ∀ fuel, B ≤ fuel → ∀ Z : ZA S K, ∃ Z', ta2za fuel A Z = .ok Z' := by
  classical
  have hfin : (⋃ s ∈ {s | s ∈ A.init}, ZReach A (s, (Zone.zero (A.clockSize + 1) (maxBound A) : Zone K))).Finite :=
    (List.finite_toSet A.init).biUnion h
  let F : List (S × Zone K) := hfin.toFinset.toList
  have hF : ∀ p, p ∈ F ↔ ∃ s ∈ A.init, p ∈ ZReach A (s, (Zone.zero (A.clockSize + 1) (maxBound A) : Zone K)) := by
    intro p
    simp [F]
  have hM : ∀ p ∈ F, p.2.M = maxBound A := by
    intro p hp
    obtain ⟨s, -, hr⟩ := (hF p).1 hp
    have : ZoneOk A p.2 := by
      have hr' : Relation.ReflTransGen (ZStep A) (s, (Zone.zero (A.clockSize + 1) (maxBound A) : Zone K)) p := hr
      clear hp hr
      induction hr' with
      | refl => exact ⟨rfl, zero_canon _ _, rfl⟩
      | @tail y x hy hyx ihx => exact hyx.ok ihx
    exact this.2.2
  refine ⟨F.length + 2, fun fuel hf Z => ta2za_shrink hA (F := F) ?_ ?_ (by omega) Z⟩
  · intro p hp p' _ hpp
    obtain ⟨s, hs, hr⟩ := (hF p).1 hp
    have : p' ∈ F := (hF p').2 ⟨s, hs, Relation.ReflTransGen.tail hr hpp⟩
    exact ⟨this, hM p' this⟩
  · intro s hs
    exact (hF _).2 ⟨s, hs, .refl⟩

/-- The zone automaton of an automaton whose cycles are free of guards and resets is built. -/
theorem ta2za_cycles {A : TA S} (hA : EdgesOk A) {X : List S} (hI : ∀ s ∈ A.init, s ∈ X)
    (hX : ∀ s ∈ X, ∀ c e q, (c, e) ∈ outEdges A s → e.target = some q → q ∈ X)
    {level : S → Nat} (h : CycleRank A X level) : ∃ B, ∀ fuel, B ≤ fuel → ∀ Z : ZA S K, ∃ Z', ta2za fuel A Z = .ok Z' :=
  ta2za_finite hA fun s hs => zreach_finite hX h _ (s, _) (hI s hs) rfl ⟨rfl, zero_canon _ _, rfl⟩

theorem ta2za_plainCycles {A : TA S} (hcl : A.Closed) (hM : A.MapOk) (hA : EdgesOk A) (h : A.PlainCycles) :
    ∃ B, ∀ fuel, B ≤ fuel → ∀ Z : ZA S K, ∃ Z', ta2za fuel A Z = .ok Z' := by
  obtain ⟨level, h⟩ := h
  exact ta2za_cycles hA (X := A.states) hcl.1 (fun s hs c e q he hq => hcl.2 s hs c e ((mem_outEdges_iff hM).1 he) q hq) (level := level)
    fun s hs c e q he hq => h s hs c e ((mem_outEdges_iff hM).1 he) q hq

/-! ### the conditions on cycles -/

theorem TA.PlainLoops.plainCycles {A : TA S} (h : A.PlainLoops) : A.PlainCycles := by
  obtain ⟨rank, h⟩ := h
  refine ⟨rank, fun s _ a e he q hq => ?_⟩
  rcases h s a e he q hq with h | ⟨rfl, h1, h2⟩
  · exact Or.inl h
  · exact Or.inr ⟨rfl, h1, h2⟩

theorem TA.OrderedLoops.plainCycles {A : TA S} (h : A.OrderedLoops) : A.PlainCycles := by
  obtain ⟨level, dist, h⟩ := h
  refine ⟨level, fun s hs a e he q hq => ?_⟩
  rcases h s hs with ⟨h0, -⟩ | ⟨-, -, c, es, hn, hl, -⟩
  · simp [TA.edges, h0, Next.at'_nil] at he
  · refine hl e ?_ q hq
    have : e ∈ (A.st s).next.at' a := he
    rw [hn] at this
    simp only [Next.at', Next.find, List.find?_cons, List.find?_nil] at this
    split at this
    · simpa using this
    · simp at this

theorem TA.PlainLoops.loopsOk {A : TA S} (h : A.PlainLoops) : A.LoopsOk := .inl h

theorem TA.Acyclic.loopsOk {A : TA S} (h : A.Acyclic) : A.LoopsOk := .inl h.plainLoops

theorem TA.LoopsOk.plainCycles {A : TA S} (h : A.LoopsOk) : A.PlainCycles := by
  rcases h with h | h
  · exact h.plainCycles
  · exact h.plainCycles

theorem live_of_loopsOk {A : TA S} {fuel : Nat} (hcl : A.Closed) (hM : A.MapOk) (h : A.LoopsOk) :
    ∀ (Z : ZA S K) alive, ta2za fuel A ZA.none = .ok Z → Z.liveStates fuel = .ok alive →
      ∀ i, Z.Reachable i → Z.Live i → i ∈ alive := by
  rcases h with ⟨rank, h⟩ | h
  · exact live_of_loops (rank := rank) fun s c e q he hq => h s c e ((mem_outEdges_iff hM).1 he) q hq
  · exact live_of_clusters hcl hM h

/-! ### `$` -/

open Classical in
theorem TA.OrderedLoops.dropDollar {A Ap : TA S} (h : A.OrderedLoops) (hst : Ap.states = A.states)
    (hs : ∀ s ∈ A.states, Ap.st s = Verif.dropDollar (A.st s)) : Ap.OrderedLoops := by
  obtain ⟨level, dist, h⟩ := h
  let D : S → Prop := fun s => s ∈ A.states ∧ ∃ es, (A.st s).next = [(dollar, es)]
  let lv : S → Nat := fun s => if D s then 0 else level s
  have keep : ∀ s ∈ A.states, ∀ c es, (A.st s).next = [(c, es)] → c ≠ dollar → Ap.st s = A.st s := by
    intro s hs1 c es hn hc
    rw [hs s hs1]
    simp [Verif.dropDollar, hn, Next.find, hc]
  have hlv : ∀ s ∈ A.states, ∀ c es, (A.st s).next = [(c, es)] → c ≠ dollar → lv s = level s := by
    intro s hs1 c es hn hc
    have : ¬ D s := by
      rintro ⟨-, es', hn'⟩
      rw [hn] at hn'
      simp only [List.cons.injEq, Prod.mk.injEq, and_true] at hn'
      exact hc hn'.1
    simp [lv, this]
  refine ⟨lv, dist, fun s hs1 => ?_⟩
  rw [hst] at hs1
  rcases h s hs1 with ⟨h0, h1⟩ | ⟨hm, hpos, c, es, hn, hl, hpw, hor, huni⟩
  · left
    constructor
    · rw [hs s hs1]
      simp [Verif.dropDollar, h0, Next.find]
    · simp only [lv]
      split_ifs
      · rfl
      · exact h1
  · by_cases hc : c = dollar
    · subst hc
      left
      constructor
      · rw [hs s hs1]
        simp [Verif.dropDollar, hn, Next.find]
      · have : D s := ⟨hs1, es, hn⟩
        simp [lv, this]
    · right
      have hls := hlv s hs1 c es hn hc
      have hk := keep s hs1 c es hn hc
      -- the targets in the same level keep their level
      have hsame : ∀ q, level q = level s → ¬ D q := by
        rintro q hq ⟨hqS, es', hn'⟩
        rcases h q hqS with ⟨h0, -⟩ | ⟨-, -, c1, es1, hn1, -, -, -, huni1⟩
        · rw [h0] at hn'
          cases hn'
        · rw [hn'] at hn1
          simp only [List.cons.injEq, Prod.mk.injEq, and_true] at hn1
          exact hc ((huni1 s hs1 c es hq.symm hn).2 hn1.1.symm)
      have hlt : ∀ q, level q < level s → lv q < level s := by
        intro q hq
        simp only [lv]
        split_ifs <;> omega
      have heq : ∀ q, level q = level s → lv q = level s := by
        intro q hq
        simp [lv, hsame q hq, hq]
      have hleav : ∀ e ∈ es, (TA.Leaves lv (lv s) e ↔ TA.Leaves level (level s) e) := by
        intro e he
        rw [hls]
        constructor
        · rintro ⟨q, hq, hq'⟩
          refine ⟨q, hq, ?_⟩
          rcases hl e he q hq with h | ⟨h, -⟩
          · exact h
          · rw [heq q h] at hq'
            omega
        · rintro ⟨q, hq, hq'⟩
          exact ⟨q, hq, hlt q hq'⟩
      rw [hk, hls]
      rw [hls] at hleav
      refine ⟨hm, hpos, c, es, hn, ?_, ?_, ?_, ?_⟩
      · intro e he q hq
        rcases hl e he q hq with h | ⟨h, h'⟩
        · exact Or.inl (hlt q h)
        · exact Or.inr ⟨heq q h, h'⟩
      · refine hpw.imp_of_mem ?_
        intro e f he hf hef h1
        exact (hleav f hf).2 (hef ((hleav e he).1 h1))
      · rcases hor with ⟨e, he, h1⟩ | ⟨es', e, q, h1, h2, h3, h4⟩
        · exact Or.inl ⟨e, he, (hleav e he).2 h1⟩
        · exact Or.inr ⟨es', e, q, h1, h2, heq q h3, h4⟩
      · intro t ht c' fs hlt' hnt
        rw [hst] at ht
        have htD : ¬ D t := by
          intro hD
          simp only [lv, hD, if_true] at hlt'
          omega
        have hlt2 : level t = level s := by simpa [lv, htD] using hlt'
        have hnt' : (A.st t).next = [(c', fs)] ∧ c' ≠ dollar := by
          rcases h t ht with ⟨-, h0⟩ | ⟨-, -, c1, es1, hn1, -⟩
          · omega
          · have hc1 : c1 ≠ dollar := by
              rintro rfl
              exact htD ⟨ht, es1, hn1⟩
            rw [keep t ht c1 es1 hn1 hc1, hn1] at hnt
            simp only [List.cons.injEq, Prod.mk.injEq, and_true] at hnt
            obtain ⟨rfl, rfl⟩ := hnt
            exact ⟨hn1, hc1⟩
        have hu := huni t ht c' fs hlt2 hnt'.1
        refine ⟨?_, fun h => absurd h hc⟩
        rintro ⟨f, hf, hlf⟩ e he hle
        refine hu.1 ⟨f, hf, ?_⟩ e he ((hleav e he).1 hle)
        obtain ⟨q, hq, hq'⟩ := hlf
        refine ⟨q, hq, ?_⟩
        rcases h t ht with ⟨-, h0⟩ | ⟨-, -, c1, es1, hn1, hl1, -⟩
        · omega
        · rw [hnt'.1] at hn1
          simp only [List.cons.injEq, Prod.mk.injEq, and_true] at hn1
          obtain ⟨rfl, rfl⟩ := hn1
          rcases hl1 f hf q hq with h | ⟨h, -⟩
          · omega
          · rw [heq q (h.trans hlt2)] at hq'
            omega

end Verif
