import Verif.Lemmas.DNF

/-!
# The signals of the disjunctive normal form
-/

set_option linter.unusedSectionVars false

namespace Verif

variable {K : Type} [Field K] [LinearOrder K] [IsStrictOrderedRing K]

namespace TMem

/-- Memories in which objects have been made: addresses are in range. -/
structure Good (m : TMem K) : Prop where
  wf : WF m
  fresh : Fresh m

/-- The list `l` of a `DNFTRE` made from `e`. -/
structure DnfOk (m0 m : TMem K) (l : List (List Nat)) (e : TRE K) : Prop where
  ext : Ext m0 m
  good : Good m
  below : ListBelow m.next l
  ne : ∀ c ∈ l, c ≠ []
  den : ∀ x, Den m (.alt l) x ↔ e.Signals x
  single : e.NoConj → ∀ c ∈ l, ∃ a, c = [a]
  noeps : ¬ e.HasEpsilon → ∀ c ∈ l, ∀ a ∈ c, m.atom a ≠ .epsilon
  nomoved : ∀ c ∈ l, ∀ a ∈ c, m.atom a ≠ .moved
  lows : ∀ c ∈ l, ∀ a ∈ c, ∀ s, m.atom a = .singleton s → ∀ J ∈ (m.sing s).2, e.Lowers J.lower

theorem good_newSingleton {m : TMem K} (h : Good m) (v) :
    Good (m.newSingleton v).2 ∧ Ext m (m.newSingleton v).2 ∧ (m.newSingleton v).1 < (m.newSingleton v).2.next ∧
    (m.newSingleton v).2.atom (m.newSingleton v).1 = .singleton m.next ∧ (m.newSingleton v).2.sing m.next = v := by
  have h1 := wf_newSing h.wf h.fresh v
  have h2 := fresh_newSing h.fresh v
  refine ⟨⟨wf_newAtom h1 h2 ?_, fresh_newAtom h2 _⟩, (ext_newSing m v).trans (ext_newAtom _ _), ?_, atom_newAtom _ _, ?_⟩
  · show m.next < (m.newSing v).next
    exact Nat.lt_succ_self _
  · exact Nat.lt_succ_self _
  · exact sing_newSing m v

/-- The concatenation of two atoms which are not epsilon. -/
theorem mkConcat_spec {m : TMem K} (h : Good m) {a b : Nat} (ha : a < m.next) (hb : b < m.next) (ea : m.atom a ≠ .epsilon)
    (eb : m.atom b ≠ .epsilon) (ma : m.atom a ≠ .moved) (mb : m.atom b ≠ .moved) :
    ∃ l, m.mkConcat a b = .ok (m.next, m.newAtom (.concat l)) ∧ Good (m.newAtom (.concat l)) ∧
      ∀ x, Den (m.newAtom (.concat l)) (.atom m.next) x ↔ ∃ y z, x = y.app z ∧ Den m (.atom a) y ∧ Den m (.atom b) z := by
  have hp : ∀ a < m.next, m.atom a ≠ .epsilon → m.atom a ≠ .moved → m.parts a ≠ [] ∧ ∀ x ∈ m.parts a, x < m.next := by
    intro a ha ea ma
    have hw := (h.wf.atom a ha).resolve_left ma
    unfold parts
    split
    · next l hl => rw [hl] at hw; exact hw
    · next hl => exact absurd hl ea
    · exact ⟨by simp, fun x hx => by rw [List.mem_singleton.1 hx]; exact ha⟩
  obtain ⟨na, la⟩ := hp a ha ea ma
  obtain ⟨nb, lb⟩ := hp b hb eb mb
  have hl : NodeBelow m.next (.concat (m.parts a ++ m.parts b) : ANode K) :=
    ⟨by simp [na], fun x hx => (List.mem_append.1 hx).elim (la x) (lb x)⟩
  refine ⟨m.parts a ++ m.parts b, ?_, ⟨wf_newAtom h.wf h.fresh hl, fresh_newAtom h.fresh _⟩, fun x => ?_⟩
  · unfold mkConcat
    cases h1 : m.parts a with
    | nil => exact absurd h1 na
    | cons u us =>
      cases h2 : m.parts b with
      | nil => exact absurd h2 nb
      | cons v vs => cases us <;> rfl
  · rw [den_concat (atom_newAtom _ _), den_iff (ext_newAtom m _) h.wf (p := .seq (m.parts a ++ m.parts b)) hl.2, den_append]
    simp only [den_parts]

/-- The restriction of an atom. -/
theorem mkWithin_spec {m : TMem K} (h : Good m) {a : Nat} (ha : a < m.next) (ma : m.atom a ≠ .moved) (I : Interval K) :
    ∃ m', m.mkWithin a I = .ok (m'.next - 1, m') ∧ 0 < m'.next ∧ Good m' ∧ Ext m m' ∧
      m'.atom (m'.next - 1) ≠ .moved ∧ m'.atom (m'.next - 1) ≠ .epsilon ∧
      (∀ s, m'.atom (m'.next - 1) = .singleton s → ∃ s', m.atom a = .singleton s' ∧ m'.sing s = ((m.sing s').1, Interval.land1 (m.sing s').2 I)) ∧
      (∀ x, Den m (.atom a) x ∧ I.Mem x.dur → Den m' (.atom (m'.next - 1)) x) ∧
      ((∀ s, m.atom a = .singleton s → ∀ J ∈ (m.sing s).2, ∀ c s t, J.lower = .fin c s → I.lower = .fin c t → s = t) →
        ∀ x, Den m' (.atom (m'.next - 1)) x → Den m (.atom a) x ∧ I.Mem x.dur) := by
  have hw := (h.wf.atom a ha).resolve_left ma
  have other : ∀ n : ANode K, m.atom a = n → (∀ s, n ≠ .singleton s) →
      m.mkWithin a I = .ok (m.next, m.newAtom (.within a I)) := by
    intro n hn hs
    unfold mkWithin
    split
    · next s h' => exact absurd (hn.symm.trans h') (hs s)
    · next h' => exact absurd h' ma
    · rfl
  by_cases hs : ∃ s, m.atom a = .singleton s
  · obtain ⟨s, hs⟩ := hs
    obtain ⟨g1, g2, g3, g4, g5⟩ := good_newSingleton h ((m.sing s).1, Interval.land1 (m.sing s).2 I)
    have e1 : (m.newSingleton ((m.sing s).1, Interval.land1 (m.sing s).2 I)).1 =
        (m.newSingleton ((m.sing s).1, Interval.land1 (m.sing s).2 I)).2.next - 1 := rfl
    have hden : ∀ x, Den (m.newSingleton ((m.sing s).1, Interval.land1 (m.sing s).2 I)).2
        (.atom (m.newSingleton ((m.sing s).1, Interval.land1 (m.sing s).2 I)).1) x ↔
        ∃ d h, x = Sig.const (m.sing s).1 d h ∧ Interval.MemAny (Interval.land1 (m.sing s).2 I) d := by
      intro x; rw [den_singleton g4, g5]
    refine ⟨(m.newSingleton ((m.sing s).1, Interval.land1 (m.sing s).2 I)).2, by unfold mkWithin; rw [hs]; rfl, Nat.lt_of_le_of_lt (Nat.zero_le _) g3, g1, g2, ?_, ?_, ?_, ?_, ?_⟩
    · rw [← e1, g4]; simp
    · rw [← e1, g4]; simp
    · intro s' h'
      rw [← e1, g4] at h'
      cases h'
      exact ⟨s, hs, g5⟩
    · rintro x ⟨hx, hI⟩
      rw [← e1, hden]
      obtain ⟨d, hd, rfl, J, hJ, hm⟩ := (den_singleton hs).1 hx
      exact ⟨d, hd, rfl, Interval.memAny_land1.2 ⟨J, hJ, Interval.mem_inter_of hm hI⟩⟩
    · intro hf x hx
      rw [← e1, hden] at hx
      obtain ⟨d, hd, rfl, hm⟩ := hx
      obtain ⟨J, hJ, hm⟩ := Interval.memAny_land1.1 hm
      rcases Interval.mem_inter hm with ⟨h1, h2⟩ | ⟨b, h1, h2⟩
      · exact ⟨(den_singleton hs).2 ⟨d, hd, rfl, J, hJ, h1⟩, h2⟩
      · have := hf s hs J hJ d b _ h1 h2
        cases b <;> simp at this
  · have hm := other _ rfl fun s h' => hs ⟨s, h'⟩
    have hn : (m.newAtom (.within a I)).next - 1 = m.next := rfl
    have hb : NodeBelow m.next (.within a I : ANode K) := ha
    have hden : ∀ x, Den (m.newAtom (.within a I)) (.atom m.next) x ↔ Den m (.atom a) x ∧ I.Mem x.dur := by
      intro x
      rw [den_within (atom_newAtom _ _), den_iff (ext_newAtom m _) h.wf (p := .atom a) ha]
    refine ⟨m.newAtom (.within a I), hm, Nat.succ_pos _, ⟨wf_newAtom h.wf h.fresh hb, fresh_newAtom h.fresh _⟩, ext_newAtom _ _, ?_, ?_, ?_, ?_, ?_⟩
    · rw [hn, atom_newAtom]; simp
    · rw [hn, atom_newAtom]; simp
    · intro s h'; rw [hn, atom_newAtom] at h'; cases h'
    · intro x; rw [hn]; exact (hden x).2
    · intro _ x; rw [hn]; exact (hden x).1

/-- Properties of an atom in later memories. -/
theorem atom_later {m0 m : TMem K} (he : Ext m0 m) {a : Nat} (ha : a < m0.next) : m.atom a = m0.atom a := he.atom a ha

theorem dnfOk_disj {m0 m1 m2 : TMem K} {l r : List (List Nat)} {e f : TRE K} (h1 : DnfOk m0 m1 l e) (h2 : DnfOk m1 m2 r f) :
    DnfOk m0 m2 (l ++ r) (.disj e f) where
  ext := h1.ext.trans h2.ext
  good := h2.good
  below c hc := (List.mem_append.1 hc).elim (h1.below.mono h2.ext.next c) (h2.below c)
  ne c hc := (List.mem_append.1 hc).elim (h1.ne c) (h2.ne c)
  den x := by
    show _ ↔ e.Signals x ∨ f.Signals x
    rw [← h1.den, ← h2.den, ← den_iff h2.ext h1.good.wf (p := .alt l) h1.below]
    simp only [den_alt, List.mem_append, or_and_right, exists_or]
  single hn c hc := (List.mem_append.1 hc).elim (h1.single hn.1 c) (h2.single hn.2 c)
  noeps hn c hc a ha := by
    have hn' : ¬ e.HasEpsilon ∧ ¬ f.HasEpsilon := not_or.1 hn
    rcases List.mem_append.1 hc with h | h
    · rw [h2.ext.atom a (h1.below c h a ha)]; exact h1.noeps hn'.1 c h a ha
    · exact h2.noeps hn'.2 c h a ha
  nomoved c hc a ha := by
    rcases List.mem_append.1 hc with h | h
    · rw [h2.ext.atom a (h1.below c h a ha)]; exact h1.nomoved c h a ha
    · exact h2.nomoved c h a ha
  lows c hc a ha s hs J hJ := by
    rcases List.mem_append.1 hc with h | h
    · rw [h2.ext.atom a (h1.below c h a ha)] at hs
      have hs' : s < m1.next := by
        have := h1.good.wf.atom a (h1.below c h a ha); rw [hs] at this; simpa [NodeBelow] using this
      rw [h2.ext.sing s hs'] at hJ
      exact .inl (h1.lows c h a ha s hs J hJ)
    · exact .inr (h2.lows c h a ha s hs J hJ)

theorem dnfOk_conj {m0 m1 m2 : TMem K} {l r : List (List Nat)} {e f : TRE K} (h1 : DnfOk m0 m1 l e) (h2 : DnfOk m1 m2 r f) :
    DnfOk m0 m2 (((pairs l r).map fun p => p.1 ++ p.2).filter (fun c => !c.isEmpty)) (.conj e f) := by
  have hm : ∀ c, c ∈ ((pairs l r).map fun p => p.1 ++ p.2).filter (fun c => !c.isEmpty) → ∃ u ∈ l, ∃ v ∈ r, c = u ++ v := by
    intro c hc
    obtain ⟨p, hp, rfl⟩ := List.mem_map.1 (List.mem_filter.1 hc).1
    exact ⟨p.1, (mem_pairs.1 hp).1, p.2, (mem_pairs.1 hp).2, rfl⟩
  have later : ∀ u ∈ l, ∀ a ∈ u, m2.atom a = m1.atom a := fun u hu a ha => h2.ext.atom a (h1.below u hu a ha)
  refine ⟨h1.ext.trans h2.ext, h2.good, ?_, ?_, ?_, fun h => h.elim, ?_, ?_, ?_⟩
  · intro c hc a ha
    obtain ⟨u, hu, v, hv, rfl⟩ := hm c hc
    exact (List.mem_append.1 ha).elim (h1.below.mono h2.ext.next u hu a) (h2.below v hv a)
  · intro c hc
    have := (List.mem_filter.1 hc).2
    intro h; rw [h] at this; simp at this
  · intro x
    show _ ↔ e.Signals x ∧ f.Signals x
    rw [← h1.den, ← h2.den, ← den_iff h2.ext h1.good.wf (p := .alt l) h1.below]
    simp only [den_alt]
    constructor
    · rintro ⟨c, hc, h⟩
      obtain ⟨u, hu, v, hv, rfl⟩ := hm c hc
      exact ⟨⟨u, hu, fun b hb => h b (List.mem_append_left _ hb)⟩, v, hv, fun b hb => h b (List.mem_append_right _ hb)⟩
    · rintro ⟨⟨u, hu, hu'⟩, v, hv, hv'⟩
      refine ⟨u ++ v, List.mem_filter.2 ⟨List.mem_map.2 ⟨(u, v), mem_pairs.2 ⟨hu, hv⟩, rfl⟩, ?_⟩, fun b hb =>
        (List.mem_append.1 hb).elim (hu' b) (hv' b)⟩
      have := h1.ne u hu
      cases u with
      | nil => exact absurd rfl this
      | cons => rfl
  · intro hn c hc a ha
    have hn' : ¬ e.HasEpsilon ∧ ¬ f.HasEpsilon := not_or.1 hn
    obtain ⟨u, hu, v, hv, rfl⟩ := hm c hc
    rcases List.mem_append.1 ha with h | h
    · rw [later u hu a h]; exact h1.noeps hn'.1 u hu a h
    · exact h2.noeps hn'.2 v hv a h
  · intro c hc a ha
    obtain ⟨u, hu, v, hv, rfl⟩ := hm c hc
    rcases List.mem_append.1 ha with h | h
    · rw [later u hu a h]; exact h1.nomoved u hu a h
    · exact h2.nomoved v hv a h
  · intro c hc a ha s hs J hJ
    obtain ⟨u, hu, v, hv, rfl⟩ := hm c hc
    rcases List.mem_append.1 ha with h | h
    · rw [later u hu a h] at hs
      have hs' : s < m1.next := by
        have := h1.good.wf.atom a (h1.below u hu a h); rw [hs] at this; simpa [NodeBelow] using this
      rw [h2.ext.sing s hs'] at hJ
      exact .inl (h1.lows u hu a h s hs J hJ)
    · exact .inr (h2.lows v hv a h s hs J hJ)

theorem dnfOk_plus {m0 m : TMem K} {l : List (List Nat)} {e : TRE K} (h : DnfOk m0 m l e) :
    DnfOk m0 ((m.newDnf l).newAtom (.plus m.next)) [[(m.newDnf l).next]] (.plus e) := by
  have w1 := wf_newDnf h.good.wf h.good.fresh h.below
  have f1 := fresh_newDnf h.good.fresh l
  have hb : NodeBelow (m.newDnf l).next (.plus m.next : ANode K) := Nat.lt_succ_self _
  have ex := (ext_newDnf m l).trans (ext_newAtom _ (.plus m.next))
  have hat : ((m.newDnf l).newAtom (.plus m.next)).atom (m.newDnf l).next = .plus m.next := atom_newAtom _ _
  have hd : ((m.newDnf l).newAtom (.plus m.next)).dnf m.next = l := dnf_newDnf m l
  have one : ∀ c ∈ [[(m.newDnf l).next]], ∀ a ∈ c, a = (m.newDnf l).next := by
    intro c hc a ha
    rw [List.mem_singleton.1 hc] at ha
    exact List.mem_singleton.1 ha
  refine ⟨h.ext.trans ex, ⟨wf_newAtom w1 f1 hb, fresh_newAtom f1 _⟩, ?_, ?_, ?_, ?_, ?_, ?_, ?_⟩
  · intro c hc a ha; rw [one c hc a ha]; exact Nat.lt_succ_self _
  · intro c hc; rw [List.mem_singleton.1 hc]; simp
  · intro x
    show _ ↔ Iter Sig.app e.Signals x
    have : ∀ y, Den ((m.newDnf l).newAtom (.plus m.next)) (.alt l) y ↔ e.Signals y := fun y => by
      rw [den_iff ex h.good.wf (p := .alt l) h.below, h.den]
    simp only [den_alt, List.mem_singleton, exists_eq_left, forall_eq]
    rw [den_plus hat, hd, den_rep]
    exact ⟨iter_congr fun y => (this y).1, iter_congr fun y => (this y).2⟩
  · intro _ c hc; exact ⟨_, List.mem_singleton.1 hc⟩
  · intro _ c hc a ha; rw [one c hc a ha, hat]; simp
  · intro c hc a ha; rw [one c hc a ha, hat]; simp
  · intro c hc a ha s hs; rw [one c hc a ha, hat] at hs; cases hs

theorem dnfOk_epsilon {m : TMem K} (h : Good m) : DnfOk m (m.newAtom .epsilon) [[m.next]] .epsilon := by
  have one : ∀ c ∈ [[m.next]], ∀ a ∈ c, a = m.next := by
    intro c hc a ha
    rw [List.mem_singleton.1 hc] at ha
    exact List.mem_singleton.1 ha
  have hat : (m.newAtom .epsilon).atom m.next = .epsilon := atom_newAtom _ _
  refine ⟨ext_newAtom _ _, ⟨wf_newAtom h.wf h.fresh trivial, fresh_newAtom h.fresh _⟩, ?_, ?_, ?_, ?_, ?_, ?_, ?_⟩
  · intro c hc a ha; rw [one c hc a ha]; exact Nat.lt_succ_self _
  · intro c hc; rw [List.mem_singleton.1 hc]; simp
  · intro x
    show _ ↔ x = Sig.nil
    simp only [den_alt, List.mem_singleton, exists_eq_left, forall_eq]
    exact den_epsilon hat
  · intro _ c hc; exact ⟨_, List.mem_singleton.1 hc⟩
  · intro hn; exact absurd trivial hn
  · intro c hc a ha; rw [one c hc a ha, hat]; simp
  · intro c hc a ha s hs; rw [one c hc a ha, hat] at hs; cases hs

theorem dnfOk_atom {m : TMem K} (h : Good m) (c : Alphabet) :
    DnfOk m (m.newSingleton (c, [Interval.default])).2 [[(m.newSingleton (c, [Interval.default])).1]] (.atom c) := by
  obtain ⟨g1, g2, g3, g4, g5⟩ := good_newSingleton h (c, [Interval.default])
  have one : ∀ d ∈ [[(m.newSingleton (c, [(Interval.default : Interval K)])).1]], ∀ a ∈ d,
      a = (m.newSingleton (c, [(Interval.default : Interval K)])).1 := by
    intro d hd a ha
    rw [List.mem_singleton.1 hd] at ha
    exact List.mem_singleton.1 ha
  refine ⟨g2, g1, ?_, ?_, ?_, ?_, ?_, ?_, ?_⟩
  · intro d hd a ha; rw [one d hd a ha]; exact g3
  · intro d hd; rw [List.mem_singleton.1 hd]; simp
  · intro x
    show _ ↔ ∃ d h, x = Sig.const c d h
    simp only [den_alt, List.mem_singleton, exists_eq_left, forall_eq]
    rw [den_singleton g4, g5]
    constructor
    · rintro ⟨d, h, rfl, _⟩; exact ⟨d, h, rfl⟩
    · rintro ⟨d, h, rfl⟩
      exact ⟨d, h, rfl, _, List.mem_singleton.2 rfl, by simpa [Interval.default, Interval.Mem, Interval.Above, Bnd.sat] using h⟩
  · intro _ d hd; exact ⟨_, List.mem_singleton.1 hd⟩
  · intro _ d hd a ha; rw [one d hd a ha, g4]; simp
  · intro d hd a ha; rw [one d hd a ha, g4]; simp
  · intro d hd a ha s hs J hJ
    rw [one d hd a ha, g4] at hs
    cases hs
    rw [g5] at hJ
    rw [List.mem_singleton.1 hJ]
    rfl

/-- Atoms of a restricted expression. -/
def WithinPost (m1 : TMem K) (e : TRE K) (I : Interval K) (a b : Nat) (m : TMem K) : Prop :=
  b < m.next ∧ m.atom b ≠ .moved ∧ m.atom b ≠ .epsilon ∧
  (∀ s, m.atom b = .singleton s → ∀ J ∈ (m.sing s).2, (TRE.within e I).Lowers J.lower) ∧
  ∀ x, Den m (.atom b) x ↔ Den m1 (.atom a) x ∧ I.Mem x.dur

theorem lower_inter (I J : Interval K) : (Interval.inter I J).lower = I.lower ∨ (Interval.inter I J).lower = J.lower := by
  unfold Interval.inter Bnd.max
  split
  · exact .inr rfl
  · exact .inl rfl

theorem dnfOk_within {m0 m1 : TMem K} {l : List (List Nat)} {e : TRE K} (h : DnfOk m0 m1 l e) (I : Interval K)
    (hf : ∀ c s t, e.Lowers (.fin c s) → I.lower = .fin c t → s = t) :
    ∃ r m2, m1.mapM (fun m c => m.mapM (fun m a => m.mkWithin a I) c) l = .ok (r, m2) ∧ DnfOk m0 m2 r (.within e I) := by
  let P : TMem K → Prop := fun m => Good m ∧ Ext m1 m
  have mono1 : ∀ a b m m', WithinPost m1 e I a b m → P m → Ext m m' → WithinPost m1 e I a b m' := by
    rintro a b m m' ⟨q1, q2, q3, q4, q5⟩ hP he
    refine ⟨lt_of_lt_of_le q1 he.next, by rwa [he.atom b q1], by rwa [he.atom b q1], ?_, fun x => ?_⟩
    · intro s hs J hJ
      rw [he.atom b q1] at hs
      have hs' : s < m.next := by
        have := hP.1.wf.atom b q1; rw [hs] at this; simpa [NodeBelow] using this
      rw [he.sing s hs'] at hJ
      exact q4 s hs J hJ
    · rw [den_iff he hP.1.wf (p := .atom b) q1, q5]
  have inner : ∀ c ∈ l, ∀ m, P m → ∃ r m', m.mapM (fun m a => m.mkWithin a I) c = .ok (r, m') ∧ P m' ∧ Ext m m' ∧
      List.Forall₂ (fun a b => WithinPost m1 e I a b m') c r := by
    intro c hc m hP
    refine mapM_spec (P := P) (Q := WithinPost m1 e I) mono1 c m hP fun a ha m hP => ?_
    have ha1 := h.below c hc a ha
    have hat : m.atom a = m1.atom a := hP.2.atom a ha1
    have hsing : ∀ s, m1.atom a = .singleton s → m.sing s = m1.sing s := by
      intro s hs
      have hs' : s < m1.next := by
        have := h.good.wf.atom a ha1; rw [hs] at this; simpa [NodeBelow] using this
      exact hP.2.sing s hs'
    obtain ⟨m', k1, k0, k2, k3, k4, k5, k6, k7, k8⟩ := mkWithin_spec hP.1 (lt_of_lt_of_le ha1 hP.2.next)
      (by rw [hat]; exact h.nomoved c hc a ha) I
    have hlow : ∀ s, m.atom a = .singleton s → ∀ J ∈ (m.sing s).2, e.Lowers J.lower := by
      intro s hs J hJ
      rw [hat] at hs
      rw [hsing s hs] at hJ
      exact h.lows c hc a ha s hs J hJ
    refine ⟨_, m', k1, ⟨k2, hP.2.trans k3⟩, k3, Nat.sub_lt k0 Nat.one_pos, k4, k5, ?_, fun x => ?_⟩
    · intro s hs J hJ
      obtain ⟨s', hs', e'⟩ := k6 s hs
      rw [e'] at hJ
      obtain ⟨J', hJ', rfl⟩ := List.mem_map.1 (List.mem_filter.1 hJ).1
      have hl := hlow s' hs' J' hJ'
      rcases lower_inter J' I with e1 | e1
      · exact .inl (by rw [e1]; exact hl)
      · exact .inr ⟨e1, _, hl⟩
    · rw [← den_iff hP.2 h.good.wf (p := .atom a) ha1]
      exact ⟨k8 (fun s hs J hJ c s' t h1 h2 => hf c s' t (h1 ▸ hlow s hs J hJ) h2) x, k7 x⟩
  obtain ⟨r, m2, k1, k2, _, k4⟩ := mapM_spec (P := P)
    (Q := fun c r m => List.Forall₂ (fun a b => WithinPost m1 e I a b m) c r)
    (fun c r m m' q hP he => q.imp fun a b hab => mono1 a b m m' hab hP he) l m1 ⟨h.good, Ext.rfl' m1⟩ inner
  refine ⟨r, m2, k1, h.ext.trans k2.2, k2.1, ?_, ?_, ?_, ?_, ?_, ?_, ?_⟩
  · intro d hd b hb
    obtain ⟨c, hc, hcd⟩ := forall₂_right k4 hd
    obtain ⟨a, _, hab⟩ := forall₂_right hcd hb
    exact hab.1
  · intro d hd
    obtain ⟨c, hc, hcd⟩ := forall₂_right k4 hd
    have := h.ne c hc
    cases hcd with
    | nil => exact absurd rfl this
    | cons => simp
  · intro x
    show _ ↔ e.Signals x ∧ I.Mem x.dur
    rw [← h.den]
    simp only [den_alt]
    constructor
    · rintro ⟨d, hd, hx⟩
      obtain ⟨c, hc, hcd⟩ := forall₂_right k4 hd
      have hall : ∀ a ∈ c, Den m1 (.atom a) x ∧ I.Mem x.dur := by
        intro a ha
        obtain ⟨b, hb, hab⟩ := forall₂_left hcd ha
        exact (hab.2.2.2.2 x).1 (hx b hb)
      refine ⟨⟨c, hc, fun a ha => (hall a ha).1⟩, ?_⟩
      cases c with
      | nil => exact absurd rfl (h.ne _ hc)
      | cons a c => exact (hall a (List.mem_cons_self ..)).2
    · rintro ⟨⟨c, hc, hx⟩, hI⟩
      obtain ⟨d, hd, hcd⟩ := forall₂_left k4 hc
      refine ⟨d, hd, fun b hb => ?_⟩
      obtain ⟨a, ha, hab⟩ := forall₂_right hcd hb
      exact (hab.2.2.2.2 x).2 ⟨hx a ha, hI⟩
  · intro hn d hd
    obtain ⟨c, hc, hcd⟩ := forall₂_right k4 hd
    obtain ⟨a, rfl⟩ := h.single hn c hc
    cases hcd with
    | cons hab h' => cases h'; exact ⟨_, rfl⟩
  · intro _ d hd b hb
    obtain ⟨c, hc, hcd⟩ := forall₂_right k4 hd
    obtain ⟨a, _, hab⟩ := forall₂_right hcd hb
    exact hab.2.2.1
  · intro d hd b hb
    obtain ⟨c, hc, hcd⟩ := forall₂_right k4 hd
    obtain ⟨a, _, hab⟩ := forall₂_right hcd hb
    exact hab.2.1
  · intro d hd b hb
    obtain ⟨c, hc, hcd⟩ := forall₂_right k4 hd
    obtain ⟨a, _, hab⟩ := forall₂_right hcd hb
    exact hab.2.2.2.1

/-- Concatenated atoms. -/
def ConcatPost (m1 m2 : TMem K) (q : Nat × Nat) (b : Nat) (m : TMem K) : Prop :=
  b < m.next ∧ m.atom b ≠ .moved ∧ m.atom b ≠ .epsilon ∧ (∀ s, m.atom b ≠ .singleton s) ∧
  ∀ x, Den m (.atom b) x ↔ ∃ y z, x = y.app z ∧ Den m1 (.atom q.1) y ∧ Den m2 (.atom q.2) z

theorem dnfOk_concat {m0 m1 m2 : TMem K} {l r : List (List Nat)} {e f : TRE K} (h1 : DnfOk m0 m1 l e) (h2 : DnfOk m1 m2 r f)
    (n1 : e.NoConj) (n2 : f.NoConj) (p1 : ¬ e.HasEpsilon) (p2 : ¬ f.HasEpsilon) :
    ∃ t m3, m2.mapM (fun m p => m.mapM (fun m q => m.mkConcat q.1 q.2) (pairs p.1 p.2)) (pairs l r) = .ok (t, m3) ∧
      DnfOk m0 m3 (t.filter fun c => !c.isEmpty) (.concat e f) := by
  let P : TMem K → Prop := fun m => Good m ∧ Ext m2 m
  have mono1 : ∀ a b m m', ConcatPost m1 m2 a b m → P m → Ext m m' → ConcatPost m1 m2 a b m' := by
    rintro a b m m' ⟨q1, q2, q3, q4, q5⟩ hP he
    refine ⟨lt_of_lt_of_le q1 he.next, by rwa [he.atom b q1], by rwa [he.atom b q1], by rwa [he.atom b q1], fun x => ?_⟩
    rw [den_iff he hP.1.wf (p := .atom b) q1, q5]
  have inner : ∀ p ∈ pairs l r, ∀ m, P m → ∃ t m', m.mapM (fun m q => m.mkConcat q.1 q.2) (pairs p.1 p.2) = .ok (t, m') ∧ P m' ∧
      Ext m m' ∧ List.Forall₂ (fun q b => ConcatPost m1 m2 q b m') (pairs p.1 p.2) t := by
    intro p hp m hP
    obtain ⟨hp1, hp2⟩ := mem_pairs.1 hp
    refine mapM_spec (P := P) (Q := ConcatPost m1 m2) mono1 _ m hP fun q hq m hP => ?_
    obtain ⟨hq1, hq2⟩ := mem_pairs.1 hq
    have b1 := h1.below _ hp1 _ hq1
    have b2 := h2.below _ hp2 _ hq2
    have ex := h2.ext.trans hP.2
    have a1 : m.atom q.1 = m1.atom q.1 := ex.atom _ b1
    have a2 : m.atom q.2 = m2.atom q.2 := hP.2.atom _ b2
    obtain ⟨L, k1, k2, k3⟩ := mkConcat_spec hP.1 (lt_of_lt_of_le b1 ex.next) (lt_of_lt_of_le b2 hP.2.next)
      (by rw [a1]; exact h1.noeps p1 _ hp1 _ hq1) (by rw [a2]; exact h2.noeps p2 _ hp2 _ hq2)
      (by rw [a1]; exact h1.nomoved _ hp1 _ hq1) (by rw [a2]; exact h2.nomoved _ hp2 _ hq2)
    have ex' := ext_newAtom m (.concat L)
    refine ⟨_, _, k1, ⟨k2, hP.2.trans ex'⟩, ex', Nat.lt_succ_self _, ?_, ?_, ?_, fun x => ?_⟩
    · rw [atom_newAtom]; simp
    · rw [atom_newAtom]; simp
    · intro s; rw [atom_newAtom]; simp
    · rw [k3 x]
      simp only [den_iff ex h1.good.wf (p := .atom q.1) b1, den_iff hP.2 h2.good.wf (p := .atom q.2) b2]
  obtain ⟨t, m3, k1, k2, _, k4⟩ := mapM_spec (P := P)
    (Q := fun (p : List Nat × List Nat) (t : List Nat) m => List.Forall₂ (fun q b => ConcatPost m1 m2 q b m) (pairs p.1 p.2) t)
    (fun _ _ m m' (q : List.Forall₂ _ _ _) hP he => List.Forall₂.imp (fun a b hab => mono1 a b m m' hab hP he) q) (pairs l r) m2 ⟨h2.good, Ext.rfl' m2⟩ inner
  have back : ∀ d ∈ t.filter (fun c => !c.isEmpty), ∃ a b c, d = [c] ∧ [a] ∈ l ∧ [b] ∈ r ∧ ConcatPost m1 m2 (a, b) c m3 := by
    intro d hd
    obtain ⟨p, hp, hpd⟩ := forall₂_right k4 (List.mem_filter.1 hd).1
    obtain ⟨hp1, hp2⟩ := mem_pairs.1 hp
    obtain ⟨a, ha⟩ := h1.single n1 _ hp1
    obtain ⟨b, hb⟩ := h2.single n2 _ hp2
    have : pairs p.1 p.2 = [(a, b)] := by rw [ha, hb]; rfl
    rw [this] at hpd
    cases hpd with
    | cons hab h' => cases h'; exact ⟨a, b, _, rfl, ha ▸ hp1, hb ▸ hp2, hab⟩
  have forth : ∀ a b, [a] ∈ l → [b] ∈ r → ∃ c, [c] ∈ t.filter (fun c => !c.isEmpty) ∧ ConcatPost m1 m2 (a, b) c m3 := by
    intro a b ha hb
    obtain ⟨d, hd, hpd⟩ := forall₂_left k4 (x := ([a], [b])) (mem_pairs.2 ⟨ha, hb⟩)
    have : pairs [a] [b] = [(a, b)] := rfl
    simp only [this] at hpd
    cases hpd with
    | cons hab h' => cases h'; exact ⟨_, List.mem_filter.2 ⟨hd, rfl⟩, hab⟩
  refine ⟨t, m3, k1, (h1.ext.trans h2.ext).trans k2.2, k2.1, ?_, ?_, ?_, ?_, ?_, ?_, ?_⟩
  · intro d hd x hx
    obtain ⟨a, b, c, rfl, _, _, hc⟩ := back d hd
    rw [List.mem_singleton.1 hx]; exact hc.1
  · intro d hd
    obtain ⟨a, b, c, rfl, _⟩ := back d hd
    simp
  · intro x
    show _ ↔ ∃ y z, x = y.app z ∧ e.Signals y ∧ f.Signals z
    simp only [← h1.den, ← h2.den, den_alt]
    constructor
    · rintro ⟨d, hd, hx⟩
      obtain ⟨a, b, c, rfl, ha, hb, hc⟩ := back d hd
      obtain ⟨y, z, rfl, hy, hz⟩ := (hc.2.2.2.2 x).1 (hx c (List.mem_singleton.2 rfl))
      exact ⟨y, z, rfl, ⟨_, ha, fun u hu => by rwa [List.mem_singleton.1 hu]⟩, _, hb, fun u hu => by rwa [List.mem_singleton.1 hu]⟩
    · rintro ⟨y, z, rfl, ⟨u, hu, hy⟩, v, hv, hz⟩
      obtain ⟨a, rfl⟩ := h1.single n1 u hu
      obtain ⟨b, rfl⟩ := h2.single n2 v hv
      obtain ⟨c, hc, hc'⟩ := forth a b hu hv
      refine ⟨_, hc, fun w hw => ?_⟩
      rw [List.mem_singleton.1 hw]
      exact (hc'.2.2.2.2 _).2 ⟨y, z, rfl, hy a (List.mem_singleton.2 rfl), hz b (List.mem_singleton.2 rfl)⟩
  · intro _ d hd
    obtain ⟨a, b, c, rfl, _⟩ := back d hd
    exact ⟨_, rfl⟩
  · intro _ d hd x hx
    obtain ⟨a, b, c, rfl, _, _, hc⟩ := back d hd
    rw [List.mem_singleton.1 hx]; exact hc.2.2.1
  · intro d hd x hx
    obtain ⟨a, b, c, rfl, _, _, hc⟩ := back d hd
    rw [List.mem_singleton.1 hx]; exact hc.2.1
  · intro d hd x hx s hs
    obtain ⟨a, b, c, rfl, _, _, hc⟩ := back d hd
    rw [List.mem_singleton.1 hx] at hs; exact absurd hs (hc.2.2.2.1 s)

theorem toDNF_spec : ∀ (e : TRE K) (m : TMem K), e.Distributes → Good m → ∃ l m', e.toDNF m = .ok (l, m') ∧ DnfOk m m' l e
  | .atom c, m, _, h => ⟨_, _, rfl, dnfOk_atom h c⟩
  | .epsilon, m, _, h => ⟨_, _, rfl, dnfOk_epsilon h⟩
  | .plus e, m, he, h => by
    obtain ⟨l, m1, k1, k2⟩ := toDNF_spec e m he h
    exact ⟨_, _, by simp only [TRE.toDNF, k1]; rfl, dnfOk_plus k2⟩
  | .concat e f, m, he, h => by
    obtain ⟨l, m1, k1, k2⟩ := toDNF_spec e m he.1 h
    obtain ⟨r, m2, k3, k4⟩ := toDNF_spec f m1 he.2.1 k2.good
    obtain ⟨t, m3, k5, k6⟩ := dnfOk_concat k2 k4 he.2.2.1 he.2.2.2.1 he.2.2.2.2.1 he.2.2.2.2.2
    exact ⟨_, _, by simp only [TRE.toDNF, k1, k3, k5, bind, Except.bind], k6⟩
  | .disj e f, m, he, h => by
    obtain ⟨l, m1, k1, k2⟩ := toDNF_spec e m he.1 h
    obtain ⟨r, m2, k3, k4⟩ := toDNF_spec f m1 he.2 k2.good
    exact ⟨_, _, by simp only [TRE.toDNF, k1, k3, bind, Except.bind], dnfOk_disj k2 k4⟩
  | .conj e f, m, he, h => by
    obtain ⟨l, m1, k1, k2⟩ := toDNF_spec e m he.1 h
    obtain ⟨r, m2, k3, k4⟩ := toDNF_spec f m1 he.2 k2.good
    exact ⟨_, _, by simp only [TRE.toDNF, k1, k3, bind, Except.bind], dnfOk_conj k2 k4⟩
  | .within e I, m, he, h => by
    obtain ⟨l, m1, k1, k2⟩ := toDNF_spec e m he.1 h
    obtain ⟨r, m2, k3, k4⟩ := dnfOk_within k2 I he.2
    exact ⟨_, _, by simp only [TRE.toDNF, k1, k3, bind, Except.bind], k4⟩

/-! ## No signal is lost -/

theorem mapM_post {α β : Type} {f : TMem K → α → Except Err (β × TMem K)} {P : TMem K → Prop} {Q : α → β → TMem K → Prop}
    (hmono : ∀ x y m m', Q x y m → P m → Ext m m' → Q x y m') :
    ∀ (l : List α) (m : TMem K), P m →
    (∀ x ∈ l, ∀ m, P m → ∀ y m', f m x = .ok (y, m') → P m' ∧ Ext m m' ∧ Q x y m') →
    ∀ ys m', mapM f m l = .ok (ys, m') → P m' ∧ Ext m m' ∧ List.Forall₂ (fun x y => Q x y m') l ys
  | [], m, hP, _, ys, m', h => by
    cases h; exact ⟨hP, Ext.rfl' m, .nil⟩
  | x :: l, m, hP, hs, ys, m', h => by
    cases h1 : f m x with
    | error e => simp [mapM, h1] at h
    | ok r =>
      obtain ⟨y, m1⟩ := r
      obtain ⟨hP1, e1, q1⟩ := hs x (List.mem_cons_self ..) m hP y m1 h1
      cases h2 : mapM f m1 l with
      | error e => simp [mapM, h1, h2] at h
      | ok r =>
        obtain ⟨zs, m2⟩ := r
        obtain ⟨hP2, e2, q2⟩ := mapM_post hmono l m1 hP1 (fun x hx => hs x (List.mem_cons_of_mem _ hx)) zs m2 h2
        simp only [mapM, h1, h2, Except.ok.injEq, Prod.mk.injEq] at h
        obtain ⟨rfl, rfl⟩ := h
        exact ⟨hP2, e1.trans e2, .cons (hmono _ _ _ _ q1 hP1 e2) q2⟩

/-- The list `l` of a `DNFTRE` made from `e`, which may have more signals. -/
structure DnfGe (m0 m : TMem K) (l : List (List Nat)) (e : TRE K) : Prop where
  ext : Ext m0 m
  good : Good m
  below : ListBelow m.next l
  ne : ∀ c ∈ l, c ≠ []
  den : ∀ x, e.Signals x → Den m (.alt l) x
  nomoved : ∀ c ∈ l, ∀ a ∈ c, m.atom a ≠ .moved

theorem DnfOk.ge {m0 m : TMem K} {l : List (List Nat)} {e : TRE K} (h : DnfOk m0 m l e) : DnfGe m0 m l e :=
  ⟨h.ext, h.good, h.below, h.ne, fun x => (h.den x).2, h.nomoved⟩

theorem mkConcat_post {m : TMem K} (h : Good m) {a b : Nat} (ha : a < m.next) (hb : b < m.next) (ma : m.atom a ≠ .moved)
    (mb : m.atom b ≠ .moved) {c : Nat} {m' : TMem K} (hc : m.mkConcat a b = .ok (c, m')) :
    Good m' ∧ Ext m m' ∧ c < m'.next ∧ m'.atom c ≠ .moved ∧
      ∀ y z, Den m (.atom a) y → Den m (.atom b) z → Den m' (.atom c) (y.app z) := by
  have hp : ∀ a < m.next, m.atom a ≠ .moved → ∀ x ∈ m.parts a, x < m.next := by
    intro a ha ma
    have hw := (h.wf.atom a ha).resolve_left ma
    unfold parts
    split
    · next l hl => rw [hl] at hw; exact hw.2
    · simp
    · exact fun x hx => by rw [List.mem_singleton.1 hx]; exact ha
  have la := hp a ha ma
  have lb := hp b hb mb
  have hd : ∀ y z, Den m (.atom a) y → Den m (.atom b) z → Den m (.seq (m.parts a ++ m.parts b)) (y.app z) :=
    fun y z hy hz => den_append.2 ⟨y, z, rfl, den_parts.2 hy, den_parts.2 hz⟩
  have hl : ∀ x ∈ m.parts a ++ m.parts b, x < m.next := fun x hx => (List.mem_append.1 hx).elim (la x) (lb x)
  unfold mkConcat at hc
  split at hc
  · next e =>
    cases hc
    refine ⟨⟨wf_newAtom h.wf h.fresh trivial, fresh_newAtom h.fresh _⟩, ext_newAtom _ _, Nat.lt_succ_self _, ?_, ?_⟩
    · rw [atom_newAtom]; simp
    · intro y z hy hz
      have := hd y z hy hz
      rw [e, den_nil] at this
      rw [this]
      exact .epsilon (atom_newAtom _ _)
  · cases hc
  · next l' h1 h2 =>
    cases hc
    have hn : NodeBelow m.next (.concat (m.parts a ++ m.parts b) : ANode K) := ⟨h1, hl⟩
    refine ⟨⟨wf_newAtom h.wf h.fresh hn, fresh_newAtom h.fresh _⟩, ext_newAtom _ _, Nat.lt_succ_self _, ?_, ?_⟩
    · rw [atom_newAtom]; simp
    · intro y z hy hz
      rw [den_concat (atom_newAtom _ _), den_iff (ext_newAtom m _) h.wf (p := .seq (m.parts a ++ m.parts b)) hl]
      exact hd y z hy hz

/-- Concatenated atoms which may have more signals. -/
def ConcatGe (m1 m2 : TMem K) (q : Nat × Nat) (b : Nat) (m : TMem K) : Prop :=
  b < m.next ∧ m.atom b ≠ .moved ∧ ∀ y z, Den m1 (.atom q.1) y → Den m2 (.atom q.2) z → Den m (.atom b) (y.app z)

theorem dnfGe_concat {m0 m1 m2 m3 : TMem K} {l r t : List (List Nat)} {e f : TRE K} (h1 : DnfGe m0 m1 l e) (h2 : DnfGe m1 m2 r f)
    (ht : m2.mapM (fun m p => m.mapM (fun m q => m.mkConcat q.1 q.2) (pairs p.1 p.2)) (pairs l r) = .ok (t, m3)) :
    DnfGe m0 m3 (t.filter fun c => !c.isEmpty) (.concat e f) := by
  let P : TMem K → Prop := fun m => Good m ∧ Ext m2 m
  have mono1 : ∀ a b m m', ConcatGe m1 m2 a b m → P m → Ext m m' → ConcatGe m1 m2 a b m' := by
    rintro a b m m' ⟨q1, q2, q5⟩ hP he
    refine ⟨lt_of_lt_of_le q1 he.next, by rwa [he.atom b q1], fun y z hy hz => ?_⟩
    rw [den_iff he hP.1.wf (p := .atom b) q1]
    exact q5 y z hy hz
  have inner : ∀ p ∈ pairs l r, ∀ m, P m → ∀ t m', m.mapM (fun m q => m.mkConcat q.1 q.2) (pairs p.1 p.2) = .ok (t, m') → P m' ∧
      Ext m m' ∧ List.Forall₂ (fun q b => ConcatGe m1 m2 q b m') (pairs p.1 p.2) t := by
    intro p hp m hP
    obtain ⟨hp1, hp2⟩ := mem_pairs.1 hp
    refine mapM_post (P := P) (Q := ConcatGe m1 m2) mono1 _ m hP fun q hq m hP c m' hc => ?_
    obtain ⟨hq1, hq2⟩ := mem_pairs.1 hq
    have b1 := h1.below _ hp1 _ hq1
    have b2 := h2.below _ hp2 _ hq2
    have ex := h2.ext.trans hP.2
    have a1 : m.atom q.1 = m1.atom q.1 := ex.atom _ b1
    have a2 : m.atom q.2 = m2.atom q.2 := hP.2.atom _ b2
    obtain ⟨k1, k2, k3, k4, k5⟩ := mkConcat_post hP.1 (lt_of_lt_of_le b1 ex.next) (lt_of_lt_of_le b2 hP.2.next)
      (by rw [a1]; exact h1.nomoved _ hp1 _ hq1) (by rw [a2]; exact h2.nomoved _ hp2 _ hq2) hc
    refine ⟨⟨k1, hP.2.trans k2⟩, k2, k3, k4, fun y z hy hz => ?_⟩
    exact k5 y z ((den_iff ex h1.good.wf (p := .atom q.1) b1).2 hy) ((den_iff hP.2 h2.good.wf (p := .atom q.2) b2).2 hz)
  obtain ⟨k2, _, k4⟩ := mapM_post (P := P)
    (Q := fun (p : List Nat × List Nat) (t : List Nat) m => List.Forall₂ (fun q b => ConcatGe m1 m2 q b m) (pairs p.1 p.2) t)
    (fun _ _ m m' (q : List.Forall₂ _ _ _) hP he => List.Forall₂.imp (fun a b hab => mono1 a b m m' hab hP he) q) (pairs l r) m2
    ⟨h2.good, Ext.rfl' m2⟩ inner t m3 ht
  have back : ∀ d ∈ t.filter (fun c => !c.isEmpty), ∀ b ∈ d, ∃ q, ConcatGe m1 m2 q b m3 := by
    intro d hd b hb
    obtain ⟨p, hp, hpd⟩ := forall₂_right k4 (List.mem_filter.1 hd).1
    obtain ⟨q, _, hq⟩ := forall₂_right hpd hb
    exact ⟨q, hq⟩
  refine ⟨(h1.ext.trans h2.ext).trans k2.2, k2.1, ?_, ?_, ?_, ?_⟩
  · intro d hd b hb
    obtain ⟨q, hq⟩ := back d hd b hb
    exact hq.1
  · intro d hd
    have := (List.mem_filter.1 hd).2
    rintro rfl; simp at this
  · rintro x ⟨y, z, rfl, hy, hz⟩
    obtain ⟨u, hu, hy⟩ := den_alt.1 (h1.den y hy)
    obtain ⟨v, hv, hz⟩ := den_alt.1 (h2.den z hz)
    obtain ⟨d, hd, hpd⟩ := forall₂_left k4 (x := (u, v)) (mem_pairs.2 ⟨hu, hv⟩)
    refine den_alt.2 ⟨d, List.mem_filter.2 ⟨hd, ?_⟩, fun b hb => ?_⟩
    · have nu := h1.ne u hu
      have nv := h2.ne v hv
      cases u with
      | nil => exact absurd rfl nu
      | cons a u =>
        cases v with
        | nil => exact absurd rfl nv
        | cons b v =>
          cases d with
          | nil =>
            obtain ⟨_, hx, _⟩ := forall₂_left hpd (x := (a, b)) (mem_pairs.2 ⟨List.mem_cons_self .., List.mem_cons_self ..⟩)
            simp at hx
          | cons => rfl
    · obtain ⟨q, hq, hqb⟩ := forall₂_right hpd hb
      exact hqb.2.2 y z (hy _ (mem_pairs.1 hq).1) (hz _ (mem_pairs.1 hq).2)
  · intro d hd b hb
    obtain ⟨q, hq⟩ := back d hd b hb
    exact hq.2.1

/-- Restricted atoms which may have more signals. -/
def WithinGe (m1 : TMem K) (I : Interval K) (a b : Nat) (m : TMem K) : Prop :=
  b < m.next ∧ m.atom b ≠ .moved ∧ ∀ x, Den m1 (.atom a) x → I.Mem x.dur → Den m (.atom b) x

theorem dnfGe_within {m0 m1 m2 : TMem K} {l r : List (List Nat)} {e : TRE K} (h : DnfGe m0 m1 l e) (I : Interval K)
    (hr : m1.mapM (fun m c => m.mapM (fun m a => m.mkWithin a I) c) l = .ok (r, m2)) : DnfGe m0 m2 r (.within e I) := by
  let P : TMem K → Prop := fun m => Good m ∧ Ext m1 m
  have mono1 : ∀ a b m m', WithinGe m1 I a b m → P m → Ext m m' → WithinGe m1 I a b m' := by
    rintro a b m m' ⟨q1, q2, q5⟩ hP he
    refine ⟨lt_of_lt_of_le q1 he.next, by rwa [he.atom b q1], fun x hx hI => ?_⟩
    rw [den_iff he hP.1.wf (p := .atom b) q1]
    exact q5 x hx hI
  have inner : ∀ c ∈ l, ∀ m, P m → ∀ r m', m.mapM (fun m a => m.mkWithin a I) c = .ok (r, m') → P m' ∧ Ext m m' ∧
      List.Forall₂ (fun a b => WithinGe m1 I a b m') c r := by
    intro c hc m hP
    refine mapM_post (P := P) (Q := WithinGe m1 I) mono1 c m hP fun a ha m hP b m' hb => ?_
    have ha1 := h.below c hc a ha
    have hat : m.atom a = m1.atom a := hP.2.atom a ha1
    obtain ⟨m'', k1, k0, k2, k3, k4, _, _, k7, _⟩ := mkWithin_spec hP.1 (lt_of_lt_of_le ha1 hP.2.next)
      (by rw [hat]; exact h.nomoved c hc a ha) I
    rw [k1] at hb
    cases hb
    exact ⟨⟨k2, hP.2.trans k3⟩, k3, Nat.sub_lt k0 Nat.one_pos, k4, fun x hx hI =>
      k7 x ⟨(den_iff hP.2 h.good.wf (p := .atom a) ha1).2 hx, hI⟩⟩
  obtain ⟨k2, _, k4⟩ := mapM_post (P := P)
    (Q := fun c r m => List.Forall₂ (fun a b => WithinGe m1 I a b m) c r)
    (fun c r m m' q hP he => q.imp fun a b hab => mono1 a b m m' hab hP he) l m1 ⟨h.good, Ext.rfl' m1⟩ inner r m2 hr
  refine ⟨h.ext.trans k2.2, k2.1, ?_, ?_, ?_, ?_⟩
  · intro d hd b hb
    obtain ⟨c, hc, hcd⟩ := forall₂_right k4 hd
    obtain ⟨a, _, hab⟩ := forall₂_right hcd hb
    exact hab.1
  · intro d hd
    obtain ⟨c, hc, hcd⟩ := forall₂_right k4 hd
    have := h.ne c hc
    cases hcd with
    | nil => exact absurd rfl this
    | cons => simp
  · rintro x ⟨hx, hI⟩
    obtain ⟨c, hc, hx⟩ := den_alt.1 (h.den x hx)
    obtain ⟨d, hd, hcd⟩ := forall₂_left k4 hc
    refine den_alt.2 ⟨d, hd, fun b hb => ?_⟩
    obtain ⟨a, ha, hab⟩ := forall₂_right hcd hb
    exact hab.2.2 x (hx a ha) hI
  · intro d hd b hb
    obtain ⟨c, hc, hcd⟩ := forall₂_right k4 hd
    obtain ⟨a, _, hab⟩ := forall₂_right hcd hb
    exact hab.2.1

theorem dnfGe_plus {m0 m : TMem K} {l : List (List Nat)} {e : TRE K} (h : DnfGe m0 m l e) :
    DnfGe m0 ((m.newDnf l).newAtom (.plus m.next)) [[(m.newDnf l).next]] (.plus e) := by
  have w1 := wf_newDnf h.good.wf h.good.fresh h.below
  have f1 := fresh_newDnf h.good.fresh l
  have hb : NodeBelow (m.newDnf l).next (.plus m.next : ANode K) := Nat.lt_succ_self _
  have ex := (ext_newDnf m l).trans (ext_newAtom _ (.plus m.next))
  have hat : ((m.newDnf l).newAtom (.plus m.next)).atom (m.newDnf l).next = .plus m.next := atom_newAtom _ _
  have hd : ((m.newDnf l).newAtom (.plus m.next)).dnf m.next = l := dnf_newDnf m l
  have one : ∀ c ∈ [[(m.newDnf l).next]], ∀ a ∈ c, a = (m.newDnf l).next := by
    intro c hc a ha
    rw [List.mem_singleton.1 hc] at ha
    exact List.mem_singleton.1 ha
  refine ⟨h.ext.trans ex, ⟨wf_newAtom w1 f1 hb, fresh_newAtom f1 _⟩, ?_, ?_, ?_, ?_⟩
  · intro c hc a ha; rw [one c hc a ha]; exact Nat.lt_succ_self _
  · intro c hc; rw [List.mem_singleton.1 hc]; simp
  · intro x hx
    have : ∀ y, e.Signals y → Den ((m.newDnf l).newAtom (.plus m.next)) (.alt l) y := fun y hy => by
      rw [den_iff ex h.good.wf (p := .alt l) h.below]; exact h.den y hy
    simp only [den_alt, List.mem_singleton, exists_eq_left, forall_eq]
    rw [den_plus hat, hd, den_rep]
    exact iter_congr this hx
  · intro c hc a ha; rw [one c hc a ha, hat]; simp

theorem dnfGe_disj {m0 m1 m2 : TMem K} {l r : List (List Nat)} {e f : TRE K} (h1 : DnfGe m0 m1 l e) (h2 : DnfGe m1 m2 r f) :
    DnfGe m0 m2 (l ++ r) (.disj e f) where
  ext := h1.ext.trans h2.ext
  good := h2.good
  below c hc := (List.mem_append.1 hc).elim (h1.below.mono h2.ext.next c) (h2.below c)
  ne c hc := (List.mem_append.1 hc).elim (h1.ne c) (h2.ne c)
  den x hx := by
    rcases hx with hx | hx
    · obtain ⟨c, hc, h⟩ := den_alt.1 ((den_iff h2.ext h1.good.wf (p := .alt l) h1.below).2 (h1.den x hx))
      exact den_alt.2 ⟨c, List.mem_append_left _ hc, h⟩
    · obtain ⟨c, hc, h⟩ := den_alt.1 (h2.den x hx)
      exact den_alt.2 ⟨c, List.mem_append_right _ hc, h⟩
  nomoved c hc a ha := by
    rcases List.mem_append.1 hc with h | h
    · rw [h2.ext.atom a (h1.below c h a ha)]; exact h1.nomoved c h a ha
    · exact h2.nomoved c h a ha

theorem dnfGe_conj {m0 m1 m2 : TMem K} {l r : List (List Nat)} {e f : TRE K} (h1 : DnfGe m0 m1 l e) (h2 : DnfGe m1 m2 r f) :
    DnfGe m0 m2 (((pairs l r).map fun p => p.1 ++ p.2).filter (fun c => !c.isEmpty)) (.conj e f) := by
  have hm : ∀ c, c ∈ ((pairs l r).map fun p => p.1 ++ p.2).filter (fun c => !c.isEmpty) → ∃ u ∈ l, ∃ v ∈ r, c = u ++ v := by
    intro c hc
    obtain ⟨p, hp, rfl⟩ := List.mem_map.1 (List.mem_filter.1 hc).1
    exact ⟨p.1, (mem_pairs.1 hp).1, p.2, (mem_pairs.1 hp).2, rfl⟩
  refine ⟨h1.ext.trans h2.ext, h2.good, ?_, ?_, ?_, ?_⟩
  · intro c hc a ha
    obtain ⟨u, hu, v, hv, rfl⟩ := hm c hc
    exact (List.mem_append.1 ha).elim (h1.below.mono h2.ext.next u hu a) (h2.below v hv a)
  · intro c hc
    have := (List.mem_filter.1 hc).2
    intro h; rw [h] at this; simp at this
  · rintro x ⟨hx, hx'⟩
    obtain ⟨u, hu, hu'⟩ := den_alt.1 ((den_iff h2.ext h1.good.wf (p := .alt l) h1.below).2 (h1.den x hx))
    obtain ⟨v, hv, hv'⟩ := den_alt.1 (h2.den x hx')
    refine den_alt.2 ⟨u ++ v, List.mem_filter.2 ⟨List.mem_map.2 ⟨(u, v), mem_pairs.2 ⟨hu, hv⟩, rfl⟩, ?_⟩, fun b hb =>
      (List.mem_append.1 hb).elim (hu' b) (hv' b)⟩
    have := h1.ne u hu
    cases u with
    | nil => exact absurd rfl this
    | cons => rfl
  · intro c hc a ha
    obtain ⟨u, hu, v, hv, rfl⟩ := hm c hc
    rcases List.mem_append.1 ha with h | h
    · rw [h2.ext.atom a (h1.below u hu a h)]; exact h1.nomoved u hu a h
    · exact h2.nomoved v hv a h

theorem toDNF_post : ∀ (e : TRE K) (m : TMem K), Good m → ∀ l m', e.toDNF m = .ok (l, m') → DnfGe m m' l e
  | .atom c, m, h, l, m', hl => by cases hl; exact (dnfOk_atom h c).ge
  | .epsilon, m, h, l, m', hl => by cases hl; exact (dnfOk_epsilon h).ge
  | .plus e, m, h, l, m', hl => by
    cases h1 : e.toDNF m with
    | error x => simp [TRE.toDNF, h1, bind, Except.bind] at hl
    | ok r =>
      obtain ⟨l1, m1⟩ := r
      have k := toDNF_post e m h l1 m1 h1
      simp only [TRE.toDNF, h1, bind, Except.bind] at hl
      cases hl
      exact dnfGe_plus k
  | .concat e f, m, h, l, m', hl => by
    cases h1 : e.toDNF m with
    | error x => simp [TRE.toDNF, h1, bind, Except.bind] at hl
    | ok r =>
      obtain ⟨l1, m1⟩ := r
      have k := toDNF_post e m h l1 m1 h1
      cases h2 : f.toDNF m1 with
      | error x => simp [TRE.toDNF, h1, h2, bind, Except.bind] at hl
      | ok r =>
        obtain ⟨l2, m2⟩ := r
        have k' := toDNF_post f m1 k.good l2 m2 h2
        simp only [TRE.toDNF, h1, h2, bind, Except.bind] at hl
        split at hl
        · cases hl
        · next r hr => cases hl; exact dnfGe_concat k k' hr
  | .disj e f, m, h, l, m', hl => by
    cases h1 : e.toDNF m with
    | error x => simp [TRE.toDNF, h1, bind, Except.bind] at hl
    | ok r =>
      obtain ⟨l1, m1⟩ := r
      have k := toDNF_post e m h l1 m1 h1
      cases h2 : f.toDNF m1 with
      | error x => simp [TRE.toDNF, h1, h2, bind, Except.bind] at hl
      | ok r =>
        obtain ⟨l2, m2⟩ := r
        have k' := toDNF_post f m1 k.good l2 m2 h2
        simp only [TRE.toDNF, h1, h2, bind, Except.bind] at hl
        cases hl
        exact dnfGe_disj k k'
  | .conj e f, m, h, l, m', hl => by
    cases h1 : e.toDNF m with
    | error x => simp [TRE.toDNF, h1, bind, Except.bind] at hl
    | ok r =>
      obtain ⟨l1, m1⟩ := r
      have k := toDNF_post e m h l1 m1 h1
      cases h2 : f.toDNF m1 with
      | error x => simp [TRE.toDNF, h1, h2, bind, Except.bind] at hl
      | ok r =>
        obtain ⟨l2, m2⟩ := r
        have k' := toDNF_post f m1 k.good l2 m2 h2
        simp only [TRE.toDNF, h1, h2, bind, Except.bind] at hl
        cases hl
        exact dnfGe_conj k k'
  | .within e I, m, h, l, m', hl => by
    cases h1 : e.toDNF m with
    | error x => simp [TRE.toDNF, h1, bind, Except.bind] at hl
    | ok r =>
      obtain ⟨l1, m1⟩ := r
      have k := toDNF_post e m h l1 m1 h1
      simp only [TRE.toDNF, h1, bind, Except.bind] at hl
      exact dnfGe_within k I hl

theorem good_empty : Good (TMem.empty : TMem K) := ⟨wf_empty, fresh_empty⟩

end TMem
end Verif
