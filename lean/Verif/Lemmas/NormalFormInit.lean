import Verif.Lemmas.NormalFormLang
import Verif.Lemmas.NormalFormTerm

/-!
# The disjunctive normal form is stored without sharing, if concatenations have single alternatives
-/

set_option linter.unusedSectionVars false

namespace Verif

variable {K : Type} [Field K] [LinearOrder K] [IsStrictOrderedRing K]

/-- The signals of an expression in which letters have the durations in `D`. -/
def TRE.SignalsD [D : Durs K] : TRE K → Sig K → Prop
  | .atom c, x => ∃ d h, x = Sig.const c d h ∧ Durs.ok d
  | .epsilon, x => x = Sig.nil
  | .plus e, x => Iter Sig.app (SignalsD e) x
  | .concat e f, x => ∃ y z, x = y.app z ∧ SignalsD e y ∧ SignalsD f z
  | .disj e f, x => SignalsD e x ∨ SignalsD f x
  | .conj e f, x => SignalsD e x ∧ SignalsD f x
  | .within e I, x => SignalsD e x ∧ I.Mem x.dur

end Verif

namespace Verif.TMem

open NTree

variable {K : Type} [Field K] [LinearOrder K] [IsStrictOrderedRing K] [D : Durs K] {cl : Bool} [hall : Fact (cl = true → ∀ d : K, Durs.ok d)]

theorem Rep.ext {m m' : TMem K} {p : Part} {t : NTree K} {F : Set Nat} (h : Rep m p t F) (hb : Below m F) (he : Ext m m') : Rep m' p t F :=
  h.frame fun x hx => ⟨he.atom x (hb x hx), he.sing x (hb x hx), he.dnf x (hb x hx)⟩

/-- Append a list. -/
def tappend : NTree K → NTree K → NTree K
  | .cons t s, r => .cons t (tappend s r)
  | _, r => r

theorem gt_append : ∀ {s r : NTree K}, GT cl s → GT cl r → GT cl (tappend s r)
  | .cons _ _, _, h, h' => ⟨h.1, gt_append h.2 h'⟩
  | .nil, _, _, h' | .eps, _, _, h' | .sing _ _, _, _, h' | .cat _, _, _, h' | .plus _, _, _, h' | .within _ _, _, _, h' => h'

theorem noEps_append : ∀ {s r : NTree K}, NoEps s → NoEps r → NoEps (tappend s r)
  | .cons _ _, _, h, h' => ⟨h.1, noEps_append h.2 h'⟩
  | .nil, _, _, h' | .eps, _, _, h' | .sing _ _, _, _, h' | .cat _, _, _, h' | .plus _, _, _, h' | .within _ _, _, _, h' => h'

theorem nice_append : ∀ {s r : NTree K}, Nice s → Nice r → Nice (tappend s r)
  | .cons _ _, _, h, h' => ⟨h.1, nice_append h.2 h'⟩
  | .nil, _, _, h' | .eps, _, _, h' | .sing _ _, _, _, h' | .cat _, _, _, h' | .plus _, _, _, h' | .within _ _, _, _, h' => h'

theorem only_append {c : Alphabet} : ∀ {s r : NTree K}, Only c s → Only c r → Only c (tappend s r)
  | .cons _ _, _, h, h' => ⟨h.1, only_append h.2 h'⟩
  | .nil, _, _, h' | .eps, _, _, h' | .sing _ _, _, _, h' | .cat _, _, _, h' | .plus _, _, _, h' | .within _ _, _, _, h' => h'

theorem eachOnly_append : ∀ {s r : NTree K}, EachOnly s → EachOnly r → EachOnly (tappend s r)
  | .cons _ _, _, h, h' => ⟨h.1, eachOnly_append h.2 h'⟩
  | .nil, _, _, h' | .eps, _, _, h' | .sing _ _, _, _, h' | .cat _, _, _, h' | .plus _, _, _, h' | .within _ _, _, _, h' => h'

theorem eachFlat_append : ∀ {s r : NTree K}, EachFlat s → EachFlat r → EachFlat (tappend s r)
  | .cons _ _, _, h, h' => ⟨h.1, eachFlat_append h.2 h'⟩
  | .nil, _, _, h' | .eps, _, _, h' | .sing _ _, _, _, h' | .cat _, _, _, h' | .plus _, _, _, h' | .within _ _, _, _, h' => h'

theorem seqL_append {y : Sig K} : ∀ {s r : NTree K} {x : Sig K}, seqL s x → seqL r y → seqL (tappend s r) (x.app y)
  | .cons _ _, _, x, h, h' => by
    simp only [seqL, tappend] at h ⊢
    obtain ⟨u, v, rfl, hu, hv⟩ := h
    exact ⟨u, v.app y, Sig.app_assoc _ _ _, hu, seqL_append hv h'⟩
  | .nil, _, x, h, h' => by
    simp only [seqL] at h
    subst h
    rw [Sig.nil_app]
    exact h'

theorem altL_append {x : Sig K} : ∀ {s r : NTree K}, altL s x ∨ altL r x → altL (tappend s r) x
  | .cons _ _, _, h => by
    simp only [altL, tappend] at h ⊢
    rcases h with (h | h) | h
    · exact .inl h
    · exact .inr (altL_append (.inl h))
    · exact .inr (altL_append (.inr h))
  | .nil, _, h | .eps, _, h | .sing _ _, _, h | .cat _, _, h | .plus _, _, h | .within _ _, _, h => h.elim (fun h => h.elim) id

theorem allEps_append : ∀ {s r : NTree K} {m : TMem K} {l l' : List Nat} {F F' : Set Nat}, Rep m (.seq l) s F → Rep m (.seq l') r F' →
    AllEps (tappend s r) → AllEps s ∧ AllEps r
  | .cons _ _, _, _, _ :: _, _, _, _, .cons _ _ _ _ hs, h', h => ⟨⟨h.1, (allEps_append hs h' h.2).1⟩, (allEps_append hs h' h.2).2⟩
  | .nil, _, _, _, _, _, _, .nil, _, h => ⟨trivial, h⟩

theorem rep_append {m : TMem K} {F1 F2 : Set Nat} (hd : ∀ x ∈ F1, x ∉ F2) : ∀ {l r : List Nat} {s t : NTree K} {G : Set Nat}, G ⊆ F1 →
    Rep m (.seq l) s G → Rep m (.seq r) t F2 → Rep m (.seq (l ++ r)) (tappend s t) (G ∪ F2)
  | [], r, s, t, G, _, hs, ht => by
    cases hs
    exact ht.mono Set.subset_union_right
  | a :: l, r, s, t, G, hG, hs, ht => by
    cases hs with
    | @cons _ _ t1 s1 _ F3 F4 h1 h2 hd' ht' hs' =>
      refine .cons (F1 := F3) (F2 := F4 ∪ F2) (h1.trans Set.subset_union_left) (Set.union_subset_union_left _ h2) (fun x hx => ?_) ht'
        (rep_append hd (h2.trans hG) hs' ht)
      rintro (h | h)
      · exact hd' x hx h
      · exact hd x (hG (h1 hx)) h

/-- The parts of an operand of a concatenation. -/
theorem parts_rep {m : TMem K} {a : Nat} {t : NTree K} {F : Set Nat} (h : Rep m (.atom a) t F) (hg : GT cl t) :
    ∃ s, Rep m (.seq (m.parts a)) s F ∧ GT cl s ∧ NoEps s ∧ (t = .eps ↔ m.parts a = []) ∧
      (Nice t → Nice s) ∧ (∀ c, Only c t → Only c s) ∧ (FlatT t → EachOnly s) ∧ ∀ x, t.lang x → s.seqL x := by
  have one : t ≠ .eps → (∀ s, t ≠ .cat s) → (∀ l, m.atom a ≠ .concat l) → ∃ s, Rep m (.seq (m.parts a)) s F ∧ GT cl s ∧ NoEps s ∧ (t = .eps ↔ m.parts a = []) ∧
      (Nice t → Nice s) ∧ (∀ c, Only c t → Only c s) ∧ (FlatT t → EachOnly s) ∧ ∀ x, t.lang x → s.seqL x := by
    intro hne hcat hc
    have hne' : m.atom a ≠ .epsilon := fun e => hne (h.eps_iff.1 e)
    have hp : m.parts a = [a] := by
      unfold parts
      split
      · next l e => exact absurd e (hc l)
      · next e => exact absurd e hne'
      · rfl
    rw [hp]
    refine ⟨.cons t .nil, .cons (F2 := ∅) (Set.Subset.refl F) (Set.empty_subset _) (fun _ _ h => h.elim) h .nil, ⟨hg, trivial⟩, ⟨hne, trivial⟩, by simp [hne],
      fun h => ⟨h, trivial⟩, fun c h => ⟨h, trivial⟩, ?_, fun x hx => (seqL_one t x).2 hx⟩
    rintro (e | h | ⟨s, e, _⟩)
    · exact absurd e hne
    · exact ⟨h, trivial⟩
    · exact absurd e (hcat s)
  cases h with
  | sing e ha hs => exact one (by simp) (by simp) (by simp [e])
  | eps e ha => exact ⟨.nil, by simp only [parts, e]; exact .nil, trivial, trivial, by simp [parts, e], fun _ => trivial, fun _ _ => trivial, fun _ => trivial, fun _ h => h⟩
  | @cat _ l s _ G e ha hG hn hr =>
    refine ⟨s, by simp only [parts, e]; exact hr.mono hG, hg.1, hg.2.1, ?_, fun h => h, fun _ h => h, ?_, fun _ h => h⟩
    · simp only [reduceCtorEq, false_iff, parts, e]
      rintro rfl
      cases hr
      exact hg.2.2 rfl
    · rintro (e | ⟨c, h⟩ | ⟨s', e, h⟩)
      · cases e
      · exact EachOnly.of (c := c) h
      · cases e
        exact h
  | plus e => exact one (by simp) (by simp) (by simp [e])
  | within e => exact one (by simp) (by simp) (by simp [e])

/-- Fresh addresses between two memories. -/
def Made (m0 m : TMem K) (F : Set Nat) : Prop := ∀ x ∈ F, m0.next ≤ x ∧ x < m.next

theorem mkConcat_rep {m0 m1 m m' : TMem K} {a b c : Nat} {t u : NTree K} {F F' : Set Nat} (ha : Rep m (.atom a) t F) (hb : Rep m (.atom b) u F')
    (hF : Made m0 m1 F) (hF' : Made m1 m F') (h1 : m0.next ≤ m1.next) (h2 : m1.next ≤ m.next) (hg : GT cl t) (hg' : GT cl u)
    (h : m.mkConcat a b = .ok (c, m')) :
    ∃ w G, Rep m' (.atom c) w G ∧ Made m0 m' G ∧ GT cl w ∧ (w = .eps ↔ t = .eps ∧ u = .eps) ∧
      (Nice t → Nice u → Nice w) ∧ (∀ c, Only c t → Only c u → Only c w) ∧ (FlatT t → FlatT u → FlatT w) ∧
      ∀ y z, t.lang y → u.lang z → w.lang (y.app z) := by
  obtain ⟨s, r1, g1, n1, p1, x1, y1, z1, l1⟩ := parts_rep ha hg
  obtain ⟨s', r2, g2, n2, p2, x2, y2, z2, l2⟩ := parts_rep hb hg'
  have hd : ∀ x ∈ F, x ∉ F' := fun x hx hx' => by
    have := (hF x hx).2
    have := (hF' x hx').1
    omega
  have r := rep_append hd (Set.Subset.refl F) r1 r2
  have hbl : ∀ x ∈ F ∪ F', m0.next ≤ x ∧ x < m.next := by
    rintro x (hx | hx)
    · exact ⟨(hF x hx).1, lt_of_lt_of_le (hF x hx).2 h2⟩
    · exact ⟨le_trans h1 (hF' x hx).1, (hF' x hx).2⟩
  have made : Made m0 (m.newAtom (.epsilon)) (insert m.next (F ∪ F')) := by
    rintro x (rfl | hx)
    · exact ⟨le_trans h1 h2, Nat.lt_succ_self _⟩
    · exact ⟨(hbl x hx).1, Nat.lt_succ_of_lt (hbl x hx).2⟩
  unfold mkConcat at h
  split at h
  · next e =>
    cases h
    obtain ⟨e1, e2⟩ := List.append_eq_nil_iff.1 e
    refine ⟨.eps, insert m.next (F ∪ F'), .eps (atom_newAtom _ _) (Set.mem_insert _ _), made, trivial, by simp [p1, p2, e1, e2],
      fun _ _ => trivial, fun c h => (by rw [p1.2 e1] at h; exact h.elim), fun _ _ => .inl rfl, fun y z hy hz => ?_⟩
    rw [p1.2 e1] at hy
    rw [p2.2 e2] at hz
    simp only [lang] at hy hz ⊢
    rw [hy, hz, Sig.nil_app]
  · cases h
  · next l h0 _ =>
    cases h
    refine ⟨.cat (tappend s s'), insert m.next (F ∪ F'), .cat (atom_newAtom _ _) (Set.mem_insert _ _) (Set.subset_insert _ _) ?_
      (r.ext (fun x hx => (hbl x hx).2) (ext_newAtom m _)), made, ⟨gt_append g1 g2, noEps_append n1 n2, ?_⟩, ?_,
      fun h h' => nice_append (x1 h) (x2 h'), fun c h h' => only_append (y1 c h) (y2 c h'),
      fun h h' => .inr (.inr ⟨_, rfl, eachOnly_append (z1 h) (z2 h')⟩), fun y z hy hz => seqL_append (l1 y hy) (l2 z hz)⟩
    · intro hx
      exact lt_irrefl _ (hbl _ hx).2
    · intro e
      rw [e] at r
      generalize hp : m.parts a ++ m.parts b = q at r h0
      cases r
      exact h0 rfl
    · simp only [reduceCtorEq, false_iff, p1, p2]
      rintro ⟨e1, e2⟩
      exact h0 (by rw [e1, e2]; rfl)

/-- The list of a `DNFTRE` is stored without sharing. -/
structure Init (cl : Bool) (m0 m : TMem K) (l : List (List Nat)) (e : TRE K) : Prop where
  next : m0.next ≤ m.next
  ex : ∃ as s F, l = as.map (fun x => [x]) ∧ Rep m (.seq as) s F ∧ Made m0 m F ∧ GT cl s ∧ (¬ e.HasEpsilon → NoEps s) ∧
    (¬ e.OnlyEpsilon → ¬ AllEps s) ∧ (e.Single → ∃ a, as = [a]) ∧ as ≠ [] ∧
    (e.IntEnds → Nice s) ∧ (∀ c, e.OnlyLetter c → Only c s) ∧ (e.Letters → EachOnly s) ∧ (e.Flat → EachFlat s) ∧
    ∀ x, e.SignalsD x → altL s x

theorem mkWithin_rep {m m' : TMem K} {a b : Nat} {t : NTree K} {F : Set Nat} {I : Interval K} (h : Rep m (.atom a) t F) (hb : Below m F)
    (hg : GT cl t) (hne : t ≠ .eps) (hI : Interval.LowOk cl I) (h' : m.mkWithin a I = .ok (b, m')) :
    ∃ t' G, Rep m' (.atom b) t' G ∧ (∀ x ∈ G, (x ∈ F ∨ m.next ≤ x) ∧ x < m'.next) ∧ GT cl t' ∧ t' ≠ .eps ∧ Ext m m' ∧
      (Nice t → I.IntEnds → Nice t') ∧ (∀ c, Only c t → Only c t') ∧ ∀ x, t.lang x → I.Mem x.dur → t'.lang x := by
  have wn : m.mkWithin a I = .ok (m.next, m.newAtom (.within a I)) →
      ∃ t' G, Rep m' (.atom b) t' G ∧ (∀ x ∈ G, (x ∈ F ∨ m.next ≤ x) ∧ x < m'.next) ∧ GT cl t' ∧ t' ≠ .eps ∧ Ext m m' ∧
      (Nice t → I.IntEnds → Nice t') ∧ (∀ c, Only c t → Only c t') ∧ ∀ x, t.lang x → I.Mem x.dur → t'.lang x := fun e => by
    rw [e] at h'
    cases h'
    refine ⟨.within t I, insert m.next F, .within (atom_newAtom _ _) (Set.mem_insert _ _) (Set.subset_insert _ _) (fun hx => lt_irrefl _ (hb _ hx))
      (h.ext hb (ext_newAtom m _)), ?_, ⟨hg, hne, hI⟩, by simp, ext_newAtom m _, fun h h' => ⟨h, h'⟩, fun c h => h, fun x h h' => ⟨h, h'⟩⟩
    rintro x (rfl | hx)
    · exact ⟨.inr (le_refl _), Nat.lt_succ_self _⟩
    · exact ⟨.inl hx, Nat.lt_succ_of_lt (hb x hx)⟩
  cases h with
  | @sing _ s _ e ha hs =>
    simp only [mkWithin, e, Except.ok.injEq, Prod.ext_iff] at h'
    obtain ⟨rfl, rfl⟩ := h'
    have hx := (ext_newSing m ((m.sing s).1, Interval.land1 (m.sing s).2 I)).trans (ext_newAtom _ (.singleton m.next))
    refine ⟨.sing (m.sing s).1 (Interval.land1 (m.sing s).2 I), {m.next, m.next + 1}, ?_, ?_, ⟨hg.1, Interval.iok_land1 (fun J hJ => (hg.2 J hJ).low) hI⟩,
      by simp, hx, fun h h' => Interval.intEnds_land1 h h', fun c h => h, fun x hx h' => ?_⟩
    · have h1 : ∀ (m2 : TMem K) (b : Nat), b = m.next + 1 → m2.atom b = .singleton m.next → m2.sing m.next = ((m.sing s).1, Interval.land1 (m.sing s).2 I) →
          Rep m2 (.atom b) (.sing (m.sing s).1 (Interval.land1 (m.sing s).2 I)) {m.next, m.next + 1} := fun m2 b hb k1 k2 => by
        have := Rep.sing (F := {m.next, m.next + 1}) k1 (by simp [hb]) (by simp)
        rwa [k2] at this
      exact h1 _ _ rfl (atom_newAtom _ _) (sing_newSing m _)
    · rintro x (rfl | rfl)
      · exact ⟨.inr (le_refl _), show m.next < m.next + 1 + 1 by omega⟩
      · exact ⟨.inr (Nat.le_succ _), show m.next + 1 < m.next + 1 + 1 by omega⟩
    · obtain ⟨d, hd, rfl, hm⟩ := hx
      exact ⟨d, hd, rfl, hm.1, Interval.memAny_land1_of hm.2 h'⟩
  | eps e ha => exact absurd rfl hne
  | cat e => exact wn (by simp only [mkWithin, e])
  | plus e => exact wn (by simp only [mkWithin, e])
  | within e => exact wn (by simp only [mkWithin, e])

variable [FloorRing K]

theorem mapWithin_rep {I : Interval K} (hI : Interval.LowOk cl I) : ∀ (as : List Nat) (s : NTree K) (m : TMem K) (F : Set Nat),
    Rep m (.seq as) s F → Below m F → GT cl s → NoEps s →
    ∀ l m', m.mapM (fun m c => m.mapM (fun m a => m.mkWithin a I) c) (as.map fun x => [x]) = .ok (l, m') →
    ∃ bs s' F', l = bs.map (fun x => [x]) ∧ bs.length = as.length ∧ Rep m' (.seq bs) s' F' ∧ (∀ x ∈ F', (x ∈ F ∨ m.next ≤ x) ∧ x < m'.next) ∧ GT cl s' ∧
      NoEps s' ∧ Ext m m' ∧ (Nice s → I.IntEnds → Nice s') ∧ (∀ c, Only c s → Only c s') ∧ (EachOnly s → EachOnly s') ∧
      ∀ x, altL s x → I.Mem x.dur → altL s' x
  | [], s, m, F, hr, hb, hg, hn, l, m', h => by
    cases h
    cases hr
    exact ⟨[], .nil, ∅, rfl, rfl, .nil, fun x hx => hx.elim, trivial, trivial, .rfl' m, fun _ _ => trivial, fun _ _ => trivial, fun _ => trivial,
      fun _ h _ => h⟩
  | a :: as, s, m, F, hr, hb, hg, hn, l, m', h => by
    cases hr with
    | @cons _ _ t s _ F1 F2 h1 h2 hd ht hs =>
      rw [List.map_cons, mapM] at h
      cases hm : mapM (fun m a => mkWithin m a I) m [a] with
      | error e => rw [hm] at h; cases h
      | ok q =>
        obtain ⟨c, m1⟩ := q
        rw [hm] at h
        obtain ⟨b, rfl, hb1⟩ := mapM_one hm
        obtain ⟨t', G, k1, k2, k3, k4, k5, k6, k7, k8⟩ := mkWithin_rep ht (fun x hx => hb x (h1 hx)) hg.1 hn.1 hI hb1
        simp only at h
        cases hm2 : mapM (fun m c => mapM (fun m a => mkWithin m a I) m c) m1 (as.map fun x => [x]) with
        | error e => rw [hm2] at h; cases h
        | ok q =>
          obtain ⟨l2, m2⟩ := q
          rw [hm2] at h
          cases h
          have hb2 : Below m1 F2 := fun x hx => lt_of_lt_of_le (hb x (h2 hx)) k5.next
          obtain ⟨bs, s', F', rfl, j1, j2, j3, j4, j5, j6, j7, j8, j9, j10⟩ := mapWithin_rep hI as s m1 F2 (hs.ext (fun x hx => hb x (h2 hx)) k5) hb2 hg.2 hn.2 l2 m' hm2
          refine ⟨b :: bs, .cons t' s', G ∪ F', rfl, by simp [j1], .cons Set.subset_union_left Set.subset_union_right (fun x hx hx' => ?_)
            (k1.ext (fun x hx => (k2 x hx).2) j6) j2, ?_, ⟨k3, j4⟩, ⟨k4, j5⟩, k5.trans j6,
            fun h h' => ⟨k6 h.1 h', j7 h.2 h'⟩, fun c h => ⟨k7 c h.1, j8 c h.2⟩, fun h => ⟨h.1.imp k7, j9 h.2⟩,
            fun x hx h' => hx.imp (fun h => k8 x h h') fun h => j10 x h h'⟩
          · rcases (j3 x hx').1 with h | h
            · rcases (k2 x hx).1 with h' | h'
              · exact hd x h' h
              · have := hb x (h2 h)
                omega
            · have := (k2 x hx).2
              omega
          · rintro x (hx | hx)
            · exact ⟨(k2 x hx).1.imp (fun h => h1 h) id, lt_of_lt_of_le (k2 x hx).2 j6.next⟩
            · exact ⟨(j3 x hx).1.imp (fun h => h2 h) fun h => le_trans k5.next h, (j3 x hx).2⟩

theorem singles_map {as : List Nat} {a : Nat} {s : NTree K} {m : TMem K} {F : Set Nat} (h : as = [a]) (hr : Rep m (.seq as) s F) :
    ∃ t, s = .cons t .nil ∧ Rep m (.atom a) t F := by
  subst h
  cases hr with
  | cons h1 _ _ ht hs =>
    cases hs
    exact ⟨_, rfl, ht.mono h1⟩

theorem toDNF_init : ∀ (e : TRE K) (m : TMem K), e.Clean → (cl = true → e.Closed) → Good m → ∀ l m', e.toDNF m = .ok (l, m') → Init cl m m' l e
  | .atom c, m, he, _, h, l, m', hl => by
    cases hl
    refine ⟨show m.next ≤ m.next + 1 + 1 by omega, [m.next + 1], .cons (.sing c [Interval.default]) .nil, {m.next, m.next + 1}, rfl,
      .cons (F2 := ∅) (Set.Subset.refl _) (Set.empty_subset _) (fun _ _ h => h.elim) ?_ .nil, ?_, ⟨⟨he, ?_⟩, trivial⟩, fun _ => ⟨by simp, trivial⟩,
      fun _ h => (by cases h.1), fun _ => ⟨_, rfl⟩, by simp, fun _ => ⟨fun I hI => ?_, trivial⟩, fun c h => ⟨h, trivial⟩, fun _ => ⟨⟨c, rfl⟩, trivial⟩,
      fun _ => ⟨.inr (.inl ⟨c, rfl⟩), trivial⟩, fun x hx => ?_⟩
    · have h1 : ∀ (m2 : TMem K), m2.atom (m.next + 1) = .singleton m.next → m2.sing m.next = (c, [Interval.default]) →
          Rep m2 (.atom (m.next + 1)) (.sing c [Interval.default]) {m.next, m.next + 1} := fun m2 k1 k2 => by
        have := Rep.sing (F := {m.next, m.next + 1}) k1 (by simp) (by simp)
        rwa [k2] at this
      exact h1 _ (atom_newAtom _ _) (sing_newSing m _)
    · rintro x (rfl | rfl)
      · exact ⟨le_refl _, show m.next < m.next + 1 + 1 by omega⟩
      · exact ⟨Nat.le_succ _, show m.next + 1 < m.next + 1 + 1 by omega⟩
    · intro I hI
      rw [List.mem_singleton.1 hI]
      exact Interval.iok_default
    · rw [List.mem_singleton.1 hI]
      exact Interval.intEnds_default
    · obtain ⟨d, hd, rfl, ho⟩ := hx
      exact .inl ⟨d, hd, rfl, ho, _, List.mem_singleton.2 rfl, by simpa [Interval.default, Interval.Mem, Interval.Above, Bnd.sat] using hd⟩
  | .epsilon, m, _, _, h, l, m', hl => by
    cases hl
    refine ⟨Nat.le_succ _, [m.next], .cons .eps .nil, {m.next}, rfl,
      .cons (F2 := ∅) (Set.Subset.refl _) (Set.empty_subset _) (fun _ _ h => h.elim) (.eps (atom_newAtom _ _) rfl) .nil, ?_, ⟨trivial, trivial⟩,
      fun h => absurd trivial h, fun h => absurd trivial h, fun _ => ⟨_, rfl⟩, by simp, fun _ => ⟨trivial, trivial⟩, fun c h => h.elim, fun h => h.elim,
      fun _ => ⟨.inl rfl, trivial⟩, fun x hx => .inl hx⟩
    rintro x rfl
    exact ⟨le_refl _, Nat.lt_succ_self _⟩
  | .plus e, m, he, hc, h, l, m', hl => by
    cases h1 : e.toDNF m with
    | error x => simp [TRE.toDNF, h1, bind, Except.bind] at hl
    | ok r =>
      obtain ⟨l1, m1⟩ := r
      obtain ⟨k0, as, s, F, rfl, k1, k2, k3, k4, k5, k6, k7, k8, k9, k10, k11, k12⟩ := toDNF_init e m he.1 hc h l1 m1 h1
      simp only [TRE.toDNF, h1, bind, Except.bind] at hl
      cases hl
      have hx := (ext_newDnf m1 (as.map fun x => [x])).trans (ext_newAtom _ (.plus m1.next))
      have hb : Below m1 F := fun x hx => (k2 x hx).2
      refine ⟨show m.next ≤ m1.next + 1 + 1 by omega, [m1.next + 1], .cons (.plus s) .nil, insert (m1.next + 1) (insert m1.next F), rfl,
        .cons (F2 := ∅) (Set.Subset.refl _) (Set.empty_subset _) (fun _ _ h => h.elim) (.plus (d := m1.next) (G := F) (atom_newAtom _ _) (dnf_newDnf m1 _)
          (by simp) (by simp) (fun x hx => by simp [hx]) (fun h => by have := hb _ h; omega) (fun h => by have := hb _ h; omega) (by omega)
          (k1.ext hb hx)) .nil, ?_, ⟨⟨k3, k5 he.2⟩, trivial⟩, fun _ => ⟨by simp, trivial⟩, fun _ h => (by cases h.1), fun _ => ⟨_, rfl⟩, by simp,
        fun h => ⟨k8 h, trivial⟩, fun c h => ⟨k9 c h, trivial⟩, fun ⟨c, h⟩ => ⟨⟨c, k9 c h⟩, trivial⟩,
        fun ⟨c, h⟩ => ⟨.inr (.inl ⟨c, k9 c h⟩), trivial⟩, fun x hx => .inl (iter_mono k12 hx)⟩
      rintro x (rfl | rfl | hx)
      · exact ⟨by omega, show m1.next + 1 < m1.next + 1 + 1 by omega⟩
      · exact ⟨by omega, show m1.next < m1.next + 1 + 1 by omega⟩
      · have := k2 x hx
        exact ⟨this.1, show x < m1.next + 1 + 1 by omega⟩
  | .concat e f, m, he, hc, h, l, m', hl => by
    cases h1 : e.toDNF m with
    | error x => simp [TRE.toDNF, h1, bind, Except.bind] at hl
    | ok r =>
      obtain ⟨l1, m1⟩ := r
      have g1 := toDNF_post e m h l1 m1 h1
      obtain ⟨k0, as, s, F, rfl, k1, k2, k3, k4, k5, k6, k7, k8, k9, k10, k11, k12⟩ := toDNF_init e m he.1 (fun h => (hc h).1) h l1 m1 h1
      cases h2 : f.toDNF m1 with
      | error x => simp [TRE.toDNF, h1, h2, bind, Except.bind] at hl
      | ok r =>
        obtain ⟨l2, m2⟩ := r
        have g2 := toDNF_post f m1 g1.good l2 m2 h2
        obtain ⟨j0, bs, s', F', rfl, j1, j2, j3, j4, j5, j6, j7, j8, j9, j10, j11, j12⟩ := toDNF_init f m1 he.2.1 (fun h => (hc h).2) g1.good l2 m2 h2
        simp only [TRE.toDNF, h1, h2, bind, Except.bind] at hl
        obtain ⟨a, rfl⟩ := k6 he.2.2.1
        obtain ⟨b, rfl⟩ := j6 he.2.2.2
        split at hl
        · cases hl
        · next r hr =>
          cases hl
          obtain ⟨y, hy, hy2⟩ := mapM_one (x := ([a], [b])) hr
          obtain ⟨c, hc1, hc2⟩ := mapM_one (x := (a, b)) hy2
          obtain ⟨t, rfl, ht⟩ := singles_map rfl (k1.ext (fun x hx => (k2 x hx).2) g2.ext)
          obtain ⟨u, rfl, hu⟩ := singles_map rfl j1
          obtain ⟨w, G, w1, w2, w3, w4, w5, w6, w7, w8⟩ := mkConcat_rep ht hu k2 j2 k0 j0 k3.1 j3.1 hc2
          refine ⟨?_, [c], .cons w .nil, G, by rw [hy, hc1]; rfl, .cons (F2 := ∅) (Set.Subset.refl _) (Set.empty_subset _) (fun _ _ h => h.elim) w1 .nil, w2,
            ⟨w3, trivial⟩, fun hn => ⟨fun e => ?_, trivial⟩, fun hn h => ?_, fun _ => ⟨_, rfl⟩, by simp,
            fun h => ⟨w5 (k8 h.1).1 (j8 h.2).1, trivial⟩, fun c h => ⟨w6 c (k9 c h.1).1 (j9 c h.2).1, trivial⟩,
            fun ⟨c, h⟩ => ⟨⟨c, w6 c (k9 c h.1).1 (j9 c h.2).1⟩, trivial⟩, fun h => ⟨w7 (k11 h.1).1 (j11 h.2).1, trivial⟩, fun x hx => ?_⟩
          · have := w2 _ w1.self
            omega
          · obtain ⟨e1, e2⟩ := w4.1 e
            refine hn ⟨?_, ?_⟩
            · by_contra h
              exact (k4 h).1 e1
            · by_contra h
              exact (j4 h).1 e2
          · obtain ⟨e1, e2⟩ := w4.1 h.1
            refine hn ⟨?_, ?_⟩
            · by_contra h
              exact k5 h ⟨e1, trivial⟩
            · by_contra h
              exact j5 h ⟨e2, trivial⟩
          · obtain ⟨y, z, rfl, hy, hz⟩ := hx
            exact .inl (w8 y z ((k12 y hy).elim id fun h => h.elim) ((j12 z hz).elim id fun h => h.elim))
  | .disj e f, m, he, hc, h, l, m', hl => by
    cases h1 : e.toDNF m with
    | error x => simp [TRE.toDNF, h1, bind, Except.bind] at hl
    | ok r =>
      obtain ⟨l1, m1⟩ := r
      have g1 := toDNF_post e m h l1 m1 h1
      obtain ⟨k0, as, s, F, rfl, k1, k2, k3, k4, k5, k6, k7, k8, k9, k10, k11, k12⟩ := toDNF_init e m he.1 (fun h => (hc h).1) h l1 m1 h1
      cases h2 : f.toDNF m1 with
      | error x => simp [TRE.toDNF, h1, h2, bind, Except.bind] at hl
      | ok r =>
        obtain ⟨l2, m2⟩ := r
        have g2 := toDNF_post f m1 g1.good l2 m2 h2
        obtain ⟨j0, bs, s', F', rfl, j1, j2, j3, j4, j5, j6, j7, j8, j9, j10, j11, j12⟩ := toDNF_init f m1 he.2 (fun h => (hc h).2) g1.good l2 m2 h2
        simp only [TRE.toDNF, h1, h2, bind, Except.bind] at hl
        cases hl
        have k1' := k1.ext (fun x hx => (k2 x hx).2) g2.ext
        have hd : ∀ x ∈ F, x ∉ F' := fun x hx hx' => by
          have := (k2 x hx).2
          have := (j2 x hx').1
          omega
        refine ⟨le_trans k0 j0, as ++ bs, tappend s s', F ∪ F', by rw [List.map_append], rep_append hd (Set.Subset.refl F) k1' j1, ?_, gt_append k3 j3,
          fun hn => noEps_append (k4 fun h => hn (.inl h)) (j4 fun h => hn (.inr h)), fun hn h => ?_, fun h => h.elim, by simp [k7],
          fun h => nice_append (k8 h.1) (j8 h.2), fun c h => only_append (k9 c h.1) (j9 c h.2), fun h => eachOnly_append (k10 h.1) (j10 h.2),
          fun h => eachFlat_append (k11 h.1) (j11 h.2), fun x hx => altL_append (hx.imp (k12 x) (j12 x))⟩
        · rintro x (hx | hx)
          · exact ⟨(k2 x hx).1, lt_of_lt_of_le (k2 x hx).2 j0⟩
          · exact ⟨le_trans k0 (j2 x hx).1, (j2 x hx).2⟩
        · obtain ⟨e1, e2⟩ := allEps_append k1' j1 h
          refine hn ⟨?_, ?_⟩
          · by_contra h
            exact k5 h e1
          · by_contra h
            exact j5 h e2
  | .conj e f, m, he, _, _, _, _, _ => he.elim
  | .within e I, m, he, hc, h, l, m', hl => by
    cases h1 : e.toDNF m with
    | error x => simp [TRE.toDNF, h1, bind, Except.bind] at hl
    | ok r =>
      obtain ⟨l1, m1⟩ := r
      obtain ⟨k0, as, s, F, rfl, k1, k2, k3, k4, k5, k6, k7, k8, k9, k10, k11, k12⟩ := toDNF_init e m he.1 (fun h => (hc h).1) h l1 m1 h1
      simp only [TRE.toDNF, h1, bind, Except.bind] at hl
      have hI : Interval.LowOk cl I := by
        obtain ⟨l, s, e1, e2⟩ := he.2.2
        exact ⟨l, s, e1, e2, fun h => (hc h).2 l s e1⟩
      obtain ⟨bs, s', F', rfl, j1, j2, j3, j4, j5, j6, j7, j8, j9, j10⟩ := mapWithin_rep hI as s m1 F k1 (fun x hx => (k2 x hx).2) k3 (k4 he.2.1) l m' hl
      refine ⟨le_trans k0 j6.next, bs, s', F', rfl, j2, fun x hx => ⟨?_, (j3 x hx).2⟩, j4, fun _ => j5, fun _ h => ?_, fun h => ?_, fun h => ?_,
        fun h => j7 (k8 h.1) h.2, fun c h => j8 c (k9 c h), fun h => j9 (k10 h), fun h => (j9 (k10 h)).flat,
        fun x hx => j10 x (k12 x hx.1) hx.2⟩
      · rcases (j3 x hx).1 with h | h
        · exact (k2 x h).1
        · exact le_trans k0 h
      · cases bs with
        | nil => exact k7 (List.length_eq_zero_iff.1 j1.symm)
        | cons b bs =>
          cases j2
          exact j5.1 h.1
      · obtain ⟨a, rfl⟩ := k6 h
        obtain ⟨b, rfl⟩ := List.length_eq_one_iff.1 j1
        exact ⟨b, rfl⟩
      · rw [h] at j1
        exact k7 (List.length_eq_zero_iff.1 j1.symm)

end Verif.TMem
