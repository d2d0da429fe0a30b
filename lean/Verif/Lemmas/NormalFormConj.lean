import Verif.Lemmas.NormalFormMono

/-!
# The computation of the normal form does not return for expressions with conjunctions
-/

set_option linter.unusedSectionVars false

namespace Verif.TMem

variable {K : Type} [Field K] [LinearOrder K] [IsStrictOrderedRing K] [FloorRing K]

/-! ## The memory before the computation -/

/-- Objects below which there is a conjunction of two or more elements: `true` for nodes, `false` for lists. -/
inductive Bad (m : TMem K) : Bool → Nat → Prop
  | plus {a d} (h : m.atom a = .plus d) (hd : Bad m false d) : Bad m true a
  | concat {a l x} (h : m.atom a = .concat l) (hx : x ∈ l) (hb : Bad m true x) : Bad m true a
  | within {a b I} (h : m.atom a = .within b I) (hb : Bad m true b) : Bad m true a
  | big {d c} (hc : c ∈ m.dnf d) (hl : 2 ≤ c.length) : Bad m false d
  | member {d c a} (hc : c ∈ m.dnf d) (ha : a ∈ c) (hb : Bad m true a) : Bad m false d

/-- The node of an object, with a set of objects `B`. -/
def NodeBad (B : Bool → Nat → Prop) : ANode K → Prop
  | .plus d => B false d
  | .concat l => ∃ x ∈ l, B true x
  | .within b _ => B true b
  | _ => False

/-- The list of an object, with a set of objects `B`. -/
def ListBad (B : Bool → Nat → Prop) (l : List (List Nat)) : Prop := ∃ c ∈ l, 2 ≤ c.length ∨ ∃ a ∈ c, B true a

theorem Bad.node {m : TMem K} {a : Nat} : Bad m true a ↔ NodeBad (Bad m) (m.atom a) := by
  constructor
  · intro h
    cases h with
    | plus h hd => rw [h]; exact hd
    | concat h hx hb => rw [h]; exact ⟨_, hx, hb⟩
    | within h hb => rw [h]; exact hb
  · intro h
    cases ha : m.atom a with
    | plus d => rw [ha] at h; exact .plus ha h
    | concat l => rw [ha] at h; obtain ⟨x, hx, hb⟩ := h; exact .concat ha hx hb
    | within b I => rw [ha] at h; exact .within ha h
    | singleton | epsilon | moved => rw [ha] at h; exact h.elim

theorem Bad.list {m : TMem K} {d : Nat} : Bad m false d ↔ ListBad (Bad m) (m.dnf d) := by
  constructor
  · intro h
    cases h with
    | big hc hl => exact ⟨_, hc, .inl hl⟩
    | member hc ha hb => exact ⟨_, hc, .inr ⟨_, ha, hb⟩⟩
  · rintro ⟨c, hc, hl | ⟨a, ha, hb⟩⟩
    · exact .big hc hl
    · exact .member hc ha hb

theorem Bad.lt_next {m : TMem K} (hf : Fresh m) {a : Nat} (h : Bad m true a) : a < m.next := by
  by_contra hn
  have := Bad.node.1 h
  rw [hf.atom a (not_lt.1 hn)] at this
  exact this

theorem Bad.ext {m m' : TMem K} (hf : Fresh m) (he : Ext m m') {b : Bool} {a : Nat} (h : Bad m b a) : Bad m' b a := by
  have low : ∀ {a : Nat}, m.atom a ≠ .moved → a < m.next := fun {a} h' => by
    by_contra hn
    exact h' (hf.atom a (not_lt.1 hn))
  have lowd : ∀ {d : Nat} {c}, c ∈ m.dnf d → d < m.next := fun {d c} h' => by
    by_contra hn
    rw [hf.dnf d (not_lt.1 hn)] at h'
    simp at h'
  induction h with
  | plus h hd ih => exact .plus (by rw [he.atom _ (low (by rw [h]; simp)), h]) ih
  | concat h hx hb ih => exact .concat (by rw [he.atom _ (low (by rw [h]; simp)), h]) hx ih
  | within h hb ih => exact .within (by rw [he.atom _ (low (by rw [h]; simp)), h]) ih
  | big hc hl => exact .big (by rw [he.dnf _ (lowd hc)]; exact hc) hl
  | member hc ha hb ih => exact .member (by rw [he.dnf _ (lowd hc)]; exact hc) ha ih

/-- The memory grows. -/
def Grows {α : Type} (m : TMem K) (r : Except Err (α × TMem K)) : Prop := ∀ y m', r = .ok (y, m') → Fresh m' ∧ Ext m m'

theorem mapM_grows {α β : Type} {f : TMem K → α → Except Err (β × TMem K)} (hf : ∀ m x, Fresh m → Grows m (f m x)) :
    ∀ (l : List α) (m : TMem K), Fresh m → Grows m (mapM f m l)
  | [], m, h => fun y m' h' => by cases h'; exact ⟨h, Ext.rfl' m⟩
  | x :: l, m, h => fun y m' h' => by
    unfold mapM at h'
    cases h1 : f m x with
    | error e' => simp [h1] at h'
    | ok r =>
      simp only [h1] at h'
      have g := hf m x h r.1 r.2 h1
      cases h2 : mapM f r.2 l with
      | error e' => simp [h2] at h'
      | ok r' =>
        simp only [h2, Except.ok.injEq, Prod.mk.injEq] at h'
        have g' := mapM_grows hf l r.2 g.1 r'.1 r'.2 h2
        rw [← h'.2]
        exact ⟨g'.1, g.2.trans g'.2⟩

theorem mapM_bad {α β : Type} {f : TMem K → α → Except Err (β × TMem K)} {P : TMem K → α → Prop} {Q : TMem K → β → Prop}
    (hf : ∀ m x, Fresh m → Grows m (f m x)) (hP : ∀ m m' x, Fresh m → Ext m m' → P m x → P m' x)
    (hQ : ∀ m m' x, Fresh m → Ext m m' → Q m x → Q m' x) (hs : ∀ m x y m', Fresh m → P m x → f m x = .ok (y, m') → Q m' y) :
    ∀ (l : List α) (m : TMem K) ys m', Fresh m → mapM f m l = .ok (ys, m') → (∃ x ∈ l, P m x) → ∃ y ∈ ys, Q m' y
  | [], m, ys, m', _, h, ⟨x, hx, _⟩ => by simp at hx
  | x :: l, m, ys, m', hm, h, ⟨x', hx', hp⟩ => by
    unfold mapM at h
    cases h1 : f m x with
    | error e' => simp [h1] at h
    | ok r =>
      simp only [h1] at h
      have g := hf m x hm r.1 r.2 h1
      cases h2 : mapM f r.2 l with
      | error e' => simp [h2] at h
      | ok r' =>
        simp only [h2, Except.ok.injEq, Prod.mk.injEq] at h
        have g' := mapM_grows hf l r.2 g.1 r'.1 r'.2 h2
        rw [← h.1, ← h.2]
        rcases List.mem_cons.1 hx' with rfl | hx'
        · exact ⟨r.1, List.mem_cons_self .., hQ _ _ _ g.1 g'.2 (hs m x' r.1 r.2 hm hp h1)⟩
        · obtain ⟨y, hy, hq⟩ := mapM_bad hf hP hQ hs l r.2 r'.1 r'.2 g.1 h2 ⟨x', hx', hP _ _ _ hm g.2 hp⟩
          exact ⟨y, List.mem_cons_of_mem _ hy, hq⟩

theorem mkConcat_grows (m : TMem K) (p : Nat × Nat) (h : Fresh m) : Grows m (m.mkConcat p.1 p.2) := by
  intro y m' h'
  unfold mkConcat at h'
  split at h'
  · cases h'; exact ⟨fresh_newAtom h _, ext_newAtom m _⟩
  · cases h'
  · cases h'; exact ⟨fresh_newAtom h _, ext_newAtom m _⟩

theorem mkWithin_grows (I : Interval K) (m : TMem K) (a : Nat) (h : Fresh m) : Grows m (m.mkWithin a I) := by
  intro y m' h'
  unfold mkWithin at h'
  split at h'
  · cases h'
    exact ⟨fresh_newAtom (fresh_newSing h _) _, (ext_newSing m _).trans (ext_newAtom _ _)⟩
  · cases h'
  · cases h'; exact ⟨fresh_newAtom h _, ext_newAtom m _⟩

theorem mkConcat_bad {m : TMem K} (hf : Fresh m) {a b y : Nat} {m' : TMem K} (hb : Bad m true a ∨ Bad m true b) (h : m.mkConcat a b = .ok (y, m')) :
    Bad m' true y := by
  have part : ∀ a, Bad m true a → ∃ x ∈ m.parts a, Bad m true x := by
    intro a ha
    have hn := Bad.node.1 ha
    unfold parts
    split
    · next l hl => rw [hl] at hn; exact hn
    · next hl => rw [hl] at hn; exact hn.elim
    · exact ⟨a, List.mem_singleton.2 rfl, ha⟩
  have : ∃ x ∈ m.parts a ++ m.parts b, Bad m true x := by
    rcases hb with hb | hb
    · obtain ⟨x, hx, h⟩ := part a hb; exact ⟨x, List.mem_append_left _ hx, h⟩
    · obtain ⟨x, hx, h⟩ := part b hb; exact ⟨x, List.mem_append_right _ hx, h⟩
  obtain ⟨x, hx, hbad⟩ := this
  unfold mkConcat at h
  split at h
  · next hl => rw [hl] at hx; simp at hx
  · cases h
  · cases h
    exact .concat (atom_newAtom m _) hx (hbad.ext hf (ext_newAtom m _))

theorem mkWithin_bad {m : TMem K} (hf : Fresh m) {a y : Nat} {I : Interval K} {m' : TMem K} (hb : Bad m true a) (h : m.mkWithin a I = .ok (y, m')) :
    Bad m' true y := by
  unfold mkWithin at h
  split at h
  · next s hs =>
    have := Bad.node.1 hb
    rw [hs] at this
    exact this.elim
  · cases h
  · cases h
    exact .within (atom_newAtom m _) (hb.ext hf (ext_newAtom m _))

theorem ListBad.ext {m m' : TMem K} (hf : Fresh m) (he : Ext m m') {l : List (List Nat)} (h : ListBad (Bad m) l) : ListBad (Bad m') l := by
  obtain ⟨c, hc, h | ⟨a, ha, h⟩⟩ := h
  · exact ⟨c, hc, .inl h⟩
  · exact ⟨c, hc, .inr ⟨a, ha, h.ext hf he⟩⟩

/-- A conjunction of the list. -/
def ConjBad (m : TMem K) (c : List Nat) : Prop := 2 ≤ c.length ∨ ∃ a ∈ c, Bad m true a

theorem ConjBad.ext {m m' : TMem K} (hf : Fresh m) (he : Ext m m') {c : List Nat} (h : ConjBad m c) : ConjBad m' c :=
  h.imp id fun ⟨a, ha, h⟩ => ⟨a, ha, h.ext hf he⟩

theorem toDNF_bad : ∀ (e : TRE K) (m : TMem K) l m', Fresh m → e.toDNF m = .ok (l, m') → Fresh m' ∧ Ext m m' ∧ (¬ e.ConjFree → ListBad (Bad m') l)
  | .atom c, m, l, m', hf, h => by
    cases h
    exact ⟨fresh_newAtom (fresh_newSing hf _) _, (ext_newSing m _).trans (ext_newAtom _ _), fun h => absurd trivial h⟩
  | .epsilon, m, l, m', hf, h => by
    cases h
    exact ⟨fresh_newAtom hf _, ext_newAtom m _, fun h => absurd trivial h⟩
  | .plus e, m, l, m', hf, h => by
    cases h1 : e.toDNF m with
    | error y => simp [TRE.toDNF, h1, bind, Except.bind] at h
    | ok r =>
      obtain ⟨k1, k2, k3⟩ := toDNF_bad e m r.1 r.2 hf h1
      simp only [TRE.toDNF, h1, bind, Except.bind] at h
      cases h
      refine ⟨fresh_newAtom (fresh_newDnf k1 _) _, (k2.trans (ext_newDnf _ _)).trans (ext_newAtom _ _), fun he => ?_⟩
      refine ⟨_, List.mem_singleton.2 rfl, .inr ⟨_, List.mem_singleton.2 rfl, .plus (atom_newAtom _ _) ?_⟩⟩
      rw [Bad.list]
      have : ((r.2.newDnf r.1).newAtom (ANode.plus r.2.next)).dnf r.2.next = r.1 := dnf_newDnf r.2 r.1
      rw [this]
      exact ((k3 he).ext k1 (ext_newDnf _ _)).ext (fresh_newDnf k1 _) (ext_newAtom _ _)
  | .concat e f, m, l, m', hf, h => by
    cases h1 : e.toDNF m with
    | error y => simp [TRE.toDNF, h1, bind, Except.bind] at h
    | ok r =>
      obtain ⟨k1, k2, k3⟩ := toDNF_bad e m r.1 r.2 hf h1
      have s := toDNF_shape e m r.1 r.2 h1
      cases h2 : f.toDNF r.2 with
      | error y => simp [TRE.toDNF, h1, h2, bind, Except.bind] at h
      | ok r' =>
        obtain ⟨j1, j2, j3⟩ := toDNF_bad f r.2 r'.1 r'.2 k1 h2
        have s' := toDNF_shape f r.2 r'.1 r'.2 h2
        simp only [TRE.toDNF, h1, h2, bind, Except.bind] at h
        split at h
        · cases h
        · next y hy =>
          cases h
          have g2 : ∀ (m : TMem K) (p : List Nat × List Nat), Fresh m → Grows m (m.mapM (fun m q => m.mkConcat q.1 q.2) (pairs p.1 p.2)) :=
            fun m p hm => mapM_grows (fun m x hm => mkConcat_grows m x hm) _ m hm
          have g := mapM_grows g2 _ _ j1 _ _ hy
          refine ⟨g.1, (k2.trans j2).trans g.2, fun he => ?_⟩
          have bad : ∃ p ∈ pairs r.1 r'.1, p.1 ≠ [] ∧ p.2 ≠ [] ∧ (ConjBad r'.2 p.1 ∨ ConjBad r'.2 p.2) := by
            obtain ⟨x, hx⟩ := List.exists_mem_of_ne_nil _ s.1
            obtain ⟨z, hz⟩ := List.exists_mem_of_ne_nil _ s'.1
            by_cases h1' : e.ConjFree
            · obtain ⟨c, hc, hn⟩ := j3 fun h => he ⟨h1', h⟩
              exact ⟨(x, c), mem_pairs.2 ⟨hx, hc⟩, s.2 x hx, s'.2 c hc, .inr hn⟩
            · obtain ⟨c, hc, hn⟩ := k3 h1'
              exact ⟨(c, z), mem_pairs.2 ⟨hc, hz⟩, s.2 c hc, s'.2 z hz, .inl (ConjBad.ext k1 j2 hn)⟩
          obtain ⟨c, hc, hn⟩ := mapM_bad (P := fun m (p : List Nat × List Nat) => p.1 ≠ [] ∧ p.2 ≠ [] ∧ (ConjBad m p.1 ∨ ConjBad m p.2)) (Q := ConjBad) g2
            (fun m m' p hm he hp => ⟨hp.1, hp.2.1, hp.2.2.imp (ConjBad.ext hm he) (ConjBad.ext hm he)⟩)
            (fun m m' c hm he hc => ConjBad.ext hm he hc) (fun m p t m' hm hp ht => by
              obtain ⟨n1, n2, hb⟩ := hp
              have hlen := mapM_length _ _ _ _ ht
              rw [pairs_length] at hlen
              have p1 := List.length_pos_iff.2 n1
              have p2 := List.length_pos_iff.2 n2
              have single : (∃ q ∈ pairs p.1 p.2, Bad m true q.1 ∨ Bad m true q.2) → ConjBad m' t := fun hq =>
                .inr (mapM_bad (P := fun m (q : Nat × Nat) => Bad m true q.1 ∨ Bad m true q.2) (Q := fun m y => Bad m true y)
                  (fun m x hm => mkConcat_grows m x hm) (fun m m' x hm he h => h.imp (Bad.ext hm he) (Bad.ext hm he))
                  (fun m m' x hm he h => Bad.ext hm he h) (fun m x y m' hm hp h => mkConcat_bad hm hp h) _ _ _ _ hm ht hq)
              obtain ⟨x, hx⟩ := List.exists_mem_of_ne_nil _ n1
              obtain ⟨z, hz⟩ := List.exists_mem_of_ne_nil _ n2
              rcases hb with (hb | ⟨a, ha, hb⟩) | (hb | ⟨a, ha, hb⟩)
              · left; rw [hlen]; nlinarith
              · exact single ⟨(a, z), mem_pairs.2 ⟨ha, hz⟩, .inl hb⟩
              · left; rw [hlen]; nlinarith
              · exact single ⟨(x, a), mem_pairs.2 ⟨hx, ha⟩, .inr hb⟩) _ _ _ _ j1 hy bad
          refine ⟨c, List.mem_filter.2 ⟨hc, ?_⟩, hn⟩
          rcases hn with hn | ⟨a, ha, -⟩
          · cases c <;> simp_all
          · cases c <;> simp_all
  | .disj e f, m, l, m', hf, h => by
    cases h1 : e.toDNF m with
    | error y => simp [TRE.toDNF, h1, bind, Except.bind] at h
    | ok r =>
      obtain ⟨k1, k2, k3⟩ := toDNF_bad e m r.1 r.2 hf h1
      cases h2 : f.toDNF r.2 with
      | error y => simp [TRE.toDNF, h1, h2, bind, Except.bind] at h
      | ok r' =>
        obtain ⟨j1, j2, j3⟩ := toDNF_bad f r.2 r'.1 r'.2 k1 h2
        simp only [TRE.toDNF, h1, h2, bind, Except.bind] at h
        cases h
        refine ⟨j1, k2.trans j2, fun he => ?_⟩
        by_cases h1' : e.ConjFree
        · obtain ⟨c, hc, hn⟩ := j3 fun h => he ⟨h1', h⟩
          exact ⟨c, List.mem_append_right _ hc, hn⟩
        · obtain ⟨c, hc, hn⟩ := (k3 h1').ext k1 j2
          exact ⟨c, List.mem_append_left _ hc, hn⟩
  | .conj e f, m, l, m', hf, h => by
    cases h1 : e.toDNF m with
    | error y => simp [TRE.toDNF, h1, bind, Except.bind] at h
    | ok r =>
      obtain ⟨k1, k2, -⟩ := toDNF_bad e m r.1 r.2 hf h1
      cases h2 : f.toDNF r.2 with
      | error y => simp [TRE.toDNF, h1, h2, bind, Except.bind] at h
      | ok r' =>
        obtain ⟨j1, j2, -⟩ := toDNF_bad f r.2 r'.1 r'.2 k1 h2
        obtain ⟨c, hc, hn⟩ := toDNF_big (.conj e f) m l m' (fun h => h) h
        simp only [TRE.toDNF, h1, h2, bind, Except.bind] at h
        cases h
        exact ⟨j1, k2.trans j2, fun _ => ⟨c, hc, .inl hn⟩⟩
  | .within e I, m, l, m', hf, h => by
    cases h1 : e.toDNF m with
    | error y => simp [TRE.toDNF, h1, bind, Except.bind] at h
    | ok r =>
      obtain ⟨k1, k2, k3⟩ := toDNF_bad e m r.1 r.2 hf h1
      simp only [TRE.toDNF, h1, bind, Except.bind] at h
      have g2 : ∀ (m : TMem K) (c : List Nat), Fresh m → Grows m (m.mapM (fun m a => m.mkWithin a I) c) :=
        fun m c hm => mapM_grows (fun m x hm => mkWithin_grows I m x hm) _ m hm
      have g := mapM_grows g2 _ _ k1 _ _ h
      refine ⟨g.1, k2.trans g.2, fun he => ?_⟩
      exact mapM_bad (P := ConjBad) (Q := ConjBad) g2 (fun m m' c hm he hc => ConjBad.ext hm he hc) (fun m m' c hm he hc => ConjBad.ext hm he hc)
        (fun m c t m' hm hc ht => by
          rcases hc with hc | hc
          · left; rw [mapM_length _ _ _ _ ht]; exact hc
          · right
            exact mapM_bad (P := fun m a => Bad m true a) (Q := fun m a => Bad m true a) (fun m x hm => mkWithin_grows I m x hm)
              (fun m m' x hm he h => Bad.ext hm he h) (fun m m' x hm he h => Bad.ext hm he h)
              (fun m x y m' hm hp h => mkWithin_bad hm hp h) _ _ _ _ hm ht hc) _ _ _ _ k1 h (k3 he)

/-! ## The computation does not change them -/

/-- The objects in `B` are those below which there is a conjunction of two or more elements, and the lists in `B` are as at the beginning. -/
structure BadInv (B : Bool → Nat → Prop) (L : Nat → List (List Nat)) (m : TMem K) : Prop where
  atom : ∀ a, B true a ↔ NodeBad B (m.atom a)
  dnf : ∀ d, B false d ↔ ListBad B (m.dnf d)
  low : ∀ a, B true a → a < m.next
  same : ∀ d, B false d → m.dnf d = L d

variable {B : Bool → Nat → Prop} {L : Nat → List (List Nat)}

theorem BadInv.of_eq {m m' : TMem K} (h : BadInv B L m) (h1 : m'.atom = m.atom) (h2 : m'.dnf = m.dnf) (h3 : m.next ≤ m'.next) : BadInv B L m' :=
  ⟨fun a => by rw [h1]; exact h.atom a, fun d => by rw [h2]; exact h.dnf d, fun a ha => lt_of_lt_of_le (h.low a ha) h3,
    fun d hd => by rw [h2]; exact h.same d hd⟩

theorem BadInv.setAtom {m : TMem K} (h : BadInv B L m) {a : Nat} (ha : ¬ B true a) {n : ANode K} (hn : ¬ NodeBad B n) : BadInv B L (m.setAtom a n) := by
  refine ⟨fun b => ?_, h.dnf, h.low, h.same⟩
  simp only [TMem.setAtom, put]
  split
  · next hb => subst hb; exact ⟨fun h => absurd h ha, fun h => absurd h hn⟩
  · exact h.atom b

theorem BadInv.newSingleton {m : TMem K} (h : BadInv B L m) (v) : BadInv B L (m.newSingleton v).2 := by
  refine ⟨fun b => ?_, h.dnf, fun a ha => lt_of_lt_of_le (h.low a ha) (by simp only [TMem.newSingleton, newAtom, newSing]; omega), h.same⟩
  simp only [TMem.newSingleton, newAtom, put]
  split
  · next hb =>
    refine ⟨fun hB => ?_, fun h => h.elim⟩
    have := h.low b hB
    simp only [newSing] at hb
    omega
  · exact h.atom b

theorem BadInv.setDnf {m : TMem K} (h : BadInv B L m) {d : Nat} (hd : ¬ B false d) {l} (hl : ¬ ListBad B l) : BadInv B L (m.setDnf d l) := by
  refine ⟨h.atom, fun b => ?_, h.low, fun b hb => ?_⟩
  · simp only [TMem.setDnf, put]
    split
    · next hb => subst hb; exact ⟨fun h => absurd h hd, fun h => absurd h hl⟩
    · exact h.dnf b
  · simp only [TMem.setDnf, put]
    rw [if_neg (fun h' => by subst h'; exact hd hb)]
    exact h.same b hb

theorem finishSNF_bad {m : TMem K} (h : BadInv B L m) (c : Alphabet) {d : Nat} (hd : ¬ B false d) (l) : Yields AnyErr (BadInv B L) (m.finishSNF c d l) := by
  unfold finishSNF
  split
  · trivial
  · next I _ =>
    refine (h.newSingleton (c, I)).setDnf hd ?_
    rintro ⟨x, hx, h' | ⟨a, ha, h'⟩⟩
    · simp at hx; subst hx; simp at h'
    · simp at hx; subst hx; simp at ha; subst ha
      have := h.low _ h'
      simp [newSing] at this

theorem finishPlusSNF_bad {m : TMem K} (h : BadInv B L m) {a : Nat} (ha : ¬ B true a) (d : Nat) :
    Yields AnyErr (fun r => BadInv B L r.2) (m.finishPlusSNF a d) := by
  unfold finishPlusSNF
  split
  · split
    · next s _ =>
      split
      · trivial
      · exact (h.setAtom ha (n := .singleton s) (fun h => h)).of_eq rfl rfl (le_refl _)
    · trivial
  · trivial

theorem finishWithinSNF_bad {m : TMem K} (h : BadInv B L m) {a : Nat} (ha : ¬ B true a) (b : Nat) (I : Interval K) :
    Yields AnyErr (fun r => BadInv B L r.2) (m.finishWithinSNF a b I) := by
  unfold finishWithinSNF
  split
  · next s _ => exact (h.setAtom ha (n := .singleton s) (fun h => h)).of_eq rfl rfl (le_refl _)
  · trivial

mutual

theorem snfAtom_bad (c : Alphabet) : ∀ (fuel : Nat) (m : TMem K) (a : Nat), BadInv B L m → ¬ B true a →
    Yields AnyErr (fun r => BadInv B L r.2) (snfAtom c fuel m a)
  | 0, m, a, _, _ => trivial
  | fuel + 1, m, a, h, ha => by
    have hn := (h.atom a).not.1 ha
    unfold snfAtom
    split
    · trivial
    · exact h
    · exact h
    · next l hl =>
      rw [hl] at hn
      have h1 := allM_inv (E := AnyErr) (P := BadInv B L) (f := snfAtom c fuel) l m h
        fun x hx m' hm' => snfAtom_bad c fuel m' x hm' fun hb => hn ⟨x, hx, hb⟩
      split
      · trivial
      · next m1 he => rw [he] at h1; exact h1
      · next m1 he =>
        rw [he] at h1
        split
        · trivial
        · next I _ =>
          exact (BadInv.of_eq (m' := m1.newSing (c, I)) h1 rfl rfl (Nat.le_succ _)).setAtom ha (n := .singleton m1.next) (fun h => h)
    · next d hd =>
      rw [hd] at hn
      have h1 := snfDnf_bad c fuel m d h hn
      split
      · trivial
      · next m1 he => rw [he] at h1; exact finishPlusSNF_bad h1 ha d
    · next b I hb =>
      rw [hb] at hn
      have h1 := snfAtom_bad c fuel m b h hn
      split
      · trivial
      · next m1 he => rw [he] at h1; exact h1
      · next m1 he => rw [he] at h1; exact finishWithinSNF_bad h1 ha b I

theorem snfDnf_bad (c : Alphabet) : ∀ (fuel : Nat) (m : TMem K) (d : Nat), BadInv B L m → ¬ B false d → Yields AnyErr (BadInv B L) (snfDnf c fuel m d)
  | 0, m, d, _, _ => trivial
  | fuel + 1, m, d, h, hd => by
    have hn := (h.dnf d).not.1 hd
    unfold snfDnf
    have h1 := filterM_inv (E := AnyErr) (P := BadInv B L) (f := allM (snfAtom c fuel)) (m.dnf d) m h
      fun l hl m' hm' => allM_inv (E := AnyErr) (P := BadInv B L) l m' hm'
        fun x hx m'' hm'' => snfAtom_bad c fuel m'' x hm'' fun hb => hn ⟨l, hl, .inr ⟨x, hx, hb⟩⟩
    cases he : filterM (allM (snfAtom c fuel)) m (m.dnf d) with
    | error e => trivial
    | ok r => rw [he] at h1; exact finishSNF_bad h1.1 c hd r.1

end

theorem concatLoop_bad {f : TMem K → Nat → Except Err (TMem K)}
    (hf : ∀ x m, BadInv B L m → Yields AnyErr (fun m' => BadInv B L m' ∧ ¬ B true x) (f m x)) :
    ∀ (l : List Nat) (m : TMem K) (dec : Decision), BadInv B L m →
    Yields AnyErr (fun r => BadInv B L r.2 ∧ ∀ x ∈ l, ¬ B true x) (concatLoop f m dec l)
  | [], m, dec, hm => ⟨hm, by simp⟩
  | x :: l, m, dec, hm => by
    have h := hf x m hm
    unfold concatLoop
    cases hx : f m x with
    | error e => trivial
    | ok m1 =>
      rw [hx] at h
      simp only [decisionOf]
      cases m1.adec x with
      | none => trivial
      | some i =>
        simp only
        refine Yields.mono (concatLoop_bad hf l m1 _ h.1) (fun _ h => h) fun r hr => ⟨hr.1, fun y hy => ?_⟩
        rcases List.mem_cons.1 hy with rfl | hy
        · exact h.2
        · exact hr.2 y hy

theorem forM_bad {α : Type} {P : TMem K → Prop} {Q : α → Prop} {f : TMem K → α → Except Err (TMem K)}
    (hf : ∀ x m, P m → Yields AnyErr (fun m' => P m' ∧ Q x) (f m x)) :
    ∀ (l : List α) (m : TMem K), P m → Yields AnyErr (fun m' => P m' ∧ ∀ x ∈ l, Q x) (forM f m l)
  | [], m, hm => ⟨hm, by simp⟩
  | x :: l, m, hm => by
    have h := hf x m hm
    unfold forM
    cases hx : f m x with
    | error e => trivial
    | ok m1 =>
      rw [hx] at h
      refine Yields.mono (forM_bad hf l m1 h.1) (fun _ h => h) fun r hr => ⟨hr.1, fun y hy => ?_⟩
      rcases List.mem_cons.1 hy with rfl | hy
      · exact h.2
      · exact hr.2 y hy

theorem finishConcat_bad {m : TMem K} (hm : BadInv B L m) {a : Nat} (ha : ¬ B true a) {l : List Nat} (hl : ∀ x ∈ l, ¬ B true x) (dec : Decision) :
    Yields AnyErr (BadInv B L) (m.finishConcat a l dec) := by
  unfold finishConcat
  cases l with
  | nil => exact (hm.setAtom ha (n := .concat []) (by simp [NodeBad])).of_eq rfl rfl (le_refl _)
  | cons x r =>
    have h := merge_inv r 0 m x
    simp only
    cases hg : merge 0 m x r with
    | error e => trivial
    | ok s =>
      rw [hg] at h
      obtain ⟨l', m1⟩ := s
      obtain ⟨h1, h2, h3, h4, h5⟩ := h
      have hm1 : BadInv B L m1 := hm.of_eq h2 h3 (le_of_eq h4.symm)
      have hn : ¬ NodeBad B (m1.shorten l') := by
        unfold shorten
        split
        · next y => exact (hm1.atom y).not.1 (hl y (h5 y (by simp)))
        · rintro ⟨y, hy, hb⟩
          exact hl y (h5 y hy) hb
      simp only
      split
      · next l'' heq =>
        rw [heq] at hn
        cases ha' : anyM (plusMixed m1) l'' with
        | error e => trivial
        | ok b =>
          cases b with
          | true => trivial
          | false => exact (hm1.setAtom ha hn).of_eq rfl rfl (le_refl _)
      · exact (hm1.setAtom ha hn).of_eq rfl rfl (le_refl _)

theorem finishPlus_bad {fuel : Nat} {m : TMem K} (hm : BadInv B L m) {a : Nat} (ha : ¬ B true a) (d : Nat) :
    Yields AnyErr (BadInv B L) (finishPlus fuel m a d) := by
  unfold finishPlus
  split
  · trivial
  · next v hv =>
    simp only
    split
    · trivial
    · split
      · next c _ =>
        have h := snfAtom_bad c fuel (m.setADec a ⟨v.constant && (v.chars.length == 1 || (v.chars.length == 2 && v.hasEpsilon)), v.chars⟩) a
          (hm.of_eq rfl rfl (le_refl _)) ha
        split
        · trivial
        · next b m1 he => rw [he] at h; exact h
      · exact hm.of_eq rfl rfl (le_refl _)

theorem finishWithin_bad {m : TMem K} (hm : BadInv B L m) {a b : Nat} (ha : ¬ B true a) (hb : ¬ B true b) (I : Interval K) :
    Yields AnyErr (BadInv B L) (m.finishWithin a b I) := by
  unfold finishWithin
  split
  · trivial
  · next v hv =>
    simp only
    split
    · next s _ => exact ((hm.setAtom hb (n := .moved) (fun h => h)).setAtom ha (n := .singleton s) (fun h => h)).of_eq rfl rfl (le_refl _)
    · trivial
    · exact (hm.setAtom ha (n := .epsilon) (fun h => h)).of_eq rfl rfl (le_refl _)
    · split
      · trivial
      · exact hm.of_eq rfl rfl (le_refl _)
    · exact hm.of_eq rfl rfl (le_refl _)

mutual

theorem normAtom_bad : ∀ (fuel : Nat) (m : TMem K) (a : Nat), BadInv B L m → Yields AnyErr (fun m' => BadInv B L m' ∧ ¬ B true a) (normAtom fuel m a)
  | 0, m, a, _ => trivial
  | fuel + 1, m, a, h => by
    have key := h.atom a
    unfold normAtom
    split
    · trivial
    · next s hs => rw [hs] at key; exact ⟨h.of_eq rfl rfl (le_refl _), fun hb => key.1 hb⟩
    · next hs => rw [hs] at key; exact ⟨h.of_eq rfl rfl (le_refl _), fun hb => key.1 hb⟩
    · next l hl =>
      rw [hl] at key
      have h1 := concatLoop_bad (f := normAtom fuel) (fun x m hm => normAtom_bad fuel m x hm) l m ⟨true, [0]⟩ h
      cases hc : concatLoop (normAtom fuel) m ⟨true, [0]⟩ l with
      | error e => trivial
      | ok r =>
        rw [hc] at h1
        have ha : ¬ B true a := fun hb => by
          obtain ⟨x, hx, hbx⟩ := key.1 hb
          exact h1.2 x hx hbx
        exact Yields.mono (finishConcat_bad h1.1 ha h1.2 r.1) (fun _ h => h) fun _ h => ⟨h, ha⟩
    · next d hd =>
      rw [hd] at key
      have h1 := normDnf_bad fuel m d h
      cases hc : normDnf fuel m d with
      | error e => trivial
      | ok m1 =>
        rw [hc] at h1
        have ha : ¬ B true a := fun hb => h1.2 (key.1 hb)
        exact Yields.mono (finishPlus_bad h1.1 ha d) (fun _ h => h) fun _ h => ⟨h, ha⟩
    · next b I hb =>
      rw [hb] at key
      have h1 := normAtom_bad fuel m b h
      cases hc : normAtom fuel m b with
      | error e => trivial
      | ok m1 =>
        rw [hc] at h1
        have ha : ¬ B true a := fun hb => h1.2 (key.1 hb)
        exact Yields.mono (finishWithin_bad h1.1 ha h1.2 I) (fun _ h => h) fun _ h => ⟨h, ha⟩

theorem normDnf_bad : ∀ (fuel : Nat) (m : TMem K) (d : Nat), BadInv B L m → Yields AnyErr (fun m' => BadInv B L m' ∧ ¬ B false d) (normDnf fuel m d)
  | 0, m, d, _ => trivial
  | fuel + 1, m, d, h => by
    unfold normDnf
    have h1 := forM_bad (P := BadInv B L) (Q := fun c : List Nat => ∀ x ∈ c, ¬ B true x) (f := forM (normAtom fuel))
      (fun c m' hm' => forM_bad (fun x m'' hm'' => normAtom_bad fuel m'' x hm'') c m' hm') (m.dnf d) m h
    cases hc : forM (forM (normAtom fuel)) m (m.dnf d) with
    | error e => trivial
    | ok m1 =>
      rw [hc] at h1
      obtain ⟨h1, h2⟩ := h1
      simp only [finishDnf]
      split
      · trivial
      · trivial
      · cases he : m1.conjDecisions fuel (m1.dnf d) with
        | error e => trivial
        | ok ds =>
          simp only
          cases disjDecision ds with
          | error e => trivial
          | ok v =>
            refine ⟨h1.of_eq rfl rfl (le_refl _), fun hb => ?_⟩
            rw [h1.same d hb, ← h.same d hb] at he
            refine conjDecisions_not_ok m1 fuel (m.dnf d) ?_ ds he
            obtain ⟨c, hc, hl | ⟨a, ha, hba⟩⟩ := (h.dnf d).1 hb
            · exact ⟨c, hc, hl⟩
            · exact absurd hba (h2 c hc a ha)

end

theorem normalForm_conj {e : TRE K} (he : ¬ e.ConjFree) (fuel : Nat) (r) : e.normalForm fuel ≠ .ok r := by
  unfold TRE.normalForm
  cases h : e.toDNF TMem.empty with
  | error x => simp
  | ok s =>
    obtain ⟨l, m⟩ := s
    obtain ⟨k1, -, k3⟩ := toDNF_bad e _ l m fresh_empty h
    have hf := fresh_newDnf k1 l
    have hbad : Bad (m.newDnf l) false m.next := by
      rw [Bad.list, dnf_newDnf]
      exact (k3 he).ext k1 (ext_newDnf m l)
    have inv : BadInv (Bad (m.newDnf l)) (m.newDnf l).dnf (m.newDnf l) :=
      ⟨fun _ => Bad.node, fun _ => Bad.list, fun _ ha => ha.lt_next hf, fun _ _ => rfl⟩
    have hn := normDnf_bad fuel _ m.next inv
    simp only
    cases hm : normDnf fuel (m.newDnf l) m.next with
    | error x => simp
    | ok m' => rw [hm] at hn; exact absurd hbad hn.2

end Verif.TMem
