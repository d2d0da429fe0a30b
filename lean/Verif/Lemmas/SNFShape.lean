import Verif.Lemmas.NormalFormLang
import Verif.Spec.SNF

/-!
# How the disjunctive normal form of an expression is shared

Each atom is given the list of the time restrictions around it, `ctx`.
-/

set_option linter.unusedSectionVars false

namespace Verif.TMem

open Interval

variable {K : Type} [Field K] [LinearOrder K] [IsStrictOrderedRing K]

section
variable (c : Alphabet) (oc : Prop) (cl : Bool)

/-- The node of the atom `a`. -/
def CtxCell (m : TMem K) (ctx : Nat → List (Interval K)) (a : Nat) : ANode K → Prop
  | .singleton s => (oc → (m.sing s).1 = c) ∧ ∀ I ∈ (m.sing s).2, IOk cl I
  | .epsilon => ¬ oc
  | .concat l => ∀ x ∈ l, ctx x = []
  | .plus d => d + 1 = a ∧ ∀ k ∈ m.dnf d, ∀ x ∈ k, ctx x = []
  | .within b I => ctx b = I :: ctx a ∧ LowOk cl I ∧ ∀ s, m.atom b ≠ .singleton s
  | .moved => True

def CtxOk (m : TMem K) (ctx : Nat → List (Interval K)) : Prop := ∀ a < m.next, CtxCell c oc cl m ctx a (m.atom a)

end

variable {c : Alphabet} {oc : Prop} {cl : Bool}

theorem ctx_ext {m m' : TMem K} {ctx ctx' : Nat → List (Interval K)} (hg : Good m) (h : CtxOk c oc cl m ctx) (he : Ext m m')
    (hc : ∀ x < m.next, ctx' x = ctx x) (hn : ∀ a, m.next ≤ a → a < m'.next → CtxCell c oc cl m' ctx' a (m'.atom a)) : CtxOk c oc cl m' ctx' := by
  intro a ha
  by_cases hlt : a < m.next
  · have k := h a hlt
    have w := hg.wf.atom a hlt
    rw [he.atom a hlt]
    cases hn : m.atom a with
    | singleton s =>
      rw [hn] at k w
      have hs : s < m.next := by simpa [NodeBelow] using w
      simpa only [CtxCell, he.sing s hs] using k
    | epsilon => rw [hn] at k; exact k
    | concat l =>
      rw [hn] at k w
      have hs : ∀ x ∈ l, x < m.next := by simpa [NodeBelow] using fun x hx => (w.resolve_left (by simp)).2 x hx
      exact fun x hx => (hc x (hs x hx)).trans (k x hx)
    | plus d =>
      rw [hn] at k w
      have hs : d < m.next := by simpa [NodeBelow] using w
      refine ⟨k.1, fun e he' x hx => ?_⟩
      rw [he.dnf d hs] at he'
      exact (hc x (hg.wf.dnf d hs e he' x hx)).trans (k.2 e he' x hx)
    | within b I =>
      rw [hn] at k w
      have hs : b < m.next := by simpa [NodeBelow] using w
      refine ⟨by rw [hc b hs, hc a hlt]; exact k.1, k.2.1, fun s => ?_⟩
      rw [he.atom b hs]
      exact k.2.2 s
    | moved => trivial
  · exact hn a (not_lt.1 hlt) ha

/-- The cells from `n` on have the list `outer`. -/
def ext1 (ctx : Nat → List (Interval K)) (n : Nat) (outer : List (Interval K)) : Nat → List (Interval K) := fun x => if x < n then ctx x else outer

theorem ext1_lt {ctx : Nat → List (Interval K)} {n : Nat} {outer : List (Interval K)} {x : Nat} (h : x < n) : ext1 ctx n outer x = ctx x := if_pos h
theorem ext1_ge {ctx : Nat → List (Interval K)} {n : Nat} {outer : List (Interval K)} {x : Nat} (h : n ≤ x) : ext1 ctx n outer x = outer := if_neg (not_lt.2 h)

theorem ctx_newAtom {m : TMem K} {ctx : Nat → List (Interval K)} (hg : Good m) (h : CtxOk c oc cl m ctx) {v : ANode K}
    (hv : CtxCell c oc cl (m.newAtom v) ctx m.next v) : CtxOk c oc cl (m.newAtom v) ctx := by
  refine ctx_ext hg h (ext_newAtom m v) (fun _ _ => rfl) fun a h1 h2 => ?_
  have : a = m.next := by simp only [newAtom] at h2; omega
  subst this
  rw [atom_newAtom]
  exact hv

theorem ctx_newSingleton {m : TMem K} {ctx : Nat → List (Interval K)} (hg : Good m) (h : CtxOk c oc cl m ctx) {v : Alphabet × List (Interval K)}
    (h1 : oc → v.1 = c) (h2 : ∀ I ∈ v.2, IOk cl I) : CtxOk c oc cl (m.newSingleton v).2 ctx := by
  obtain ⟨_, e, _, k1, k2⟩ := good_newSingleton hg v
  refine ctx_ext hg h e (fun _ _ => rfl) fun a g1 g2 => ?_
  by_cases ha : a = (m.newSingleton v).1
  · rw [ha, k1]
    simp only [CtxCell, k2]
    exact ⟨h1, h2⟩
  · have : a = m.next := by simp only [newSingleton, newSing, newAtom] at g2 ha; omega
    have e1 : (m.newSingleton v).2.atom a = .moved := by
      subst this
      simp only [newSingleton, newSing, newAtom, put]
      rw [if_neg (by omega), hg.fresh.atom _ (le_refl _)]
    rw [e1]
    trivial

theorem ctx_mkWithin {m m1 m' : TMem K} {ctx : Nat → List (Interval K)} {outer : List (Interval K)} (hg : Good m) (h : CtxOk c oc cl m ctx)
    {a b : Nat} {I : Interval K} (ha : a < m.next) (hI : LowOk cl I) (hca : ctx a = I :: outer) (hn : m1.next ≤ m.next)
    (hout : ∀ x, m1.next ≤ x → ctx x = outer) (hw : m.mkWithin a I = .ok (b, m')) : CtxOk c oc cl m' ctx ∧ m1.next ≤ b := by
  have k := h a ha
  unfold mkWithin at hw
  have wi : (∀ s, m.atom a ≠ .singleton s) → CtxOk c oc cl (m.newAtom (.within a I)) ctx := fun hs => by
    refine ctx_newAtom hg h ⟨by rw [hca, hout _ hn], hI, fun s => ?_⟩
    rw [(ext_newAtom m _).atom a ha]
    exact hs s
  split at hw
  · next s hs =>
    rw [hs] at k
    cases hw
    exact ⟨ctx_newSingleton hg h k.1 (iok_land1 (fun J hJ => (k.2 J hJ).low) hI), le_trans hn (Nat.le_succ _)⟩
  · cases hw
  · next h1 h2 =>
    cases hw
    exact ⟨wi fun s hs => h1 s hs, hn⟩

theorem ctx_mkConcat {m m1 m' : TMem K} {ctx : Nat → List (Interval K)} (hg : Good m) (h : CtxOk c oc cl m ctx)
    {a b k : Nat} (ha : a < m.next) (hb : b < m.next) (hca : ctx a = []) (hcb : ctx b = []) (hn : m1.next ≤ m.next)
    (hw : m.mkConcat a b = .ok (k, m')) : CtxOk c oc cl m' ctx ∧ m1.next ≤ k := by
  have pc : ∀ a < m.next, ctx a = [] → ∀ x ∈ m.parts a, ctx x = [] := fun a ha hca x hx => by
    have k := h a ha
    unfold parts at hx
    split at hx
    · next l hl => rw [hl] at k; exact k x hx
    · cases hx
    · rw [List.mem_singleton.1 hx]; exact hca
  have pn : oc → ∀ a < m.next, m.parts a ≠ [] := fun ho a ha => by
    have k := h a ha
    have w := hg.wf.atom a ha
    unfold parts
    split
    · next l hl => rw [hl] at w; exact (w.resolve_left (by simp)).1
    · next hl => rw [hl] at k; exact absurd ho k
    · simp
  unfold mkConcat at hw
  split at hw
  · next hl =>
    cases hw
    refine ⟨ctx_newAtom hg h fun ho => pn ho a ha (List.append_eq_nil_iff.1 hl).1, hn⟩
  · cases hw
  · next l h1 h2 =>
    cases hw
    refine ⟨ctx_newAtom hg h fun x hx => ?_, hn⟩
    rcases List.mem_append.1 hx with hx | hx
    · exact pc a ha hca x hx
    · exact pc b hb hcb x hx

/-- The conditions on the expression. -/
def Allowed (c : Alphabet) (oc : Prop) (cl : Bool) : TRE K → Prop
  | .atom c' => oc → c' = c
  | .epsilon => ¬ oc
  | .plus e => Allowed c oc cl e
  | .concat e f => Allowed c oc cl e ∧ Allowed c oc cl f
  | .disj e f => Allowed c oc cl e ∧ Allowed c oc cl f
  | .conj e f => Allowed c oc cl e ∧ Allowed c oc cl f
  | .within e I => Allowed c oc cl e ∧ LowOk cl I

theorem allowed_of : ∀ {e : TRE K}, e.FiniteLower → (cl = true → e.Closed) → (oc → e.BuiltFrom c) → Allowed c oc cl e
  | .atom _, _, _, h => h
  | .epsilon, _, _, h => h
  | .plus e, h1, h2, h3 => allowed_of (e := e) h1 h2 h3
  | .concat _ _, h1, h2, h3 => ⟨allowed_of h1.1 (fun h => (h2 h).1) fun h => (h3 h).1, allowed_of h1.2 (fun h => (h2 h).2) fun h => (h3 h).2⟩
  | .disj _ _, h1, h2, h3 => ⟨allowed_of h1.1 (fun h => (h2 h).1) fun h => (h3 h).1, allowed_of h1.2 (fun h => (h2 h).2) fun h => (h3 h).2⟩
  | .conj _ _, h1, h2, h3 => ⟨allowed_of h1.1 (fun h => (h2 h).1) fun h => (h3 h).1, allowed_of h1.2 (fun h => (h2 h).2) fun h => (h3 h).2⟩
  | .within _ I, h1, h2, h3 => by
    obtain ⟨l, s, e1, e2⟩ := h1.2
    exact ⟨allowed_of h1.1 (fun h => (h2 h).1) h3, l, s, e1, e2, fun h => (h2 h).2 l s e1⟩

theorem toDNF_ctx : ∀ (e : TRE K) (m : TMem K) (ctx : Nat → List (Interval K)) (outer : List (Interval K)), Good m → Allowed c oc cl e →
    CtxOk c oc cl m ctx → ∀ l m', e.toDNF m = .ok (l, m') →
    ∃ ctx', (∀ x < m.next, ctx' x = ctx x) ∧ CtxOk c oc cl m' ctx' ∧ ∀ k ∈ l, ∀ a ∈ k, ctx' a = outer
  | .atom c', m, ctx, outer, hg, he, hs, l, m', h => by
    cases h
    have h0 : CtxOk c oc cl m (ext1 ctx m.next outer) := ctx_ext hg hs (Ext.rfl' m) (fun x hx => ext1_lt hx) fun a h1 h2 => absurd h2 (not_lt.2 h1)
    refine ⟨ext1 ctx m.next outer, fun x hx => ext1_lt hx, ctx_newSingleton hg h0 he fun I hI => ?_, fun k hk a ha => ?_⟩
    · rw [List.mem_singleton.1 hI]; exact iok_default
    · rw [List.mem_singleton.1 hk] at ha
      rw [List.mem_singleton.1 ha]
      exact ext1_ge (Nat.le_succ _)
  | .epsilon, m, ctx, outer, hg, he, hs, l, m', h => by
    cases h
    have h0 : CtxOk c oc cl m (ext1 ctx m.next outer) := ctx_ext hg hs (Ext.rfl' m) (fun x hx => ext1_lt hx) fun a h1 h2 => absurd h2 (not_lt.2 h1)
    refine ⟨ext1 ctx m.next outer, fun x hx => ext1_lt hx, ctx_newAtom hg h0 he, fun k hk a ha => ?_⟩
    rw [List.mem_singleton.1 hk] at ha
    rw [List.mem_singleton.1 ha]
    exact ext1_ge (le_refl _)
  | .plus e, m, ctx, outer, hg, he, hs, l, m', h => by
    cases h1 : e.toDNF m with
    | error x => simp [TRE.toDNF, h1, bind, Except.bind] at h
    | ok r =>
      obtain ⟨l1, m1⟩ := r
      simp only [TRE.toDNF, h1, bind, Except.bind, Except.ok.injEq, Prod.mk.injEq] at h
      obtain ⟨rfl, rfl⟩ := h
      obtain ⟨ctx1, a1, s1, o1⟩ := toDNF_ctx e m ctx [] hg he hs l1 m1 h1
      have p1 := toDNF_post e m hg l1 m1 h1
      have g2 : Good (m1.newDnf l1) := ⟨wf_newDnf p1.good.wf p1.good.fresh p1.below, fresh_newDnf p1.good.fresh l1⟩
      have h0 : CtxOk c oc cl (m1.newDnf l1) (ext1 ctx1 m1.next outer) := by
        refine ctx_ext p1.good s1 (ext_newDnf m1 l1) (fun x hx => ext1_lt hx) fun a k1 k2 => ?_
        have : (m1.newDnf l1).atom a = .moved := p1.good.fresh.atom a k1
        rw [this]
        trivial
      refine ⟨ext1 ctx1 m1.next outer, fun x hx => (ext1_lt (lt_of_lt_of_le hx p1.ext.next)).trans (a1 x hx),
        ctx_newAtom g2 h0 ⟨rfl, fun k hk x hx => ?_⟩, fun k hk a ha => ?_⟩
      · have e1 : ((m1.newDnf l1).newAtom (.plus m1.next)).dnf m1.next = l1 := by simp [newDnf, newAtom, put]
        rw [e1] at hk
        rw [ext1_lt (p1.below k hk x hx)]
        exact o1 k hk x hx
      · rw [List.mem_singleton.1 hk] at ha
        rw [List.mem_singleton.1 ha]
        exact ext1_ge (Nat.le_succ _)
  | .concat e f, m, ctx, outer, hg, he, hs, l, m', h => by
    cases h1 : e.toDNF m with
    | error x => simp [TRE.toDNF, h1, bind, Except.bind] at h
    | ok r =>
      obtain ⟨l1, m1⟩ := r
      have p1 := toDNF_post e m hg l1 m1 h1
      cases h2 : f.toDNF m1 with
      | error x => simp [TRE.toDNF, h1, h2, bind, Except.bind] at h
      | ok r =>
        obtain ⟨l2, m2⟩ := r
        have p2 := toDNF_post f m1 p1.good l2 m2 h2
        cases h3 : m2.mapM (fun m p => m.mapM (fun m q => m.mkConcat q.1 q.2) (pairs p.1 p.2)) (pairs l1 l2) with
        | error x => simp [TRE.toDNF, h1, h2, h3, bind, Except.bind] at h
        | ok r =>
          obtain ⟨l3, m3⟩ := r
          simp only [TRE.toDNF, h1, h2, h3, bind, Except.bind, Except.ok.injEq, Prod.mk.injEq] at h
          obtain ⟨rfl, rfl⟩ := h
          obtain ⟨ctx1, a1, s1, o1⟩ := toDNF_ctx e m ctx [] hg he.1 hs l1 m1 h1
          obtain ⟨ctx2, a2, s2, o2⟩ := toDNF_ctx f m1 ctx1 [] p1.good he.2 s1 l2 m2 h2
          have h0 : CtxOk c oc cl m2 (ext1 ctx2 m2.next outer) :=
            ctx_ext p2.good s2 (Ext.rfl' m2) (fun x hx => ext1_lt hx) fun a h1 h2 => absurd h2 (not_lt.2 h1)
          have b1 : ∀ k ∈ l1, ∀ a ∈ k, a < m2.next ∧ m2.atom a ≠ .moved ∧ ext1 ctx2 m2.next outer a = [] := fun k hk a ha => by
            have lt := p1.below k hk a ha
            have lt2 := lt_of_lt_of_le lt p2.ext.next
            refine ⟨lt2, by rw [p2.ext.atom a lt]; exact p1.nomoved k hk a ha, ?_⟩
            rw [ext1_lt lt2, a2 a lt]
            exact o1 k hk a ha
          have b2 : ∀ k ∈ l2, ∀ a ∈ k, a < m2.next ∧ m2.atom a ≠ .moved ∧ ext1 ctx2 m2.next outer a = [] := fun k hk a ha => by
            have lt := p2.below k hk a ha
            refine ⟨lt, p2.nomoved k hk a ha, ?_⟩
            rw [ext1_lt lt]
            exact o2 k hk a ha
          let P : TMem K → Prop := fun m => Good m ∧ Ext m2 m ∧ CtxOk c oc cl m (ext1 ctx2 m2.next outer)
          have inner : ∀ p ∈ pairs l1 l2, ∀ m, P m → ∀ r m', m.mapM (fun m (q : Nat × Nat) => m.mkConcat q.1 q.2) (pairs p.1 p.2) = .ok (r, m') →
              P m' ∧ Ext m m' ∧ List.Forall₂ (fun _ b => m2.next ≤ b) (pairs p.1 p.2) r := by
            intro p hp m hP
            refine mapM_post (P := P) (Q := fun (_ : Nat × Nat) b _ => m2.next ≤ b) (fun _ _ _ _ h _ _ => h) (pairs p.1 p.2) m hP
              fun q hq m hP b m' hb => ?_
            obtain ⟨hp1, hp2⟩ := mem_pairs.1 hp
            obtain ⟨hq1, hq2⟩ := mem_pairs.1 hq
            obtain ⟨x1, x2, x3⟩ := b1 _ hp1 _ hq1
            obtain ⟨y1, y2, y3⟩ := b2 _ hp2 _ hq2
            have lx := lt_of_lt_of_le x1 hP.2.1.next
            have ly := lt_of_lt_of_le y1 hP.2.1.next
            obtain ⟨k1, k2, _⟩ := mkConcat_post hP.1 lx ly (by rw [hP.2.1.atom _ x1]; exact x2) (by rw [hP.2.1.atom _ y1]; exact y2) hb
            obtain ⟨k3, k4⟩ := ctx_mkConcat hP.1 hP.2.2 lx ly x3 y3 hP.2.1.next hb
            exact ⟨⟨k1, hP.2.1.trans k2, k3⟩, k2, k4⟩
          obtain ⟨k1, k2, k3⟩ := mapM_post (P := P) (Q := fun (p : List Nat × List Nat) r _ => List.Forall₂ (fun _ b => m2.next ≤ b) (pairs p.1 p.2) r)
            (fun _ _ _ _ h _ _ => h) (pairs l1 l2) m2 ⟨p2.good, Ext.rfl' m2, h0⟩ inner l3 m3 h3
          refine ⟨ext1 ctx2 m2.next outer, fun x hx => ?_, k1.2.2, fun k hk a ha => ?_⟩
          · have lt := lt_of_lt_of_le hx p1.ext.next
            rw [ext1_lt (lt_of_lt_of_le lt p2.ext.next), a2 x lt, a1 x hx]
          · obtain ⟨p, _, hp⟩ := forall₂_right k3 (List.mem_filter.1 hk).1
            obtain ⟨_, _, hle⟩ := forall₂_right hp ha
            exact ext1_ge hle
  | .disj e f, m, ctx, outer, hg, he, hs, l, m', h => by
    cases h1 : e.toDNF m with
    | error x => simp [TRE.toDNF, h1, bind, Except.bind] at h
    | ok r =>
      obtain ⟨l1, m1⟩ := r
      have p1 := toDNF_post e m hg l1 m1 h1
      cases h2 : f.toDNF m1 with
      | error x => simp [TRE.toDNF, h1, h2, bind, Except.bind] at h
      | ok r =>
        obtain ⟨l2, m2⟩ := r
        have p2 := toDNF_post f m1 p1.good l2 m2 h2
        simp only [TRE.toDNF, h1, h2, bind, Except.bind, Except.ok.injEq, Prod.mk.injEq] at h
        obtain ⟨rfl, rfl⟩ := h
        obtain ⟨ctx1, a1, s1, o1⟩ := toDNF_ctx e m ctx outer hg he.1 hs l1 m1 h1
        obtain ⟨ctx2, a2, s2, o2⟩ := toDNF_ctx f m1 ctx1 outer p1.good he.2 s1 l2 m2 h2
        refine ⟨ctx2, fun x hx => ?_, s2, fun k hk a ha => ?_⟩
        · rw [a2 x (lt_of_lt_of_le hx p1.ext.next), a1 x hx]
        · rcases List.mem_append.1 hk with hk | hk
          · rw [a2 a (p1.below k hk a ha)]; exact o1 k hk a ha
          · exact o2 k hk a ha
  | .conj e f, m, ctx, outer, hg, he, hs, l, m', h => by
    cases h1 : e.toDNF m with
    | error x => simp [TRE.toDNF, h1, bind, Except.bind] at h
    | ok r =>
      obtain ⟨l1, m1⟩ := r
      have p1 := toDNF_post e m hg l1 m1 h1
      cases h2 : f.toDNF m1 with
      | error x => simp [TRE.toDNF, h1, h2, bind, Except.bind] at h
      | ok r =>
        obtain ⟨l2, m2⟩ := r
        have p2 := toDNF_post f m1 p1.good l2 m2 h2
        simp only [TRE.toDNF, h1, h2, bind, Except.bind, Except.ok.injEq, Prod.mk.injEq] at h
        obtain ⟨rfl, rfl⟩ := h
        obtain ⟨ctx1, a1, s1, o1⟩ := toDNF_ctx e m ctx outer hg he.1 hs l1 m1 h1
        obtain ⟨ctx2, a2, s2, o2⟩ := toDNF_ctx f m1 ctx1 outer p1.good he.2 s1 l2 m2 h2
        refine ⟨ctx2, fun x hx => ?_, s2, fun k hk a ha => ?_⟩
        · rw [a2 x (lt_of_lt_of_le hx p1.ext.next), a1 x hx]
        · obtain ⟨p, hp, rfl⟩ := List.mem_map.1 (List.mem_filter.1 hk).1
          obtain ⟨hp1, hp2⟩ := mem_pairs.1 hp
          rcases List.mem_append.1 ha with ha | ha
          · rw [a2 a (p1.below _ hp1 a ha)]; exact o1 _ hp1 a ha
          · exact o2 _ hp2 a ha
  | .within e I, m, ctx, outer, hg, he, hs, l, m', h => by
    cases h1 : e.toDNF m with
    | error x => simp [TRE.toDNF, h1, bind, Except.bind] at h
    | ok r =>
      obtain ⟨l1, m1⟩ := r
      have p1 := toDNF_post e m hg l1 m1 h1
      simp only [TRE.toDNF, h1, bind, Except.bind] at h
      obtain ⟨ctx1, a1, s1, o1⟩ := toDNF_ctx e m ctx (I :: outer) hg he.1 hs l1 m1 h1
      have h0 : CtxOk c oc cl m1 (ext1 ctx1 m1.next outer) :=
        ctx_ext p1.good s1 (Ext.rfl' m1) (fun x hx => ext1_lt hx) fun a h1 h2 => absurd h2 (not_lt.2 h1)
      let P : TMem K → Prop := fun m => Good m ∧ Ext m1 m ∧ CtxOk c oc cl m (ext1 ctx1 m1.next outer)
      have inner : ∀ k ∈ l1, ∀ m, P m → ∀ r m', m.mapM (fun m a => m.mkWithin a I) k = .ok (r, m') →
          P m' ∧ Ext m m' ∧ List.Forall₂ (fun _ b => m1.next ≤ b) k r := by
        intro k hk m hP
        refine mapM_post (P := P) (Q := fun (_ : Nat) b _ => m1.next ≤ b) (fun _ _ _ _ h _ _ => h) k m hP fun a ha m hP b m' hb => ?_
        have x1 := p1.below k hk a ha
        have lx := lt_of_lt_of_le x1 hP.2.1.next
        obtain ⟨m'', j1, _, j2, j3, _⟩ := mkWithin_spec hP.1 lx (by rw [hP.2.1.atom _ x1]; exact p1.nomoved k hk a ha) I
        obtain ⟨k3, k4⟩ := ctx_mkWithin hP.1 hP.2.2 lx he.2 (by rw [ext1_lt x1]; exact o1 k hk a ha) hP.2.1.next (fun x hx => ext1_ge hx) hb
        rw [j1] at hb
        cases hb
        exact ⟨⟨j2, hP.2.1.trans j3, k3⟩, j3, k4⟩
      obtain ⟨k1, k2, k3⟩ := mapM_post (P := P) (Q := fun (k : List Nat) r _ => List.Forall₂ (fun _ b => m1.next ≤ b) k r)
        (fun _ _ _ _ h _ _ => h) l1 m1 ⟨p1.good, Ext.rfl' m1, h0⟩ inner l m' h
      refine ⟨ext1 ctx1 m1.next outer, fun x hx => ?_, k1.2.2, fun k hk a ha => ?_⟩
      · rw [ext1_lt (lt_of_lt_of_le hx p1.ext.next), a1 x hx]
      · obtain ⟨p, _, hp⟩ := forall₂_right k3 hk
        obtain ⟨_, _, hle⟩ := forall₂_right hp ha
        exact ext1_ge hle

end Verif.TMem
