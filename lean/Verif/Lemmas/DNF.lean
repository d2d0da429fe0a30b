import Verif.Spec.DNF
import Verif.Lemmas.Interval
import Mathlib.Tactic.Ring
import Mathlib.Tactic.Linarith

/-!
# The disjunctive normal form of expressions
-/

set_option linter.unusedSectionVars false

namespace Verif

variable {K : Type} [Field K] [LinearOrder K] [IsStrictOrderedRing K]

/-! ## Signals -/

namespace Sig

theorem app_nil (x : Sig K) : x.app nil = x := by
  apply Sig.ext
  · simp [app, nil]
  · funext t
    by_cases h : t < x.dur
    · simp [app, h]
    · simp only [app, h, if_false, nil]
      exact (x.out t fun h' => h h'.2).symm

theorem nil_app (x : Sig K) : (nil : Sig K).app x = x := by
  apply Sig.ext
  · simp [app, nil]
  · funext t
    by_cases h : t < 0
    · simp only [app, nil, h, if_true]
      exact (x.out t fun h' => absurd h (not_lt.2 h'.1)).symm
    · simp [app, nil, h]

theorem app_assoc (x y z : Sig K) : (x.app y).app z = x.app (y.app z) := by
  apply Sig.ext
  · simp [app, add_assoc]
  · funext t
    by_cases h : t < x.dur
    · have : t < x.dur + y.dur := lt_of_lt_of_le h (le_add_of_nonneg_right y.nonneg)
      simp [app, h, this]
    · by_cases h2 : t < x.dur + y.dur
      · have h3 : t - x.dur < y.dur := by linarith
        simp [app, h, h2, h3]
      · have h3 : ¬ t - x.dur < y.dur := by
          intro h3; apply h2; linarith
        simp [app, h, h2, h3, sub_sub]

theorem const_app (c : Alphabet) (d e : K) (hd : 0 ≤ d) (he : 0 ≤ e) :
    (const c d hd).app (const c e he) = const c (d + e) (add_nonneg hd he) := by
  apply Sig.ext
  · rfl
  · funext t
    by_cases h : t < d
    · have : t < d + e := by linarith
      simp [app, const, h, this]
    · have h0 : 0 ≤ t := by linarith
      by_cases h2 : t < d + e
      · have h3 : t - d < e := by linarith
        have h4 : 0 ≤ t - d := by linarith
        have h4' : d ≤ t := by linarith
        simp [app, const, h, h2, h3, h4', h0]
      · have h3 : ¬ t - d < e := by
          intro h3; apply h2; linarith
        simp [app, const, h, h2, h3]

theorem const_zero (c : Alphabet) (h : (0 : K) ≤ 0) : const c 0 h = nil := by
  apply Sig.ext
  · rfl
  · funext t
    have : ¬ (0 ≤ t ∧ t < 0) := fun h => absurd h.2 (not_lt.2 h.1)
    simp [const, nil, this]

theorem const_congr (c : Alphabet) {d e : K} (hd : 0 ≤ d) (he : 0 ≤ e) (h : d = e) : const c d hd = const c e he := by
  subst h; rfl

end Sig

/-! ## Memory -/

namespace TMem

/-- The objects of `m` are unchanged in `m'`. -/
structure Ext (m m' : TMem K) : Prop where
  next : m.next ≤ m'.next
  atom : ∀ a < m.next, m'.atom a = m.atom a
  sing : ∀ a < m.next, m'.sing a = m.sing a
  dnf : ∀ a < m.next, m'.dnf a = m.dnf a

theorem Ext.rfl' (m : TMem K) : Ext m m := ⟨le_refl _, fun _ _ => rfl, fun _ _ => rfl, fun _ _ => rfl⟩

theorem Ext.trans {m m' m'' : TMem K} (h : Ext m m') (h' : Ext m' m'') : Ext m m'' where
  next := le_trans h.next h'.next
  atom a ha := (h'.atom a (lt_of_lt_of_le ha h.next)).trans (h.atom a ha)
  sing a ha := (h'.sing a (lt_of_lt_of_le ha h.next)).trans (h.sing a ha)
  dnf a ha := (h'.dnf a (lt_of_lt_of_le ha h.next)).trans (h.dnf a ha)

/-- The addresses in a node are below `n`. -/
def NodeBelow (n : Nat) : ANode K → Prop
  | .singleton s => s < n
  | .epsilon => True
  | .concat l => l ≠ [] ∧ ∀ x ∈ l, x < n
  | .plus d => d < n
  | .within b _ => b < n
  | .moved => False

/-- The addresses in the list of a `DNFTRE` are below `n`. -/
def ListBelow (n : Nat) (l : List (List Nat)) : Prop := ∀ c ∈ l, ∀ a ∈ c, a < n

/-- Addresses which have been given out. -/
structure WF (m : TMem K) : Prop where
  atom : ∀ a < m.next, m.atom a = .moved ∨ NodeBelow m.next (m.atom a)
  dnf : ∀ d < m.next, ListBelow m.next (m.dnf d)

/-- The addresses in a part are below `n`. -/
def PartBelow (n : Nat) : Part → Prop
  | .atom a => a < n
  | .seq l => ∀ x ∈ l, x < n
  | .alt l => ListBelow n l
  | .rep l => ListBelow n l

theorem NodeBelow.mono {n n' : Nat} (h : n ≤ n') {v : ANode K} (hv : NodeBelow n v) : NodeBelow n' v := by
  cases v with
  | singleton s => exact lt_of_lt_of_le hv h
  | epsilon => trivial
  | concat l => exact ⟨hv.1, fun x hx => lt_of_lt_of_le (hv.2 x hx) h⟩
  | plus d => exact lt_of_lt_of_le hv h
  | within b I => exact lt_of_lt_of_le hv h
  | moved => exact hv

theorem ListBelow.mono {n n' : Nat} (h : n ≤ n') {l : List (List Nat)} (hl : ListBelow n l) : ListBelow n' l :=
  fun c hc a ha => lt_of_lt_of_le (hl c hc a ha) h

theorem den_ext {m m' : TMem K} (h : Ext m m') (hw : WF m) {p : Part} {x : Sig K} (hx : Den m p x) (hp : PartBelow m.next p) :
    Den m' p x := by
  induction hx with
  | @singleton a s I d h0 ha hI hd =>
    have hs : s < m.next := by
      have := hw.atom a hp; rw [ha] at this; simpa [NodeBelow] using this
    have := Den.singleton (m := m') (a := a) (s := s) (I := I) h0 (by rw [h.atom a hp, ha]) (by rw [h.sing s hs]; exact hI) hd
    rwa [h.sing s hs] at this
  | epsilon ha => exact .epsilon (by rw [h.atom _ hp, ha])
  | @concat a l x ha _ ih =>
    have : ∀ x ∈ l, x < m.next := by
      have := hw.atom a hp; rw [ha] at this; simp [NodeBelow] at this; exact this.2
    exact .concat (by rw [h.atom _ hp, ha]) (ih this)
  | @plus a d x ha _ ih =>
    have hd : d < m.next := by
      have := hw.atom a hp; rw [ha] at this; simpa [NodeBelow] using this
    refine .plus (by rw [h.atom _ hp, ha]) ?_
    rw [h.dnf d hd]
    exact ih (hw.dnf d hd)
  | @within a b I x ha _ hI ih =>
    have hb : b < m.next := by
      have := hw.atom a hp; rw [ha] at this; simpa [NodeBelow] using this
    exact .within (by rw [h.atom _ hp, ha]) (ih hb) hI
  | nil => exact .nil
  | cons _ _ ih1 ih2 =>
    exact .cons (ih1 (hp _ (List.mem_cons_self ..))) (ih2 fun x hx => hp x (List.mem_cons_of_mem _ hx))
  | alt hc _ ih => exact .alt hc fun a ha => ih a ha (hp _ hc a ha)
  | one _ ih => exact .one (ih hp)
  | more _ _ ih1 ih2 => exact .more (ih1 hp) (ih2 hp)

theorem den_ext' {m m' : TMem K} (h : Ext m m') (hw : WF m) {p : Part} {x : Sig K} (hx : Den m' p x) (hp : PartBelow m.next p) :
    Den m p x := by
  induction hx with
  | @singleton a s I d h0 ha hI hd =>
    rw [h.atom a hp] at ha
    have hs : s < m.next := by
      have := hw.atom a hp; rw [ha] at this; simpa [NodeBelow] using this
    rw [h.sing s hs] at hI ⊢
    exact Den.singleton h0 ha hI hd
  | epsilon ha => exact .epsilon (by rw [← h.atom _ hp, ha])
  | @concat a l x ha _ ih =>
    rw [h.atom a hp] at ha
    have : ∀ x ∈ l, x < m.next := by
      have := hw.atom a hp; rw [ha] at this; simp [NodeBelow] at this; exact this.2
    exact .concat ha (ih this)
  | @plus a d x ha _ ih =>
    rw [h.atom a hp] at ha
    have hd : d < m.next := by
      have := hw.atom a hp; rw [ha] at this; simpa [NodeBelow] using this
    rw [h.dnf d hd] at ih
    exact .plus ha (ih (hw.dnf d hd))
  | @within a b I x ha _ hI ih =>
    rw [h.atom a hp] at ha
    have hb : b < m.next := by
      have := hw.atom a hp; rw [ha] at this; simpa [NodeBelow] using this
    exact .within ha (ih hb) hI
  | nil => exact .nil
  | cons _ _ ih1 ih2 =>
    exact .cons (ih1 (hp _ (List.mem_cons_self ..))) (ih2 fun x hx => hp x (List.mem_cons_of_mem _ hx))
  | alt hc _ ih => exact .alt hc fun a ha => ih a ha (hp _ hc a ha)
  | one _ ih => exact .one (ih hp)
  | more _ _ ih1 ih2 => exact .more (ih1 hp) (ih2 hp)

theorem den_iff {m m' : TMem K} (h : Ext m m') (hw : WF m) {p : Part} {x : Sig K} (hp : PartBelow m.next p) :
    Den m' p x ↔ Den m p x := ⟨fun hx => den_ext' h hw hx hp, fun hx => den_ext h hw hx hp⟩

theorem ext_newSing (m : TMem K) (v) : Ext m (m.newSing v) where
  next := Nat.le_succ _
  atom _ _ := rfl
  sing a ha := by simp [newSing, put, Nat.ne_of_lt ha]
  dnf _ _ := rfl

theorem ext_newAtom (m : TMem K) (v) : Ext m (m.newAtom v) where
  next := Nat.le_succ _
  atom a ha := by simp [newAtom, put, Nat.ne_of_lt ha]
  sing _ _ := rfl
  dnf _ _ := rfl

theorem ext_newDnf (m : TMem K) (v) : Ext m (m.newDnf v) where
  next := Nat.le_succ _
  atom _ _ := rfl
  sing _ _ := rfl
  dnf a ha := by simp [newDnf, put, Nat.ne_of_lt ha]

theorem atom_newAtom (m : TMem K) (v) : (m.newAtom v).atom m.next = v := by simp [newAtom, put]
theorem sing_newSing (m : TMem K) (v) : (m.newSing v).sing m.next = v := by simp [newSing, put]
theorem dnf_newDnf (m : TMem K) (v) : (m.newDnf v).dnf m.next = v := by simp [newDnf, put]

theorem wf_empty : WF (TMem.empty : TMem K) := ⟨fun a ha => absurd ha (by simp [empty]), fun a ha => absurd ha (by simp [empty])⟩

/-- A fresh cell which is not written is as before: unused addresses of nodes are `moved`, of lists are empty. -/
structure Fresh (m : TMem K) : Prop where
  atom : ∀ a, m.next ≤ a → m.atom a = .moved
  dnf : ∀ a, m.next ≤ a → m.dnf a = []

theorem fresh_empty : Fresh (TMem.empty : TMem K) := ⟨fun _ _ => rfl, fun _ _ => rfl⟩

theorem fresh_newSing {m : TMem K} (h : Fresh m) (v) : Fresh (m.newSing v) :=
  ⟨fun a ha => h.atom a (le_trans (Nat.le_succ _) ha), fun a ha => h.dnf a (le_trans (Nat.le_succ _) ha)⟩

theorem fresh_newAtom {m : TMem K} (h : Fresh m) (v) : Fresh (m.newAtom v) :=
  ⟨fun a ha => by
    have : m.next < a := ha
    simp only [newAtom, put, if_neg (Nat.ne_of_gt this)]
    exact h.atom a (Nat.le_of_lt this), fun a ha => h.dnf a (le_trans (Nat.le_succ _) ha)⟩

theorem fresh_newDnf {m : TMem K} (h : Fresh m) (v) : Fresh (m.newDnf v) :=
  ⟨fun a ha => h.atom a (le_trans (Nat.le_succ _) ha), fun a ha => by
    have : m.next < a := ha
    simp only [newDnf, put, if_neg (Nat.ne_of_gt this)]
    exact h.dnf a (Nat.le_of_lt this)⟩

theorem wf_newSing {m : TMem K} (h : WF m) (hf : Fresh m) (v) : WF (m.newSing v) := by
  constructor
  · intro a ha
    rcases Nat.lt_succ_iff_lt_or_eq.1 ha with h1 | h1
    · exact (h.atom a h1).imp id (NodeBelow.mono (Nat.le_succ _))
    · exact .inl (hf.atom a (Nat.le_of_eq h1.symm))
  · intro d hd
    rcases Nat.lt_succ_iff_lt_or_eq.1 hd with h1 | h1
    · exact (h.dnf d h1).mono (Nat.le_succ _)
    · show ListBelow _ (m.dnf d)
      rw [hf.dnf d (Nat.le_of_eq h1.symm)]
      exact fun c hc => by simp at hc

theorem wf_newAtom {m : TMem K} (h : WF m) (hf : Fresh m) {v} (hv : NodeBelow m.next v) : WF (m.newAtom v) := by
  constructor
  · intro a ha
    rcases Nat.lt_succ_iff_lt_or_eq.1 ha with h1 | h1
    · rw [(ext_newAtom m v).atom a h1]
      exact (h.atom a h1).imp id (NodeBelow.mono (Nat.le_succ _))
    · rw [h1, atom_newAtom]
      exact .inr (hv.mono (Nat.le_succ _))
  · intro d hd
    rcases Nat.lt_succ_iff_lt_or_eq.1 hd with h1 | h1
    · exact (h.dnf d h1).mono (Nat.le_succ _)
    · show ListBelow _ (m.dnf d)
      rw [hf.dnf d (Nat.le_of_eq h1.symm)]
      exact fun c hc => by simp at hc

theorem wf_newDnf {m : TMem K} (h : WF m) (hf : Fresh m) {l} (hl : ListBelow m.next l) : WF (m.newDnf l) := by
  constructor
  · intro a ha
    rcases Nat.lt_succ_iff_lt_or_eq.1 ha with h1 | h1
    · exact (h.atom a h1).imp id (NodeBelow.mono (Nat.le_succ _))
    · exact .inl (hf.atom a (Nat.le_of_eq h1.symm))
  · intro d hd
    rcases Nat.lt_succ_iff_lt_or_eq.1 hd with h1 | h1
    · rw [(ext_newDnf m l).dnf d h1]
      exact (h.dnf d h1).mono (Nat.le_succ _)
    · rw [h1, dnf_newDnf]
      exact hl.mono (Nat.le_succ _)

/-! ## Meaning of nodes -/

section
variable {m : TMem K} {a : Nat} {x : Sig K}

theorem den_singleton {s} (ha : m.atom a = .singleton s) :
    Den m (.atom a) x ↔ ∃ d h, x = Sig.const (m.sing s).1 d h ∧ Interval.MemAny (m.sing s).2 d := by
  constructor
  · intro h
    cases h with
    | singleton h0 ha' hI hd =>
      rw [ha] at ha'; cases ha'
      exact ⟨_, h0, rfl, _, hI, hd⟩
    | epsilon h' => rw [ha] at h'; cases h'
    | concat h' => rw [ha] at h'; cases h'
    | plus h' => rw [ha] at h'; cases h'
    | within h' => rw [ha] at h'; cases h'
  · rintro ⟨d, h, rfl, I, hI, hd⟩
    exact .singleton h ha hI hd

theorem den_epsilon (ha : m.atom a = .epsilon) : Den m (.atom a) x ↔ x = Sig.nil := by
  constructor
  · intro h
    cases h with
    | singleton _ h' => rw [ha] at h'; cases h'
    | epsilon => rfl
    | concat h' => rw [ha] at h'; cases h'
    | plus h' => rw [ha] at h'; cases h'
    | within h' => rw [ha] at h'; cases h'
  · rintro rfl
    exact .epsilon ha

theorem den_concat {l} (ha : m.atom a = .concat l) : Den m (.atom a) x ↔ Den m (.seq l) x := by
  constructor
  · intro h
    cases h with
    | singleton _ h' => rw [ha] at h'; cases h'
    | epsilon h' => rw [ha] at h'; cases h'
    | concat h' h => rw [ha] at h'; cases h'; exact h
    | plus h' => rw [ha] at h'; cases h'
    | within h' => rw [ha] at h'; cases h'
  · exact .concat ha

theorem den_plus {d} (ha : m.atom a = .plus d) : Den m (.atom a) x ↔ Den m (.rep (m.dnf d)) x := by
  constructor
  · intro h
    cases h with
    | singleton _ h' => rw [ha] at h'; cases h'
    | epsilon h' => rw [ha] at h'; cases h'
    | concat h' => rw [ha] at h'; cases h'
    | plus h' h => rw [ha] at h'; cases h'; exact h
    | within h' => rw [ha] at h'; cases h'
  · exact .plus ha

theorem den_within {b I} (ha : m.atom a = .within b I) : Den m (.atom a) x ↔ Den m (.atom b) x ∧ I.Mem x.dur := by
  constructor
  · intro h
    cases h with
    | singleton _ h' => rw [ha] at h'; cases h'
    | epsilon h' => rw [ha] at h'; cases h'
    | concat h' => rw [ha] at h'; cases h'
    | plus h' => rw [ha] at h'; cases h'
    | within h' h hI => rw [ha] at h'; cases h'; exact ⟨h, hI⟩
  · exact fun h => .within ha h.1 h.2

theorem den_nil : Den m (.seq []) x ↔ x = Sig.nil := by
  constructor
  · intro h; cases h; rfl
  · rintro rfl; exact .nil

theorem den_cons {b l} : Den m (.seq (b :: l)) x ↔ ∃ y z, x = y.app z ∧ Den m (.atom b) y ∧ Den m (.seq l) z := by
  constructor
  · intro h; cases h with | cons h1 h2 => exact ⟨_, _, rfl, h1, h2⟩
  · rintro ⟨y, z, rfl, h1, h2⟩; exact .cons h1 h2

theorem den_append {l r} : Den m (.seq (l ++ r)) x ↔ ∃ y z, x = y.app z ∧ Den m (.seq l) y ∧ Den m (.seq r) z := by
  induction l generalizing x with
  | nil =>
    simp only [List.nil_append, den_nil]
    constructor
    · intro h; exact ⟨_, _, (Sig.nil_app x).symm, rfl, h⟩
    · rintro ⟨y, z, rfl, rfl, h⟩; rwa [Sig.nil_app]
  | cons b l ih =>
    simp only [List.cons_append, den_cons, ih]
    constructor
    · rintro ⟨y, z, rfl, h1, u, v, rfl, h2, h3⟩
      exact ⟨_, _, (Sig.app_assoc ..).symm, ⟨_, _, rfl, h1, h2⟩, h3⟩
    · rintro ⟨y, z, rfl, ⟨u, v, rfl, h1, h2⟩, h3⟩
      exact ⟨_, _, Sig.app_assoc .., h1, _, _, rfl, h2, h3⟩

theorem den_seq_one {b} : Den m (.seq [b]) x ↔ Den m (.atom b) x := by
  simp only [den_cons, den_nil]
  constructor
  · rintro ⟨y, z, rfl, h, rfl⟩; rwa [Sig.app_nil]
  · intro h; exact ⟨_, _, (Sig.app_nil x).symm, h, rfl⟩

theorem den_parts : Den m (.seq (m.parts a)) x ↔ Den m (.atom a) x := by
  unfold parts
  split
  · next l h => exact (den_concat h).symm
  · next h => rw [den_nil, den_epsilon h]
  · exact den_seq_one

theorem den_alt {l} : Den m (.alt l) x ↔ ∃ c ∈ l, ∀ b ∈ c, Den m (.atom b) x := by
  constructor
  · intro h; cases h with | alt hc h => exact ⟨_, hc, h⟩
  · rintro ⟨c, hc, h⟩; exact .alt hc h

theorem den_rep {l} : Den m (.rep l) x ↔ Iter Sig.app (Den m (.alt l)) x := by
  constructor
  · intro h
    generalize hp : Part.rep l = p at h
    induction h with
    | one h => cases hp; exact .one h
    | more h _ _ ih => cases hp; exact .more h (ih rfl)
    | _ => cases hp
  · intro h
    induction h with
    | one h => exact .one h
    | more h _ ih => exact .more h ih

end

theorem iter_congr {S : Type} {app : S → S → S} {P Q : S → Prop} (h : ∀ x, P x → Q x) {x : S} (hx : Iter app P x) : Iter app Q x := by
  induction hx with
  | one h' => exact .one (h _ h')
  | more h' _ ih => exact .more (h _ h') ih

/-! ## Loops -/

theorem mapM_spec {α β : Type} {f : TMem K → α → Except Err (β × TMem K)} {P : TMem K → Prop} {Q : α → β → TMem K → Prop}
    (hmono : ∀ x y m m', Q x y m → P m → Ext m m' → Q x y m') :
    ∀ (l : List α) (m : TMem K), P m →
    (∀ x ∈ l, ∀ m, P m → ∃ y m', f m x = .ok (y, m') ∧ P m' ∧ Ext m m' ∧ Q x y m') →
    ∃ ys m', mapM f m l = .ok (ys, m') ∧ P m' ∧ Ext m m' ∧ List.Forall₂ (fun x y => Q x y m') l ys
  | [], m, hP, _ => ⟨[], m, rfl, hP, Ext.rfl' m, .nil⟩
  | x :: l, m, hP, hs => by
    obtain ⟨y, m1, h1, hP1, e1, q1⟩ := hs x (List.mem_cons_self ..) m hP
    obtain ⟨ys, m2, h2, hP2, e2, q2⟩ := mapM_spec hmono l m1 hP1 fun x hx => hs x (List.mem_cons_of_mem _ hx)
    exact ⟨y :: ys, m2, by simp [mapM, h1, h2], hP2, e1.trans e2, .cons (hmono _ _ _ _ q1 hP1 e2) q2⟩

end TMem

theorem mem_pairs {α β : Type} {l : List α} {r : List β} {p : α × β} : p ∈ pairs l r ↔ p.1 ∈ l ∧ p.2 ∈ r := by
  simp only [pairs, List.mem_flatMap, List.mem_map]
  constructor
  · rintro ⟨x, hx, y, hy, rfl⟩; exact ⟨hx, hy⟩
  · rintro ⟨h1, h2⟩; exact ⟨p.1, h1, p.2, h2, rfl⟩

/-- Membership in the second list of related lists. -/
theorem forall₂_right {α β : Type} {R : α → β → Prop} {l : List α} {r : List β} (h : List.Forall₂ R l r) {y : β} (hy : y ∈ r) :
    ∃ x ∈ l, R x y := by
  induction h with
  | nil => simp at hy
  | cons h _ ih =>
    rcases List.mem_cons.1 hy with rfl | hy
    · exact ⟨_, List.mem_cons_self .., h⟩
    · obtain ⟨x, hx, h⟩ := ih hy; exact ⟨x, List.mem_cons_of_mem _ hx, h⟩

theorem forall₂_left {α β : Type} {R : α → β → Prop} {l : List α} {r : List β} (h : List.Forall₂ R l r) {x : α} (hx : x ∈ l) :
    ∃ y ∈ r, R x y := by
  induction h with
  | nil => simp at hx
  | cons h _ ih =>
    rcases List.mem_cons.1 hx with rfl | hx
    · exact ⟨_, List.mem_cons_self .., h⟩
    · obtain ⟨y, hy, h⟩ := ih hx; exact ⟨y, List.mem_cons_of_mem _ hy, h⟩

end Verif
