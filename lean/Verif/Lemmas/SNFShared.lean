import Verif.Lemmas.SNFShape

/-!
# `makeSNF` for trees which are stored with sharing

`m0` is the memory before `makeSNF`.
-/

set_option linter.unusedSectionVars false

namespace Verif.TMem

open Interval

variable {K : Type} [Field K] [LinearOrder K] [IsStrictOrderedRing K]

theorem const_app_inv {c : Alphabet} {t : K} {h : 0 ≤ t} {y z : Sig K} (e : Sig.const c t h = y.app z) :
    y = Sig.const c y.dur y.nonneg ∧ z = Sig.const c z.dur z.nonneg ∧ t = y.dur + z.dur := by
  have e1 : t = y.dur + z.dur := congrArg Sig.dur e
  have e2 : ∀ u, (if 0 ≤ u ∧ u < t then c else 0) = if u < y.dur then y.val u else z.val (u - y.dur) := fun u => congrFun (congrArg Sig.val e) u
  have hy := y.nonneg
  have hz := z.nonneg
  refine ⟨?_, ?_, e1⟩
  · refine Sig.ext rfl (funext fun u => ?_)
    simp only [Sig.const]
    by_cases hu : 0 ≤ u ∧ u < y.dur
    · have := e2 u
      rw [if_pos hu.2, if_pos ⟨hu.1, by linarith [hu.2]⟩] at this
      rw [if_pos hu, this]
    · rw [if_neg hu, y.out u hu]
  · refine Sig.ext rfl (funext fun u => ?_)
    simp only [Sig.const]
    by_cases hu : 0 ≤ u ∧ u < z.dur
    · have := e2 (u + y.dur)
      rw [if_pos ⟨by linarith [hu.1], by linarith [hu.2]⟩, if_neg (by linarith [hu.1]), add_sub_cancel_right] at this
      rw [if_pos hu, this]
    · rw [if_neg hu, z.out u hu]

theorem memAny_land {S T : List (Interval K)} {v : K} : MemAny (land S T) v ↔ ∃ J ∈ T, MemAny (land1 S J) v := by
  simp only [MemAny, land, List.mem_flatMap]
  constructor
  · rintro ⟨L, ⟨J, hJ, hL⟩, hv⟩; exact ⟨J, hJ, L, hL, hv⟩
  · rintro ⟨J, hJ, L, hL, hv⟩; exact ⟨L, ⟨J, hJ, hL⟩, hv⟩

theorem iok_land {cl : Bool} {S T : List (Interval K)} (hS : ∀ I ∈ S, IOk cl I) (hT : ∀ I ∈ T, IOk cl I) : ∀ I ∈ land S T, IOk cl I := by
  intro L hL
  simp only [land, List.mem_flatMap] at hL
  obtain ⟨J, hJ, hL⟩ := hL
  exact iok_land1 (fun I hI => (hS I hI).low) (hT J hJ).low L hL

/-- From restriction to restricted atom. -/
inductive Chain (m0 : TMem K) : Nat → Nat → Prop
  | refl (a : Nat) : Chain m0 a a
  | step {a b r : Nat} {I : Interval K} (h : m0.atom a = .within b I) (hr : Chain m0 b r) : Chain m0 a r

section
variable (c : Alphabet) (oc : Prop) (cl : Bool) (m0 : TMem K) (ctx : Nat → List (Interval K))

/-- The durations which are needed of an atom. -/
def Need (a : Nat) (t : K) : Prop := ∃ h, Den m0 (.atom a) (Sig.const c t h) ∧ ∀ I ∈ ctx a, I.Mem t

/-- The singleton `v` may stand for the atom `a`. -/
structure SOk (a : Nat) (v : Alphabet × List (Interval K)) : Prop where
  letter : v.1 = c
  iok : ∀ I ∈ v.2, IOk cl I
  need : oc → ∀ t, Need c m0 ctx a t → MemAny v.2 t
  sound : cl = true → ∀ t h, MemAny v.2 t → Den m0 (.atom a) (Sig.const c t h)

/-- The memory while `makeSNF` runs: the atom from which a new singleton was made is given by `own`. -/
structure SInv (m : TMem K) (own : Nat → Nat) : Prop where
  next : m0.next ≤ m.next
  sing : ∀ s < m0.next, m.sing s = m0.sing s
  cell : ∀ a < m0.next, (m.atom a = m0.atom a ∧ ∀ d, m0.atom a = .plus d → m.dnf d = m0.dnf d) ∨
    ((∀ s, m0.atom a ≠ .singleton s) ∧ ∃ s, m.atom a = .singleton s ∧ m0.next ≤ s ∧ s < m.next ∧ Chain m0 a (own s) ∧ SOk c oc cl m0 ctx a (m.sing s))

/-- The atom is a singleton of `c`. -/
def IsC (m : TMem K) (a : Nat) : Prop := ∃ s, m.atom a = .singleton s ∧ (m.sing s).1 = c

def SMono (m m' : TMem K) : Prop := ∀ a < m0.next, IsC c m a → IsC c m' a

end

variable {c : Alphabet} {oc : Prop} {cl : Bool} {m0 : TMem K} {ctx : Nat → List (Interval K)}

theorem SMono.trans {m m' m'' : TMem K} (h : SMono c m0 m m') (h' : SMono c m0 m' m'') : SMono c m0 m m'' := fun a ha k => h' a ha (h a ha k)

variable (hg : Good m0) (hs : CtxOk c oc cl m0 ctx)
include hg hs

theorem chain_need {a r : Nat} (h : Chain m0 a r) : a < m0.next → (∀ I ∈ ctx a, I ∈ ctx r) ∧ ∀ t, Need c m0 ctx a t → Need c m0 ctx r t := by
  induction h with
  | refl a => exact fun _ => ⟨fun _ h => h, fun _ h => h⟩
  | @step a b r I h hr ih =>
    intro ha
    have w := hg.wf.atom a ha
    have k := hs a ha
    rw [h] at w k
    have hb : b < m0.next := by simpa [NodeBelow] using w
    obtain ⟨i1, i2⟩ := ih hb
    have e : ctx b = I :: ctx a := k.1
    refine ⟨fun J hJ => i1 J (by rw [e]; exact List.mem_cons_of_mem _ hJ), fun t ht => i2 t ?_⟩
    obtain ⟨h0, h1, h2⟩ := ht
    obtain ⟨h3, h4⟩ := (den_within h).1 h1
    refine ⟨h0, h3, fun J hJ => ?_⟩
    rw [e] at hJ
    rcases List.mem_cons.1 hJ with rfl | hJ
    · exact h4
    · exact h2 J hJ

theorem SInv.sok {m : TMem K} {own : Nat → Nat} (h : SInv c oc cl m0 ctx m own) {a : Nat} (ha : a < m0.next) {s : Nat}
    (e : m.atom a = .singleton s) (hc : (m.sing s).1 = c) : SOk c oc cl m0 ctx a (m.sing s) := by
  rcases h.cell a ha with ⟨h1, _⟩ | ⟨_, s', h1, _, _, _, h2⟩
  · rw [e] at h1
    have w := hg.wf.atom a ha
    have k := hs a ha
    rw [← h1] at w k
    have hb : s < m0.next := by simpa [NodeBelow] using w
    have es := h.sing s hb
    rw [es] at hc ⊢
    refine ⟨hc, k.2, fun _ t ht => ?_, fun _ t h0 ht => ?_⟩
    · obtain ⟨h0, h2, _⟩ := ht
      obtain ⟨d, hd, e1, e2⟩ := (den_singleton h1.symm).1 h2
      have : t = d := congrArg Sig.dur e1
      rwa [this]
    · refine (den_singleton h1.symm).2 ⟨t, h0, by rw [hc], ht⟩
  · rw [e] at h1
    cases h1
    exact h2

/-- What a test does. -/
def ShDoes (c : Alphabet) (oc : Prop) (cl : Bool) (m0 : TMem K) (ctx : Nat → List (Interval K)) (f : TMem K → Nat → Except Err (Bool × TMem K)) : Prop :=
  ∀ m own a, SInv c oc cl m0 ctx m own → a < m0.next → ∀ b m', f m a = .ok (b, m') →
    ∃ own', SInv c oc cl m0 ctx m' own' ∧ SMono c m0 m m' ∧ (b = true → IsC c m' a) ∧ (oc → b = true)

theorem allM_sh {f : TMem K → Nat → Except Err (Bool × TMem K)} (hf : ShDoes c oc cl m0 ctx f) : ∀ (l : List Nat) (m : TMem K) (own : Nat → Nat),
    SInv c oc cl m0 ctx m own → (∀ a ∈ l, a < m0.next) → ∀ b m', allM f m l = .ok (b, m') →
    ∃ own', SInv c oc cl m0 ctx m' own' ∧ SMono c m0 m m' ∧ (b = true → ∀ a ∈ l, IsC c m' a) ∧ (oc → b = true)
  | [], m, own, hi, _, b, m', h => by
    cases h
    exact ⟨own, hi, fun _ _ h => h, fun _ a ha => (by cases ha), fun _ => rfl⟩
  | x :: l, m, own, hi, hl, b, m', h => by
    simp only [allM] at h
    cases hx : f m x with
    | error e => rw [hx] at h; cases h
    | ok r =>
      obtain ⟨b1, m1⟩ := r
      rw [hx] at h
      have xl := hl x (List.mem_cons_self ..)
      obtain ⟨own1, i1, n1, t1, o1⟩ := hf m own x hi xl b1 m1 hx
      cases b1 with
      | false =>
        cases h
        exact ⟨own1, i1, n1, fun e => (by cases e), o1⟩
      | true =>
        obtain ⟨own2, i2, n2, t2, o2⟩ := allM_sh hf l m1 own1 i1 (fun a ha => hl a (List.mem_cons_of_mem _ ha)) b m' h
        refine ⟨own2, i2, n1.trans n2, fun e a ha => ?_, o2⟩
        rcases List.mem_cons.1 ha with rfl | ha
        · exact n2 a xl (t1 rfl)
        · exact t2 e a ha

theorem filterM_sh {f : TMem K → Nat → Except Err (Bool × TMem K)} (hf : ShDoes c oc cl m0 ctx f) : ∀ (l : List (List Nat)) (m : TMem K) (own : Nat → Nat),
    SInv c oc cl m0 ctx m own → (∀ k ∈ l, ∀ a ∈ k, a < m0.next) → ∀ r m', filterM (allM f) m l = .ok (r, m') →
    ∃ own', SInv c oc cl m0 ctx m' own' ∧ SMono c m0 m m' ∧ (∀ k ∈ r, k ∈ l ∧ ∀ a ∈ k, IsC c m' a) ∧ (oc → r = l)
  | [], m, own, hi, _, r, m', h => by
    cases h
    exact ⟨own, hi, fun _ _ h => h, fun k hk => (by cases hk), fun _ => rfl⟩
  | x :: l, m, own, hi, hl, r, m', h => by
    simp only [filterM] at h
    cases hx : allM f m x with
    | error e => rw [hx] at h; cases h
    | ok p =>
      obtain ⟨b1, m1⟩ := p
      rw [hx] at h
      have xl := hl x (List.mem_cons_self ..)
      obtain ⟨own1, i1, n1, t1, o1⟩ := allM_sh hg hs hf x m own hi xl b1 m1 hx
      simp only at h
      cases hr : filterM (allM f) m1 l with
      | error e => rw [hr] at h; cases h
      | ok p =>
        obtain ⟨r1, m2⟩ := p
        rw [hr] at h
        simp only [Except.ok.injEq, Prod.mk.injEq] at h
        obtain ⟨rfl, rfl⟩ := h
        obtain ⟨own2, i2, n2, t2, o2⟩ := filterM_sh hf l m1 own1 i1 (fun k hk => hl k (List.mem_cons_of_mem _ hk)) r1 m2 hr
        have t2' : ∀ k ∈ r1, k ∈ x :: l ∧ ∀ a ∈ k, IsC c m2 a := fun k hk => ⟨List.mem_cons_of_mem _ (t2 k hk).1, (t2 k hk).2⟩
        refine ⟨own2, i2, n1.trans n2, ?_, fun ho => ?_⟩
        · cases b1 with
          | false => exact t2'
          | true =>
            intro k hk
            rcases List.mem_cons.1 hk with rfl | hk
            · exact ⟨List.mem_cons_self .., fun a ha => n2 a (xl a ha) (t1 rfl a ha)⟩
            · exact t2' k hk
        · rw [o1 ho, o2 ho]; rfl

theorem conj_sh {m : TMem K} {own : Nat → Nat} (hi : SInv c oc cl m0 ctx m own) : ∀ (l : List Nat) (acc I : List (Interval K)),
    (∀ a ∈ l, a < m0.next ∧ IsC c m a) → (∀ J ∈ acc, IOk cl J) → m.conjIntervals acc l = .ok I →
    (∀ J ∈ I, IOk cl J) ∧ (oc → ∀ t, MemAny acc t → (∀ a ∈ l, Need c m0 ctx a t) → MemAny I t) ∧
      (cl = true → ∀ t h, MemAny I t → MemAny acc t ∧ ∀ a ∈ l, Den m0 (.atom a) (Sig.const c t h))
  | [], acc, I, _, ha, h => by
    cases h
    exact ⟨ha, fun _ t ht _ => ht, fun _ t _ ht => ⟨ht, fun a ha => by cases ha⟩⟩
  | a :: l, acc, I, hl, ha, h => by
    obtain ⟨al, s, e1, e2⟩ := hl a (List.mem_cons_self ..)
    have so := hi.sok hg hs al e1 e2
    simp only [conjIntervals, intervalsOf, e1] at h
    obtain ⟨k1, k2, k3⟩ := conj_sh hi l _ I (fun x hx => hl x (List.mem_cons_of_mem _ hx)) (iok_land ha so.iok) h
    refine ⟨k1, fun ho t ht hn => k2 ho t ?_ fun x hx => hn x (List.mem_cons_of_mem _ hx), fun hcl t h0 ht => ?_⟩
    · obtain ⟨J, hJ, hv⟩ := so.need ho t (hn a (List.mem_cons_self ..))
      exact memAny_land.2 ⟨J, hJ, memAny_land1_of ht hv⟩
    · obtain ⟨g1, g2⟩ := k3 hcl t h0 ht
      obtain ⟨J, hJ, hv⟩ := memAny_land.1 g1
      subst hcl
      obtain ⟨g3, g4⟩ := of_memAny_land1 (fun I hI => (ha I hI).low) (so.iok J hJ).low hv
      refine ⟨g3, fun x hx => ?_⟩
      rcases List.mem_cons.1 hx with rfl | hx
      · exact so.sound rfl t h0 ⟨J, hJ, g4⟩
      · exact g2 x hx

theorem union_sh {m : TMem K} {own : Nat → Nat} (hi : SInv c oc cl m0 ctx m own) : ∀ (l : List (List Nat)) (I : List (Interval K)),
    (∀ k ∈ l, ∀ a ∈ k, a < m0.next ∧ IsC c m a) → m.unionIntervals l = .ok I →
    (∀ J ∈ I, IOk cl J) ∧ (oc → ∀ t, 0 ≤ t → (∃ k ∈ l, ∀ a ∈ k, Need c m0 ctx a t) → MemAny I t) ∧
      (cl = true → ∀ t h, MemAny I t → ∃ k ∈ l, ∀ a ∈ k, Den m0 (.atom a) (Sig.const c t h))
  | [], I, _, h => by
    cases h
    exact ⟨fun J hJ => (by cases hJ), fun _ t _ ⟨k, hk, _⟩ => (by cases hk), fun _ t _ ⟨J, hJ, _⟩ => (by cases hJ)⟩
  | k :: l, I, hl, h => by
    simp only [unionIntervals] at h
    cases h1 : m.conjIntervals [Interval.default] k with
    | error e => rw [h1] at h; cases h
    | ok I1 =>
      rw [h1] at h
      simp only at h
      cases h2 : m.unionIntervals l with
      | error e => rw [h2] at h; cases h
      | ok I2 =>
        rw [h2] at h
        cases h
        obtain ⟨k1, k2, k3⟩ := conj_sh hg hs hi k _ I1 (hl k (List.mem_cons_self ..)) (fun J hJ => by rw [List.mem_singleton.1 hJ]; exact iok_default) h1
        obtain ⟨j1, j2, j3⟩ := union_sh hi l I2 (fun x hx => hl x (List.mem_cons_of_mem _ hx)) h2
        refine ⟨fun J hJ => ?_, fun ho t h0 ht => ?_, fun hcl t h0 ht => ?_⟩
        · rcases List.mem_append.1 hJ with hJ | hJ
          · exact k1 J hJ
          · exact j1 J hJ
        · obtain ⟨x, hx, hn⟩ := ht
          rcases List.mem_cons.1 hx with rfl | hx
          · obtain ⟨J, hJ, hv⟩ := k2 ho t ⟨_, List.mem_singleton.2 rfl, mem_default h0⟩ hn
            exact ⟨J, List.mem_append_left _ hJ, hv⟩
          · obtain ⟨J, hJ, hv⟩ := j2 ho t h0 ⟨x, hx, hn⟩
            exact ⟨J, List.mem_append_right _ hJ, hv⟩
        · obtain ⟨J, hJ, hv⟩ := ht
          rcases List.mem_append.1 hJ with hJ | hJ
          · exact ⟨k, List.mem_cons_self .., (k3 hcl t h0 ⟨J, hJ, hv⟩).2⟩
          · obtain ⟨x, hx, hd⟩ := j3 hcl t h0 ⟨J, hJ, hv⟩
            exact ⟨x, List.mem_cons_of_mem _ hx, hd⟩

theorem sum_sh {m : TMem K} {own : Nat → Nat} (hi : SInv c oc cl m0 ctx m own) : ∀ (l : List Nat) (acc I : List (Interval K)),
    (∀ a ∈ l, a < m0.next ∧ IsC c m a ∧ ctx a = []) → (∀ J ∈ acc, IOk cl J) → m.sumIntervals acc l = .ok I →
    (∀ J ∈ I, IOk cl J) ∧ (oc → ∀ t u h, MemAny acc t → Den m0 (.seq l) (Sig.const c u h) → MemAny I (t + u)) ∧
      (cl = true → ∀ v, MemAny I v → ∃ t u h, v = t + u ∧ MemAny acc t ∧ Den m0 (.seq l) (Sig.const c u h))
  | [], acc, I, _, ha, h => by
    cases h
    refine ⟨ha, fun _ t u h0 ht hd => ?_, fun _ t ht => ⟨t, 0, le_refl 0, (add_zero t).symm, ht, ?_⟩⟩
    · have : u = 0 := congrArg Sig.dur (den_nil.1 hd)
      rwa [this, add_zero]
    · rw [Sig.const_zero]
      exact .nil
  | a :: l, acc, I, hl, ha, h => by
    obtain ⟨al, ⟨s, e1, e2⟩, ca⟩ := hl a (List.mem_cons_self ..)
    have so := hi.sok hg hs al e1 e2
    simp only [sumIntervals, intervalsOf, e1] at h
    obtain ⟨k1, k2, k3⟩ := sum_sh hi l _ I (fun x hx => hl x (List.mem_cons_of_mem _ hx)) (iok_addAll ha so.iok) h
    refine ⟨k1, fun ho t u h0 ht hd => ?_, fun hcl v hv => ?_⟩
    · obtain ⟨y, z, e, hy, hz⟩ := den_cons.1 hd
      obtain ⟨ey, ez, et⟩ := const_app_inv e
      rw [ey] at hy
      rw [ez] at hz
      have := so.need ho y.dur ⟨y.nonneg, hy, fun J hJ => by rw [ca] at hJ; cases hJ⟩
      have := k2 ho (t + y.dur) z.dur z.nonneg (memAny_add_of ht this) hz
      rwa [et, ← add_assoc]
    · obtain ⟨t, u, h0, rfl, ht, hd⟩ := k3 hcl v hv
      subst hcl
      obtain ⟨t1, t2, g1, g2, rfl⟩ := exists_of_memAny_add (fun I hI => (ha I hI).nonempty) (fun I hI => (so.iok I hI).nonempty) ht
      have n2 : 0 ≤ t2 := by
        obtain ⟨J, hJ, hJt⟩ := g2
        exact (so.iok J hJ).low.nonneg hJt
      refine ⟨t1, t2 + u, add_nonneg n2 h0, add_assoc _ _ _, g1, ?_⟩
      rw [← Sig.const_app c t2 u n2 h0]
      exact .cons (so.sound rfl t2 n2 g2) hd

variable [FloorRing K]

theorem snfDnf_sh {fuel : Nat} (hf : ShDoes c oc cl m0 ctx (snfAtom (K := K) c fuel)) {m : TMem K} {own : Nat → Nat}
    (hi : SInv c oc cl m0 ctx m own) {d : Nat} (hd : d < m0.next) (e : m.dnf d = m0.dnf d) {m' : TMem K} (h : snfDnf c (fuel + 1) m d = .ok m') :
    ∃ m1 own1 S, SInv c oc cl m0 ctx m1 own1 ∧ SMono c m0 m m1 ∧ m' = (m1.newSingleton (c, S)).2.setDnf d [[m1.next + 1]] ∧ (∀ J ∈ S, IOk cl J) ∧
      (oc → ∀ t, 0 ≤ t → (∃ k ∈ m0.dnf d, ∀ a ∈ k, Need c m0 ctx a t) → MemAny S t) ∧
      (cl = true → ∀ t h, MemAny S t → Den m0 (.alt (m0.dnf d)) (Sig.const c t h)) := by
  rw [snfDnf, e] at h
  have bl := hg.wf.dnf d hd
  split at h
  · cases h
  · next l m1 hfm =>
    obtain ⟨own1, i1, n1, t1, o1⟩ := filterM_sh hg hs hf _ m own hi bl l m1 hfm
    unfold finishSNF at h
    split at h
    · cases h
    · next S hS =>
      cases h
      obtain ⟨k1, k2, k3⟩ := union_sh hg hs i1 l S (fun k hk a ha => ⟨bl k (t1 k hk).1 a ha, (t1 k hk).2 a ha⟩) hS
      refine ⟨m1, own1, S, i1, n1, rfl, k1, fun ho t h0 ht => k2 ho t h0 (by rwa [o1 ho]), fun hcl t h0 ht => ?_⟩
      obtain ⟨k, hk, hx⟩ := k3 hcl t h0 ht
      exact .alt (t1 k hk).1 hx

theorem snfAtom_sh : ∀ fuel, ShDoes c oc cl m0 ctx (snfAtom (K := K) c fuel)
  | 0 => fun m own a _ _ b m' h => by cases h
  | fuel + 1 => fun m own a hi ha b m' h => by
    have ih := snfAtom_sh fuel
    rw [snfAtom] at h
    have cell := hi.cell a ha
    have hcell := hs a ha
    have w := hg.wf.atom a ha
    cases hn : m.atom a with
    | moved => rw [hn] at h; cases h
    | singleton s =>
      rw [hn] at h
      cases h
      refine ⟨own, hi, fun _ _ h => h, fun hb => ⟨s, hn, by simpa using (Eq.symm (by simpa using hb : c = (m.sing s).1))⟩, fun ho => ?_⟩
      rcases cell with ⟨h1, _⟩ | ⟨_, s', h1, _, _, _, h2⟩
      · rw [hn] at h1
        rw [← h1] at hcell w
        have hb : s < m0.next := by simpa [NodeBelow] using w
        have := hcell.1 ho
        rw [← hi.sing s hb] at this
        simp [this]
      · rw [hn] at h1
        cases h1
        simp [h2.letter]
    | epsilon =>
      rw [hn] at h
      cases h
      refine ⟨own, hi, fun _ _ h => h, fun hb => (by cases hb), fun ho => ?_⟩
      rcases cell with ⟨h1, _⟩ | ⟨_, s', h1, _⟩
      · rw [hn] at h1
        rw [← h1] at hcell
        exact absurd ho hcell
      · rw [hn] at h1; cases h1
    | concat l =>
      rw [hn] at h
      simp only at h
      have e0 : m0.atom a = .concat l := by
        rcases cell with ⟨h1, _⟩ | ⟨_, s', h1, _⟩
        · rw [← h1, hn]
        · rw [hn] at h1; cases h1
      rw [e0] at hcell w
      have bl : ∀ x ∈ l, x < m0.next := (w.resolve_left (by simp)).2
      cases hl : allM (snfAtom c fuel) m l with
      | error x => rw [hl] at h; cases h
      | ok r =>
        obtain ⟨b1, m1⟩ := r
        rw [hl] at h
        obtain ⟨own1, i1, n1, t1, o1⟩ := allM_sh hg hs ih l m own hi bl b1 m1 hl
        cases b1 with
        | false =>
          cases h
          exact ⟨own1, i1, n1, fun e => (by cases e), o1⟩
        | true =>
          simp only at h
          split at h
          · cases h
          · next S hS =>
            cases h
            have hz : ∀ I ∈ [(⟨.fin 0 true, .fin 0 true⟩ : Interval K)], IOk cl I := fun I hI => by
              rw [List.mem_singleton.1 hI]
              exact ⟨0, true, rfl, le_refl _, fun u t h' => by cases h'; exact ⟨le_refl _, fun _ _ => rfl⟩, fun _ => rfl⟩
            have z0 : MemAny [(⟨.fin 0 true, .fin 0 true⟩ : Interval K)] 0 := ⟨_, List.mem_singleton.2 rfl, le_refl (0 : K), le_refl (0 : K)⟩
            obtain ⟨k1, k2, k3⟩ := sum_sh hg hs i1 l _ S (fun x hx => ⟨bl x hx, t1 rfl x hx, hcell x hx⟩) hz hS
            have so : SOk c oc cl m0 ctx a (c, S) := by
              refine ⟨rfl, k1, fun ho t ht => ?_, fun hcl t h0 ht => ?_⟩
              · obtain ⟨h0, hd, _⟩ := ht
                have := k2 ho 0 t h0 z0 ((den_concat e0).1 hd)
                rwa [zero_add] at this
              · obtain ⟨t1, u, hu, rfl, ⟨I, hI, h1, h2⟩, hd⟩ := k3 hcl t ht
                rw [List.mem_singleton.1 hI] at h1 h2
                have : t1 = 0 := le_antisymm h2 h1
                subst this
                refine (den_concat e0).2 ?_
                simpa only [zero_add] using hd
            refine ⟨put own1 m1.next a, ⟨?_, fun s hs' => ?_, fun x hx => ?_⟩, n1.trans fun x hx hc => ?_, fun _ => ?_, fun _ => rfl⟩
            · have := i1.next
              simp only [setAtom, newSing]
              omega
            · have := i1.next
              simp only [setAtom, newSing, put]
              rw [if_neg (by omega)]
              exact i1.sing s hs'
            · by_cases hxa : x = a
              · subst hxa
                refine .inr ⟨fun s => by rw [e0]; simp, m1.next, by simp [setAtom, newSing, put], i1.next, Nat.lt_succ_self _, ?_, ?_⟩
                · rw [put, if_pos rfl]; exact .refl x
                · simpa [setAtom, newSing, put] using so
              · rcases i1.cell x hx with ⟨h1, h2⟩ | ⟨h1, s, h2, h3, h4, h5, h6⟩
                · exact .inl ⟨by simpa [setAtom, newSing, put, hxa] using h1, h2⟩
                · have ne : s ≠ m1.next := Nat.ne_of_lt h4
                  exact .inr ⟨h1, s, by simpa [setAtom, newSing, put, hxa] using h2, h3, Nat.lt_succ_of_lt h4, by rw [put, if_neg ne]; exact h5,
                    by simpa [setAtom, newSing, put, ne] using h6⟩
            · by_cases hxa : x = a
              · subst hxa
                exact ⟨m1.next, by simp [setAtom, newSing, put], by simp [setAtom, newSing, put]⟩
              · obtain ⟨s, h1, h2⟩ := hc
                refine ⟨s, by simpa [setAtom, newSing, put, hxa] using h1, ?_⟩
                simp only [setAtom, newSing, put]
                split
                · rfl
                · exact h2
            · exact ⟨m1.next, by simp [setAtom, newSing, put], by simp [setAtom, newSing, put]⟩
    | plus d =>
      rw [hn] at h
      simp only at h
      have e0 : m0.atom a = .plus d ∧ m.dnf d = m0.dnf d := by
        rcases cell with ⟨h1, h2⟩ | ⟨_, s', h1, _⟩
        · rw [hn] at h1
          exact ⟨h1.symm, h2 d h1.symm⟩
        · rw [hn] at h1; cases h1
      obtain ⟨e0, e1⟩ := e0
      rw [e0] at hcell w
      have dl : d < m0.next := by simpa [NodeBelow] using w
      cases hsn : snfDnf c fuel m d with
      | error x => rw [hsn] at h; cases h
      | ok m2 =>
        rw [hsn] at h
        cases fuel with
        | zero => cases hsn
        | succ fuel =>
        obtain ⟨m1, own1, S, i1, n1, rfl, k1, k2, k3⟩ := snfDnf_sh hg hs (snfAtom_sh fuel) hi dl e1 hsn
        have f1 : ((m1.newSingleton (c, S)).2.setDnf d [[m1.next + 1]]).dnf d = [[m1.next + 1]] := by simp [setDnf, put]
        have f2 : ((m1.newSingleton (c, S)).2.setDnf d [[m1.next + 1]]).atom (m1.next + 1) = .singleton m1.next := by
          simp [newSingleton, newSing, newAtom, setDnf, put]
        have f3 : ((m1.newSingleton (c, S)).2.setDnf d [[m1.next + 1]]).sing m1.next = (c, S) := by
          simp [newSingleton, newSing, newAtom, setDnf, put]
        simp only [finishPlusSNF, f1, f2, f3] at h
        cases hP : plusAll S with
        | error x => rw [hP] at h; cases h
        | ok P =>
          rw [hP] at h
          simp only [Except.ok.injEq, Prod.mk.injEq] at h
          obtain ⟨rfl, rfl⟩ := h
          obtain ⟨p1, p2, p3⟩ := iok_plusAll k1 hP
          have s0 : ∀ d, MemAny S d → 0 ≤ d := fun d ⟨I, hI, hd⟩ => (k1 I hI).low.nonneg hd
          have so : SOk c oc cl m0 ctx a (c, P) := by
            refine ⟨rfl, p1, fun ho t ht => ?_, fun hcl t h0 ht => ?_⟩
            · obtain ⟨h0, hd, _⟩ := ht
              have hit := den_rep.1 ((den_plus e0).1 hd)
              have key : ∀ x, Iter Sig.app (Den m0 (.alt (m0.dnf d))) x → ∀ t h, x = Sig.const c t h → SumOf (MemAny S) t := by
                have one : ∀ t h, Den m0 (.alt (m0.dnf d)) (Sig.const c t h) → MemAny S t := fun t h hd => by
                  obtain ⟨k, hk, hx⟩ := den_alt.1 hd
                  exact k2 ho t h ⟨k, hk, fun x hx' => ⟨h, hx x hx', fun J hJ => by rw [hcell.2 k hk x hx'] at hJ; cases hJ⟩⟩
                intro x hx
                induction hx with
                | one h1 =>
                  rintro t h rfl
                  have := (NTree.iter_const (c := c) s0 _).1 (.one ⟨t, h, rfl, one t h h1⟩)
                  obtain ⟨t', h', e', hs'⟩ := this
                  have : t = t' := congrArg Sig.dur e'
                  rwa [this]
                | @more y z h1 _ ih =>
                  intro t h e
                  obtain ⟨ey, ez, et⟩ := const_app_inv e.symm
                  rw [ey] at h1
                  have hz := ih z.dur z.nonneg ez
                  have hz' := (NTree.iter_const (c := c) s0 _).2 ⟨z.dur, z.nonneg, rfl, hz⟩
                  obtain ⟨t', h', e', hs'⟩ := (NTree.iter_const (c := c) s0 _).1 (.more ⟨y.dur, y.nonneg, rfl, one _ _ h1⟩ hz')
                  rw [Sig.const_app] at e'
                  have : y.dur + z.dur = t' := congrArg Sig.dur e'
                  rwa [et, this]
              exact p2 t (key _ hit t h0 rfl)
            · refine (den_plus e0).2 (den_rep.2 ?_)
              have hit := (NTree.iter_const (c := c) s0 _).2 ⟨t, h0, rfl, p3 hcl t ht⟩
              refine NTree.iter_mono ?_ hit
              rintro x ⟨t, h, rfl, hm⟩
              exact k3 hcl t h hm
          have hda : d + 1 = a := hcell.1
          refine ⟨put own1 m1.next a, ⟨?_, fun s hs' => ?_, fun x hx => ?_⟩, n1.trans fun x hx hc => ?_, fun _ => ?_, fun _ => rfl⟩
          · have := i1.next
            simp only [setAtom, setSing, setDnf, newSingleton, newSing, newAtom]
            omega
          · have := i1.next
            simp only [setAtom, setSing, setDnf, newSingleton, newSing, newAtom, put]
            rw [if_neg (by omega), if_neg (by omega)]
            exact i1.sing s hs'
          · have hx1 : x ≠ m1.next + 1 := by have := i1.next; omega
            by_cases hxa : x = a
            · subst hxa
              refine .inr ⟨fun s => by rw [e0]; simp, m1.next, by simp [setAtom, setSing, put], i1.next, ?_, ?_, ?_⟩
              · simp only [setAtom, setSing, setDnf, newSingleton, newSing, newAtom]
                omega
              · rw [put, if_pos rfl]; exact .refl x
              · simpa [setAtom, setSing, put] using so
            · rcases i1.cell x hx with ⟨h1, h2⟩ | ⟨h1, s, h2, h3, h4, h5, h6⟩
              · refine .inl ⟨by simpa [setAtom, setSing, setDnf, newSingleton, newSing, newAtom, put, hxa, hx1] using h1, fun d' hd' => ?_⟩
                have hc' := hs x hx
                rw [hd'] at hc'
                have : d' ≠ d := fun e => hxa (by rw [← hc'.1, e, hda])
                simpa [setAtom, setSing, setDnf, newSingleton, newSing, newAtom, put, this] using h2 d' hd'
              · have ne : s ≠ m1.next := Nat.ne_of_lt h4
                refine .inr ⟨h1, s, by simpa [setAtom, setSing, setDnf, newSingleton, newSing, newAtom, put, hxa, hx1] using h2, h3, ?_,
                  by rw [put, if_neg ne]; exact h5, by simpa [setAtom, setSing, setDnf, newSingleton, newSing, newAtom, put, ne] using h6⟩
                simp only [setAtom, setSing, setDnf, newSingleton, newSing, newAtom]
                omega
          · have hx1 : x ≠ m1.next + 1 := by have := i1.next; omega
            by_cases hxa : x = a
            · subst hxa
              exact ⟨m1.next, by simp [setAtom, setSing, put], by simp [setAtom, setSing, put]⟩
            · obtain ⟨s, h1, h2⟩ := hc
              refine ⟨s, by simpa [setAtom, setSing, setDnf, newSingleton, newSing, newAtom, put, hxa, hx1] using h1, ?_⟩
              simp only [setAtom, setSing, setDnf, newSingleton, newSing, newAtom, put]
              split
              · rfl
              · exact h2
          · exact ⟨m1.next, by simp [setAtom, setSing, put], by simp [setAtom, setSing, put]⟩
    | within b0 I =>
      rw [hn] at h
      simp only at h
      have e0 : m0.atom a = .within b0 I := by
        rcases cell with ⟨h1, _⟩ | ⟨_, s', h1, _⟩
        · rw [← h1, hn]
        · rw [hn] at h1; cases h1
      rw [e0] at hcell w
      have bl : b0 < m0.next := by simpa [NodeBelow] using w
      obtain ⟨cb, lI, ns⟩ := hcell
      cases hl : snfAtom c fuel m b0 with
      | error x => rw [hl] at h; cases h
      | ok r =>
        obtain ⟨b1, m1⟩ := r
        rw [hl] at h
        obtain ⟨own1, i1, n1, t1, o1⟩ := ih m own b0 hi bl b1 m1 hl
        cases b1 with
        | false =>
          cases h
          exact ⟨own1, i1, n1, fun e => (by cases e), o1⟩
        | true =>
          obtain ⟨s, hs1, hs2⟩ := t1 rfl
          simp only [finishWithinSNF, hs1, Except.ok.injEq, Prod.mk.injEq] at h
          obtain ⟨rfl, rfl⟩ := h
          have cb1 : m0.next ≤ s ∧ s < m1.next ∧ Chain m0 b0 (own1 s) ∧ SOk c oc cl m0 ctx b0 (m1.sing s) := by
            rcases i1.cell b0 bl with ⟨h1, _⟩ | ⟨_, s', h1, h2, h3, h4, h5⟩
            · rw [hs1] at h1
              exact absurd h1.symm (ns s)
            · rw [hs1] at h1
              cases h1
              exact ⟨h2, h3, h4, h5⟩
          obtain ⟨q1, q2, q3, q4⟩ := cb1
          obtain ⟨r1, r2⟩ := chain_need hg hs q3 bl
          have hI : I ∈ ctx (own1 s) := r1 I (by rw [cb]; exact List.mem_cons_self ..)
          -- every atom of the same singleton is restricted by `I`
          have so' : ∀ x < m0.next, Chain m0 x (own1 s) → SOk c oc cl m0 ctx x (m1.sing s) →
              SOk c oc cl m0 ctx x ((m1.sing s).1, land1 (m1.sing s).2 I) := fun x hx hch hso => by
            refine ⟨hso.letter, iok_land1 (fun J hJ => (hso.iok J hJ).low) lI, fun ho t ht => memAny_land1_of (hso.need ho t ht) ?_, fun hcl t h0 ht => ?_⟩
            · obtain ⟨_, _, hm⟩ := (chain_need hg hs hch hx).2 t ht
              exact hm I hI
            · subst hcl
              exact hso.sound rfl t h0 (of_memAny_land1 (fun J hJ => (hso.iok J hJ).low) lI ht).1
          have so : SOk c oc cl m0 ctx a ((m1.sing s).1, land1 (m1.sing s).2 I) := by
            refine ⟨hs2, iok_land1 (fun J hJ => (q4.iok J hJ).low) lI, fun ho t ht => ?_, fun hcl t h0 ht => ?_⟩
            · have hb := (chain_need hg hs (.step e0 (.refl b0)) ha).2 t ht
              have hb2 := hb
              obtain ⟨_, _, hm⟩ := hb2
              exact memAny_land1_of (q4.need ho t hb) (hm I (by rw [cb]; exact List.mem_cons_self ..))
            · subst hcl
              obtain ⟨g1, g2⟩ := of_memAny_land1 (fun J hJ => (q4.iok J hJ).low) lI ht
              exact (den_within e0).2 ⟨q4.sound rfl t h0 g1, g2⟩
          refine ⟨own1, ⟨i1.next, fun s' hs' => ?_, fun x hx => ?_⟩, n1.trans fun x hx hc => ?_, fun _ => ?_, fun _ => rfl⟩
          · simp only [setAtom, setSing, put]
            rw [if_neg (by omega)]
            exact i1.sing s' hs'
          · by_cases hxa : x = a
            · subst hxa
              exact .inr ⟨fun s => by rw [e0]; simp, s, by simp [setAtom, setSing, put], q1, q2, .step e0 q3, by simpa [setAtom, setSing, put] using so⟩
            · rcases i1.cell x hx with ⟨h1, h2⟩ | ⟨h1, s', h2, h3, h4, h5, h6⟩
              · exact .inl ⟨by simpa [setAtom, setSing, put, hxa] using h1, h2⟩
              · refine .inr ⟨h1, s', by simpa [setAtom, setSing, put, hxa] using h2, h3, h4, h5, ?_⟩
                by_cases hss : s' = s
                · subst hss
                  simpa [setAtom, setSing, put] using so' x hx h5 h6
                · simpa [setAtom, setSing, put, hss] using h6
          · by_cases hxa : x = a
            · subst hxa
              exact ⟨s, by simp [setAtom, setSing, put], by simpa [setAtom, setSing, put] using hs2⟩
            · obtain ⟨s', h1, h2⟩ := hc
              refine ⟨s', by simpa [setAtom, setSing, put, hxa] using h1, ?_⟩
              simp only [setAtom, setSing, put]
              split
              · exact hs2
              · exact h2
          · exact ⟨s, by simp [setAtom, setSing, put], by simpa [setAtom, setSing, put] using hs2⟩

end Verif.TMem
