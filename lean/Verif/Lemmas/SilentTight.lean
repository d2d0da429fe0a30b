import Verif.Lemmas.Silent

/-!
# Zones of patterns with silent transitions are tight

Clocks reset by silent transitions are recorded as reset at variable 0.  A guard of an observable transition on such a clock constrains
the difference of variable 0 and itself.
-/

set_option linter.unusedSectionVars false

namespace Verif

open Bnd Zone IZone

variable {S K : Type} [Field K] [LinearOrder K] [IsStrictOrderedRing K]

/-- What adding constraints keeps. -/
structure Shrinks (z z' : IZone K) : Prop where
  ok : z'.Ok
  sat : ∀ v, z'.Sat v → z.Sat v
  newest : z ≠ dead → z' ≠ dead → z'.newestClock = z.newestClock
  used : z ≠ dead → z' ≠ dead → ∀ x, z'.InUse x ↔ z.InUse x
  isDead : z = dead → z' = dead

theorem Shrinks.of_adds {z z' : IZone K} {P : (Nat → K) → Prop} (h : Adds z z' P) : Shrinks z z' :=
  ⟨h.ok, fun v hv => ((h.sat v).1 hv).1, h.newest, h.used, h.isDead⟩

theorem Shrinks.trans {z z1 z2 : IZone K} (h1 : Shrinks z z1) (h2 : Shrinks z1 z2) : Shrinks z z2 := by
  have hd : z2 ≠ dead → z1 ≠ dead := fun h e => h (h2.isDead e)
  refine ⟨h2.ok, fun v hv => h1.sat v (h2.sat v hv), fun a b => ?_, fun a b x => ?_, fun e => ?_⟩
  · rw [h2.newest (hd b) b, h1.newest a (hd b)]
  · rw [h2.used (hd b) b, h1.used a (hd b)]
  · exact h2.isDead (h1.isDead e)

/-- A constraint between a variable and itself. -/
theorem tighten_self {z z' : IZone K} (h : z.Ok) {x : Nat} (hx : z.InUse x) {c : Bnd K} (he : z.tighten x x c = .ok z') :
    Shrinks z z' := by
  obtain ⟨h1, h2, h3⟩ := tighten_used he
  suffices H : z'.Ok ∧ ∀ v, z'.Sat v → z.Sat v from ⟨H.1, H.2, fun _ _ => h2, fun _ _ => h3, h1.1⟩
  cases z with
  | one lo up =>
    rw [IZone.tighten] at he
    split_ifs at he <;> first | omega | (simp only [Except.ok.injEq] at he; subst he; exact ⟨trivial, fun _ h => h⟩)
  | three b =>
    rw [IZone.tighten] at he
    split_ifs at he <;> first | omega | (simp only [Except.ok.injEq] at he; subst he; exact ⟨h, fun _ h => h⟩)
  | dead =>
    simp only [IZone.tighten, Except.ok.injEq] at he
    subst he
    exact ⟨trivial, fun _ h => h⟩
  | zone z l newest =>
    have hx' := inUse_lt h hx
    rw [IZone.tighten, if_pos ⟨hx', hx'⟩] at he
    simp only [Except.ok.injEq] at he
    subst he
    have hfree : ∀ k, k < z.n → l.getD k false = false → k ≠ x := by
      rintro k _ hk rfl
      rw [show l.getD k false = true from hx] at hk
      exact absurd hk (by decide)
    set z1 := z.set x x (Bnd.min (z.get x x) c) with hz1
    have hg1 : z1.get x x = Bnd.min (z.get x x) c := by rw [hz1, get_set hx' hx', if_pos ⟨rfl, rfl⟩]
    have hle1 : ∀ i j, i < z.n → j < z.n → le' (z1.get i j) (z.get i j) := fun i j hi hj => by
      rw [hz1, get_set hi hj]
      split
      · rename_i e
        obtain ⟨rfl, rfl⟩ := e
        exact min_le'_left _ _
      · exact le'_refl _
    by_cases hc : z1.get x x = c ∧ newest ≠ 1
    · rw [if_pos hc]
      have ht : (z1.close1 x).close1 x = z.tighten x x c := rfl
      have hle : ∀ i j, i < z.n → j < z.n → le' (((z1.close1 x).close1 x).get i j) (z1.get i j) := fun i j hi hj =>
        le'_trans (close1_le' (z := z1.close1 x) (by exact hi) (by exact hj)) (close1_le' (z := z1) (by exact hi) (by exact hj))
      refine ⟨⟨fun hv => ?_, h.two, h.lt, h.len, h.used0, h.used1, h.usedN, fun k hk hl => ?_⟩, fun v hv => ?_⟩
      · have hz1v : z1.noNegativePair = true := noNegativePair_mono (by rfl) hle hv
        have hzc : z.Canon := h.canon (noNegativePair_mono (by rfl) hle1 hz1v)
        rw [ht]
        refine tighten_canon hzc hx' hx' ?_
        have hp := sat_zero_of_double ((noNegativePair_iff.1 hz1v) x x hx' hx')
        rw [hg1, sat_min] at hp
        obtain ⟨v, hv⟩ := canon_nonempty hzc
        exact ⟨v, (tighten_Sat hx' hx').2 ⟨hv, by rw [sub_self]; exact hp.2⟩⟩
      · have := hfree k hk hl
        exact close1_free (by exact hx') (by exact hk) this.symm (close1_free (by exact hx') (by exact hk) this.symm
          (set_free hk this.symm this.symm (h.free k hk hl)))
      · rw [ht] at hv
        exact ((tighten_Sat hx' hx').1 hv).1
    · rw [if_neg hc]
      have hsame : ∀ i j, i < z.n → j < z.n → z1.get i j = z.get i j := by
        intro i j hi hj
        rw [hz1, get_set hi hj]
        split
        · rename_i e
          obtain ⟨rfl, rfl⟩ := e
          rcases min_eq (z.get _ _) c with e | e
          · exact e
          · exfalso
            refine hc ⟨by rw [hg1, e], ?_⟩
            have := h.two
            omega
        · rfl
      refine ⟨⟨fun hv => ?_, h.two, h.lt, h.len, h.used0, h.used1, h.usedN, fun k hk hl => ?_⟩, fun v hv i j hi hj => ?_⟩
      · refine canon_congr (by rfl) hsame (h.canon (noNegativePair_mono (z' := z1) (by rfl) (fun i j hi hj => ?_) hv))
        rw [hsame i j hi hj]
        exact le'_refl _
      · have := hfree k hk hl
        exact set_free hk this.symm this.symm (h.free k hk hl)
      · rw [← hsame i j hi hj]
        exact hv i j hi hj

theorem tightenAgo_shrinks {z z' : IZone K} (h : z.Ok) {x : Nat} {g : Constraint} {t : K} (hx : z.InUse x)
    (h0 : z.InUse 0) (he : z.tightenAgo x g t = .ok z') : Shrinks z z' := by
  by_cases hx0 : x = 0
  · subst hx0
    unfold tightenAgo at he
    cases ho : g.odr <;> simp only [ho] at he <;> exact tighten_self h hx he
  · exact .of_adds (tightenAgo_spec h hx0 hx h0 he)

theorem tightenInstant_shrinks {rt : List (RTime K)} {t : K} (gs : List Constraint) {z z' : IZone K} (h : z.Ok)
    (hrt : ∀ x, RTime.var x ∈ rt → z ≠ dead → z.InUse x) (he : z.tightenInstant rt t gs = .ok z') : Shrinks z z' := by
  induction gs generalizing z with
  | nil =>
    simp only [tightenInstant, Except.ok.injEq] at he
    subst he
    exact .of_adds (Adds.refl h)
  | cons g gs ih =>
    rw [tightenInstant] at he
    have key : ∀ z1, Shrinks z z1 → z1.tightenInstant rt t gs = .ok z' → Shrinks z z' := by
      intro z1 h1 he1
      exact h1.trans (ih h1.ok (fun x hx hd => by
        have hz : z ≠ dead := fun e => hd (h1.isDead e)
        rw [h1.used hz hd]
        exact hrt x hx hz) he1)
    cases hr : rt[g.x]? with
    | none => simp only [hr] at he; cases he
    | some r =>
      cases r with
      | «at» r =>
        simp only [hr] at he
        refine key _ ?_ he
        split
        · exact .of_adds (Adds.refl h)
        · exact ⟨trivial, fun _ hv => hv.elim, fun _ hc => absurd rfl hc, fun _ hc => absurd rfl hc, fun _ => rfl⟩
      | var y =>
        simp only [hr] at he
        by_cases hd : z = dead
        · subst hd
          simp only [tightenAgo_dead] at he
          exact key dead (.of_adds (dead_adds fun _ => True)) he
        · obtain ⟨u0, u1, un⟩ := ok_inUse h hd
          cases h1 : z.tightenAgo y g t with
          | error e => simp only [h1] at he; cases he
          | ok z1 =>
            simp only [h1] at he
            exact key z1 (tightenAgo_shrinks h (hrt y (List.mem_of_getElem? hr) hd) u0 h1) he

/-- What is known of the zone of a configuration, for all patterns. -/
structure TInv (p0 : Option K) (t0 : K) (prev : Option K) (B : K) (c : SConf S K) : Prop where
  ok : c.z.Ok
  alive : c.z ≠ dead
  ne : c.z.newestClock ≠ 1 → c.z.Nonempty
  rt : ∀ x, RTime.var x ∈ c.rt → x = 0 ∨ x = 1
  upto : ∀ v, c.z.Sat v → ext v c.z.newestClock ≤ B
  begin : ∀ v, c.z.Sat v → v 0 < t0 ∧ (lowerBegin p0).sat (-v 0)
  hlo : c.z.newestClock = 1 → c.z.Nonempty → ∀ t, (lowerEnd prev).sat (-t) → ∃ v, c.z.Sat v ∧ v 0 ≤ t

theorem TInv.mono {p0 : Option K} {t0 : K} {prev : Option K} {B B' : K} {c : SConf S K} (h : TInv p0 t0 prev B c) (hB : B ≤ B') : TInv p0 t0 prev B' c :=
  { h with upto := fun v hv => le_trans (h.upto v hv) hB }

theorem startSym_tinv {A : TA S} {n : Nat} {prev : Option K} {t : K} {c : SConf S K} (hc : c ∈ startSym A n prev t) :
    TInv prev t prev t c := by
  have h := startSym_inv hc
  exact ⟨h.ok, h.alive, h.ne, fun x hx => Or.inr (h.rt x hx), h.upto, h.begin, h.hlo⟩

theorem enter_tinv {p0 : Option K} {t0 : K} {prev : Option K} {t : K} {c : SConf S K} (h : TInv p0 t0 prev t c) {gs : List Constraint} {z : IZone K}
    (hz : (c.z.alloc (.fin t true) (lowerEnd prev)).tightenNewest c.rt gs = .ok z) (hs : z.isSat = true) :
    z.Ok ∧ z ≠ dead ∧ z.Nonempty ∧ z.newestClock ≠ 1 ∧ z.InUse 0 ∧ z.InUse 1 ∧
    ∀ v, z.Sat v → c.z.Sat v ∧ ext v z.newestClock ≤ t ∧ (lowerEnd prev).sat (-ext v z.newestClock) := by
  have hup : c.z.AtMost c.z.newestClock (.fin t true) := fun v hv => by
    rw [sat_t]
    exact h.upto v hv
  have hok := alloc_ok' h.ok (.fin t true) (lowerEnd prev) h.ne hup h.hlo
  obtain ⟨i1, i2⟩ := alloc_inUse h.ok h.alive (.fin t true) (lowerEnd prev)
  obtain ⟨u0, u1, u2⟩ := ok_inUse h.ok h.alive
  have hd : c.z.alloc (.fin t true) (lowerEnd prev) ≠ dead := by
    intro e
    have := (i2 1).2 (Or.inl u1)
    rw [e] at this
    exact this
  have hne1 : 1 ≠ (c.z.alloc (.fin t true) (lowerEnd prev)).newestClock := by
    intro e
    rw [← e] at i1
    exact i1 u1
  have hne0 : 0 ≠ (c.z.alloc (.fin t true) (lowerEnd prev)).newestClock := by
    intro e
    rw [← e] at i1
    exact i1 u0
  have ha := tightenNewest_spec gs hok (rt := c.rt) (fun x hx _ => by
    rcases h.rt x hx with rfl | rfl
    · exact ⟨(i2 0).2 (Or.inl u0), hne0⟩
    · exact ⟨(i2 1).2 (Or.inl u1), hne1⟩) hz
  have hzd : z ≠ dead := by
    rintro rfl
    simp [isSat] at hs
  have hn := ha.newest hd hzd
  refine ⟨ha.ok, hzd, (isSat_iff ha.ok).1 hs, by rw [hn]; exact hne1.symm,
    (ha.used hd hzd 0).2 ((i2 0).2 (Or.inl u0)), (ha.used hd hzd 1).2 ((i2 1).2 (Or.inl u1)), fun v hv => ?_⟩
  rw [ha.sat, alloc_sat h.ok, sat_t] at hv
  rw [hn]
  exact ⟨hv.1.1, hv.1.2.1, hv.1.2.2.1⟩

theorem silentEdge_tinv {p0 : Option K} {t0 : K} {prev : Option K} {t : K} {c : SConf S K} (h : TInv p0 t0 prev t c) {e : Transition S}
    {cs : List (SConf S K)} (hcs : silentEdge prev t c e = .ok cs) {c' : SConf S K} (hc' : c' ∈ cs) : TInv p0 t0 prev t c' := by
  unfold silentEdge at hcs
  cases hq : e.target with
  | none =>
    simp only [hq, Except.ok.injEq] at hcs
    subst hcs
    simp at hc'
  | some q =>
    simp only [hq] at hcs
    cases hz : (c.z.alloc (.fin t true) (lowerEnd prev)).tightenNewest c.rt e.guard with
    | error x => simp only [hz, reduceCtorEq] at hcs
    | ok z =>
      simp only [hz] at hcs
      by_cases hs : z.isSat = true
      · simp only [hs, if_true] at hcs
        cases hr : resetSym (.var 0) c.rt e.resets with
        | error x => simp only [hr, reduceCtorEq] at hcs
        | ok rt =>
        simp only [hr] at hcs
        cases hu : z.update rt with
        | error x => simp only [hu, reduceCtorEq] at hcs
        | ok z' =>
          simp only [hu, Except.ok.injEq] at hcs
          subst hcs
          simp only [List.mem_singleton] at hc'
          subst hc'
          obtain ⟨k1, k2, k3, k4, k0, k5, k6⟩ := enter_tinv h hz hs
          have hrt' : ∀ x, RTime.var x ∈ rt → x = 0 ∨ x = 1 := by
            intro x hx
            rcases mem_resetSym hr hx with hx | hx
            · cases hx
              exact Or.inl rfl
            · exact h.rt x hx
          have hrt : ∀ x, RTime.var x ∈ rt → z.InUse x := fun x hx => by
            rcases hrt' x hx with rfl | rfl
            · exact k0
            · exact k5
          have hus := update_sat k1 k3 hu
          have hn := update_newest hu
          have hin := fun x => (update_inUse k1 hrt hu x).2 k2
          have key : ∀ v', z'.Sat v' → ∃ v, z.Sat v ∧ v 0 = v' 0 ∧ ext v z.newestClock = ext v' z.newestClock := by
            intro v' hv'
            obtain ⟨v, hv, heq⟩ := (hus v').1 hv'
            have h1 : v 0 = v' 0 := heq 1 (hin 1 (by simp))
            exact ⟨v, hv, h1, heq _ (hin _ (by simp))⟩
          refine ⟨update_ok k1 k3 hu, ?_, fun _ => ?_, hrt', ?_, ?_, fun e1 => ?_⟩
          · rintro rfl
            have := hin 0 (by simp)
            exact this
          · obtain ⟨v, hv⟩ := k3
            exact ⟨v, (hus v).2 ⟨v, hv, fun _ _ => rfl⟩⟩
          · intro v' hv'
            obtain ⟨v, hv, e0, en⟩ := key v' hv'
            simp only [hn]
            rw [← en]
            exact (k6 v hv).2.1
          · intro v' hv'
            obtain ⟨v, hv, e0, en⟩ := key v' hv'
            rw [← e0]
            exact h.begin v (k6 v hv).1
          · simp only [hn] at e1
            exact absurd e1 k4
      · simp only [Bool.not_eq_true] at hs
        simp only [hs, Bool.false_eq_true, if_false, Except.ok.injEq] at hcs
        subst hcs
        simp at hc'

theorem silentLoop_tinv {A : TA S} {p0 : Option K} {t0 : K} {prev : Option K} {t : K}
    {fuel : Nat} {cs cs' : List (SConf S K)} (h : ∀ c ∈ cs, TInv p0 t0 prev t c)
    (he : silentLoop A prev t fuel cs = .ok cs') : ∀ c ∈ cs', TInv p0 t0 prev t c := by
  induction fuel generalizing cs cs' with
  | zero => simp [silentLoop] at he
  | succ fuel ih =>
    rw [silentLoop] at he
    split at he
    · simp only [Except.ok.injEq] at he
      subst he
      simp
    · cases hf : flatMapE cs (fun c => flatMapE (A.edges c.s epsilon) (silentEdge prev t c)) with
      | error x => simp only [hf, reduceCtorEq] at he
      | ok new =>
        simp only [hf] at he
        have hnew : ∀ c ∈ new, TInv p0 t0 prev t c := by
          intro c' hc'
          obtain ⟨c, hc, x, hx, hcx⟩ := flatMapE_mem hf hc'
          obtain ⟨e, hed, y, hy, hcy⟩ := flatMapE_mem hx hcx
          exact silentEdge_tinv (h c hc) hy hcy
        cases hr : silentLoop A prev t fuel new with
        | error x => simp only [hr, reduceCtorEq] at he
        | ok rest =>
          simp only [hr, Except.ok.injEq] at he
          subst he
          intro c hc
          rcases List.mem_append.1 hc with hc | hc
          · exact hnew c hc
          · exact ih hnew hr c hc

theorem silentAll_tinv {A : TA S} {p0 : Option K} {t0 : K} {prev : Option K} {t : K}
    {fuel : Nat} {cs cs' : List (SConf S K)} (h : ∀ c ∈ cs, TInv p0 t0 prev t c)
    (he : silentAll A prev t fuel cs = .ok cs') : ∀ c ∈ cs', TInv p0 t0 prev t c := by
  unfold silentAll at he
  cases hr : silentLoop A prev t fuel (cs.filter fun c => ((A.st c.s).next.find epsilon).isSome) with
  | error x => simp only [hr, reduceCtorEq] at he
  | ok new =>
    simp only [hr, Except.ok.injEq] at he
    subst he
    intro c hc
    rcases List.mem_append.1 hc with hc | hc
    · exact h c hc
    · exact silentLoop_tinv (fun c hc => h c (List.mem_filter.1 hc).1) hr c hc

theorem stepSym_tinv {p0 : Option K} {t0 : K} {prev : Option K} {t : K} (ht0 : t0 ≤ t)
    {c : SConf S K} (h : TInv p0 t0 prev t c) {e : Transition S}
    {cs : List (SConf S K)} (hcs : stepSym t c e = .ok cs) {c' : SConf S K} (hc' : c' ∈ cs) : TInv p0 t0 (some t) t c' := by
  unfold stepSym at hcs
  cases hq : e.target with
  | none =>
    simp only [hq, Except.ok.injEq] at hcs
    subst hcs
    simp at hc'
  | some q =>
    simp only [hq] at hcs
    cases hz : c.z.tightenInstant c.rt t e.guard with
    | error x => simp only [hz, reduceCtorEq] at hcs
    | ok z =>
      simp only [hz] at hcs
      by_cases hs : z.isSat = true
      · simp only [hs, if_true] at hcs
        cases hr : resetSym (.at t) c.rt e.resets with
        | error x => simp only [hr, reduceCtorEq] at hcs
        | ok rt =>
        simp only [hr] at hcs
        cases hu : z.update rt with
        | error x => simp only [hu, reduceCtorEq] at hcs
        | ok z' =>
          simp only [hu, Except.ok.injEq] at hcs
          subst hcs
          simp only [List.mem_singleton] at hc'
          subst hc'
          obtain ⟨u0, u1, u2⟩ := ok_inUse h.ok h.alive
          have hadd := tightenInstant_shrinks e.guard h.ok (rt := c.rt) (fun x hx _ => by
            rcases h.rt x hx with rfl | rfl
            · exact u0
            · exact u1) hz
          have k2 : z ≠ dead := by
            rintro rfl
            simp [isSat] at hs
          have k1 := hadd.ok
          have k3 := (isSat_iff k1).1 hs
          have kn := hadd.newest h.alive k2
          have hrt' : ∀ x, RTime.var x ∈ rt → x = 0 ∨ x = 1 := by
            intro x hx
            rcases mem_resetSym hr hx with hx | hx
            · cases hx
            · exact h.rt x hx
          have hrt : ∀ x, RTime.var x ∈ rt → z.InUse x := fun x hx => by
            rcases hrt' x hx with rfl | rfl
            · exact (hadd.used h.alive k2 0).2 u0
            · exact (hadd.used h.alive k2 1).2 u1
          have hus := update_sat k1 k3 hu
          have hn := (update_newest hu).trans kn
          have hin := fun x => (update_inUse k1 hrt hu x).2 k2
          have key : ∀ v', z'.Sat v' → ∃ v, z.Sat v ∧ v 0 = v' 0 ∧ ext v c.z.newestClock = ext v' c.z.newestClock := by
            intro v' hv'
            obtain ⟨v, hv, heq⟩ := (hus v').1 hv'
            have h1 : v 0 = v' 0 := heq 1 (hin 1 (by simp))
            exact ⟨v, hv, h1, heq _ (hin _ (by simp [kn]))⟩
          have hne' : z'.Nonempty := by
            obtain ⟨v, hv⟩ := k3
            exact ⟨v, (hus v).2 ⟨v, hv, fun _ _ => rfl⟩⟩
          have hbeg : ∀ v, z'.Sat v → v 0 < t0 ∧ (lowerBegin p0).sat (-v 0) := by
            intro v' hv'
            obtain ⟨v, hv, e0, en⟩ := key v' hv'
            rw [← e0]
            exact h.begin v (hadd.sat v hv)
          refine ⟨update_ok k1 k3 hu, ?_, fun _ => hne', hrt', ?_, hbeg, fun _ _ x hx => ?_⟩
          · rintro rfl
            have := hin 0 (by simp)
            exact this
          · intro v' hv'
            obtain ⟨v, hv, e0, en⟩ := key v' hv'
            simp only [hn]
            rw [← en]
            exact h.upto v (hadd.sat v hv)
          · obtain ⟨v, hv⟩ := hne'
            refine ⟨v, hv, ?_⟩
            have := (hbeg v hv).1
            simp only [lowerEnd, sat_f] at hx
            linarith
      · simp only [Bool.not_eq_true] at hs
        simp only [hs, Bool.false_eq_true, if_false, Except.ok.injEq] at hcs
        subst hcs
        simp at hc'

theorem acceptSym_tight {A : TA S} {p0 : Option K} {t0 : K} {prev : Option K} {t : K}
    {c : SConf S K} (h : TInv p0 t0 prev t c) {e : Transition S}
    {zs : List (Zone K)} (hzs : acceptSym A prev t c e = .ok zs) {z : Zone K} (hz : z ∈ zs) : z.Canon ∧ z.n = 3 := by
  unfold acceptSym at hzs
  cases hq : e.target with
  | none =>
    simp only [hq, Except.ok.injEq] at hzs
    subst hzs
    simp at hz
  | some q =>
    simp only [hq] at hzs
    by_cases hm : (A.st q).isMatch = true
    swap
    · simp only [Bool.not_eq_true] at hm
      simp only [hm, Bool.not_false, if_true, Except.ok.injEq] at hzs
      subst hzs
      simp at hz
    simp only [hm, Bool.not_true, Bool.false_eq_true, if_false] at hzs
    cases hg : (c.z.alloc (.fin t true) (lowerEnd prev)).tightenNewest c.rt e.guard with
    | error x => simp only [hg, reduceCtorEq] at hzs
    | ok y =>
      simp only [hg] at hzs
      by_cases hs : y.isSat = true
      swap
      · simp only [Bool.not_eq_true] at hs
        simp only [hs, Bool.false_eq_true, if_false, Except.ok.injEq] at hzs
        subst hzs
        simp at hz
      simp only [hs, if_true, Except.ok.injEq] at hzs
      subst hzs
      simp only [List.mem_singleton] at hz
      subst hz
      obtain ⟨k1, k2, k3, k4, -⟩ := enter_tinv h hg hs
      exact toAns_canon k1 hs k4

theorem acceptSym_ends {A : TA S} {p0 : Option K} {t0 : K} {prev : Option K} {t : K}
    {c : SConf S K} (h : TInv p0 t0 prev t c) {e : Transition S}
    {zs : List (Zone K)} (hzs : acceptSym A prev t c e = .ok zs) {z : Zone K} (hz : z ∈ zs) {v : Nat → K}
    (hv : z.Sat v) : v 0 < t0 ∧ (lowerBegin p0).sat (-v 0) ∧ v 1 ≤ t ∧ (lowerEnd prev).sat (-v 1) := by
  unfold acceptSym at hzs
  cases hq : e.target with
  | none =>
    simp only [hq, Except.ok.injEq] at hzs
    subst hzs
    simp at hz
  | some q =>
    simp only [hq] at hzs
    by_cases hm : (A.st q).isMatch = true
    swap
    · simp only [Bool.not_eq_true] at hm
      simp only [hm, Bool.not_false, if_true, Except.ok.injEq] at hzs
      subst hzs
      simp at hz
    simp only [hm, Bool.not_true, Bool.false_eq_true, if_false] at hzs
    cases hg : (c.z.alloc (.fin t true) (lowerEnd prev)).tightenNewest c.rt e.guard with
    | error x => simp only [hg, reduceCtorEq] at hzs
    | ok y =>
      simp only [hg] at hzs
      by_cases hs : y.isSat = true
      swap
      · simp only [Bool.not_eq_true] at hs
        simp only [hs, Bool.false_eq_true, if_false, Except.ok.injEq] at hzs
        subst hzs
        simp at hz
      simp only [hs, if_true, Except.ok.injEq] at hzs
      subst hzs
      simp only [List.mem_singleton] at hz
      subst hz
      obtain ⟨k1, k2, k3, k4, -, -, k6⟩ := enter_tinv h hg hs
      obtain ⟨v', hv', e0, e1⟩ := (toAns_sat k1 k3 k4 v).1 hv
      obtain ⟨m1, m2, m3⟩ := k6 v' hv'
      obtain ⟨b1, b2⟩ := h.begin v' m1
      rw [e1] at m2 m3
      rw [e0] at b1 b2
      exact ⟨b1, b2, m2, m3⟩

theorem runSilent_tight {A : TA S} {n efuel : Nat} {p0 : Option K} {t0 : K} {w : TWord K}
    {prev : Option K} {B : K} {cs last : List (SConf S K)}
    (hs : w.Pairwise fun a b => a.2 ≤ b.2) (hB : ∀ e ∈ w, B ≤ e.2 ∧ t0 ≤ e.2 ∧ ∀ p, prev = some p → p ≤ e.2)
    (h : ∀ c ∈ cs, TInv p0 t0 prev B c) {r : List (Zone K) × List (SConf S K)}
    (hr : runListE (silentHooks A n efuel) prev w cs last = .ok r) {z : Zone K} (hz : z ∈ r.1) : z.Canon ∧ z.n = 3 := by
  induction w generalizing prev B cs last r with
  | nil =>
    simp only [runListE, silentHooks, ite_self, Except.ok.injEq] at hr
    subst hr
    simp at hz
  | cons e w ih =>
    rw [runListE] at hr
    split at hr
    · simp only [Except.ok.injEq] at hr
      subst hr
      simp at hz
    cases he : (silentHooks A n efuel).event prev e.1 e.2 cs with
    | error x => simp only [he, reduceCtorEq] at hr
    | ok x =>
      simp only [he] at hr
      cases hr' : runListE (silentHooks A n efuel) (some e.2) w x.2.2 x.2.1 with
      | error y => simp only [hr', reduceCtorEq] at hr
      | ok y =>
        simp only [hr', Except.ok.injEq] at hr
        subst hr
        obtain ⟨cs1, g1, g2, g3, g4⟩ := eventSym_inv he
        obtain ⟨hB1, hB2, hB3⟩ := hB e (by simp)
        have hcs1 := silentAll_tinv (fun c hc => (h c hc).mono hB1) g1
        have hs' := List.pairwise_cons.1 hs
        rcases List.mem_append.1 hz with hz | hz
        · obtain ⟨c, hc, xs, hx, hzx⟩ := flatMapE_mem g2 hz
          obtain ⟨ed, hed, ys, hy, hzy⟩ := flatMapE_mem hx hzx
          exact acceptSym_tight (hcs1 c hc) hy hzy
        · have hcs2 : ∀ c ∈ x.2.2, TInv p0 t0 (some e.2) e.2 c := by
            intro c' hc'
            obtain ⟨c, hc, xs, hx, hzx⟩ := flatMapE_mem g4 hc'
            obtain ⟨ed, hed, ys, hy, hzy⟩ := flatMapE_mem hx hzx
            exact stepSym_tinv hB2 (hcs1 c hc) hy hzy
          exact ih hs'.2
              (fun e' he' => ⟨hs'.1 e' he', (hB e' (by simp [he'])).2.1, by
                rintro p hp
                cases hp
                exact hs'.1 e' he'⟩) hcs2 hr' hz

theorem silent_tight_at {A : TA S} {n efuel : Nat} {w : TWord K} (hw : LogOk w)
    {i : Nat} (hi : i < w.length) {r : List (Zone K) × List (SConf S K)}
    (hr : runListE (silentHooks A n efuel) (prevOf w i) (w.drop i) (startSym A n (prevOf w i) w[i].2) [] = .ok r)
    {z : Zone K} (hz : z ∈ r.1) : z.Canon ∧ z.n = 3 := by
  obtain ⟨hdrop, hprev⟩ := start_facts hw hi
  exact runSilent_tight (hw.sorted.sublist (List.drop_sublist i w)) (fun e he => ⟨hdrop e he, hdrop e he, fun p hp =>
        le_trans (hprev p hp) (hdrop e he)⟩) (fun c hc => startSym_tinv hc) hr hz

end Verif
