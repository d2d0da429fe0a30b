import Verif.Lemmas.IntermediateZone
import Verif.Lemmas.Signal

/-!
# The branch of `monaa` for patterns with silent transitions
-/

set_option linter.unusedSectionVars false

namespace Verif

open Bnd Zone IZone

variable {S K : Type} [Field K] [LinearOrder K] [IsStrictOrderedRing K]

theorem flatMapE_mem {α β : Type} {l : List α} {f : α → Except Err (List β)} {r : List β} (h : flatMapE l f = .ok r)
    {b : β} (hb : b ∈ r) : ∃ a ∈ l, ∃ x, f a = .ok x ∧ b ∈ x := by
  induction l generalizing r with
  | nil =>
    simp only [flatMapE, Except.ok.injEq] at h
    subst h
    simp at hb
  | cons a l ih =>
    rw [flatMapE] at h
    cases ha : f a with
    | error e => simp only [ha, reduceCtorEq] at h
    | ok x =>
      simp only [ha] at h
      cases hl : flatMapE l f with
      | error e => simp only [hl, reduceCtorEq] at h
      | ok y =>
        simp only [hl, Except.ok.injEq] at h
        subst h
        rcases List.mem_append.1 hb with hb | hb
        · exact ⟨a, by simp, x, ha, hb⟩
        · obtain ⟨a', ha', x', hx', hb'⟩ := ih hl hb
          exact ⟨a', by simp [ha'], x', hx', hb'⟩

/-- `alloc_ok` where an empty interval is allowed. -/
theorem IZone.alloc_ok' {z : IZone K} (h : z.Ok) (upper lower : Bnd K) (hne : z.newestClock ≠ 1 → z.Nonempty)
    (hup : z.AtMost z.newestClock upper)
    (hlo : z.newestClock = 1 → z.Nonempty → ∀ t, lower.sat (-t) → ∃ v, z.Sat v ∧ v 0 ≤ t) :
    (z.alloc upper lower).Ok := by
  by_cases hz : z.Nonempty
  · exact alloc_ok h upper lower hz hup fun e => hlo e hz
  · have h1 : z.newestClock = 1 := by
      by_contra hc
      exact hz (hne hc)
    cases z with
    | one lo up =>
      intro hv
      exfalso
      apply hz
      have h2 := (sixValid_iff.1 hv).1
      obtain ⟨t, h3, h4⟩ := Bnd.exists_between h2
      exact ⟨fun _ => t, h3, h4⟩
    | three b => exact absurd h1 (by simp [newestClock])
    | zone z l n =>
      have := h.two
      simp only [newestClock] at h1
      omega
    | dead => trivial

theorem resetSym_spec {r : RTime K} {xs : List Nat} {rt rt' : List (RTime K)} (h : resetSym r rt xs = .ok rt') :
    rt'.length = rt.length ∧ (∀ x ∈ xs, x < rt.length) ∧
      ∀ x, rt'[x]? = if x ∈ xs then some r else rt[x]? := by
  induction xs generalizing rt with
  | nil =>
    simp only [resetSym, Except.ok.injEq] at h
    subst h
    simp
  | cons a xs ih =>
    rw [resetSym] at h
    split at h
    · rename_i ha
      obtain ⟨h1, h2, h3⟩ := ih h
      rw [List.length_set] at h1 h2
      refine ⟨h1, ?_, ?_⟩
      · intro x hx
        rcases List.mem_cons.1 hx with rfl | hx
        · exact ha
        · exact h2 x hx
      · intro x
        rw [h3]
        by_cases hx : x ∈ xs
        · simp [hx]
        · by_cases hxa : x = a
          · subst hxa
            simp [hx, ha]
          · simp [hx, hxa, List.getElem?_set_ne (Ne.symm hxa)]
    · cases h

theorem rtVal_resetSym {t : K} {xs : List Nat} {rt rt' : List (RTime K)} (h : resetSym (.at t) rt xs = .ok rt')
    (v : Nat → K) : rtVal rt' v = resetAt (rtVal rt v) xs t := by
  obtain ⟨h1, h2, h3⟩ := resetSym_spec h
  funext x
  unfold rtVal resetAt
  rw [h3]
  by_cases hx : x ∈ xs
  · simp only [if_pos hx]
  · simp only [if_neg hx]

theorem mem_resetSym {r : RTime K} {xs : List Nat} {rt rt' : List (RTime K)} (h : resetSym r rt xs = .ok rt')
    {y : RTime K} (hy : y ∈ rt') : y = r ∨ y ∈ rt := by
  obtain ⟨h1, h2, h3⟩ := resetSym_spec h
  obtain ⟨x, hx⟩ := List.mem_iff_getElem?.1 hy
  rw [h3] at hx
  split at hx
  · simp only [Option.some.injEq] at hx
    exact Or.inl hx.symm
  · exact Or.inr (List.mem_iff_getElem?.2 ⟨x, hx⟩)

theorem rtVal_congr {rt : List (RTime K)} {v v' : Nat → K} (h : ∀ x, RTime.var x ∈ rt → ext v x = ext v' x)
    (h0 : v 0 = v' 0) : rtVal rt v = rtVal rt v' := by
  funext x
  unfold rtVal
  cases hx : rt[x]? with
  | none => exact h0
  | some r =>
    cases r with
    | «at» t => rfl
    | var y => exact h y (List.mem_iff_getElem?.2 ⟨x, hx⟩)

/-- What is known of a configuration at a start position with first event at `t0`, after the events `u`, where `prev` is the
instant of the last event and no instant so far is after `B`. -/
structure SInv (A : TA S) (p0 : Option K) (t0 : K) (prev : Option K) (B : K) (u : TWord K) (c : SConf S K) : Prop where
  ok : c.z.Ok
  alive : c.z ≠ dead
  ne : c.z.newestClock ≠ 1 → c.z.Nonempty
  rt : ∀ x, RTime.var x ∈ c.rt → x = 1
  upto : ∀ v, c.z.Sat v → ext v c.z.newestClock ≤ B
  begin : ∀ v, c.z.Sat v → v 0 < t0 ∧ (lowerBegin p0).sat (-v 0)
  ge : ∀ v, c.z.Sat v → v 0 ≤ ext v c.z.newestClock
  hlo : c.z.newestClock = 1 → c.z.Nonempty → ∀ t, (lowerEnd prev).sat (-t) → ∃ v, c.z.Sat v ∧ v 0 ≤ t
  run : ∀ v, c.z.Sat v → ∃ s0 ∈ A.init, ∃ now,
    (∀ x, ext v c.z.newestClock ≤ x → (∀ p, prev = some p → p ≤ x) → now ≤ x) ∧
    ∀ w s', A.SReads c.s (rtVal c.rt v) now w s' → A.SReads s0 (fun _ => v 0) (v 0) (u ++ w) s'

theorem SInv.mono {A : TA S} {p0 : Option K} {t0 : K} {prev : Option K} {B B' : K} {u : TWord K} {c : SConf S K}
    (h : SInv A p0 t0 prev B u c) (hB : B ≤ B') : SInv A p0 t0 prev B' u c :=
  { h with upto := fun v hv => le_trans (h.upto v hv) hB }

theorem mem_startSym {A : TA S} {n : Nat} {prev : Option K} {t : K} {c : SConf S K} (hc : c ∈ startSym A n prev t) :
    ∃ s ∈ A.init, c = ⟨s, List.replicate n (.var 1), IZone.one (lowerBegin prev) (.fin t false)⟩ := by
  simp only [startSym, List.mem_map] at hc
  obtain ⟨s, hs, rfl⟩ := hc
  refine ⟨s, hs, ?_⟩
  cases prev <;> simp [ofInterval, lowerBegin, zeroLe]

theorem startSym_inv {A : TA S} {n : Nat} {prev : Option K} {t : K} {c : SConf S K} (hc : c ∈ startSym A n prev t) :
    SInv A prev t prev t [] c := by
  obtain ⟨s, hs, rfl⟩ := mem_startSym hc
  refine ⟨trivial, by simp, by simp [newestClock], ?_, ?_, ?_, fun v _ => le_refl _, ?_, ?_⟩
  · intro x hx
    have := (List.mem_replicate.1 hx).2
    simpa using this
  · intro v hv
    have := hv.1
    rw [sat_f] at this
    exact this.le
  · intro v hv
    have := hv.1
    rw [sat_f] at this
    exact ⟨this, hv.2⟩
  · rintro - ⟨v, hv⟩ x hx
    have h1 := hv.1
    have h2 := hv.2
    rw [sat_f] at h1
    rcases le_or_gt (v 0) x with h | h
    · exact ⟨v, hv, h⟩
    · refine ⟨fun _ => x, ⟨?_, ?_⟩, le_refl _⟩
      · rw [sat_f]; linarith
      · cases prev with
        | none => exact hx
        | some p =>
          simp only [lowerEnd, sat_f] at hx
          simp only [lowerBegin, sat_t]
          exact hx.le
  · intro v hv
    refine ⟨s, hs, v 0, fun x hx _ => hx, fun w s' h => ?_⟩
    have e : rtVal (List.replicate n (.var 1)) v = fun _ => v 0 := by
      funext x
      unfold rtVal
      simp only [List.getElem?_replicate]
      split <;> first | rfl | (rename_i h; split at h <;> simp at h <;> subst h <;> rfl)
    simp only [e] at h
    exact h

/-- Adding an instant and a guard at it. -/
theorem enter_inv {A : TA S} {p0 : Option K} {t0 : K} {prev : Option K} {t : K} {u : TWord K} {c : SConf S K}
    (h : SInv A p0 t0 prev t u c) {gs : List Constraint} {z : IZone K}
    (hz : (c.z.alloc (.fin t true) (lowerEnd prev)).tightenNewest c.rt gs = .ok z) (hs : z.isSat = true) :
    z.Ok ∧ z ≠ dead ∧ z.Nonempty ∧ z.newestClock ≠ 1 ∧ z.InUse 1 ∧
    ∀ v, z.Sat v → c.z.Sat v ∧ ext v z.newestClock ≤ t ∧ (lowerEnd prev).sat (-ext v z.newestClock) ∧
      ext v c.z.newestClock ≤ ext v z.newestClock ∧
      GuardHolds gs (fun x => ext v z.newestClock - rtVal c.rt v x) := by
  have hup : c.z.AtMost c.z.newestClock (.fin t true) := fun v hv => by
    rw [sat_t]
    exact h.upto v hv
  have hok := alloc_ok' h.ok (.fin t true) (lowerEnd prev) h.ne hup h.hlo
  obtain ⟨i1, i2⟩ := alloc_inUse h.ok h.alive (.fin t true) (lowerEnd prev)
  obtain ⟨-, u1, u2⟩ := ok_inUse h.ok h.alive
  have hd : c.z.alloc (.fin t true) (lowerEnd prev) ≠ dead := by
    intro e
    have := (i2 1).2 (Or.inl u1)
    rw [e] at this
    exact this
  have hne1 : 1 ≠ (c.z.alloc (.fin t true) (lowerEnd prev)).newestClock := by
    intro e
    rw [← e] at i1
    exact i1 u1
  have ha := tightenNewest_spec gs hok (rt := c.rt) (fun x hx _ => by
    rw [h.rt x hx]
    exact ⟨(i2 1).2 (Or.inl u1), hne1⟩) hz
  have hzd : z ≠ dead := by
    rintro rfl
    simp [isSat] at hs
  have hn := ha.newest hd hzd
  refine ⟨ha.ok, hzd, (isSat_iff ha.ok).1 hs, by rw [hn]; exact hne1.symm,
    (ha.used hd hzd 1).2 ((i2 1).2 (Or.inl u1)), fun v hv => ?_⟩
  rw [ha.sat, alloc_sat h.ok, sat_t] at hv
  rw [hn]
  exact ⟨hv.1.1, hv.1.2.1, hv.1.2.2.1, hv.1.2.2.2, hv.2⟩

theorem silentEdge_inv {A : TA S} (hA : A.SilentKeep) {p0 : Option K} {t0 : K} {prev : Option K} {t : K} {u : TWord K}
    {c : SConf S K} (h : SInv A p0 t0 prev t u c) {e : Transition S} (he : e ∈ A.edges c.s epsilon)
    {cs : List (SConf S K)} (hcs : silentEdge prev t c e = .ok cs) {c' : SConf S K} (hc' : c' ∈ cs) :
    SInv A p0 t0 prev t u c' := by
  unfold silentEdge at hcs
  cases hq : e.target with
  | none =>
    simp only [hq, Except.ok.injEq] at hcs
    subst hcs
    simp at hc'
  | some q =>
    simp only [hq] at hcs
    cases hz : (c.z.alloc (.fin t true) (lowerEnd prev)).tightenNewest c.rt e.guard with
    | error x => simp only [hz, reduceCtorEq] at hcs
    | ok z =>
      simp only [hz] at hcs
      by_cases hs : z.isSat = true
      · simp only [hs, if_true, hA c.s e he, resetSym] at hcs
        cases hu : z.update c.rt with
        | error x => simp only [hu, reduceCtorEq] at hcs
        | ok z' =>
          simp only [hu, Except.ok.injEq] at hcs
          subst hcs
          simp only [List.mem_singleton] at hc'
          subst hc'
          obtain ⟨k1, k2, k3, k4, k5, k6⟩ := enter_inv h hz hs
          have hrt : ∀ x, RTime.var x ∈ c.rt → z.InUse x := fun x hx => by rw [h.rt x hx]; exact k5
          have hus := update_sat k1 k3 hu
          have hn := update_newest hu
          have hin := fun x => (update_inUse k1 hrt hu x).2 k2
          have key : ∀ v', z'.Sat v' → ∃ v, z.Sat v ∧ v 0 = v' 0 ∧ ext v z.newestClock = ext v' z.newestClock ∧
              rtVal c.rt v = rtVal c.rt v' := by
            intro v' hv'
            obtain ⟨v, hv, heq⟩ := (hus v').1 hv'
            have h1 : v 0 = v' 0 := heq 1 (hin 1 (by simp))
            exact ⟨v, hv, h1, heq _ (hin _ (by simp)), rtVal_congr (fun x hx => heq x (hin x (by simp [hx]))) h1⟩
          refine ⟨update_ok k1 k3 hu, ?_, fun _ => ?_, h.rt, ?_, ?_, ?_, fun e1 => ?_, ?_⟩
          · rintro rfl
            have := hin 0 (by simp)
            exact this
          · obtain ⟨v, hv⟩ := k3
            exact ⟨v, (hus v).2 ⟨v, hv, fun _ _ => rfl⟩⟩
          · intro v' hv'
            obtain ⟨v, hv, e0, en, er⟩ := key v' hv'
            simp only [hn]
            rw [← en]
            exact (k6 v hv).2.1
          · intro v' hv'
            obtain ⟨v, hv, e0, en, er⟩ := key v' hv'
            rw [← e0]
            exact h.begin v (k6 v hv).1
          · intro v' hv'
            obtain ⟨v, hv, e0, en, er⟩ := key v' hv'
            simp only [hn]
            rw [← e0, ← en]
            exact le_trans (h.ge v (k6 v hv).1) (k6 v hv).2.2.2.1
          · simp only [hn] at e1
            exact absurd e1 k4
          · intro v' hv'
            obtain ⟨v, hv, e0, en, er⟩ := key v' hv'
            obtain ⟨m1, m2, m3, m4, m5⟩ := k6 v hv
            obtain ⟨s0, hs0, now, hnow, hr⟩ := h.run v m1
            refine ⟨s0, hs0, ext v z.newestClock, ?_, ?_⟩
            · intro x hx _
              simp only [hn] at hx
              rw [en]
              exact hx
            · intro w s' hw
              rw [← e0]
              apply hr
              refine TA.SReads.silent (ext v z.newestClock) e q he hq ?_ m5 ?_
              · refine hnow _ m4 ?_
                rintro p rfl
                simp only [lowerEnd, sat_f] at m3
                linarith
              · rw [hA c.s e he]
                have : resetAt (rtVal c.rt v) [] (ext v z.newestClock) = rtVal c.rt v := by
                  funext x
                  simp [resetAt]
                rw [this, er]
                exact hw
      · simp only [Bool.not_eq_true] at hs
        simp only [hs, Bool.false_eq_true, if_false, Except.ok.injEq] at hcs
        subst hcs
        simp at hc'

theorem silentLoop_inv {A : TA S} (hA : A.SilentKeep) {p0 : Option K} {t0 : K} {prev : Option K} {t : K} {u : TWord K}
    {fuel : Nat} {cs cs' : List (SConf S K)} (h : ∀ c ∈ cs, SInv A p0 t0 prev t u c)
    (he : silentLoop A prev t fuel cs = .ok cs') : ∀ c ∈ cs', SInv A p0 t0 prev t u c := by
  induction fuel generalizing cs cs' with
  | zero => simp [silentLoop] at he
  | succ fuel ih =>
    rw [silentLoop] at he
    split at he
    · simp only [Except.ok.injEq] at he
      subst he
      simp
    · cases hf : flatMapE cs (fun c => flatMapE (A.edges c.s epsilon) (silentEdge prev t c)) with
      | error x => simp only [hf, reduceCtorEq] at he
      | ok new =>
        simp only [hf] at he
        have hnew : ∀ c ∈ new, SInv A p0 t0 prev t u c := by
          intro c' hc'
          obtain ⟨c, hc, x, hx, hcx⟩ := flatMapE_mem hf hc'
          obtain ⟨e, hed, y, hy, hcy⟩ := flatMapE_mem hx hcx
          exact silentEdge_inv hA (h c hc) hed hy hcy
        cases hr : silentLoop A prev t fuel new with
        | error x => simp only [hr, reduceCtorEq] at he
        | ok rest =>
          simp only [hr, Except.ok.injEq] at he
          subst he
          intro c hc
          rcases List.mem_append.1 hc with hc | hc
          · exact hnew c hc
          · exact ih hnew hr c hc

theorem silentAll_inv {A : TA S} (hA : A.SilentKeep) {p0 : Option K} {t0 : K} {prev : Option K} {t : K} {u : TWord K}
    {fuel : Nat} {cs cs' : List (SConf S K)} (h : ∀ c ∈ cs, SInv A p0 t0 prev t u c)
    (he : silentAll A prev t fuel cs = .ok cs') : ∀ c ∈ cs', SInv A p0 t0 prev t u c := by
  unfold silentAll at he
  cases hr : silentLoop A prev t fuel (cs.filter fun c => ((A.st c.s).next.find epsilon).isSome) with
  | error x => simp only [hr, reduceCtorEq] at he
  | ok new =>
    simp only [hr, Except.ok.injEq] at he
    subst he
    intro c hc
    rcases List.mem_append.1 hc with hc | hc
    · exact h c hc
    · exact silentLoop_inv hA (fun c hc => h c (List.mem_filter.1 hc).1) hr c hc

theorem stepSym_inv {A : TA S} {p0 : Option K} {t0 : K} {prev : Option K} {t : K} {u : TWord K} {a : Alphabet}
    (ha : a ≠ epsilon) (ht0 : t0 ≤ t) (hp : ∀ p, prev = some p → p ≤ t)
    {c : SConf S K} (h : SInv A p0 t0 prev t u c) {e : Transition S} (he : e ∈ A.edges c.s a)
    {cs : List (SConf S K)} (hcs : stepSym t c e = .ok cs) {c' : SConf S K} (hc' : c' ∈ cs) :
    SInv A p0 t0 (some t) t (u ++ [(a, t)]) c' := by
  unfold stepSym at hcs
  cases hq : e.target with
  | none =>
    simp only [hq, Except.ok.injEq] at hcs
    subst hcs
    simp at hc'
  | some q =>
    simp only [hq] at hcs
    cases hz : c.z.tightenInstant c.rt t e.guard with
    | error x => simp only [hz, reduceCtorEq] at hcs
    | ok z =>
      simp only [hz] at hcs
      by_cases hs : z.isSat = true
      · simp only [hs, if_true] at hcs
        cases hr : resetSym (.at t) c.rt e.resets with
        | error x => simp only [hr, reduceCtorEq] at hcs
        | ok rt =>
        simp only [hr] at hcs
        cases hu : z.update rt with
        | error x => simp only [hu, reduceCtorEq] at hcs
        | ok z' =>
          simp only [hu, Except.ok.injEq] at hcs
          subst hcs
          simp only [List.mem_singleton] at hc'
          subst hc'
          obtain ⟨-, u1, u2⟩ := ok_inUse h.ok h.alive
          have hadd := tightenInstant_spec e.guard h.ok (rt := c.rt) (fun x hx => by
            rw [h.rt x hx]
            exact ⟨by decide, fun _ => u1⟩) hz
          have k2 : z ≠ dead := by
            rintro rfl
            simp [isSat] at hs
          have k1 := hadd.ok
          have k3 := (isSat_iff k1).1 hs
          have kn := hadd.newest h.alive k2
          have k5 := (hadd.used h.alive k2 1).2 u1
          have hrt' : ∀ x, RTime.var x ∈ rt → x = 1 := by
            intro x hx
            rcases mem_resetSym hr hx with hx | hx
            · cases hx
            · exact h.rt x hx
          have hrt : ∀ x, RTime.var x ∈ rt → z.InUse x := fun x hx => by rw [hrt' x hx]; exact k5
          have hus := update_sat k1 k3 hu
          have hn := (update_newest hu).trans kn
          have hin := fun x => (update_inUse k1 hrt hu x).2 k2
          have key : ∀ v', z'.Sat v' → ∃ v, z.Sat v ∧ v 0 = v' 0 ∧ ext v c.z.newestClock = ext v' c.z.newestClock ∧
              rtVal rt v = rtVal rt v' := by
            intro v' hv'
            obtain ⟨v, hv, heq⟩ := (hus v').1 hv'
            have h1 : v 0 = v' 0 := heq 1 (hin 1 (by simp))
            exact ⟨v, hv, h1, heq _ (hin _ (by simp [kn])), rtVal_congr (fun x hx => heq x (hin x (by simp [hx]))) h1⟩
          have hne' : z'.Nonempty := by
            obtain ⟨v, hv⟩ := k3
            exact ⟨v, (hus v).2 ⟨v, hv, fun _ _ => rfl⟩⟩
          have hbeg : ∀ v, z'.Sat v → v 0 < t0 ∧ (lowerBegin p0).sat (-v 0) := by
            intro v' hv'
            obtain ⟨v, hv, e0, en, er⟩ := key v' hv'
            rw [← e0]
            exact h.begin v ((hadd.sat v).1 hv).1
          refine ⟨update_ok k1 k3 hu, ?_, fun _ => hne', hrt', ?_, hbeg, ?_, fun _ _ x hx => ?_, ?_⟩
          · rintro rfl
            have := hin 0 (by simp)
            exact this
          · intro v' hv'
            obtain ⟨v, hv, e0, en, er⟩ := key v' hv'
            simp only [hn]
            rw [← en]
            exact h.upto v ((hadd.sat v).1 hv).1
          · intro v' hv'
            obtain ⟨v, hv, e0, en, er⟩ := key v' hv'
            simp only [hn]
            rw [← e0, ← en]
            exact h.ge v ((hadd.sat v).1 hv).1
          · obtain ⟨v, hv⟩ := hne'
            refine ⟨v, hv, ?_⟩
            have := (hbeg v hv).1
            simp only [lowerEnd, sat_f] at hx
            linarith
          · intro v' hv'
            obtain ⟨v, hv, e0, en, er⟩ := key v' hv'
            obtain ⟨m1, m5⟩ := (hadd.sat v).1 hv
            obtain ⟨s0, hs0, now, hnow, hrun⟩ := h.run v m1
            refine ⟨s0, hs0, t, fun x _ hx => hx t rfl, fun w s' hw => ?_⟩
            rw [← e0, List.append_assoc]
            apply hrun
            refine TA.SReads.event e q he hq ha (hnow t (h.upto v m1) hp) m5 ?_
            rw [← rtVal_resetSym hr, er]
            exact hw
      · simp only [Bool.not_eq_true] at hs
        simp only [hs, Bool.false_eq_true, if_false, Except.ok.injEq] at hcs
        subst hcs
        simp at hc'

theorem acceptSym_spec {A : TA S} {p0 : Option K} {t0 : K} {prev : Option K} {t : K} {u : TWord K} {a : Alphabet}
    (ha : a ≠ epsilon) {c : SConf S K} (h : SInv A p0 t0 prev t u c) {e : Transition S} (he : e ∈ A.edges c.s a)
    {zs : List (Zone K)} (hzs : acceptSym A prev t c e = .ok zs) {z : Zone K} (hz : z ∈ zs) {v : Nat → K}
    (hv : z.Sat v) :
    v 0 < t0 ∧ (lowerBegin p0).sat (-v 0) ∧ v 0 ≤ v 1 ∧ v 1 ≤ t ∧ (lowerEnd prev).sat (-v 1) ∧
      ∃ s0 ∈ A.init, ∃ s', A.SReads s0 (fun _ => v 0) (v 0) (u ++ [(a, v 1)]) s' ∧ (A.st s').isMatch = true := by
  unfold acceptSym at hzs
  cases hq : e.target with
  | none =>
    simp only [hq, Except.ok.injEq] at hzs
    subst hzs
    simp at hz
  | some q =>
    simp only [hq] at hzs
    by_cases hm : (A.st q).isMatch = true
    swap
    · simp only [Bool.not_eq_true] at hm
      simp only [hm, Bool.not_false, if_true, Except.ok.injEq] at hzs
      subst hzs
      simp at hz
    simp only [hm, Bool.not_true, Bool.false_eq_true, if_false] at hzs
    cases hg : (c.z.alloc (.fin t true) (lowerEnd prev)).tightenNewest c.rt e.guard with
    | error x => simp only [hg, reduceCtorEq] at hzs
    | ok y =>
      simp only [hg] at hzs
      by_cases hs : y.isSat = true
      swap
      · simp only [Bool.not_eq_true] at hs
        simp only [hs, Bool.false_eq_true, if_false, Except.ok.injEq] at hzs
        subst hzs
        simp at hz
      simp only [hs, if_true, Except.ok.injEq] at hzs
      subst hzs
      simp only [List.mem_singleton] at hz
      subst hz
      obtain ⟨k1, k2, k3, k4, k5, k6⟩ := enter_inv h hg hs
      obtain ⟨v', hv', e0, e1⟩ := (toAns_sat k1 k3 k4 v).1 hv
      obtain ⟨m1, m2, m3, m4, m5⟩ := k6 v' hv'
      obtain ⟨b1, b2⟩ := h.begin v' m1
      obtain ⟨s0, hs0, now, hnow, hrun⟩ := h.run v' m1
      have hge := h.ge v' m1
      rw [e1] at m2 m3 m4 m5
      rw [e0] at b1 b2 hge hrun
      refine ⟨b1, b2, le_trans hge m4, m2, m3, s0, hs0, q, hrun _ _ ?_, hm⟩
      refine TA.SReads.event e q he hq ha (hnow _ m4 ?_) m5 (.done _ _ _)
      rintro p rfl
      simp only [lowerEnd, sat_f] at m3
      linarith

theorem eventSym_inv {A : TA S} {efuel : Nat} {prev : Option K} {a : Alphabet} {t : K} {cs : List (SConf S K)}
    {r : List (Zone K) × List (SConf S K) × List (SConf S K)} (h : eventSym A efuel prev a t cs = .ok r) :
    ∃ cs1, silentAll A prev t efuel cs = .ok cs1 ∧
      flatMapE cs1 (fun c => flatMapE (A.edges c.s a) (acceptSym A prev t c)) = .ok r.1 ∧ r.2.1 = cs1 ∧
      flatMapE cs1 (fun c => flatMapE (A.edges c.s a) (stepSym t c)) = .ok r.2.2 := by
  unfold eventSym at h
  cases h1 : silentAll A prev t efuel cs with
  | error x => simp only [h1, reduceCtorEq] at h
  | ok cs1 =>
    simp only [h1] at h
    cases h2 : flatMapE cs1 (fun c => flatMapE (A.edges c.s a) (acceptSym A prev t c)) with
    | error x => simp only [h2, reduceCtorEq] at h
    | ok zs =>
      simp only [h2] at h
      cases h3 : flatMapE cs1 (fun c => flatMapE (A.edges c.s a) (stepSym t c)) with
      | error x => simp only [h3, reduceCtorEq] at h
      | ok cs' =>
        simp only [h3, Except.ok.injEq] at h
        subst h
        exact ⟨cs1, rfl, h2, rfl, h3⟩

/-- The zones reported from one start position. -/
theorem runSilent_sound {A : TA S} (hA : A.SilentKeep) {n efuel : Nat} {p0 : Option K} {t0 : K} {w : TWord K}
    (hlab : ∀ e ∈ w, e.1 ≠ epsilon) {prev : Option K} {B : K} {u : TWord K} {cs last : List (SConf S K)}
    (hs : w.Pairwise fun a b => a.2 ≤ b.2) (hB : ∀ e ∈ w, B ≤ e.2 ∧ t0 ≤ e.2 ∧ ∀ p, prev = some p → p ≤ e.2)
    (h : ∀ c ∈ cs, SInv A p0 t0 prev B u c) {r : List (Zone K) × List (SConf S K)}
    (hr : runListE (silentHooks A n efuel) prev w cs last = .ok r) {z : Zone K} (hz : z ∈ r.1) {v : Nat → K}
    (hv : z.Sat v) :
    v 0 < t0 ∧ (lowerBegin p0).sat (-v 0) ∧ v 0 ≤ v 1 ∧ ∃ u' rest a, w = u' ++ rest ∧ rest.head?.map (·.1) = some a ∧
      EndsAt prev u' rest (v 1) ∧
      ∃ s0 ∈ A.init, ∃ s', A.SReads s0 (fun _ => v 0) (v 0) (u ++ u' ++ [(a, v 1)]) s' ∧ (A.st s').isMatch = true := by
  induction w generalizing prev B u cs last r with
  | nil =>
    simp only [runListE, silentHooks, ite_self, Except.ok.injEq] at hr
    subst hr
    simp at hz
  | cons e w ih =>
    rw [runListE] at hr
    split at hr
    · simp only [Except.ok.injEq] at hr
      subst hr
      simp at hz
    cases he : (silentHooks A n efuel).event prev e.1 e.2 cs with
    | error x => simp only [he, reduceCtorEq] at hr
    | ok x =>
      simp only [he] at hr
      cases hr' : runListE (silentHooks A n efuel) (some e.2) w x.2.2 x.2.1 with
      | error y => simp only [hr', reduceCtorEq] at hr
      | ok y =>
        simp only [hr', Except.ok.injEq] at hr
        subst hr
        obtain ⟨cs1, g1, g2, g3, g4⟩ := eventSym_inv he
        obtain ⟨hB1, hB2, hB3⟩ := hB e (by simp)
        have hcs1 := silentAll_inv hA (fun c hc => (h c hc).mono hB1) g1
        have hs' := List.pairwise_cons.1 hs
        rcases List.mem_append.1 hz with hz | hz
        · obtain ⟨c, hc, xs, hx, hzx⟩ := flatMapE_mem g2 hz
          obtain ⟨ed, hed, ys, hy, hzy⟩ := flatMapE_mem hx hzx
          obtain ⟨q1, q2, q3, q4, q5, s0, hs0, s', hrd, hm⟩ :=
            acceptSym_spec (hlab e (by simp)) (hcs1 c hc) hed hy hzy hv
          exact ⟨q1, q2, q3, [], e :: w, e.1, rfl, rfl, ⟨by simpa using q4, by simpa using q5⟩, s0, hs0, s',
            by simpa using hrd, hm⟩
        · have hcs2 : ∀ c ∈ x.2.2, SInv A p0 t0 (some e.2) e.2 (u ++ [(e.1, e.2)]) c := by
            intro c' hc'
            obtain ⟨c, hc, xs, hx, hzx⟩ := flatMapE_mem g4 hc'
            obtain ⟨ed, hed, ys, hy, hzy⟩ := flatMapE_mem hx hzx
            exact stepSym_inv (hlab e (by simp)) hB2 hB3 (hcs1 c hc) hed hy hzy
          obtain ⟨q1, q2, q3, u', rest, a, hw, hh, hend, s0, hs0, s', hrd, hm⟩ :=
            ih (fun e he => hlab e (by simp [he])) hs'.2
              (fun e' he' => ⟨hs'.1 e' he', (hB e' (by simp [he'])).2.1, by
                rintro p hp
                cases hp
                exact hs'.1 e' he'⟩) hcs2 hr' hz
          refine ⟨q1, q2, q3, e :: u', rest, a, by rw [hw]; rfl, hh, ⟨hend.1, ?_⟩, s0, hs0, s', by simpa using hrd, hm⟩
          have h2 := hend.2
          cases hl : u'.getLast? with
          | none =>
            rw [List.getLast?_eq_none_iff] at hl
            subst hl
            simpa using h2
          | some y =>
            rw [hl] at h2
            rw [List.getLast?_cons, hl]
            exact h2

theorem start_facts {w : TWord K} (hw : LogOk w) {i : Nat} (hi : i < w.length) :
    (∀ e ∈ w.drop i, w[i].2 ≤ e.2) ∧ ∀ p, prevOf w i = some p → p ≤ w[i].2 := by
  constructor
  · intro e he
    obtain ⟨k, hk, rfl⟩ := List.mem_drop_iff_getElem.1 he
    rcases Nat.eq_zero_or_pos k with rfl | hk0
    · simp
    · exact List.pairwise_iff_getElem.1 hw.sorted i (i + k) hi (by omega) (by omega)
  · intro p hp
    unfold prevOf at hp
    split at hp
    · cases hp
    · rw [List.getElem?_eq_getElem (by omega)] at hp
      simp only [Option.map_some, Option.some.injEq] at hp
      subst hp
      exact List.pairwise_iff_getElem.1 hw.sorted (i - 1) i (by omega) hi (by omega)

theorem silent_sound_at {A : TA S} (hA : A.SilentKeep) {n efuel : Nat} {w : TWord K} (hw : LogOk w)
    (hlab : ∀ e ∈ w, e.1 ≠ epsilon) {i : Nat} (hi : i < w.length) {r : List (Zone K) × List (SConf S K)}
    (hr : runListE (silentHooks A n efuel) (prevOf w i) (w.drop i) (startSym A n (prevOf w i) w[i].2) [] = .ok r)
    {z : Zone K} (hz : z ∈ r.1) {t t' : K} (hv : z.Has t t') : A.SilentMatch w t t' := by
  obtain ⟨hdrop, hprev⟩ := start_facts hw hi
  obtain ⟨q1, q2, q3, u', rest, a, hsplit, hh, hend, s0, hs0, s', hrd, hm⟩ :=
    runSilent_sound hA (fun e he => hlab e (List.mem_of_mem_drop he))
      (hw.sorted.sublist (List.drop_sublist i w)) (fun e he => ⟨hdrop e he, hdrop e he, fun p hp =>
        le_trans (hprev p hp) (hdrop e he)⟩) (fun c hc => startSym_inv hc) hr hz hv
  simp only [if_true, one_ne_zero, if_false] at q1 q2 q3 hend hrd
  have hstart : StartsAt w i t := (startsAt_iff hw hi).2 ⟨q1, q2⟩
  obtain ⟨hb, hl⟩ := split_facts (v := fun k => if k = 0 then t else t') hw hi hstart hsplit hend q3
  simp only [if_true, one_ne_zero, if_false] at hb hl
  refine ⟨hstart.nonneg, q3, a, by rw [hl]; exact hh, s0, hs0, s', ?_, hm⟩
  rw [hb]
  simpa using hrd

end Verif
