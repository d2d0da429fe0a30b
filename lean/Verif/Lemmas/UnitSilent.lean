import Verif.Lemmas.UnitMatch

/-!
# Silent transitions in another unit of time
-/

namespace Verif

variable {S K : Type} {k : Int}

/-- A reset time multiplied. -/
def RTime.scale [Mul K] [IntCast K] (k : Int) : RTime K → RTime K
  | .at t => .at ((k : K) * t)
  | .var x => .var x

/-- An intermediate zone with its bounds multiplied. -/
def IZone.scale [Mul K] [IntCast K] (k : Int) : IZone K → IZone K
  | .one lo up => .one (lo.scale k) (up.scale k)
  | .three b => .three (b.scale k)
  | .zone z l n => .zone (z.scale k) l n
  | .dead => .dead

/-- A configuration with its times multiplied. -/
def SConf.scale [Mul K] [IntCast K] (k : Int) (c : SConf S K) : SConf S K :=
  { s := c.s, rt := c.rt.map (RTime.scale k), z := c.z.scale k }

variable [Field K] [LinearOrder K] [IsStrictOrderedRing K]

namespace IZone

theorem scale_zero' (s : Bool) : (Bnd.fin 0 s : Bnd K) = (Bnd.fin 0 s : Bnd K).scale k := (Bnd.scale_zero s).symm

theorem deallocate_scale (z : Zone K) (x : Nat) : deallocate (z.scale k) x = (deallocate z x).scale k := by
  simp only [deallocate, Zone.scale_build, Zone.scale_get, Zone.scale_n, Zone.scale_M, apply_ite (Bnd.scale k),
    Bnd.scale_zero, Bnd.scale_inf]

theorem throughAll_scale (hk : 0 < k) (z : Zone K) (i j : Nat) : throughAll (z.scale k) i j = (throughAll z i j).scale k := by
  simp only [throughAll, Zone.scale_n, Zone.scale_get]
  generalize z.get i j = b
  generalize List.range z.n = l
  induction l generalizing b with
  | nil => rfl
  | cons x l ih => rw [List.foldl_cons, List.foldl_cons, ← Bnd.scale_add, ← Bnd.scale_min hk, ih]

theorem foldl_scale {f f' : Zone K → Nat → Zone K} (h : ∀ z x, f' (z.scale k) x = (f z x).scale k) (l : List Nat) (z : Zone K) :
    l.foldl f' (z.scale k) = (l.foldl f z).scale k := by
  induction l generalizing z with
  | nil => rfl
  | cons x l ih => rw [List.foldl_cons, List.foldl_cons, h, ih]

theorem closeColumn_scale (hk : 0 < k) (z : Zone K) (j : Nat) : closeColumn (z.scale k) j = (closeColumn z j).scale k := by
  simp only [closeColumn, Zone.scale_n]
  exact foldl_scale (fun z x => by rw [throughAll_scale hk, Zone.scale_set]) _ _

theorem closeRow_scale (hk : 0 < k) (z : Zone K) (j : Nat) : closeRow (z.scale k) j = (closeRow z j).scale k := by
  simp only [closeRow, Zone.scale_n]
  refine foldl_scale (fun z x => ?_) _ _
  rw [Zone.scale_n]
  exact foldl_scale (fun z y => by
    rw [Zone.scale_get, Zone.scale_get, Zone.scale_get, ← Bnd.scale_add, ← Bnd.scale_min hk, Zone.scale_set]) _ _

theorem convert_scale (b : Six K) (u l : Bnd K) : convert (b.scale k) (u.scale k) (l.scale k) = (convert b u l).scale k := by
  simp only [convert, Zone.scale_build, apply_ite (Bnd.scale k), Bnd.scale_zero, Bnd.scale_inf, Six.scale]

theorem grow_scale (z : Zone K) : grow (z.scale k) = (grow z).scale k := by
  simp only [grow, Zone.scale_build, Zone.scale_get, Zone.scale_n, Zone.scale_M, apply_ite (Bnd.scale k),
    Bnd.scale_zero, Bnd.scale_inf]

theorem enter_scale (z : Zone K) (x n : Nat) (u l : Bnd K) :
    enter (z.scale k) x n (u.scale k) (l.scale k) = (enter z x n u l).scale k := by
  simp only [enter, Zone.scale_set, Bnd.scale_zero, Bnd.scale_inf]

theorem alloc_scale (hk : 0 < k) (u l : Bnd K) (z : IZone K) :
    (z.scale k).alloc (u.scale k) (l.scale k) = (z.alloc u l).scale k := by
  cases z with
  | one lo up =>
    simp only [alloc, scale, Six.scale, Bnd.scale_add, Bnd.scale_min hk, Bnd.scale_zero]
  | three b => simp only [alloc, scale, convert_scale, closeColumn_scale hk, closeRow_scale hk]
  | zone z al n =>
    simp only [alloc, scale, Zone.scale_n]
    cases al.findIdx? (fun b => !b) with
    | some x => simp only [enter_scale, closeColumn_scale hk, closeRow_scale hk, scale]
    | none => simp only [grow_scale, enter_scale, closeColumn_scale hk, closeRow_scale hk, scale]
  | dead => rfl

omit [LinearOrder K] [IsStrictOrderedRing K] in
theorem keepOf_scale (n m : Nat) (rt : List (RTime K)) : keepOf n m (rt.map (RTime.scale k)) = keepOf n m rt := by
  simp only [keepOf, List.foldlM_map]
  congr 1
  funext l r
  cases r <;> rfl

theorem update_scale (rt : List (RTime K)) (z : IZone K) :
    (z.scale k).update (rt.map (RTime.scale k)) = (z.update rt).map (scale k) := by
  cases z with
  | one lo up => rfl
  | three b => rfl
  | dead => rfl
  | zone z al n =>
    simp only [update, scale, Zone.scale_n, keepOf_scale, bind, Except.bind]
    cases keepOf z.n n rt with
    | error x => rfl
    | ok l =>
      simp only [Except.map, scale]
      congr 2
      refine foldl_scale (fun z x => ?_) _ _
      rw [deallocate_scale]
      split_ifs <;> rfl

theorem toAns_scale (z : IZone K) : (z.scale k).toAns = z.toAns.scale k := by
  cases z with
  | one lo up => simp only [toAns, scale, Zone.scale_zone0, Bnd.scale_zero]
  | three b => exact sixZone_scale b
  | dead => simp only [toAns, scale, Zone.scale_zone0, Bnd.scale_zero]
  | zone z al n =>
    simp only [toAns, scale, Zone.scale_get]
    rw [← sixZone_scale]
    rfl

theorem tighten_scale (hk : 0 < k) (x y : Nat) (c : Bnd K) (z : IZone K) :
    (z.scale k).tighten x y (c.scale k) = (z.tighten x y c).map (scale k) := by
  cases z with
  | one lo up =>
    simp only [tighten, scale, ← Bnd.scale_min hk]
    split_ifs <;> rfl
  | three b =>
    simp only [tighten, scale, Six.scale, ← Bnd.scale_add, ← Bnd.scale_min hk]
    split_ifs <;> rfl
  | dead => rfl
  | zone z al n =>
    simp only [tighten, scale, Zone.scale_n, Zone.scale_get, ← Bnd.scale_min hk, ← Zone.scale_set, Bnd.scale_inj hk,
      ← Zone.scale_close1 hk]
    by_cases h : x < z.n ∧ y < z.n
    · rw [if_pos h, if_pos h]
      split_ifs <;> rfl
    · rw [if_neg h, if_neg h]
      rfl

theorem newestClock_scale (z : IZone K) : (z.scale k).newestClock = z.newestClock := by cases z <;> rfl

theorem fin_add (a b : K) (s : Bool) : Bnd.fin ((k : K) * a + (k : K) * b) s = (Bnd.fin (a + b) s).scale k := by
  rw [Bnd.scale_fin, mul_add]

theorem fin_sub (a b : K) (s : Bool) : Bnd.fin ((k : K) * a - (k : K) * b) s = (Bnd.fin (a - b) s).scale k := by
  rw [Bnd.scale_fin, mul_sub]

theorem fin_negsub (a b : K) (s : Bool) : Bnd.fin (-((k : K) * a) - (k : K) * b) s = (Bnd.fin (-a - b) s).scale k := by
  rw [Bnd.scale_fin]
  congr 1
  ring

theorem fin_neg (a : K) (s : Bool) : Bnd.fin (-((k : K) * a)) s = (Bnd.fin (-a) s).scale k := by
  rw [Bnd.scale_fin]
  congr 1
  ring

theorem fin_one (a : K) (s : Bool) : Bnd.fin ((k : K) * a) s = (Bnd.fin a s).scale k := by
  rw [Bnd.scale_fin]

theorem tightenVar_scale (hk : 0 < k) (x : Nat) (g : Constraint) (r : Nat) (z : IZone K) :
    (z.scale k).tightenVar x (g.scale k) r = (z.tightenVar x g r).map (scale k) := by
  obtain ⟨y, odr, c⟩ := g
  cases odr <;> simp only [tightenVar, Constraint.scale, Int.cast_mul] <;>
    first | rw [fin_one, tighten_scale hk] | rw [fin_neg, tighten_scale hk]

theorem tightenAt_scale (hk : 0 < k) (x : Nat) (g : Constraint) (t : K) (z : IZone K) :
    (z.scale k).tightenAt x (g.scale k) ((k : K) * t) = (z.tightenAt x g t).map (scale k) := by
  obtain ⟨y, odr, c⟩ := g
  cases odr <;> simp only [tightenAt, Constraint.scale, Int.cast_mul] <;>
    first | rw [fin_add, tighten_scale hk] | rw [fin_negsub, tighten_scale hk]

theorem tightenAgo_scale (hk : 0 < k) (x : Nat) (g : Constraint) (t : K) (z : IZone K) :
    (z.scale k).tightenAgo x (g.scale k) ((k : K) * t) = (z.tightenAgo x g t).map (scale k) := by
  obtain ⟨y, odr, c⟩ := g
  cases odr <;> simp only [tightenAgo, Constraint.scale, Int.cast_mul] <;>
    rw [fin_sub, tighten_scale hk]

theorem tightenNewest_scale (hk : 0 < k) (rt : List (RTime K)) (gs : List Constraint) (z : IZone K) :
    (z.scale k).tightenNewest (rt.map (RTime.scale k)) (gs.map (Constraint.scale k)) =
      (z.tightenNewest rt gs).map (scale k) := by
  induction gs generalizing z with
  | nil => rfl
  | cons g gs ih =>
    have hx : (g.scale k).x = g.x := rfl
    simp only [List.map_cons, tightenNewest, hx, List.getElem?_map]
    cases rt[g.x]? with
    | none => rfl
    | some r =>
      cases r with
      | «at» t =>
        simp only [Option.map_some, RTime.scale, newestClock_scale, tightenAt_scale hk]
        cases z.tightenAt z.newestClock g t with
        | error x => rfl
        | ok z => exact ih z
      | var x =>
        simp only [Option.map_some, RTime.scale, newestClock_scale, tightenVar_scale hk]
        cases z.tightenVar z.newestClock g x with
        | error x => rfl
        | ok z => exact ih z

theorem tightenInstant_scale (hk : 0 < k) (rt : List (RTime K)) (t : K) (gs : List Constraint) (z : IZone K) :
    (z.scale k).tightenInstant (rt.map (RTime.scale k)) ((k : K) * t) (gs.map (Constraint.scale k)) =
      (z.tightenInstant rt t gs).map (scale k) := by
  induction gs generalizing z with
  | nil => rfl
  | cons g gs ih =>
    have hx : (g.scale k).x = g.x := rfl
    simp only [List.map_cons, tightenInstant, hx, List.getElem?_map]
    cases rt[g.x]? with
    | none => rfl
    | some r =>
      cases r with
      | «at» r =>
        simp only [Option.map_some, RTime.scale, ← mul_sub, satisfy_scale hk]
        rw [← ih]
        congr 1
        split_ifs <;> rfl
      | var x =>
        simp only [Option.map_some, RTime.scale, tightenAgo_scale hk]
        cases z.tightenAgo x g t with
        | error x => rfl
        | ok z => exact ih z

theorem isSat_scale (hk : 0 < k) (z : IZone K) : (z.scale k).isSat = z.isSat := by
  cases z with
  | one lo up => exact isValidConstraint_scale hk up lo
  | three b => exact sixValid_scale hk b
  | zone z al n => exact Zone.scale_noNegativePair hk z
  | dead => rfl

theorem ofInterval_scale (l u : Bnd K) : ofInterval (l.scale k) (u.scale k) = (ofInterval l u).scale k := by
  cases l with
  | fin c s => simp only [ofInterval, scale, Bnd.scale_fin, fin_neg]
  | inf s => rfl

end IZone

theorem flatMapE_scale {α β γ δ : Type} {f : α → Except Err (List β)} {f' : γ → Except Err (List δ)} {g : β → δ} {h : α → γ}
    (H : ∀ a, f' (h a) = (f a).map (List.map g)) (l : List α) :
    flatMapE (l.map h) f' = (flatMapE l f).map (List.map g) := by
  induction l with
  | nil => rfl
  | cons a l ih =>
    simp only [List.map_cons, flatMapE, H]
    cases f a with
    | error x => rfl
    | ok x =>
      simp only [Except.map, ih]
      cases flatMapE l f with
      | error y => rfl
      | ok y => simp only [Except.map, List.map_append]

omit [LinearOrder K] [IsStrictOrderedRing K] in
theorem resetSym_scale (v : RTime K) (xs : List Nat) (rt : List (RTime K)) :
    resetSym (v.scale k) (rt.map (RTime.scale k)) xs = (resetSym v rt xs).map (List.map (RTime.scale k)) := by
  induction xs generalizing rt with
  | nil => rfl
  | cons x xs ih =>
    simp only [resetSym, List.length_map, ← List.map_set, ih]
    split_ifs <;> rfl

theorem silentEdge_scale (hk : 0 < k) (prev : Option K) (t : K) (c : SConf S K) (e : Transition S) :
    silentEdge (prev.map ((k : K) * ·)) ((k : K) * t) (c.scale k) (e.scale k) =
      (silentEdge prev t c e).map (List.map (SConf.scale k)) := by
  have ht : (e.scale k).target = e.target := rfl
  have hg : (e.scale k).guard = e.guard.map (Constraint.scale k) := rfl
  have hres : (e.scale k).resets = e.resets := rfl
  have hr : (c.scale k).rt = c.rt.map (RTime.scale k) := rfl
  have hz : (c.scale k).z = c.z.scale k := rfl
  have h0 : (RTime.var 0 : RTime K) = (RTime.var 0 : RTime K).scale k := rfl
  simp only [silentEdge, ht, hg, hres, hr, hz, lowerEnd_scale, ← Bnd.scale_fin, IZone.alloc_scale hk,
    IZone.tightenNewest_scale hk]
  cases e.target with
  | none => rfl
  | some q =>
    simp only []
    cases (c.z.alloc (.fin t true) (lowerEnd prev)).tightenNewest c.rt e.guard with
    | error x => rfl
    | ok z =>
      simp only [Except.map, IZone.isSat_scale hk]
      by_cases h : z.isSat = true
      · rw [if_pos h, if_pos h, h0, resetSym_scale, ← h0]
        cases resetSym (.var 0) c.rt e.resets with
        | error x => rfl
        | ok rt =>
          simp only [Except.map, IZone.update_scale]
          cases z.update rt <;> rfl
      · rw [if_neg h, if_neg h]
        rfl

theorem silentLoop_scale (hk : 0 < k) (A : TA S) (prev : Option K) (t : K) (fuel : Nat) (cs : List (SConf S K)) :
    silentLoop (A.scale k) (prev.map ((k : K) * ·)) ((k : K) * t) fuel (cs.map (SConf.scale k)) =
      (silentLoop A prev t fuel cs).map (List.map (SConf.scale k)) := by
  induction fuel generalizing cs with
  | zero => rfl
  | succ fuel ih =>
    have h := flatMapE_scale (f := fun c : SConf S K => flatMapE (A.edges c.s epsilon) (silentEdge prev t c))
      (f' := fun c => flatMapE ((A.scale k).edges c.s epsilon) (silentEdge (prev.map ((k : K) * ·)) ((k : K) * t) c))
      (g := SConf.scale k) (h := SConf.scale k) (fun c => by
        have hs : (c.scale k).s = c.s := rfl
        simp only [hs, TA.scale_edges]
        exact flatMapE_scale (fun e => silentEdge_scale hk prev t c e) _) cs
    simp only [silentLoop, List.isEmpty_map, h]
    by_cases hc : cs.isEmpty = true
    · rw [if_pos hc, if_pos hc]
      rfl
    · rw [if_neg hc, if_neg hc]
      cases flatMapE cs (fun c : SConf S K => flatMapE (A.edges c.s epsilon) (silentEdge prev t c)) with
      | error x => rfl
      | ok new =>
        simp only [Except.map, ih]
        cases silentLoop A prev t fuel new with
        | error x => rfl
        | ok rest => simp only [Except.map, List.map_append]

theorem silentAll_scale (hk : 0 < k) (A : TA S) (prev : Option K) (t : K) (fuel : Nat) (cs : List (SConf S K)) :
    silentAll (A.scale k) (prev.map ((k : K) * ·)) ((k : K) * t) fuel (cs.map (SConf.scale k)) =
      (silentAll A prev t fuel cs).map (List.map (SConf.scale k)) := by
  have h3 : ∀ s, ((A.scale k).st s).next = Next.scale k (A.st s).next := fun _ => rfl
  have h : (cs.map (SConf.scale k)).filter (fun c => (((A.scale k).st c.s).next.find epsilon).isSome) =
      (cs.filter fun c => ((A.st c.s).next.find epsilon).isSome).map (SConf.scale k) := by
    rw [List.filter_map]
    congr 1
    refine List.filter_congr fun c _ => ?_
    have hs : (c.scale k).s = c.s := rfl
    simp only [Function.comp_apply, hs, h3, Next.scale_find, Option.isSome_map]
  simp only [silentAll, h, silentLoop_scale hk]
  cases silentLoop A prev t fuel (cs.filter fun c => ((A.st c.s).next.find epsilon).isSome) with
  | error x => rfl
  | ok new => simp only [Except.map, List.map_append]

theorem acceptSym_scale (hk : 0 < k) (A : TA S) (prev : Option K) (t : K) (c : SConf S K) (e : Transition S) :
    acceptSym (A.scale k) (prev.map ((k : K) * ·)) ((k : K) * t) (c.scale k) (e.scale k) =
      (acceptSym A prev t c e).map (List.map (Zone.scale k)) := by
  have ht : (e.scale k).target = e.target := rfl
  have hm : ∀ q, ((A.scale k).st q).isMatch = (A.st q).isMatch := fun _ => rfl
  have hg : (e.scale k).guard = e.guard.map (Constraint.scale k) := rfl
  have hr : (c.scale k).rt = c.rt.map (RTime.scale k) := rfl
  have hz : (c.scale k).z = c.z.scale k := rfl
  simp only [acceptSym, ht, hm, hg, hr, hz, lowerEnd_scale, ← Bnd.scale_fin, IZone.alloc_scale hk,
    IZone.tightenNewest_scale hk]
  cases e.target with
  | none => rfl
  | some q =>
    simp only []
    by_cases h : (!(A.st q).isMatch) = true
    · rw [if_pos h, if_pos h]
      rfl
    · rw [if_neg h, if_neg h]
      cases (c.z.alloc (.fin t true) (lowerEnd prev)).tightenNewest c.rt e.guard with
      | error x => rfl
      | ok z =>
        simp only [Except.map, IZone.isSat_scale hk, IZone.toAns_scale]
        split_ifs <;> rfl

theorem stepSym_scale (hk : 0 < k) (t : K) (c : SConf S K) (e : Transition S) :
    stepSym ((k : K) * t) (c.scale k) (e.scale k) = (stepSym t c e).map (List.map (SConf.scale k)) := by
  have ht : (e.scale k).target = e.target := rfl
  have hg : (e.scale k).guard = e.guard.map (Constraint.scale k) := rfl
  have hres : (e.scale k).resets = e.resets := rfl
  have hr : (c.scale k).rt = c.rt.map (RTime.scale k) := rfl
  have hz : (c.scale k).z = c.z.scale k := rfl
  have h0 : (RTime.at ((k : K) * t) : RTime K) = (RTime.at t : RTime K).scale k := rfl
  simp only [stepSym, ht, hg, hres, hr, hz, IZone.tightenInstant_scale hk]
  cases e.target with
  | none => rfl
  | some q =>
    simp only []
    cases c.z.tightenInstant c.rt t e.guard with
    | error x => rfl
    | ok z =>
      simp only [Except.map, IZone.isSat_scale hk]
      by_cases h : z.isSat = true
      · rw [if_pos h, if_pos h, h0, resetSym_scale]
        cases resetSym (.at t) c.rt e.resets with
        | error x => rfl
        | ok rt =>
          simp only [Except.map, IZone.update_scale]
          cases z.update rt <;> rfl
      · rw [if_neg h, if_neg h]
        rfl

theorem startSym_scale (A : TA S) (n : Nat) (prev : Option K) (t : K) :
    startSym (A.scale k) n (prev.map ((k : K) * ·)) ((k : K) * t) = (startSym A n prev t).map (SConf.scale k) := by
  have hi : (A.scale k).init = A.init := rfl
  simp only [startSym, hi, List.map_map]
  refine List.map_congr_left fun s _ => ?_
  simp only [Function.comp_apply, SConf.scale, List.map_replicate, ← IZone.ofInterval_scale]
  cases prev with
  | none => simp only [Option.map_none, Bnd.scale_zero]; rfl
  | some p => rfl

theorem silentHooks_scale (hk : 0 < k) (A : TA S) (n efuel : Nat) :
    HooksScale (K := K) k (SConf.scale k) (silentHooks A n efuel) (silentHooks (A.scale k) n efuel) where
  state _ := rfl
  start prev t := startSym_scale A n prev t
  event prev a t cs := by
    have h1 := fun cs : List (SConf S K) => flatMapE_scale (f := fun c : SConf S K => flatMapE (A.edges c.s a) (acceptSym A prev t c))
      (f' := fun c => flatMapE ((A.scale k).edges c.s a) (acceptSym (A.scale k) (prev.map ((k : K) * ·)) ((k : K) * t) c))
      (g := Zone.scale k) (h := SConf.scale k) (fun c => by
        have hs : (c.scale k).s = c.s := rfl
        simp only [hs, TA.scale_edges]
        exact flatMapE_scale (fun e => acceptSym_scale hk A prev t c e) _) cs
    have h2 := fun cs : List (SConf S K) => flatMapE_scale (f := fun c : SConf S K => flatMapE (A.edges c.s a) (stepSym t c))
      (f' := fun c => flatMapE ((A.scale k).edges c.s a) (stepSym ((k : K) * t) c))
      (g := SConf.scale k) (h := SConf.scale k) (fun c => by
        have hs : (c.scale k).s = c.s := rfl
        simp only [hs, TA.scale_edges]
        exact flatMapE_scale (fun e => stepSym_scale hk t c e) _) cs
    simp only [silentHooks, eventSym, silentAll_scale hk]
    cases silentAll A prev t efuel cs with
    | error x => rfl
    | ok cs =>
      simp only [Except.map, h1, h2]
      cases flatMapE cs (fun c : SConf S K => flatMapE (A.edges c.s a) (acceptSym A prev t c)) with
      | error x => rfl
      | ok zs =>
        simp only [Except.map]
        cases flatMapE cs (fun c : SConf S K => flatMapE (A.edges c.s a) (stepSym t c)) <;> rfl
  final _ _ := rfl

omit [LinearOrder K] [IsStrictOrderedRing K] in
theorem reachesStart_scale (T : Tables S) (inner : Nat) (w : TWord K) :
    reachesStart (vectorCont K) T inner (scaleLog k w) = reachesStart (vectorCont K) T inner w := by
  simp only [reachesStart, fetch_scale, fetch_vec w]
  by_cases hb : (!decide (0 + T.m - 1 < w.length)) = true
  · rw [if_pos hb, if_pos hb]
  · rw [if_neg hb, if_neg hb]
    have hb' : decide (0 + T.m - 1 < w.length) = true := by simpa using hb
    rw [if_pos hb', if_pos hb']
    by_cases hm : T.m > 1
    · rw [if_pos hm, if_pos hm, sundayLoop_scale]
      cases hq : sundayLoop (vectorCont K) T inner 0 w with
      | error x => rfl
      | ok r =>
        have hr := sundayLoop_vec T inner 0 r hq
        obtain ⟨r, u⟩ := r
        simp only at hr
        subst hr
        cases r with
        | none => rfl
        | some i => simp only [Except.map, fetch_scale, fetch_vec u]
    · rw [if_neg hm, if_neg hm]
      simp only [fetch_scale, fetch_vec w]

/-- `monaa` in another unit of time. -/
theorem monaa_scale [DecidableEq S] (hk : 0 < k) (fuel steps efuel : Nat) (st : Option Nat) (A : TA S) (w : TWord K) :
    monaa fuel steps efuel (vectorCont K) st (A.scale k) (scaleLog k w) =
      ((monaa fuel steps efuel (vectorCont K) st A w).1.map (List.map (Zone.scale k)),
        (monaa fuel steps efuel (vectorCont K) st A w).2) := by
  have h1 : (A.scale k).states = A.states := rfl
  have h3 : ∀ s, ((A.scale k).st s).next = Next.scale k (A.st s).next := fun _ => rfl
  simp only [monaa, makeTables_scale hk]
  cases makeTables K fuel A with
  | error x => rfl
  | ok T =>
    simp only [h1, h3, Next.scale_find, Option.isNone_map, clocksOk_scale, matchLoop_scale (signalHooks_scale hk A),
      TA.scale_clockSize', reachesStart_scale, fun n => matchLoop_scale (w := w) (silentHooks_scale hk A n efuel)]
    split_ifs <;> rfl

end Verif
