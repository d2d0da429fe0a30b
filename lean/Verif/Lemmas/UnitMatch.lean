import Verif.Lemmas.UnitSkip
import Verif.Model.Signal

/-!
# The matching loop in another unit of time
-/

namespace Verif

variable {S K : Type} {k : Int}

/-- A configuration with its times multiplied. -/
def Conf.scale [Mul K] [IntCast K] (k : Int) (c : Conf S K) : Conf S K :=
  { s := c.s, rt := c.rt.map ((k : K) * ·), up := c.up.scale k, lo := c.lo.scale k }

/-- The six bounds multiplied. -/
def Six.scale [Mul K] [IntCast K] (k : Int) (b : Six K) : Six K :=
  { ub := b.ub.scale k, lb := b.lb.scale k, ue := b.ue.scale k, le := b.le.scale k, ud := b.ud.scale k, ld := b.ld.scale k }

variable [Field K] [LinearOrder K] [IsStrictOrderedRing K]

theorem rtAt_scale (rt : List K) (x : Nat) : rtAt (rt.map ((k : K) * ·)) x = (k : K) * rtAt rt x := by
  simp only [rtAt, List.getD_eq_getElem?_getD, List.getElem?_map]
  cases rt[x]? <;> simp

theorem isValidConstraint_scale (hk : 0 < k) (u l : Bnd K) :
    isValidConstraint (u.scale k) (l.scale k) = isValidConstraint u l := by
  have h : (Bnd.zeroLe : Bnd K) = Bnd.zeroLe.scale k := (Bnd.scale_zeroLe).symm
  simp only [isValidConstraint, ← Bnd.scale_add]
  rw [h, Bnd.scale_bge hk, ← h]

theorem sixGuard_scale (hk : 0 < k) (rt : List K) (b : Six K) (g : Constraint) :
    sixGuard (rt.map ((k : K) * ·)) (b.scale k) (g.scale k) = (sixGuard rt b g).scale k := by
  obtain ⟨x, odr, c⟩ := g
  have hne : ((k : K) * rtAt rt x ≠ 0) ↔ rtAt rt x ≠ 0 := by
    have := cast_pos (K := K) hk
    simp [this.ne']
  have e1 : ∀ (r : K) (s : Bool), Bnd.fin ((k : K) * (c : K) + (k : K) * r) s = (Bnd.fin ((c : K) + r) s).scale k := by
    intro r s
    rw [Bnd.scale_fin, mul_add]
  have e2 : ∀ (r : K) (s : Bool), Bnd.fin (-((k : K) * (c : K)) - (k : K) * r) s = (Bnd.fin (-(c : K) - r) s).scale k := by
    intro r s
    rw [Bnd.scale_fin]
    congr 1
    ring
  have e3 : ∀ s : Bool, Bnd.fin ((k : K) * (c : K)) s = (Bnd.fin (c : K) s).scale k := fun s => by rw [Bnd.scale_fin]
  have e4 : ∀ s : Bool, Bnd.fin (-((k : K) * (c : K))) s = (Bnd.fin (-(c : K)) s).scale k := fun s => by
    rw [Bnd.scale_fin]
    congr 1
    ring
  simp only [sixGuard, Constraint.scale, rtAt_scale, Int.cast_mul]
  by_cases hr : rtAt rt x ≠ 0
  · rw [if_pos hr, if_pos (hne.2 hr)]
    by_cases ho : odr = .lt ∨ odr = .le
    · rw [if_pos ho, if_pos ho]
      simp only [Six.scale, e1, ← Bnd.scale_add, ← Bnd.scale_min hk]
      rfl
    · rw [if_neg ho, if_neg ho]
      simp only [Six.scale, e2, ← Bnd.scale_add, ← Bnd.scale_min hk]
      rfl
  · rw [if_neg hr, if_neg fun h => hr (hne.1 h)]
    by_cases ho : odr = .lt ∨ odr = .le
    · rw [if_pos ho, if_pos ho]
      simp only [Six.scale, e3, ← Bnd.scale_add, ← Bnd.scale_min hk]
      rfl
    · rw [if_neg ho, if_neg ho]
      simp only [Six.scale, e4, ← Bnd.scale_add, ← Bnd.scale_min hk]
      rfl

theorem sixGuards_scale (hk : 0 < k) (rt : List K) (gs : List Constraint) (b : Six K) :
    (gs.map (Constraint.scale k)).foldl (sixGuard (rt.map ((k : K) * ·))) (b.scale k) =
      (gs.foldl (sixGuard rt) b).scale k := by
  induction gs generalizing b with
  | nil => rfl
  | cons g gs ih => simp only [List.map_cons, List.foldl_cons, sixGuard_scale hk, ih]

theorem sixInit_scale (hk : 0 < k) (c : Conf S K) (ue le : Bnd K) :
    sixInit (c.scale k) (ue.scale k) (le.scale k) = (sixInit c ue le).scale k := by
  have h : (Bnd.zeroLe : Bnd K) = Bnd.zeroLe.scale k := (Bnd.scale_zeroLe).symm
  simp only [sixInit, Conf.scale, Six.scale, Bnd.scale_add, Bnd.scale_min hk, ← h]

theorem sixValid_scale (hk : 0 < k) (b : Six K) : sixValid (b.scale k) = sixValid b := by
  simp only [sixValid, Six.scale, isValidConstraint_scale hk]

theorem sixZone_scale (b : Six K) : sixZone (b.scale k) = (sixZone b).scale k := by
  have h0 : (Bnd.fin 0 true : Bnd K) = (Bnd.fin 0 true : Bnd K).scale k := by simp [Bnd.scale]
  unfold sixZone
  rw [Zone.scale_build, ← h0]
  congr 1
  funext i j
  simp only [Six.scale]
  split_ifs <;> simp [Bnd.scale]

theorem acceptEdge_scale (hk : 0 < k) (A : TA S) (ue le : Bnd K) (c : Conf S K) (e : Transition S) :
    acceptEdge (A.scale k) (ue.scale k) (le.scale k) (c.scale k) (e.scale k) = (acceptEdge A ue le c e).map (Zone.scale k) := by
  have ht : (e.scale k).target = e.target := rfl
  have hm : ∀ q, ((A.scale k).st q).isMatch = (A.st q).isMatch := fun _ => rfl
  have hg : (e.scale k).guard = e.guard.map (Constraint.scale k) := rfl
  have hr : (c.scale k).rt = c.rt.map ((k : K) * ·) := rfl
  simp only [acceptEdge, ht, hm, hg, hr, sixInit_scale hk, sixGuards_scale hk, sixValid_scale hk, sixZone_scale]
  cases e.target with
  | none => rfl
  | some q =>
    simp only []
    split_ifs <;> rfl

theorem acceptOn_scale (hk : 0 < k) (A : TA S) (a : Alphabet) (ue le : Bnd K) (cs : List (Conf S K)) :
    acceptOn (A.scale k) a (ue.scale k) (le.scale k) (cs.map (Conf.scale k)) = (acceptOn A a ue le cs).map (Zone.scale k) := by
  simp only [acceptOn, List.flatMap_map, List.map_flatMap]
  refine flatMap_congr' fun c _ => ?_
  have hs : (c.scale k).s = c.s := rfl
  simp only [hs, TA.scale_edges, List.flatMap_map, acceptEdge_scale hk]

theorem satisfy_scale (hk : 0 < k) (g : Constraint) (d : K) : (g.scale k).satisfy ((k : K) * d) = g.satisfy d := by
  have h := cast_pos (K := K) hk
  obtain ⟨x, odr, c⟩ := g
  cases odr <;> simp [Constraint.satisfy, Constraint.scale, mul_lt_mul_iff_right₀ h, mul_le_mul_iff_right₀ h]

theorem transGuard_scale (hk : 0 < k) (t : K) (rt : List K) (gs : List Constraint) (up lo : Bnd K) :
    transGuard ((k : K) * t) (rt.map ((k : K) * ·)) (up.scale k) (lo.scale k) (gs.map (Constraint.scale k)) =
      (transGuard t rt up lo gs).map fun p => (p.1.scale k, p.2.scale k) := by
  induction gs generalizing up lo with
  | nil => rfl
  | cons g gs ih =>
    have hx : (g.scale k).x = g.x := rfl
    have ho : (g.scale k).odr = g.odr := rfl
    have hc : (((g.scale k).c : Int) : K) = (k : K) * (g.c : K) := Int.cast_mul _ _
    have hne : ((k : K) * rtAt rt g.x ≠ 0) ↔ rtAt rt g.x ≠ 0 := by
      have := cast_pos (K := K) hk
      simp [this.ne']
    simp only [List.map_cons, transGuard, hx, ho, hc, rtAt_scale, ← mul_sub, satisfy_scale hk]
    by_cases hr : rtAt rt g.x ≠ 0
    · rw [if_pos hr, if_pos (hne.2 hr)]
      split_ifs
      · exact ih up lo
      · rfl
    · rw [if_neg hr, if_neg fun h => hr (hne.1 h)]
      simp only [← Bnd.scale_fin, ← Bnd.scale_min hk, ih]
      split_ifs <;> rfl

omit [LinearOrder K] [IsStrictOrderedRing K] in
theorem resetTimes_scale (t : K) (xs : List Nat) (rt : List K) :
    resetTimes ((k : K) * t) (rt.map ((k : K) * ·)) xs = (resetTimes t rt xs).map ((k : K) * ·) := by
  simp only [resetTimes]
  induction xs generalizing rt with
  | nil => rfl
  | cons x xs ih => simp only [List.foldl_cons, ← List.map_set, ih]

theorem stepEdge_scale (hk : 0 < k) (t : K) (c : Conf S K) (e : Transition S) :
    stepEdge ((k : K) * t) (c.scale k) (e.scale k) = (stepEdge t c e).map (Conf.scale k) := by
  have ht : (e.scale k).target = e.target := rfl
  simp only [stepEdge, ht]
  cases e.target with
  | none => rfl
  | some q =>
    have hg : (e.scale k).guard = e.guard.map (Constraint.scale k) := rfl
    have hres : (e.scale k).resets = e.resets := rfl
    have hr : (c.scale k).rt = c.rt.map ((k : K) * ·) := rfl
    have hu : (c.scale k).up = c.up.scale k := rfl
    have hl : (c.scale k).lo = c.lo.scale k := rfl
    simp only [hg, hr, hu, hl, hres, transGuard_scale hk]
    cases transGuard t c.rt c.up c.lo e.guard with
    | none => rfl
    | some p =>
      obtain ⟨up, lo⟩ := p
      simp only [Option.map_some, isValidConstraint_scale hk, resetTimes_scale]
      split_ifs <;> rfl

theorem stepAll_scale (hk : 0 < k) (A : TA S) (a : Alphabet) (t : K) (cs : List (Conf S K)) :
    stepAll (A.scale k) a ((k : K) * t) (cs.map (Conf.scale k)) = (stepAll A a t cs).map (Conf.scale k) := by
  simp only [stepAll, List.flatMap_map, List.map_flatMap]
  refine flatMap_congr' fun c _ => ?_
  have hs : (c.scale k).s = c.s := rfl
  simp only [hs, TA.scale_edges, List.flatMap_map, stepEdge_scale hk]

omit [LinearOrder K] [IsStrictOrderedRing K] in
theorem lowerEnd_scale (prev : Option K) : lowerEnd (prev.map ((k : K) * ·)) = (lowerEnd prev).scale k := by
  cases prev with
  | none => simp [lowerEnd, Bnd.scale, Bnd.zeroLe]
  | some p => simp [lowerEnd, Bnd.scale]

omit [LinearOrder K] [IsStrictOrderedRing K] in
theorem lowerBegin_scale (prev : Option K) : lowerBegin (prev.map ((k : K) * ·)) = (lowerBegin prev).scale k := by
  cases prev with
  | none => simp [lowerBegin, Bnd.scale, Bnd.zeroLe]
  | some p => simp [lowerBegin, Bnd.scale]

omit [LinearOrder K] [IsStrictOrderedRing K] in
theorem initConfs_scale (A : TA S) (prev : Option K) (t : K) :
    initConfs (A.scale k) (prev.map ((k : K) * ·)) ((k : K) * t) = (initConfs A prev t).map (Conf.scale k) := by
  have hi : (A.scale k).init = A.init := rfl
  simp only [initConfs, hi, TA.scale_clockSize', lowerBegin_scale, List.map_map]
  refine List.map_congr_left fun s _ => ?_
  simp [Conf.scale, Bnd.scale]

/-! ### The loops -/

/-- Hooks which commute with the change of the unit. -/
structure HooksScale {Q : Type} (k : Int) (φ : Q → Q) (M M' : Hooks S Q K) : Prop where
  state : ∀ c : Q, M'.state (φ c) = M.state c
  start : ∀ (prev : Option K) (t : K), M'.start (prev.map ((k : K) * ·)) ((k : K) * t) = (M.start prev t).map φ
  event : ∀ (prev : Option K) (a : Alphabet) (t : K) (cs : List Q),
    M'.event (prev.map ((k : K) * ·)) a ((k : K) * t) (cs.map φ) =
      (M.event prev a t cs).map fun r => (r.1.map (Zone.scale k), r.2.1.map φ, r.2.2.map φ)
  final : ∀ (prev : Option K) (cs : List Q),
    M'.final (prev.map ((k : K) * ·)) (cs.map φ) = (M.final prev cs).map (Zone.scale k)

theorem dollarHooks_scale (hk : 0 < k) (A : TA S) : HooksScale (K := K) k (Conf.scale k) (dollarHooks A) (dollarHooks (A.scale k)) where
  state _ := rfl
  start prev t := initConfs_scale A prev t
  event prev a t cs := by
    simp only [dollarHooks, Except.map, ← Bnd.scale_fin, lowerEnd_scale, acceptOn_scale hk, stepAll_scale hk]
  final prev cs := by
    have h : (Bnd.inf true : Bnd K) = (Bnd.inf true : Bnd K).scale k := rfl
    simp only [dollarHooks, lowerEnd_scale]
    rw [h, acceptOn_scale hk, ← h]

theorem signalHooks_scale (hk : 0 < k) (A : TA S) : HooksScale (K := K) k (Conf.scale k) (signalHooks A) (signalHooks (A.scale k)) where
  state _ := rfl
  start prev t := initConfs_scale A prev t
  event prev a t cs := by
    simp only [signalHooks, Except.map, ← Bnd.scale_fin, lowerEnd_scale, acceptOn_scale hk, stepAll_scale hk]
  final _ _ := rfl

omit [IsStrictOrderedRing K] [LinearOrder K] in
theorem reachSix_scale' (t : K) : (Bnd.fin ((k : K) * t) true : Bnd K) = (Bnd.fin t true).scale k := rfl

theorem reachSix_scale (hk : 0 < k) (t : K) (up lo : Bnd K) :
    reachSix ((k : K) * t) (up.scale k) (lo.scale k) = (reachSix t up lo).scale k := by
  have h : (Bnd.zeroLe : Bnd K) = Bnd.zeroLe.scale k := (Bnd.scale_zeroLe).symm
  simp only [reachSix, Six.scale, Bnd.scale_add, Bnd.scale_min hk, ← h, reachSix_scale']

theorem reachEdge_scale (hk : 0 < k) (A : TA S) (t : K) (c : Conf S K) (e : Transition S) :
    reachEdge (A.scale k) ((k : K) * t) (c.scale k) (e.scale k) =
      ((reachEdge A t c e).1.map (Zone.scale k), (reachEdge A t c e).2.map (Conf.scale k)) := by
  have ht : (e.scale k).target = e.target := rfl
  simp only [reachEdge, ht]
  cases e.target with
  | none => rfl
  | some q =>
    have hg : (e.scale k).guard = e.guard.map (Constraint.scale k) := rfl
    have hres : (e.scale k).resets = e.resets := rfl
    have hr : (c.scale k).rt = c.rt.map ((k : K) * ·) := rfl
    have hu : (c.scale k).up = c.up.scale k := rfl
    have hl : (c.scale k).lo = c.lo.scale k := rfl
    have hm : ((A.scale k).st q).isMatch = (A.st q).isMatch := rfl
    simp only [hg, hr, hu, hl, hres, hm, transGuard_scale hk]
    cases transGuard t c.rt c.up c.lo e.guard with
    | none => rfl
    | some p =>
      obtain ⟨up, lo⟩ := p
      simp only [Option.map_some, isValidConstraint_scale hk, resetTimes_scale, reachSix_scale hk, sixValid_scale hk,
        sixZone_scale]
      split_ifs <;> rfl

theorem reachAll_scale (hk : 0 < k) (A : TA S) (a : Alphabet) (t : K) (cs : List (Conf S K)) :
    reachAll (A.scale k) a ((k : K) * t) (cs.map (Conf.scale k)) =
      ((reachAll A a t cs).1.map (Zone.scale k), (reachAll A a t cs).2.map (Conf.scale k)) := by
  have h : ((cs.map (Conf.scale k)).flatMap fun c => ((A.scale k).edges c.s a).map fun e => reachEdge (A.scale k) ((k : K) * t) c e) =
      (cs.flatMap fun c => (A.edges c.s a).map fun e => reachEdge A t c e).map fun r =>
        (r.1.map (Zone.scale k), r.2.map (Conf.scale k)) := by
    simp only [List.flatMap_map, List.map_flatMap, List.map_map]
    refine flatMap_congr' fun c _ => ?_
    have hs : (c.scale k).s = c.s := rfl
    simp only [hs, TA.scale_edges, List.map_map]
    refine List.map_congr_left fun e _ => ?_
    simp only [Function.comp_apply, reachEdge_scale hk]
  simp only [reachAll]
  rw [h]
  generalize (cs.flatMap fun c => (A.edges c.s a).map fun e => reachEdge A t c e) = l
  simp only [List.flatMap_map, List.map_flatMap]

theorem optionalHooks_scale (hk : 0 < k) (A : TA S) :
    HooksScale (K := K) k (Conf.scale k) (optionalHooks A) (optionalHooks (A.scale k)) where
  state _ := rfl
  start prev t := initConfs_scale A prev t
  event prev a t cs := by
    simp only [optionalHooks, Except.map, ← Bnd.scale_fin, lowerEnd_scale, acceptOn_scale hk, reachAll_scale hk, List.map_append]
  final prev cs := by
    have h : (Bnd.inf true : Bnd K) = (Bnd.inf true : Bnd K).scale k := rfl
    simp only [optionalHooks, lowerEnd_scale]
    rw [h, acceptOn_scale hk, ← h]

section loops
variable {w : TWord K} {Q : Type} {φ : Q → Q}

omit [LinearOrder K] [IsStrictOrderedRing K] in
theorem fetch_scale (n : Nat) : (vectorCont K).fetch n (scaleLog k w) = (decide (n < w.length), scaleLog k w) := by
  simp [vectorCont, scaleLog]

omit [Field K] [LinearOrder K] [IsStrictOrderedRing K] in
theorem fetch_vec (w : TWord K) (n : Nat) : (vectorCont K).fetch n w = (decide (n < w.length), w) := by simp [vectorCont]

omit [LinearOrder K] [IsStrictOrderedRing K] in
theorem get_scale (n : Nat) :
    (vectorCont K).get n (scaleLog k w) = ((vectorCont K).get n w).map fun e => (e.1, (k : K) * e.2) := by
  simp only [vectorCont, scaleLog, List.getElem?_map]
  cases w[n]? <;> rfl

omit [LinearOrder K] [IsStrictOrderedRing K] in
theorem prevTime_scale (n : Nat) :
    prevTime (vectorCont K) n (scaleLog k w) = (prevTime (vectorCont K) n w).map (Option.map ((k : K) * ·)) := by
  simp only [prevTime, get_scale]
  by_cases h : n = 0
  · rw [if_pos h, if_pos h]
    rfl
  · rw [if_neg h, if_neg h]
    cases (vectorCont K).get (n - 1) w <;> rfl

theorem runLoop_scale {M M' : Hooks S Q K} (H : HooksScale k φ M M') (fuel j : Nat) (cs last : List Q) :
    runLoop (vectorCont K) M' fuel j (cs.map φ) (last.map φ) (scaleLog k w) =
      (runLoop (vectorCont K) M fuel j cs last w).map fun r =>
        (r.1.map (Zone.scale k), r.2.1.map φ, scaleLog k r.2.2) := by
  induction fuel generalizing j cs last with
  | zero => rfl
  | succ fuel ih =>
    simp only [runLoop, fetch_scale, fetch_vec w, List.isEmpty_map]
    by_cases hc : cs.isEmpty = true
    · rw [if_pos hc, if_pos hc]
      by_cases hb : decide (j < w.length) = true
      · rw [if_pos hb, if_pos hb]
        rfl
      · rw [if_neg hb, if_neg hb]
        rfl
    · rw [if_neg hc, if_neg hc]
      by_cases hb : decide (j < w.length) = true
      · rw [if_pos hb, if_pos hb]
        simp only [get_scale, prevTime_scale, bind, Except.bind]
        cases (vectorCont K).get j w with
        | error x => rfl
        | ok e =>
          simp only [Except.map]
          cases prevTime (vectorCont K) j w with
          | error x => rfl
          | ok prev =>
            simp only [H.event]
            cases M.event prev e.1 e.2 cs with
            | error x => rfl
            | ok r =>
              obtain ⟨here, last', cs'⟩ := r
              simp only [Except.map, ih]
              cases runLoop (vectorCont K) M fuel (j + 1) cs' last' w with
              | error x => rfl
              | ok r => simp only [Except.map, List.map_append]
      · rw [if_neg hb, if_neg hb]
        simp only [prevTime_scale, bind, Except.bind]
        cases prevTime (vectorCont K) j w with
        | error x => rfl
        | ok prev => simp only [Except.map, H.final]

omit [LinearOrder K] [IsStrictOrderedRing K] in
theorem sundayLoop_scale (T : Tables S) (fuel i : Nat) :
    sundayLoop (vectorCont K) T fuel i (scaleLog k w) =
      (sundayLoop (vectorCont K) T fuel i w).map fun r => (r.1, scaleLog k r.2) := by
  induction fuel generalizing i with
  | zero => rfl
  | succ fuel ih =>
    have hs : ∀ (n : Nat) (u : TWord K), (vectorCont K).setFront n u = .ok u := fun _ _ => rfl
    simp only [sundayLoop, get_scale, fetch_scale, fetch_vec w, hs, bind, Except.bind]
    cases (vectorCont K).get (i + T.m - 1) w with
    | error x => rfl
    | ok e =>
      simp only [Except.map]
      by_cases he : e.1 ∈ T.endChars
      · rw [if_pos he, if_pos he]
      · rw [if_neg he, if_neg he]
        by_cases hb : (!decide (i + T.m < w.length)) = true
        · rw [if_pos hb, if_pos hb]
        · rw [if_neg hb, if_neg hb]
          cases (vectorCont K).get (i + T.m) w with
          | error x => rfl
          | ok e' =>
            simp only []
            cases T.delta[e'.1]? with
            | none => rfl
            | some d =>
              simp only []
              by_cases hb : (!decide (i + d + T.m - 1 < w.length)) = true
              · rw [if_pos hb, if_pos hb]
              · rw [if_neg hb, if_neg hb]
                exact ih (i + d)

omit [Field K] [LinearOrder K] [IsStrictOrderedRing K] in
theorem runLoop_vec (M : Hooks S Q K) (fuel j : Nat) (cs last : List Q) :
    ∀ r, runLoop (vectorCont K) M fuel j cs last w = .ok r → r.2.2 = w := by
  induction fuel generalizing j cs last with
  | zero => intro r h; cases h
  | succ fuel ih =>
    intro r h
    simp only [runLoop, fetch_vec] at h
    by_cases hc : cs.isEmpty = true
    · rw [if_pos hc] at h
      cases h
      rfl
    · rw [if_neg hc] at h
      by_cases hb : decide (j < w.length) = true
      · rw [if_pos hb] at h
        simp only [bind, Except.bind] at h
        cases he : (vectorCont K).get j w with
        | error x => rw [he] at h; cases h
        | ok e =>
          rw [he] at h
          simp only [] at h
          cases hp : prevTime (vectorCont K) j w with
          | error x => rw [hp] at h; cases h
          | ok prev =>
            rw [hp] at h
            simp only [] at h
            cases hv : M.event prev e.1 e.2 cs with
            | error x => rw [hv] at h; cases h
            | ok v =>
              rw [hv] at h
              simp only [] at h
              cases hr : runLoop (vectorCont K) M fuel (j + 1) v.2.2 v.2.1 w with
              | error x => rw [hr] at h; cases h
              | ok q =>
                rw [hr] at h
                cases h
                exact ih _ _ _ q hr
      · rw [if_neg hb] at h
        simp only [bind, Except.bind] at h
        cases hp : prevTime (vectorCont K) j w with
        | error x => rw [hp] at h; cases h
        | ok prev =>
          rw [hp] at h
          cases h
          rfl

omit [Field K] [LinearOrder K] [IsStrictOrderedRing K] in
theorem sundayLoop_vec (T : Tables S) (fuel i : Nat) : ∀ r, sundayLoop (vectorCont K) T fuel i w = .ok r → r.2 = w := by
  induction fuel generalizing i with
  | zero => intro r h; cases h
  | succ fuel ih =>
    intro r h
    have hs : ∀ (n : Nat) (u : TWord K), (vectorCont K).setFront n u = .ok u := fun _ _ => rfl
    simp only [sundayLoop, fetch_vec, hs, bind, Except.bind] at h
    cases he : (vectorCont K).get (i + T.m - 1) w with
    | error x => rw [he] at h; cases h
    | ok e =>
      rw [he] at h
      simp only [] at h
      split_ifs at h
      · cases h; rfl
      · cases h; rfl
      · cases he' : (vectorCont K).get (i + T.m) w with
        | error x => rw [he'] at h; cases h
        | ok e' =>
          rw [he'] at h
          simp only [] at h
          cases hd : T.delta[e'.1]? with
          | none => rw [hd] at h; cases h
          | some d =>
            rw [hd] at h
            simp only [] at h
            split_ifs at h
            · cases h; rfl
            · exact ih _ r h

theorem greatestN_scale {M M' : Hooks S Q K} (H : HooksScale k φ M M') (T : Tables S) (last : List Q) :
    greatestN T M'.state (last.map φ) = greatestN T M.state last := by
  simp only [greatestN, List.foldlM_map, H.state]

/-- The part of the outer loop after the quick search. -/
def afterQuick (M : Hooks S Q K) (T : Tables S) (inner fuel : Nat) (r : Option Nat) (w : TWord K) :
    Except Err (List (Zone K)) :=
  match r with
  | none => .ok []
  | some i =>
    let (b, w) := (vectorCont K).fetch i w
    if !b then .ok []
    else do
      let e ← (vectorCont K).get i w
      let prev ← prevTime (vectorCont K) i w
      let (zs, last, w) ← runLoop (vectorCont K) M inner i (M.start prev e.2) [] w
      let n ← greatestN T M.state last
      let w ← (vectorCont K).setFront (i + n - 1) w
      let rest ← matchLoop (vectorCont K) M T inner fuel (i + n) w
      .ok (zs ++ rest)

theorem afterQuick_scale {M M' : Hooks S Q K} (H : HooksScale k φ M M') (T : Tables S) (inner fuel : Nat)
    (ih : ∀ i, matchLoop (vectorCont K) M' T inner fuel i (scaleLog k w) =
      (matchLoop (vectorCont K) M T inner fuel i w).map (List.map (Zone.scale k))) (r : Option Nat) :
    afterQuick M' T inner fuel r (scaleLog k w) = (afterQuick M T inner fuel r w).map (List.map (Zone.scale k)) := by
  have hs : ∀ (n : Nat) (u : TWord K), (vectorCont K).setFront n u = .ok u := fun _ _ => rfl
  cases r with
  | none => rfl
  | some i =>
    simp only [afterQuick, fetch_scale, fetch_vec w, get_scale, prevTime_scale, bind, Except.bind]
    by_cases hb : (!decide (i < w.length)) = true
    · rw [if_pos hb, if_pos hb]
      rfl
    · rw [if_neg hb, if_neg hb]
      cases (vectorCont K).get i w with
      | error x => rfl
      | ok e =>
        simp only [Except.map]
        cases prevTime (vectorCont K) i w with
        | error x => rfl
        | ok prev =>
          simp only [H.start]
          have hrun := runLoop_scale (w := w) H inner i (M.start prev e.2) []
          rw [List.map_nil] at hrun
          rw [hrun]
          cases hv : runLoop (vectorCont K) M inner i (M.start prev e.2) [] w with
          | error x => rfl
          | ok v =>
            have hu := runLoop_vec M inner i _ _ v hv
            obtain ⟨zs, last, u'⟩ := v
            simp only at hu
            subst hu
            simp only [Except.map, greatestN_scale H]
            cases greatestN T M.state last with
            | error x => rfl
            | ok n =>
              simp only [hs, ih]
              cases matchLoop (vectorCont K) M T inner fuel (i + n) u' with
              | error x => rfl
              | ok rest => simp only [Except.map, List.map_append]

theorem matchLoop_scale {M M' : Hooks S Q K} (H : HooksScale k φ M M') (T : Tables S) (inner fuel i : Nat) :
    matchLoop (vectorCont K) M' T inner fuel i (scaleLog k w) =
      (matchLoop (vectorCont K) M T inner fuel i w).map (List.map (Zone.scale k)) := by
  induction fuel generalizing i with
  | zero => rfl
  | succ fuel ih =>
    simp only [matchLoop, fetch_scale, fetch_vec w]
    by_cases hb : (!decide (i + T.m - 1 < w.length)) = true
    · rw [if_pos hb, if_pos hb]
      rfl
    · rw [if_neg hb, if_neg hb]
      have hb' : decide (i + T.m - 1 < w.length) = true := by simpa using hb
      rw [if_pos hb', if_pos hb']
      by_cases hm : T.m > 1
      · rw [if_pos hm, if_pos hm, sundayLoop_scale]
        cases hq : sundayLoop (vectorCont K) T inner i w with
        | error x => rfl
        | ok r =>
          have hr := sundayLoop_vec T inner i r hq
          obtain ⟨r, u⟩ := r
          simp only at hr
          subst hr
          exact afterQuick_scale H T inner fuel ih r
      · rw [if_neg hm, if_neg hm]
        exact afterQuick_scale H T inner fuel ih (some i)

end loops

variable [DecidableEq S]

/-- `monaaDollar` in another unit of time. -/
theorem monaaDollar_scale (hk : 0 < k) (addr : S → Nat) (fuel steps : Nat) (A : TA S) (w : TWord K) :
    monaaDollar addr fuel steps (vectorCont K) (A.scale k) (scaleLog k w) =
      (monaaDollar addr fuel steps (vectorCont K) A w).map (List.map (Zone.scale k)) := by
  have h1 : (A.scale k).states = A.states := rfl
  have h3 : ∀ s, ((A.scale k).st s).next = Next.scale k (A.st s).next := fun _ => rfl
  simp only [monaaDollar, prepare_scale, bind, Except.bind]
  cases prepare addr A with
  | error x => rfl
  | ok Ap =>
    simp only [Except.map, makeTables_scale hk]
    cases makeTables K fuel Ap with
    | error x => rfl
    | ok T =>
      simp only [h1, h3, Next.scale_find, Option.isNone_map, clocksOk_scale, matchLoop_scale (dollarHooks_scale hk A)]
      split_ifs <;> rfl

theorem prepareOpt_scale (addr : S → Nat) (A : TA S) : prepareOpt addr (A.scale k) = (prepareOpt addr A).map (TA.scale k) := by
  have h1 : (A.scale k).states = A.states := rfl
  have h2 : (A.scale k).init = A.init := rfl
  have h3 : ∀ s, (A.scale k).st s = (A.st s).scale k := fun _ => rfl
  simp only [prepareOpt, h1, h2, h3, dropDollar_scale]
  by_cases h : (A.states.all fun s => partitioned addr A.init s) = true
  · rw [if_pos h, if_pos h]
    simp only [Except.map, TA.scale, Except.ok.injEq, TA.mk.injEq, true_and, and_true]
    funext s
    simp only [TAState.scale, TAState.mk.injEq, true_and, Next.scale, List.map_map]
    refine List.map_congr_left fun p _ => ?_
    simp only [Function.comp_apply, List.map_map, Prod.mk.injEq, true_and]
    refine List.map_congr_left fun e _ => ?_
    have ht : (e.scale k).target = e.target := rfl
    simp only [Function.comp_apply, ht]
    cases e.target with
    | none => rfl
    | some q =>
      simp only []
      split_ifs <;> rfl
  · rw [if_neg h, if_neg h]
    rfl

/-- `monaaNotNecessaryDollar` in another unit of time. -/
theorem optional_scale (hk : 0 < k) (addr : S → Nat) (fuel steps : Nat) (A : TA S) (w : TWord K) :
    monaaNotNecessaryDollar addr fuel steps (vectorCont K) (A.scale k) (scaleLog k w) =
      (monaaNotNecessaryDollar addr fuel steps (vectorCont K) A w).map (List.map (Zone.scale k)) := by
  have h1 : (A.scale k).states = A.states := rfl
  have h3 : ∀ s, ((A.scale k).st s).next = Next.scale k (A.st s).next := fun _ => rfl
  simp only [monaaNotNecessaryDollar, prepareOpt_scale, bind, Except.bind]
  cases prepareOpt addr A with
  | error x => rfl
  | ok Ap =>
    simp only [Except.map, makeTables_scale hk]
    cases makeTables K fuel Ap with
    | error x => rfl
    | ok T =>
      simp only [h1, h3, Next.scale_find, Option.isNone_map, clocksOk_scale, matchLoop_scale (optionalHooks_scale hk A)]
      split_ifs <;> rfl

end Verif
