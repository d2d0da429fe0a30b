import Verif.Lemmas.UnitSkip
import Verif.Model.TRE
import Verif.Spec.UnitTRE

/-!
# The translation of expressions in another unit of time
-/

namespace Verif

variable {K : Type} {k : Int}

theorem maxVec_scale (hk : 0 < k) (xs ys : List Int) :
    maxVec (xs.map (k * ·)) (ys.map (k * ·)) = (maxVec xs ys).map (k * ·) := by
  have h : ∀ a b : Int, k * max a b = max (k * a) (k * b) := fun a b => mul_max_of_nonneg a b hk.le
  induction xs generalizing ys with
  | nil => simp [maxVec, h, Function.comp_def]
  | cons x xs ih =>
    cases ys with
    | nil =>
      have := ih []
      simp only [List.map_nil] at this
      simp [maxVec, h, this]
    | cons y ys => simp [maxVec, h, ih]

namespace TA

theorem ext' {S : Type} {A B : TA S} (h1 : A.states = B.states) (h2 : A.init = B.init) (h3 : ∀ s, A.st s = B.st s) (h4 : A.maxC = B.maxC) :
    A = B := by
  obtain ⟨a, b, c, d⟩ := A
  obtain ⟨a', b', c', d'⟩ := B
  simp only at h1 h2 h3 h4
  subst h1 h2 h4
  congr 1
  exact funext h3

theorem scale_mapSt {S : Type} [DecidableEq S] (A : TA S) (l : List S) {f f' : TAState S → TAState S}
    (h : ∀ s, f' (s.scale k) = (f s).scale k) : (A.scale k).mapSt l f' = (A.mapSt l f).scale k := by
  refine ext' rfl rfl (fun s => ?_) rfl
  simp only [mapSt, scale]
  split_ifs
  · exact h _
  · rfl

theorem scale_mapEdges {S : Type} {f f' : List (Transition S) → List (Transition S)}
    (h : ∀ l, f' (l.map (Transition.scale k)) = (f l).map (Transition.scale k)) (s : TAState S) :
    (s.scale k).mapEdges f' = (s.mapEdges f).scale k := by
  simp only [TAState.mapEdges, TAState.scale, TAState.mk.injEq, true_and, Next.scale, List.map_map]
  refine List.map_congr_left fun p _ => ?_
  simp only [Function.comp_apply, h]

theorem scale_isAcc (A : TA Nat) (e : Transition Nat) : (A.scale k).isAcc (e.scale k) = A.isAcc e := rfl

theorem scale_concatEdges (A : TA Nat) (i : List Nat) (n : Nat) (l : List (Transition Nat)) :
    (A.scale k).concatEdges i n (l.map (Transition.scale k)) = (A.concatEdges i n l).map (Transition.scale k) := by
  simp only [concatEdges, List.map_append, List.flatMap_map, List.map_flatMap]
  congr 1
  refine flatMap_congr' fun e _ => ?_
  rw [scale_isAcc]
  by_cases h : A.isAcc e = true
  · rw [if_pos h, if_pos h, List.map_map]
    rfl
  · rw [if_neg h, if_neg h]
    rfl

theorem any_scale (m : Next Nat) (f : Transition Nat → Bool) (h : ∀ e, f (e.scale k) = f e) :
    ((Next.scale k m).any fun p => p.2.any f) = m.any fun p => p.2.any f := by
  simp only [Next.scale, List.any_map]
  congr 1
  funext p
  simp only [Function.comp_apply, List.any_map]
  congr 1
  funext e
  exact h e

theorem scale_hasAccEdge (A : TA Nat) : (A.scale k).hasAccEdge = A.hasAccEdge := by
  have h3 : ∀ s, ((A.scale k).st s).next = Next.scale k (A.st s).next := fun _ => rfl
  have h1 : (A.scale k).states = A.states := rfl
  simp only [hasAccEdge, h1, h3]
  congr 1
  funext s
  exact any_scale _ _ fun e => scale_isAcc A e

/-- `concat2` with its intermediate automata named. -/
theorem scale_concat2 (hk : 0 < k) (A B : TA Nat) : (A.scale k).concat2 (B.scale k) = (A.concat2 B).scale k := by
  have e0 : ({ A.scale k with st := (B.scale k).st } : TA Nat) = ({ A with st := B.st } : TA Nat).scale k := rfl
  simp only [concat2]
  rw [e0]
  generalize ({ A with st := B.st } : TA Nat) = L
  have h1 : (A.scale k).states = A.states := rfl
  have h2 : (A.scale k).init = A.init := rfl
  have h4 : (B.scale k).init = B.init := rfl
  have h5 : ∀ s, ((B.scale k).st s).isMatch = (B.st s).isMatch := fun _ => rfl
  simp only [h1, h2, h4, h5, TA.scale_clockSize', scale_hasAccEdge]
  have hedges : (L.scale k).mapSt A.states (TAState.mapEdges ((L.scale k).concatEdges B.init B.clockSize)) =
      (L.mapSt A.states (TAState.mapEdges (L.concatEdges B.init B.clockSize))).scale k :=
    scale_mapSt _ _ fun s => scale_mapEdges (fun l => scale_concatEdges L _ _ l) s
  rw [hedges]
  generalize L.mapSt A.states (TAState.mapEdges (L.concatEdges B.init B.clockSize)) = E
  have hflags : (if L.hasAccEdge = true then (E.scale k).mapSt B.init (fun s => { s with zeroDuration := false }) else E.scale k) =
      (if L.hasAccEdge = true then E.mapSt B.init (fun s => { s with zeroDuration := false }) else E).scale k := by
    split_ifs
    · exact scale_mapSt _ _ fun s => rfl
    · rfl
  rw [hflags]
  generalize (if L.hasAccEdge = true then E.mapSt B.init (fun s => { s with zeroDuration := false }) else E) = F
  have hn : (F.scale k).mapSt A.states (fun s => { s with isMatch := false }) =
      (F.mapSt A.states (fun s => { s with isMatch := false })).scale k := scale_mapSt _ _ fun s => rfl
  rw [hn]
  refine ext' rfl rfl (fun _ => rfl) ?_
  exact maxVec_scale hk A.maxC B.maxC

theorem scale_stuck (A : TA Nat) : (A.scale k).stuck = A.stuck := by
  have h1 : (A.scale k).states = A.states := rfl
  simp only [stuck, h1]
  congr 1
  funext s
  simp only [isStuck, TA.scale, TAState.scale, Next.scale, List.isEmpty_map]

theorem scale_dropStuck (bad : List Nat) (s : TAState Nat) : dropStuck bad (s.scale k) = (dropStuck bad s).scale k := by
  simp only [dropStuck, TAState.scale, TAState.mk.injEq, true_and, Next.scale, List.map_map]
  rw [List.filter_map, List.filter_map, List.map_map]
  congr 1
  · funext p
    simp only [Function.comp_apply, List.filter_map]
    congr 1
  · refine List.filter_congr fun p _ => ?_
    simp only [Function.comp_apply, List.filter_map, List.isEmpty_map]
    congr 1

theorem scale_removeStuckStates (A : TA Nat) : (A.scale k).removeStuckStates = A.removeStuckStates.scale k := by
  simp only [removeStuckStates, scale_stuck]
  have h1 : (A.scale k).states = A.states := rfl
  have h := scale_mapSt (k := k) A A.states (f := dropStuck A.stuck) (f' := dropStuck A.stuck) fun s => scale_dropStuck _ s
  rw [h1, h]
  rfl

theorem scale_reduceLoop (fuel : Nat) (A : TA Nat) : reduceLoop fuel (A.scale k) = (reduceLoop fuel A).scale k := by
  induction fuel generalizing A with
  | zero => rfl
  | succ fuel ih =>
    have h1 : ∀ A : TA Nat, (A.scale k).states = A.states := fun _ => rfl
    simp only [reduceLoop, scale_removeStuckStates, h1, ih]
    split_ifs <;> rfl

theorem scale_reduceStates (A : TA Nat) : (A.scale k).reduceStates = A.reduceStates.scale k := scale_reduceLoop _ A

theorem scale_terminals (A : TA Nat) : (A.scale k).terminals = A.terminals := by
  have h1 : (A.scale k).states = A.states := rfl
  simp only [terminals, h1]
  congr 2
  funext s
  simp only [TA.scale, TAState.scale, Next.scale, List.isEmpty_map]

theorem scale_redirect (ts : List Nat) (e : Transition Nat) : redirect ts (e.scale k) = (redirect ts e).scale k := by
  have ht : (e.scale k).target = e.target := rfl
  simp only [redirect, ht]
  cases e.target with
  | none => rfl
  | some q =>
    simp only []
    split_ifs <;> rfl

theorem scale_mergeAccepting (A : TA Nat) : (A.scale k).mergeAccepting = A.mergeAccepting.scale k := by
  have h1 : (A.scale k).states = A.states := rfl
  have h2 : (A.scale k).init = A.init := rfl
  have h := scale_mapSt (k := k) A A.states (f := TAState.mapEdges fun es => es.map (redirect A.terminals))
    (f' := TAState.mapEdges fun es => es.map (redirect A.terminals)) fun s => scale_mapEdges (fun l => by
      simp only [List.map_map]
      refine List.map_congr_left fun e _ => ?_
      exact scale_redirect _ e) s
  simp only [mergeAccepting, scale_terminals, h1, h2, h]
  generalize A.mapSt A.states (TAState.mapEdges fun es => es.map (redirect A.terminals)) = B
  rcases A.terminals with _ | ⟨a, _ | ⟨b, l⟩⟩ <;> rfl

theorem scale_finish (A : TA Nat) : (A.scale k).finish = A.finish.scale k := by
  simp only [finish, scale_mergeAccepting, scale_reduceStates]

theorem scale_plusEdges (A : TA Nat) (l : List (Transition Nat)) :
    (A.scale k).plusEdges (l.map (Transition.scale k)) = (A.plusEdges l).map (Transition.scale k) := by
  simp only [plusEdges, List.map_append, List.flatMap_map, List.map_flatMap, TA.scale_clockSize']
  congr 1
  refine flatMap_congr' fun e _ => ?_
  have ht : (e.scale k).target = e.target := rfl
  have hm : ∀ q, ((A.scale k).st q).isMatch = (A.st q).isMatch := fun _ => rfl
  have hz : ∀ q, ((A.scale k).st q).zeroDuration = (A.st q).zeroDuration := fun _ => rfl
  have h2 : (A.scale k).init = A.init := rfl
  simp only [ht, hm, hz, h2]
  cases e.target with
  | none => rfl
  | some q =>
    simp only []
    split_ifs
    · rw [List.map_map]
      rfl
    · rfl

theorem scale_plusTA (A : TA Nat) : (A.scale k).plusTA = A.plusTA.scale k :=
  scale_mapSt A A.states fun s => scale_mapEdges (fun l => scale_plusEdges A l) s

theorem scale_disjTA (hk : 0 < k) (A B : TA Nat) : (A.scale k).disjTA (B.scale k) = (A.disjTA B).scale k :=
  ext' rfl rfl (fun _ => rfl) (maxVec_scale hk A.maxC B.maxC)

theorem scale_place {P : Type} [DecidableEq P] (alloc : Nat → Nat) (n : Nat) (heap : Nat → TAState Nat) (A : TA P) :
    (A.scale k).place alloc n (fun a => (heap a).scale k) = (A.place alloc n heap).scale k := by
  refine ext' rfl rfl (fun a => ?_) rfl
  simp only [place, TA.scale]
  cases A.states.find? fun p => placeName alloc n A.states p == a with
  | none => rfl
  | some p =>
    simp only [renameState, TAState.scale, TAState.mk.injEq, true_and, Next.scale, List.map_map]
    refine List.map_congr_left fun p _ => ?_
    simp only [Function.comp_apply, List.map_map]
    rfl

theorem scale_conjTA (alloc : Nat → Nat) (n : Nat) (A B : TA Nat) :
    (A.scale k).conjTA alloc n (B.scale k) = (((A.conjTA alloc n B).1).scale k, (A.conjTA alloc n B).2) := by
  have e0 : ({ A.scale k with st := (B.scale k).st } : TA Nat) = ({ A with st := B.st } : TA Nat).scale k := rfl
  simp only [conjTA]
  rw [e0, intersection_scale]
  exact Prod.ext (scale_place alloc n B.st _) rfl

end TA

section field
variable [Field K] [LinearOrder K] [IsStrictOrderedRing K] [FloorRing K]

theorem Bnd.toInt_scale {b : Bnd K} (hb : ∀ c s, b = .fin c s → ∃ n : Int, c = n) : (b.scale k).toInt = b.toInt.map (k * ·) := by
  cases b with
  | inf s => rfl
  | fin c s =>
    obtain ⟨n, rfl⟩ := hb c s rfl
    simp only [Bnd.scale, Bnd.toInt, Except.map, ← Int.cast_mul, Int.floor_intCast, Int.ceil_intCast, ite_self]

namespace TA

theorem scale_needsDummy (A : TA Nat) : (A.scale k).needsDummy = A.needsDummy := by
  have h1 : (A.scale k).states = A.states := rfl
  simp only [needsDummy, h1]
  congr 1
  funext s
  have h2 : ∀ q, ((A.scale k).st q).next.isEmpty = (A.st q).next.isEmpty := fun q => by
    simp only [TA.scale, TAState.scale, Next.scale, List.isEmpty_map]
  simp only [h2]
  exact any_scale (A.st s).next _ fun e => rfl

theorem scale_withinGuard (n : Nat) (u l : Int) (us ls : Bool) :
    withinGuard n (k * u) (k * l) us ls = (withinGuard n u l us ls).map (Constraint.scale k) := rfl

/-- `within`, before the guards are added. -/
private def within2 (A : TA Nat) : TA Nat :=
  let A1 : TA Nat := { A with init := A.init.filter fun s => !(A.st s).zeroDuration }
  A1.mapSt A1.states fun s => { s with zeroDuration := false }

/-- `within`, with the guards. -/
private def within3 (A2 : TA Nat) (g : List Constraint) : TA Nat :=
  A2.mapSt A2.states
    (TAState.mapEdges fun es => es.map fun e => if A2.isAcc e then { e with guard := e.guard ++ g } else e)

/-- `within`, with the flags of the accepting states. -/
private def within4 (A3 : TA Nat) : TA Nat := A3.mapSt A3.states fun s => if s.next.isEmpty then s else { s with isMatch := false }

private theorem withinTA_eq (A : TA Nat) (I : Interval K) : A.withinTA I =
    match I.upper.toInt, I.lower.toInt with
    | .ok u, .ok l =>
      if A.within2.needsDummy then .error .ub
      else .ok { (A.within2.within3 (withinGuard A.clockSize u l I.upper.flag I.lower.flag)).within4 with maxC := A.maxC ++ [u] }
    | _, _ => .error .ub := rfl

private theorem scale_within2 (A : TA Nat) : (A.scale k).within2 = A.within2.scale k :=
  scale_mapSt ({ A with init := A.init.filter fun s => !(A.st s).zeroDuration } : TA Nat) A.states
    (f := fun s => { s with zeroDuration := false }) (f' := fun s => { s with zeroDuration := false }) fun _ => rfl

private theorem scale_within3 (A : TA Nat) (g : List Constraint) :
    (A.scale k).within3 (g.map (Constraint.scale k)) = (A.within3 g).scale k := by
  refine scale_mapSt A A.states fun s => scale_mapEdges (fun l => ?_) s
  simp only [List.map_map]
  refine List.map_congr_left fun e _ => ?_
  simp only [Function.comp_apply]
  by_cases h : A.isAcc e = true
  · rw [if_pos h, if_pos ((scale_isAcc A e).trans h)]
    simp only [Transition.scale, List.map_append]
  · rw [if_neg h, if_neg (show ¬ (A.scale k).isAcc (e.scale k) = true from h)]

private theorem scale_within4 (A : TA Nat) : (A.scale k).within4 = A.within4.scale k := by
  refine scale_mapSt A A.states fun s => ?_
  have hs : (s.scale k).next.isEmpty = s.next.isEmpty := by simp only [TAState.scale, Next.scale, List.isEmpty_map]
  rw [hs]
  split_ifs <;> rfl

theorem scale_withinTA (A : TA Nat) {I : Interval K} (hI : I.IntEnds) :
    (A.scale k).withinTA (I.inUnit k) = (A.withinTA I).map (TA.scale k) := by
  have hu : (I.inUnit k).upper.toInt = I.upper.toInt.map (k * ·) := Bnd.toInt_scale hI.2
  have hl : (I.inUnit k).lower.toInt = I.lower.toInt.map (k * ·) := Bnd.toInt_scale hI.1
  have hfu : (I.inUnit k).upper.flag = I.upper.flag := by
    simp only [Interval.inUnit]
    cases I.upper <;> rfl
  have hfl : (I.inUnit k).lower.flag = I.lower.flag := by
    simp only [Interval.inUnit]
    cases I.lower <;> rfl
  rw [withinTA_eq, withinTA_eq, hu, hl, hfu, hfl]
  cases I.upper.toInt with
  | error x => rfl
  | ok u =>
    cases I.lower.toInt with
    | error x => rfl
    | ok l =>
      simp only [Except.map, scale_within2, scale_needsDummy, TA.scale_clockSize', scale_withinGuard, scale_within3, scale_within4]
      by_cases hd : A.within2.needsDummy = true
      · rw [if_pos hd, if_pos hd]
      · rw [if_neg hd, if_neg hd]
        refine congrArg Except.ok (ext' rfl rfl (fun _ => rfl) ?_)
        simp only [TA.scale, List.map_append, List.map_cons, List.map_nil]

end TA

/-- The translation commutes with the change of the unit. -/
theorem TRE.toEventTA_scale (hk : 0 < k) (alloc : Nat → Nat) (e : TRE K) (he : e.IntEnds) (heap : Nat → TAState Nat) (n : Nat) :
    (e.scale k).toEventTA alloc (fun a => (heap a).scale k) n = (e.toEventTA alloc heap n).map fun p => (p.1.scale k, p.2) := by
  induction e generalizing heap n with
  | atom c =>
    have h : TA.atomTA alloc n (fun a => (heap a).scale k) c = (TA.atomTA alloc n heap c).scale k := by
      refine TA.ext' rfl rfl (fun a => ?_) rfl
      simp only [TA.atomTA, TA.scale]
      split_ifs <;> rfl
    simp only [TRE.scale, TRE.toEventTA, h, TA.scale_finish, Except.map]
  | epsilon =>
    have h : TA.epsilonTA alloc n (fun a => (heap a).scale k) = (TA.epsilonTA alloc n heap).scale k := by
      refine TA.ext' rfl rfl (fun a => ?_) rfl
      simp only [TA.epsilonTA, TA.scale]
      split_ifs <;> rfl
    simp only [TRE.scale, TRE.toEventTA, h, TA.scale_finish, Except.map]
  | plus e ih =>
    simp only [TRE.scale, TRE.toEventTA, ih he]
    cases e.toEventTA alloc heap n with
    | error x => rfl
    | ok p => simp only [Except.map, bind, Except.bind, pure, Except.pure, TA.scale_plusTA, TA.scale_finish]
  | concat e f ihe ihf =>
    simp only [TRE.scale, TRE.toEventTA, ihe he.1]
    cases e.toEventTA alloc heap n with
    | error x => rfl
    | ok p =>
      have h := ihf he.2 p.1.st p.2
      have hs : (p.1.scale k).st = fun a => (p.1.st a).scale k := rfl
      simp only [Except.map, bind, Except.bind, hs, h]
      cases f.toEventTA alloc p.1.st p.2 with
      | error x => rfl
      | ok q => simp only [pure, Except.pure, TA.scale_concat2 hk, TA.scale_finish]
  | disj e f ihe ihf =>
    simp only [TRE.scale, TRE.toEventTA, ihe he.1]
    cases e.toEventTA alloc heap n with
    | error x => rfl
    | ok p =>
      have h := ihf he.2 p.1.st p.2
      have hs : (p.1.scale k).st = fun a => (p.1.st a).scale k := rfl
      simp only [Except.map, bind, Except.bind, hs, h]
      cases f.toEventTA alloc p.1.st p.2 with
      | error x => rfl
      | ok q => simp only [pure, Except.pure, TA.scale_disjTA hk, TA.scale_finish]
  | conj e f ihe ihf =>
    simp only [TRE.scale, TRE.toEventTA, ihe he.1]
    cases e.toEventTA alloc heap n with
    | error x => rfl
    | ok p =>
      have h := ihf he.2 p.1.st p.2
      have hs : (p.1.scale k).st = fun a => (p.1.st a).scale k := rfl
      simp only [Except.map, bind, Except.bind, hs, h]
      cases f.toEventTA alloc p.1.st p.2 with
      | error x => rfl
      | ok q => simp only [pure, Except.pure, TA.scale_conjTA, TA.scale_finish]
  | within e I ih =>
    simp only [TRE.scale, TRE.toEventTA, ih he.1]
    cases e.toEventTA alloc heap n with
    | error x => rfl
    | ok p =>
      simp only [Except.map, bind, Except.bind, TA.scale_withinTA p.1 he.2]
      cases p.1.withinTA I with
      | error x => rfl
      | ok B => simp only [pure, Except.pure, TA.scale_finish]

theorem TRE.eventTA_scale (hk : 0 < k) (alloc : Nat → Nat) (e : TRE K) (he : e.IntEnds) :
    (e.scale k).eventTA alloc = (e.eventTA alloc).map (TA.scale k) := by
  have h := TRE.toEventTA_scale hk alloc e he (fun _ => ⟨false, false, []⟩) 0
  have h0 : (fun a : Nat => (TAState.scale k (⟨false, false, []⟩ : TAState Nat))) = fun _ => ⟨false, false, []⟩ := rfl
  rw [h0] at h
  simp only [TRE.eventTA, h]
  cases e.toEventTA alloc (fun _ => ⟨false, false, []⟩) 0 with
  | error x => rfl
  | ok p =>
    refine congrArg Except.ok (TA.ext' rfl rfl (fun a => ?_) rfl)
    show (if a ∈ p.1.states then (p.1.st a).scale k else ⟨false, false, []⟩) =
      TAState.scale k (if a ∈ p.1.states then p.1.st a else ⟨false, false, []⟩)
    by_cases h : a ∈ p.1.states
    · rw [if_pos h, if_pos h]
    · rw [if_neg h, if_neg h]
      rfl

end field
end Verif
