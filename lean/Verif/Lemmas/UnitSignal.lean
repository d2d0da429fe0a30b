import Verif.Lemmas.UnitNormal

/-!
# Signal automata in another unit of time
-/

namespace Verif

variable {K : Type} [Field K] [LinearOrder K] [IsStrictOrderedRing K] [FloorRing K] {k : Int}

/-- Automata in two units and the same number. -/
def TR (k : Int) (p p' : TA Nat × Nat) : Prop := p' = (p.1.scale k, p.2)

namespace TA

theorem lowerGuard_scale (hk : 0 < k) {b : Bnd K} (hb : b.Whole) :
    RelE (fun g g' => g' = g.map (Constraint.scale k)) (lowerGuard b) (lowerGuard (b.scale k)) := by
  have hp := cast_pos (K := K) hk
  have ht := Bnd.toInt_scale (k := k) hb
  cases b with
  | inf s => exact rfl
  | fin c s =>
    have e : (k : K) * c = 0 ∧ s = true ↔ c = 0 ∧ s = true := by simp [hp.ne']
    simp only [lowerGuard, Bnd.scale, e]
    rw [Bnd.scale_fin] at ht
    by_cases h : c = 0 ∧ s = true
    · rw [if_pos h, if_pos h]
      exact rfl
    · rw [if_neg h, if_neg h, ht]
      cases (Bnd.fin c s).toInt <;> exact rfl

theorem upperGuard_scale {b : Bnd K} (hb : b.Whole) :
    RelE (fun g g' => g' = g.map (Constraint.scale k)) (upperGuard b) (upperGuard (b.scale k)) := by
  have ht := Bnd.toInt_scale (k := k) hb
  cases b with
  | inf s => exact rfl
  | fin c s =>
    simp only [upperGuard, Bnd.scale]
    rw [Bnd.scale_fin] at ht
    rw [ht]
    cases (Bnd.fin c s).toInt <;> exact rfl

theorem intervalGuard_scale (hk : 0 < k) {I I' : Interval K} (h : RI k I I') :
    RelE (fun g g' => g' = g.map (Constraint.scale k)) (intervalGuard I) (intervalGuard I') := by
  obtain ⟨rfl, hI⟩ := h
  have hl := lowerGuard_scale hk (b := I.lower) hI.1
  have hu := upperGuard_scale (k := k) (b := I.upper) hI.2
  simp only [intervalGuard, Interval.inUnit]
  rcases hl.cases with ⟨x, h1, h2⟩ | ⟨g, g', h1, h2, hg⟩
  · rw [h1, h2]
    exact rfl
  · rw [h1, h2]
    rcases hu.cases with ⟨x, h1, h2⟩ | ⟨d, d', h1, h2, hd⟩
    · rw [h1, h2]
      exact rfl
    · rw [h1, h2]
      subst hg hd
      exact (List.map_append ..).symm

theorem guardsOf_scale (hk : 0 < k) {S S' : List (Interval K)} (h : RL k S S') :
    RelE (fun g g' => g' = g.map (List.map (Constraint.scale k))) (guardsOf S) (guardsOf S') := by
  induction h with
  | nil => exact rfl
  | cons hI _ ih =>
    simp only [guardsOf]
    rcases (intervalGuard_scale hk hI).cases with ⟨x, h1, h2⟩ | ⟨g, g', h1, h2, hg⟩
    · rw [h1, h2]
      exact rfl
    · rw [h1, h2]
      rcases ih.cases with ⟨x, h1, h2⟩ | ⟨d, d', h1, h2, hd⟩
      · rw [h1, h2]
        exact rfl
      · rw [h1, h2]
        subst hg hd
        exact rfl

theorem maxConst_aux (hk : 0 < k) (l : List Constraint) (a a' : Int) (h : (a = -1 ∧ a' = -1) ∨ (0 ≤ a ∧ a' = k * a)) :
    let b := l.foldl (fun m g => max m g.c) a
    let b' := (l.map (Constraint.scale k)).foldl (fun m g => max m g.c) a'
    (b = -1 ∧ b' = -1) ∨ (0 ≤ b ∧ b' = k * b) := by
  induction l generalizing a a' with
  | nil => exact h
  | cons g l ih =>
    simp only [List.map_cons, List.foldl_cons]
    refine ih _ _ ?_
    have hc : (g.scale k).c = k * g.c := rfl
    rw [hc]
    rcases h with ⟨rfl, rfl⟩ | ⟨h0, rfl⟩
    · by_cases hg : 0 ≤ g.c
      · refine .inr ⟨by omega, ?_⟩
        have : 0 ≤ k * g.c := mul_nonneg hk.le hg
        rw [max_eq_right (by omega), max_eq_right (by omega)]
      · refine .inl ⟨by omega, ?_⟩
        have : k * g.c < 0 := mul_neg_of_pos_of_neg hk (by omega)
        omega
    · refine .inr ⟨by omega, ?_⟩
      rw [mul_max_of_nonneg _ _ hk.le]

theorem maxC_scale (hk : 0 < k) (gs : List (List Constraint)) :
    (if maxConst (gs.map (List.map (Constraint.scale k))) = -1 then [] else [maxConst (gs.map (List.map (Constraint.scale k)))]) =
      (if maxConst gs = -1 then [] else [maxConst gs]).map (k * ·) := by
  have h := maxConst_aux hk gs.flatten (-1) (-1) (.inl ⟨rfl, rfl⟩)
  unfold maxConst
  rw [← List.map_flatten]
  simp only at h
  rcases h with ⟨h1, h2⟩ | ⟨h1, h2⟩
  · rw [h1, h2]
    rfl
  · have h3 : 0 ≤ k * gs.flatten.foldl (fun m g => max m g.c) (-1) := mul_nonneg hk.le h1
    rw [h2, if_neg (by omega), if_neg (by omega)]
    rfl

theorem scale_noneTA (heap : Nat → TAState Nat) : noneTA (fun a => (heap a).scale k) = (noneTA heap).scale k := rfl

theorem scale_edgeTA (hk : 0 < k) (alloc : Nat → Nat) (heap : Nat → TAState Nat) (n : Nat) (c : Alphabet) (gs : List (List Constraint)) :
    edgeTA alloc (fun a => (heap a).scale k) n c (gs.map (List.map (Constraint.scale k))) = (edgeTA alloc heap n c gs).scale k := by
  refine ext' rfl rfl (fun a => ?_) (maxC_scale hk gs)
  simp only [edgeTA, TA.scale]
  split_ifs
  · simp only [TAState.scale, Next.scale, List.map_cons, List.map_nil, List.map_map]
    rfl
  · rfl
  · rfl

theorem singTA_scale (hk : 0 < k) (alloc : Nat → Nat) (heap : Nat → TAState Nat) (n : Nat) (c : Alphabet) {S S' : List (Interval K)}
    (h : RL k S S') : RelE (TR k) (singTA alloc heap n c S) (singTA alloc (fun a => (heap a).scale k) n c S') := by
  have hg := guardsOf_scale hk h
  cases h with
  | nil => exact rfl
  | cons hI ht =>
    simp only [singTA]
    rcases hg.cases with ⟨x, h1, h2⟩ | ⟨g, g', h1, h2, hg⟩
    · rw [h1, h2]
      exact rfl
    · rw [h1, h2, hg]
      show _ = _
      rw [scale_edgeTA hk]

theorem scale_epsTA (alloc : Nat → Nat) (heap : Nat → TAState Nat) (n : Nat) :
    epsTA alloc (fun a => (heap a).scale k) n = (epsTA alloc heap n).scale k := by
  refine ext' rfl rfl (fun a => ?_) rfl
  simp only [epsTA, TA.scale]
  split_ifs <;> rfl

theorem plusSignal_scale (A : TA Nat) : (A.scale k).plusSignalTA = A.plusSignalTA.map (TA.scale k) := by
  have h : (A.scale k).init = A.init := rfl
  simp only [plusSignalTA, scale_hasAccEdge, h]
  split_ifs <;> rfl

theorem next_push_scale (m : Next Nat) (c : Alphabet) (e : Transition Nat) :
    (Next.scale k m).push c (e.scale k) = Next.scale k (m.push c e) := by
  induction m with
  | nil => rfl
  | cons p m ih =>
    obtain ⟨d, l⟩ := p
    simp only [Next.scale] at ih
    simp only [Next.scale, List.map_cons, Next.push]
    split_ifs
    · simp only [List.map_cons, List.map_append, List.map_nil]
    · rw [ih, List.map_cons]

theorem foldl_push_scale (l : List (Alphabet × Transition Nat)) (m : Next Nat) :
    (l.map fun p => (p.1, p.2.scale k)).foldl (fun m p => m.push p.1 p.2) (Next.scale k m) =
      Next.scale k (l.foldl (fun m p => m.push p.1 p.2) m) := by
  induction l generalizing m with
  | nil => rfl
  | cons p l ih => simp only [List.map_cons, List.foldl_cons, next_push_scale, ih]

theorem dummyNext_scale (A : TA Nat) : (A.scale k).dummyNext = Next.scale k A.dummyNext := by
  unfold dummyNext
  rw [← foldl_push_scale]
  have h1 : (A.scale k).init = A.init := rfl
  rw [h1, TA.scale_clockSize']
  refine congrArg (fun l => List.foldl _ _ l) ?_
  rw [List.map_flatMap]
  refine flatMap_congr' fun i _ => ?_
  have h2 : ((A.scale k).st i).next = (A.st i).next.map fun p => (p.1, p.2.map (Transition.scale k)) := rfl
  rw [h2, List.flatMap_map, List.map_flatMap]
  refine flatMap_congr' fun p _ => ?_
  simp only [List.map_map]
  rfl

theorem withinSignal_scale (alloc : Nat → Nat) (n : Nat) (A : TA Nat) {I I' : Interval K} (h : RI k I I') :
    RelE (TR k) (A.withinSignalTA alloc n I) ((A.scale k).withinSignalTA alloc n I') := by
  obtain ⟨rfl, hI⟩ := h
  have hu : (I.inUnit k).upper.toInt = I.upper.toInt.map (k * ·) := Bnd.toInt_scale hI.2
  simp only [withinSignalTA, scale_hasAccEdge, hu]
  split_ifs
  · exact rfl
  · cases I.upper.toInt with
    | error x => exact rfl
    | ok u =>
      refine Prod.ext (ext' rfl rfl (fun a => ?_) ?_) rfl
      · show (if a = alloc n then (⟨false, false, (A.scale k).dummyNext⟩ : TAState Nat)
            else if a = alloc (n + 1) then ⟨true, false, []⟩
            else if a ∈ A.states then ({ (A.st a).scale k with isMatch := false } : TAState Nat) else (A.st a).scale k) =
          TAState.scale k (if a = alloc n then (⟨false, false, A.dummyNext⟩ : TAState Nat)
            else if a = alloc (n + 1) then ⟨true, false, []⟩
            else if a ∈ A.states then ({ A.st a with isMatch := false } : TAState Nat) else A.st a)
        rw [dummyNext_scale]
        split_ifs <;> rfl
      · simp only [TA.scale, List.map_append, List.map_cons, List.map_nil]

end TA

namespace TMem

theorem concatSignal_scale (hk : 0 < k) {f f' : (Nat → TAState Nat) → Nat → Nat → Except Err (TA Nat × Nat)}
    (hf : ∀ heap n a, RelE (TR k) (f heap n a) (f' (fun a => (heap a).scale k) n a)) (l : List Nat) (A : TA Nat) (n : Nat) :
    RelE (TR k) (concatSignal f A n l) (concatSignal f' (A.scale k) n l) := by
  induction l generalizing A n with
  | nil => exact rfl
  | cons a l ih =>
    simp only [concatSignal]
    have hs : (A.scale k).st = fun a => (A.st a).scale k := rfl
    rw [hs]
    rcases (hf A.st n a).cases with ⟨x, h1, h2⟩ | ⟨⟨B, j⟩, p, h1, h2, hp⟩
    · rw [h1, h2]
      exact rfl
    · have hp : p = (B.scale k, j) := hp
      subst hp
      rw [h1, h2]
      simp only [TA.scale_concat2 hk]
      exact ih _ _

theorem altSignal_scale (hk : 0 < k) {f f' : (Nat → TAState Nat) → Nat → Nat → Except Err (TA Nat × Nat)}
    (hf : ∀ heap n a, RelE (TR k) (f heap n a) (f' (fun a => (heap a).scale k) n a)) (l : List (List Nat)) (A : TA Nat) (n : Nat) :
    RelE (TR k) (altSignal f A n l) (altSignal f' (A.scale k) n l) := by
  induction l generalizing A n with
  | nil => exact rfl
  | cons c l ih =>
    rcases c with _ | ⟨a, _ | ⟨b, c⟩⟩
    · exact rfl
    · simp only [altSignal]
      have hs : (A.scale k).st = fun a => (A.st a).scale k := rfl
      rw [hs]
      rcases (hf A.st n a).cases with ⟨x, h1, h2⟩ | ⟨⟨B, j⟩, p, h1, h2, hp⟩
      · rw [h1, h2]
        exact rfl
      · have hp : p = (B.scale k, j) := hp
        subst hp
        rw [h1, h2]
        simp only [TA.scale_disjTA hk]
        exact ih _ _
    · exact rfl

theorem signalAtom_scale (hk : 0 < k) {m m' : TMem K} (h : MR k m m') (alloc : Nat → Nat) (fuel : Nat) (heap : Nat → TAState Nat) (n a : Nat) :
    RelE (TR k) (m.signalAtom alloc fuel heap n a) (m'.signalAtom alloc fuel (fun a => (heap a).scale k) n a) := by
  induction fuel generalizing heap n a with
  | zero => exact rfl
  | succ fuel ih =>
    simp only [signalAtom]
    have ha := h.atom a
    generalize m.atom a = d, m'.atom a = d' at ha
    cases ha with
    | singleton s =>
      simp only [(h.sing s).1]
      exact TA.singTA_scale hk alloc heap n _ (h.sing s).2
    | epsilon =>
      show _ = _
      rw [TA.scale_epsTA]
    | plus d =>
      simp only [h.dnf]
      rcases (altSignal_scale hk ih (m.dnf d) (TA.noneTA heap) n).cases with ⟨x, h1, h2⟩ | ⟨⟨B, j⟩, p, h1, h2, hp⟩
      · rw [← TA.scale_noneTA] at h2
        rw [h1, h2]
        exact rfl
      · rw [← TA.scale_noneTA] at h2
        have hp : p = (B.scale k, j) := hp
        subst hp
        rw [h1, h2]
        simp only [TA.plusSignal_scale]
        cases B.plusSignalTA <;> exact rfl
    | concat l =>
      cases l with
      | nil => exact rfl
      | cons b l =>
        simp only
        rcases (ih heap n b).cases with ⟨x, h1, h2⟩ | ⟨⟨B, j⟩, p, h1, h2, hp⟩
        · rw [h1, h2]
          exact rfl
        · have hp : p = (B.scale k, j) := hp
          subst hp
          rw [h1, h2]
          exact concatSignal_scale hk ih l B j
    | within b hI =>
      simp only
      rcases (ih heap n b).cases with ⟨x, h1, h2⟩ | ⟨⟨B, j⟩, p, h1, h2, hp⟩
      · rw [h1, h2]
        exact rfl
      · have hp : p = (B.scale k, j) := hp
        subst hp
        rw [h1, h2]
        exact TA.withinSignal_scale alloc j B hI
    | moved => exact rfl

end TMem

namespace TA

theorem repeats_scale (A : TA Nat) (c : Alphabet) (e : Transition Nat) : (A.scale k).repeats c (e.scale k) = A.repeats c e := by
  have ht : (e.scale k).target = e.target := rfl
  have hn : ∀ s, ((A.scale k).st s).next = Next.scale k (A.st s).next := fun _ => rfl
  simp only [repeats, ht]
  cases e.target with
  | none => rfl
  | some q => simp only [hn, Next.scale_find, Option.isSome_map]

theorem repeatsAcc_scale (A : TA Nat) : (A.scale k).repeatsAcc = A.repeatsAcc := by
  have h1 : (A.scale k).states = A.states := rfl
  have hn : ∀ s, ((A.scale k).st s).next = Next.scale k (A.st s).next := fun _ => rfl
  simp only [repeatsAcc, h1, hn, Next.scale, List.any_map]
  congr 1
  funext s
  congr 1
  funext p
  simp only [Function.comp_apply, List.any_map]
  congr 1
  funext e
  simp only [Function.comp_apply, repeats_scale, scale_isAcc]

theorem foldl_eps_scale (l : List (Transition Nat)) (m : Next Nat) :
    (l.map (Transition.scale k)).foldl (fun m e => m.push epsilon e) (Next.scale k m) = Next.scale k (l.foldl (fun m e => m.push epsilon e) m) := by
  induction l generalizing m with
  | nil => rfl
  | cons p l ih => simp only [List.map_cons, List.foldl_cons, next_push_scale, ih]

theorem epsNext_scale (A : TA Nat) (n : Next Nat) : (A.scale k).epsNext (Next.scale k n) = Next.scale k (A.epsNext n) := by
  unfold epsNext
  rw [← foldl_eps_scale]
  congr 1
  · simp only [Next.scale, List.map_map]
    refine List.map_congr_left fun p _ => ?_
    simp only [Function.comp_apply, List.filter_map]
    congr 2
    refine List.filter_congr fun e _ => ?_
    simp only [Function.comp_apply, repeats_scale]
    rfl
  · simp only [Next.scale, List.flatMap_map, List.map_flatMap]
    refine flatMap_congr' fun p _ => ?_
    simp only [List.filter_map]
    congr 1
    refine List.filter_congr fun e _ => ?_
    exact repeats_scale A p.1 e

theorem renameEps_scale (A : TA Nat) : (A.scale k).renameEps = A.renameEps.map (TA.scale k) := by
  simp only [renameEps, repeatsAcc_scale]
  split_ifs
  · rfl
  · refine congrArg Except.ok (scale_mapSt A A.states fun s => ?_)
    simp only [TAState.scale, TAState.mk.injEq, true_and]
    exact epsNext_scale A s.next

theorem owned_scale (A : TA Nat) : (A.scale k).owned = A.owned.scale k := by
  refine ext' rfl rfl (fun a => ?_) rfl
  show (if a ∈ A.states then (A.st a).scale k else ⟨false, false, []⟩) =
    TAState.scale k (if a ∈ A.states then A.st a else ⟨false, false, []⟩)
  by_cases h : a ∈ A.states
  · rw [if_pos h, if_pos h]
  · rw [if_neg h, if_neg h]
    rfl

end TA

theorem TRE.signalTA_scale (hk : 0 < k) (alloc : Nat → Nat) (fuel : Nat) (e : TRE K) (he : e.IntEnds) :
    (e.scale k).signalTA alloc fuel = (e.signalTA alloc fuel).map (TA.scale k) := by
  unfold TRE.signalTA
  rcases (TRE.normalForm_scale hk fuel e he).cases with ⟨x, h1, h2⟩ | ⟨⟨d, m⟩, ⟨d', m'⟩, h1, h2, hd, hm⟩
  · rw [h1, h2]
    rfl
  · rw [h1, h2]
    simp only at hd hm
    subst hd
    simp only [hm.dnf]
    have := TMem.altSignal_scale hk (TMem.signalAtom_scale hk hm alloc fuel) (m.dnf d') (TA.noneTA fun _ => ⟨false, false, []⟩) 0
    have h0 : (TA.noneTA fun _ => (⟨false, false, []⟩ : TAState Nat)).scale k = TA.noneTA fun _ => ⟨false, false, []⟩ := rfl
    rw [h0] at this
    rcases this.cases with ⟨x, h1, h2⟩ | ⟨⟨B, j⟩, p, h1, h2, hp⟩
    · rw [h1, h2]
      rfl
    · have hp : p = (B.scale k, j) := hp
      subst hp
      rw [h1, h2]
      simp only [TA.renameEps_scale]
      cases B.renameEps with
      | error x => rfl
      | ok C => exact congrArg Except.ok (TA.owned_scale C)

end Verif
