import Verif.Lemmas.UnitZA
import Verif.Model.Monaa

/-!
# The skip tables in another unit of time
-/

namespace Verif

variable {S T K : Type} {k : Int}

theorem flatMap_congr' {α β : Type} {l : List α} {f g : α → List β} (h : ∀ a ∈ l, f a = g a) : l.flatMap f = l.flatMap g := by
  induction l with
  | nil => rfl
  | cons a l ih =>
    rw [List.flatMap_cons, List.flatMap_cons, h a List.mem_cons_self, ih fun b hb => h b (List.mem_cons_of_mem _ hb)]

/-! ### Functions of the graph of a zone automaton -/

section graph
variable [Mul K] [IntCast K]

theorem ZA.scale_get (Z : ZA S K) (i : Nat) : (Z.scale k).nodes[i]? = (Z.nodes[i]?).map (ZNode.scale k) := by
  simp [ZA.scale]

theorem ZA.scale_succs (Z : ZA S K) (i : Nat) : (Z.scale k).succs i = Z.succs i := by
  simp only [ZA.succs, ZA.scale_get]
  cases Z.nodes[i]? <;> rfl

theorem ZA.scale_succsOf (Z : ZA S K) (i : Nat) (c : Alphabet) : (Z.scale k).succsOf i c = Z.succsOf i c := by
  simp only [ZA.succsOf, ZA.scale_get]
  cases Z.nodes[i]? <;> rfl

theorem ZA.scale_isMatch (Z : ZA S K) (i : Nat) : (Z.scale k).isMatch i = Z.isMatch i := by
  simp only [ZA.isMatch, ZA.scale_get]
  cases Z.nodes[i]? <;> rfl

theorem ZA.scale_length (Z : ZA S K) : (Z.scale k).nodes.length = Z.nodes.length := by simp [ZA.scale]

theorem ZA.scale_init (Z : ZA S K) : (Z.scale k).init = Z.init := rfl

theorem ZA.scale_deadLoop (Z : ZA S K) (fuel : Nat) (st : List (Nat × List Nat)) (r : List Nat) :
    (Z.scale k).deadLoop fuel st r = Z.deadLoop fuel st r := by
  induction fuel generalizing st r with
  | zero => rfl
  | succ fuel ih =>
    cases st with
    | nil => rfl
    | cons p st => simp only [ZA.deadLoop, ZA.scale_isMatch, ZA.scale_succs, ih]

theorem ZA.scale_liveStates (Z : ZA S K) (fuel : Nat) : (Z.scale k).liveStates fuel = Z.liveStates fuel :=
  ZA.scale_deadLoop Z fuel _ _

theorem ZA.scale_emptyRound (Z : ZA S K) (l next visited : List Nat) :
    (Z.scale k).emptyRound l next visited = Z.emptyRound l next visited := by
  induction l generalizing next visited with
  | nil => rfl
  | cons i l ih => simp only [ZA.emptyRound, ZA.scale_isMatch, ZA.scale_succs, ih]

theorem ZA.scale_emptyLoop (Z : ZA S K) (fuel : Nat) (l visited : List Nat) :
    (Z.scale k).emptyLoop fuel l visited = Z.emptyLoop fuel l visited := by
  induction fuel generalizing l visited with
  | zero => rfl
  | succ fuel ih => simp only [ZA.emptyLoop, ZA.scale_emptyRound, ih]

theorem ZA.scale_empty (Z : ZA S K) : (Z.scale k).empty = Z.empty := by
  simp only [ZA.empty, ZA.scale_emptyLoop, ZA.scale_length, ZA.scale_init]

theorem ZA.scale_closureLoop (Z : ZA S K) (alive : List Nat) (fuel : Nat) (l c : List Nat) :
    (Z.scale k).closureLoop alive fuel l c = Z.closureLoop alive fuel l c := by
  induction fuel generalizing l c with
  | zero => rfl
  | succ fuel ih =>
    cases l with
    | nil => rfl
    | cons i l => simp only [ZA.closureLoop, ZA.scale_succsOf, ih]

theorem ZA.scale_epsilonClosure (Z : ZA S K) (alive : List Nat) (i : Nat) :
    (Z.scale k).epsilonClosure alive i = Z.epsilonClosure alive i := by
  simp only [ZA.epsilonClosure, ZA.scale_closureLoop, ZA.scale_length]

theorem sundayStep_scale (Z : ZA S K) (alive cs : List Nat) : sundayStep (Z.scale k) alive cs = sundayStep Z alive cs := by
  simp only [sundayStep, ZA.scale_epsilonClosure, ZA.scale_succsOf]

theorem sundaySets_scale (Z : ZA S K) (alive : List Nat) (fuel : Nat) (cs : List Nat) :
    sundaySets (Z.scale k) alive fuel cs = sundaySets Z alive fuel cs := by
  induction fuel generalizing cs with
  | zero => rfl
  | succ fuel ih => simp only [sundaySets, sundayStep_scale, ZA.scale_isMatch, ih]

theorem ZA.scale_updateInitAccepting [DecidableEq S] (Z : ZA S K) (A : TA S) :
    (Z.scale k).updateInitAccepting (A.scale k) = (Z.updateInitAccepting A).scale k := by
  simp only [ZA.updateInitAccepting, ZA.scale, ZA.mk.injEq, List.map_map, List.length_map]
  refine ⟨rfl, ?_⟩
  congr 1
  funext i
  simp only [List.getElem?_map]
  cases Z.nodes[i]? <;> rfl

end graph

section tables
variable [Field K] [LinearOrder K] [IsStrictOrderedRing K] [DecidableEq S]

theorem sundayTable_scale (hk : 0 < k) (fuel : Nat) (A : TA S) : sundayTable K fuel (A.scale k) = sundayTable K fuel A := by
  simp only [sundayTable]
  have h0 : (ZA.none : ZA S K) = (ZA.none : ZA S K).scale k := rfl
  have h := ta2za_scale hk fuel A (ZA.none : ZA S K)
  rw [← h0] at h
  rw [h]
  simp only [bind, Except.bind]
  cases ta2za fuel A (ZA.none : ZA S K) with
  | error x => rfl
  | ok Z => simp only [Except.map, ZA.scale_liveStates, sundaySets_scale, ZA.scale_init]

end tables

/-! ### The automata of the KMP table -/

theorem Next.scale_find (m : Next S) (c : Alphabet) :
    (Next.scale k m).find c = (m.find c).map (List.map (Transition.scale k)) := by
  simp only [Next.find, Next.scale, List.find?_map, Option.map_map]
  rfl

theorem Next.scale_at (m : Next S) (c : Alphabet) : (Next.scale k m).at' c = (m.at' c).map (Transition.scale k) := by
  simp only [Next.at', Next.scale_find]
  cases m.find c <;> rfl

theorem Next.scale_push (m : Next S) (c : Alphabet) (e : Transition S) :
    (Next.scale k m).push c (e.scale k) = Next.scale k (m.push c e) := by
  induction m with
  | nil => rfl
  | cons p m ih =>
    obtain ⟨d, l⟩ := p
    simp only [Next.scale, List.map_cons, Next.push] at ih ⊢
    by_cases h : (d == c) = true
    · rw [if_pos h, if_pos h]
      simp
    · rw [if_neg h, if_neg h, ih]
      simp

theorem Next.scale_pushes (l : List (Alphabet × Transition S)) (m : Next S) :
    (l.map fun q => (q.1, q.2.scale k)).foldl (fun m q => m.push q.1 q.2) (Next.scale k m) =
      Next.scale k (l.foldl (fun m q => m.push q.1 q.2) m) := by
  induction l generalizing m with
  | nil => rfl
  | cons q l ih => simp only [List.map_cons, List.foldl_cons, Next.scale_push, ih]

theorem Next.scale_touch (m : Next S) (c : Alphabet) : (Next.scale k m).touch c = Next.scale k (m.touch c) := by
  simp only [Next.touch, Next.scale_find, Option.isSome_map]
  by_cases h : (m.find c).isSome = true
  · rw [if_pos h, if_pos h]
  · rw [if_neg h, if_neg h]
    simp [Next.scale]

theorem TA.scale_edges (A : TA S) (s : S) (c : Alphabet) : (A.scale k).edges s c = (A.edges s c).map (Transition.scale k) :=
  Next.scale_at _ _

theorem widen_scale (g : List Constraint) : widen (g.map (Constraint.scale k)) = (widen g).map (Constraint.scale k) := by
  simp only [widen, List.filter_map]
  rfl

theorem liftEdge_scale (f : S → T) (e : Transition S) : liftEdge f (e.scale k) = (liftEdge f e).scale k := rfl

theorem widenEdge_scale (e : Transition S) : widenEdge (e.scale k) = (widenEdge e).scale k := by
  simp only [widenEdge, Transition.scale, widen_scale]

theorem selfLoops_scale (q : T) : Next.scale k (selfLoops q) = selfLoops q := by
  simp only [Next.scale, selfLoops, List.map_map]
  rfl

theorem intoMatch_scale (A : TA S) (e : Transition S) : intoMatch (A.scale k) (e.scale k) = intoMatch A e := rfl

theorem TA.scale_clockSize' (A : TA S) : (A.scale k).clockSize = A.clockSize := by simp [TA.clockSize, TA.scale]

theorem kmpA0_scale (A : TA S) (m n : Nat) : kmpA0 (A.scale k) m n = (kmpA0 A m n).scale k := by
  simp only [kmpA0, TA.scale_clockSize']
  simp only [TA.scale, TA.mk.injEq, true_and, and_true]
  funext q
  cases q with
  | orig s =>
    simp only [TAState.scale, TAState.mk.injEq, true_and, Next.scale, List.map_map]
    refine List.map_congr_left fun p _ => ?_
    simp only [Function.comp_apply, List.map_append, List.map_map, List.filter_map]
    congr 2
    simp only [Function.comp_def, Transition.scale, widen_scale]
    rfl
  | ext j =>
    cases j with
    | zero =>
      simp only [TAState.scale, TAState.mk.injEq, true_and]
      rw [← Next.scale_pushes _ ([] : Next (KState S))]
      simp only [Next.scale, List.map_nil, List.flatMap_map, List.map_flatMap, List.map_map]
      congr 1
      refine flatMap_congr' fun s _ => flatMap_congr' fun p _ => List.map_congr_left fun e _ => ?_
      simp only [Function.comp_apply, liftEdge_scale, widenEdge_scale]
    | succ j =>
      simp only [TAState.scale, TAState.mk.injEq, true_and, Next.scale, List.map_map]
      rfl
  | acc => simp only [TAState.scale, selfLoops_scale]

theorem kmpAs_scale [DecidableEq S] (A : TA S) (o : S) : kmpAs (A.scale k) o = (kmpAs A o).scale k := by
  simp only [kmpAs]
  simp only [TA.scale, TA.mk.injEq, true_and, and_true]
  funext q
  cases q with
  | orig s =>
    simp only [TAState.scale, TAState.mk.injEq, true_and]
    rw [← Next.scale_push]
    simp only [Next.scale, List.map_map]
    congr 1
    refine List.map_congr_left fun p _ => ?_
    simp only [Function.comp_apply, List.map_map]
    rfl
  | dummy s => simp only [TAState.scale, selfLoops_scale]

section product
variable [DecidableEq S] [DecidableEq T]

theorem toIState_scale (A : TA S) (B : TA T) (p : S × T) : TA.toIState (A.scale k) (B.scale k) p = TA.toIState A B p := rfl

theorem productTransition_scale (n : Nat) (t : Option (S × T)) (r1 r2 : List Nat) (g1 g2 : List Constraint) :
    TA.productTransition n t r1 (g1.map (Constraint.scale k)) r2 (g2.map (Constraint.scale k)) =
      (TA.productTransition n t r1 g1 r2 g2).scale k := by
  simp only [TA.productTransition, Transition.scale, List.map_append, List.map_map]
  rfl

theorem productPushes_scale (A : TA S) (B : TA T) (s : S) (t : T) :
    TA.productPushes (A.scale k) (B.scale k) s t = (TA.productPushes A B s t).map fun q => (q.1, q.2.scale k) := by
  have hA : ((A.scale k).st s).next = Next.scale k (A.st s).next := rfl
  have hB : ((B.scale k).st t).next = Next.scale k (B.st t).next := rfl
  simp only [TA.productPushes, TA.scale_edges, TA.scale_clockSize', List.map_append, List.flatMap_map, List.map_flatMap,
    toIState_scale, hA, hB, Next.scale_touch, Next.scale_find]
  congr 1
  · congr 1
    · refine flatMap_congr' fun e _ => ?_
      have ht : (e.scale k).target = e.target := rfl
      rw [ht]
      cases e.target with
      | none => rfl
      | some q =>
        have := productTransition_scale (k := k) A.clockSize (TA.toIState A B (q, t)) e.resets [] e.guard []
        simp only [List.map_nil] at this
        simp only [List.map_cons, List.map_nil, ← this]
        rfl
    · refine flatMap_congr' fun e _ => ?_
      have ht : (e.scale k).target = e.target := rfl
      rw [ht]
      cases e.target with
      | none => rfl
      | some q =>
        have := productTransition_scale (k := k) A.clockSize (TA.toIState A B (s, q)) [] e.resets [] e.guard
        simp only [List.map_nil] at this
        simp only [List.map_cons, List.map_nil, ← this]
        rfl
  · have hf : ∀ m : Next S, Next.scale k m = m.map fun p => (p.1, p.2.map (Transition.scale k)) := fun _ => rfl
    rw [hf, List.flatMap_map]
    refine flatMap_congr' fun p _ => ?_
    simp only [List.flatMap_map]
    refine flatMap_congr' fun e _ => ?_
    have ht : (e.scale k).target = e.target := rfl
    rw [ht]
    cases e.target with
    | none => rfl
    | some q =>
      simp only []
      cases ((B.st t).next.touch epsilon).find p.1 with
      | none => rfl
      | some es =>
        simp only [Option.map_some, List.flatMap_map, List.map_flatMap]
        refine flatMap_congr' fun e2 _ => ?_
        have ht : (e2.scale k).target = e2.target := rfl
        rw [ht]
        cases e2.target with
        | none => rfl
        | some q2 =>
          simp only [List.map_cons, List.map_nil, ← productTransition_scale]
          rfl

theorem productStates_scale (A : TA S) (B : TA T) (l1 : List S) (l2 : List T) :
    TA.productStates (A.scale k) (B.scale k) l1 l2 = TA.productStates A B l1 l2 := rfl

theorem intersection_scale (A : TA S) (B : TA T) :
    TA.intersection (A.scale k) (B.scale k) = (TA.intersection A B).scale k := by
  simp only [TA.intersection, productStates_scale, toIState_scale, productPushes_scale]
  simp only [TA.scale, TA.mk.injEq, List.map_append, and_true]
  refine ⟨trivial, trivial, ?_⟩
  funext p
  simp only [TAState.scale, TAState.mk.injEq, true_and]
  by_cases h : (TA.toIState A B p).isSome = true
  · rw [if_pos h, if_pos h]
    exact Next.scale_pushes _ []
  · rw [if_neg h, if_neg h]
    rfl

end product

section kmp
variable [Field K] [LinearOrder K] [IsStrictOrderedRing K] [DecidableEq S]

theorem kmpA2_scale (A : TA S) (m n : Nat) (o : S) : kmpA2 (A.scale k) m n o = (kmpA2 A m n o).scale k := by
  simp only [kmpA2, kmpA0_scale, kmpAs_scale, intersection_scale]

theorem kmpSearch_scale (hk : 0 < k) (fuel : Nat) (A : TA S) (m : Nat) (o : S) (j n : Nat) (Z : ZA (KState S × DState S) K) :
    kmpSearch fuel (A.scale k) m o j n (Z.scale k) = (kmpSearch fuel A m o j n Z).map fun r => (r.1, r.2.scale k) := by
  induction j generalizing n Z with
  | zero => rfl
  | succ j ih =>
    simp only [kmpSearch, kmpA2_scale, ta2za_scale hk, bind, Except.bind]
    cases ta2za fuel (kmpA2 A m n o) Z with
    | error x => rfl
    | ok Z =>
      simp only [Except.map, ZA.scale_updateInitAccepting, ZA.scale_empty, ih]
      by_cases h : (Z.updateInitAccepting (kmpA2 A m n o)).empty = true
      · rw [if_pos h, if_pos h]
      · rw [if_neg h, if_neg h]

theorem kmpLoop_scale (hk : 0 < k) (fuel : Nat) (A : TA S) (m : Nat) (os : List S) (beta : List (S × Nat))
    (Z : ZA (KState S × DState S) K) : kmpLoop fuel (A.scale k) m os beta (Z.scale k) = kmpLoop fuel A m os beta Z := by
  induction os generalizing beta Z with
  | nil => rfl
  | cons o os ih =>
    simp only [kmpLoop, kmpSearch_scale hk, bind, Except.bind]
    cases kmpSearch fuel A m o m 1 Z with
    | error x => rfl
    | ok r => simp only [Except.map, ih]

theorem kmpTable_scale (hk : 0 < k) (fuel : Nat) (A : TA S) (m : Nat) : kmpTable K fuel (A.scale k) m = kmpTable K fuel A m :=
  kmpLoop_scale hk fuel A m A.states [] (ZA.none : ZA (KState S × DState S) K)

theorem makeTables_scale (hk : 0 < k) (fuel : Nat) (A : TA S) : makeTables K fuel (A.scale k) = makeTables K fuel A := by
  simp only [makeTables, sundayTable_scale hk, kmpTable_scale hk]

theorem dropDollar_scale (s : TAState S) : dropDollar (s.scale k) = (dropDollar s).scale k := by
  have hn : (s.scale k).next = Next.scale k s.next := rfl
  simp only [dropDollar, hn, Next.scale_find]
  cases s.next.find dollar with
  | none => rfl
  | some x =>
    simp only [Option.map_some, TAState.scale, Next.scale, List.filter_map]
    rfl

theorem all_scale (m : Next S) (f : Transition S → Bool) (h : ∀ e, f (e.scale k) = f e) :
    ((Next.scale k m).all fun p => p.2.all f) = m.all fun p => p.2.all f := by
  simp only [Next.scale, List.all_map]
  congr 1
  funext p
  simp only [Function.comp_apply, List.all_map]
  congr 1
  funext e
  exact h e

theorem prepare_scale (addr : S → Nat) (A : TA S) : prepare addr (A.scale k) = (prepare addr A).map (TA.scale k) := by
  have h1 : (A.scale k).states = A.states := rfl
  have h2 : (A.scale k).init = A.init := rfl
  have h3 : ∀ s, (A.scale k).st s = (A.st s).scale k := fun _ => rfl
  simp only [prepare, h1, h2, h3, dropDollar_scale]
  by_cases h : (A.states.all fun s => partitioned addr A.init s) = true
  · rw [if_pos h, if_pos h]
    have e : ∀ s, ((dropDollar (A.st s)).scale k).next = Next.scale k (dropDollar (A.st s)).next := fun _ => rfl
    simp only [e]
    have e2 : ∀ s, ((Next.scale k (dropDollar (A.st s)).next).all fun p => p.2.all fun e => match e.target with
        | none => false
        | some q => decide (q ∈ A.states)) = (dropDollar (A.st s)).next.all fun p => p.2.all fun e => match e.target with
        | none => false
        | some q => decide (q ∈ A.states) := fun s => all_scale _ _ fun _ => rfl
    generalize hb : (A.states.all fun s => (dropDollar (A.st s)).next.all fun p => p.2.all fun e => match e.target with
        | none => false
        | some q => decide (q ∈ A.states)) = b
    have hb' : (A.states.all fun s => (Next.scale k (dropDollar (A.st s)).next).all fun p => p.2.all fun e =>
        match e.target with
        | none => false
        | some q => decide (q ∈ A.states)) = b := by
      rw [← hb]
      congr 1
      funext s
      exact e2 s
    refine Eq.trans (if_congr (iff_of_eq (congrArg (fun x : Bool => x = true) hb')) rfl rfl) ?_
    cases b <;> rfl
  · rw [if_neg h, if_neg h]
    rfl

theorem clocksOk_scale (A : TA S) : clocksOk (A.scale k) = clocksOk A := by
  have h1 : (A.scale k).states = A.states := rfl
  have h3 : ∀ s, ((A.scale k).st s).next = Next.scale k (A.st s).next := fun _ => rfl
  simp only [clocksOk, h1, h3, TA.scale_clockSize']
  congr 1
  funext s
  refine all_scale _ _ fun e => ?_
  simp only [Transition.scale, List.all_map]
  rfl

end kmp
end Verif
