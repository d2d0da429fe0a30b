import Verif.Lemmas.UnitZone

/-!
# Zone automata in another unit of time
-/

namespace Verif

variable {S K : Type} {k : Int}

/-- A state of a zone automaton with its zone multiplied. -/
def ZNode.scale [Mul K] [IntCast K] (k : Int) (n : ZNode S K) : ZNode S K := { n with zone := n.zone.scale k }

/-- A zone automaton with its zones multiplied. -/
def ZA.scale [Mul K] [IntCast K] (k : Int) (Z : ZA S K) : ZA S K := { nodes := Z.nodes.map (ZNode.scale k), init := Z.init }

variable [Field K] [LinearOrder K] [IsStrictOrderedRing K]

theorem TA.scale_clockSize (A : TA S) : (A.scale k).clockSize = A.clockSize := by simp [TA.clockSize, TA.scale]

theorem zoneGuard_scale (hk : 0 < k) (n : Nat) (gs : List Constraint) (z : Zone K) :
    zoneGuard n (z.scale k) (gs.map (Constraint.scale k)) = (zoneGuard n z gs).map (Zone.scale k) := by
  induction gs generalizing z with
  | nil => rfl
  | cons g gs ih =>
    obtain ⟨x, odr, c⟩ := g
    simp only [List.map_cons, zoneGuard, Constraint.scale]
    by_cases hx : x < n
    · rw [if_pos hx, if_pos hx, ← ih]
      congr 1
      cases odr <;> simp only [Zone.scale_tighten hk, Bnd.scale_fin, Int.cast_mul, mul_neg]
    · rw [if_neg hx, if_neg hx]
      rfl

theorem zoneReset_scale (n : Nat) (xs : List Nat) (z : Zone K) :
    zoneReset n (z.scale k) xs = (zoneReset n z xs).map (Zone.scale k) := by
  induction xs generalizing z with
  | nil => rfl
  | cons x xs ih =>
    simp only [zoneReset]
    by_cases hx : x < n
    · rw [if_pos hx, if_pos hx, ← Zone.scale_reset, ih]
    · rw [if_neg hx, if_neg hx]
      rfl

theorem zoneSucc_scale (hk : 0 < k) (n : Nat) (now : Zone K) (e : Transition S) :
    zoneSucc n (now.scale k) (e.scale k) = (zoneSucc n now e).map (Option.map (Zone.scale k)) := by
  simp only [zoneSucc, Transition.scale, zoneGuard_scale hk, bind, Except.bind]
  cases zoneGuard n now e.guard with
  | error x => rfl
  | ok z =>
    simp only [Except.map, Zone.scale_isSatisfiable hk]
    by_cases hb : z.isSatisfiable.1 = true
    · rw [if_pos hb, if_pos hb, zoneReset_scale]
      cases zoneReset n z.isSatisfiable.2 e.resets with
      | error x => rfl
      | ok z => simp only [Except.map, Option.map_some, Zone.scale_canonize hk, Zone.scale_abstractize hk]
    · rw [if_neg hb, if_neg hb]
      rfl

variable [DecidableEq S]

theorem findNode_scale (hk : 0 < k) (nodes : List (ZNode S K)) (q : S) (z : Zone K) :
    findNode (nodes.map (ZNode.scale k)) q (z.scale k) = findNode nodes q z := by
  simp only [findNode, List.findIdx?_map]
  congr 1
  funext n
  simp only [Function.comp_apply, ZNode.scale, Zone.scale_beq hk]
  rfl

omit [LinearOrder K] [IsStrictOrderedRing K] [DecidableEq S] in
theorem pushEdge_scale (nodes : List (ZNode S K)) (i : Nat) (c : Alphabet) (j : Nat) :
    pushEdge (nodes.map (ZNode.scale k)) i c j = (pushEdge nodes i c j).map (ZNode.scale k) := by
  simp only [pushEdge]
  induction nodes generalizing i with
  | nil => simp
  | cons n nodes ih =>
    cases i with
    | zero => simp [ZNode.scale]
    | succ i => simpa using ih i

/-- The states and the queue with the zones multiplied. -/
def scaleSt (k : Int) (st : List (ZNode S K) × List Nat) : List (ZNode S K) × List Nat := (st.1.map (ZNode.scale k), st.2)

theorem expandEdge_scale (hk : 0 < k) (A : TA S) (i : Nat) (now : Zone K) (c : Alphabet) (e : Transition S)
    (st : List (ZNode S K) × List Nat) :
    expandEdge (A.scale k) i (now.scale k) c (e.scale k) (scaleSt k st) = (expandEdge A i now c e st).map (scaleSt k) := by
  have ht : (e.scale k).target = e.target := rfl
  simp only [expandEdge, ht]
  cases e.target with
  | none => rfl
  | some q =>
    simp only [TA.scale_clockSize, zoneSucc_scale hk, bind, Except.bind]
    cases zoneSucc A.clockSize now e with
    | error x => rfl
    | ok r =>
      cases r with
      | none => rfl
      | some z =>
        simp only [Except.map, Option.map_some, scaleSt, findNode_scale hk]
        by_cases hc : c < 127
        · rw [if_pos hc, if_pos hc]
          cases findNode st.1 q z with
          | some j => simp only [pushEdge_scale]
          | none =>
            simp only [List.length_map, ← pushEdge_scale, List.map_append, List.map_cons, List.map_nil]
            rfl
        · rw [if_neg hc, if_neg hc]

omit [LinearOrder K] [IsStrictOrderedRing K] [DecidableEq S] in
theorem outEdges_scale (A : TA S) (s : S) : outEdges (A.scale k) s = (outEdges A s).map fun p => (p.1, p.2.scale k) := by
  simp only [outEdges, TA.scale, TAState.scale, Next.scale, List.flatMap_map, List.map_flatMap, List.map_map]
  rfl

/-- Folds commute with a translation of the state. -/
theorem foldlM_map {α β γ δ : Type} {f : β → α → Except Err β} {f' : γ → δ → Except Err γ} {g : β → γ} {h : α → δ}
    (H : ∀ st a, f' (g st) (h a) = (f st a).map g) (l : List α) (st : β) :
    (l.map h).foldlM f' (g st) = (l.foldlM f st).map g := by
  induction l generalizing st with
  | nil => rfl
  | cons a l ih =>
    rw [List.map_cons, List.foldlM_cons, List.foldlM_cons, H]
    cases f st a with
    | error x => rfl
    | ok b => exact ih b

theorem expandNode_scale (hk : 0 < k) (A : TA S) (i : Nat) (st : List (ZNode S K) × List Nat) :
    expandNode (A.scale k) i (scaleSt k st) = (expandNode A i st).map (scaleSt k) := by
  simp only [expandNode]
  have hg : (scaleSt k st).1[i]? = (st.1[i]?).map (ZNode.scale k) := by simp [scaleSt]
  rw [hg]
  cases st.1[i]? with
  | none => rfl
  | some n =>
    simp only [Option.map_some]
    have hs : (n.scale k).s = n.s := rfl
    have hz : (n.scale k).zone = n.zone.scale k := rfl
    rw [hs, hz, ← Zone.scale_elapse, outEdges_scale]
    exact foldlM_map (fun st p => expandEdge_scale hk A i _ p.1 p.2 st) _ _

theorem expandAll_scale (hk : 0 < k) (A : TA S) (fuel : Nat) (nodes : List (ZNode S K)) (conf : List Nat) :
    expandAll (A.scale k) fuel (nodes.map (ZNode.scale k)) conf = (expandAll A fuel nodes conf).map (List.map (ZNode.scale k)) := by
  induction fuel generalizing nodes conf with
  | zero => rfl
  | succ fuel ih =>
    simp only [expandAll]
    by_cases hc : conf.isEmpty = true
    · rw [if_pos hc, if_pos hc]
      rfl
    · rw [if_neg hc, if_neg hc]
      have h := foldlM_map (f := fun st i => expandNode (K := K) A i st) (f' := fun st i => expandNode (K := K) (A.scale k) i st)
        (g := scaleSt k) (h := id) (fun st i => expandNode_scale hk A i st) conf (nodes, [])
      rw [List.map_id] at h
      have e1 : ((nodes.map (ZNode.scale k), []) : List (ZNode S K) × List Nat) = scaleSt k (nodes, []) := rfl
      rw [e1, h]
      simp only [bind, Except.bind]
      cases conf.foldlM (fun st i => expandNode A i st) (nodes, []) with
      | error x => rfl
      | ok r => exact ih r.1 r.2

omit [DecidableEq S] in
theorem maxBound_scale (hk : 0 < k) (A : TA S) : (maxBound (A.scale k) : Bnd K) = (maxBound A).scale k := by
  simp only [maxBound, TA.scale]
  cases A.maxC with
  | nil => simp [Bnd.scale_zero]
  | cons c cs =>
    simp only [List.map_cons, Bnd.scale_fin]
    congr 1
    rw [← Int.cast_mul]
    congr 1
    induction cs generalizing c with
    | nil => rfl
    | cons d cs ih =>
      simp only [List.map_cons, List.foldl_cons]
      rw [← ih, ← mul_max_of_nonneg _ _ hk.le]

theorem ta2za_scale (hk : 0 < k) (fuel : Nat) (A : TA S) (Z : ZA S K) :
    ta2za fuel (A.scale k) (Z.scale k) = (ta2za fuel A Z).map (ZA.scale k) := by
  simp only [ta2za, TA.scale_clockSize, maxBound_scale hk, ← Zone.scale_zone0]
  have hn : (Z.scale k).nodes = Z.nodes.map (ZNode.scale k) := rfl
  have hi : (A.scale k).init = A.init := rfl
  simp only [hn, hi, findNode_scale hk, List.length_map]
  generalize A.init.filter (fun s => (findNode Z.nodes s (Zone.zero (A.clockSize + 1) (maxBound A))).isNone) = init
  by_cases h : init.isEmpty = true
  · rw [if_pos h, if_pos h]
    rfl
  · rw [if_neg h, if_neg h]
    have e1 : (Z.nodes.map (ZNode.scale k) ++ init.map fun s => (⟨s, (Zone.zero (A.clockSize + 1) (maxBound A) : Zone K).scale k,
        ((A.scale k).st s).isMatch, []⟩ : ZNode S K)) =
        (Z.nodes ++ init.map fun s => (⟨s, Zone.zero (A.clockSize + 1) (maxBound A), (A.st s).isMatch, []⟩ : ZNode S K)).map
          (ZNode.scale k) := by
      rw [List.map_append, List.map_map]
      rfl
    rw [e1, expandAll_scale hk]
    simp only [bind, Except.bind]
    generalize expandAll A fuel (Z.nodes ++ init.map fun s =>
      (⟨s, Zone.zero (A.clockSize + 1) (maxBound A), (A.st s).isMatch, []⟩ : ZNode S K)) _ = r
    cases r <;> rfl

end Verif
