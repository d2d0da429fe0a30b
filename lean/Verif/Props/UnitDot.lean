import Verif.Model.Dot
import Verif.Props.UnitTRE

/-!
# The unit of time for patterns given as graphs (C94)
-/

namespace Verif

/-- The edge with the constants of its guard multiplied. -/
def DotEdge.scale (k : Int) (e : DotEdge) : DotEdge := { e with guard := e.guard.map (Constraint.scale k) }

/-- The graph with all constants multiplied. -/
def DotGraph.scale (k : Int) (G : DotGraph) : DotGraph := { G with edges := G.edges.map (DotEdge.scale k) }

namespace Props

theorem addConst_scale {k : Int} (hk : 0 < k) (m : List Int) (g : Constraint) :
    addConst (m.map (k * ·)) (g.scale k) = (addConst m g).map (k * ·) := by
  have h : ∀ a b : Int, k * max a b = max (k * a) (k * b) := fun a b => mul_max_of_nonneg a b hk.le
  have e : (m.map (k * ·)) ++ List.replicate (g.x + 1 - m.length) 0 =
      (m ++ List.replicate (g.x + 1 - m.length) 0).map (k * ·) := by simp
  have hx : (g.scale k).x = g.x := rfl
  have hc : (g.scale k).c = k * g.c := rfl
  simp only [addConst, List.length_map, hx, hc, e, List.map_set, h]
  generalize m ++ List.replicate (g.x + 1 - m.length) 0 = l
  congr 2
  simp only [List.getD_eq_getElem?_getD, List.getElem?_map]
  cases l[g.x]? <;> simp

theorem foldl_addConst_scale {k : Int} (hk : 0 < k) (gs : List Constraint) (m : List Int) :
    (gs.map (Constraint.scale k)).foldl addConst (m.map (k * ·)) = (gs.foldl addConst m).map (k * ·) := by
  induction gs generalizing m with
  | nil => rfl
  | cons g gs ih => simp only [List.map_cons, List.foldl_cons, addConst_scale hk, ih]

theorem push_scale {k : Int} (m : Next Nat) (c : Alphabet) (e : Transition Nat) :
    (Next.scale k m).push c (e.scale k) = Next.scale k (m.push c e) := by
  induction m with
  | nil => rfl
  | cons p m ih =>
    obtain ⟨d, l⟩ := p
    simp only [Next.scale] at ih
    simp only [Next.scale, List.map_cons, Next.push]
    split_ifs
    · simp only [List.map_cons, List.map_append, List.map_nil]
    · rw [ih, List.map_cons]

theorem convEdge_scale {k : Int} (hk : 0 < k) (alloc : Nat → Nat) (A : TA Nat) (e : DotEdge) :
    convEdge alloc (A.scale k) (e.scale k) = (convEdge alloc A e).scale k := by
  refine TA.ext' rfl rfl (fun a => ?_) (foldl_addConst_scale hk e.guard A.maxC)
  show (if a = alloc e.source then _ else _) = TAState.scale k (if a = alloc e.source then _ else _)
  by_cases h : a = alloc e.source
  · rw [if_pos h, if_pos h]
    exact congrArg (TAState.mk _ _) (push_scale (A.st a).next e.label ⟨some (alloc e.target), e.resets, e.guard⟩)
  · rw [if_neg h, if_neg h]
    rfl

theorem foldl_convEdge_scale {k : Int} (hk : 0 < k) (alloc : Nat → Nat) (es : List DotEdge) (A : TA Nat) :
    (es.map (DotEdge.scale k)).foldl (convEdge alloc) (A.scale k) = (es.foldl (convEdge alloc) A).scale k := by
  induction es generalizing A with
  | nil => rfl
  | cons e es ih => simp only [List.map_cons, List.foldl_cons, convEdge_scale hk, ih]

/-- **C94.** For every graph: `convBoostTA` gives for the graph in the other unit the automaton in the other unit. -/
theorem graph_unit (k : Int) (hk : 0 < k) (alloc : Nat → Nat) (G : DotGraph) :
    convBoostTA alloc (G.scale k) = (convBoostTA alloc G).scale k := by
  have hs : convStates alloc (G.scale k) = (convStates alloc G).scale k := by
    refine TA.ext' rfl rfl (fun a => ?_) rfl
    simp only [convStates, TA.scale, DotGraph.scale]
    cases (List.range G.vertices.length).find? fun v => alloc v == a <;> rfl
  have he : ((List.range G.vertices.length).flatMap fun v => (G.scale k).edges.filter fun e => e.source == v) =
      ((List.range G.vertices.length).flatMap fun v => G.edges.filter fun e => e.source == v).map (DotEdge.scale k) := by
    rw [List.map_flatMap]
    refine flatMap_congr' fun v _ => ?_
    simp only [DotGraph.scale, List.filter_map]
    rfl
  have hv : (G.scale k).vertices = G.vertices := rfl
  rw [convBoostTA, hs, hv, he, foldl_convEdge_scale hk]
  rfl

/-- A graph with a guard; in the other unit the constant is another one. -/
example : (convBoostTA id ⟨[(true, false), (false, true)], [⟨0, 1, 97, [0], [⟨0, .le, 3⟩]⟩]⟩).maxC = [3] ∧
    (convBoostTA id (DotGraph.scale 1000 ⟨[(true, false), (false, true)], [⟨0, 1, 97, [0], [⟨0, .le, 3⟩]⟩]⟩)).maxC = [3000] := by
  decide

end Props
end Verif
