import Verif.Spec.Unit
import Verif.Model.Monaa
import Mathlib.Tactic.Ring
import Mathlib.Tactic.Linarith

/-!
# Zones in another unit of time
-/

namespace Verif

variable {S K : Type} [Field K] [LinearOrder K] [IsStrictOrderedRing K] {k : Int}

theorem cast_pos (hk : 0 < k) : (0 : K) < (k : K) := by exact_mod_cast hk

namespace Bnd

theorem scale_add (a b : Bnd K) : (a + b).scale k = a.scale k + b.scale k := by
  cases a <;> cases b <;> simp only [HAdd.hAdd, Add.add, Bnd.add, Bnd.scale]
  congr 1
  exact mul_add _ _ _

theorem scale_blt (hk : 0 < k) (a b : Bnd K) : blt (a.scale k) (b.scale k) = blt a b := by
  have := cast_pos (K := K) hk
  cases a <;> cases b <;> simp [blt, Bnd.scale, this, this.ne']

theorem scale_bge (hk : 0 < k) (a b : Bnd K) : bge (a.scale k) (b.scale k) = bge a b := by
  rw [bge, scale_blt hk, bge]

theorem scale_min (hk : 0 < k) (a b : Bnd K) : (Bnd.min a b).scale k = Bnd.min (a.scale k) (b.scale k) := by
  unfold Bnd.min
  rw [scale_blt hk]
  split_ifs <;> rfl

theorem scale_fin (c : K) (s : Bool) : (Bnd.fin c s).scale k = .fin (k * c) s := rfl

theorem scale_inf (s : Bool) : (Bnd.inf s : Bnd K).scale k = .inf s := rfl

theorem scale_zero (s : Bool) : (Bnd.fin 0 s : Bnd K).scale k = .fin 0 s := by rw [scale_fin, mul_zero]

theorem scale_zeroLe : (Bnd.zeroLe : Bnd K).scale k = Bnd.zeroLe := scale_zero true

theorem scale_inj (hk : 0 < k) (a b : Bnd K) : a.scale k = b.scale k ↔ a = b := by
  have := (cast_pos (K := K) hk).ne'
  cases a <;> cases b <;> simp [Bnd.scale, this]

end Bnd

namespace Zone

theorem scale_get (z : Zone K) (i j : Nat) : (z.scale k).get i j = (z.get i j).scale k := by
  simp only [get, scale, List.getD_eq_getElem?_getD, List.getElem?_map]
  cases z.cells[i]? with
  | none => simp [Bnd.scale]
  | some r =>
    simp only [Option.map_some, Option.getD_some, List.getElem?_map]
    cases r[j]? <;> simp [Bnd.scale]

theorem scale_build (n : Nat) (M : Bnd K) (f : Nat → Nat → Bnd K) :
    (build n M f).scale k = build n (M.scale k) fun i j => (f i j).scale k := by
  simp [build, scale, Function.comp_def]

theorem scale_n (z : Zone K) : (z.scale k).n = z.n := rfl

theorem scale_M (z : Zone K) : (z.scale k).M = z.M.scale k := rfl

theorem scale_zone0 (n : Nat) (M : Bnd K) : (Zone.zero n M).scale k = Zone.zero n (M.scale k) := by
  simp only [zero, scale_build, Bnd.scale_zero]

theorem scale_set (z : Zone K) (x y : Nat) (b : Bnd K) : (z.set x y b).scale k = (z.scale k).set x y (b.scale k) := by
  simp only [set, scale_build, scale_get, scale_n, scale_M, apply_ite (Bnd.scale k)]

theorem scale_close1 (hk : 0 < k) (z : Zone K) (x : Nat) : (z.close1 x).scale k = (z.scale k).close1 x := by
  simp only [close1, scale_build, scale_get, scale_n, scale_M, apply_ite (Bnd.scale k), Bnd.scale_min hk, Bnd.scale_add]

theorem scale_tighten (hk : 0 < k) (z : Zone K) (x y : Nat) (c : Bnd K) :
    (z.tighten x y c).scale k = (z.scale k).tighten x y (c.scale k) := by
  simp only [tighten, scale_close1 hk, scale_set, scale_get, Bnd.scale_min hk]

theorem scale_reset (z : Zone K) (x : Nat) : (z.reset x).scale k = (z.scale k).reset x := by
  simp only [reset, scale_build, scale_set, scale_get, scale_n, scale_M, apply_ite (Bnd.scale k), Bnd.scale_zero, ← scale_get]
  rfl

theorem scale_strict (b : Bnd K) : (strict b).scale k = strict (b.scale k) := by cases b <;> rfl

theorem scale_elapse (z : Zone K) : z.elapse.scale k = (z.scale k).elapse := by
  have h : (build z.n z.M fun i j => if j = 0 then .inf false else z.get i j).scale k =
      build z.n (z.M.scale k) fun i j => if j = 0 then .inf false else (z.scale k).get i j := by
    simp only [scale_build, scale_get, apply_ite (Bnd.scale k), Bnd.scale_inf]
  simp only [elapse]
  rw [scale_build]
  simp only [apply_ite (Bnd.scale k), scale_strict, ← scale_get, h]
  rfl

theorem scale_canonize (hk : 0 < k) (z : Zone K) : z.canonize.scale k = (z.scale k).canonize := by
  simp only [canonize, scale_n]
  generalize List.range z.n = l
  induction l generalizing z with
  | nil => rfl
  | cons x l ih => rw [List.foldl_cons, List.foldl_cons, ih, scale_close1 hk]

theorem scale_noNegativePair (hk : 0 < k) (z : Zone K) : (z.scale k).noNegativePair = z.noNegativePair := by
  simp only [noNegativePair, scale_get, scale_n, ← Bnd.scale_add]
  conv_lhs => rw [← Bnd.scale_zeroLe (k := k)]
  simp only [Bnd.scale_bge hk]

theorem scale_isSatisfiable (hk : 0 < k) (z : Zone K) :
    (z.scale k).isSatisfiable = (z.isSatisfiable.1, z.isSatisfiable.2.scale k) := by
  simp only [isSatisfiable, ← scale_canonize hk, scale_noNegativePair hk]

theorem scale_abstractize (hk : 0 < k) (z : Zone K) : z.abstractize.scale k = (z.scale k).abstractize := by
  simp only [abstractize, scale_build, scale_get, scale_n, scale_M, apply_ite (Bnd.scale k), Bnd.scale_bge hk, Bnd.scale_inf]

theorem scale_beq (hk : 0 < k) (a b : Zone K) : (a.scale k).beq (b.scale k) = a.beq b := by
  have key : ∀ i j, decide ((a.get i j).scale k = (b.get i j).scale k) = decide (a.get i j = b.get i j) :=
    fun i j => decide_eq_decide.2 (Bnd.scale_inj hk _ _)
  simp only [beq, scale_get, scale_n, key]
  rfl

end Zone
end Verif
