import Verif.Model.Matcher
import Verif.Spec.Match
import Verif.Lemmas.Zone
import Verif.Lemmas.Constraint

set_option linter.unusedSectionVars false

/-! Facts on the six bounds kept for an accepting transition. -/

namespace Verif

variable {S K : Type} [Field K] [LinearOrder K] [IsStrictOrderedRing K]

open Bnd Zone

/-- The reset instants of a configuration whose match begins at `t`. -/
def rOf (rt : List K) (t : K) : Nat → K := fun x => if rtAt rt x = 0 then t else rtAt rt x

/-- Solutions of the six bounds. -/
def Six.Sat (b : Six K) (t t' : K) : Prop :=
  b.ub.sat t ∧ b.lb.sat (-t) ∧ b.ue.sat t' ∧ b.le.sat (-t') ∧ b.ud.sat (t' - t) ∧ b.ld.sat (t - t')

theorem sixZone_Sat {b : Six K} {v : Nat → K} : (sixZone b).Sat v ↔ b.Sat (v 0) (v 1) := by
  constructor
  · intro h
    have g := fun i j (hi : i < 3) (hj : j < 3) => by
      have := h i j hi hj
      unfold sixZone at this
      rw [get_build hi hj] at this
      exact this
    have h1 := g 1 0 (by decide) (by decide)
    have h2 := g 0 1 (by decide) (by decide)
    have h3 := g 2 0 (by decide) (by decide)
    have h4 := g 0 2 (by decide) (by decide)
    have h5 := g 2 1 (by decide) (by decide)
    have h6 := g 1 2 (by decide) (by decide)
    simp [Zone.ext] at h1 h2 h3 h4 h5 h6
    exact ⟨h1, h2, h3, h4, h5, h6⟩
  · rintro ⟨h1, h2, h3, h4, h5, h6⟩ i j hi hj
    change i < 3 at hi
    change j < 3 at hj
    unfold sixZone
    rw [get_build hi hj]
    have hi' : i = 0 ∨ i = 1 ∨ i = 2 := by omega
    have hj' : j = 0 ∨ j = 1 ∨ j = 2 := by omega
    rcases hi' with rfl | rfl | rfl <;> rcases hj' with rfl | rfl | rfl <;>
      simp [Zone.ext, Bnd.sat] <;> assumption

theorem sat_fin_iff {c d : K} {b : Bool} : (Bnd.fin c b).sat d ↔ if b then d ≤ c else d < c := by
  cases b <;> simp [Bnd.sat]

theorem sat_t {c d : K} : (Bnd.fin c true).sat d ↔ d ≤ c := Iff.rfl
theorem sat_f {c d : K} : (Bnd.fin c false).sat d ↔ d < c := Iff.rfl

theorem sixGuard_Sat {rt : List K} {b : Six K} {g : Constraint} {t t' : K} :
    (sixGuard rt b g).Sat t t' ↔ b.Sat t t' ∧ g.Holds (t' - rOf rt t g.x) := by
  have e1 : ∀ {x y z : K} {a b : Bnd K}, a.sat x → b.sat y → x + y = z → (a + b).sat z := by
    intro x y z a b ha hb h
    exact h ▸ sat_add ha hb
  unfold sixGuard rOf
  by_cases hr : rtAt rt g.x = 0
  · rcases g with ⟨x, odr, c⟩
    dsimp only at hr
    cases odr <;> simp [hr, Six.Sat, sat_min, Constraint.Holds, sat_t, sat_f] <;> constructor
    all_goals
      first
      | (rintro ⟨h1, ⟨h2, h2'⟩, ⟨h3, h3'⟩, h4, ⟨h5, h5'⟩, h6⟩
         exact ⟨⟨h1, h2, h3, h4, h5, h6⟩, by linarith⟩)
      | (rintro ⟨⟨h1, h1'⟩, h2, h3, ⟨h4, h4'⟩, h5, h6, h6'⟩
         exact ⟨⟨h1, h2, h3, h4, h5, h6⟩, by linarith⟩)
      | (rintro ⟨⟨h1, h2, h3, h4, h5, h6⟩, h7⟩
         have h7' := h7
         refine ⟨h1, ⟨h2, e1 h4 (sat_min.2 ⟨h5, ?_⟩) (by ring)⟩,
           ⟨h3, e1 (sat_min.2 ⟨h5, ?_⟩) h1 (by ring)⟩, h4, ⟨h5, ?_⟩, h6⟩ <;> (try simp only [sat_t, sat_f]) <;> linarith)
      | (rintro ⟨⟨h1, h2, h3, h4, h5, h6⟩, h7⟩
         refine ⟨⟨h1, e1 (sat_min.2 ⟨h6, ?_⟩) h3 (by ring)⟩, h2, h3,
           ⟨h4, e1 h2 (sat_min.2 ⟨h6, ?_⟩) (by ring)⟩, h5, h6, ?_⟩ <;> (try simp only [sat_t, sat_f]) <;> linarith)
  · rcases g with ⟨x, odr, c⟩
    dsimp only at hr
    cases odr <;> simp [hr, Six.Sat, sat_min, Constraint.Holds, sat_t, sat_f] <;> constructor
    all_goals
      first
      | (rintro ⟨⟨h1, h1'⟩, h2, ⟨h3, h3'⟩, h4, ⟨h5, h5'⟩, h6⟩
         exact ⟨⟨h1, h2, h3, h4, h5, h6⟩, by linarith⟩)
      | (rintro ⟨h1, ⟨h2, h2'⟩, h3, ⟨h4, h4'⟩, h5, h6, h6'⟩
         exact ⟨⟨h1, h2, h3, h4, h5, h6⟩, by linarith⟩)
      | (rintro ⟨⟨h1, h2, h3, h4, h5, h6⟩, h7⟩
         refine ⟨⟨h1, e1 h6 (sat_min.2 ⟨h3, ?_⟩) (by ring)⟩, h2,
           ⟨h3, ?_⟩, h4, ⟨h5, e1 (sat_min.2 ⟨h3, ?_⟩) h2 (by ring)⟩, h6⟩ <;> (try simp only [sat_t, sat_f]) <;> linarith)
      | (rintro ⟨⟨h1, h2, h3, h4, h5, h6⟩, h7⟩
         refine ⟨h1, ⟨h2, e1 (sat_min.2 ⟨h4, ?_⟩) h5 (by ring)⟩, h3,
           ⟨h4, ?_⟩, h5, h6, e1 h1 (sat_min.2 ⟨h4, ?_⟩) (by ring)⟩ <;> (try simp only [sat_t, sat_f]) <;> linarith)

theorem foldl_sixGuard_Sat {rt : List K} {gs : List Constraint} {b : Six K} {t t' : K} :
    (gs.foldl (sixGuard rt) b).Sat t t' ↔ b.Sat t t' ∧ GuardHolds gs (fun x => t' - rOf rt t x) := by
  induction gs generalizing b with
  | nil => simp [GuardHolds]
  | cons g gs ih =>
    rw [List.foldl_cons, ih, sixGuard_Sat]
    simp [GuardHolds, and_assoc]

theorem sixInit_Sat {c : Conf S K} {ue le : Bnd K} {t t' : K} :
    (sixInit c ue le).Sat t t' ↔
      (c.up.sat t ∧ c.lo.sat (-t)) ∧ ue.sat t' ∧ le.sat (-t') ∧ t ≤ t' := by
  simp only [sixInit, Six.Sat, sat_min]
  constructor
  · rintro ⟨h1, h2, h3, h4, h5, h6, h7⟩
    refine ⟨⟨h1, h2⟩, h3, h4, ?_⟩
    simp [Bnd.sat, Bnd.zeroLe] at h7
    linarith
  · rintro ⟨⟨h1, h2⟩, h3, h4, h5⟩
    refine ⟨h1, h2, h3, h4, ?_, ?_, ?_⟩
    · have := sat_add h3 h2
      rwa [← sub_eq_add_neg] at this
    · have := sat_add h4 h1
      rwa [show -t' + t = t - t' by ring] at this
    · simp [Bnd.sat, Bnd.zeroLe]
      linarith

/-! ### the bounds stay closed -/

/-- The triangle inequalities for three variables `x`, `y`, `z`. -/
structure Tri6 (xy yx xz zx yz zy : Bnd K) : Prop where
  a1 : le' xy (xz + zy)
  a2 : le' xz (xy + yz)
  a3 : le' zy (zx + xy)
  a4 : le' yx (yz + zx)
  a5 : le' zx (zy + yx)
  a6 : le' yz (yx + xz)

theorem Tri6.tighten {xy yx xz zx yz zy c : Bnd K} (h : Tri6 xy yx xz zx yz zy)
    (v : (Bnd.min xy c + yx).sat 0) (vxz : (xz + zx).sat 0) (vyz : (yz + zy).sat 0) :
    Tri6 (Bnd.min xy c) yx (Bnd.min xz (Bnd.min xy c + yz)) zx yz (Bnd.min zy (zx + Bnd.min xy c)) := by
  have hp : le' (Bnd.min xy c) xy := min_le'_left _ _
  generalize Bnd.min xy c = p at *
  refine ⟨?_, min_le'_right _ _, min_le'_right _ _, h.a4, ?_, ?_⟩
  · rcases min_eq xz (p + yz) with e1 | e1 <;> rcases min_eq zy (zx + p) with e2 | e2 <;> rw [e1, e2]
    · exact le'_trans hp h.a1
    · rw [← badd_assoc]
      exact sat_zero_le' vxz
    · rw [badd_assoc]
      exact le'_add_right vyz
    · have : le' (p + yx) (p + (yz + zx)) := add_le'_add (le'_refl _) h.a4
      have h2 : (p + (yz + zx)).sat 0 := sat_of_le' this v
      have h3 := sat_zero_le' h2 (b := p)
      rwa [badd_assoc p yz (zx + p), ← badd_assoc yz zx p, ← badd_assoc]
  · rcases min_eq zy (zx + p) with e | e <;> rw [e]
    · exact h.a5
    · rw [badd_assoc]
      exact le'_add_right v
  · rcases min_eq xz (p + yz) with e | e <;> rw [e]
    · exact h.a6
    · rw [← badd_assoc, badd_comm yx p]
      exact sat_zero_le' v

/-- The matrix of the six bounds satisfies the triangle inequalities. -/
def Six.Tri (b : Six K) : Prop := Tri6 b.ub b.lb b.ld b.ud b.le b.ue

theorem Tri6.perm1 {xy yx xz zx yz zy : Bnd K} (h : Tri6 xy yx xz zx yz zy) : Tri6 yx xy yz zy xz zx :=
  ⟨h.a4, h.a6, h.a5, h.a1, h.a3, h.a2⟩

theorem Tri6.perm2 {xy yx xz zx yz zy : Bnd K} (h : Tri6 xy yx xz zx yz zy) : Tri6 xz zx xy yx zy yz :=
  ⟨h.a2, h.a1, by rw [badd_comm]; exact badd_comm yx xz ▸ h.a6, h.a5, h.a4, h.a3⟩

theorem isValid_iff {u l : Bnd K} : isValidConstraint u l = true ↔ (u + l).sat 0 := bge_zeroLe

theorem sixValid_iff {b : Six K} :
    sixValid b = true ↔ (b.ub + b.lb).sat 0 ∧ (b.ue + b.le).sat 0 ∧ (b.ud + b.ld).sat 0 := by
  simp [sixValid, isValid_iff, and_assoc]

theorem sixValid_mono {b b' : Six K} (h : sixValid b' = true) (h1 : le' b'.ub b.ub) (h2 : le' b'.lb b.lb)
    (h3 : le' b'.ue b.ue) (h4 : le' b'.le b.le) (h5 : le' b'.ud b.ud) (h6 : le' b'.ld b.ld) :
    sixValid b = true := by
  rw [sixValid_iff] at h ⊢
  exact ⟨sat_of_le' (add_le'_add h1 h2) h.1, sat_of_le' (add_le'_add h3 h4) h.2.1,
    sat_of_le' (add_le'_add h5 h6) h.2.2⟩

theorem sixGuard_tri {rt : List K} {b : Six K} {g : Constraint} (hb : sixValid b = true → b.Tri)
    (hv : sixValid (sixGuard rt b g) = true) : (sixGuard rt b g).Tri := by
  have hm : ∀ x y : Bnd K, le' (Bnd.min x y) x := min_le'_left
  have hr : ∀ x : Bnd K, le' x x := le'_refl
  have hb' : sixValid b = true := by
    by_cases h0 : rtAt rt g.x = 0 <;> by_cases ho : g.odr = .lt ∨ g.odr = .le <;>
      refine sixValid_mono hv ?_ ?_ ?_ ?_ ?_ ?_ <;>
      simp only [sixGuard, ne_eq, h0, ho, not_true_eq_false, not_false_eq_true, if_true, if_false] <;>
      first | exact hr _ | exact hm _ _
  have tri := hb hb'
  unfold Six.Tri at tri ⊢
  rw [sixValid_iff] at hv hb'
  obtain ⟨v1, v2, v3⟩ := hb'
  have v1' : (b.lb + b.ub).sat 0 := badd_comm b.ub b.lb ▸ v1
  have v2' : (b.le + b.ue).sat 0 := badd_comm b.ue b.le ▸ v2
  have v3' : (b.ld + b.ud).sat 0 := badd_comm b.ud b.ld ▸ v3
  by_cases h0 : rtAt rt g.x = 0 <;> by_cases ho : g.odr = .lt ∨ g.odr = .le <;>
    simp only [sixGuard, ne_eq, h0, ho, not_true_eq_false, not_false_eq_true, if_true, if_false] at hv ⊢ <;>
    obtain ⟨w1, w2, w3⟩ := hv
  · have w := (tri.perm2.perm1.tighten (c := .fin (g.c : K) (g.odr = .le)) w3 v2 v1).perm1.perm2
    exact w
  · have w := (tri.perm2.tighten (c := .fin (-(g.c : K)) (g.odr = .ge))
      (by rw [badd_comm]; exact w3) v1 v2).perm2
    exact w
  · have w := (tri.perm1.perm2.perm1.tighten w2 v3 v1').perm1.perm2.perm1
    exact w
  · have w := (tri.perm1.perm2.tighten (c := .fin (-(g.c : K) - rtAt rt g.x) (g.odr = .ge))
      (by rw [badd_comm]; exact w2) v1' v3).perm2.perm1
    exact w

theorem foldl_sixGuard_tri {rt : List K} {gs : List Constraint} {b : Six K} (hb : sixValid b = true → b.Tri)
    (hv : sixValid (gs.foldl (sixGuard rt) b) = true) : (gs.foldl (sixGuard rt) b).Tri := by
  induction gs generalizing b with
  | nil => exact hb hv
  | cons g gs ih => exact ih (fun h => sixGuard_tri hb h) hv

theorem sixInit_tri {c : Conf S K} {ue le : Bnd K} (h1 : le' c.up ue) (h2 : le' le c.lo)
    (hv : sixValid (sixInit c ue le) = true) : (sixInit c ue le).Tri := by
  rw [sixValid_iff] at hv
  obtain ⟨v1, v2, v3⟩ := hv
  simp only [sixInit] at v1 v2 v3
  have v1' : (c.lo + c.up).sat 0 := badd_comm c.up c.lo ▸ v1
  have v2' : (le + ue).sat 0 := badd_comm ue le ▸ v2
  have hz : ∀ b : Bnd K, le' b (Bnd.zeroLe + b) := fun b => sat_zero_le' (a := Bnd.zeroLe) (by simp [Bnd.zeroLe, Bnd.sat])
  have hz' : ∀ b : Bnd K, le' b (b + Bnd.zeroLe) := fun b => le'_add_right (a := Bnd.zeroLe) (by simp [Bnd.zeroLe, Bnd.sat])
  unfold sixInit Six.Tri
  refine ⟨?_, ?_, ?_, ?_, ?_, ?_⟩ <;> simp only []
  · rcases min_eq (le + c.up) Bnd.zeroLe with e | e <;> rw [e]
    · rw [badd_comm le, badd_assoc]
      exact le'_add_right v2'
    · exact le'_trans h1 (hz _)
  · rw [badd_comm c.up]
    exact min_le'_left _ _
  · rw [badd_assoc]
    exact le'_add_right v1'
  · rw [← badd_assoc]
    exact sat_zero_le' v2'
  · exact le'_refl _
  · rcases min_eq (le + c.up) Bnd.zeroLe with e | e <;> rw [e]
    · rw [badd_comm le, ← badd_assoc]
      exact sat_zero_le' v1'
    · exact le'_trans h2 (hz' _)

theorem sixZone_canon {b : Six K} (ht : b.Tri) (hv : sixValid b = true) : (sixZone b).Canon := by
  rw [sixValid_iff] at hv
  obtain ⟨v1, v2, v3⟩ := hv
  have v1' : (b.lb + b.ub).sat 0 := badd_comm b.ub b.lb ▸ v1
  have v2' : (b.le + b.ue).sat 0 := badd_comm b.ue b.le ▸ v2
  have v3' : (b.ld + b.ud).sat 0 := badd_comm b.ud b.ld ▸ v3
  have hz : ∀ b : Bnd K, le' b (Bnd.fin 0 true + b) := fun b => sat_zero_le' (a := Bnd.fin 0 true) (by simp [Bnd.sat])
  have hz' : ∀ b : Bnd K, le' b (b + Bnd.fin 0 true) := fun b => le'_add_right (a := Bnd.fin 0 true) (by simp [Bnd.sat])
  have hp : ∀ {a : Bnd K}, a.sat 0 → le' (Bnd.fin 0 true) a := by
    intro a ha
    rw [le'_iff]
    intro d hd
    exact sat_mono_le ha (by simpa [Bnd.sat] using hd)
  have hz0 : le' (Bnd.fin (0:K) true) (Bnd.fin 0 true + Bnd.fin 0 true) := hz _
  apply canon_of_tri
  · intro k hk i j hi hj
    change k < 3 at hk
    change i < 3 at hi
    change j < 3 at hj
    unfold sixZone
    rw [get_build hi hj, get_build hi hk, get_build hk hj]
    have hi' : i = 0 ∨ i = 1 ∨ i = 2 := by omega
    have hj' : j = 0 ∨ j = 1 ∨ j = 2 := by omega
    have hk' : k = 0 ∨ k = 1 ∨ k = 2 := by omega
    rcases hi' with rfl | rfl | rfl <;> rcases hj' with rfl | rfl | rfl <;> rcases hk' with rfl | rfl | rfl <;>
      simp only [] <;>
      first
      | exact hz0 | exact hz _ | exact hz' _
      | exact hp v1 | exact hp v2 | exact hp v3 | exact hp v1' | exact hp v2' | exact hp v3'
      | exact ht.a1 | exact ht.a2 | exact ht.a3 | exact ht.a4 | exact ht.a5 | exact ht.a6
  · intro k hk
    change k < 3 at hk
    unfold sixZone
    rw [get_build hk hk]
    have hk' : k = 0 ∨ k = 1 ∨ k = 2 := by omega
    rcases hk' with rfl | rfl | rfl <;> simp [Bnd.sat]

end Verif
