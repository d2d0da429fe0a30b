import Verif.Lemmas.Zone

set_option linter.unusedSectionVars false

/-! Letting time pass twice, with the abstraction after each delay, gives the same zone as once. -/

namespace Verif
namespace Zone

variable {K : Type} [Field K] [LinearOrder K] [IsStrictOrderedRing K]

open Bnd

/-- The flag of a bound. -/
def nonStrict : Bnd K → Bool
  | .fin _ s => s
  | .inf s => s

/-- No infinite bound has the flag `true`. -/
def Norm (z : Zone K) : Prop := ∀ i j, i < z.n → j < z.n → z.get i j ≠ .inf true

/-- No upper bounds, and all lower bounds are strict. -/
def Up (z : Zone K) : Prop :=
  (∀ i, i < z.n → z.get i 0 = .inf false) ∧ ∀ j, j < z.n → nonStrict (z.get 0 j) = false

/-- All triangle inequalities, also those ending where they start. -/
def FullTri (z : Zone K) : Prop :=
  ∀ k i j, k < z.n → i < z.n → j < z.n → le' (z.get i j) (z.get i k + z.get k j)

theorem nonStrict_add (a b : Bnd K) : nonStrict (a + b) = (nonStrict a && nonStrict b) := by
  rcases a with ⟨a, s⟩ | s <;> rcases b with ⟨b, t⟩ | t <;> simp [nonStrict]

theorem norm_add {a b : Bnd K} (ha : a ≠ .inf true) (hb : b ≠ .inf true) : a + b ≠ .inf true := by
  rcases a with ⟨a, s⟩ | s <;> rcases b with ⟨b, t⟩ | t <;> simp_all

theorem le'_antisymm {a b : Bnd K} (ha : a ≠ .inf true) (hb : b ≠ .inf true) (h1 : le' a b) (h2 : le' b a) : a = b := by
  rcases a with ⟨a, s⟩ | s <;> rcases b with ⟨b, t⟩ | t <;> simp [le'] at h1 h2 ha hb
  · rcases h1 with h1 | ⟨rfl, h1⟩
    · rcases h2 with h2 | ⟨rfl, h2⟩
      · exact absurd h1 (lt_asymm h2)
      · exact absurd h1 (lt_irrefl _)
    · rcases h2 with h2 | h2
      · exact absurd h2 (lt_irrefl _)
      · have : s = t := by cases s <;> cases t <;> simp_all
        rw [this]
  · subst ha hb
    rfl

theorem close1_norm {z : Zone K} {x : Nat} (hx : x < z.n) (h : z.Norm) : (z.close1 x).Norm := by
  intro i j hi hj
  simp only [close1_n] at hi hj
  rw [close1, get_build hi hj]
  simp only
  have hr : (if i ≤ x then z.get x j else Bnd.min (z.get x j) (z.get x j + z.get x x)) ≠ .inf true := by
    split_ifs
    · exact h x j hx hj
    · rcases min_eq (z.get x j) (z.get x j + z.get x x) with e | e <;> rw [e]
      · exact h x j hx hj
      · exact norm_add (h x j hx hj) (h x x hx hx)
  generalize (if i ≤ x then z.get x j else Bnd.min (z.get x j) (z.get x j + z.get x x)) = r at hr
  rcases min_eq (z.get i j) (r + z.get i x) with e | e <;> rw [e]
  · exact h i j hi hj
  · exact norm_add hr (h i x hi hx)

theorem foldl_close1_inv (P : Zone K → Prop) (n : Nat) (hP : ∀ z x, z.n = n → x < n → P z → P (z.close1 x)) :
    ∀ (l : List Nat) (z : Zone K), z.n = n → (∀ x ∈ l, x < n) → P z → P (l.foldl close1 z) := by
  intro l
  induction l with
  | nil => intro z _ _ h; exact h
  | cons a l ih =>
    intro z hz hl h
    exact ih _ (by simpa using hz) (fun x hx => hl x (by simp [hx])) (hP z a hz (hl a (by simp)) h)

theorem canonize_norm {z : Zone K} (h : z.Norm) : z.canonize.Norm :=
  foldl_close1_inv Norm z.n (fun z x hn hx h => close1_norm (by omega) h) _ z rfl (by simp) h

theorem close1_up {z : Zone K} {x : Nat} (hx : x < z.n) (h : z.Up) : (z.close1 x).Up := by
  obtain ⟨h1, h2⟩ := h
  have h0 : 0 < z.n := by omega
  refine ⟨fun i hi => ?_, fun j hj => ?_⟩
  · simp only [close1_n] at hi
    rw [close1, get_build hi h0]
    simp only [h1 i hi, h1 x hx]
    have hr : (if i ≤ x then Bnd.inf false else Bnd.min (.inf false) (.inf false + z.get x x)) = (Bnd.inf false : Bnd K) := by
      split_ifs
      · rfl
      · rcases z.get x x with ⟨c, s⟩ | s <;> simp [Bnd.min, Bnd.blt]
    rw [hr]
    rcases z.get i x with ⟨c, s⟩ | s <;> simp [Bnd.min, Bnd.blt]
  · simp only [close1_n] at hj
    rw [close1, get_build h0 hj]
    simp only
    generalize (if 0 ≤ x then z.get x j else Bnd.min (z.get x j) (z.get x j + z.get x x)) = r
    rcases min_eq (z.get 0 j) (r + z.get 0 x) with e | e <;> rw [e]
    · exact h2 j hj
    · rw [nonStrict_add, h2 x hx, Bool.and_false]

theorem canonize_up {z : Zone K} (h : z.Up) : z.canonize.Up :=
  foldl_close1_inv Up z.n (fun z x hn hx h => close1_up (by omega) h) _ z rfl (by simp) h

theorem elapse_up (z : Zone K) : z.elapse.Up := by
  refine ⟨fun i hi => ?_, fun j hj => ?_⟩
  · simp only [elapse_n] at hi
    rw [elapse_get hi (by omega), if_pos rfl]
  · simp only [elapse_n] at hj
    rw [elapse_get (by omega) hj, if_pos rfl]
    split_ifs
    · rfl
    · rcases z.get 0 j with ⟨c, s⟩ | s <;> rfl

theorem abstractize_up {z : Zone K} (h : z.Up) : z.abstractize.Up := by
  obtain ⟨h1, h2⟩ := h
  refine ⟨fun i hi => ?_, fun j hj => ?_⟩
  · simp only [abstractize_n] at hi
    rw [abstractize, get_build hi (by omega), h1 i hi]
    split_ifs <;> rfl
  · simp only [abstractize_n] at hj
    rw [abstractize, get_build (by omega) hj]
    split_ifs
    · rfl
    · exact h2 j hj

theorem elapse_of_up {z : Zone K} (h : z.Up) {i j : Nat} (hi : i < z.n) (hj : j < z.n) : z.elapse.get i j = z.get i j := by
  rw [elapse_get hi hj]
  split_ifs with h1 h2
  · subst h1
    exact (h.1 i hi).symm
  · subst h2
    have := h.2 j hj
    rcases hg : z.get 0 j with ⟨c, s⟩ | s <;> rw [hg] at this <;> simp only [nonStrict] at this <;> subst this <;> rfl
  · rfl

/-- `canonize` gives the greatest matrix with all triangle inequalities below the given one. -/
theorem le'_close1 {z u : Zone K} (hn : u.n = z.n) (hu : u.FullTri) {x : Nat} (hx : x < z.n)
    (h : ∀ i j, i < z.n → j < z.n → le' (u.get i j) (z.get i j)) :
    ∀ i j, i < z.n → j < z.n → le' (u.get i j) ((z.close1 x).get i j) := by
  intro i j hi hj
  rw [close1, get_build hi hj]
  simp only
  refine le'_min (h i j hi hj) ?_
  refine le'_trans (hu x i j (by omega) (by omega) (by omega)) ?_
  rw [badd_comm]
  refine add_le'_add ?_ (h i x hi hx)
  split_ifs
  · exact h x j hx hj
  · refine le'_min (h x j hx hj) ?_
    refine le'_trans (hu x x j (by omega) (by omega) (by omega)) ?_
    rw [badd_comm]
    exact add_le'_add (h x j hx hj) (h x x hx hx)

theorem le'_canonize {z u : Zone K} (hn : u.n = z.n) (hu : u.FullTri)
    (h : ∀ i j, i < z.n → j < z.n → le' (u.get i j) (z.get i j)) :
    ∀ i j, i < z.n → j < z.n → le' (u.get i j) (z.canonize.get i j) :=
  foldl_close1_inv (fun z' => ∀ i j, i < z.n → j < z.n → le' (u.get i j) (z'.get i j)) z.n
    (fun z' x hz hx h => by
      have := le'_close1 (z := z') (by omega) hu (by omega) (fun i j hi hj => h i j (by omega) (by omega)) (x := x)
      intro i j hi hj
      exact this i j (by omega) (by omega)) _ z rfl (by simp) h

theorem canonize_fullTri {z : Zone K} {v : Nat → K} (hv : z.Sat v) : z.canonize.FullTri := by
  have hd : ∀ k, k < z.n → (z.canonize.get k k).sat 0 := fun k hk => (canon_of_sat hv).diag (by simpa using hk)
  intro k i j hk hi hj
  simp only [canonize_n] at hk
  exact foldl_close1_tri (by simp) hd (fun _ => False) (by simp) k hk (Or.inr (by simpa)) i j
    (by simpa [canonize] using hi) (by simpa [canonize] using hj)

theorem get_canonize_le' {z : Zone K} {i j : Nat} (hi : i < z.n) (hj : j < z.n) : le' (z.canonize.get i j) (z.get i j) :=
  foldl_close1_le' hi hj

theorem abstractize_get {z : Zone K} {i j : Nat} (hi : i < z.n) (hj : j < z.n) :
    z.abstractize.get i j = if Bnd.bge (z.get i j) z.M then .inf false else z.get i j := by
  rw [abstractize, get_build hi hj]

theorem le'_abstractize {z : Zone K} {i j : Nat} (hi : i < z.n) (hj : j < z.n) : le' (z.get i j) (z.abstractize.get i j) := by
  rw [abstractize_get hi hj]
  split_ifs
  · trivial
  · exact le'_refl _

theorem abstractize_norm {z : Zone K} {c : K} {s : Bool} (hM : z.M = .fin c s) : z.abstractize.Norm := by
  intro i j hi hj
  simp only [abstractize_n] at hi hj
  rw [abstractize_get hi hj, hM]
  split_ifs with h
  · simp
  · intro he
    rw [he] at h
    simp [Bnd.bge, Bnd.blt] at h

theorem blt_of_le' {a b : Bnd K} {c : K} {s : Bool} (h : le' a b) (hb : Bnd.blt b (.fin c s) = true) :
    Bnd.blt a (.fin c s) = true := by
  rcases a with ⟨a, t⟩ | t <;> rcases b with ⟨b, u⟩ | u <;> simp [le', Bnd.blt] at h hb ⊢
  rcases h with h | ⟨rfl, h⟩
  · rcases hb with hb | ⟨rfl, -, -⟩
    · exact Or.inl (h.trans hb)
    · exact Or.inl h
  · rcases hb with hb | ⟨rfl, hu, hs⟩
    · exact Or.inl hb
    · refine Or.inr ⟨rfl, ?_, hs⟩
      cases t <;> simp_all

/-- Two zones agreeing everywhere inside the matrix. -/
def Same (a b : Zone K) : Prop := a.n = b.n ∧ a.M = b.M ∧ ∀ i j, i < a.n → j < a.n → a.get i j = b.get i j

theorem Same.beq {a b : Zone K} (h : a.Same b) : a.beq b = true := by
  obtain ⟨h1, -, h3⟩ := h
  simp only [Zone.beq, Bool.and_eq_true, decide_eq_true_eq, List.all_eq_true, List.mem_range, Bool.or_eq_true]
  exact ⟨h1, fun i hi j hj => Or.inr (h3 i j hi hj)⟩

theorem Same.close1 {a b : Zone K} (h : a.Same b) {x : Nat} (hx : x < a.n) : (a.close1 x).Same (b.close1 x) := by
  obtain ⟨h1, h2, h3⟩ := h
  refine ⟨h1, h2, fun i j hi hj => ?_⟩
  simp only [close1_n] at hi hj
  rw [Zone.close1, Zone.close1, get_build hi hj, get_build (by omega) (by omega)]
  simp only [h3 i j hi hj, h3 x j hx hj, h3 x x hx hx, h3 i x hi hx]

theorem Same.canonize {a b : Zone K} (h : a.Same b) : a.canonize.Same b.canonize := by
  have key : ∀ (l : List Nat) (a b : Zone K), a.Same b → (∀ x ∈ l, x < a.n) → (l.foldl Zone.close1 a).Same (l.foldl Zone.close1 b) := by
    intro l
    induction l with
    | nil => intro a b h _; exact h
    | cons x l ih =>
      intro a b h hl
      exact ih _ _ (h.close1 (hl x (by simp))) (fun y hy => hl y (by simp [hy]))
  have := key (List.range a.n) a b h (by simp)
  unfold Zone.canonize
  rw [← h.1]
  exact this

theorem Same.abstractize {a b : Zone K} (h : a.Same b) : a.abstractize.Same b.abstractize := by
  refine ⟨h.1, h.2.1, fun i j hi hj => ?_⟩
  simp only [abstractize_n] at hi hj
  rw [abstractize_get hi hj, abstractize_get (by rw [← h.1]; exact hi) (by rw [← h.1]; exact hj), h.2.2 i j hi hj, h.2.1]

theorem Same.trans {a b c : Zone K} (h : a.Same b) (h' : b.Same c) : a.Same c :=
  ⟨h.1.trans h'.1, h.2.1.trans h'.2.1, fun i j hi hj =>
    (h.2.2 i j hi hj).trans (h'.2.2 i j (by rw [← h.1]; exact hi) (by rw [← h.1]; exact hj))⟩

/-- The zone after a transition without guard and resets. -/
def pass (z : Zone K) : Zone K := z.elapse.canonize.abstractize.canonize

@[simp] theorem pass_n (z : Zone K) : z.pass.n = z.n := by simp [pass]
@[simp] theorem pass_M (z : Zone K) : z.pass.M = z.M := by simp [pass]

/-- The second time nothing changes. -/
theorem pass_pass {z : Zone K} {c : K} {s : Bool} (hM : z.M = .fin c s) {v : Nat → K} (hv : z.Sat v) :
    z.pass.pass.Same z.pass := by
  have hv1 : z.elapse.Sat (fun i => v i + 1) := sat_elapse hv one_pos
  have hv2 : z.elapse.canonize.abstractize.Sat (fun i => v i + 1) := abstractize_Sat (canonize_Sat.2 hv1)
  generalize hy : z.elapse.canonize.abstractize = y at hv2
  have hyn : y.n = z.n := by rw [← hy]; simp
  have hyM : y.M = .fin c s := by rw [← hy]; simp [hM]
  have hw : z.pass = y.canonize := by rw [← hy]; rfl
  have hyu : y.Up := by rw [← hy]; exact abstractize_up (canonize_up (elapse_up z))
  have hynorm : y.Norm := by rw [← hy]; exact abstractize_norm (c := c) (s := s) (by simp [hM])
  have hylt : ∀ i j, i < y.n → j < y.n → (∃ t, y.get i j = .inf t) ∨ Bnd.blt (y.get i j) (.fin c s) = true := by
    intro i j hi hj
    rw [← hy] at hi hj ⊢
    simp only [abstractize_n] at hi hj
    rw [abstractize_get hi hj]
    split_ifs with h
    · exact Or.inl ⟨_, rfl⟩
    · right
      have : (z.elapse.canonize).M = .fin c s := by simp [hM]
      rw [this] at h
      simpa [Bnd.bge] using h
  rw [hw]
  have hwu := canonize_up hyu
  have hwn := canonize_norm hynorm
  have hwt := canonize_fullTri hv2
  have hwv : y.canonize.Sat (fun i => v i + 1) := canonize_Sat.2 hv2
  have hwM : y.canonize.M = .fin c s := by simp [hyM]
  have hle : ∀ i j, i < y.n → j < y.n → le' (y.canonize.get i j) (y.get i j) := fun i j hi hj => get_canonize_le' hi hj
  have hmax : ∀ u : Zone K, u.n = y.n → u.FullTri → (∀ i j, i < y.n → j < y.n → le' (u.get i j) (y.get i j)) →
      ∀ i j, i < y.n → j < y.n → le' (u.get i j) (y.canonize.get i j) := fun u hn hu h => le'_canonize hn hu h
  have hwn' : y.canonize.n = y.n := by simp
  generalize y.canonize = w at hwu hwn hwt hwv hwM hle hmax hwn'
  -- letting time pass and `canonize` do not change it
  have s1 : w.elapse.Same w := ⟨rfl, rfl, fun i j hi hj => elapse_of_up hwu hi hj⟩
  have s2 : w.canonize.Same w := by
    refine ⟨by simp, by simp, fun i j hi hj => ?_⟩
    simp only [canonize_n] at hi hj
    exact le'_antisymm (canonize_norm hwn i j (by simpa) (by simpa)) (hwn i j hi hj) (get_canonize_le' hi hj)
      (le'_canonize rfl hwt (fun i j _ _ => le'_refl _) i j hi hj)
  have s3 : w.elapse.canonize.Same w := s1.canonize.trans s2
  refine (s3.abstractize.canonize : w.pass.Same w.abstractize.canonize).trans ?_
  have hva : w.abstractize.Sat (fun i => v i + 1) := abstractize_Sat hwv
  refine ⟨by simp, by simp, fun i j hi hj => ?_⟩
  simp only [canonize_n, abstractize_n] at hi hj
  refine le'_antisymm (canonize_norm (abstractize_norm hwM) i j (by simpa) (by simpa)) (hwn i j hi hj) ?_ ?_
  · refine hmax _ (by simp [hwn']) (canonize_fullTri hva) ?_ i j (by omega) (by omega)
    intro i j hi hj
    have hi' : i < w.n := by omega
    have hj' : j < w.n := by omega
    rcases hylt i j hi hj with ⟨t, ht⟩ | ht
    · rw [ht]
      trivial
    · have h1 := blt_of_le' (hle i j hi hj) ht
      have h2 : w.abstractize.get i j = w.get i j := by
        rw [abstractize_get hi' hj', hwM]
        simp [Bnd.bge, h1]
      refine le'_trans (get_canonize_le' (by simpa using hi') (by simpa using hj')) ?_
      rw [h2]
      exact hle i j hi hj
  · exact le'_canonize (by simp) hwt (fun i j hi hj => le'_abstractize hi hj) i j hi hj

end Zone
end Verif
