import Verif.Spec.Zone
import Verif.Lemmas.Bounds
import Mathlib.Data.List.Basic

/-! # Lemmas about zones -/

set_option linter.unusedSectionVars false

namespace Verif
namespace Zone

variable {K : Type*} [Field K] [LinearOrder K] [IsStrictOrderedRing K]

open Bnd

theorem get_build {n : Nat} {M : Bnd K} {f : Nat → Nat → Bnd K} {i j : Nat} (hi : i < n) (hj : j < n) :
    (build n M f).get i j = f i j := by
  simp [get, build, List.getD, hi, hj]

@[simp] theorem build_n (n : Nat) (M : Bnd K) (f : Nat → Nat → Bnd K) : (build n M f).n = n := rfl
@[simp] theorem build_M (n : Nat) (M : Bnd K) (f : Nat → Nat → Bnd K) : (build n M f).M = M := rfl
@[simp] theorem close1_n (z : Zone K) (x : Nat) : (z.close1 x).n = z.n := rfl
@[simp] theorem close1_M (z : Zone K) (x : Nat) : (z.close1 x).M = z.M := rfl
@[simp] theorem set_n (z : Zone K) (x y : Nat) (b : Bnd K) : (z.set x y b).n = z.n := rfl
@[simp] theorem set_M (z : Zone K) (x y : Nat) (b : Bnd K) : (z.set x y b).M = z.M := rfl
@[simp] theorem tighten_n (z : Zone K) (x y : Nat) (b : Bnd K) : (z.tighten x y b).n = z.n := rfl
@[simp] theorem tighten_M (z : Zone K) (x y : Nat) (b : Bnd K) : (z.tighten x y b).M = z.M := rfl
@[simp] theorem reset_n (z : Zone K) (x : Nat) : (z.reset x).n = z.n := rfl
@[simp] theorem reset_M (z : Zone K) (x : Nat) : (z.reset x).M = z.M := rfl
@[simp] theorem elapse_n (z : Zone K) : (z.elapse).n = z.n := rfl
@[simp] theorem elapse_M (z : Zone K) : (z.elapse).M = z.M := rfl
@[simp] theorem abstractize_n (z : Zone K) : (z.abstractize).n = z.n := rfl
@[simp] theorem abstractize_M (z : Zone K) : (z.abstractize).M = z.M := rfl
@[simp] theorem zero_n (n : Nat) (M : Bnd K) : (zero n M : Zone K).n = n := rfl
@[simp] theorem zero_M (n : Nat) (M : Bnd K) : (zero n M : Zone K).M = M := rfl

theorem foldl_close1_n (l : List Nat) (z : Zone K) : (l.foldl close1 z).n = z.n := by
  induction l generalizing z with
  | nil => rfl
  | cons a l ih => simp [ih]

theorem foldl_close1_M (l : List Nat) (z : Zone K) : (l.foldl close1 z).M = z.M := by
  induction l generalizing z with
  | nil => rfl
  | cons a l ih => simp [ih]

@[simp] theorem canonize_n (z : Zone K) : z.canonize.n = z.n := foldl_close1_n _ _
@[simp] theorem canonize_M (z : Zone K) : z.canonize.M = z.M := foldl_close1_M _ _

theorem get_set {z : Zone K} {x y i j : Nat} {b : Bnd K} (hi : i < z.n) (hj : j < z.n) :
    (z.set x y b).get i j = if i = x ∧ j = y then b else z.get i j := get_build hi hj

/-! ## Internal assignments -/

/-- Assignment of all internal variables (the variable 0 included) satisfying the
constraints between the variables of `S`. -/
def SatOn (z : Zone K) (S : List Nat) (u : Nat → K) : Prop :=
  ∀ i ∈ S, ∀ j ∈ S, (z.get i j).sat (u i - u j)

theorem sat_iff_satOn {z : Zone K} {v : Nat → K} :
    z.Sat v ↔ z.SatOn (List.range z.n) (ext v) := by
  simp only [Sat, SatOn, List.mem_range]
  constructor
  · intro h i hi j hj; exact h i j hi hj
  · intro h i j hi hj; exact h i hi j hj

/-- Triangle inequality through `k`. -/
def Tri (z : Zone K) (k : Nat) : Prop :=
  ∀ i j, i < z.n → j < z.n → le' (z.get i j) (z.get i k + z.get k j)

theorem sat_mono_le {b : Bnd K} {d e : K} (h : b.sat d) (he : e ≤ d) : b.sat e := by
  rcases b with ⟨b, _ | _⟩ | s <;> simp [sat] at h ⊢ <;> linarith

theorem sat_zero_of_double {a : Bnd K} (h : (a + a).sat 0) : a.sat 0 := by
  rcases a with ⟨a, _ | _⟩ | s <;> simp [sat] at h ⊢ <;> linarith

/-- Canonical: all triangle inequalities between different variables, and no negative
cycle of length two. -/
structure Canon (z : Zone K) : Prop where
  tri : ∀ k i j, k < z.n → i < z.n → j < z.n → i ≠ j → le' (z.get i j) (z.get i k + z.get k j)
  pair : ∀ i j, i < z.n → j < z.n → (z.get i j + z.get j i).sat 0

theorem Canon.diag {z : Zone K} (h : z.Canon) {k : Nat} (hk : k < z.n) : (z.get k k).sat 0 :=
  sat_zero_of_double (h.pair k k hk hk)

theorem canon_of_tri {z : Zone K} (h1 : ∀ k, k < z.n → z.Tri k) (h2 : ∀ k, k < z.n → (z.get k k).sat 0) :
    z.Canon :=
  ⟨fun k i j hk hi hj _ => h1 k hk i j hi hj, fun i j hi hj => sat_of_le' (h1 j hj i i hi hi) (h2 i hi)⟩

/-! ## close1 -/

theorem close1_le' {z : Zone K} {x i j : Nat} (hi : i < z.n) (hj : j < z.n) :
    le' ((z.close1 x).get i j) (z.get i j) := by
  rw [close1, get_build hi hj]; exact min_le'_left _ _

theorem close1_sat {z : Zone K} {x : Nat} (hx : x < z.n) {u : Nat → K} :
    (∀ i j, i < z.n → j < z.n → ((z.close1 x).get i j).sat (u i - u j)) ↔
    (∀ i j, i < z.n → j < z.n → (z.get i j).sat (u i - u j)) := by
  constructor
  · intro h i j hi hj
    exact sat_of_le' (close1_le' hi hj) (h i j hi hj)
  · intro h i j hi hj
    rw [close1, get_build hi hj]
    refine sat_min.2 ⟨h i j hi hj, ?_⟩
    have e : u i - u j = (u x - u j) + (u i - u x) := by ring
    rw [e]
    refine sat_add ?_ (h i x hi hx)
    split
    · exact h x j hx hj
    · refine sat_min.2 ⟨h x j hx hj, ?_⟩
      have e : u x - u j = (u x - u j) + (u x - u x) := by ring
      rw [e]
      exact sat_add (h x j hx hj) (h x x hx hx)

theorem close1_Sat {z : Zone K} {x : Nat} (hx : x < z.n) {v : Nat → K} :
    (z.close1 x).Sat v ↔ z.Sat v := close1_sat hx

theorem le'_add_right {a b : Bnd K} (h : a.sat 0) : le' b (b + a) := by
  rw [badd_comm]; exact sat_zero_le' h

/-- The cells computed by `close1` when the diagonal entry is not negative. -/
theorem close1_get {z : Zone K} {x i j : Nat} (hi : i < z.n) (hj : j < z.n) (hd : (z.get x x).sat 0) :
    (le' ((z.close1 x).get i j) (Bnd.min (z.get i j) (z.get i x + z.get x j)) ∧
     le' (Bnd.min (z.get i j) (z.get i x + z.get x j)) ((z.close1 x).get i j)) := by
  rw [close1, get_build hi hj]
  simp only
  split
  · rw [badd_comm (z.get x j)]
    exact ⟨le'_refl _, le'_refl _⟩
  · have h1 : le' (Bnd.min (z.get x j) (z.get x j + z.get x x)) (z.get x j) := min_le'_left _ _
    have h2 : le' (z.get x j) (Bnd.min (z.get x j) (z.get x j + z.get x x)) :=
      le'_min (le'_refl _) (le'_add_right hd)
    constructor
    · refine le'_min (min_le'_left _ _) ?_
      refine le'_trans (min_le'_right _ _) ?_
      rw [badd_comm (z.get i x)]
      exact add_le'_add h1 (le'_refl _)
    · refine le'_min (min_le'_left _ _) ?_
      refine le'_trans (min_le'_right _ _) ?_
      rw [badd_comm (z.get i x)]
      exact add_le'_add h2 (le'_refl _)

theorem close1_tri_self {z : Zone K} {x : Nat} (hx : x < z.n) (hd : (z.get x x).sat 0) :
    (z.close1 x).Tri x := by
  intro i j hi hj
  simp only [close1_n] at hi hj
  refine le'_trans (close1_get hi hj hd).1 (le'_trans (min_le'_right _ _) ?_)
  refine add_le'_add ?_ ?_
  · refine le'_trans ?_ (close1_get hi hx hd).2
    exact le'_min (le'_refl _) (le'_add_right hd)
  · refine le'_trans ?_ (close1_get hx hj hd).2
    exact le'_min (le'_refl _) (sat_zero_le' hd)

theorem close1_tri {z : Zone K} {x k : Nat} (hx : x < z.n) (hk : k < z.n)
    (hd : (z.get x x).sat 0) (h : z.Tri k) :
    (z.close1 x).Tri k := by
  intro i j hi hj
  simp only [close1_n] at hi hj
  have hA := (close1_get hi hj hd).1
  have key : ∀ a b, (a = z.get i k ∨ a = z.get i x + z.get x k) →
      (b = z.get k j ∨ b = z.get k x + z.get x j) →
      le' (Bnd.min (z.get i j) (z.get i x + z.get x j)) (a + b) := by
    intro a b ha hb
    rcases ha with rfl | rfl <;> rcases hb with rfl | rfl
    · exact le'_trans (min_le'_left _ _) (h i j hi hj)
    · refine le'_trans (min_le'_right _ _) ?_
      rw [← badd_assoc]
      exact add_le'_add (h i x hi hx) (le'_refl _)
    · refine le'_trans (min_le'_right _ _) ?_
      rw [badd_assoc]
      exact add_le'_add (le'_refl _) (h x j hx hj)
    · refine le'_trans (min_le'_right _ _) ?_
      have e : z.get i x + z.get x k + (z.get k x + z.get x j) =
          z.get i x + (z.get x k + z.get k x) + z.get x j := by
        rw [badd_assoc, badd_assoc, badd_assoc]
      rw [e]
      refine add_le'_add ?_ (le'_refl _)
      refine le'_trans (le'_add_right hd) ?_
      exact add_le'_add (le'_refl _) (h x x hx hx)
  refine le'_trans hA ?_
  refine le'_trans (key _ _ (min_eq (z.get i k) _) (min_eq (z.get k j) _)) ?_
  exact add_le'_add (close1_get hi hk hd).2 (close1_get hk hj hd).2

/-! ## canonize -/

theorem foldl_close1_sat {l : List Nat} {z : Zone K} (hl : ∀ x ∈ l, x < z.n) {v : Nat → K} :
    (l.foldl close1 z).Sat v ↔ z.Sat v := by
  induction l generalizing z with
  | nil => rfl
  | cons a l ih =>
    simp only [List.foldl_cons]
    rw [ih (by intro x hx; exact hl x (List.mem_cons_of_mem _ hx)),
      close1_Sat (hl a List.mem_cons_self)]

theorem canonize_Sat {z : Zone K} {v : Nat → K} : z.canonize.Sat v ↔ z.Sat v :=
  foldl_close1_sat (by simp)

theorem foldl_close1_le' {l : List Nat} {z : Zone K} {i j : Nat} (hi : i < z.n) (hj : j < z.n) :
    le' ((l.foldl close1 z).get i j) (z.get i j) := by
  induction l generalizing z with
  | nil => exact le'_refl _
  | cons a l ih =>
    simp only [List.foldl_cons]
    exact le'_trans (ih (z := z.close1 a) hi hj) (close1_le' hi hj)

theorem foldl_close1_tri {l : List Nat} {z : Zone K} (hl : ∀ x ∈ l, x < z.n)
    (hd : ∀ k, k < z.n → ((l.foldl close1 z).get k k).sat 0) (P : Nat → Prop)
    (hP : ∀ k, k < z.n → P k → z.Tri k) :
    ∀ k, k < z.n → (P k ∨ k ∈ l) → (l.foldl close1 z).Tri k := by
  induction l generalizing z P with
  | nil => intro k hk h; simpa using hP k hk (by simpa using h)
  | cons a l ih =>
    simp only [List.foldl_cons] at hd ⊢
    have ha : a < z.n := hl a List.mem_cons_self
    have hda : (z.get a a).sat 0 :=
      sat_of_le' (le'_trans (foldl_close1_le' (z := z.close1 a) ha ha) (close1_le' ha ha)) (hd a ha)
    intro k hk h
    refine ih (z := z.close1 a) (fun x hx => hl x (List.mem_cons_of_mem _ hx)) hd
      (fun k => P k ∨ k = a) ?_ k hk ?_
    · rintro k hk (h | rfl)
      · exact close1_tri ha hk hda (hP k hk h)
      · exact close1_tri_self ha hda
    · simp only [List.mem_cons] at h; tauto

theorem canonize_canon {z : Zone K} (hd : ∀ k, k < z.n → (z.canonize.get k k).sat 0) :
    z.canonize.Canon := by
  apply canon_of_tri
  · intro k hk
    rw [canonize_n] at hk
    exact foldl_close1_tri (by simp) hd (fun _ => False) (by simp) k hk (Or.inr (by simpa))
  · intro k hk
    exact hd k (by simpa using hk)

/-! ## Extension of partial solutions -/

theorem foldl_min_spec (l : List Nat) (f : Nat → Bnd K) (b0 : Bnd K) :
    (l.foldl (fun b i => Bnd.min b (f i)) b0 = b0 ∨ ∃ i ∈ l, l.foldl (fun b i => Bnd.min b (f i)) b0 = f i) ∧
    (∀ d, (l.foldl (fun b i => Bnd.min b (f i)) b0).sat d ↔ b0.sat d ∧ ∀ i ∈ l, (f i).sat d) := by
  induction l generalizing b0 with
  | nil => simp
  | cons a l ih =>
    simp only [List.foldl_cons]
    obtain ⟨h1, h2⟩ := ih (Bnd.min b0 (f a))
    constructor
    · rcases h1 with h1 | ⟨i, hi, h1⟩
      · rw [h1]
        rcases min_eq b0 (f a) with h | h
        · exact Or.inl h
        · exact Or.inr ⟨a, List.mem_cons_self, h⟩
      · exact Or.inr ⟨i, List.mem_cons_of_mem _ hi, h1⟩
    · intro d
      rw [h2, sat_min]
      simp [and_assoc]

/-- General one-variable extension: finitely many upper and lower bounds on one
unknown are simultaneously satisfiable iff they are pairwise compatible. -/
theorem exists_between_list (lu ll : List Nat) (fu fl : Nat → Bnd K) (u0 l0 : Bnd K)
    (h00 : (u0 + l0).sat 0) (h0l : ∀ j ∈ ll, (u0 + fl j).sat 0)
    (hu0 : ∀ i ∈ lu, (fu i + l0).sat 0)
    (hul : ∀ i ∈ lu, ∀ j ∈ ll, (fu i + fl j).sat 0) :
    ∃ c : K, u0.sat c ∧ l0.sat (-c) ∧ (∀ i ∈ lu, (fu i).sat c) ∧ (∀ j ∈ ll, (fl j).sat (-c)) := by
  obtain ⟨hU1, hU2⟩ := foldl_min_spec lu fu u0
  obtain ⟨hL1, hL2⟩ := foldl_min_spec ll fl l0
  set U := lu.foldl (fun b i => Bnd.min b (fu i)) u0
  set L := ll.foldl (fun b i => Bnd.min b (fl i)) l0
  have : (U + L).sat 0 := by
    rcases hU1 with h1 | ⟨i, hi, h1⟩ <;> rcases hL1 with h2 | ⟨j, hj, h2⟩ <;> rw [h1, h2]
    · exact h00
    · exact h0l j hj
    · exact hu0 i hi
    · exact hul i hi j hj
  obtain ⟨c, hc1, hc2⟩ := Bnd.exists_between this
  exact ⟨c, ((hU2 c).1 hc1).1, ((hL2 _).1 hc2).1, ((hU2 c).1 hc1).2, ((hL2 _).1 hc2).2⟩

theorem pair_compat {z : Zone K} (hz : z.Canon) {k i j : Nat} (hk : k < z.n) (hi : i < z.n) (hj : j < z.n)
    {u : Nat → K} (h : (z.get j i).sat (u j - u i)) :
    ((fin (u i) true + z.get k i) + (fin (-u j) true + z.get j k)).sat 0 := by
  have h1 : (z.get j k + z.get k i).sat (u j - u i) := by
    by_cases hij : j = i
    · subst hij; simpa using hz.pair j k hj hk
    · exact sat_of_le' (hz.tri k j i hk hj hi hij) h
  have e : (fin (u i) true + z.get k i) + (fin (-u j) true + z.get j k) =
      fin (u i - u j) true + (z.get j k + z.get k i) := by
    rw [badd_assoc, ← badd_assoc (z.get k i), badd_comm (z.get k i), badd_assoc (fin (-u j) true),
      ← badd_assoc (fin (u i) true), badd_comm (z.get k i)]
    simp [sub_eq_add_neg]
  rw [e, sat_shift]
  simpa using h1

theorem extend_one {z : Zone K} (hz : z.Canon) {S : List Nat} (hS : ∀ i ∈ S, i < z.n) {k : Nat}
    (hk : k < z.n) {u : Nat → K} (hu : z.SatOn S u) (hkS : k ∉ S) :
    ∃ c : K, z.SatOn (k :: S) (Function.update u k c) := by
  obtain ⟨c, -, -, h1, h2⟩ := exists_between_list S S (fun i => fin (u i) true + z.get k i)
    (fun j => fin (-u j) true + z.get j k) (inf true) (inf true) trivial
    (by intro j _; cases hh : z.get j k <;> simp [sat])
    (by intro j _; cases hh : z.get k j <;> simp [sat])
    (fun i hi j hj => pair_compat hz hk (hS i hi) (hS j hj) (hu j hj i hi))
  refine ⟨c, ?_⟩
  have hne : ∀ i ∈ S, i ≠ k := fun i hi h => hkS (h ▸ hi)
  intro i hi0 j hj0
  rcases List.mem_cons.1 hi0 with rfl | hi <;> rcases List.mem_cons.1 hj0 with rfl | hj
  · simpa using hz.diag hk
  · have := sat_shift.1 (h1 j hj)
    simpa [Function.update_of_ne (hne j hj)] using this
  · have := sat_shift.1 (h2 i hi)
    rw [Function.update_of_ne (hne i hi), Function.update_self]
    have e : u i - c = -c - -u i := by ring
    rw [e]; exact this
  · rw [Function.update_of_ne (hne i hi), Function.update_of_ne (hne j hj)]
    exact hu i hi j hj

theorem extend {z : Zone K} (hz : z.Canon) : ∀ (rest : List Nat), (∀ i ∈ rest, i < z.n) →
    ∀ (S : List Nat), (∀ i ∈ S, i < z.n) →
    ∀ u : Nat → K, z.SatOn S u → ∃ u' : Nat → K, (∀ i ∈ S, u' i = u i) ∧
      z.SatOn (rest ++ S) u'
  | [], _, S, _, u, hu => ⟨u, fun _ _ => rfl, by simpa using hu⟩
  | k :: rest, hr, S, hS, u, hu => by
    have hr' : ∀ i ∈ rest, i < z.n := fun i hi => hr i (List.mem_cons_of_mem _ hi)
    have hk : k < z.n := hr k List.mem_cons_self
    by_cases hkS : k ∈ S
    · obtain ⟨u', h1, h2⟩ := extend hz rest hr' S hS u hu
      refine ⟨u', h1, ?_⟩
      have : ∀ i ∈ (k :: rest) ++ S, i ∈ rest ++ S := by
        intro i hi
        simp only [List.cons_append, List.mem_cons, List.mem_append] at hi ⊢
        rcases hi with rfl | hi
        · exact Or.inr hkS
        · exact hi
      intro i hi j hj
      exact h2 i (this i hi) j (this j hj)
    · obtain ⟨c, hc⟩ := extend_one hz hS hk hu hkS
      obtain ⟨u', h1, h2⟩ := extend hz rest hr' (k :: S)
        (by intro i hi; rcases List.mem_cons.1 hi with rfl | hi; exacts [hk, hS i hi]) _ hc
      refine ⟨u', fun i hi => ?_, ?_⟩
      · rw [h1 i (List.mem_cons_of_mem _ hi), Function.update_of_ne]
        rintro rfl; exact hkS hi
      · have : ∀ i ∈ (k :: rest) ++ S, i ∈ rest ++ k :: S := by
          intro i hi
          simp only [List.cons_append, List.mem_cons, List.mem_append] at hi ⊢
          tauto
        intro i hi j hj
        exact h2 i (this i hi) j (this j hj)

/-- A solution of the internal variables, shifted so that variable 0 is 0, is a
solution of the zone. -/
theorem sat_of_internal {z : Zone K} {u : Nat → K} (h : z.SatOn (List.range z.n) u) :
    z.Sat (fun i => u (i + 1) - u 0) := by
  have e : ∀ i, ext (fun i => u (i + 1) - u 0) i = u i - u 0 := by
    intro i; cases i <;> simp [ext]
  intro i j hi hj
  rw [e, e]
  have := h i (by simpa using hi) j (by simpa using hj)
  have e2 : u i - u 0 - (u j - u 0) = u i - u j := by ring
  rw [e2]; exact this

theorem extend_sat {z : Zone K} (hz : z.Canon) {S : List Nat} (hS : ∀ i ∈ S, i < z.n)
    {u : Nat → K} (hu : z.SatOn S u) :
    ∃ v : Nat → K, z.Sat v ∧ ∀ i ∈ S, ∀ j ∈ S, ext v i - ext v j = u i - u j := by
  obtain ⟨u', h1, h2⟩ := extend hz (List.range z.n) (by simp) S hS u hu
  refine ⟨fun i => u' (i + 1) - u' 0, ?_, ?_⟩
  · apply sat_of_internal
    intro i hi j hj
    exact h2 i (List.mem_append_left _ hi) j (List.mem_append_left _ hj)
  · have e : ∀ i, ext (fun i => u' (i + 1) - u' 0) i = u' i - u' 0 := by
      intro i; cases i <;> simp [ext]
    intro i hi j hj
    rw [e, e, h1 i hi, h1 j hj]; ring

theorem canon_nonempty {z : Zone K} (hz : z.Canon) : z.Nonempty := by
  obtain ⟨v, hv, -⟩ := extend_sat hz (S := []) (by simp) (u := fun _ => 0) (by intro i hi; simp at hi)
  exact ⟨v, hv⟩

theorem noNegativePair_iff {z : Zone K} : z.noNegativePair = true ↔
    ∀ i j, i < z.n → j < z.n → (z.get i j + z.get j i).sat 0 := by
  simp only [noNegativePair, List.all_eq_true, List.mem_range, bge_zeroLe]
  constructor
  · intro h i j hi hj; exact h i hi j hj
  · intro h i hi j hj; exact h i j hi hj

theorem sat_pair {z : Zone K} {v : Nat → K} (h : z.Sat v) {i j : Nat} (hi : i < z.n) (hj : j < z.n) :
    (z.get i j + z.get j i).sat 0 := by
  have := sat_add (h i j hi hj) (h j i hj hi)
  have e : ext v i - ext v j + (ext v j - ext v i) = 0 := by ring
  rwa [e] at this

theorem sat_diag {z : Zone K} {v : Nat → K} (h : z.Sat v) {i : Nat} (hi : i < z.n) :
    (z.get i i).sat 0 := by
  simpa using h i i hi hi

theorem canon_of_sat {z : Zone K} {v : Nat → K} (h : z.Sat v) : z.canonize.Canon := by
  apply canonize_canon
  intro k hk
  exact sat_diag (canonize_Sat.2 h) (by simpa using hk)

theorem isSatisfiable_iff' {z : Zone K} : z.isSatisfiable.1 = true ↔ z.Nonempty := by
  simp only [isSatisfiable, noNegativePair_iff, canonize_n]
  constructor
  · intro h
    obtain ⟨v, hv⟩ := canon_nonempty (canonize_canon (z := z)
      (fun k hk => sat_zero_of_double (h k k hk hk)))
    exact ⟨v, canonize_Sat.1 hv⟩
  · rintro ⟨v, hv⟩ i j hi hj
    exact sat_pair (canonize_Sat.2 hv) (by simpa using hi) (by simpa using hj)

/-! ## Tightness of canonical zones -/

theorem canon_tight {z : Zone K} (hz : z.Canon) : z.Tight := by
  intro i j hi hj hij b hb d hd
  by_contra hc
  -- a value between, also allowed by the opposite bound
  have hpair : (z.get i j + z.get j i).sat 0 := by
    obtain ⟨v, hv⟩ := canon_nonempty hz
    exact sat_pair hv hi hj
  obtain ⟨c, hc1, hc2⟩ := Bnd.exists_between hpair
  set e := Max.max d c
  have he1 : (z.get i j).sat e := by
    rcases max_choice d c with h | h <;> simp only [e, h] <;> assumption
  have he2 : (z.get j i).sat (-e) := sat_mono_le hc2 (by simp [e])
  have he3 : ¬ b.sat e := fun h => hc (sat_mono_le h (by simp [e]))
  obtain ⟨v, hv, hv2⟩ := extend_sat hz (S := [i, j]) (u := fun k => if k = i then e else 0)
    (by intro k hk; simp only [List.mem_cons, List.not_mem_nil, or_false] at hk
        rcases hk with rfl | rfl <;> assumption)
    (by
      intro k hk l hl
      simp only [List.mem_cons, List.not_mem_nil, or_false] at hk hl
      have hji : j ≠ i := Ne.symm hij
      rcases hk with rfl | rfl <;> rcases hl with rfl | rfl
      · simpa using hz.diag hi
      · simpa [hji] using he1
      · simpa [hji] using he2
      · simpa using hz.diag hj)
  have := hb v hv
  rw [hv2 i (by simp) j (by simp)] at this
  simp [Ne.symm hij] at this
  exact he3 this

/-! ## tighten -/

theorem set_min_sat {z : Zone K} {x y : Nat} (hx : x < z.n) (hy : y < z.n) {c : Bnd K} {v : Nat → K} :
    (z.set x y (Bnd.min (z.get x y) c)).Sat v ↔ z.Sat v ∧ c.sat (ext v x - ext v y) := by
  constructor
  · intro h
    have hxy := h x y hx hy
    rw [get_set hx hy] at hxy
    simp only [and_self, if_true, sat_min] at hxy
    refine ⟨fun i j hi hj => ?_, hxy.2⟩
    by_cases e : i = x ∧ j = y
    · obtain ⟨rfl, rfl⟩ := e; exact hxy.1
    · have := h i j hi hj
      rwa [get_set hi hj, if_neg e] at this
  · rintro ⟨h1, h2⟩ i j hi hj
    simp only [set_n] at hi hj
    rw [get_set hi hj]
    split
    · rename_i e; obtain ⟨rfl, rfl⟩ := e
      exact sat_min.2 ⟨h1 i j hi hj, h2⟩
    · exact h1 i j hi hj

theorem tighten_Sat {z : Zone K} {x y : Nat} (hx : x < z.n) (hy : y < z.n) {c : Bnd K} {v : Nat → K} :
    (z.tighten x y c).Sat v ↔ z.Sat v ∧ c.sat (ext v x - ext v y) := by
  unfold tighten
  rw [close1_Sat (by simpa using hy), close1_Sat (by simpa using hx), set_min_sat hx hy]

/-- Triangle inequality through `k` between different variables. -/
def TriNe (z : Zone K) (k : Nat) : Prop :=
  ∀ i j, i < z.n → j < z.n → i ≠ j → le' (z.get i j) (z.get i k + z.get k j)

theorem close1_triNe_self {z : Zone K} {x : Nat} (hx : x < z.n) (hd : (z.get x x).sat 0) :
    (z.close1 x).TriNe x := fun i j hi hj _ => close1_tri_self hx hd i j hi hj

theorem close1_triNe {z : Zone K} {x k : Nat} (hx : x < z.n) (hk : k < z.n) {v : Nat → K}
    (hv : z.Sat v) (h : z.TriNe k) : (z.close1 x).TriNe k := by
  intro i j hi hj hij
  simp only [close1_n] at hi hj
  have hd : (z.get x x).sat 0 := sat_diag hv hx
  have hA := (close1_get hi hj hd).1
  have key : ∀ a b, (a = z.get i k ∨ a = z.get i x + z.get x k) →
      (b = z.get k j ∨ b = z.get k x + z.get x j) →
      le' (Bnd.min (z.get i j) (z.get i x + z.get x j)) (a + b) := by
    intro a b ha hb
    rcases ha with rfl | rfl <;> rcases hb with rfl | rfl
    · exact le'_trans (min_le'_left _ _) (h i j hi hj hij)
    · rw [← badd_assoc]
      by_cases hix : i = x
      · subst hix
        exact le'_trans (min_le'_left _ _) (sat_zero_le' (sat_pair hv hx hk))
      · refine le'_trans (min_le'_right _ _) ?_
        exact add_le'_add (h i x hi hx hix) (le'_refl _)
    · rw [badd_assoc]
      by_cases hxj : x = j
      · subst hxj
        exact le'_trans (min_le'_left _ _) (le'_add_right (sat_pair hv hx hk))
      · refine le'_trans (min_le'_right _ _) ?_
        exact add_le'_add (le'_refl _) (h x j hx hj hxj)
    · refine le'_trans (min_le'_right _ _) ?_
      have e : z.get i x + z.get x k + (z.get k x + z.get x j) =
          z.get i x + (z.get x k + z.get k x) + z.get x j := by
        rw [badd_assoc, badd_assoc, badd_assoc]
      rw [e]
      refine add_le'_add ?_ (le'_refl _)
      exact le'_add_right (sat_pair hv hx hk)
  refine le'_trans hA ?_
  refine le'_trans (key _ _ (min_eq (z.get i k) _) (min_eq (z.get k j) _)) ?_
  exact add_le'_add (close1_get hi hk hd).2 (close1_get hk hj hd).2

theorem canon_of_triNe {z : Zone K} (h : ∀ k, k < z.n → z.TriNe k) {v : Nat → K} (hv : z.Sat v) :
    z.Canon := ⟨fun k i j hk hi hj hij => h k hk i j hi hj hij, fun _ _ hi hj => sat_pair hv hi hj⟩

theorem tighten_canon {z : Zone K} (hz : z.Canon) {x y : Nat} (hx : x < z.n) (hy : y < z.n) {c : Bnd K}
    (hne : (z.tighten x y c).Nonempty) : (z.tighten x y c).Canon := by
  obtain ⟨v, hv⟩ := hne
  set z1 := z.set x y (Bnd.min (z.get x y) c) with hz1
  have hx1 : x < z1.n := hx
  have hy1 : y < (z1.close1 x).n := hy
  have hv2 : (z1.close1 x).Sat v := (close1_Sat hy1).1 hv
  have hv1 : z1.Sat v := (close1_Sat hx1).1 hv2
  refine canon_of_triNe (fun k hk => ?_) hv
  have hk' : k < z.n := hk
  have hk1 : k < z1.n := hk'
  have hz1t : k ≠ x → k ≠ y → z1.TriNe k := by
    intro h1 h2 i j hi hj hij
    have hi' : i < z.n := hi
    have hj' : j < z.n := hj
    rw [hz1, get_set hi' hj', get_set hi' hk', get_set hk' hj',
      if_neg (c := i = x ∧ k = y) (by tauto), if_neg (c := k = x ∧ j = y) (by tauto)]
    split
    · rename_i e; obtain ⟨rfl, rfl⟩ := e
      exact le'_trans (min_le'_left _ _) (hz.tri k i j hk' hi' hj' hij)
    · exact hz.tri k i j hk' hi' hj' hij
  by_cases h2 : k = y
  · subst h2
    exact close1_triNe_self hy1 (sat_diag hv2 hy1)
  · refine close1_triNe hy1 hk1 hv2 ?_
    by_cases h1 : k = x
    · subst h1
      exact close1_triNe_self hx1 (sat_diag hv1 hx1)
    · exact close1_triNe hx1 hk1 hv1 (hz1t h1 h2)

/-! ## reset -/

theorem reset_get {z : Zone K} {x i j : Nat} (hi : i < z.n) (hj : j < z.n) (hx : x + 1 < z.n) :
    (z.reset x).get i j =
      if i = x + 1 ∧ j = x + 1 then fin 0 true
      else if i = x + 1 then (if j = 0 then fin 0 true else z.get 0 j)
      else if j = x + 1 then (if i = 0 then fin 0 true else z.get i 0)
      else z.get i j := by
  have h0 : 0 < z.n := by omega
  simp only [reset]
  by_cases hxi : i = x + 1
  · subst hxi
    by_cases hxj : j = x + 1
    · subst hxj
      rw [get_build (by simpa using hi) (by simpa using hj),
        if_pos (by omega), get_build (by simpa using h0) (by simpa using hj), if_neg (by omega),
        get_set (by simpa using h0) (by simpa using hj), if_neg (by omega),
        get_set (by simpa using h0) (by simpa using hj), if_pos (by omega)]
      simp
    · by_cases hj0 : j = 0
      · subst hj0
        rw [get_build (by simpa using hi) (by simpa using hj),
          if_neg (by omega), get_build (by simpa using hi) (by simpa using hj), if_neg (by omega),
          get_set (by simpa using hi) (by simpa using hj), if_pos (by omega)]
        simp
      · rw [get_build (by simpa using hi) (by simpa using hj),
          if_pos (by omega), get_build (by simpa using h0) (by simpa using hj), if_neg (by omega),
          get_set (by simpa using h0) (by simpa using hj), if_neg (by omega),
          get_set h0 hj, if_neg (by omega)]
        simp [hxj, hj0]
  · rw [get_build (by simpa using hi) (by simpa using hj), if_neg (by omega)]
    by_cases hxj : j = x + 1
    · subst hxj
      by_cases hi0 : i = 0
      · subst hi0
        rw [get_build (by simpa using hi) (by simpa using hj), if_neg (by omega),
          get_set (by simpa using hi) (by simpa using hj), if_neg (by omega),
          get_set hi hj, if_pos (by omega)]
        simp
      · rw [get_build (by simpa using hi) (by simpa using hj), if_pos (by omega),
          get_set (by simpa using hi) (by simpa using h0), if_neg (by omega),
          get_set hi h0, if_neg (by omega)]
        simp [hxi, hi0]
    · rw [get_build (by simpa using hi) (by simpa using hj), if_neg (by omega),
        get_set (by simpa using hi) (by simpa using hj), if_neg (by omega),
        get_set hi hj, if_neg (by omega)]
      simp [hxi, hxj]

theorem ext_update (v : Nat → K) (x i : Nat) (c : K) :
    ext (Function.update v x c) i = if i = x + 1 then c else ext v i := by
  cases i with
  | zero => simp [ext]
  | succ i =>
    simp only [ext, Function.update_apply, Nat.add_right_cancel_iff]

theorem sat_reset {z : Zone K} {x : Nat} (hx : x + 1 < z.n) {v : Nat → K} (h : z.Sat v) :
    (z.reset x).Sat (Function.update v x 0) := by
  intro i j hi hj
  simp only [reset_n] at hi hj
  rw [reset_get hi hj hx, ext_update, ext_update]
  have h0 : 0 < z.n := by omega
  by_cases h1 : i = x + 1 <;> by_cases h2 : j = x + 1 <;> simp only [h1, h2, if_true, if_false, and_self,
    and_false, false_and]
  · simp [sat]
  · split
    · rename_i e; subst e; simp [sat, ext]
    · have := h 0 j h0 hj; simpa [ext] using this
  · split
    · rename_i e; subst e; simp [sat, ext]
    · have := h i 0 hi h0; simpa [ext] using this
  · exact h i j hi hj

theorem reset_Sat {z : Zone K} (hz : z.Canon) {x : Nat} (hx : x + 1 < z.n) {v' : Nat → K} :
    (z.reset x).Sat v' ↔ ∃ v, z.Sat v ∧ ∀ i, i + 1 < z.n → v' i = Function.update v x 0 i := by
  have h0 : 0 < z.n := by omega
  constructor
  · intro h
    have hx0 : v' x = 0 := by
      have h1 := h (x + 1) 0 hx h0
      have h2 := h 0 (x + 1) h0 hx
      rw [reset_get hx h0 hx] at h1
      rw [reset_get h0 hx hx] at h2
      simp [sat, ext] at h1 h2
      linarith
    obtain ⟨v, hv, hv2⟩ := extend_sat hz (S := (List.range z.n).filter (· ≠ x + 1)) (u := ext v')
      (by intro i hi; simp at hi; exact hi.1)
      (by
        intro i hi j hj
        simp at hi hj
        have := h i j hi.1 hj.1
        rwa [reset_get hi.1 hj.1 hx, if_neg (by tauto), if_neg hi.2, if_neg hj.2] at this)
    refine ⟨v, hv, fun i hi => ?_⟩
    by_cases e : i = x
    · subst e; simp [hx0]
    · rw [Function.update_of_ne e]
      have := hv2 (i + 1) (by simp; omega) 0 (by simp; omega)
      simp [ext] at this
      exact this.symm
  · rintro ⟨v, hv, h⟩
    have := sat_reset hx hv
    intro i j hi hj
    have h1 : ∀ i, i < z.n → ext v' i = ext (Function.update v x 0) i := by
      intro i hi; cases i with
      | zero => rfl
      | succ i => exact h i hi
    rw [h1 i hi, h1 j hj]
    exact this i j hi hj

theorem reset_canon {z : Zone K} (hz : z.Canon) {x : Nat} (hx : x + 1 < z.n) : (z.reset x).Canon := by
  have h0 : 0 < z.n := by omega
  obtain ⟨v, hv⟩ := canon_nonempty hz
  refine canon_of_triNe (fun k hk i j hi hj hij => ?_) (sat_reset hx hv)
  simp only [reset_n] at hk hi hj
  rw [reset_get hi hj hx, reset_get hi hk hx, reset_get hk hj hx]
  have hT := fun a b c (h : a ≠ c) ha hb hc => hz.tri b a c hb ha hc h
  have hone : ∀ b : Bnd K, le' b (fin 0 true + b) := fun b => sat_zero_le' (by simp [sat])
  have hone' : ∀ b : Bnd K, le' b (b + fin 0 true) := fun b => le'_add_right (by simp [sat])
  have hp : ∀ a, a < z.n → le' (fin 0 true) (z.get 0 a + z.get a 0) := by
    intro a ha
    have := hz.pair 0 a h0 ha
    rw [le'_iff]; intro d hd
    exact sat_mono_le this (by simpa [sat] using hd)
  have hp' : ∀ a, a < z.n → le' (fin 0 true) (z.get a 0 + z.get 0 a) := by
    intro a ha; rw [badd_comm]; exact hp a ha
  by_cases hi1 : i = x + 1
  · have hj1 : j ≠ x + 1 := fun h => hij (hi1.trans h.symm)
    by_cases hk1 : k = x + 1
    · by_cases hj0 : j = 0 <;> simp [hi1, hj1, hk1, hj0, hone, le'_refl]
    · by_cases hk0 : k = 0
      · subst hk0
        by_cases hj0 : j = 0
        · subst hj0
          have := hz.diag h0
          simp [hi1]
          exact le'_add_right this
        · simp [hi1, hj1, hj0, hone]
      · by_cases hj0 : j = 0
        · subst hj0
          simp [hi1, hk1, hk0]
          exact hp k hk
        · simp [hi1, hj1, hk1, hk0, hj0]
          exact hT 0 k j (Ne.symm hj0) h0 hk hj
  · by_cases hj1 : j = x + 1
    · by_cases hk1 : k = x + 1
      · by_cases hi0 : i = 0 <;> simp [hi1, hj1, hk1, hi0, hone', le'_refl]
      · by_cases hk0 : k = 0
        · subst hk0
          by_cases hi0 : i = 0
          · subst hi0
            have := hz.diag h0
            simp [hj1]
            exact sat_zero_le' this
          · simp [hi1, hj1, hi0, hone']
        · by_cases hi0 : i = 0
          · subst hi0
            simp [hj1, hk1, hk0]
            exact hp k hk
          · simp [hi1, hj1, hk1, hk0, hi0]
            exact hT i k 0 hi0 hi hk h0
    · by_cases hk1 : k = x + 1
      · subst hk1
        by_cases hi0 : i = 0
        · subst hi0
          have hj0 : j ≠ 0 := Ne.symm hij
          simp [hj1, hj0, hone]
        · by_cases hj0 : j = 0
          · subst hj0
            simp [hi1, hi0, hone']
          · simp [hi1, hj1, hi0, hj0]
            exact hT i 0 j hij hi h0 hj
      · simp [hi1, hj1, hk1]
        exact hT i k j hij hi hk hj

/-! ## elapse -/

theorem elapse_get {z : Zone K} {i j : Nat} (hi : i < z.n) (hj : j < z.n) :
    z.elapse.get i j =
      if j = 0 then inf false else if i = 0 then strict (z.get 0 j) else z.get i j := by
  rw [elapse, get_build (by simpa using hi) (by simpa using hj)]
  by_cases h1 : i = 0
  · subst h1
    rw [if_pos rfl, get_build hi hj]
    by_cases h2 : j = 0
    · simp [h2, strict]
    · simp [h2]
  · rw [if_neg h1, get_build hi hj]
    simp [h1]

theorem strict_sat {b : Bnd K} {d e : K} (h : b.sat d) (he : e < d) : (strict b).sat e := by
  rcases b with ⟨b, _ | _⟩ | s <;> simp [sat, strict] at h ⊢ <;> linarith

theorem sat_elapse {z : Zone K} {v : Nat → K} (h : z.Sat v) {d : K} (hd : 0 < d) :
    z.elapse.Sat (fun i => v i + d) := by
  intro i j hi hj
  simp only [elapse_n] at hi hj
  rw [elapse_get hi hj]
  have h0 : 0 < z.n := by omega
  have e : ∀ i, i ≠ 0 → ext (fun i => v i + d) i = ext v i + d := by
    intro i hi; cases i
    · exact absurd rfl hi
    · rfl
  split
  · trivial
  · rename_i hj0
    split
    · rename_i hi0; subst hi0
      rw [e j hj0]
      refine strict_sat (h 0 j h0 hj) ?_
      simp [ext]; linarith
    · rename_i hi0
      rw [e i hi0, e j hj0]
      have := h i j hi hj
      have e2 : ext v i + d - (ext v j + d) = ext v i - ext v j := by ring
      rwa [e2]

theorem elapse_Sat {z : Zone K} (hz : z.Canon) (hn : 0 < z.n) {v' : Nat → K} :
    z.elapse.Sat v' ↔ ∃ v, z.Sat v ∧ ∃ d, 0 < d ∧ ∀ i, i + 1 < z.n → v' i = v i + d := by
  constructor
  · intro h
    set S := (List.range z.n).filter (· ≠ 0) with hS
    have hmem : ∀ i ∈ S, i < z.n ∧ i ≠ 0 := by intro i hi; simpa [hS] using hi
    -- the new value of variable 0 is the delay
    have hu : z.SatOn S (ext v') := by
      intro i hi j hj
      have := h i j (hmem i hi).1 (hmem j hj).1
      rwa [elapse_get (hmem i hi).1 (hmem j hj).1, if_neg (hmem j hj).2, if_neg (hmem i hi).2] at this
    obtain ⟨d, -, hd0, h1, h2⟩ := exists_between_list S S (fun i => fin (ext v' i) true + z.get 0 i)
      (fun j => fin (-ext v' j) true + z.get j 0) (inf true) (fin 0 false) trivial
      (by intro j _; cases hh : z.get j 0 <;> simp [sat])
      (by
        intro i hi
        have := h 0 i hn (hmem i hi).1
        rw [elapse_get hn (hmem i hi).1, if_neg (hmem i hi).2, if_pos rfl] at this
        rcases hh : z.get 0 i with ⟨c, s⟩ | s
        · rw [hh] at this
          simp [strict, sat, ext] at this ⊢
          cases i with
          | zero => exact absurd rfl (hmem 0 hi).2
          | succ i => simp [ext] at this ⊢; linarith
        · simp [sat])
      (fun i hi j hj => pair_compat hz hn (hmem i hi).1 (hmem j hj).1 (hu j hj i hi))
    simp [sat] at hd0
    refine ⟨fun i => v' i - d, ?_, d, hd0, fun i _ => by ring⟩
    have e : ∀ i, i ≠ 0 → ext (fun i => v' i - d) i = ext v' i - d := by
      intro i hi; cases i
      · exact absurd rfl hi
      · rfl
    intro i j hi hj
    by_cases hi0 : i = 0 <;> by_cases hj0 : j = 0
    · subst hi0; subst hj0; simpa using hz.diag hn
    · subst hi0
      rw [e j hj0]
      have := sat_shift.1 (h1 j (by simp [hS, hj, hj0]))
      have e2 : ext (fun i => v' i - d) 0 - (ext v' j - d) = d - ext v' j := by simp [ext]
      rw [e2]; exact this
    · subst hj0
      rw [e i hi0]
      have := sat_shift.1 (h2 i (by simp [hS, hi, hi0]))
      have e2 : ext v' i - d - ext (fun i => v' i - d) 0 = -d - -ext v' i := by simp [ext]; ring
      rw [e2]; exact this
    · rw [e i hi0, e j hj0]
      have := hu i (by simp [hS, hi, hi0]) j (by simp [hS, hj, hj0])
      have e2 : ext v' i - d - (ext v' j - d) = ext v' i - ext v' j := by ring
      rw [e2]; exact this
  · rintro ⟨v, hv, d, hd, h⟩
    have := sat_elapse hv hd
    intro i j hi hj
    have h1 : ∀ i, i < z.n → ext v' i = ext (fun i => v i + d) i := by
      intro i hi; cases i with
      | zero => rfl
      | succ i => exact h i hi
    rw [h1 i hi, h1 j hj]
    exact this i j hi hj

/-! ## abstractize, cutVars -/

theorem abstractize_Sat {z : Zone K} {v : Nat → K} (h : z.Sat v) : z.abstractize.Sat v := by
  intro i j hi hj
  simp only [abstractize_n] at hi hj
  rw [abstractize, get_build hi hj]
  split
  · trivial
  · exact h i j hi hj

theorem cutVars_get {z : Zone K} {lo hi i j : Nat} (h1 : i < hi - lo + 2) (h2 : j < hi - lo + 2) :
    (z.cutVars lo hi).get i j = if i = 0 ∧ j = 0 then fin 0 true
      else if i = 0 then z.get 0 (lo + j)
      else if j = 0 then z.get (lo + i) 0
      else z.get (lo + i) (lo + j) := get_build h1 h2

theorem cutVars_Sat {z : Zone K} (hz : z.Canon) {lo hi : Nat} (hlh : lo ≤ hi) (hhi : hi + 1 < z.n)
    {v' : Nat → K} :
    (z.cutVars lo hi).Sat v' ↔ ∃ v, z.Sat v ∧ ∀ i, i ≤ hi - lo → v' i = v (lo + i) := by
  have h0 : 0 < z.n := by omega
  have hn : (z.cutVars lo hi).n = hi - lo + 2 := rfl
  constructor
  · intro h
    set S := (List.range z.n).filter (fun i => i = 0 ∨ (lo + 1 ≤ i ∧ i ≤ hi + 1)) with hS
    have hmem : ∀ i, i ∈ S ↔ i < z.n ∧ (i = 0 ∨ (lo + 1 ≤ i ∧ i ≤ hi + 1)) := by
      intro i; simp [hS]
    set u : Nat → K := fun i => if i = 0 then 0 else ext v' (i - lo) with hu
    have idx : ∀ i, i ∈ S → ∃ i', i' < hi - lo + 2 ∧ u i = ext v' i' ∧
        ((i = 0 ∧ i' = 0) ∨ (i ≠ 0 ∧ i' ≠ 0 ∧ i = lo + i')) := by
      intro i hi'
      obtain ⟨h1, h2⟩ := (hmem i).1 hi'
      by_cases e : i = 0
      · exact ⟨0, by omega, by simp [hu, e, ext], Or.inl ⟨e, rfl⟩⟩
      · exact ⟨i - lo, by omega, by simp [hu, e], Or.inr ⟨e, by omega, by omega⟩⟩
    obtain ⟨v, hv, hv2⟩ := extend_sat hz (S := S) (u := u) (fun i hi' => ((hmem i).1 hi').1)
      (by
        intro i hi' j hj'
        obtain ⟨i', hi1, hi2, hi3⟩ := idx i hi'
        obtain ⟨j', hj1, hj2, hj3⟩ := idx j hj'
        rw [hi2, hj2]
        have := h i' j' (by omega) (by omega)
        rw [cutVars_get hi1 hj1] at this
        rcases hi3 with ⟨rfl, rfl⟩ | ⟨a1, a2, a3⟩ <;> rcases hj3 with ⟨rfl, rfl⟩ | ⟨b1, b2, b3⟩
        · simpa [ext] using hz.diag h0
        · simpa [b2, b3] using this
        · simpa [a2, a3] using this
        · simpa [a2, b2, a3, b3] using this)
    refine ⟨v, hv, fun i hi' => ?_⟩
    have := hv2 (lo + i + 1) ((hmem _).2 (by omega)) 0 ((hmem _).2 (by omega))
    simp only [hu] at this
    rw [if_neg (by omega)] at this
    have e : lo + i + 1 - lo = i + 1 := by omega
    rw [e] at this
    simp [ext] at this
    exact this.symm
  · rintro ⟨v, hv, h⟩ i j hi' hj'
    rw [hn] at hi' hj'
    rw [cutVars_get hi' hj']
    have e : ∀ i, i < hi - lo + 2 → i ≠ 0 → ext v' i = ext v (lo + i) := by
      intro i h1 h2
      obtain ⟨k, rfl⟩ : ∃ k, i = k + 1 := ⟨i - 1, by omega⟩
      show v' k = ext v (lo + k + 1)
      exact h k (by omega)
    by_cases h1 : i = 0 <;> by_cases h2 : j = 0
    · subst h1; subst h2; simp [ext, sat]
    · subst h1
      simp only [h2, and_false, if_false, if_true]
      rw [e j hj' h2]
      exact hv 0 (lo + j) h0 (by omega)
    · subst h2
      simp only [h1, false_and, if_false, if_true]
      rw [e i hi' h1]
      exact hv (lo + i) 0 (by omega) h0
    · simp only [h1, h2, false_and, if_false]
      rw [e i hi' h1, e j hj' h2]
      exact hv (lo + i) (lo + j) (by omega) (by omega)

end Zone
end Verif
