import Verif.Spec.Bounds
import Mathlib.Tactic.Linarith
import Mathlib.Tactic.Ring
import Mathlib.Tactic.Set
import Mathlib.Tactic.Tauto
import Mathlib.Tactic.Cases

/-! # Lemmas about bounds -/

set_option linter.unusedSectionVars false

namespace Verif
namespace Bnd

variable {K : Type*} [Field K] [LinearOrder K] [IsStrictOrderedRing K]

/-- Semantic order of bounds: every value respecting `a` respects `b`, in
computational form. All infinite bounds are equivalent. -/
def le' : Bnd K → Bnd K → Prop
  | _, inf _ => True
  | inf _, fin _ _ => False
  | fin a s, fin b t => a < b ∨ (a = b ∧ (s = true → t = true))

theorem le'_refl (a : Bnd K) : le' a a := by cases a <;> simp [le']

theorem le'_trans {a b c : Bnd K} (h1 : le' a b) (h2 : le' b c) : le' a c := by
  cases a <;> cases b <;> cases c <;> simp_all [le']
  rcases h1 with h1 | ⟨rfl, h1⟩ <;> rcases h2 with h2 | ⟨rfl, h2⟩
  · exact Or.inl (h1.trans h2)
  · exact Or.inl h1
  · exact Or.inl h2
  · exact Or.inr ⟨rfl, fun h => h2 (h1 h)⟩

theorem sat_of_le' {a b : Bnd K} (h : le' a b) {d : K} (hd : a.sat d) : b.sat d := by
  rcases a with ⟨a, s⟩ | s <;> rcases b with ⟨b, t⟩ | t <;> try trivial
  simp only [le'] at h
  rcases h with h | ⟨rfl, h⟩
  · cases s <;> cases t <;> simp only [sat] at hd ⊢ <;> linarith
  · cases s <;> cases t <;> simp [sat] at hd h ⊢ <;> linarith

@[simp] theorem add_fin_fin (a b : K) (s t : Bool) : (fin a s + fin b t : Bnd K) = fin (a + b) (s && t) := rfl
@[simp] theorem add_fin_inf (a : K) (s t : Bool) : (fin a s + inf t : Bnd K) = inf (s && t) := rfl
@[simp] theorem add_inf_fin (b : K) (s t : Bool) : (inf s + fin b t : Bnd K) = inf (s && t) := rfl
@[simp] theorem add_inf_inf (s t : Bool) : (inf s + inf t : Bnd K) = inf (s && t) := rfl

theorem badd_comm (a b : Bnd K) : a + b = b + a := by
  rcases a with ⟨a, s⟩ | s <;> rcases b with ⟨b, t⟩ | t <;> simp [add_comm, Bool.and_comm]

theorem badd_assoc (a b c : Bnd K) : a + b + c = a + (b + c) := by
  rcases a with ⟨a, s⟩ | s <;> rcases b with ⟨b, t⟩ | t <;> rcases c with ⟨c, u⟩ | u <;>
    simp [add_assoc, Bool.and_assoc]

theorem add_le'_add {a b c d : Bnd K} (h1 : le' a b) (h2 : le' c d) : le' (a + c) (b + d) := by
  rcases a with ⟨a, s⟩ | s <;> rcases b with ⟨b, t⟩ | t <;> rcases c with ⟨c, u⟩ | u <;>
    rcases d with ⟨d, w⟩ | w <;> simp_all [le']
  rcases h1 with h1 | ⟨rfl, h1⟩ <;> rcases h2 with h2 | ⟨rfl, h2⟩
  · exact Or.inl (add_lt_add h1 h2)
  · exact Or.inl (by linarith)
  · exact Or.inl (by linarith)
  · exact Or.inr ⟨rfl, fun h h' => ⟨h1 h, h2 h'⟩⟩

theorem sat_add {a b : Bnd K} {d e : K} (h1 : a.sat d) (h2 : b.sat e) : (a + b).sat (d + e) := by
  rcases a with ⟨a, _ | _⟩ | s <;> rcases b with ⟨b, _ | _⟩ | t <;> simp_all [sat] <;> linarith

theorem blt_false_le' {a b : Bnd K} (h : blt b a = false) : le' a b := by
  rcases a with ⟨a, s⟩ | s <;> rcases b with ⟨b, t⟩ | t <;> simp_all [le', blt]
  rcases lt_or_eq_of_le h.1 with h' | h'
  · exact Or.inl h'
  · refine Or.inr ⟨h', fun hs => ?_⟩
    have := h.2 h'.symm
    cases t <;> simp_all

theorem blt_true_le' {a b : Bnd K} (h : blt a b = true) : le' a b := by
  rcases a with ⟨a, s⟩ | s <;> rcases b with ⟨b, t⟩ | t <;> simp_all [le', blt]
  rcases h with h | ⟨h, h1, h2⟩
  · exact Or.inl h
  · exact Or.inr ⟨h, fun _ => h2⟩

theorem min_eq (a b : Bnd K) : Bnd.min a b = a ∨ Bnd.min a b = b := by
  unfold Bnd.min; split <;> simp

theorem min_le'_left (a b : Bnd K) : le' (Bnd.min a b) a := by
  unfold Bnd.min; split
  · exact blt_true_le' (by assumption)
  · exact le'_refl _

theorem min_le'_right (a b : Bnd K) : le' (Bnd.min a b) b := by
  unfold Bnd.min; split
  · exact le'_refl _
  · exact blt_false_le' (by simp_all)

theorem le'_min {a b c : Bnd K} (h1 : le' c a) (h2 : le' c b) : le' c (Bnd.min a b) := by
  rcases min_eq a b with h | h <;> rw [h] <;> assumption

theorem sat_min {a b : Bnd K} {d : K} : (Bnd.min a b).sat d ↔ a.sat d ∧ b.sat d := by
  constructor
  · intro h
    exact ⟨sat_of_le' (min_le'_left a b) h, sat_of_le' (min_le'_right a b) h⟩
  · rintro ⟨h1, h2⟩
    rcases min_eq a b with h | h <;> rw [h] <;> assumption

theorem bge_zeroLe {a : Bnd K} : bge a zeroLe = true ↔ a.sat 0 := by
  rcases a with ⟨a, _ | _⟩ | s <;> simp [bge, blt, zeroLe, sat]
  · constructor
    · rintro ⟨h1, h2⟩; exact lt_of_le_of_ne h1 (Ne.symm h2)
    · intro h; exact ⟨h.le, h.ne'⟩

/-- One-dimensional feasibility of an upper and a lower bound over a dense order. -/
theorem exists_between {U L : Bnd K} (h : (U + L).sat 0) : ∃ z, U.sat z ∧ L.sat (-z) := by
  rcases U with ⟨u, s⟩ | s <;> rcases L with ⟨l, t⟩ | t
  · cases s <;> cases t <;> simp [sat] at h ⊢
    · exact ⟨(u - l) / 2, by linarith, by linarith⟩
    · exact ⟨-l, by linarith, by linarith⟩
    · exact ⟨u, by linarith, by linarith⟩
    · exact ⟨u, by linarith, by linarith⟩
  · refine ⟨u - 1, ?_, trivial⟩
    cases s <;> simp [sat]
  · refine ⟨1 - l, trivial, ?_⟩
    cases t <;> simp [sat]
  · exact ⟨0, trivial, trivial⟩

theorem sat_shift {a : Bnd K} {p z : K} : (fin p true + a).sat z ↔ a.sat (z - p) := by
  rcases a with ⟨a, _ | _⟩ | s <;> simp [sat]
  · constructor <;> intro h <;> linarith
  · constructor <;> intro h <;> linarith

/-- `le'` is implied by inclusion of the denoted sets (dense order without end points). -/
theorem le'_iff {a b : Bnd K} : le' a b ↔ ∀ d, a.sat d → b.sat d := by
  constructor
  · intro h d; exact sat_of_le' h
  · intro h
    rcases b with ⟨b, t⟩ | t
    · rcases a with ⟨a, s⟩ | s
      · simp only [le']
        by_contra hc
        push Not at hc
        obtain ⟨h1, h2⟩ := hc
        rcases lt_or_eq_of_le h1 with h3 | h3
        · have := h ((a + b) / 2) (by cases s <;> simp [sat] <;> linarith)
          cases t <;> simp [sat] at this <;> linarith
        · obtain ⟨hs, ht⟩ := h2 h3.symm
          subst h3; subst hs
          have := h b (by simp [sat])
          simp at ht
          subst ht; simp [sat] at this
      · have := h (b + 1) trivial
        cases t <;> simp [sat] at this <;> linarith
    · simp [le']

theorem sat_zero_le' {a b : Bnd K} (h : a.sat 0) : le' b (a + b) := by
  rcases a with ⟨a, _ | _⟩ | s <;> rcases b with ⟨b, t⟩ | t <;> simp_all [le', sat]
  rcases lt_or_eq_of_le h with h | h
  · exact Or.inl h
  · exact Or.inr h.symm

end Bnd
end Verif
