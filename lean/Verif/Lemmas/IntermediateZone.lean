import Verif.Spec.IntermediateZone
import Verif.Lemmas.Six

set_option linter.unusedSectionVars false

/-! Facts on intermediate zones. -/

namespace Verif
namespace IZone

variable {K : Type} [Field K] [LinearOrder K] [IsStrictOrderedRing K]

open Bnd Zone

theorem zero_le'_of_sat {a : Bnd K} (h : a.sat 0) : le' (fin 0 true) a := by
  rw [le'_iff]
  intro d hd
  exact sat_mono_le h hd

/-- The variable `k` is not constrained. -/
structure Free (z : Zone K) (k : Nat) : Prop where
  row : ∀ j, j < z.n → j ≠ k → z.get k j = inf false
  col : ∀ j, j < z.n → j ≠ k → z.get j k = inf false
  diag : z.get k k = fin 0 true

theorem add_inf (a : Bnd K) : a + inf false = inf false := by cases a <;> simp

theorem inf_add (a : Bnd K) : inf false + a = inf false := by cases a <;> simp

theorem min_inf : Bnd.min (inf false) (inf false) = (inf false : Bnd K) := by simp [Bnd.min, blt]

theorem min_fin_inf (c : K) (s : Bool) : Bnd.min (fin c s) (inf false) = fin c s := by simp [Bnd.min, blt]

theorem Free.row' {z : Zone K} {k : Nat} (h : Free z k) {i x : Nat} (hx : x < z.n) (hi : i < z.n) (hik : i ≠ k) :
    z.get k x + z.get x i = inf false := by
  by_cases hxk : x = k
  · subst hxk
    rw [h.row i hi hik, add_inf]
  · rw [h.row x hx hxk, inf_add]

theorem Free.col' {z : Zone K} {k : Nat} (h : Free z k) {i x : Nat} (hx : x < z.n) (hi : i < z.n) (hik : i ≠ k) :
    z.get i x + z.get x k = inf false := by
  by_cases hxk : x = k
  · subst hxk
    rw [h.col i hi hik, inf_add]
  · rw [h.col x hx hxk, add_inf]

/-! ## The closing loops of `alloc` -/

/-- What the loops of `alloc` do to the matrix: only cells of row and column `k` change, they decrease, no solution is
lost, and the cells stay above any matrix satisfying the triangle inequalities. -/
structure Closing (k : Nat) (z z' : Zone K) : Prop where
  n : z'.n = z.n
  le : ∀ i j, i < z.n → j < z.n → le' (z'.get i j) (z.get i j)
  other : ∀ i j, i < z.n → j < z.n → i ≠ k → j ≠ k → z'.get i j = z.get i j
  sat : ∀ v, z.Sat v → z'.Sat v
  above : ∀ D : Nat → Nat → Bnd K, (∀ i j x, i < z.n → j < z.n → x < z.n → le' (D i j) (D i x + D x j)) →
    (∀ i j, i < z.n → j < z.n → le' (D i j) (z.get i j)) → ∀ i j, i < z.n → j < z.n → le' (D i j) (z'.get i j)
  free : ∀ x, x < z.n → x ≠ k → Free z x → Free z' x

theorem Closing.refl (k : Nat) (z : Zone K) : Closing k z z :=
  ⟨rfl, fun _ _ _ _ => le'_refl _, fun _ _ _ _ _ _ => rfl, fun _ h => h, fun _ _ h => h, fun _ _ _ h => h⟩

theorem Closing.trans {k : Nat} {a b c : Zone K} (h1 : Closing k a b) (h2 : Closing k b c) : Closing k a c := by
  refine ⟨h2.n.trans h1.n, fun i j hi hj => ?_, fun i j hi hj hik hjk => ?_, fun v h => h2.sat v (h1.sat v h), ?_,
    fun x hx hxk h => h2.free x (by rw [h1.n]; exact hx) hxk (h1.free x hx hxk h)⟩
  · exact le'_trans (h2.le i j (by rw [h1.n]; exact hi) (by rw [h1.n]; exact hj)) (h1.le i j hi hj)
  · rw [h2.other i j (by rw [h1.n]; exact hi) (by rw [h1.n]; exact hj) hik hjk, h1.other i j hi hj hik hjk]
  · intro D hD hle i j hi hj
    have := h1.above D hD hle
    rw [← h1.n] at hD this hi hj
    exact h2.above D hD this i j hi hj

theorem Closing.sat_iff {k : Nat} {z z' : Zone K} (h : Closing k z z') {v : Nat → K} : z'.Sat v ↔ z.Sat v := by
  refine ⟨fun hs i j hi hj => ?_, h.sat v⟩
  exact sat_of_le' (h.le i j hi hj) (hs i j (by rw [h.n]; exact hi) (by rw [h.n]; exact hj))

/-- A cell in row or column `k` is replaced by its minimum with sums of two cells. -/
theorem Closing.set {z : Zone K} {k a b : Nat} (ha : a < z.n) (hb : b < z.n) (hk : a = k ∨ b = k) {c : Bnd K}
    (hle : le' c (z.get a b)) (hc : c = z.get a b ∨ ∃ x, x < z.n ∧ c = z.get a x + z.get x b) :
    Closing k z (z.set a b c) := by
  refine ⟨rfl, fun i j hi hj => ?_, fun i j hi hj hik hjk => ?_, fun v hv i j hi hj => ?_, ?_, ?_⟩
  · rw [get_set hi hj]
    split
    · rename_i e
      obtain ⟨rfl, rfl⟩ := e
      exact hle
    · exact le'_refl _
  · rw [get_set hi hj, if_neg]
    rintro ⟨rfl, rfl⟩
    rcases hk with rfl | rfl
    · exact hik rfl
    · exact hjk rfl
  · have hi' : i < z.n := hi
    have hj' : j < z.n := hj
    rw [get_set hi' hj']
    split
    · rename_i e
      obtain ⟨rfl, rfl⟩ := e
      rcases hc with rfl | ⟨x, hx, rfl⟩
      · exact hv i j hi' hj'
      · have := sat_add (hv i x hi' hx) (hv x j hx hj')
        have e : ext v i - ext v x + (ext v x - ext v j) = ext v i - ext v j := by ring
        rwa [e] at this
    · exact hv i j hi' hj'
  · intro D hD hle' i j hi hj
    rw [get_set hi hj]
    split
    · rename_i e
      obtain ⟨rfl, rfl⟩ := e
      rcases hc with rfl | ⟨x, hx, rfl⟩
      · exact hle' i j hi hj
      · exact le'_trans (hD i j x hi hj hx) (add_le'_add (hle' i x hi hx) (hle' x j hx hj))
    · exact hle' i j hi hj
  · intro x hx hxk hf
    refine ⟨fun j hj hjx => ?_, fun j hj hjx => ?_, ?_⟩
    · have hj' : j < z.n := hj
      rw [get_set hx hj']
      split
      · rename_i e
        obtain ⟨rfl, rfl⟩ := e
        rcases hc with rfl | ⟨y, hy, rfl⟩
        · exact hf.row j hj' hjx
        · exact hf.row' hy hj' hjx
      · exact hf.row j hj' hjx
    · have hj' : j < z.n := hj
      rw [get_set hj' hx]
      split
      · rename_i e
        obtain ⟨rfl, rfl⟩ := e
        rcases hc with rfl | ⟨y, hy, rfl⟩
        · exact hf.col j hj' hjx
        · exact hf.col' hy hj' hjx
      · exact hf.col j hj' hjx
    · rw [get_set hx hx, if_neg, hf.diag]
      rintro ⟨rfl, rfl⟩
      rcases hk with h | h <;> exact hxk h

theorem throughAll_spec (z : Zone K) (i k : Nat) :
    (throughAll z i k = z.get i k ∨ ∃ x, x < z.n ∧ throughAll z i k = z.get i x + z.get x k) ∧
    le' (throughAll z i k) (z.get i k) ∧ ∀ x, x < z.n → le' (throughAll z i k) (z.get i x + z.get x k) := by
  obtain ⟨h1, h2⟩ := foldl_min_spec (List.range z.n) (fun x => z.get i x + z.get x k) (z.get i k)
  refine ⟨?_, ?_, fun x hx => ?_⟩
  · rcases h1 with h | ⟨x, hx, h⟩
    · exact Or.inl h
    · exact Or.inr ⟨x, by simpa using hx, h⟩
  · rw [le'_iff]
    intro d hd
    exact ((h2 d).1 hd).1
  · rw [le'_iff]
    intro d hd
    exact ((h2 d).1 hd).2 x (by simpa using hx)

theorem closeColumn_go {k : Nat} (l : List Nat) (z : Zone K) (hk : k < z.n) (hl : ∀ i ∈ l, i < z.n) :
    let z' := l.foldl (fun z i => z.set i k (throughAll z i k)) z
    Closing k z z' ∧ ∀ i ∈ l, ∀ x, x < z.n → x ≠ k → le' (z'.get i k) (z.get i x + z.get x k) := by
  induction l generalizing z with
  | nil => exact ⟨Closing.refl _ _, by simp⟩
  | cons a l ih =>
    have ha := hl a (by simp)
    obtain ⟨s1, s2, s3⟩ := throughAll_spec z a k
    have hc : Closing k z (z.set a k (throughAll z a k)) := Closing.set ha hk (Or.inr rfl) s2 s1
    obtain ⟨h1, h2⟩ := ih (z.set a k (throughAll z a k)) hk (fun i hi => hl i (by simp [hi]))
    refine ⟨hc.trans h1, ?_⟩
    intro i hi x hx hxk
    rcases List.mem_cons.1 hi with rfl | hi
    · refine le'_trans (h1.le i k ha hk) ?_
      rw [get_set ha hk, if_pos ⟨rfl, rfl⟩]
      exact s3 x hx
    · refine le'_trans (h2 i hi x hx hxk) (add_le'_add (hc.le i x (hl i (by simp [hi])) hx) (hc.le x k hx hk))

theorem closeColumn_spec {k : Nat} (z : Zone K) (hk : k < z.n) :
    Closing k z (closeColumn z k) ∧
    ∀ i, i < z.n → ∀ x, x < z.n → x ≠ k → le' ((closeColumn z k).get i k) (z.get i x + z.get x k) := by
  have := closeColumn_go (k := k) (List.range z.n) z hk (by simp)
  exact ⟨this.1, fun i hi => this.2 i (by simpa using hi)⟩

theorem closeRow_inner {k x : Nat} (l : List Nat) (z : Zone K) (hk : k < z.n) (hx : x < z.n) (hl : ∀ i ∈ l, i < z.n) :
    let z' := l.foldl (fun z j => z.set k j (Bnd.min (z.get k j) (z.get k x + z.get x j))) z
    Closing k z z' ∧ ∀ j ∈ l, le' (z'.get k j) (z.get k x + z.get x j) := by
  induction l generalizing z with
  | nil => exact ⟨Closing.refl _ _, by simp⟩
  | cons a l ih =>
    have ha := hl a (by simp)
    have hc : Closing k z (z.set k a (Bnd.min (z.get k a) (z.get k x + z.get x a))) := by
      refine Closing.set hk ha (Or.inl rfl) (min_le'_left _ _) ?_
      rcases min_eq (z.get k a) (z.get k x + z.get x a) with h | h
      · exact Or.inl h
      · exact Or.inr ⟨x, hx, h⟩
    obtain ⟨h1, h2⟩ := ih (z.set k a (Bnd.min (z.get k a) (z.get k x + z.get x a))) hk hx
      (fun i hi => hl i (by simp [hi]))
    refine ⟨hc.trans h1, ?_⟩
    intro j hj
    rcases List.mem_cons.1 hj with rfl | hj
    · refine le'_trans (h1.le k j hk ha) ?_
      rw [get_set hk ha, if_pos ⟨rfl, rfl⟩]
      exact min_le'_right _ _
    · exact le'_trans (h2 j hj) (add_le'_add (hc.le k x hk hx) (hc.le x j hx (hl j (by simp [hj]))))

theorem closeRow_go {k m : Nat} (l : List Nat) (z : Zone K) (hm : m = z.n) (hk : k < z.n) (hl : ∀ i ∈ l, i < z.n) :
    let z' := l.foldl (fun z x => (List.range z.n).foldl (fun z j =>
      z.set k j (Bnd.min (z.get k j) (z.get k x + z.get x j))) z) z
    Closing k z z' ∧ ∀ x ∈ l, ∀ j, j < z.n → le' (z'.get k j) (z.get k x + z.get x j) := by
  induction l generalizing z with
  | nil => exact ⟨Closing.refl _ _, by simp⟩
  | cons a l ih =>
    have ha := hl a (by simp)
    obtain ⟨hc, hc2⟩ := closeRow_inner (List.range z.n) z hk ha (by simp)
    obtain ⟨h1, h2⟩ := ih ((List.range z.n).foldl (fun z j =>
      z.set k j (Bnd.min (z.get k j) (z.get k a + z.get a j))) z) (by rw [hc.n]; exact hm) (by rw [hc.n]; exact hk)
      (fun i hi => by rw [hc.n]; exact hl i (by simp [hi]))
    refine ⟨hc.trans h1, ?_⟩
    intro x hx j hj
    have hj' := hj
    rw [← hc.n] at hj'
    rcases List.mem_cons.1 hx with rfl | hx
    · exact le'_trans (h1.le k j (by rw [hc.n]; exact hk) hj') (hc2 j (by simpa using hj))
    · have hx' := hl x (by simp [hx])
      exact le'_trans (h2 x hx j hj') (add_le'_add (hc.le k x hk hx') (hc.le x j hx' hj))

theorem closeRow_spec {k : Nat} (z : Zone K) (hk : k < z.n) :
    Closing k z (closeRow z k) ∧
    ∀ x, x < z.n → ∀ j, j < z.n → le' ((closeRow z k).get k j) (z.get k x + z.get x j) := by
  have := closeRow_go (k := k) (List.range z.n) z rfl hk (by simp)
  exact ⟨this.1, fun i hi => this.2 i (by simpa using hi)⟩

/-! ## A new variable -/

/-- The zone with a new instant `k`. -/
def addVar (z : Zone K) (k newest : Nat) (upper lower : Bnd K) : Zone K :=
  closeRow (closeColumn (enter z k newest upper lower) k) k

theorem enter_get {z : Zone K} {k newest : Nat} {upper lower : Bnd K} {i j : Nat} (hi : i < z.n) (hj : j < z.n) :
    (enter z k newest upper lower).get i j =
      if i = newest ∧ j = k then fin 0 true else if i = k ∧ j = newest then inf false
      else if i = 0 ∧ j = k then lower else if i = k ∧ j = 0 then upper else z.get i j := by
  unfold enter
  rw [get_set (by exact hi) (by exact hj), get_set (by exact hi) (by exact hj), get_set (by exact hi) (by exact hj),
    get_set hi hj]

theorem addVar_closing {z : Zone K} {k newest : Nat} {upper lower : Bnd K} (hk : k < z.n) :
    Closing k (enter z k newest upper lower) (addVar z k newest upper lower) :=
  have h1 := closeColumn_spec (enter z k newest upper lower) hk
  h1.1.trans (closeRow_spec (closeColumn (enter z k newest upper lower) k) (by rw [h1.1.n]; exact hk)).1

@[simp] theorem addVar_n {z : Zone K} {k newest : Nat} {upper lower : Bnd K} (hk : k < z.n) :
    (addVar z k newest upper lower).n = z.n := (addVar_closing hk).n

theorem enter_Sat {z : Zone K} {k newest : Nat} (hk : k < z.n) (hf : Free z k) (h0 : k ≠ 0) (hn : newest < z.n)
    (hnk : newest ≠ k) (hn0 : newest ≠ 0) {upper lower : Bnd K} {v : Nat → K} :
    (enter z k newest upper lower).Sat v ↔
      z.Sat v ∧ upper.sat (ext v k) ∧ lower.sat (-ext v k) ∧ ext v newest ≤ ext v k := by
  have hz0 : 0 < z.n := by omega
  constructor
  · intro h
    refine ⟨fun i j hi hj => ?_, ?_, ?_, ?_⟩
    · by_cases hik : i = k
      · subst hik
        by_cases hjk : j = i
        · subst hjk
          rw [hf.diag]
          simp [sat]
        · rw [hf.row j hj hjk]
          trivial
      · by_cases hjk : j = k
        · subst hjk
          rw [hf.col i hi hik]
          trivial
        · have := h i j hi hj
          rw [enter_get hi hj, if_neg (by tauto), if_neg (by tauto), if_neg (by tauto), if_neg (by tauto)] at this
          exact this
    · have := h k 0 hk hz0
      rw [enter_get hk hz0, if_neg (by tauto), if_neg (by tauto), if_neg (by tauto), if_pos ⟨rfl, rfl⟩] at this
      simpa [ext] using this
    · have := h 0 k hz0 hk
      rw [enter_get hz0 hk, if_neg (by tauto), if_neg (by tauto), if_pos ⟨rfl, rfl⟩] at this
      simpa [ext] using this
    · have := h newest k hn hk
      rw [enter_get hn hk, if_pos ⟨rfl, rfl⟩, sat_t] at this
      linarith
  · rintro ⟨h, h1, h2, h3⟩ i j hi hj
    have hi' : i < z.n := hi
    have hj' : j < z.n := hj
    rw [enter_get hi' hj']
    split
    · rename_i e
      obtain ⟨rfl, rfl⟩ := e
      rw [sat_t]
      linarith
    · split
      · trivial
      · split
        · rename_i e
          obtain ⟨rfl, rfl⟩ := e
          simpa [ext] using h2
        · split
          · rename_i e
            obtain ⟨rfl, rfl⟩ := e
            simpa [ext] using h1
          · exact h i j hi' hj'

theorem addVar_Sat {z : Zone K} {k newest : Nat} (hk : k < z.n) (hf : Free z k) (h0 : k ≠ 0) (hn : newest < z.n)
    (hnk : newest ≠ k) (hn0 : newest ≠ 0) {upper lower : Bnd K} {v : Nat → K} :
    (addVar z k newest upper lower).Sat v ↔
      z.Sat v ∧ upper.sat (ext v k) ∧ lower.sat (-ext v k) ∧ ext v newest ≤ ext v k :=
  (addVar_closing hk).sat_iff.trans (enter_Sat hk hf h0 hn hnk hn0)

/-- The matrix with `(0, true)` on the diagonal. -/
def norm (z : Zone K) (i j : Nat) : Bnd K := if i = j then fin 0 true else z.get i j

theorem norm_tri {z : Zone K} (hz : z.Canon) {i j x : Nat} (hi : i < z.n) (hj : j < z.n) (hx : x < z.n) :
    le' (norm z i j) (norm z i x + norm z x j) := by
  have h0 : (fin (0 : K) true).sat 0 := by simp [sat]
  unfold norm
  by_cases hij : i = j
  · subst hij
    rw [if_pos rfl]
    by_cases hix : i = x
    · subst hix
      rw [if_pos rfl]
      exact sat_zero_le' h0
    · rw [if_neg hix, if_neg (fun h => hix h.symm)]
      exact zero_le'_of_sat (hz.pair i x hi hx)
  · rw [if_neg hij]
    by_cases hix : i = x
    · subst hix
      rw [if_pos rfl, if_neg hij]
      exact sat_zero_le' h0
    · by_cases hxj : x = j
      · subst hxj
        rw [if_pos rfl, if_neg hij]
        exact le'_add_right h0
      · rw [if_neg hix, if_neg hxj]
        exact hz.tri x i j hx hi hj hij

theorem norm_le {z : Zone K} (hz : z.Canon) {i j : Nat} (hi : i < z.n) : le' (norm z i j) (z.get i j) := by
  unfold norm
  split
  · rename_i e
    subst e
    exact zero_le'_of_sat (hz.diag hi)
  · exact le'_refl _

/-- The closed matrix with the new variable. -/
def target (z : Zone K) (k newest : Nat) (upper lower : Bnd K) (i j : Nat) : Bnd K :=
  if i = k then (if j = k then fin 0 true else upper + norm z 0 j)
  else if j = k then Bnd.min (norm z i 0 + lower) (norm z i newest)
  else norm z i j

theorem target_tri {z : Zone K} (hz : z.Canon) {k newest : Nat} {upper lower : Bnd K} (hn : newest < z.n)
    (hn0 : newest ≠ 0) (hup : le' (z.get newest 0) upper)
    (hul : (upper + lower).sat 0) {i j x : Nat} (hi : i < z.n) (hj : j < z.n) (hx : x < z.n) :
    le' (target z k newest upper lower i j)
      (target z k newest upper lower i x + target z k newest upper lower x j) := by
  have hz0 : 0 < z.n := by omega
  have h0 : (fin (0 : K) true).sat 0 := by simp [sat]
  have hup' : le' (norm z newest 0) upper := by
    unfold norm
    rw [if_neg hn0]
    exact hup
  have hlu : (lower + upper).sat 0 := badd_comm upper lower ▸ hul
  have T := fun {i j x : Nat} (hi : i < z.n) (hj : j < z.n) (hx : x < z.n) => norm_tri hz hi hj hx
  unfold target
  by_cases hik : i = k
  · rw [if_pos hik]
    by_cases hjk : j = k
    · rw [if_pos hjk, if_pos hik]
      by_cases hxk : x = k
      · rw [if_pos hxk, if_pos hxk]
        exact sat_zero_le' h0
      · rw [if_neg hxk, if_neg hxk, if_pos hjk]
        rcases min_eq (norm z x 0 + lower) (norm z x newest) with e | e <;> rw [e]
        · apply zero_le'_of_sat
          have h1 : le' (fin 0 true) (norm z 0 x + norm z x 0) := by
            have := T hz0 hz0 hx
            rwa [norm, if_pos rfl] at this
          have h2 : upper + norm z 0 x + (norm z x 0 + lower) =
              norm z 0 x + norm z x 0 + (upper + lower) := by
            rw [badd_assoc, ← badd_assoc (norm z 0 x), badd_comm upper, badd_assoc, badd_comm lower upper]
          rw [h2]
          have := sat_add (sat_of_le' h1 h0) hul
          simpa using this
        · apply zero_le'_of_sat
          have h1 : le' (fin 0 true) (norm z newest 0 + norm z 0 newest) := by
            have := T hn hn hz0
            rwa [norm, if_pos rfl] at this
          have h2 : le' (norm z newest 0 + norm z 0 newest) (upper + (norm z 0 x + norm z x newest)) :=
            add_le'_add hup' (T hz0 hn hx)
          rw [badd_assoc]
          exact sat_of_le' (le'_trans h1 h2) h0
    · rw [if_neg hjk, if_pos hik]
      by_cases hxk : x = k
      · rw [if_pos hxk, if_pos hxk]
        exact sat_zero_le' h0
      · rw [if_neg hxk, if_neg hxk, if_neg hjk, badd_assoc]
        exact add_le'_add (le'_refl _) (T hz0 hj hx)
  · rw [if_neg hik, if_neg hik]
    by_cases hjk : j = k
    · rw [if_pos hjk]
      by_cases hxk : x = k
      · rw [if_pos hxk, if_pos hxk, if_pos hjk]
        exact le'_add_right h0
      · rw [if_neg hxk, if_neg hxk, if_pos hjk]
        rcases min_eq (norm z x 0 + lower) (norm z x newest) with e | e <;> rw [e]
        · refine le'_trans (min_le'_left _ _) ?_
          rw [← badd_assoc]
          exact add_le'_add (T hi hz0 hx) (le'_refl _)
        · exact le'_trans (min_le'_right _ _) (T hi hn hx)
    · rw [if_neg hjk]
      by_cases hxk : x = k
      · rw [if_pos hxk, if_pos hxk, if_neg hjk]
        rcases min_eq (norm z i 0 + lower) (norm z i newest) with e | e <;> rw [e]
        · have h2 : norm z i 0 + lower + (upper + norm z 0 j) = lower + upper + (norm z i 0 + norm z 0 j) := by
            rw [badd_comm (norm z i 0) lower, badd_assoc, ← badd_assoc (norm z i 0), badd_comm (norm z i 0) upper,
              badd_assoc upper, ← badd_assoc lower]
          rw [h2]
          exact le'_trans (T hi hj hz0) (sat_zero_le' hlu)
        · rw [← badd_assoc]
          refine le'_trans (T hi hj hz0) (add_le'_add ?_ (le'_refl _))
          exact le'_trans (T hi hz0 hn) (add_le'_add (le'_refl _) hup')
      · rw [if_neg hxk, if_neg hxk, if_neg hjk]
        exact T hi hj hx

theorem addVar_canon {z : Zone K} (hz : z.Canon) {k newest : Nat} (hk : k < z.n) (hf : Free z k) (h0 : k ≠ 0)
    (hn : newest < z.n) (hnk : newest ≠ k) (hn0 : newest ≠ 0) {upper lower : Bnd K} (hup : le' (z.get newest 0) upper)
    (hv : (addVar z k newest upper lower).noNegativePair = true) : (addVar z k newest upper lower).Canon := by
  have hz0 : 0 < z.n := by omega
  have s0 : (fin (0 : K) true).sat 0 := by simp [sat]
  have hC := addVar_closing (z := z) (k := k) (newest := newest) (upper := upper) (lower := lower) hk
  obtain ⟨hcc, hcc2⟩ := closeColumn_spec (enter z k newest upper lower) hk
  obtain ⟨hcr, hcr2⟩ := closeRow_spec (closeColumn (enter z k newest upper lower) k) (by rw [hcc.n]; exact hk)
  rw [noNegativePair_iff, hC.n] at hv
  change ∀ i j, i < z.n → j < z.n → _ at hv
  -- the cells of the new variable before the loops
  have ek0 : (enter z k newest upper lower).get k 0 = upper := by
    rw [enter_get hk hz0, if_neg (by tauto), if_neg (by tauto), if_neg (by tauto), if_pos ⟨rfl, rfl⟩]
  have e0k : (enter z k newest upper lower).get 0 k = lower := by
    rw [enter_get hz0 hk, if_neg (by tauto), if_neg (by tauto), if_pos ⟨rfl, rfl⟩]
  have enk : (enter z k newest upper lower).get newest k = fin 0 true := by
    rw [enter_get hn hk, if_pos ⟨rfl, rfl⟩]
  have eij : ∀ i j, i < z.n → j < z.n → i ≠ k → j ≠ k → (enter z k newest upper lower).get i j = z.get i j := by
    intro i j hi hj hik hjk
    rw [enter_get hi hj, if_neg (by tauto), if_neg (by tauto), if_neg (by tauto), if_neg (by tauto)]
  have hul : (upper + lower).sat 0 := by
    refine sat_of_le' (add_le'_add ?_ ?_) (hv k 0 hk hz0)
    · have := hC.le k 0 hk hz0
      rwa [ek0] at this
    · have := hC.le 0 k hz0 hk
      rwa [e0k] at this
  have T := fun {i j x : Nat} (hi : i < z.n) (hj : j < z.n) (hx : x < z.n) =>
    target_tri (k := k) hz hn hn0 hup hul hi hj hx
  -- the cells are not below the target
  have hlow : ∀ i j, i < z.n → j < z.n →
      le' (target z k newest upper lower i j) ((addVar z k newest upper lower).get i j) := by
    refine hC.above _ (fun i j x hi hj hx => T hi hj hx) (fun i j hi hj => ?_)
    have hi' : i < z.n := hi
    have hj' : j < z.n := hj
    rw [enter_get hi' hj']
    unfold target
    by_cases hik : i = k
    · by_cases hjk : j = k
      · rw [if_pos hik, if_pos hjk, if_neg (by omega), if_neg (by omega), if_neg (by omega), if_neg (by omega), hik, hjk,
          hf.diag]
        exact le'_refl _
      · rw [if_pos hik, if_neg hjk, if_neg (by tauto)]
        split
        · rw [le'_iff]
          intro d _
          trivial
        · rw [if_neg (by tauto)]
          split
          · rename_i e
            obtain ⟨-, rfl⟩ := e
            rw [le'_iff]
            intro d hd
            rw [norm, if_pos rfl] at hd
            have : upper + fin 0 true = upper := by cases upper <;> simp
            rwa [this] at hd
          · rw [hik, hf.row j hj' hjk, le'_iff]
            intro d _
            trivial
    · by_cases hjk : j = k
      · rw [if_neg hik, if_pos hjk]
        split
        · rename_i e
          obtain ⟨rfl, -⟩ := e
          refine le'_trans (min_le'_right _ _) ?_
          rw [norm, if_pos rfl]
          exact le'_refl _
        · rw [if_neg (by tauto)]
          split
          · rename_i e
            obtain ⟨rfl, -⟩ := e
            refine le'_trans (min_le'_left _ _) ?_
            rw [norm, if_pos rfl]
            have : fin 0 true + lower = lower := by cases lower <;> simp
            rw [this]
            exact le'_refl _
          · rw [if_neg (by tauto), hjk, hf.col i hi' hik, le'_iff]
            intro d _
            trivial
      · rw [if_neg hik, if_neg hjk, if_neg (by tauto), if_neg (by tauto), if_neg (by tauto), if_neg (by tauto)]
        exact norm_le hz hi'
  -- nor above it, off the diagonal
  have hupp : ∀ i j, i < z.n → j < z.n → i ≠ j →
      le' ((addVar z k newest upper lower).get i j) (target z k newest upper lower i j) := by
    intro i j hi hj hij
    unfold target
    by_cases hik : i = k
    · subst hik
      rw [if_pos rfl, if_neg (fun h => hij h.symm)]
      by_cases hj0 : j = 0
      · subst hj0
        have := hC.le i 0 hk hz0
        rw [ek0] at this
        refine le'_trans this ?_
        rw [norm, if_pos rfl]
        exact le'_add_right s0
      · refine le'_trans (hcr2 0 (by rw [hcc.n]; exact hz0) j (by rw [hcc.n]; exact hj)) (add_le'_add ?_ ?_)
        · have := hcc.le i 0 hk hz0
          rwa [ek0] at this
        · rw [hcc.other 0 j hz0 hj (fun h => h0 h.symm) (fun h => hij h.symm),
            eij 0 j hz0 hj (fun h => h0 h.symm) (fun h => hij h.symm), norm, if_neg (fun h => hj0 h.symm)]
          exact le'_refl _
    · by_cases hjk : j = k
      · subst hjk
        rw [if_neg hik, if_pos rfl]
        have hr : le' ((addVar z j newest upper lower).get i j)
            ((closeColumn (enter z j newest upper lower) j).get i j) :=
          hcr.le i j (by rw [hcc.n]; exact hi) (by rw [hcc.n]; exact hj)
        refine le'_min (le'_trans hr ?_) (le'_trans hr ?_)
        · by_cases hi0 : i = 0
          · subst hi0
            have := hcc.le 0 j hz0 hk
            rw [e0k] at this
            refine le'_trans this ?_
            rw [norm, if_pos rfl]
            exact sat_zero_le' s0
          · have := hcc2 i hi 0 hz0 (fun h => h0 h.symm)
            rw [e0k, eij i 0 hi hz0 hik (fun h => h0 h.symm)] at this
            rwa [norm, if_neg hi0]
        · by_cases hin : i = newest
          · subst hin
            have := hcc.le i j hn hk
            rw [enk] at this
            rwa [norm, if_pos rfl]
          · have := hcc2 i hi newest hn hnk
            rw [enk, eij i newest hi hn hik hnk] at this
            rw [norm, if_neg hin]
            have e : z.get i newest + fin 0 true = z.get i newest := by cases z.get i newest <;> simp
            rwa [e] at this
      · rw [if_neg hik, if_neg hjk, norm, if_neg hij, hC.other i j hi hj hik hjk, eij i j hi hj hik hjk]
        exact le'_refl _
  refine ⟨fun x i j hx hi hj hij => ?_, fun i j hi hj => ?_⟩
  · rw [hC.n] at hx hi hj
    exact le'_trans (hupp i j hi hj hij) (le'_trans (T hi hj hx) (add_le'_add (hlow i x hi hx) (hlow x j hx hj)))
  · rw [hC.n] at hi hj
    exact hv i j hi hj

theorem enter_free {z : Zone K} {k newest x : Nat} {upper lower : Bnd K} (hk : k < z.n) (hx : x < z.n) (hxk : x ≠ k)
    (hx0 : x ≠ 0) (hxn : x ≠ newest) (hf : Free z x) : Free (enter z k newest upper lower) x := by
  refine ⟨fun j hj hjx => ?_, fun j hj hjx => ?_, ?_⟩
  · rw [enter_get hx (by exact hj), if_neg (by tauto), if_neg (by tauto), if_neg (by tauto), if_neg (by tauto)]
    exact hf.row j hj hjx
  · rw [enter_get (by exact hj) hx, if_neg (by tauto), if_neg (by tauto), if_neg (by tauto), if_neg (by tauto)]
    exact hf.col j hj hjx
  · rw [enter_get hx hx, if_neg (by tauto), if_neg (by tauto), if_neg (by tauto), if_neg (by tauto)]
    exact hf.diag

theorem addVar_free {z : Zone K} {k newest x : Nat} {upper lower : Bnd K} (hk : k < z.n) (hx : x < z.n) (hxk : x ≠ k)
    (hx0 : x ≠ 0) (hxn : x ≠ newest) (hf : Free z x) : Free (addVar z k newest upper lower) x :=
  (addVar_closing hk).free x hx hxk (enter_free hk hx hxk hx0 hxn hf)

theorem close1_free {z : Zone K} {x k : Nat} (hx : x < z.n) (hk : k < z.n) (hxk : x ≠ k) (hf : Free z k) :
    Free (z.close1 x) k := by
  have key : ∀ i j, i < z.n → j < z.n → (i = k ∨ j = k) →
      (z.close1 x).get i j = Bnd.min (z.get i j) (inf false) := by
    intro i j hi hj h
    rw [close1, get_build hi hj]
    simp only
    congr 1
    rcases h with rfl | rfl
    · rw [hf.row x hx hxk, add_inf]
    · rw [hf.col x hx hxk]
      split
      · rw [inf_add]
      · rw [inf_add, min_inf, inf_add]
  refine ⟨fun j hj hjk => ?_, fun j hj hjk => ?_, ?_⟩
  · rw [key k j hk hj (Or.inl rfl), hf.row j hj hjk, min_inf]
  · rw [key j k hj hk (Or.inr rfl), hf.col j hj hjk, min_inf]
  · rw [key k k hk hk (Or.inl rfl), hf.diag, min_fin_inf]

theorem set_free {z : Zone K} {x y k : Nat} {c : Bnd K} (hk : k < z.n) (hxk : x ≠ k) (hyk : y ≠ k) (hf : Free z k) :
    Free (z.set x y c) k := by
  refine ⟨fun j hj hjk => ?_, fun j hj hjk => ?_, ?_⟩
  · rw [get_set hk (by exact hj), if_neg (by tauto)]
    exact hf.row j hj hjk
  · rw [get_set (by exact hj) hk, if_neg (by tauto)]
    exact hf.col j hj hjk
  · rw [get_set hk hk, if_neg (by tauto)]
    exact hf.diag

/-! ## The invariant -/

/-- The invariant of the zone representation. -/
structure ZOk (z : Zone K) (l : List Bool) (newest : Nat) : Prop where
  canon : z.noNegativePair = true → z.Canon
  two : 2 ≤ newest
  lt : newest < z.n
  len : l.length = z.n
  used0 : l.getD 0 false = true
  used1 : l.getD 1 false = true
  usedN : l.getD newest false = true
  free : ∀ k, k < z.n → l.getD k false = false → Free z k

/-- The invariant of intermediate zones. -/
def Ok : IZone K → Prop
  | one _ _ => True
  | three b => sixValid b = true → b.Tri
  | zone z l newest => ZOk z l newest
  | dead => True

theorem ok_inUse {z : IZone K} (h : z.Ok) (hd : z ≠ dead) :
    z.InUse 0 ∧ z.InUse 1 ∧ z.InUse z.newestClock := by
  cases z with
  | one => simp [InUse, newestClock]
  | three => simp [InUse, newestClock]
  | zone => exact ⟨h.used0, h.used1, h.usedN⟩
  | dead => exact absurd rfl hd

theorem inUse_lt {z : Zone K} {l : List Bool} {newest x : Nat} (h : ZOk z l newest) (hx : l.getD x false = true) :
    x < z.n := by
  by_contra hc
  have : l[x]? = none := by
    rw [List.getElem?_eq_none_iff, h.len]
    omega
  simp [List.getD, this] at hx

theorem three_Sat {b : Six K} {v : Nat → K} : (three b).Sat v ↔ (sixZone b).Sat v := sixZone_Sat.symm

theorem isSat_iff {z : IZone K} (h : z.Ok) : z.isSat = true ↔ z.Nonempty := by
  cases z with
  | one lo up =>
    simp only [isSat, bge_zeroLe, IZone.Nonempty, Sat]
    constructor
    · intro h
      obtain ⟨t, h1, h2⟩ := Bnd.exists_between h
      exact ⟨fun _ => t, h1, h2⟩
    · rintro ⟨v, h1, h2⟩
      have := sat_add h1 h2
      rwa [add_neg_cancel] at this
  | three b =>
    constructor
    · intro hs
      obtain ⟨v, hv⟩ := canon_nonempty (sixZone_canon (h hs) hs)
      exact ⟨v, three_Sat.2 hv⟩
    · rintro ⟨v, h1, h2, h3, h4, h5, h6⟩
      change sixValid b = true
      rw [sixValid_iff]
      refine ⟨?_, ?_, ?_⟩
      · have := sat_add h1 h2
        rwa [add_neg_cancel] at this
      · have := sat_add h3 h4
        rwa [add_neg_cancel] at this
      · have := sat_add h5 h6
        rwa [sub_add_sub_cancel, sub_self] at this
  | zone z l newest =>
    constructor
    · intro hs
      obtain ⟨v, hv⟩ := canon_nonempty (h.canon hs)
      exact ⟨v, hv⟩
    · rintro ⟨v, hv⟩
      exact noNegativePair_iff.2 fun i j hi hj => sat_pair hv hi hj
  | dead => simp [isSat, IZone.Nonempty, Sat]

/-! ## tighten -/

theorem tighten_defined {z : IZone K} (h : z.Ok) {x y : Nat} (hx : z.InUse x) (hy : z.InUse y) (c : Bnd K) :
    ∃ z', z.tighten x y c = .ok z' := by
  cases z with
  | one lo up =>
    simp only [InUse] at hx hy
    by_cases h1 : x = 0 ∧ y = 1
    · exact ⟨_, by rw [tighten, if_pos h1]⟩
    · by_cases h2 : x = 1 ∧ y = 0
      · exact ⟨_, by rw [tighten, if_neg h1, if_pos h2]⟩
      · exact ⟨_, by rw [tighten, if_neg h1, if_neg h2, if_neg (by omega)]⟩
  | three b =>
    rw [tighten]
    split_ifs <;> exact ⟨_, rfl⟩
  | zone z l newest =>
    exact ⟨_, by rw [tighten, if_pos ⟨inUse_lt h hx, inUse_lt h hy⟩]⟩
  | dead => exact ⟨_, rfl⟩

theorem tighten_sat {z z' : IZone K} (h : z.Ok) {x y : Nat} (hxy : x ≠ y) (hx : z.InUse x) (hy : z.InUse y) {c : Bnd K}
    (he : z.tighten x y c = .ok z') (v : Nat → K) : z'.Sat v ↔ z.Sat v ∧ c.sat (ext v x - ext v y) := by
  cases z with
  | one lo up =>
    simp only [InUse] at hx hy
    have : (x = 0 ∧ y = 1) ∨ (x = 1 ∧ y = 0) := by omega
    rcases this with ⟨rfl, rfl⟩ | ⟨rfl, rfl⟩
    · simp [tighten] at he
      subst he
      simp only [Sat, sat_min, ext, zero_sub, and_assoc]
    · simp [tighten] at he
      subst he
      simp only [Sat, sat_min, ext, sub_zero]
      tauto
  | three b =>
    simp only [InUse] at hx hy
    have e1 : ∀ {x y z : K} {a b : Bnd K}, a.sat x → b.sat y → x + y = z → (a + b).sat z := by
      intro x y z a b ha hb h
      exact h ▸ sat_add ha hb
    have : (x = 0 ∧ y = 1) ∨ (x = 1 ∧ y = 0) ∨ (x = 0 ∧ y = 2) ∨ (x = 2 ∧ y = 0) ∨ (x = 1 ∧ y = 2) ∨ (x = 2 ∧ y = 1) := by
      omega
    rcases this with ⟨rfl, rfl⟩ | ⟨rfl, rfl⟩ | ⟨rfl, rfl⟩ | ⟨rfl, rfl⟩ | ⟨rfl, rfl⟩ | ⟨rfl, rfl⟩
    all_goals
      simp [tighten] at he
      subst he
      simp only [Sat, sat_min, ext, zero_sub, sub_zero]
    · constructor
      · rintro ⟨h1, ⟨h2, hc⟩, h3, ⟨h4, -⟩, ⟨h5, -⟩, h6⟩
        exact ⟨⟨h1, h2, h3, h4, h5, h6⟩, hc⟩
      · rintro ⟨⟨h1, h2, h3, h4, h5, h6⟩, hc⟩
        have hm := sat_min.2 ⟨h2, hc⟩
        exact ⟨h1, ⟨h2, hc⟩, h3, ⟨h4, e1 hm h6 (by ring)⟩, ⟨h5, e1 h3 hm (by ring)⟩, h6⟩
    · constructor
      · rintro ⟨⟨h1, hc⟩, h2, ⟨h3, -⟩, h4, h5, ⟨h6, -⟩⟩
        exact ⟨⟨h1, h2, h3, h4, h5, h6⟩, hc⟩
      · rintro ⟨⟨h1, h2, h3, h4, h5, h6⟩, hc⟩
        have hm := sat_min.2 ⟨h1, hc⟩
        exact ⟨⟨h1, hc⟩, h2, ⟨h3, e1 h5 hm (by ring)⟩, h4, h5, ⟨h6, e1 hm h4 (by ring)⟩⟩
    · constructor
      · rintro ⟨h1, ⟨h2, -⟩, h3, ⟨h4, hc⟩, h5, ⟨h6, -⟩⟩
        exact ⟨⟨h1, h2, h3, h4, h5, h6⟩, hc⟩
      · rintro ⟨⟨h1, h2, h3, h4, h5, h6⟩, hc⟩
        have hm := sat_min.2 ⟨h4, hc⟩
        exact ⟨h1, ⟨h2, e1 hm h5 (by ring)⟩, h3, ⟨h4, hc⟩, h5, ⟨h6, e1 hm h1 (by ring)⟩⟩
    · constructor
      · rintro ⟨⟨h1, -⟩, h2, ⟨h3, hc⟩, h4, ⟨h5, -⟩, h6⟩
        exact ⟨⟨h1, h2, h3, h4, h5, h6⟩, hc⟩
      · rintro ⟨⟨h1, h2, h3, h4, h5, h6⟩, hc⟩
        have hm := sat_min.2 ⟨h3, hc⟩
        exact ⟨⟨h1, e1 hm h6 (by ring)⟩, h2, ⟨h3, hc⟩, h4, ⟨h5, e1 hm h2 (by ring)⟩, h6⟩
    · constructor
      · rintro ⟨⟨h1, -⟩, h2, h3, ⟨h4, -⟩, h5, ⟨h6, hc⟩⟩
        exact ⟨⟨h1, h2, h3, h4, h5, h6⟩, hc⟩
      · rintro ⟨⟨h1, h2, h3, h4, h5, h6⟩, hc⟩
        have hm := sat_min.2 ⟨h6, hc⟩
        exact ⟨⟨h1, e1 h3 hm (by ring)⟩, h2, h3, ⟨h4, e1 hm h2 (by ring)⟩, h5, ⟨h6, hc⟩⟩
    · constructor
      · rintro ⟨h1, ⟨h2, -⟩, ⟨h3, -⟩, h4, ⟨h5, hc⟩, h6⟩
        exact ⟨⟨h1, h2, h3, h4, h5, h6⟩, hc⟩
      · rintro ⟨⟨h1, h2, h3, h4, h5, h6⟩, hc⟩
        have hm := sat_min.2 ⟨h5, hc⟩
        exact ⟨h1, ⟨h2, e1 h4 hm (by ring)⟩, ⟨h3, e1 hm h1 (by ring)⟩, h4, ⟨h5, hc⟩, h6⟩
  | zone z l newest =>
    have hx' := inUse_lt h hx
    have hy' := inUse_lt h hy
    rw [tighten, if_pos ⟨hx', hy'⟩] at he
    simp only [Except.ok.injEq] at he
    subst he
    simp only [Sat]
    split
    · rw [close1_Sat (by exact hy'), close1_Sat (by exact hx'), set_min_sat hx' hy']
    · rw [set_min_sat hx' hy']
  | dead =>
    simp only [tighten, Except.ok.injEq] at he
    subst he
    simp [Sat]

theorem noNegativePair_mono {z z' : Zone K} (hn : z'.n = z.n)
    (hle : ∀ i j, i < z.n → j < z.n → le' (z'.get i j) (z.get i j)) (h : z'.noNegativePair = true) :
    z.noNegativePair = true := by
  rw [noNegativePair_iff] at h ⊢
  intro i j hi hj
  exact sat_of_le' (add_le'_add (hle i j hi hj) (hle j i hj hi)) (h i j (by rw [hn]; exact hi) (by rw [hn]; exact hj))

theorem canon_congr {z z' : Zone K} (hn : z'.n = z.n) (hg : ∀ i j, i < z.n → j < z.n → z'.get i j = z.get i j)
    (h : z.Canon) : z'.Canon := by
  refine ⟨fun k i j hk hi hj hij => ?_, fun i j hi hj => ?_⟩
  · rw [hn] at hk hi hj
    rw [hg i j hi hj, hg i k hi hk, hg k j hk hj]
    exact h.tri k i j hk hi hj hij
  · rw [hn] at hi hj
    rw [hg i j hi hj, hg j i hj hi]
    exact h.pair i j hi hj

/-- A canonical zone has a solution with a given compatible difference. -/
theorem canon_diff {z : Zone K} (hz : z.Canon) {x y : Nat} (hx : x < z.n) (hy : y < z.n) (hxy : x ≠ y) {d : K}
    (h1 : (z.get x y).sat d) (h2 : (z.get y x).sat (-d)) : ∃ v, z.Sat v ∧ ext v x - ext v y = d := by
  obtain ⟨v, hv, hS⟩ := extend_sat hz (S := [x, y]) (by simp [hx, hy]) (u := fun i => if i = x then d else 0) (by
    intro i hi j hj
    simp only [List.mem_cons, List.not_mem_nil, or_false] at hi hj
    rcases hi with rfl | rfl <;> rcases hj with rfl | rfl
    · simpa using hz.diag hx
    · simpa [hxy.symm] using h1
    · simpa [hxy.symm] using h2
    · simpa using hz.diag hy)
  refine ⟨v, hv, ?_⟩
  rw [hS x (by simp) y (by simp)]
  simp [hxy.symm]

theorem tighten_ok {z z' : IZone K} (h : z.Ok) {x y : Nat} (hxy : x ≠ y) (hx : z.InUse x) (hy : z.InUse y) {c : Bnd K}
    (he : z.tighten x y c = .ok z') : z'.Ok := by
  cases z with
  | one lo up =>
    rw [tighten] at he
    split_ifs at he <;> simp only [Except.ok.injEq, reduceCtorEq] at he <;> subst he <;> trivial
  | three b =>
    have hm : ∀ x y : Bnd K, le' (Bnd.min x y) x := min_le'_left
    have hr : ∀ x : Bnd K, le' x x := le'_refl
    have C := badd_comm (K := K)
    simp only [InUse] at hx hy
    have : (x = 0 ∧ y = 1) ∨ (x = 1 ∧ y = 0) ∨ (x = 0 ∧ y = 2) ∨ (x = 2 ∧ y = 0) ∨ (x = 1 ∧ y = 2) ∨ (x = 2 ∧ y = 1) := by
      omega
    rcases this with ⟨rfl, rfl⟩ | ⟨rfl, rfl⟩ | ⟨rfl, rfl⟩ | ⟨rfl, rfl⟩ | ⟨rfl, rfl⟩ | ⟨rfl, rfl⟩
    all_goals
      simp [tighten] at he
      subst he
      intro hv
      have hv0 : sixValid b = true := by
        apply sixValid_mono hv <;> first | exact hm _ _ | exact hr _
      have ht := h hv0
      obtain ⟨v1, v2, v3⟩ := sixValid_iff.1 hv0
      obtain ⟨w1, w2, w3⟩ := sixValid_iff.1 hv
      have v1' : (b.lb + b.ub).sat 0 := C b.ub b.lb ▸ v1
      have v2' : (b.le + b.ue).sat 0 := C b.ue b.le ▸ v2
      have v3' : (b.ld + b.ud).sat 0 := C b.ud b.ld ▸ v3
      simp only at w1 w2 w3
      unfold Six.Tri at ht ⊢
      simp only
    · exact (ht.perm1.tighten (by rw [C]; exact w1) v2' v3').perm1
    · exact ht.tighten w1 v3' v2'
    · rw [C _ b.ub]
      rw [C _ b.ub] at w3
      have w := (ht.perm1.perm2.tighten (c := c) (by rw [C]; exact w2) v1' v3).perm2.perm1
      exact w
    · have w := (ht.perm1.perm2.perm1.tighten (c := c) w2 v3 v1').perm1.perm2.perm1
      rwa [C b.ld] at w
    · have w := (ht.perm2.tighten (c := c) (by rw [C]; exact w3) v1 v2).perm2
      rwa [C _ b.ue, C b.lb] at w
    · have w := (ht.perm2.perm1.tighten (c := c) w3 v2 v1).perm1.perm2
      exact w
  | zone z l newest =>
    have hx' := inUse_lt h hx
    have hy' := inUse_lt h hy
    rw [tighten, if_pos ⟨hx', hy'⟩] at he
    simp only [Except.ok.injEq] at he
    subst he
    have hfree : ∀ k, k < z.n → l.getD k false = false → k ≠ x ∧ k ≠ y := by
      intro k _ hk
      constructor
      · rintro rfl
        rw [show l.getD k false = true from hx] at hk
        exact absurd hk (by decide)
      · rintro rfl
        rw [show l.getD k false = true from hy] at hk
        exact absurd hk (by decide)
    set z1 := z.set x y (Bnd.min (z.get x y) c) with hz1
    have hg1 : z1.get x y = Bnd.min (z.get x y) c := by rw [hz1, get_set hx' hy', if_pos ⟨rfl, rfl⟩]
    by_cases hc : z1.get x y = c ∧ newest ≠ 1
    · rw [if_pos hc]
      have ht : (z1.close1 x).close1 y = z.tighten x y c := rfl
      refine ⟨fun hv => ?_, h.two, h.lt, h.len, h.used0, h.used1, h.usedN, fun k hk hl => ?_⟩
      · have hle : ∀ i j, i < z.n → j < z.n → le' (((z1.close1 x).close1 y).get i j) (z1.get i j) := fun i j hi hj =>
          le'_trans (close1_le' (z := z1.close1 x) (by exact hi) (by exact hj)) (close1_le' (z := z1) (by exact hi) (by exact hj))
        have hle1 : ∀ i j, i < z.n → j < z.n → le' (z1.get i j) (z.get i j) := fun i j hi hj => by
          rw [hz1, get_set hi hj]
          split
          · rename_i e
            obtain ⟨rfl, rfl⟩ := e
            exact min_le'_left _ _
          · exact le'_refl _
        have hz1v : z1.noNegativePair = true := noNegativePair_mono (by rfl) hle hv
        have hzc : z.Canon := h.canon (noNegativePair_mono (by rfl) hle1 hz1v)
        rw [ht]
        refine tighten_canon hzc hx' hy' ?_
        have hp := (noNegativePair_iff.1 hz1v) x y hx' hy'
        obtain ⟨d, d1, d2⟩ := Bnd.exists_between hp
        rw [hg1, sat_min] at d1
        rw [hz1, get_set hy' hx', if_neg (by omega)] at d2
        obtain ⟨v, v1, v2⟩ := canon_diff hzc hx' hy' hxy d1.1 d2
        exact ⟨v, (tighten_Sat hx' hy').2 ⟨v1, by rw [v2]; exact d1.2⟩⟩
      · have := hfree k hk hl
        exact close1_free (by exact hy') (by exact hk) this.2.symm (close1_free (by exact hx') (by exact hk) this.1.symm
          (set_free hk this.1.symm this.2.symm (h.free k hk hl)))
    · rw [if_neg hc]
      have hsame : ∀ i j, i < z.n → j < z.n → z1.get i j = z.get i j := by
        intro i j hi hj
        rw [hz1, get_set hi hj]
        split
        · rename_i e
          obtain ⟨rfl, rfl⟩ := e
          rcases min_eq (z.get i j) c with e | e
          · exact e
          · exfalso
            refine hc ⟨by rw [hg1, e], ?_⟩
            have := h.two
            omega
        · rfl
      refine ⟨fun hv => ?_, h.two, h.lt, h.len, h.used0, h.used1, h.usedN, fun k hk hl => ?_⟩
      · refine canon_congr (by rfl) hsame (h.canon (noNegativePair_mono (z' := z1) (by rfl) (fun i j hi hj => ?_) hv))
        rw [hsame i j hi hj]
        exact le'_refl _
      · have := hfree k hk hl
        exact set_free hk this.1.symm this.2.symm (h.free k hk hl)
  | dead =>
    simp only [tighten, Except.ok.injEq] at he
    subst he
    trivial

/-! ## alloc -/

theorem build_congr {n : Nat} {M : Bnd K} {f g : Nat → Nat → Bnd K} (h : ∀ i j, i < n → j < n → f i j = g i j) :
    Zone.build n M f = Zone.build n M g := by
  unfold Zone.build
  congr 1
  apply List.map_congr_left
  intro i hi
  apply List.map_congr_left
  intro j hj
  exact h i j (by simpa using hi) (by simpa using hj)

theorem set_eq_build (z : Zone K) (x y : Nat) (c : Bnd K) :
    z.set x y c = Zone.build z.n z.M fun i j => (z.set x y c).get i j :=
  build_congr fun i j hi hj => (get_set hi hj).symm

theorem grow_get {z : Zone K} {i j : Nat} (hi : i < z.n + 1) (hj : j < z.n + 1) :
    (grow z).get i j =
      if i = z.n ∧ j = z.n then fin 0 true else if i = z.n ∨ j = z.n then inf false else z.get i j := get_build hi hj

theorem grow_n (z : Zone K) : (grow z).n = z.n + 1 := rfl

theorem grow_old {z : Zone K} {i j : Nat} (hi : i < z.n) (hj : j < z.n) : (grow z).get i j = z.get i j := by
  rw [grow_get (by omega) (by omega), if_neg (by omega), if_neg (by omega)]

theorem grow_new (z : Zone K) : Free (grow z) z.n := by
  refine ⟨fun j hj hjk => ?_, fun j hj hjk => ?_, ?_⟩
  · rw [grow_get (by omega) hj, if_neg (by omega), if_pos (by omega)]
  · rw [grow_get hj (by omega), if_neg (by omega), if_pos (by omega)]
  · rw [grow_get (by omega) (by omega), if_pos ⟨rfl, rfl⟩]

theorem grow_free {z : Zone K} {k : Nat} (hk : k < z.n) (h : Free z k) : Free (grow z) k := by
  refine ⟨fun j hj hjk => ?_, fun j hj hjk => ?_, ?_⟩
  · rw [grow_n] at hj
    by_cases hj' : j = z.n
    · rw [grow_get (by omega) hj, if_neg (by omega), if_pos (by omega)]
    · rw [grow_old hk (by omega), h.row j (by omega) hjk]
  · rw [grow_n] at hj
    by_cases hj' : j = z.n
    · rw [grow_get hj (by omega), if_neg (by omega), if_pos (by omega)]
    · rw [grow_old (by omega) hk, h.col j (by omega) hjk]
  · rw [grow_old hk hk, h.diag]

theorem grow_Sat {z : Zone K} {v : Nat → K} : (grow z).Sat v ↔ z.Sat v := by
  constructor
  · intro h i j hi hj
    have := h i j (by rw [grow_n]; omega) (by rw [grow_n]; omega)
    rwa [grow_old hi hj] at this
  · intro h i j hi hj
    rw [grow_n] at hi hj
    by_cases hi' : i = z.n
    · by_cases hj' : j = z.n
      · rw [grow_get hi hj, if_pos ⟨hi', hj'⟩, sat_t, hi', hj', sub_self]
      · rw [grow_get hi hj, if_neg (by omega), if_pos (by omega)]
        trivial
    · by_cases hj' : j = z.n
      · rw [grow_get hi hj, if_neg (by omega), if_pos (by omega)]
        trivial
      · rw [grow_old (by omega) (by omega)]
        exact h i j (by omega) (by omega)

theorem le'_inf (a : Bnd K) : le' a (inf false) := by
  rw [le'_iff]
  intro d _
  trivial

theorem grow_canon {z : Zone K} (h : z.Canon) : (grow z).Canon := by
  have s0 : (fin (0 : K) true).sat 0 := by simp [sat]
  have hf := grow_new z
  have hn : z.n < (grow z).n := by rw [grow_n]; omega
  refine ⟨fun k i j hk hi hj hij => ?_, fun i j hi hj => ?_⟩
  · by_cases hi' : i = z.n
    · subst hi'
      rw [hf.row' hk hj (fun e => hij e.symm)]
      exact le'_inf _
    · by_cases hj' : j = z.n
      · subst hj'
        rw [hf.col' hk hi hij]
        exact le'_inf _
      · by_cases hk' : k = z.n
        · subst hk'
          rw [hf.col i hi hi', inf_add]
          exact le'_inf _
        · rw [grow_n] at hk hi hj
          rw [grow_old (by omega) (by omega), grow_old (by omega) (by omega), grow_old (by omega) (by omega)]
          exact h.tri k i j (by omega) (by omega) (by omega) hij
  · by_cases hi' : i = z.n
    · subst hi'
      by_cases hj' : j = z.n
      · subst hj'
        rw [hf.diag]
        simp [sat]
      · rw [hf.row j hj hj', inf_add]
        trivial
    · by_cases hj' : j = z.n
      · subst hj'
        rw [hf.col i hi hi', inf_add]
        trivial
      · rw [grow_n] at hi hj
        rw [grow_old (by omega) (by omega), grow_old (by omega) (by omega)]
        exact h.pair i j (by omega) (by omega)

theorem convert_eq (b : Six K) (upper lower : Bnd K) :
    convert b upper lower = enter (grow (sixZone b)) 3 2 upper lower := by
  have hE : enter (grow (sixZone b)) 3 2 upper lower = Zone.build 4 (fin 0 true)
      fun i j => (enter (grow (sixZone b)) 3 2 upper lower).get i j := set_eq_build _ _ _ _
  rw [hE]
  unfold convert
  refine build_congr fun i j hi hj => ?_
  rw [enter_get (z := grow (sixZone b)) (by exact hi) (by exact hj)]
  have hn : (sixZone b).n = 3 := rfl
  have hi' : i = 0 ∨ i = 1 ∨ i = 2 ∨ i = 3 := by omega
  have hj' : j = 0 ∨ j = 1 ∨ j = 2 ∨ j = 3 := by omega
  rcases hi' with rfl | rfl | rfl | rfl <;> rcases hj' with rfl | rfl | rfl | rfl <;>
    first
    | rfl
    | (rw [grow_get (by rw [hn]; omega) (by rw [hn]; omega)]; simp [hn])
    | (rw [grow_old (by rw [hn]; omega) (by rw [hn]; omega), sixZone, get_build (by omega) (by omega)]; simp)

/-- The index of the variable added by `alloc`. -/
theorem alloc_sat {z : IZone K} (h : z.Ok) (upper lower : Bnd K) (v : Nat → K) :
    (z.alloc upper lower).Sat v ↔
      z.Sat v ∧ upper.sat (ext v (z.alloc upper lower).newestClock) ∧
      lower.sat (-ext v (z.alloc upper lower).newestClock) ∧
      ext v z.newestClock ≤ ext v (z.alloc upper lower).newestClock := by
  cases z with
  | one lo up =>
    simp only [alloc, Sat, newestClock, ext, sat_min, sat_t]
    constructor
    · rintro ⟨h1, h2, h3, h4, -, -, h6⟩
      exact ⟨⟨h1, h2⟩, h3, h4, by linarith⟩
    · rintro ⟨⟨h1, h2⟩, h3, h4, h5⟩
      refine ⟨h1, h2, h3, h4, ?_, ?_, by linarith⟩
      · have := sat_add h3 h2
        rwa [← sub_eq_add_neg] at this
      · have := sat_add h1 h4
        rwa [← sub_eq_add_neg] at this
  | three b =>
    have hs : (addVar (grow (sixZone b)) 3 2 upper lower).Sat v ↔ _ :=
      addVar_Sat (z := grow (sixZone b)) (k := 3) (newest := 2) (show 3 < 4 by omega) (grow_new (sixZone b)) (by decide)
        (show 2 < 4 by omega) (by decide) (by decide)
    rw [grow_Sat, ← three_Sat] at hs
    rw [alloc, convert_eq]
    exact hs
  | zone z l newest =>
    rw [alloc]
    split
    · rename_i k hk
      obtain ⟨hk1, hk2, -⟩ := List.findIdx?_eq_some_iff_getElem.1 hk
      have hkf : l.getD k false = false := by
        simp only [List.getD, List.getElem?_eq_getElem hk1, Option.getD_some]
        simpa using hk2
      have hne : ∀ x, l.getD x false = true → x ≠ k := by
        rintro x hx rfl
        rw [hkf] at hx
        exact absurd hx (by decide)
      have hkn : k < z.n := by rw [← h.len]; exact hk1
      exact addVar_Sat hkn (h.free k hkn hkf) (hne 0 h.used0).symm h.lt (hne _ h.usedN)
        (by have := h.two; omega)
    · have hs : (addVar (grow z) z.n newest upper lower).Sat v ↔ _ :=
        addVar_Sat (z := grow z) (k := z.n) (newest := newest) (by rw [grow_n]; omega) (grow_new z)
          (by have := h.lt; omega) (by rw [grow_n]; have := h.lt; omega) (by have := h.lt; omega)
          (by have := h.two; omega)
      rw [grow_Sat] at hs
      exact hs
  | dead => simp [alloc, Sat]

theorem atMost_le {z : Zone K} (hz : z.Canon) {x : Nat} (hx : x < z.n) (hx0 : x ≠ 0) {b : Bnd K}
    (h : ∀ v, z.Sat v → b.sat (ext v x)) : le' (z.get x 0) b := by
  rw [le'_iff]
  refine canon_tight hz x 0 hx (by omega) hx0 b ?_
  intro v hv
  have := h v hv
  simpa [ext] using this

theorem getD_set_self {l : List Bool} {k : Nat} (hk : k < l.length) : (l.set k true).getD k false = true := by
  simp [List.getD, hk]

theorem getD_set_ne {l : List Bool} {k x : Nat} (h : x ≠ k) : (l.set k true).getD x false = l.getD x false := by
  simp [List.getD, List.getElem?_set_ne (Ne.symm h)]

theorem alloc_ok {z : IZone K} (h : z.Ok) (upper lower : Bnd K) (hne : z.Nonempty)
    (hup : z.AtMost z.newestClock upper)
    (hlo : z.newestClock = 1 → ∀ t, lower.sat (-t) → ∃ v, z.Sat v ∧ v 0 ≤ t) : (z.alloc upper lower).Ok := by
  have hs := (isSat_iff h).2 hne
  cases z with
  | one lo up =>
    intro hv
    obtain ⟨v0, hv0⟩ := hne
    have h1 : le' up upper := by
      rw [le'_iff]
      intro d hd
      by_cases hd' : d ≤ v0 0
      · exact sat_mono_le (hup v0 hv0) hd'
      · exact hup (fun _ => d) ⟨hd, sat_mono_le hv0.2 (by linarith)⟩
    have h2 : le' lower lo := by
      rw [le'_iff]
      intro d hd
      obtain ⟨v, hv, hd'⟩ := hlo rfl (-d) (by rwa [neg_neg])
      exact sat_mono_le hv.2 (by linarith)
    have := sixInit_tri (S := Unit) (c := ⟨(), [], up, lo⟩) (ue := upper) (le := lower) h1 h2 (by
      simp only [sixInit]
      rw [badd_comm lower up]
      exact hv)
    simp only [sixInit] at this
    rw [badd_comm lower up] at this
    exact this
  | three b =>
    have hz := sixZone_canon (h hs) hs
    have hg := grow_canon hz
    have hn : (sixZone b).n = 3 := rfl
    have h4 : (addVar (grow (sixZone b)) 3 2 upper lower).n = 4 :=
      addVar_n (z := grow (sixZone b)) (show 3 < 4 by omega)
    rw [alloc, convert_eq]
    refine ⟨fun hv => ?_, by omega, ?_, ?_, by rfl, by rfl, by rfl, ?_⟩
    · refine addVar_canon (z := grow (sixZone b)) (k := 3) hg (show 3 < 4 by omega) (grow_new (sixZone b)) (by decide)
        (show 2 < 4 by omega) (by decide) (by decide) ?_ hv
      rw [grow_old (by rw [hn]; omega) (by rw [hn]; omega)]
      exact atMost_le hz (by rw [hn]; omega) (by decide) fun v hv => hup v (three_Sat.2 hv)
    · exact h4.symm ▸ (show 3 < 4 by omega)
    · exact h4.symm
    · intro k hk hl
      have hk' : k < 4 := h4 ▸ hk
      have : k = 0 ∨ k = 1 ∨ k = 2 ∨ k = 3 := by omega
      rcases this with rfl | rfl | rfl | rfl <;> exact absurd hl (by decide)
  | zone z l newest =>
    have hz := h.canon hs
    have h2 := h.two
    have h3 := h.lt
    have hle : le' (z.get newest 0) upper := atMost_le hz h.lt (by omega) hup
    rw [alloc]
    split
    · rename_i k hk
      obtain ⟨hk1, hk2, -⟩ := List.findIdx?_eq_some_iff_getElem.1 hk
      have hkf : l.getD k false = false := by
        simp only [List.getD, List.getElem?_eq_getElem hk1, Option.getD_some]
        simpa using hk2
      have hne : ∀ x, l.getD x false = true → x ≠ k := by
        rintro x hx rfl
        rw [hkf] at hx
        exact absurd hx (by decide)
      have hkn : k < z.n := by rw [← h.len]; exact hk1
      have hk0 := hne 0 h.used0
      have hk1' := hne 1 h.used1
      have hnn : (addVar z k newest upper lower).n = z.n := addVar_n hkn
      refine ⟨fun hv => ?_, by omega, by exact hnn.symm ▸ hkn, ?_, ?_, ?_, getD_set_self hk1, ?_⟩
      · exact addVar_canon hz hkn (h.free k hkn hkf) hk0.symm h.lt (hne _ h.usedN) (by omega) hle hv
      · rw [List.length_set, h.len]
        exact hnn.symm
      · rw [getD_set_ne hk0, h.used0]
      · rw [getD_set_ne hk1', h.used1]
      · intro x hx hl
        have hx' : x < z.n := hnn ▸ hx
        have hxk : x ≠ k := by
          rintro rfl
          rw [getD_set_self hk1] at hl
          exact absurd hl (by decide)
        rw [getD_set_ne hxk] at hl
        refine addVar_free hkn hx' hxk ?_ ?_ (h.free x hx' hl)
        · rintro rfl
          rw [h.used0] at hl
          exact absurd hl (by decide)
        · rintro rfl
          rw [h.usedN] at hl
          exact absurd hl (by decide)
    · rename_i hnone
      have hall : ∀ x, x < z.n → l.getD x false = true := by
        intro x hx
        rw [← h.len] at hx
        have := List.findIdx?_eq_none_iff.1 hnone l[x] (List.getElem_mem hx)
        simp only [List.getD, List.getElem?_eq_getElem hx, Option.getD_some]
        simpa using this
      have hkn : z.n < (grow z).n := by rw [grow_n]; omega
      have hnn : (addVar (grow z) z.n newest upper lower).n = z.n + 1 := addVar_n hkn
      have hold : ∀ x, x < z.n → (l ++ [true]).getD x false = true := by
        intro x hx
        rw [← hall x hx]
        simp only [List.getD]
        rw [List.getElem?_append_left (by rw [h.len]; exact hx)]
      refine ⟨fun hv => ?_, by omega, by exact hnn.symm ▸ (by omega), ?_, hold 0 (by omega), hold 1 (by omega), ?_, ?_⟩
      · refine addVar_canon (grow_canon hz) hkn (grow_new z) (by omega) (by rw [grow_n]; omega) (by omega) (by omega) ?_ hv
        rw [grow_old h.lt (by omega)]
        exact hle
      · rw [List.length_append, h.len]
        exact hnn.symm
      · simp [List.getD, ← h.len]
      · intro x hx hl
        have hx' : x < z.n + 1 := hnn ▸ hx
        by_cases hxn : x < z.n
        · rw [hold x hxn] at hl
          exact absurd hl (by decide)
        · have : x = l.length := by rw [h.len]; omega
          subst this
          simp [List.getD] at hl
  | dead => trivial

/-- The new variable was not in use, and the others stay in use. -/
theorem alloc_inUse {z : IZone K} (h : z.Ok) (hd : z ≠ dead) (upper lower : Bnd K) :
    ¬ z.InUse (z.alloc upper lower).newestClock ∧
    ∀ x, (z.alloc upper lower).InUse x ↔ z.InUse x ∨ x = (z.alloc upper lower).newestClock := by
  cases z with
  | one lo up =>
    simp only [alloc, InUse, newestClock]
    exact ⟨by omega, fun x => by omega⟩
  | three b =>
    simp only [alloc, InUse, newestClock]
    refine ⟨by omega, fun x => ?_⟩
    simp only [List.getD, List.getElem?_replicate]
    split
    · simp
      omega
    · simp
      omega
  | zone z l newest =>
    rw [alloc]
    split
    · rename_i k hk
      obtain ⟨hk1, hk2, -⟩ := List.findIdx?_eq_some_iff_getElem.1 hk
      have hkf : l.getD k false = false := by
        simp only [List.getD, List.getElem?_eq_getElem hk1, Option.getD_some]
        simpa using hk2
      simp only [InUse, newestClock]
      refine ⟨by rw [hkf]; decide, fun x => ?_⟩
      by_cases hxk : x = k
      · subst hxk
        rw [getD_set_self hk1]
        simp
      · rw [getD_set_ne hxk]
        simp [hxk]
    · rename_i hnone
      simp only [InUse, newestClock]
      refine ⟨fun hc => ?_, fun x => ?_⟩
      · exact absurd (inUse_lt h hc) (by omega)
      · rw [← h.len]
        simp only [List.getD]
        rcases lt_trichotomy x l.length with hx | hx | hx
        · rw [List.getElem?_append_left hx]
          simp only [or_iff_left (show ¬ x = l.length by omega)]
        · subst hx
          simp
        · have h1 : (l ++ [true])[x]? = none := by simp; omega
          have h2 : l[x]? = none := by simp; omega
          simp [h1, h2]
          omega
  | dead => exact absurd rfl hd

/-! ## update -/

theorem keepOf_go {n : Nat} (rt : List (RTime K)) (l0 l : List Bool) (hlen : l0.length = n)
    (h : rt.foldlM (fun l r => match r with
      | .at _ => Except.ok l
      | .var x => if x < n then Except.ok (l.set x true) else Except.error Err.ub) l0 = .ok l) :
    l.length = n ∧ ∀ x, l.getD x false = true ↔ l0.getD x false = true ∨ RTime.var x ∈ rt := by
  induction rt generalizing l0 with
  | nil =>
    simp only [List.foldlM_nil] at h
    cases h
    simp [hlen]
  | cons r rt ih =>
    rw [List.foldlM_cons] at h
    cases r with
    | «at» t =>
      obtain ⟨h1, h2⟩ := ih l0 hlen h
      refine ⟨h1, fun x => ?_⟩
      rw [h2]
      simp
    | var y =>
      by_cases hy : y < n
      · simp only [hy, if_true] at h
        obtain ⟨h1, h2⟩ := ih (l0.set y true) (by simpa using hlen) h
        refine ⟨h1, fun x => ?_⟩
        rw [h2]
        by_cases hxy : x = y
        · subst hxy
          rw [getD_set_self (by omega)]
          simp
        · rw [getD_set_ne hxy]
          simp [hxy]
      · simp only [hy, if_false] at h
        cases h

theorem keepOf_spec {n newest : Nat} {rt : List (RTime K)} {l : List Bool} (hn : 2 ≤ newest) (hlt : newest < n)
    (h : keepOf n newest rt = .ok l) :
    l.length = n ∧ ∀ x, l.getD x false = true ↔ x = 0 ∨ x = 1 ∨ x = newest ∨ RTime.var x ∈ rt := by
  obtain ⟨h1, h2⟩ := keepOf_go rt _ l (by simp) h
  refine ⟨h1, fun x => ?_⟩
  rw [h2]
  have hrep : (List.replicate n false).getD x false = false := by
    simp only [List.getD, List.getElem?_replicate]
    split <;> rfl
  by_cases hxn : x = newest
  · subst hxn
    rw [getD_set_self (by simpa using hlt)]
    simp
  · rw [getD_set_ne hxn]
    by_cases hx1 : x = 1
    · subst hx1
      rw [getD_set_self (by simp; omega)]
      simp
    · rw [getD_set_ne hx1]
      by_cases hx0 : x = 0
      · subst hx0
        rw [getD_set_self (by simp; omega)]
        simp
      · rw [getD_set_ne hx0, hrep]
        simp [hx0, hx1, hxn]

theorem keepOf_defined {n newest : Nat} {rt : List (RTime K)} (h : ∀ x, RTime.var x ∈ rt → x < n) :
    ∃ l, keepOf n newest rt = .ok l := by
  unfold keepOf
  generalize ((((List.replicate n false).set 0 true).set 1 true).set newest true) = l0
  induction rt generalizing l0 with
  | nil => exact ⟨_, rfl⟩
  | cons r rt ih =>
    rw [List.foldlM_cons]
    cases r with
    | «at» t => exact ih (fun x hx => h x (by simp [hx])) l0
    | var y =>
      simp only [h y (by simp), if_true]
      exact ih (fun x hx => h x (by simp [hx])) _

/-- The variables not kept are not constrained any more. -/
theorem dealloc_go {p : Nat → Bool} (L : List Nat) (z : Zone K) :
    let z' := L.foldl (fun z x => if 1 ≤ x ∧ p x = false then deallocate z x else z) z
    z'.n = z.n ∧ z'.M = z.M ∧ ∀ i j, i < z.n → j < z.n → z'.get i j =
      if (∃ x ∈ L, 1 ≤ x ∧ p x = false ∧ (i = x ∨ j = x)) then (if i = j then fin 0 true else inf false)
      else z.get i j := by
  induction L generalizing z with
  | nil => simp
  | cons a L ih =>
    simp only [List.foldl_cons]
    by_cases ha : 1 ≤ a ∧ p a = false
    · rw [if_pos ha]
      obtain ⟨h1, h2, h3⟩ := ih (deallocate z a)
      refine ⟨h1, h2, fun i j hi hj => ?_⟩
      rw [h3 i j hi hj]
      by_cases hL : ∃ x ∈ L, 1 ≤ x ∧ p x = false ∧ (i = x ∨ j = x)
      · rw [if_pos hL, if_pos (c := ∃ x ∈ a :: L, _) (by
          obtain ⟨x, hx, hr⟩ := hL
          exact ⟨x, by simp [hx], hr⟩)]
      · rw [if_neg hL, deallocate, get_build hi hj]
        by_cases hij : i = a ∨ j = a
        · rw [if_pos (c := ∃ x ∈ a :: L, _) ⟨a, by simp, ha.1, ha.2, hij⟩]
          by_cases he : i = j
          · subst he
            rw [if_pos (by tauto), if_pos rfl]
          · rw [if_neg (by intro h; exact he (h.1.trans h.2.symm)), if_pos hij, if_neg he]
        · rw [if_neg (by tauto), if_neg hij, if_neg]
          rintro ⟨x, hx, hr⟩
          rcases List.mem_cons.1 hx with rfl | hx
          · exact hij hr.2.2
          · exact hL ⟨x, hx, hr⟩
    · rw [if_neg ha]
      obtain ⟨h1, h2, h3⟩ := ih z
      refine ⟨h1, h2, fun i j hi hj => ?_⟩
      rw [h3 i j hi hj]
      by_cases hL : ∃ x ∈ L, 1 ≤ x ∧ p x = false ∧ (i = x ∨ j = x)
      · rw [if_pos hL, if_pos (c := ∃ x ∈ a :: L, _) (by
          obtain ⟨x, hx, hr⟩ := hL
          exact ⟨x, by simp [hx], hr⟩)]
      · rw [if_neg hL, if_neg]
        rintro ⟨x, hx, hr⟩
        rcases List.mem_cons.1 hx with rfl | hx
        · exact ha ⟨hr.1, hr.2.1⟩
        · exact hL ⟨x, hx, hr⟩

/-- The zone computed by `update`. -/
def keepZone (l : List Bool) (z : Zone K) : Zone K :=
  (List.range z.n).foldl (fun z x => if 1 ≤ x ∧ l.getD x false = false then deallocate z x else z) z

theorem keepZone_n (l : List Bool) (z : Zone K) : (keepZone l z).n = z.n :=
  (dealloc_go (p := fun x => l.getD x false) (List.range z.n) z).1

theorem keepZone_get {l : List Bool} {z : Zone K} (h0 : l.getD 0 false = true) {i j : Nat} (hi : i < z.n) (hj : j < z.n) :
    (keepZone l z).get i j =
      if l.getD i false = true ∧ l.getD j false = true then z.get i j
      else if i = j then fin 0 true else inf false := by
  rw [show (keepZone l z).get i j = _ from (dealloc_go (p := fun x => l.getD x false) (List.range z.n) z).2.2 i j hi hj]
  have key : (∃ x ∈ List.range z.n, 1 ≤ x ∧ l.getD x false = false ∧ (i = x ∨ j = x)) ↔
      ¬ (l.getD i false = true ∧ l.getD j false = true) := by
    constructor
    · rintro ⟨x, -, -, hx, rfl | rfl⟩ ⟨h1, h2⟩
      · rw [hx] at h1; exact absurd h1 (by decide)
      · rw [hx] at h2; exact absurd h2 (by decide)
    · intro h
      by_cases h1 : l.getD i false = true
      · have h2 : l.getD j false = false := by
          rw [← Bool.not_eq_true]
          exact fun h2 => h ⟨h1, h2⟩
        refine ⟨j, by simpa using hj, ?_, h2, Or.inr rfl⟩
        rcases Nat.eq_zero_or_pos j with rfl | hp
        · rw [h0] at h2; exact absurd h2 (by decide)
        · exact hp
      · have h1 : l.getD i false = false := by simpa using h1
        refine ⟨i, by simpa using hi, ?_, h1, Or.inl rfl⟩
        rcases Nat.eq_zero_or_pos i with rfl | hp
        · rw [h0] at h1; exact absurd h1 (by decide)
        · exact hp
  by_cases h : l.getD i false = true ∧ l.getD j false = true
  · rw [if_pos h, if_neg (fun hc => key.1 hc h)]
  · rw [if_neg h, if_pos (key.2 h)]

theorem keepZone_free {l : List Bool} {z : Zone K} (h0 : l.getD 0 false = true) {k : Nat} (hk : k < z.n)
    (hl : l.getD k false = false) : Free (keepZone l z) k := by
  have hl' : ¬ l.getD k false = true := by rw [hl]; decide
  refine ⟨fun j hj hjk => ?_, fun j hj hjk => ?_, ?_⟩
  · rw [keepZone_n] at hj
    rw [keepZone_get h0 hk hj, if_neg (fun h => hl' h.1), if_neg (fun h => hjk h.symm)]
  · rw [keepZone_n] at hj
    rw [keepZone_get h0 hj hk, if_neg (fun h => hl' h.2), if_neg hjk]
  · rw [keepZone_get h0 hk hk, if_neg (fun h => hl' h.1), if_pos rfl]

theorem keepZone_canon {l : List Bool} {z : Zone K} (h0 : l.getD 0 false = true) (hz : z.Canon) : (keepZone l z).Canon := by
  have hn := keepZone_n l z
  have fr : ∀ k, k < z.n → ¬ l.getD k false = true → Free (keepZone l z) k := fun k hk h =>
    keepZone_free h0 hk (by simpa using h)
  refine ⟨fun k i j hk hi hj hij => ?_, fun i j hi hj => ?_⟩
  · rw [hn] at hk hi hj
    by_cases h1 : l.getD i false = true
    · by_cases h2 : l.getD j false = true
      · by_cases h3 : l.getD k false = true
        · rw [keepZone_get h0 hi hj, keepZone_get h0 hi hk, keepZone_get h0 hk hj, if_pos ⟨h1, h2⟩, if_pos ⟨h1, h3⟩,
            if_pos ⟨h3, h2⟩]
          exact hz.tri k i j hk hi hj hij
        · rw [(fr k hk h3).col i (by omega) (by rintro rfl; exact h3 h1), inf_add]
          exact le'_inf _
      · rw [(fr j hj h2).col' (by omega) (by omega) hij]
        exact le'_inf _
    · rw [(fr i hi h1).row' (by omega) (by omega) hij.symm]
      exact le'_inf _
  · rw [hn] at hi hj
    by_cases h1 : l.getD i false = true
    · by_cases h2 : l.getD j false = true
      · rw [keepZone_get h0 hi hj, keepZone_get h0 hj hi, if_pos ⟨h1, h2⟩, if_pos ⟨h2, h1⟩]
        exact hz.pair i j hi hj
      · by_cases hij : i = j
        · subst hij
          exact absurd h1 h2
        · rw [(fr j hj h2).col i (by omega) hij, inf_add]
          trivial
    · by_cases hij : i = j
      · subst hij
        rw [(fr i hi h1).diag]
        simp [sat]
      · rw [(fr i hi h1).row j (by omega) (fun e => hij e.symm), inf_add]
        trivial

theorem keepZone_Sat {l : List Bool} {z : Zone K} (h0 : l.getD 0 false = true) (hn0 : 0 < z.n)
    (hlen : l.length = z.n) (hz : z.Canon) {v' : Nat → K} :
    (keepZone l z).Sat v' ↔ ∃ v, z.Sat v ∧ ∀ x, l.getD x false = true → ext v x = ext v' x := by
  constructor
  · intro h
    set S := (List.range z.n).filter (fun x => l.getD x false) with hS
    have hSlt : ∀ i ∈ S, i < z.n ∧ l.getD i false = true := by
      intro i hi
      rw [hS, List.mem_filter] at hi
      exact ⟨by simpa using hi.1, by simpa using hi.2⟩
    obtain ⟨v, hv, hd⟩ := extend_sat hz (S := S) (fun i hi => (hSlt i hi).1) (u := ext v') (by
      intro i hi j hj
      have := h i j (by rw [keepZone_n]; exact (hSlt i hi).1) (by rw [keepZone_n]; exact (hSlt j hj).1)
      rwa [keepZone_get h0 (hSlt i hi).1 (hSlt j hj).1, if_pos ⟨(hSlt i hi).2, (hSlt j hj).2⟩] at this)
    refine ⟨v, hv, fun x hx => ?_⟩
    have hxn : x < z.n := by
      by_contra hc
      have : l[x]? = none := by
        rw [List.getElem?_eq_none_iff, hlen]
        omega
      simp [List.getD, this] at hx
    have := hd x (by rw [hS, List.mem_filter]; exact ⟨by simpa using hxn, by simpa using hx⟩) 0
      (by rw [hS, List.mem_filter]; exact ⟨by simpa using hn0, by simpa using h0⟩)
    simpa [ext] using this
  · rintro ⟨v, hv, he⟩ i j hi hj
    rw [keepZone_n] at hi hj
    rw [keepZone_get h0 hi hj]
    split
    · rename_i h
      rw [← he i h.1, ← he j h.2]
      exact hv i j hi hj
    · split
      · rename_i e
        subst e
        rw [sub_self]
        simp [sat]
      · trivial

theorem update_defined {z : IZone K} (h : z.Ok) {rt : List (RTime K)} (hrt : ∀ x, RTime.var x ∈ rt → z.InUse x) :
    ∃ z', z.update rt = .ok z' := by
  cases z with
  | zone z l newest =>
    obtain ⟨l', hl'⟩ := keepOf_defined (newest := newest) (n := z.n) (rt := rt) fun x hx => inUse_lt h (hrt x hx)
    exact ⟨_, by rw [update, hl']; rfl⟩
  | one lo up => exact ⟨_, rfl⟩
  | three b => exact ⟨_, rfl⟩
  | dead => exact ⟨_, rfl⟩

theorem update_zone {z : Zone K} {l : List Bool} {newest : Nat} {rt : List (RTime K)} {z' : IZone K}
    (he : (zone z l newest).update rt = .ok z') :
    ∃ l', keepOf z.n newest rt = .ok l' ∧ z' = zone (keepZone l' z) l' newest := by
  rw [update] at he
  cases hk : keepOf z.n newest rt with
  | error e => rw [hk] at he; cases he
  | ok l' =>
    rw [hk] at he
    cases he
    exact ⟨l', rfl, rfl⟩

theorem update_ok {z z' : IZone K} (h : z.Ok) (hne : z.Nonempty) {rt : List (RTime K)} (he : z.update rt = .ok z') :
    z'.Ok := by
  have hs := (isSat_iff h).2 hne
  cases z with
  | zone z l newest =>
    obtain ⟨l', hl', rfl⟩ := update_zone he
    obtain ⟨h1, h2⟩ := keepOf_spec h.two h.lt hl'
    have h0 : l'.getD 0 false = true := (h2 0).2 (Or.inl rfl)
    exact ⟨fun _ => keepZone_canon h0 (h.canon hs), h.two, by rw [keepZone_n]; exact h.lt, by rw [keepZone_n]; exact h1,
      h0, (h2 1).2 (by simp), (h2 newest).2 (by simp), fun k hk hl => keepZone_free h0 (by rwa [keepZone_n] at hk) hl⟩
  | one lo up => cases he; exact h
  | three b => cases he; exact h
  | dead => cases he; exact h

theorem update_newest {z z' : IZone K} {rt : List (RTime K)} (he : z.update rt = .ok z') :
    z'.newestClock = z.newestClock := by
  cases z with
  | zone z l newest =>
    obtain ⟨l', hl', rfl⟩ := update_zone he
    rfl
  | one lo up => cases he; rfl
  | three b => cases he; rfl
  | dead => cases he; rfl

/-- The variables in use after `update`. -/
theorem update_inUse {z z' : IZone K} (h : z.Ok) {rt : List (RTime K)} (hrt : ∀ x, RTime.var x ∈ rt → z.InUse x)
    (he : z.update rt = .ok z') (x : Nat) :
    (z'.InUse x → z.InUse x) ∧
    (z ≠ dead → x = 0 ∨ x = 1 ∨ x = z.newestClock ∨ RTime.var x ∈ rt → z'.InUse x) := by
  have hu : z ≠ dead → x = 0 ∨ x = 1 ∨ x = z.newestClock ∨ RTime.var x ∈ rt → z.InUse x := by
    intro hd hx
    obtain ⟨a, b, c⟩ := ok_inUse h hd
    rcases hx with rfl | rfl | rfl | hx
    · exact a
    · exact b
    · exact c
    · exact hrt x hx
  cases z with
  | zone z l newest =>
    obtain ⟨l', hl', rfl⟩ := update_zone he
    obtain ⟨h1, h2⟩ := keepOf_spec h.two h.lt hl'
    exact ⟨fun hx => hu (by simp) ((h2 x).1 hx), fun _ hx => (h2 x).2 hx⟩
  | one lo up => cases he; exact ⟨id, hu⟩
  | three b => cases he; exact ⟨id, hu⟩
  | dead => cases he; exact ⟨id, hu⟩

theorem update_sat {z z' : IZone K} (h : z.Ok) (hne : z.Nonempty) {rt : List (RTime K)} (he : z.update rt = .ok z')
    (v' : Nat → K) : z'.Sat v' ↔ ∃ v, z.Sat v ∧ ∀ x, z'.InUse x → ext v x = ext v' x := by
  have hs := (isSat_iff h).2 hne
  have triv : ∀ y : IZone K, (∀ v, y.Sat v → y.Sat v) := fun _ _ h => h
  cases z with
  | zone z l newest =>
    obtain ⟨l', hl', rfl⟩ := update_zone he
    obtain ⟨h1, h2⟩ := keepOf_spec h.two h.lt hl'
    have h0 : l'.getD 0 false = true := (h2 0).2 (Or.inl rfl)
    exact keepZone_Sat h0 (by have := h.lt; omega) h1 (h.canon hs)
  | one lo up =>
    cases he
    refine ⟨fun h => ⟨v', h, fun _ _ => rfl⟩, ?_⟩
    rintro ⟨v, hv, hx⟩
    have := hx 1 (by simp [InUse])
    simp only [ext] at this
    simp only [Sat, ← this]
    exact hv
  | three b =>
    cases he
    refine ⟨fun h => ⟨v', h, fun _ _ => rfl⟩, ?_⟩
    rintro ⟨v, hv, hx⟩
    have h1 := hx 1 (by simp [InUse])
    have h2 := hx 2 (by simp [InUse])
    simp only [ext] at h1 h2
    simp only [Sat, ← h1, ← h2]
    exact hv
  | dead =>
    cases he
    simp [Sat]

/-! ## toAns -/

theorem toAns_sat {z : IZone K} (h : z.Ok) (hne : z.Nonempty) (h2 : z.newestClock ≠ 1) (v' : Nat → K) :
    z.toAns.Sat v' ↔ ∃ v, z.Sat v ∧ v 0 = v' 0 ∧ ext v z.newestClock = v' 1 := by
  have hs := (isSat_iff h).2 hne
  cases z with
  | one lo up => exact absurd rfl h2
  | three b =>
    rw [toAns, ← three_Sat]
    refine ⟨fun h => ⟨v', h, rfl, rfl⟩, ?_⟩
    rintro ⟨v, hv, e1, e2⟩
    simp only [newestClock, ext] at e2
    simp only [Sat, ← e1, ← e2]
    exact hv
  | zone z l newest =>
    have hz := h.canon hs
    have h0 := inUse_lt h h.used0
    have h1 := inUse_lt h h.used1
    have hn := h.lt
    have hn2 := h.two
    rw [toAns, sixZone_Sat]
    simp only [Six.Sat, newestClock]
    constructor
    · rintro ⟨g1, g2, g3, g4, g5, g6⟩
      obtain ⟨v, hv, hd⟩ := extend_sat hz (S := [0, 1, newest]) (by simp [h0, h1, hn])
        (u := fun i => if i = 0 then 0 else if i = 1 then v' 0 else v' 1) (by
          have n0 : newest ≠ 0 := by omega
          have n1 : newest ≠ 1 := by omega
          intro i hi j hj
          simp only [List.mem_cons, List.not_mem_nil, or_false] at hi hj
          rcases hi with rfl | rfl | rfl <;> rcases hj with rfl | rfl | rfl
          · simpa using hz.diag h0
          · simpa using g2
          · simpa [n0, n1] using g4
          · simpa using g1
          · simpa using hz.diag h1
          · simpa [n0, n1] using g6
          · simpa [n0, n1] using g3
          · simpa [n0, n1] using g5
          · simpa using hz.diag hn)
      refine ⟨v, hv, ?_, ?_⟩
      · have := hd 1 (by simp) 0 (by simp)
        simpa [ext] using this
      · have := hd newest (by simp) 0 (by simp)
        simpa [ext, show newest ≠ 0 by omega, show newest ≠ 1 by omega] using this
    · rintro ⟨v, hv, e1, e2⟩
      have f := fun i j hi hj => hv i j hi hj
      rw [← e1, ← e2]
      have a0 : ∀ x, x - ext v 0 = x := fun x => by simp [ext]
      have a1 : ∀ x, ext v 0 - x = -x := fun x => by simp [ext]
      have g1 := f 1 0 h1 h0
      have g2 := f 0 1 h0 h1
      have g3 := f newest 0 hn h0
      have g4 := f 0 newest h0 hn
      have g5 := f newest 1 hn h1
      have g6 := f 1 newest h1 hn
      rw [a0] at g1 g3
      rw [a1] at g2 g4
      exact ⟨g1, g2, g3, g4, g5, g6⟩
  | dead =>
    obtain ⟨v, hv⟩ := hne
    exact hv.elim

theorem toAns_canon {z : IZone K} (h : z.Ok) (hs : z.isSat = true) (h2 : z.newestClock ≠ 1) :
    z.toAns.Canon ∧ z.toAns.n = 3 := by
  cases z with
  | one lo up => exact absurd rfl h2
  | three b => exact ⟨sixZone_canon (h hs) hs, rfl⟩
  | zone z l newest =>
    have hz := h.canon hs
    have h0 := inUse_lt h h.used0
    have h1 := inUse_lt h h.used1
    have hn := h.lt
    have hn2 := h.two
    refine ⟨sixZone_canon ?_ (sixValid_iff.2 ⟨?_, ?_, ?_⟩), rfl⟩
    · exact ⟨hz.tri _ _ _ hn h1 h0 (by omega), hz.tri _ _ _ h0 h1 hn (by omega), hz.tri _ _ _ h1 hn h0 (by omega),
        hz.tri _ _ _ hn h0 h1 (by omega), hz.tri _ _ _ h0 hn h1 (by omega), hz.tri _ _ _ h1 h0 hn (by omega)⟩
    · exact hz.pair _ _ h1 h0
    · exact hz.pair _ _ hn h0
    · exact hz.pair _ _ hn h1
  | dead => simp [isSat] at hs

theorem ofInterval_ok (lower upper : Bnd K) : (ofInterval lower upper).Ok := by
  unfold ofInterval
  split <;> trivial

theorem built_ok {z : IZone K} (h : Built z) : z.Ok := by
  induction h with
  | start c s up => trivial
  | alloc _ upper lower hne hup hlo ih => exact alloc_ok ih upper lower hne hup hlo
  | tighten _ hxy hx hy c he ih => exact tighten_ok ih hxy hx hy he
  | update _ hne rt _ he ih => exact update_ok ih hne he

/-! ## Guards -/

/-- The reset instant of clock `x` under the assignment `v`. -/
def rtVal (rt : List (RTime K)) (v : Nat → K) (x : Nat) : K :=
  match rt[x]? with
  | some (.at t) => t
  | some (.var y) => ext v y
  | none => v 0

theorem holds_lt {g : Constraint} (h : g.odr = .lt) {d : K} : g.Holds d ↔ d < (g.c : K) := by
  simp [Constraint.Holds, h]
theorem holds_le {g : Constraint} (h : g.odr = .le) {d : K} : g.Holds d ↔ d ≤ (g.c : K) := by
  simp [Constraint.Holds, h]
theorem holds_ge {g : Constraint} (h : g.odr = .ge) {d : K} : g.Holds d ↔ (g.c : K) ≤ d := by
  simp [Constraint.Holds, h]
theorem holds_gt {g : Constraint} (h : g.odr = .gt) {d : K} : g.Holds d ↔ (g.c : K) < d := by
  simp [Constraint.Holds, h]

/-- What adding a constraint does. -/
structure Adds (z z' : IZone K) (P : (Nat → K) → Prop) : Prop where
  ok : z'.Ok
  sat : ∀ v, z'.Sat v ↔ z.Sat v ∧ P v
  newest : z ≠ dead → z' ≠ dead → z'.newestClock = z.newestClock
  used : z ≠ dead → z' ≠ dead → ∀ x, z'.InUse x ↔ z.InUse x
  isDead : z = dead → z' = dead

theorem tighten_used {z z' : IZone K} {x y : Nat} {c : Bnd K} (he : z.tighten x y c = .ok z') :
    (z = dead ↔ z' = dead) ∧ z'.newestClock = z.newestClock ∧ ∀ x, z'.InUse x ↔ z.InUse x := by
  cases z with
  | one lo up =>
    rw [tighten] at he
    split_ifs at he <;> simp only [Except.ok.injEq, reduceCtorEq] at he <;> subst he <;> simp [newestClock, InUse]
  | three b =>
    rw [tighten] at he
    split_ifs at he <;> simp only [Except.ok.injEq] at he <;> subst he <;> simp [newestClock, InUse]
  | zone z l newest =>
    rw [tighten] at he
    split_ifs at he <;> simp only [Except.ok.injEq, reduceCtorEq] at he <;> subst he <;> simp [newestClock, InUse]
  | dead =>
    simp only [tighten, Except.ok.injEq] at he
    subst he
    simp

theorem tighten_adds {z z' : IZone K} (h : z.Ok) {x y : Nat} (hxy : x ≠ y) (hx : z.InUse x) (hy : z.InUse y) {c : Bnd K}
    (he : z.tighten x y c = .ok z') {P : (Nat → K) → Prop} (hP : ∀ v, c.sat (ext v x - ext v y) ↔ P v) : Adds z z' P := by
  obtain ⟨h1, h2, h3⟩ := tighten_used he
  exact ⟨tighten_ok h hxy hx hy he, fun v => by rw [tighten_sat h hxy hx hy he, hP], fun _ _ => h2, fun _ _ => h3, h1.1⟩

theorem tightenVar_spec {z z' : IZone K} (h : z.Ok) {x y : Nat} {g : Constraint} (hxy : x ≠ y) (hx : z.InUse x)
    (hy : z.InUse y) (he : z.tightenVar x g y = .ok z') : Adds z z' fun v => g.Holds (ext v x - ext v y) := by
  unfold tightenVar at he
  cases ho : g.odr <;> simp only [ho] at he
  · exact tighten_adds h hxy hx hy he fun v => by rw [holds_lt ho, sat_f]
  · exact tighten_adds h hxy hx hy he fun v => by rw [holds_le ho, sat_t]
  · exact tighten_adds h hxy.symm hy hx he fun v => by
      rw [holds_ge ho, sat_t]; constructor <;> intro _ <;> linarith
  · exact tighten_adds h hxy.symm hy hx he fun v => by
      rw [holds_gt ho, sat_f]; constructor <;> intro _ <;> linarith

theorem tightenAt_spec {z z' : IZone K} (h : z.Ok) {x : Nat} {g : Constraint} {t : K} (hx0 : x ≠ 0) (hx : z.InUse x)
    (h0 : z.InUse 0) (he : z.tightenAt x g t = .ok z') : Adds z z' fun v => g.Holds (ext v x - t) := by
  unfold tightenAt at he
  have e0 : ∀ v : Nat → K, ext v 0 = 0 := fun _ => rfl
  cases ho : g.odr <;> simp only [ho] at he
  · exact tighten_adds h hx0 hx h0 he fun v => by
      rw [holds_lt ho, sat_f, e0]; constructor <;> intro _ <;> linarith
  · exact tighten_adds h hx0 hx h0 he fun v => by
      rw [holds_le ho, sat_t, e0]; constructor <;> intro _ <;> linarith
  · exact tighten_adds h hx0.symm h0 hx he fun v => by
      rw [holds_ge ho, sat_t, e0]; constructor <;> intro _ <;> linarith
  · exact tighten_adds h hx0.symm h0 hx he fun v => by
      rw [holds_gt ho, sat_f, e0]; constructor <;> intro _ <;> linarith

theorem tightenAgo_spec {z z' : IZone K} (h : z.Ok) {x : Nat} {g : Constraint} {t : K} (hx0 : x ≠ 0) (hx : z.InUse x)
    (h0 : z.InUse 0) (he : z.tightenAgo x g t = .ok z') : Adds z z' fun v => g.Holds (t - ext v x) := by
  unfold tightenAgo at he
  have e0 : ∀ v : Nat → K, ext v 0 = 0 := fun _ => rfl
  cases ho : g.odr <;> simp only [ho] at he
  · exact tighten_adds h hx0.symm h0 hx he fun v => by
      rw [holds_lt ho, sat_f, e0]; constructor <;> intro _ <;> linarith
  · exact tighten_adds h hx0.symm h0 hx he fun v => by
      rw [holds_le ho, sat_t, e0]; constructor <;> intro _ <;> linarith
  · exact tighten_adds h hx0 hx h0 he fun v => by
      rw [holds_ge ho, sat_t, e0]; constructor <;> intro _ <;> linarith
  · exact tighten_adds h hx0 hx h0 he fun v => by
      rw [holds_gt ho, sat_f, e0]; constructor <;> intro _ <;> linarith

theorem Adds.refl {z : IZone K} (h : z.Ok) : Adds z z fun _ => True :=
  ⟨h, by simp, fun _ _ => rfl, fun _ _ _ => Iff.rfl, id⟩

theorem Adds.trans {z z1 z2 : IZone K} {P Q R : (Nat → K) → Prop} (h1 : Adds z z1 P) (h2 : Adds z1 z2 Q)
    (hR : ∀ v, R v ↔ P v ∧ Q v) : Adds z z2 R := by
  have hd : z2 ≠ dead → z1 ≠ dead := fun h e => h (h2.isDead e)
  refine ⟨h2.ok, fun v => by rw [h2.sat, h1.sat, hR, and_assoc], fun a b => ?_, fun a b x => ?_, fun e => ?_⟩
  · rw [h2.newest (hd b) b, h1.newest a (hd b)]
  · rw [h2.used (hd b) b, h1.used a (hd b)]
  · exact h2.isDead (h1.isDead e)

theorem Adds.congr {z z' : IZone K} {P Q : (Nat → K) → Prop} (h : Adds z z' P) (hPQ : ∀ v, z.Sat v → (P v ↔ Q v)) :
    Adds z z' Q :=
  ⟨h.ok, fun v => by
    rw [h.sat]
    exact ⟨fun ⟨a, b⟩ => ⟨a, (hPQ v a).1 b⟩, fun ⟨a, b⟩ => ⟨a, (hPQ v a).2 b⟩⟩, h.newest, h.used, h.isDead⟩

theorem tighten_dead (x y : Nat) (c : Bnd K) : (dead : IZone K).tighten x y c = .ok dead := rfl

theorem tightenVar_dead (x : Nat) (g : Constraint) (y : Nat) : (dead : IZone K).tightenVar x g y = .ok dead := by
  unfold tightenVar
  cases g.odr <;> rfl

theorem tightenAt_dead (x : Nat) (g : Constraint) (t : K) : (dead : IZone K).tightenAt x g t = .ok dead := by
  unfold tightenAt
  cases g.odr <;> rfl

theorem tightenAgo_dead (x : Nat) (g : Constraint) (t : K) : (dead : IZone K).tightenAgo x g t = .ok dead := by
  unfold tightenAgo
  cases g.odr <;> rfl

theorem dead_adds (P : (Nat → K) → Prop) : Adds (dead : IZone K) dead P :=
  ⟨trivial, by simp [Sat], fun _ _ => rfl, fun _ _ _ => Iff.rfl, id⟩

theorem newest_ne_zero {z : IZone K} (h : z.Ok) (hd : z ≠ dead) : z.newestClock ≠ 0 := by
  cases z with
  | one => simp [newestClock]
  | three => simp [newestClock]
  | zone => have := h.two; simp only [newestClock]; omega
  | dead => exact absurd rfl hd

/-- A guard of a transition taken at the newest instant. -/
theorem tightenNewest_spec {rt : List (RTime K)} (gs : List Constraint) {z z' : IZone K} (h : z.Ok)
    (hrt : ∀ x, RTime.var x ∈ rt → z ≠ dead → z.InUse x ∧ x ≠ z.newestClock)
    (he : z.tightenNewest rt gs = .ok z') :
    Adds z z' fun v => GuardHolds gs fun x => ext v z.newestClock - rtVal rt v x := by
  induction gs generalizing z with
  | nil =>
    simp only [tightenNewest, Except.ok.injEq] at he
    subst he
    exact (Adds.refl h).congr fun v _ => by simp [GuardHolds]
  | cons g gs ih =>
    rw [tightenNewest] at he
    have key : ∀ z1, Adds z z1 (fun v => g.Holds (ext v z.newestClock - rtVal rt v g.x)) →
        z1.tightenNewest rt gs = .ok z' →
        Adds z z' fun v => GuardHolds (g :: gs) fun x => ext v z.newestClock - rtVal rt v x := by
      intro z1 h1 he1
      have h2 := ih h1.ok (fun x hx hd => by
        have hz : z ≠ dead := fun e => hd (h1.isDead e)
        have := hrt x hx hz
        rw [h1.used hz hd, h1.newest hz hd]
        exact this) he1
      by_cases hd1 : z1 = dead
      · subst hd1
        refine (h1.trans h2 fun _ => Iff.rfl).congr fun v hv => ?_
        constructor
        · rintro ⟨a, -⟩
          exact ((h1.sat v).2 ⟨hv, a⟩).elim
        · intro hg
          exact ((h1.sat v).2 ⟨hv, hg g (by simp)⟩).elim
      · by_cases hd : z = dead
        · exact absurd (h1.isDead hd) hd1
        · refine h1.trans h2 fun v => ?_
          rw [h1.newest hd hd1]
          simp [GuardHolds]
    by_cases hd : z = dead
    · subst hd
      cases hr : rt[g.x]? with
      | none => simp only [hr] at he; cases he
      | some r =>
        cases r with
        | «at» t =>
          simp only [hr, tightenAt_dead] at he
          exact key dead (dead_adds _) he
        | var y =>
          simp only [hr, tightenVar_dead] at he
          exact key dead (dead_adds _) he
    · obtain ⟨u0, u1, un⟩ := ok_inUse h hd
      cases hr : rt[g.x]? with
      | none => simp only [hr] at he; cases he
      | some r =>
        cases r with
        | «at» t =>
          simp only [hr] at he
          cases h1 : z.tightenAt z.newestClock g t with
          | error e => simp only [h1] at he; cases he
          | ok z1 =>
            simp only [h1] at he
            refine key z1 ((tightenAt_spec h (newest_ne_zero h hd) un u0 h1).congr fun v _ => ?_) he
            simp [rtVal, hr]
        | var y =>
          simp only [hr] at he
          cases h1 : z.tightenVar z.newestClock g y with
          | error e => simp only [h1] at he; cases he
          | ok z1 =>
            simp only [h1] at he
            have := hrt y (List.mem_of_getElem? hr) hd
            refine key z1 ((tightenVar_spec h (Ne.symm this.2) un this.1 h1).congr fun v _ => ?_) he
            simp [rtVal, hr]

/-- A guard of a transition taken at the instant `t`. -/
theorem tightenInstant_spec {rt : List (RTime K)} {t : K} (gs : List Constraint) {z z' : IZone K} (h : z.Ok)
    (hrt : ∀ x, RTime.var x ∈ rt → x ≠ 0 ∧ (z ≠ dead → z.InUse x))
    (he : z.tightenInstant rt t gs = .ok z') :
    Adds z z' fun v => GuardHolds gs fun x => t - rtVal rt v x := by
  induction gs generalizing z with
  | nil =>
    simp only [tightenInstant, Except.ok.injEq] at he
    subst he
    exact (Adds.refl h).congr fun v _ => by simp [GuardHolds]
  | cons g gs ih =>
    rw [tightenInstant] at he
    have key : ∀ z1, Adds z z1 (fun v => g.Holds (t - rtVal rt v g.x)) →
        z1.tightenInstant rt t gs = .ok z' →
        Adds z z' fun v => GuardHolds (g :: gs) fun x => t - rtVal rt v x := by
      intro z1 h1 he1
      have h2 := ih h1.ok (fun x hx => by
        refine ⟨(hrt x hx).1, fun hd => ?_⟩
        have hz : z ≠ dead := fun e => hd (h1.isDead e)
        rw [h1.used hz hd]
        exact (hrt x hx).2 hz) he1
      exact h1.trans h2 fun v => by simp [GuardHolds]
    cases hr : rt[g.x]? with
    | none => simp only [hr] at he; cases he
    | some r =>
      cases r with
      | «at» r =>
        simp only [hr] at he
        refine key _ ?_ he
        have hsat := Constraint.satisfy_iff (K := K) (g := g) (d := t - r)
        by_cases hs : g.satisfy (t - r) = true
        · rw [if_pos hs]
          refine (Adds.refl h).congr fun v _ => ?_
          simp only [rtVal, hr, true_iff]
          exact hsat.1 hs
        · rw [if_neg hs]
          refine ⟨trivial, fun v => ?_, fun _ hc => absurd rfl hc, fun _ hc => absurd rfl hc, fun _ => rfl⟩
          simp only [Sat, rtVal, hr, false_iff]
          rintro ⟨-, hc⟩
          exact hs (hsat.2 hc)
      | var y =>
        simp only [hr] at he
        by_cases hd : z = dead
        · subst hd
          simp only [tightenAgo_dead] at he
          exact key dead (dead_adds _) he
        · obtain ⟨u0, u1, un⟩ := ok_inUse h hd
          cases h1 : z.tightenAgo y g t with
          | error e => simp only [h1] at he; cases he
          | ok z1 =>
            simp only [h1] at he
            have := hrt y (List.mem_of_getElem? hr)
            refine key z1 ((tightenAgo_spec h this.1 (this.2 hd) u0 h1).congr fun v _ => ?_) he
            simp [rtVal, hr]

end IZone
end Verif
