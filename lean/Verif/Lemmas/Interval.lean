import Verif.Lemmas.Bounds
import Verif.Spec.Interval
import Mathlib.Tactic.Linarith
import Mathlib.Tactic.Ring
import Mathlib.Tactic.FieldSimp
import Mathlib.Tactic.Positivity
import Mathlib.Algebra.Order.Archimedean.Basic
import Mathlib.Algebra.BigOperators.Group.List.Basic
import Mathlib.Algebra.Order.BigOperators.Group.List

set_option linter.unusedSectionVars false

namespace Verif.Interval

variable {K : Type*} [Field K] [LinearOrder K] [IsStrictOrderedRing K]

theorem contain_iff_mem {I : Interval K} {v : K} : I.contain v = true ↔ I.Mem v := by
  rcases I with ⟨⟨a, _ | _⟩ | s, ⟨b, _ | _⟩ | t⟩ <;> simp [contain, Mem, Above, Bnd.sat]

/-- Lower ends as bounds on the negated value. -/
def nb : Bnd K → Bnd K
  | .fin c s => .fin (-c) s
  | .inf s => .inf s

theorem above_nb {c : K} {s : Bool} {v : K} : Above (.fin c s) v ↔ (nb (.fin c s)).sat (-v) := by
  cases s <;> simp [Above, nb, Bnd.sat]

theorem sat_congr {a : Bnd K} {d e : K} (h : a.sat d) (he : d = e) : a.sat e := he ▸ h

theorem mem_add_of {I J : Interval K} {a b : K} (ha : I.Mem a) (hb : J.Mem b) : (add I J).Mem (a + b) := by
  refine ⟨?_, Bnd.sat_add ha.2 hb.2⟩
  have h1 := ha.1
  have h2 := hb.1
  simp only [add]
  rcases hI : I.lower with ⟨c, _ | _⟩ | s <;> rcases hJ : J.lower with ⟨d, _ | _⟩ | t <;>
    rw [hI] at h1 <;> rw [hJ] at h2 <;> simp [Above] at h1 h2 ⊢ <;> linarith

theorem exists_of_mem_add {I J : Interval K} (hI : ∃ a, I.Mem a) (hJ : ∃ b, J.Mem b) {v : K}
    (hv : (add I J).Mem v) : ∃ a b, I.Mem a ∧ J.Mem b ∧ v = a + b := by
  obtain ⟨a0, ha0, ha0'⟩ := hI
  obtain ⟨b0, hb0, hb0'⟩ := hJ
  obtain ⟨hv1, hv2⟩ := hv
  rcases hl : I.lower with ⟨c, s⟩ | s
  swap
  · rw [hl] at ha0; exact ha0.elim
  rcases hl' : J.lower with ⟨d, t⟩ | t
  swap
  · rw [hl'] at hb0; exact hb0.elim
  rw [hl] at ha0
  rw [hl'] at hb0
  simp only [add, hl, hl', Bnd.add_fin_fin] at hv1 hv2
  rw [above_nb] at ha0 hb0 hv1
  have key : ((Bnd.min I.upper (.fin v true + nb (.fin d t))) +
      (Bnd.min (nb (.fin c s)) (.fin (-v) true + J.upper))).sat 0 := by
    rcases Bnd.min_eq I.upper (.fin v true + nb (.fin d t)) with e | e <;>
    rcases Bnd.min_eq (nb (.fin c s)) (.fin (-v) true + J.upper) with e' | e' <;> rw [e, e']
    · exact sat_congr (Bnd.sat_add ha0' ha0) (by ring)
    · rw [Bnd.badd_comm, Bnd.badd_assoc, Bnd.sat_shift, Bnd.badd_comm]
      exact sat_congr hv2 (by ring)
    · rw [Bnd.badd_assoc, Bnd.sat_shift]
      have : nb (.fin (c + d) (s && t)) = nb (.fin d t) + nb (.fin c s) := by
        simp [nb, Bool.and_comm]
      rw [this] at hv1
      exact sat_congr hv1 (by ring)
    · rw [Bnd.badd_assoc, Bnd.sat_shift, Bnd.badd_comm, Bnd.badd_assoc, Bnd.sat_shift]
      exact sat_congr (Bnd.sat_add hb0' hb0) (by ring)
  obtain ⟨a, h1, h2⟩ := Bnd.exists_between key
  rw [Bnd.sat_min] at h1 h2
  rw [Bnd.sat_shift] at h1 h2
  refine ⟨a, v - a, ⟨?_, h1.1⟩, ⟨?_, sat_congr h2.2 (by ring)⟩, by ring⟩
  · rw [hl, above_nb]; exact h2.1
  · rw [hl', above_nb]; exact sat_congr h1.2 (by ring)

theorem memAny_add_of {S T : List (Interval K)} {a b : K} (ha : MemAny S a) (hb : MemAny T b) :
    MemAny (addAll S T) (a + b) := by
  obtain ⟨I, hI, ha⟩ := ha
  obtain ⟨J, hJ, hb⟩ := hb
  exact ⟨add I J, by simp only [addAll, List.mem_flatMap, List.mem_map]; exact ⟨I, hI, J, hJ, rfl⟩,
    mem_add_of ha hb⟩

theorem exists_of_memAny_add {S T : List (Interval K)} (hS : ∀ I ∈ S, ∃ a, I.Mem a)
    (hT : ∀ I ∈ T, ∃ a, I.Mem a) {v : K} (hv : MemAny (addAll S T) v) :
    ∃ a b, MemAny S a ∧ MemAny T b ∧ v = a + b := by
  obtain ⟨L, hL, hv⟩ := hv
  simp only [addAll, List.mem_flatMap, List.mem_map] at hL
  obtain ⟨I, hI, J, hJ, rfl⟩ := hL
  obtain ⟨a, b, ha, hb, e⟩ := exists_of_mem_add (hS I hI) (hT J hJ) hv
  exact ⟨a, b, ⟨I, hI, ha⟩, ⟨J, hJ, hb⟩, e⟩

theorem addAll_nonempty {S T : List (Interval K)} (hS : ∀ I ∈ S, ∃ a, I.Mem a)
    (hT : ∀ I ∈ T, ∃ a, I.Mem a) : ∀ I ∈ addAll S T, ∃ a, I.Mem a := by
  intro L hL
  simp only [addAll, List.mem_flatMap, List.mem_map] at hL
  obtain ⟨I, hI, J, hJ, rfl⟩ := hL
  obtain ⟨a, ha⟩ := hS I hI
  obtain ⟨b, hb⟩ := hT J hJ
  exact ⟨a + b, mem_add_of ha hb⟩

/-! ### intersection -/

theorem mem_inter_of {I J : Interval K} {v : K} (h1 : I.Mem v) (h2 : J.Mem v) : (inter I J).Mem v := by
  refine ⟨?_, Bnd.sat_min.2 ⟨h1.2, h2.2⟩⟩
  simp only [inter, Bnd.max]
  split
  · exact h2.1
  · exact h1.1

/-- The lower ends do not coincide with different flags. -/
def SameEnd (I J : Interval K) : Prop :=
  ∀ c s t, I.lower = .fin c s → J.lower = .fin c t → s = t

theorem mem_inter {I J : Interval K} {v : K} (h : (inter I J).Mem v) :
    (I.Mem v ∧ J.Mem v) ∨
      ∃ s, I.lower = .fin v s ∧ J.lower = .fin v (!s) := by
  obtain ⟨h1, h2⟩ := h
  obtain ⟨h2, h3⟩ := Bnd.sat_min.1 h2
  simp only [inter, Bnd.max] at h1
  rcases hI : I.lower with ⟨c, s⟩ | s <;> rcases hJ : J.lower with ⟨d, t⟩ | t <;> rw [hI, hJ] at h1
  · simp only [Mem, hI, hJ, h2, h3, and_true]
    rcases lt_trichotomy c d with hcd | rfl | hcd
    · rw [if_pos (by simp [Bnd.blt, hcd])] at h1
      left; refine ⟨?_, h1⟩
      cases s <;> cases t <;> simp [Above] at h1 ⊢ <;> linarith
    · cases s <;> cases t <;> simp [Above, Bnd.blt] at h1 ⊢
      · exact h1
      · rcases h1.lt_or_eq with h | h
        · left; exact ⟨h, h1⟩
        · right; exact h
      · rcases h1.lt_or_eq with h | h
        · left; exact ⟨h1, h⟩
        · right; exact h
      · exact h1
    · rw [if_neg (by simp [Bnd.blt, hcd.le, hcd.ne']; )] at h1
      left; refine ⟨h1, ?_⟩
      cases s <;> cases t <;> simp [Above] at h1 ⊢ <;> linarith
  · simp [Above, Bnd.blt] at h1
  · simp [Above, Bnd.blt] at h1
  · split at h1 <;> simp [Above] at h1

theorem not_mem_of_blt {I : Interval K} (h : Bnd.blt I.upper I.lower = true) (v : K) : ¬ I.Mem v := by
  rintro ⟨h1, h2⟩
  rcases hI : I.lower with ⟨c, _ | _⟩ | s <;> rcases hJ : I.upper with ⟨d, _ | _⟩ | t <;>
    rw [hI] at h1 h <;> rw [hJ] at h2 h <;> simp [Above, Bnd.sat, Bnd.blt] at h1 h2 h
  all_goals (first | linarith | (rcases h with h | h <;> linarith))

theorem memAny_land1 {S : List (Interval K)} {J : Interval K} {v : K} :
    MemAny (land1 S J) v ↔ ∃ I ∈ S, (inter I J).Mem v := by
  simp only [MemAny, land1, List.mem_filter, List.mem_map]
  constructor
  · rintro ⟨L, ⟨⟨I, hI, rfl⟩, _⟩, hv⟩; exact ⟨I, hI, hv⟩
  · rintro ⟨I, hI, hv⟩
    refine ⟨_, ⟨⟨I, hI, rfl⟩, ?_⟩, hv⟩
    cases hb : Bnd.blt (inter I J).upper (inter I J).lower
    · rfl
    · exact absurd hv (not_mem_of_blt hb v)

/-! ### Kleene plus -/

theorem sumOf_add {P : K → Prop} {a b : K} (ha : SumOf P a) (hb : SumOf P b) : SumOf P (a + b) := by
  obtain ⟨l, h1, h2, rfl⟩ := ha
  obtain ⟨l', h1', h2', rfl⟩ := hb
  refine ⟨l ++ l', by simp [h1], ?_, by simp⟩
  intro x hx
  rcases List.mem_append.1 hx with h | h
  exacts [h2 x h, h2' x h]

theorem sumOf_mono {P Q : K → Prop} (h : ∀ x, P x → Q x) {a : K} (ha : SumOf P a) : SumOf Q a := by
  obtain ⟨l, h1, h2, e⟩ := ha
  exact ⟨l, h1, fun x hx => h x (h2 x hx), e⟩

theorem sumOf_single {P : K → Prop} {a : K} (ha : P a) : SumOf P a :=
  ⟨[a], by simp, by simpa using ha, by simp⟩

theorem sumOf_nsmul {P : K → Prop} {a : K} (ha : P a) {n : ℕ} (hn : 1 ≤ n) : SumOf P ((n : K) * a) := by
  refine ⟨List.replicate n a, ?_, ?_, by simp⟩
  · intro h; have := congrArg List.length h; simp at this; omega
  · intro x hx; rw [List.eq_of_mem_replicate hx]; exact ha

/-- Sums of values of one interval respect the scaled bounds. -/
theorem list_sum_mem {c u : K} {s t : Bool} {l : List K} (hne : l ≠ [])
    (h : ∀ x ∈ l, (⟨.fin c s, .fin u t⟩ : Interval K).Mem x) :
    (⟨.fin (c * l.length) s, .fin (u * l.length) t⟩ : Interval K).Mem l.sum := by
  induction l with
  | nil => exact absurd rfl hne
  | cons a l ih =>
    by_cases hl : l = []
    · subst hl; have := h a (by simp); simpa using this
    · have h1 := ih hl fun x hx => h x (List.mem_cons_of_mem _ hx)
      have h2 := h a List.mem_cons_self
      cases s <;> cases t <;> simp [Mem, Above, Bnd.sat] at h1 h2 ⊢ <;> constructor <;> nlinarith [h1.1, h1.2, h2.1, h2.2]

theorem list_sum_above {c : K} {s : Bool} {l : List K} (hc : 0 ≤ c) (hne : l ≠ [])
    (h : ∀ x ∈ l, Above (.fin c s) x) : Above (.fin c s) l.sum := by
  induction l with
  | nil => exact absurd rfl hne
  | cons a l ih =>
    by_cases hl : l = []
    · subst hl; have := h a (by simp); simpa using this
    · have h1 := ih hl fun x hx => h x (List.mem_cons_of_mem _ hx)
      have h2 := h a List.mem_cons_self
      cases s <;> simp [Above] at h1 h2 ⊢ <;> linarith

theorem above_mono {c d : K} {s : Bool} {v : K} (h : d ≤ c) (hv : Above (.fin c s) v) : Above (.fin d s) v := by
  cases s <;> simp [Above] at hv ⊢ <;> linarith

theorem mem_scale_sumOf {c u : K} {s t : Bool} {n : ℕ} (hn : 1 ≤ n) {v : K}
    (h : (⟨.fin (c * n) s, .fin (u * n) t⟩ : Interval K).Mem v) :
    SumOf (⟨.fin c s, .fin u t⟩ : Interval K).Mem v := by
  have hn' : (0 : K) < n := by exact_mod_cast hn
  have e : v = (n : K) * (v / n) := by field_simp
  rw [e]
  refine sumOf_nsmul ?_ hn
  cases s <;> cases t <;> simp only [Mem, Above, Bnd.sat] at h ⊢ <;>
    simp only [lt_div_iff₀ hn', div_lt_iff₀ hn', le_div_iff₀ hn', div_le_iff₀ hn'] <;> exact h

end Verif.Interval

namespace Verif.Interval

variable {K : Type*} [Field K] [LinearOrder K] [IsStrictOrderedRing K]

theorem sum_filter_split (l : List K) (p : K → Bool) :
    l.sum = (l.filter p).sum + (l.filter fun x => !p x).sum := by
  induction l with
  | nil => simp
  | cons a l ih =>
    cases h : p a <;> simp [h, ih] <;> ring

theorem foldl_addAll_of {Q : List (List (Interval K))} {acc : List (Interval K)} {a : K} {bs : List K}
    (ha : MemAny acc a) (hb : List.Forall₂ (fun q b => MemAny q b) Q bs) :
    MemAny (Q.foldl addAll acc) (a + bs.sum) := by
  induction hb generalizing acc a with
  | nil => simpa using ha
  | cons h _ ih =>
    rw [List.foldl_cons, List.sum_cons, ← add_assoc]
    exact ih (memAny_add_of ha h)

theorem foldl_addAll_exists {Q : List (List (Interval K))} {acc : List (Interval K)}
    (hacc : ∀ I ∈ acc, ∃ a, I.Mem a) (hQ : ∀ q ∈ Q, ∀ I ∈ q, ∃ a, I.Mem a) {v : K}
    (h : MemAny (Q.foldl addAll acc) v) :
    ∃ a bs, MemAny acc a ∧ List.Forall₂ (fun q b => MemAny q b) Q bs ∧ v = a + bs.sum := by
  induction Q generalizing acc with
  | nil => exact ⟨v, [], h, .nil, by simp⟩
  | cons q Q ih =>
    rw [List.foldl_cons] at h
    obtain ⟨a, bs, ha, hbs, e⟩ := ih (addAll_nonempty hacc (hQ q List.mem_cons_self))
      (fun q' h' => hQ q' (List.mem_cons_of_mem _ h')) h
    obtain ⟨a', b, ha', hb, e'⟩ := exists_of_memAny_add hacc (hQ q List.mem_cons_self) ha
    exact ⟨a', b :: bs, ha', .cons hb hbs, by rw [e, e', List.sum_cons, add_assoc]⟩

theorem select_ne_nil {α : Type*} {i : Nat} {l : List α} (h1 : 1 ≤ i) (h2 : i < 2 ^ l.length) :
    select i l ≠ [] := by
  induction l generalizing i with
  | nil => simp at h2; omega
  | cons a l ih =>
    rw [select]
    split
    · simp
    · rw [List.length_cons, pow_succ] at h2
      exact ih (by omega) (by omega)

theorem mem_of_mem_select {α : Type*} {i : Nat} {l : List α} {a : α} (h : a ∈ select i l) : a ∈ l := by
  induction l generalizing i with
  | nil => simp [select] at h
  | cons b l ih =>
    rw [select] at h
    split at h
    · rcases List.mem_cons.1 h with h | h
      · exact h ▸ List.mem_cons_self
      · exact List.mem_cons_of_mem _ (ih h)
    · exact List.mem_cons_of_mem _ (ih h)

theorem sumOf_forall₂ {P : K → Prop} {Q : List (List (Interval K))} {bs : List K}
    (hQ : ∀ q ∈ Q, ∀ v, MemAny q v → SumOf P v) (hne : Q ≠ [])
    (hb : List.Forall₂ (fun q b => MemAny q b) Q bs) : SumOf P bs.sum := by
  induction hb with
  | nil => exact absurd rfl hne
  | @cons q b Q bs h hb ih =>
    by_cases hl : Q = []
    · subst hl
      cases hb
      simpa using hQ q List.mem_cons_self b h
    · rw [List.sum_cons]
      exact sumOf_add (hQ q List.mem_cons_self b h)
        (ih (fun q' h' => hQ q' (List.mem_cons_of_mem _ h')) hl)

theorem exists_select {S : List (Interval K)} {P : List (List (Interval K))}
    (hP : List.Forall₂ (fun I p => ∀ v, SumOf I.Mem v → MemAny p v) S P) {l : List K}
    (hl : ∀ x ∈ l, MemAny S x) :
    ∃ i bs, i < 2 ^ P.length ∧ (l ≠ [] → 1 ≤ i) ∧
      List.Forall₂ (fun q b => MemAny q b) (select i P) bs ∧ l.sum = bs.sum := by
  classical
  induction hP generalizing l with
  | nil =>
    have : l = [] := by
      rcases l with _ | ⟨a, l⟩
      · rfl
      · obtain ⟨I, hI, _⟩ := hl a List.mem_cons_self
        simp at hI
    subst this
    exact ⟨0, [], by simp, by simp, by simp [select], rfl⟩
  | @cons I p S P h _ ih =>
    set l1 := l.filter fun x => decide (I.Mem x) with hl1
    set l2 := l.filter fun x => !decide (I.Mem x) with hl2
    have hs : l.sum = l1.sum + l2.sum := sum_filter_split l _
    obtain ⟨i, bs, hi, hi1, hbs, e⟩ := ih (l := l2) (by
      intro x hx
      rw [hl2, List.mem_filter] at hx
      obtain ⟨J, hJ, hx'⟩ := hl x hx.1
      rcases List.mem_cons.1 hJ with rfl | hJ
      · simp [hx'] at hx
      · exact ⟨J, hJ, hx'⟩)
    have hlen : ∀ x : Nat, x < 2 ^ P.length → 2 * x + 1 < 2 ^ (p :: P).length := by
      intro x hx; rw [List.length_cons, pow_succ]; omega
    by_cases h1 : l1 = []
    · refine ⟨2 * i, bs, by have := hlen i hi; omega, ?_, ?_, ?_⟩
      · intro hne
        have : l2 ≠ [] := by
          intro h2
          apply hne
          rcases l with _ | ⟨a, l⟩
          · rfl
          · by_cases ha : I.Mem a
            · have : a ∈ l1 := by rw [hl1, List.mem_filter]; simp [ha]
              rw [h1] at this; simp at this
            · have : a ∈ l2 := by rw [hl2, List.mem_filter]; simp [ha]
              rw [h2] at this; simp at this
        have := hi1 this
        omega
      · rw [select, if_neg (by omega), show 2 * i / 2 = i by omega]; exact hbs
      · rw [hs, h1, e]; simp
    · refine ⟨2 * i + 1, l1.sum :: bs, hlen i hi, fun _ => by omega, ?_, ?_⟩
      · rw [select, if_pos (by omega), show (2 * i + 1) / 2 = i by omega]
        refine .cons (h _ ⟨l1, h1, ?_, rfl⟩) hbs
        intro x hx
        rw [hl1, List.mem_filter] at hx
        simpa using hx.2
      · rw [hs, e, List.sum_cons]

theorem Good.nonempty {I : Interval K} (h : I.Good) : ∃ a, I.Mem a := by
  obtain ⟨l, s, hl, _, hu⟩ := h
  rcases hU : I.upper with ⟨u, t⟩ | t
  · have := hu u t hU
    refine ⟨(l + u) / 2, ?_, ?_⟩
    · rw [hl]; cases s <;> simp [Above] <;> linarith
    · rw [hU]; cases t <;> simp [Bnd.sat] <;> linarith
  · refine ⟨l + 1, ?_, ?_⟩
    · rw [hl]; cases s <;> simp [Above]
    · rw [hU]; simp [Bnd.sat]

section
variable [FloorRing K]

theorem plus_spec {I : Interval K} (h : I.Good) : ∃ P, I.plus = .ok P ∧
    (∀ J ∈ P, ∃ a, J.Mem a) ∧
    (∀ v, SumOf I.Mem v → MemAny P v) ∧ (∀ v, Gap I v → MemAny P v) ∧
    (∀ v, MemAny P v → SumOf I.Mem v ∨ Gap I v) := by
  have hne := h.nonempty
  obtain ⟨lo, up⟩ := I
  obtain ⟨l, s, hl, h0, hu⟩ := h
  simp only at hl hu
  subst hl
  rcases up with ⟨u, t⟩ | t
  · have hlu := hu u t rfl
    have hd : 0 < u - l := by linarith
    set m : ℤ := ⌈l / (u - l)⌉ with hm
    have hm0 : 0 ≤ m := Int.ceil_nonneg (div_nonneg h0 hd.le)
    obtain ⟨n, hn⟩ : ∃ n : ℕ, m = n := ⟨m.toNat, by omega⟩
    have hle : l ≤ n * (u - l) := by
      have := Int.le_ceil (l / (u - l))
      rw [← hm, hn, div_le_iff₀ hd] at this
      simpa using this
    refine ⟨_, by simp only [plus, ← hm, if_neg hd.ne', if_neg (show ¬ m + 1 < 0 by omega)]; rfl, ?_, ?_, ?_, ?_⟩
    · intro J hJ
      simp only [List.mem_append, List.mem_map, List.mem_range, List.mem_singleton] at hJ
      rcases hJ with ⟨i, hi, rfl⟩ | rfl
      · obtain ⟨a, ha⟩ := hne
        have := list_sum_mem (l := List.replicate (i + 1) a) (by simp [List.replicate_succ])
          (fun x hx => by rw [List.eq_of_mem_replicate hx]; exact ha)
        rw [List.length_replicate] at this
        exact ⟨_, by simpa [scale] using this⟩
      · refine ⟨l * n + 1, ?_, trivial⟩
        rw [hn]; cases s <;> simp [scale, Above]
    · rintro v ⟨xs, hxs, hx, rfl⟩
      have := list_sum_mem hxs hx
      have hlen : 1 ≤ xs.length := by
        rcases xs with _ | ⟨a, xs⟩
        · exact absurd rfl hxs
        · simp
      by_cases hc : xs.length < n
      · refine ⟨_, List.mem_append_left _ (List.mem_map.2 ⟨xs.length - 1, ?_, rfl⟩), ?_⟩
        · rw [List.mem_range]; omega
        · have e : ((((xs.length - 1 : ℕ) : ℤ) + 1 : ℤ) : K) = (xs.length : K) := by
            push_cast [Nat.cast_sub hlen]; ring
          simp only [scale, e]
          exact this
      · refine ⟨_, List.mem_append_right _ (List.mem_singleton.2 rfl), ?_, trivial⟩
        simp only [scale, hn]
        refine above_mono ?_ this.1
        push_cast
        have : (n : K) ≤ xs.length := by exact_mod_cast (not_lt.1 hc)
        exact mul_le_mul_of_nonneg_left this h0
    · rintro v ⟨l', u', e, k, hk, hlk, rfl⟩
      simp only [Interval.mk.injEq, Bnd.fin.injEq] at e
      obtain ⟨⟨rfl, rfl⟩, rfl, rfl⟩ := e
      refine ⟨_, List.mem_append_right _ (List.mem_singleton.2 rfl), ?_, trivial⟩
      have hmk : m = k := by
        rw [hm]
        have : l / (u - l) = (k : K) := by rw [div_eq_iff hd.ne']; exact hlk
        rw [this]; simp
      rw [hmk]
      have hk' : (1 : K) ≤ k := by exact_mod_cast hk
      have : 0 < l := by rw [hlk]; positivity
      simp only [scale, Above]; push_cast; linarith
    · rintro v ⟨J, hJ, hv⟩
      simp only [List.mem_append, List.mem_map, List.mem_range, List.mem_singleton] at hJ
      rcases hJ with ⟨i, hi, rfl⟩ | rfl
      · left
        refine mem_scale_sumOf (n := i + 1) (by omega) ?_
        simpa [scale] using hv
      · have hv1 : Above (.fin (l * n) s) v := by simpa [scale, hn] using hv.1
        have hex : ∃ k : ℕ, 1 ≤ k ∧ n ≤ k ∧ v < u * k := by
          obtain ⟨k, hk⟩ := exists_nat_gt (v / u)
          have hu0 : 0 < u := by linarith
          refine ⟨k + n + 1, by omega, by omega, ?_⟩
          have : v < u * k := by rw [div_lt_iff₀ hu0] at hk; linarith
          push_cast
          have h3 : 0 ≤ u * (n : K) := by positivity
          nlinarith
        have hex' : ∃ k : ℕ, 1 ≤ k ∧ n ≤ k ∧ (Bnd.fin (u * k) t).sat v := by
          obtain ⟨k, h1, h2, h3⟩ := hex
          exact ⟨k, h1, h2, by cases t <;> simp [Bnd.sat, h3, h3.le]⟩
        classical
        obtain ⟨k, ⟨hk1, hkn, hks⟩, hmin⟩ : ∃ k : ℕ, (1 ≤ k ∧ n ≤ k ∧ (Bnd.fin (u * k) t).sat v) ∧
            ∀ j : ℕ, j < k → ¬ (1 ≤ j ∧ n ≤ j ∧ (Bnd.fin (u * j) t).sat v) :=
          ⟨Nat.find hex', Nat.find_spec hex', fun j hj => Nat.find_min hex' hj⟩
        by_cases hab : Above (.fin (l * k) s) v
        · left; exact mem_scale_sumOf hk1 ⟨hab, hks⟩
        · right
          have hkn' : n < k := by
            rcases hkn.lt_or_eq with h | h
            · exact h
            · rw [h] at hv1; exact absurd hv1 hab
          -- the previous multiple does not reach `v`
          have hle' : ∀ j : ℕ, n ≤ j → l ≤ j * (u - l) := by
            intro j hj
            have : (n : K) ≤ j := by exact_mod_cast hj
            nlinarith
          obtain ⟨j, rfl⟩ : ∃ j, k = j + 1 := ⟨k - 1, by omega⟩
          have hlj := hle' j (by omega)
          push_cast at hab
          by_cases hj1 : 1 ≤ j
          · have hns : ¬ (Bnd.fin (u * j) t).sat v := fun hc => hmin j (by omega) ⟨hj1, by omega, hc⟩
            cases s <;> cases t <;> simp [Above, Bnd.sat] at hab hns
            · have e1 : v = (j + 1) * l := le_antisymm (by linarith) (by linarith)
              have e2 : l = j * (u - l) := le_antisymm hlj (by linarith)
              exact ⟨l, u, rfl, j, hj1, e2, e1⟩
            all_goals exfalso; linarith
          · have : j = 0 := by omega
            subst this
            have : n = 0 := by omega
            subst this
            have hl0 : l = 0 := le_antisymm (by simpa using hle) h0
            rw [hl0] at hv1 hab
            simp at hv1 hab
            exact absurd hv1 hab
  · refine ⟨[⟨.fin l s, .inf t⟩], rfl, ?_, ?_, ?_, ?_⟩
    · intro J hJ; rw [List.mem_singleton] at hJ; subst hJ; exact hne
    · rintro v ⟨xs, hxs, hx, rfl⟩
      exact ⟨_, List.mem_singleton.2 rfl, list_sum_above h0 hxs fun x hx' => (hx x hx').1, trivial⟩
    · rintro v ⟨l', u', e, _⟩; simp at e
    · rintro v ⟨J, hJ, hv⟩
      rw [List.mem_singleton] at hJ; subst hJ
      exact Or.inl (sumOf_single hv)

theorem plusAll_spec {S : List (Interval K)} (h : ∀ I ∈ S, I.Good) (hlen : S.length < 32) :
    ∃ P, plusAll S = .ok P ∧ (∀ v, SumOf (MemAny S) v → MemAny P v) ∧
      ((∀ I ∈ S, ∀ v, ¬ Gap I v) → ∀ v, MemAny P v → SumOf (MemAny S) v) := by
  have hmap : ∃ P, S.mapM plusMember = Except.ok (ε := Err) P ∧
      List.Forall₂ (fun I p => (∀ J ∈ p, ∃ a, J.Mem a) ∧ (∀ v, SumOf I.Mem v → MemAny p v) ∧
        (∀ v, MemAny p v → SumOf I.Mem v ∨ Gap I v)) S P := by
    clear hlen
    induction S with
    | nil => exact ⟨[], rfl, .nil⟩
    | cons I S ih =>
      obtain ⟨P, hP, hF⟩ := ih fun J hJ => h J (List.mem_cons_of_mem _ hJ)
      obtain ⟨p, hp, h1, h2, h3, h4⟩ := plus_spec (h I List.mem_cons_self)
      refine ⟨p :: P, ?_, .cons ⟨h1, h2, h4⟩ hF⟩
      rw [List.mapM_cons, hP]
      have : plusMember I = .ok p := by
        rcases hU : I.upper with ⟨u, t⟩ | t
        · simp only [plusMember, hU]; exact hp
        · rw [← hp]; simp [plusMember, plus, hU]
      rw [this]; rfl
  obtain ⟨P, hP, hF⟩ := hmap
  have hSP : S.length = P.length := hF.length_eq
  unfold plusAll
  rw [if_neg (by omega), hP]
  simp only [bind, Except.bind]
  rcases hc : P with _ | ⟨p, _ | ⟨p', P'⟩⟩
  · subst hc
    have : S = [] := by simpa using hSP
    subst this
    refine ⟨_, rfl, ?_, ?_⟩
    · rintro v ⟨xs, hxs, hx, _⟩
      rcases xs with _ | ⟨a, xs⟩
      · exact absurd rfl hxs
      · obtain ⟨I, hI, _⟩ := hx a List.mem_cons_self
        simp at hI
    · rintro _ v ⟨J, hJ, _⟩
      simp at hJ
  · subst hc
    refine ⟨p, rfl, ?_, ?_⟩
    all_goals
      rcases hF with _ | ⟨hI, hF⟩
      rename_i I S'
      cases hF
    · intro v hv
      exact hI.2.1 v (sumOf_mono (fun x ⟨J, hJ, hx⟩ => by simpa [List.mem_singleton.1 hJ] using hx) hv)
    · intro hg v hv
      rcases hI.2.2 v hv with h | h
      · exact sumOf_mono (fun x hx => ⟨I, List.mem_singleton.2 rfl, hx⟩) h
      · exact absurd h (hg I List.mem_cons_self v)
  · refine ⟨((List.range (2 ^ S.length)).drop 1).flatMap fun i =>
        (select i P).foldl addAll [⟨.fin 0 true, .fin 0 true⟩], by rw [hc], ?_, ?_⟩
    · rintro v ⟨xs, hxs, hx, rfl⟩
      have hF' : List.Forall₂ (fun I p => ∀ v, SumOf I.Mem v → MemAny p v) S P :=
        hF.imp fun _ _ h => h.2.1
      obtain ⟨i, bs, hi, hi1, hbs, e⟩ := exists_select hF' hx
      have := foldl_addAll_of (acc := [⟨.fin 0 true, .fin 0 true⟩]) (a := 0)
        ⟨_, List.mem_singleton.2 rfl, by simp [Mem, Above, Bnd.sat]⟩ hbs
      rw [zero_add, ← e] at this
      obtain ⟨J, hJ, hJ'⟩ := this
      refine ⟨J, List.mem_flatMap.2 ⟨i, ?_, hJ⟩, hJ'⟩
      rw [List.mem_iff_getElem]
      have := hi1 hxs
      exact ⟨i - 1, by simp [hSP]; omega, by simp; omega⟩
    · rintro hg v ⟨J, hJ, hv⟩
      obtain ⟨i, hi, hJ⟩ := List.mem_flatMap.1 hJ
      have hi' : 1 ≤ i ∧ i < 2 ^ P.length := by
        rw [List.mem_iff_getElem] at hi
        obtain ⟨k, hk, rfl⟩ := hi
        simp [hSP] at hk ⊢; omega
      have hQ : ∀ p ∈ P, ∃ I ∈ S, (∀ J ∈ p, ∃ a, J.Mem a) ∧ (∀ v, MemAny p v → SumOf I.Mem v) := by
        have : ∀ {S' : List (Interval K)} {P' : List (List (Interval K))}, (∀ I ∈ S', I ∈ S) →
            List.Forall₂ (fun I p => (∀ J ∈ p, ∃ a, J.Mem a) ∧ (∀ v, SumOf I.Mem v → MemAny p v) ∧
              (∀ v, MemAny p v → SumOf I.Mem v ∨ Gap I v)) S' P' →
            ∀ p ∈ P', ∃ I ∈ S, (∀ J ∈ p, ∃ a, J.Mem a) ∧ (∀ v, MemAny p v → SumOf I.Mem v) := by
          intro S' P' hS hF
          induction hF with
          | nil => simp
          | cons h1 h2 ih =>
            rename_i I p S'' P''
            intro q hq
            rcases List.mem_cons.1 hq with rfl | hq
            · refine ⟨I, hS I List.mem_cons_self, h1.1, fun v hv => ?_⟩
              exact (h1.2.2 v hv).resolve_right (hg I (hS I List.mem_cons_self) v)
            · exact ih (fun I hI => hS I (List.mem_cons_of_mem _ hI)) q hq
        exact this (fun _ h => h) hF
      obtain ⟨a, bs, ha, hbs, e⟩ := foldl_addAll_exists (by
          intro I hI
          rw [List.mem_singleton] at hI; subst hI
          exact ⟨0, by simp [Mem, Above, Bnd.sat]⟩)
        (fun q hq => by obtain ⟨I, _, h, _⟩ := hQ q (mem_of_mem_select hq); exact h) ⟨J, hJ, hv⟩
      have ha0 : a = 0 := by
        obtain ⟨I, hI, h1, h2⟩ := ha
        rw [List.mem_singleton] at hI; subst hI
        simp only [Above, Bnd.sat] at h1 h2
        exact le_antisymm h2 h1
      rw [e, ha0, zero_add]
      refine sumOf_forall₂ (fun q hq v hv => ?_) (select_ne_nil hi'.1 hi'.2) hbs
      obtain ⟨I, hI, _, h⟩ := hQ q (mem_of_mem_select hq)
      exact sumOf_mono (fun x hx => ⟨I, hI, hx⟩) (h v hv)

end

end Verif.Interval
