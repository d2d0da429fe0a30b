import Verif.Lemmas.DNFLang
import Verif.Lemmas.NormalForm

/-!
# Intervals and trees for the meaning of the normal form
-/

set_option linter.unusedSectionVars false

namespace Verif

variable {K : Type} [Field K] [LinearOrder K] [IsStrictOrderedRing K]

namespace Interval

/-- The lower end is finite and not negative, the upper end is not below it; if `cl`, the lower end belongs to the interval. -/
def IOk (cl : Bool) (I : Interval K) : Prop :=
  ∃ l s, I.lower = .fin l s ∧ 0 ≤ l ∧ (∀ u t, I.upper = .fin u t → l ≤ u ∧ (cl = true → l = u → t = true)) ∧ (cl = true → s = true)

/-- The lower end is finite and not negative; if `cl`, it is closed. -/
def LowOk (cl : Bool) (I : Interval K) : Prop := ∃ l s, I.lower = .fin l s ∧ 0 ≤ l ∧ (cl = true → s = true)

variable {cl : Bool}

theorem IOk.nonempty {I : Interval K} (h : IOk true I) : ∃ a, I.Mem a := by
  obtain ⟨l, s, h1, _, h2, h3⟩ := h
  refine ⟨l, ?_, ?_⟩
  · rw [h1, h3 rfl]; exact le_refl l
  · cases hu : I.upper with
    | inf t => trivial
    | fin u t =>
      obtain ⟨g1, g2⟩ := h2 u t hu
      rcases lt_or_eq_of_le g1 with g | g
      · cases t <;> simp [Bnd.sat, g, g1]
      · rw [g2 rfl g]; exact g1

theorem LowOk.nonneg {I : Interval K} (h : LowOk cl I) {v : K} (hv : I.Mem v) : 0 ≤ v := by
  obtain ⟨l, s, h1, h2, _⟩ := h
  have := hv.1
  rw [h1] at this
  cases s <;> simp only [Above] at this <;> linarith

theorem IOk.low {I : Interval K} (h : IOk cl I) : LowOk cl I := by
  obtain ⟨l, s, h1, h2, _, h3⟩ := h
  exact ⟨l, s, h1, h2, h3⟩

theorem iok_default : IOk cl (Interval.default : Interval K) :=
  ⟨0, true, rfl, le_refl _, fun u t h => by simp [Interval.default] at h, fun _ => rfl⟩

theorem IOk.add {I J : Interval K} (hI : IOk cl I) (hJ : IOk cl J) : IOk cl (add I J) := by
  obtain ⟨l, s, h1, h2, h3, h4⟩ := hI
  obtain ⟨l', s', h1', h2', h3', h4'⟩ := hJ
  refine ⟨l + l', s && s', by simp only [Interval.add, h1, h1']; rfl, add_nonneg h2 h2', fun u t hu => ?_, fun hc => by simp [h4 hc, h4' hc]⟩
  simp only [Interval.add] at hu
  cases hU : I.upper with
  | inf t => rw [hU] at hu; cases hV : J.upper <;> rw [hV] at hu <;> cases hu
  | fin a b =>
    cases hV : J.upper with
    | inf t => rw [hU, hV] at hu; cases hu
    | fin a' b' =>
      rw [hU, hV] at hu
      have hu : Bnd.fin (a + a') (b && b') = Bnd.fin u t := hu
      simp only [Bnd.fin.injEq] at hu
      obtain ⟨rfl, rfl⟩ := hu
      obtain ⟨g1, g2⟩ := h3 a b hU
      obtain ⟨g1', g2'⟩ := h3' a' b' hV
      refine ⟨add_le_add g1 g1', fun hc he => ?_⟩
      have e1 : l = a := by linarith
      have e2 : l' = a' := by linarith
      simp [g2 hc e1, g2' hc e2]

theorem iok_addAll {S T : List (Interval K)} (hS : ∀ I ∈ S, IOk cl I) (hT : ∀ I ∈ T, IOk cl I) : ∀ I ∈ addAll S T, IOk cl I := by
  intro L hL
  simp only [addAll, List.mem_flatMap, List.mem_map] at hL
  obtain ⟨I, hI, J, hJ, rfl⟩ := hL
  exact (hS I hI).add (hT J hJ)

theorem iok_land1 {S : List (Interval K)} {J : Interval K} (hS : ∀ I ∈ S, LowOk cl I) (hJ : LowOk cl J) : ∀ I ∈ land1 S J, IOk cl I := by
  intro L hL
  simp only [land1, List.mem_filter, List.mem_map] at hL
  obtain ⟨⟨I, hI, rfl⟩, hb⟩ := hL
  have hl : LowOk cl (inter I J) := by
    rcases TMem.lower_inter I J with h | h
    · obtain ⟨l, s, h1, h2⟩ := hS I hI
      exact ⟨l, s, h.trans h1, h2⟩
    · obtain ⟨l, s, h1, h2⟩ := hJ
      exact ⟨l, s, h.trans h1, h2⟩
  obtain ⟨l, s, h1, h2, h3⟩ := hl
  refine ⟨l, s, h1, h2, fun u t hu => ?_, h3⟩
  rw [h1, hu] at hb
  simp only [Bnd.blt, Bool.not_or, Bool.and_eq_true, Bool.not_eq_true', decide_eq_false_iff_not, not_lt] at hb
  refine ⟨hb.1, fun hc he => ?_⟩
  have := hb.2
  rw [he, h3 hc] at this
  cases t
  · simp at this
  · rfl

theorem memAny_land1_of {S : List (Interval K)} {J : Interval K} {v : K} (h1 : MemAny S v) (h2 : J.Mem v) : MemAny (land1 S J) v := by
  obtain ⟨I, hI, hv⟩ := h1
  exact memAny_land1.2 ⟨I, hI, mem_inter_of hv h2⟩

theorem of_memAny_land1 {S : List (Interval K)} {J : Interval K} {v : K} (hS : ∀ I ∈ S, LowOk true I) (hJ : LowOk true J)
    (h : MemAny (land1 S J) v) : MemAny S v ∧ J.Mem v := by
  obtain ⟨I, hI, hv⟩ := memAny_land1.1 h
  rcases mem_inter hv with ⟨g1, g2⟩ | ⟨s, g1, g2⟩
  · exact ⟨⟨I, hI, g1⟩, g2⟩
  · obtain ⟨l, t, e1, _, e2⟩ := hS I hI
    obtain ⟨l', t', e1', _, e2'⟩ := hJ
    rw [g1] at e1; rw [g2] at e1'
    simp only [Bnd.fin.injEq] at e1 e1'
    rw [e2 rfl] at e1; rw [e2' rfl] at e1'
    rw [e1.2] at e1'
    simp at e1'

/-- `land` with `[0, ∞)`. -/
def LandDef (S : List (Interval K)) : List (Interval K) := land [Interval.default] S

theorem iok_landDef {S : List (Interval K)} (hS : ∀ I ∈ S, IOk cl I) : ∀ I ∈ LandDef S, IOk cl I := by
  intro L hL
  simp only [LandDef, land, List.mem_flatMap] at hL
  obtain ⟨J, hJ, hL⟩ := hL
  exact iok_land1 (fun I hI => by rw [List.mem_singleton.1 hI]; exact iok_default.low) (hS J hJ).low L hL

theorem mem_default {v : K} (h : 0 ≤ v) : (Interval.default : Interval K).Mem v := ⟨h, trivial⟩

theorem memAny_landDef_of {S : List (Interval K)} {v : K} (hS : ∀ I ∈ S, IOk cl I) (h : MemAny S v) : MemAny (LandDef S) v := by
  obtain ⟨J, hJ, hv⟩ := h
  have h0 := (hS J hJ).low.nonneg hv
  obtain ⟨L, hL, h'⟩ := memAny_land1_of (S := [Interval.default]) ⟨_, List.mem_singleton.2 rfl, mem_default h0⟩ hv
  exact ⟨L, List.mem_flatMap.2 ⟨J, hJ, hL⟩, h'⟩

theorem of_memAny_landDef {S : List (Interval K)} {v : K} (hS : ∀ I ∈ S, IOk true I) (h : MemAny (LandDef S) v) : MemAny S v := by
  obtain ⟨L, hL, hv⟩ := h
  obtain ⟨J, hJ, hL⟩ := List.mem_flatMap.1 hL
  exact ⟨J, hJ, (of_memAny_land1 (fun I hI => by rw [List.mem_singleton.1 hI]; exact iok_default.low) (hS J hJ).low ⟨L, hL, hv⟩).2⟩

variable [FloorRing K]

theorem iok_plusMember {I : Interval K} {P : List (Interval K)} (hI : IOk cl I) (h : plusMember I = .ok P) :
    I.Good ∧ ∀ J ∈ P, IOk cl J := by
  obtain ⟨l, s, h1, h2, h3, h4⟩ := hI
  unfold plusMember at h
  cases hu : I.upper with
  | inf t =>
    rw [hu] at h
    cases h
    refine ⟨⟨l, s, h1, h2, fun u t h' => by rw [hu] at h'; cases h'⟩, fun J hJ => ?_⟩
    rw [List.mem_singleton.1 hJ]
    exact ⟨l, s, h1, h2, h3, h4⟩
  | fin u t =>
    rw [hu] at h
    simp only [Interval.plus, hu, h1] at h
    obtain ⟨g1, _⟩ := h3 u t hu
    split at h
    · cases h
    · next hne =>
      have hlt : l < u := lt_of_le_of_ne g1 (by rintro rfl; exact hne (sub_self _))
      split at h
      · cases h
      · next hm =>
        cases h
        refine ⟨⟨l, s, h1, h2, fun u' t' h' => by rw [hu] at h'; cases h'; exact hlt⟩, fun J hJ => ?_⟩
        have hceil : 0 ≤ ⌈l / (u - l)⌉ := Int.ceil_nonneg (div_nonneg h2 (by linarith))
        rcases List.mem_append.1 hJ with hJ | hJ
        · obtain ⟨i, _, rfl⟩ := List.mem_map.1 hJ
          have hi : (0 : K) < ((i : ℤ) + 1 : ℤ) := by
            have : (0 : ℤ) < (i : ℤ) + 1 := by omega
            exact_mod_cast this
          refine ⟨l * ((i : ℤ) + 1 : ℤ), s, rfl, mul_nonneg h2 hi.le, fun u' t' h' => ?_, h4⟩
          simp only [scale, Bnd.fin.injEq] at h'
          rw [← h'.1]
          have := mul_lt_mul_of_pos_right hlt hi
          exact ⟨this.le, fun _ he => absurd he this.ne⟩
        · rw [List.mem_singleton.1 hJ]
          refine ⟨l * (⌈l / (u - l)⌉ : ℤ), s, rfl, mul_nonneg h2 (by exact_mod_cast hceil), fun u' t' h' => (by cases h'), h4⟩

omit [FloorRing K] in
theorem IntEnds.add {I J : Interval K} (hI : IntEnds I) (hJ : IntEnds J) : IntEnds (add I J) := by
  have key : ∀ b b' : Bnd K, (∀ c s, b = .fin c s → ∃ n : Int, c = n) → (∀ c s, b' = .fin c s → ∃ n : Int, c = n) →
      ∀ c s, b + b' = .fin c s → ∃ n : Int, c = n := by
    intro b b' h h' c s e
    cases b with
    | inf t => cases b' <;> cases e
    | fin a t =>
      cases b' with
      | inf t' => cases e
      | fin a' t' =>
        have e : Bnd.fin (a + a') (t && t') = Bnd.fin c s := e
        simp only [Bnd.fin.injEq] at e
        obtain ⟨n, rfl⟩ := h a t rfl
        obtain ⟨n', rfl⟩ := h' a' t' rfl
        exact ⟨n + n', by rw [← e.1]; push_cast; rfl⟩
  exact ⟨key _ _ hI.1 hJ.1, key _ _ hI.2 hJ.2⟩

omit [FloorRing K] in
theorem intEnds_addAll {S T : List (Interval K)} (hS : ∀ I ∈ S, IntEnds I) (hT : ∀ I ∈ T, IntEnds I) : ∀ I ∈ addAll S T, IntEnds I := by
  intro L hL
  simp only [addAll, List.mem_flatMap, List.mem_map] at hL
  obtain ⟨I, hI, J, hJ, rfl⟩ := hL
  exact (hS I hI).add (hT J hJ)

omit [FloorRing K] in
theorem IntEnds.inter {I J : Interval K} (hI : IntEnds I) (hJ : IntEnds J) : IntEnds (inter I J) := by
  refine ⟨fun c s h => ?_, fun c s h => ?_⟩
  · simp only [Interval.inter, Bnd.max] at h
    split at h
    · exact hJ.1 c s h
    · exact hI.1 c s h
  · simp only [Interval.inter, Bnd.min] at h
    split at h
    · exact hJ.2 c s h
    · exact hI.2 c s h

omit [FloorRing K] in
theorem intEnds_land1 {S : List (Interval K)} {J : Interval K} (hS : ∀ I ∈ S, IntEnds I) (hJ : IntEnds J) : ∀ I ∈ land1 S J, IntEnds I := by
  intro L hL
  simp only [land1, List.mem_filter, List.mem_map] at hL
  obtain ⟨⟨I, hI, rfl⟩, _⟩ := hL
  exact (hS I hI).inter hJ

omit [FloorRing K] in
theorem intEnds_default : IntEnds (Interval.default : Interval K) :=
  ⟨fun c s h => ⟨0, by cases h; simp⟩, fun c s h => by cases h⟩

omit [FloorRing K] in
theorem intEnds_landDef {S : List (Interval K)} (hS : ∀ I ∈ S, IntEnds I) : ∀ I ∈ LandDef S, IntEnds I := by
  intro L hL
  simp only [LandDef, land, List.mem_flatMap] at hL
  obtain ⟨J, hJ, hL⟩ := hL
  exact intEnds_land1 (fun I hI => by rw [List.mem_singleton.1 hI]; exact intEnds_default) (hS J hJ) L hL

theorem intEnds_plusMember {I : Interval K} {P : List (Interval K)} (hI : IntEnds I) (h : plusMember I = .ok P) : ∀ J ∈ P, IntEnds J := by
  have key : ∀ (b : Bnd K) (i : Int), (∀ c s, b = .fin c s → ∃ n : Int, c = n) → ∀ c s, scale b i = .fin c s → ∃ n : Int, c = n := by
    intro b i h c s e
    cases b with
    | inf t => cases e
    | fin a t =>
      simp only [scale, Bnd.fin.injEq] at e
      obtain ⟨n, rfl⟩ := h a t rfl
      exact ⟨n * i, by rw [← e.1]; push_cast; rfl⟩
  intro J hJ
  unfold plusMember at h
  split at h
  · cases h
    rw [List.mem_singleton.1 hJ]
    exact hI
  · unfold Interval.plus at h
    split at h
    · cases h
      rw [List.mem_singleton.1 hJ]
      exact hI
    · cases h
    · split at h
      · cases h
      · simp only at h
        split at h
        · cases h
        · cases h
          rcases List.mem_append.1 hJ with hJ | hJ
          · obtain ⟨i, _, rfl⟩ := List.mem_map.1 hJ
            exact ⟨key _ _ hI.1, key _ _ hI.2⟩
          · rw [List.mem_singleton.1 hJ]
            exact ⟨key _ _ hI.1, fun c s h => by cases h⟩

theorem intEnds_foldl : ∀ (P : List (List (Interval K))) (acc : List (Interval K)), (∀ I ∈ acc, IntEnds I) → (∀ p ∈ P, ∀ I ∈ p, IntEnds I) →
    ∀ I ∈ P.foldl addAll acc, IntEnds I
  | [], acc, h, _ => h
  | p :: P, acc, h, hP => intEnds_foldl P _ (intEnds_addAll h (hP p (List.mem_cons_self ..))) fun q hq => hP q (List.mem_cons_of_mem _ hq)

theorem mapM_ok {α β : Type} {f : α → Except Err β} {R : α → β → Prop} (hf : ∀ x y, f x = .ok y → R x y) :
    ∀ (l : List α) (ys : List β), l.mapM f = .ok ys → List.Forall₂ R l ys
  | [], ys, h => by cases h; exact .nil
  | x :: l, ys, h => by
    rw [List.mapM_cons] at h
    cases hx : f x with
    | error e => rw [hx] at h; cases h
    | ok y =>
      cases hl : l.mapM f with
      | error e => rw [hx, hl] at h; cases h
      | ok zs =>
        rw [hx, hl] at h
        cases h
        exact .cons (hf x y hx) (mapM_ok hf l zs hl)

theorem mem_forall₂ {α β : Type} {R : α → β → Prop} {l : List α} {r : List β} (h : List.Forall₂ R l r) :
    (∀ x ∈ l, ∃ y ∈ r, R x y) ∧ ∀ y ∈ r, ∃ x ∈ l, R x y := by
  induction h with
  | nil => exact ⟨fun x hx => by simp at hx, fun x hx => by simp at hx⟩
  | cons h _ ih =>
    refine ⟨fun x hx => ?_, fun y hy => ?_⟩
    · rcases List.mem_cons.1 hx with rfl | hx
      · exact ⟨_, List.mem_cons_self .., h⟩
      · obtain ⟨y, hy, hr⟩ := ih.1 x hx
        exact ⟨y, List.mem_cons_of_mem _ hy, hr⟩
    · rcases List.mem_cons.1 hy with rfl | hy
      · exact ⟨_, List.mem_cons_self .., h⟩
      · obtain ⟨x, hx, hr⟩ := ih.2 y hy
        exact ⟨x, List.mem_cons_of_mem _ hx, hr⟩

theorem iok_foldl : ∀ (P : List (List (Interval K))) (acc : List (Interval K)), (∀ I ∈ acc, IOk cl I) → (∀ p ∈ P, ∀ I ∈ p, IOk cl I) →
    ∀ I ∈ P.foldl addAll acc, IOk cl I
  | [], acc, h, _ => h
  | p :: P, acc, h, hP => iok_foldl P _ (iok_addAll h (hP p (List.mem_cons_self ..))) fun q hq => hP q (List.mem_cons_of_mem _ hq)

theorem iok_plusAll {S P : List (Interval K)} (hS : ∀ I ∈ S, IOk cl I) (h : plusAll S = .ok P) :
    (∀ I ∈ P, IOk cl I) ∧ (∀ v, SumOf (MemAny S) v → MemAny P v) ∧ (cl = true → ∀ v, MemAny P v → SumOf (MemAny S) v) := by
  have h0 := h
  unfold plusAll at h
  split at h
  · cases h
  · next hlen =>
    cases hm : S.mapM plusMember with
    | error e => rw [hm] at h; cases h
    | ok Q =>
      have hq := mapM_ok (R := fun I p => plusMember I = .ok p) (fun _ _ h => h) S Q hm
      obtain ⟨m1, m2⟩ := mem_forall₂ hq
      have good : ∀ I ∈ S, I.Good := fun I hI => by
        obtain ⟨p, _, hp⟩ := m1 I hI
        exact (iok_plusMember (hS I hI) hp).1
      have ok : ∀ p ∈ Q, ∀ J ∈ p, IOk cl J := fun p hp => by
        obtain ⟨I, hI, hi⟩ := m2 p hp
        exact (iok_plusMember (hS I hI) hi).2
      obtain ⟨P', e, s1, s2⟩ := plusAll_spec good (not_le.1 hlen)
      rw [h0] at e
      cases e
      refine ⟨?_, s1, fun hc => s2 fun I hI v hg => ?_⟩
      · rw [hm] at h
        simp only [bind, Except.bind] at h
        split at h
        · cases h; exact ok _ (List.mem_singleton.2 rfl)
        · cases h
          intro I hI
          obtain ⟨i, _, hI⟩ := List.mem_flatMap.1 hI
          refine iok_foldl _ _ ?_ (fun p hp => ok p (mem_of_mem_select hp)) I hI
          intro J hJ
          rw [List.mem_singleton.1 hJ]
          exact ⟨0, true, rfl, le_refl _, fun u t h' => by cases h'; exact ⟨le_refl _, fun _ _ => rfl⟩, fun _ => rfl⟩
      · obtain ⟨l, u, rfl, _⟩ := hg
        obtain ⟨_, _, h1, _, _, h4⟩ := hS _ hI
        simp only [Bnd.fin.injEq] at h1
        rw [← h1.2] at h4
        exact absurd (h4 hc) (by simp)

theorem intEnds_plusAll {S P : List (Interval K)} (hS : ∀ I ∈ S, IntEnds I) (h : plusAll S = .ok P) : ∀ I ∈ P, IntEnds I := by
  unfold plusAll at h
  split at h
  · cases h
  · cases hm : S.mapM plusMember with
    | error e => rw [hm] at h; cases h
    | ok Q =>
      obtain ⟨_, m2⟩ := mem_forall₂ (mapM_ok (R := fun I p => plusMember I = .ok p) (fun _ _ h => h) S Q hm)
      have ok : ∀ p ∈ Q, ∀ J ∈ p, IntEnds J := fun p hp => by
        obtain ⟨I, hI, hi⟩ := m2 p hp
        exact intEnds_plusMember (hS I hI) hi
      rw [hm] at h
      simp only [bind, Except.bind] at h
      split at h
      · cases h; exact ok _ (List.mem_singleton.2 rfl)
      · cases h
        intro I hI
        obtain ⟨i, _, hI⟩ := List.mem_flatMap.1 hI
        refine intEnds_foldl _ _ ?_ (fun p hp => ok p (mem_of_mem_select hp)) I hI
        intro J hJ
        rw [List.mem_singleton.1 hJ]
        exact ⟨fun c s h => ⟨0, by cases h; simp⟩, fun c s h => ⟨0, by cases h; simp⟩⟩

end Interval

/-! ## Trees -/

/-- The durations which letters may have: a set which is closed under addition (all durations, or the positive ones). -/
class Durs (K : Type) [Add K] where
  ok : K → Prop
  add : ∀ a b, ok a → ok b → ok (a + b)

/-- The expressions stored in the memory, without conjunctions: `nil` and `cons` are lists of expressions. -/
inductive NTree (K : Type) where
  | sing (c : Alphabet) (S : List (Interval K))
  | eps
  | cat (s : NTree K)
  | plus (s : NTree K)
  | within (t : NTree K) (I : Interval K)
  | nil
  | cons (t s : NTree K)

/-- Letters may have all durations. -/
instance (priority := low) allDurs : Durs K where
  ok _ := True
  add _ _ _ _ := trivial

instance (cl : Bool) : Fact (cl = true → ∀ d : K, @Durs.ok K _ allDurs d) := ⟨fun _ _ => trivial⟩

namespace NTree

open Interval

variable [D : Durs K]

/-- A possible duration in one of the intervals. -/
def OkAny (S : List (Interval K)) (d : K) : Prop := Durs.ok d ∧ MemAny S d

theorem okAny_all {S : List (Interval K)} {d : K} : OkAny (D := allDurs) S d ↔ MemAny S d := ⟨fun h => h.2, fun h => ⟨trivial, h⟩⟩

theorem sumOf_ok {P : K → Prop} (h : ∀ d, P d → Durs.ok d) {d : K} : SumOf P d → Durs.ok d := by
  rintro ⟨l, hne, hl, rfl⟩
  induction l with
  | nil => exact absurd rfl hne
  | cons a l ih =>
    have ha := h a (hl a (List.mem_cons_self ..))
    cases l with
    | nil => simpa using ha
    | cons b l =>
      rw [List.sum_cons]
      exact Durs.add _ _ ha (ih (by simp) fun x hx => hl x (List.mem_cons_of_mem _ hx))

theorem sumOf_mono {P Q : K → Prop} (h : ∀ d, P d → Q d) {d : K} : SumOf P d → SumOf Q d := by
  rintro ⟨l, hne, hl, e⟩
  exact ⟨l, hne, fun x hx => h x (hl x hx), e⟩

mutual

/-- The signals of a tree. -/
def lang : NTree K → Sig K → Prop
  | .sing c S, x => ∃ d h, x = Sig.const c d h ∧ OkAny S d
  | .eps, x => x = Sig.nil
  | .cat s, x => seqL s x
  | .plus s, x => Iter Sig.app (altL s) x
  | .within t I, x => lang t x ∧ I.Mem x.dur
  | .nil, _ => False
  | .cons _ _, _ => False

/-- The signals of a list, read as a concatenation. -/
def seqL : NTree K → Sig K → Prop
  | .nil, x => x = Sig.nil
  | .cons t s, x => ∃ y z, x = y.app z ∧ lang t y ∧ seqL s z
  | _, _ => False

/-- The signals of a list, read as a disjunction. -/
def altL : NTree K → Sig K → Prop
  | .cons t s, x => lang t x ∨ altL s x
  | _, _ => False

end

/-- No element is epsilon. -/
def NoEps : NTree K → Prop
  | .cons t s => t ≠ .eps ∧ NoEps s
  | _ => True

/-- All elements are epsilon. -/
def AllEps : NTree K → Prop
  | .cons t s => t = .eps ∧ AllEps s
  | _ => True

/-- All elements are singletons of the letter `c`. -/
def AllSing (c : Alphabet) : NTree K → Prop
  | .cons t s => (∃ S, t = .sing c S) ∧ AllSing c s
  | _ => True

/-- Trees for which the normal form is right. -/
def GT (cl : Bool) : NTree K → Prop
  | .sing c S => c ≠ 0 ∧ ∀ I ∈ S, IOk cl I
  | .eps => True
  | .cat s => GT cl s ∧ NoEps s ∧ s ≠ .nil
  | .plus s => GT cl s ∧ ¬ AllEps s
  | .within t I => GT cl t ∧ t ≠ .eps ∧ LowOk cl I
  | .nil => True
  | .cons t s => GT cl t ∧ GT cl s

/-- The ends of intervals are integers. -/
def Nice : NTree K → Prop
  | .sing _ S => ∀ I ∈ S, I.IntEnds
  | .eps => True
  | .cat s => Nice s
  | .plus s => Nice s
  | .within t I => Nice t ∧ I.IntEnds
  | .nil => True
  | .cons t s => Nice t ∧ Nice s

/-- Only the letter `c`; for lists: all elements. -/
def Only (c : Alphabet) : NTree K → Prop
  | .sing c' _ => c' = c
  | .eps => False
  | .cat s => Only c s
  | .plus s => Only c s
  | .within t _ => Only c t
  | .nil => True
  | .cons t s => Only c t ∧ Only c s

/-- Every element has only one letter. -/
def EachOnly : NTree K → Prop
  | .cons t s => (∃ c, Only c t) ∧ EachOnly s
  | _ => True

/-- Every element is a singleton. -/
def EachSing : NTree K → Prop
  | .cons t s => (∃ c S, t = .sing c S) ∧ EachSing s
  | _ => True

/-- The empty word, one letter, or a concatenation of parts of one letter. -/
def FlatT (t : NTree K) : Prop := t = .eps ∨ (∃ c, Only c t) ∨ ∃ s, t = .cat s ∧ EachOnly s

/-- The empty word, a singleton, or a concatenation of singletons. -/
def PlainT (t : NTree K) : Prop := t = .eps ∨ (∃ c S, t = .sing c S) ∨ ∃ s, t = .cat s ∧ EachSing s

/-- Every alternative is flat. -/
def EachFlat : NTree K → Prop
  | .cons t s => FlatT t ∧ EachFlat s
  | _ => True

/-- Every alternative is plain. -/
def EachPlain : NTree K → Prop
  | .cons t s => PlainT t ∧ EachPlain s
  | _ => True

theorem EachOnly.of {c : Alphabet} : ∀ {s : NTree K}, Only c s → EachOnly s
  | .cons _ _, h => ⟨⟨c, h.1⟩, EachOnly.of h.2⟩
  | .nil, _ | .eps, _ | .sing _ _, _ | .cat _, _ | .plus _, _ | .within _ _, _ => trivial

theorem EachOnly.flat : ∀ {s : NTree K}, EachOnly s → EachFlat s
  | .cons _ _, h => ⟨.inr (.inl h.1), EachOnly.flat h.2⟩
  | .nil, _ | .eps, _ | .sing _ _, _ | .cat _, _ | .plus _, _ | .within _ _, _ => trivial

/-- The letter of the first element, if this is a singleton. -/
def headL : NTree K → Option Alphabet
  | .cons (.sing c _) _ => some c
  | _ => none

/-- Neighbours are not singletons of the same letter. -/
def Alt : NTree K → Prop
  | .cons t s => (∀ c, headL (.cons t s) = some c → headL s ≠ some c) ∧ Alt s
  | _ => True

/-- Concatenations are merged. -/
def Merged : NTree K → Prop
  | .cat s => Alt s
  | _ => True

/-- The elements of a list are merged. -/
def MergedL : NTree K → Prop
  | .cons t s => Merged t ∧ MergedL s
  | _ => True

/-- What the normal form keeps besides the signals. -/
structure Keeps (t t' : NTree K) : Prop where
  merged : Merged t'
  eps : t' = .eps ↔ t = .eps
  nice : Nice t → Nice t'
  only : ∀ c, Only c t → ∃ S, t' = .sing c S
  flat : ∀ s, t = .cat s → EachOnly s → PlainT t'

theorem Keeps.plain {t t' : NTree K} (h : Keeps t t') : FlatT t → PlainT t' := by
  rintro (e | ⟨c, hc⟩ | ⟨s, e, hs⟩)
  · exact .inl (h.eps.2 e)
  · obtain ⟨S, e⟩ := h.only c hc
    exact .inr (.inl ⟨c, S, e⟩)
  · exact h.flat s e hs

/-- `Q` contains `P`; if `cl`, they are equal. -/
def Rel (cl : Bool) (P Q : Sig K → Prop) : Prop := (∀ x, P x → Q x) ∧ (cl = true → ∀ x, Q x → P x)

theorem Rel.rfl' {cl : Bool} (P : Sig K → Prop) : Rel cl P P := ⟨fun _ h => h, fun _ _ h => h⟩

theorem Rel.trans {cl : Bool} {P Q R : Sig K → Prop} (h : Rel cl P Q) (h' : Rel cl Q R) : Rel cl P R :=
  ⟨fun x hx => h'.1 x (h.1 x hx), fun hc x hx => h.2 hc x (h'.2 hc x hx)⟩

/-- Two lists are related element by element. -/
def RelS (cl : Bool) : NTree K → NTree K → Prop
  | .nil, .nil => True
  | .cons t s, .cons t' s' => Rel cl t.lang t'.lang ∧ Keeps t t' ∧ RelS cl s s'
  | _, _ => False

variable {cl : Bool}

theorem iter_mono {S : Type} {app : S → S → S} {P Q : S → Prop} (h : ∀ x, P x → Q x) {x : S} (hx : Iter app P x) : Iter app Q x := by
  induction hx with
  | one h' => exact .one (h _ h')
  | more h' _ ih => exact .more (h _ h') ih

theorem Rel.iter {P Q : Sig K → Prop} (h : Rel cl P Q) : Rel cl (Iter Sig.app P) (Iter Sig.app Q) :=
  ⟨fun _ => iter_mono h.1, fun hc _ => iter_mono (h.2 hc)⟩

theorem RelS.seq : ∀ {s s' : NTree K}, RelS cl s s' → Rel cl s.seqL s'.seqL
  | .nil, .nil, _ => Rel.rfl' _
  | .cons t s, .cons t' s', h => by
    have ih := RelS.seq h.2.2
    refine ⟨fun x hx => ?_, fun hc x hx => ?_⟩
    · simp only [seqL] at hx ⊢
      obtain ⟨y, z, rfl, h1, h2⟩ := hx
      exact ⟨y, z, rfl, h.1.1 y h1, ih.1 z h2⟩
    · simp only [seqL] at hx ⊢
      obtain ⟨y, z, rfl, h1, h2⟩ := hx
      exact ⟨y, z, rfl, h.1.2 hc y h1, ih.2 hc z h2⟩

theorem RelS.alt : ∀ {s s' : NTree K}, RelS cl s s' → Rel cl s.altL s'.altL
  | .nil, .nil, _ => Rel.rfl' _
  | .cons t s, .cons t' s', h => by
    have ih := RelS.alt h.2.2
    refine ⟨fun x hx => ?_, fun hc x hx => ?_⟩
    · simp only [altL] at hx ⊢
      exact hx.imp (h.1.1 x) (ih.1 x)
    · simp only [altL] at hx ⊢
      exact hx.imp (h.1.2 hc x) (ih.2 hc x)

theorem RelS.noEps : ∀ {s s' : NTree K}, RelS cl s s' → NoEps s → NoEps s'
  | .nil, .nil, _, _ => trivial
  | .cons t s, .cons t' s', h, hn => ⟨fun e => hn.1 (h.2.1.eps.1 e), RelS.noEps h.2.2 hn.2⟩

theorem RelS.allEps : ∀ {s s' : NTree K}, RelS cl s s' → AllEps s' → AllEps s
  | .nil, .nil, _, _ => trivial
  | .cons t s, .cons t' s', h, hn => ⟨h.2.1.eps.1 hn.1, RelS.allEps h.2.2 hn.2⟩

theorem RelS.nice : ∀ {s s' : NTree K}, RelS cl s s' → Nice s → Nice s'
  | .nil, .nil, _, _ => trivial
  | .cons t s, .cons t' s', h, hn => ⟨h.2.1.nice hn.1, RelS.nice h.2.2 hn.2⟩

theorem RelS.merged : ∀ {s s' : NTree K}, RelS cl s s' → MergedL s'
  | .nil, .nil, _ => trivial
  | .cons t s, .cons t' s', h => ⟨h.2.1.merged, RelS.merged h.2.2⟩

theorem RelS.each : ∀ {s s' : NTree K}, RelS cl s s' → EachOnly s → EachSing s'
  | .nil, .nil, _, _ => trivial
  | .cons t s, .cons t' s', h, ⟨⟨c, hc⟩, hn⟩ => ⟨⟨c, h.2.1.only c hc⟩, RelS.each h.2.2 hn⟩

theorem RelS.plain : ∀ {s s' : NTree K}, RelS cl s s' → EachFlat s → EachPlain s'
  | .nil, .nil, _, _ => trivial
  | .cons t s, .cons t' s', h, hn => ⟨h.2.1.plain hn.1, RelS.plain h.2.2 hn.2⟩

theorem RelS.only {c : Alphabet} : ∀ {s s' : NTree K}, RelS cl s s' → Only c s → AllSing c s'
  | .nil, .nil, _, _ => trivial
  | .cons t s, .cons t' s', h, hn => ⟨h.2.1.only c hn.1, RelS.only h.2.2 hn.2⟩

theorem RelS.ne_nil : ∀ {s s' : NTree K}, RelS cl s s' → s ≠ .nil → s' ≠ .nil
  | .nil, .nil, _, h => h
  | .cons t s, .cons t' s', _, _ => by simp

variable [hall : Fact (cl = true → ∀ d : K, Durs.ok d)]

/-- Two neighbours with the same letter are merged. -/
theorem rel_merge {c : Alphabet} {S T : List (Interval K)} (s : NTree K) (hS : ∀ I ∈ S, IOk cl I) (hT : ∀ I ∈ T, IOk cl I) :
    Rel cl (seqL (.cons (.sing c S) (.cons (.sing c T) s))) (seqL (.cons (.sing c (addAll S T)) s)) := by
  constructor
  · intro x hx
    simp only [seqL, lang] at hx ⊢
    obtain ⟨_, _, rfl, ⟨d, hd, rfl, hm⟩, _, z, rfl, ⟨d', hd', rfl, hm'⟩, hz⟩ := hx
    exact ⟨_, z, (Sig.app_assoc _ _ _).symm, ⟨d + d', add_nonneg hd hd', Sig.const_app c d d' hd hd', Durs.add _ _ hm.1 hm'.1,
      memAny_add_of hm.2 hm'.2⟩, hz⟩
  · rintro rfl x hx
    simp only [seqL, lang] at hx ⊢
    obtain ⟨_, z, rfl, ⟨d, hd, rfl, hm⟩, hz⟩ := hx
    obtain ⟨a, b, ⟨I, hI, ha⟩, ⟨J, hJ, hb⟩, rfl⟩ := exists_of_memAny_add (fun I hI => (hS I hI).nonempty) (fun I hI => (hT I hI).nonempty) hm.2
    have ha0 := (hS I hI).low.nonneg ha
    have hb0 := (hT J hJ).low.nonneg hb
    exact ⟨_, (Sig.const c b hb0).app z, by rw [← Sig.app_assoc, Sig.const_app], ⟨a, ha0, rfl, hall.out rfl a, I, hI, ha⟩, _, z, rfl,
      ⟨b, hb0, rfl, hall.out rfl b, J, hJ, hb⟩, hz⟩

theorem seqL_one (t : NTree K) (x : Sig K) : seqL (.cons t .nil) x ↔ t.lang x := by
  simp only [seqL]
  constructor
  · rintro ⟨y, z, rfl, h, rfl⟩
    rwa [Sig.app_nil]
  · intro h
    exact ⟨x, _, (Sig.app_nil x).symm, h, rfl⟩

/-- The intervals of a list of singletons. -/
def landIntervals : NTree K → List (Interval K)
  | .cons (.sing _ S) s => LandDef S ++ landIntervals s
  | _ => []

theorem iok_landIntervals {c : Alphabet} : ∀ {s : NTree K}, AllSing c s → GT cl s → ∀ I ∈ landIntervals s, IOk cl I
  | .cons t s, h, hg => by
    obtain ⟨⟨S, rfl⟩, h⟩ := h
    intro I hI
    simp only [landIntervals, List.mem_append] at hI
    rcases hI with hI | hI
    · exact iok_landDef hg.1.2 I hI
    · exact iok_landIntervals h hg.2 I hI
  | .nil, _, _ | .eps, _, _ | .sing _ _, _, _ | .cat _, _, _ | .plus _, _, _ | .within _ _, _, _ => fun I hI => by simp [landIntervals] at hI

theorem intEnds_landIntervals {c : Alphabet} : ∀ {s : NTree K}, AllSing c s → Nice s → ∀ I ∈ landIntervals s, IntEnds I
  | .cons t s, h, hg => by
    obtain ⟨⟨S, rfl⟩, h⟩ := h
    intro I hI
    simp only [landIntervals, List.mem_append] at hI
    rcases hI with hI | hI
    · exact intEnds_landDef hg.1 I hI
    · exact intEnds_landIntervals h hg.2 I hI
  | .nil, _, _ | .eps, _, _ | .sing _ _, _, _ | .cat _, _, _ | .plus _, _, _ | .within _ _, _, _ => fun I hI => by simp [landIntervals] at hI

theorem altL_of_sing {c : Alphabet} : ∀ {s : NTree K}, AllSing c s → GT cl s → Rel cl s.altL
    (fun x => ∃ d h, x = Sig.const c d h ∧ OkAny (landIntervals s) d)
  | .cons t s, h, hg => by
    obtain ⟨⟨S, rfl⟩, h⟩ := h
    have ih := altL_of_sing h hg.2
    constructor
    · intro x hx
      simp only [altL, lang] at hx
      rcases hx with ⟨d, hd, rfl, hm⟩ | hx
      · obtain ⟨I, hI, hm'⟩ := memAny_landDef_of hg.1.2 hm.2
        exact ⟨d, hd, rfl, hm.1, I, by simp only [landIntervals, List.mem_append]; exact .inl hI, hm'⟩
      · obtain ⟨d, hd, rfl, ho, I, hI, hm⟩ := ih.1 x hx
        exact ⟨d, hd, rfl, ho, I, by simp only [landIntervals, List.mem_append]; exact .inr hI, hm⟩
    · rintro rfl x ⟨d, hd, rfl, ho, I, hI, hm⟩
      simp only [altL, lang]
      simp only [landIntervals, List.mem_append] at hI
      rcases hI with hI | hI
      · exact .inl ⟨d, hd, rfl, ho, of_memAny_landDef hg.1.2 ⟨I, hI, hm⟩⟩
      · exact .inr (ih.2 rfl _ ⟨d, hd, rfl, ho, I, hI, hm⟩)
  | .nil, _, _ | .eps, _, _ | .sing _ _, _, _ | .cat _, _, _ | .plus _, _, _ | .within _ _, _, _ =>
    ⟨fun x hx => by simp [altL] at hx, fun _ x hx => by obtain ⟨d, hd, _, _, I, hI, _⟩ := hx; simp [landIntervals] at hI⟩

theorem iter_const {c : Alphabet} {P : K → Prop} (h0 : ∀ d, P d → 0 ≤ d) (x : Sig K) :
    Iter Sig.app (fun x => ∃ d h, x = Sig.const c d h ∧ P d) x ↔ ∃ d h, x = Sig.const c d h ∧ SumOf P d := by
  constructor
  · intro h
    induction h with
    | one h =>
      obtain ⟨d, hd, rfl, hp⟩ := h
      exact ⟨d, hd, rfl, sumOf_single hp⟩
    | more h _ ih =>
      obtain ⟨d, hd, rfl, hp⟩ := h
      obtain ⟨d', hd', rfl, hp'⟩ := ih
      exact ⟨d + d', add_nonneg hd hd', Sig.const_app .., sumOf_add (sumOf_single hp) hp'⟩
  · rintro ⟨d, hd, rfl, l, hne, hl, e⟩
    have key : ∀ (l : List K), l ≠ [] → (∀ x ∈ l, P x) → ∃ h : 0 ≤ l.sum,
        Iter Sig.app (fun x => ∃ d h, x = Sig.const c d h ∧ P d) (Sig.const c l.sum h) := by
      intro l
      induction l with
      | nil => exact fun h => absurd rfl h
      | cons a l ih =>
        intro _ hl
        have ha := hl a (List.mem_cons_self ..)
        have ha0 := h0 a ha
        cases l with
        | nil =>
          have e : a = [a].sum := by simp
          exact ⟨e ▸ ha0, .one ⟨a, ha0, Sig.const_congr c _ _ e.symm, ha⟩⟩
        | cons b l =>
          obtain ⟨h1, h2⟩ := ih (by simp) fun x hx => hl x (List.mem_cons_of_mem _ hx)
          have e : (a :: b :: l).sum = a + (b :: l).sum := List.sum_cons
          refine ⟨e ▸ add_nonneg ha0 h1, ?_⟩
          have := Iter.more (app := Sig.app) (P := fun x => ∃ d h, x = Sig.const c d h ∧ P d) ⟨a, ha0, rfl, ha⟩ h2
          rw [Sig.const_app] at this
          rwa [Sig.const_congr c _ _ e]
    obtain ⟨h, hk⟩ := key l hne hl
    rwa [Sig.const_congr c hd h e]

variable [FloorRing K]

/-- The repetition of singletons of one letter. -/
theorem rel_plus {c : Alphabet} {s : NTree K} {P : List (Interval K)} (h : AllSing c s) (hg : GT cl s)
    (hP : plusAll (landIntervals s) = .ok P) : Rel cl (lang (.plus s)) (lang (.sing c P)) := by
  obtain ⟨_, p2, p3⟩ := iok_plusAll (iok_landIntervals h hg) hP
  have h0 : ∀ d, OkAny (landIntervals s) d → 0 ≤ d := by
    rintro d ⟨-, I, hI, hd⟩
    exact (iok_landIntervals h hg I hI).low.nonneg hd
  have h1 := (altL_of_sing h hg).iter
  constructor
  · intro x hx
    simp only [lang] at hx ⊢
    obtain ⟨d, hd, e, hs⟩ := (iter_const h0 x).1 (h1.1 x hx)
    exact ⟨d, hd, e, sumOf_ok (fun _ h => h.1) hs, p2 d (sumOf_mono (fun _ h => h.2) hs)⟩
  · intro hc x hx
    simp only [lang] at hx ⊢
    obtain ⟨d, hd, e, hs⟩ := hx
    exact h1.2 hc x ((iter_const h0 x).2 ⟨d, hd, e, sumOf_mono (fun d h => ⟨hall.out hc d, h⟩) (p3 hc d hs.2)⟩)

/-- The time restriction of a singleton. -/
theorem rel_within {c : Alphabet} {S : List (Interval K)} {J : Interval K} (hS : ∀ I ∈ S, IOk cl I) (hJ : LowOk cl J) :
    Rel cl (lang (.within (.sing c S) J)) (lang (.sing c (land1 S J))) := by
  constructor
  · intro x hx
    simp only [lang] at hx ⊢
    obtain ⟨⟨d, hd, rfl, hm⟩, h⟩ := hx
    exact ⟨d, hd, rfl, hm.1, memAny_land1_of hm.2 h⟩
  · rintro rfl x hx
    simp only [lang] at hx ⊢
    obtain ⟨d, hd, rfl, hm⟩ := hx
    obtain ⟨g1, g2⟩ := of_memAny_land1 (fun I hI => (hS I hI).low) hJ hm.2
    exact ⟨⟨d, hd, rfl, hm.1, g1⟩, g2⟩

end NTree
end Verif
