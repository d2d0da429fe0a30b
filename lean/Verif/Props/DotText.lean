import Verif.Spec.DotText
import Verif.Lemmas.Dot

/-!
# C86: guards and resets are read as written
-/

namespace Verif.Props

open Verif

theorem scan_takeWhile {ds rest : List Char} (hd : ∀ d ∈ ds, d.isDigit = true) (hr : NoDigit rest) :
    (ds ++ rest).takeWhile Char.isDigit = ds ∧ (ds ++ rest).dropWhile Char.isDigit = rest := by
  induction ds with
  | nil =>
    cases rest with
    | nil => exact ⟨rfl, rfl⟩
    | cons c l =>
      have := hr c rfl
      simp [List.takeWhile_cons, List.dropWhile_cons, this]
  | cons c ds ih =>
    have h1 := hd c (by simp)
    have h2 := ih fun d hd' => hd d (List.mem_cons_of_mem _ hd')
    simp [h1, h2]

theorem takeWhile_all {s : List Char} {d : Char} (h : d ∈ s.takeWhile Char.isDigit) : d.isDigit = true := by
  induction s with
  | nil => cases h
  | cons c s ih =>
    rw [List.takeWhile_cons] at h
    split at h
    · rcases List.mem_cons.1 h with rfl | h
      · assumption
      · exact ih h
    · cases h

theorem dropWhile_head (s : List Char) : NoDigit (s.dropWhile Char.isDigit) := by
  induction s with
  | nil => intro d hd; cases hd
  | cons c s ih =>
    rw [List.dropWhile_cons]
    split
    · exact ih
    · rename_i h
      intro d hd
      cases hd
      simpa using h

theorem scanSign_digits {ds rest : List Char} (hne : ds ≠ []) (hd : ∀ d ∈ ds, d.isDigit = true) :
    scanSign (ds ++ rest) = (false, ds ++ rest) := by
  cases ds with
  | nil => exact absurd rfl hne
  | cons c ds =>
    have hc := hd c (by simp)
    have h1 : c ≠ '-' := by rintro rfl; revert hc; decide
    have h2 : c ≠ '+' := by rintro rfl; revert hc; decide
    simp only [List.cons_append, scanSign]
    split
    · rename_i h; cases h; exact absurd rfl h1
    · rename_i h; cases h; exact absurd rfl h2
    · rfl

theorem scanSign_spec (s : List Char) :
    (scanSign s).1 = true ∧ s = '-' :: (scanSign s).2 ∨
    (scanSign s).1 = false ∧ (s = (scanSign s).2 ∨ s = '+' :: (scanSign s).2) := by
  unfold scanSign
  split
  · exact .inl ⟨rfl, rfl⟩
  · exact .inr ⟨rfl, .inr rfl⟩
  · exact .inr ⟨rfl, .inl rfl⟩

theorem scanInt_of_sign {s u ds rest : List Char} {b : Bool} (hs : scanSign s = (b, ds ++ rest)) (hne : ds ≠ [])
    (hd : ∀ d ∈ ds, d.isDigit = true) (hr : NoDigit rest) (hu : u = ds ++ rest)
    (hf : FitsInt (if b then -(Nat.ofDigitChars 10 ds 0 : Int) else Nat.ofDigitChars 10 ds 0)) :
    scanInt s = some (if b then -(Nat.ofDigitChars 10 ds 0 : Int) else Nat.ofDigitChars 10 ds 0, rest) := by
  subst hu
  obtain ⟨h1, h2⟩ := scan_takeWhile hd hr
  unfold scanInt
  rw [hs]
  simp only [h1, h2]
  cases ds with
  | nil => exact absurd rfl hne
  | cons c ds => exact if_pos hf

theorem scanInt_some {s rest : List Char} {v : Int} (h : scanInt s = some (v, rest)) :
    (scanSign s).2.takeWhile Char.isDigit ≠ [] ∧ FitsInt v ∧ (scanSign s).2.dropWhile Char.isDigit = rest ∧
    v = if (scanSign s).1 then -(Nat.ofDigitChars 10 ((scanSign s).2.takeWhile Char.isDigit) 0 : Int)
      else Nat.ofDigitChars 10 ((scanSign s).2.takeWhile Char.isDigit) 0 := by
  unfold scanInt at h
  generalize (scanSign s).2.takeWhile Char.isDigit = ds at h ⊢
  cases ds with
  | nil => cases h
  | cons c ds =>
    simp only at h
    by_cases hf : FitsInt (if (scanSign s).1 then -(Nat.ofDigitChars 10 (c :: ds) 0 : Int) else Nat.ofDigitChars 10 (c :: ds) 0)
    · replace h := (if_pos hf).symm.trans h
      simp only [Option.some.injEq, Prod.mk.injEq] at h
      obtain ⟨rfl, rfl⟩ := h
      exact ⟨by simp, hf, rfl, rfl⟩
    · cases (if_neg hf).symm.trans h

theorem scanInt_iff {s rest : List Char} {v : Int} :
    scanInt s = some (v, rest) ↔ ∃ t, s = t ++ rest ∧ IntText t v ∧ NoDigit rest := by
  constructor
  · intro h
    have hsg := scanSign_spec s
    obtain ⟨hne, hfit, hr, hv⟩ := scanInt_some h
    have happ := List.takeWhile_append_dropWhile (p := Char.isDigit) (l := (scanSign s).2)
    rw [hr] at happ
    have hall : ∀ d ∈ (scanSign s).2.takeWhile Char.isDigit, d.isDigit = true := fun d hd => takeWhile_all hd
    have hnd : NoDigit rest := hr ▸ dropWhile_head _
    rcases hsg with ⟨hb, hs⟩ | ⟨hb, hs⟩
    · rw [hb] at hv
      simp only [if_true] at hv
      refine ⟨'-' :: (scanSign s).2.takeWhile Char.isDigit, ?_, ⟨hfit, _, ?_, hall, .inr ⟨rfl, hv⟩⟩, hnd⟩
      · rw [List.cons_append, happ]; exact hs
      · exact hne
    · rw [hb] at hv
      simp only [Bool.false_eq_true, if_false] at hv
      rcases hs with hs | hs
      · refine ⟨(scanSign s).2.takeWhile Char.isDigit, ?_, ⟨hfit, _, ?_, hall, .inl ⟨.inl rfl, hv⟩⟩, hnd⟩
        · rw [happ]; exact hs
        · exact hne
      · refine ⟨'+' :: (scanSign s).2.takeWhile Char.isDigit, ?_, ⟨hfit, _, ?_, hall, .inl ⟨.inr rfl, hv⟩⟩, hnd⟩
        · rw [List.cons_append, happ]; exact hs
        · exact hne
  · rintro ⟨t, rfl, ⟨hf, ds, hne, hd, (⟨rfl | rfl, rfl⟩ | ⟨rfl, rfl⟩)⟩, hr⟩
    · exact scanInt_of_sign (b := false) (scanSign_digits hne hd) hne hd hr rfl hf
    · exact scanInt_of_sign (s := '+' :: ds ++ rest) (b := false) rfl hne hd hr rfl hf
    · exact scanInt_of_sign (s := '-' :: ds ++ rest) (b := true) rfl hne hd hr rfl hf

theorem expect_iff {c : Char} {s rest : List Char} : expect c s = some rest ↔ s = c :: rest := by
  unfold expect
  split
  · split
    · rename_i h; subst h; simp
    · rename_i h; simp [h]
  · simp

theorem scanOrd_iff {s rest : List Char} {o : Ord} : scanOrd s = .ok (some (o, rest)) ↔ s = o.show ++ ' ' :: rest := by
  constructor
  · intro h
    unfold scanOrd at h
    split at h
    · cases h
    · cases h
    · cases h
    · simp only [Except.ok.injEq, Option.map_eq_some_iff] at h
      obtain ⟨r, hr, h⟩ := h
      cases h
      rw [expect_iff.1 hr]; rfl
    · cases h; rfl
    · simp only [Except.ok.injEq, Option.map_eq_some_iff] at h
      obtain ⟨r, hr, h⟩ := h
      cases h
      rw [expect_iff.1 hr]; rfl
    · cases h; rfl
    · cases h
  · rintro rfl
    cases o <;> simp [Ord.show, scanOrd, expect]

theorem noDigit_blank (s : List Char) : NoDigit (' ' :: s) := by
  intro d hd
  cases hd
  decide

theorem scanConstraint_iff {s rest : List Char} {g : Constraint} :
    scanConstraint s = .ok (some (g, rest)) ↔ ∃ t, s = t ++ rest ∧ ConstraintText t g ∧ NoDigit rest := by
  constructor
  · intro h
    unfold scanConstraint at h
    split at h
    · cases h
    rename_i s1 h1
    split at h
    · cases h
    rename_i n s2 h2
    split at h
    · cases h
    rename_i s3 h3
    split at h
    · cases h
    · cases h
    rename_i o s4 h4
    split at h
    · cases h
    rename_i c s5 h5
    simp only [Except.ok.injEq, Option.some.injEq, Prod.mk.injEq] at h
    obtain ⟨rfl, rfl⟩ := h
    obtain ⟨xs, rfl, hx, -⟩ := scanInt_iff.1 h2
    obtain ⟨cs, rfl, hc, hr⟩ := scanInt_iff.1 h5
    rw [expect_iff] at h1 h3
    rw [scanOrd_iff] at h4
    subst h1 h3 h4
    refine ⟨'x' :: xs ++ ' ' :: o.show ++ ' ' :: cs, by simp, ⟨xs, cs, n, rfl, hx, hc, ?_⟩, hr⟩
    simp only
    omega
  · rintro ⟨t, rfl, ⟨xs, cs, n, rfl, hx, hc, hn⟩, hr⟩
    have h2 : scanInt (xs ++ ' ' :: (g.odr.show ++ ' ' :: (cs ++ rest))) = some (n, ' ' :: (g.odr.show ++ ' ' :: (cs ++ rest))) :=
      scanInt_iff.2 ⟨xs, rfl, hx, noDigit_blank _⟩
    have h4 : scanOrd (g.odr.show ++ ' ' :: (cs ++ rest)) = .ok (some (g.odr, cs ++ rest)) := scanOrd_iff.2 rfl
    have h5 : scanInt (cs ++ rest) = some (g.c, rest) := scanInt_iff.2 ⟨cs, rfl, hc, hr⟩
    have he : 'x' :: xs ++ ' ' :: g.odr.show ++ ' ' :: cs ++ rest = 'x' :: (xs ++ ' ' :: (g.odr.show ++ ' ' :: (cs ++ rest))) := by
      simp
    rw [he]
    simp only [scanConstraint, expect, if_true, h2, h4, h5]
    have : (n % 256).toNat = g.x := by omega
    rw [this]

theorem scanClock_iff {s rest : List Char} {x : Nat} :
    scanClock s = .ok (some (x, rest)) ↔ ∃ t, s = t ++ rest ∧ ClockText t x ∧ NoDigit rest := by
  unfold scanClock
  simp only [Except.ok.injEq, Option.map_eq_some_iff, Prod.mk.injEq]
  constructor
  · rintro ⟨⟨n, r⟩, h, h1, rfl⟩
    obtain ⟨t, rfl, ht, hr⟩ := scanInt_iff.1 h
    exact ⟨t, rfl, ⟨n, ht, by simp only at h1; omega⟩, hr⟩
  · rintro ⟨t, rfl, ⟨n, ht, hn⟩, hr⟩
    exact ⟨(n, rest), scanInt_iff.2 ⟨t, rfl, ht, hr⟩, by simp only; omega, rfl⟩

theorem scanOrd_error {s : List Char} {e : Err} : scanOrd s = .error e ↔ e = .ub ∧ (s = [] ∨ s = ['<'] ∨ s = ['>']) := by
  constructor
  · intro h
    unfold scanOrd at h
    split at h <;> cases h <;> simp
  · rintro ⟨rfl, rfl | rfl | rfl⟩ <;> rfl

theorem scanConstraint_error {s : List Char} {e : Err} : scanConstraint s = .error e ↔ e = .ub ∧ ConstraintCut s := by
  constructor
  · intro h
    unfold scanConstraint at h
    split at h
    · cases h
    rename_i s1 h1
    split at h
    · cases h
    rename_i n s2 h2
    split at h
    · cases h
    rename_i s3 h3
    obtain ⟨xs, rfl, hx, -⟩ := scanInt_iff.1 h2
    rw [expect_iff] at h1 h3
    subst h1 h3
    split at h
    · rename_i e' h4
      simp only [Except.error.injEq] at h
      subst h
      obtain ⟨he, h5⟩ := scanOrd_error.1 h4
      refine ⟨he, xs, n, hx, ?_⟩
      rcases h5 with rfl | rfl | rfl
      · exact .inl (by simp)
      · exact .inr (.inl (by simp))
      · exact .inr (.inr (by simp))
    · cases h
    · split at h <;> cases h
  · rintro ⟨rfl, xs, n, hx, h⟩
    obtain ⟨r, rfl, hr⟩ : ∃ r, s = 'x' :: (xs ++ ' ' :: r) ∧ (r = [] ∨ r = ['<'] ∨ r = ['>']) := by
      rcases h with rfl | rfl | rfl
      · exact ⟨[], by simp, by simp⟩
      · exact ⟨['<'], by simp, by simp⟩
      · exact ⟨['>'], by simp, by simp⟩
    have h2 : scanInt (xs ++ ' ' :: r) = some (n, ' ' :: r) := scanInt_iff.2 ⟨xs, rfl, hx, noDigit_blank _⟩
    have h4 := scanOrd_error.2 ⟨rfl, hr⟩
    simp only [scanConstraint, expect, if_true, h2, h4]

section
variable {α : Type} {item : List Char → Scan α} {P : List Char → α → Prop}
  (hi : ∀ s rest x, item s = .ok (some (x, rest)) ↔ ∃ t, s = t ++ rest ∧ P t x ∧ NoDigit rest)

include hi

theorem scanItems_text {fuel : Nat} {s rest : List Char} {l : List α} (h : scanItems item fuel s = .ok (some (l, rest))) :
    ∃ t, s = t ++ '}' :: rest ∧ ItemsText P t l := by
  induction fuel generalizing s l with
  | zero => cases h
  | succ fuel ih =>
    unfold scanItems at h
    split at h
    · cases h
    · cases h
    rename_i x s1 h1
    obtain ⟨t, rfl, ht, -⟩ := (hi _ _ _).1 h1
    split at h
    · cases h
    · cases h
      exact ⟨t, rfl, .one ht⟩
    · split at h
      · cases h
      rename_i s2 s3 h3
      rw [expect_iff] at h3
      subst h3
      split at h
      · cases h
      · cases h
      rename_i l' s4 h4
      cases h
      obtain ⟨u, rfl, hu⟩ := ih h4
      exact ⟨t ++ ',' :: ' ' :: u, by simp, .cons ht hu⟩
    · cases h

theorem scanItems_of_text {t : List Char} {l : List α} (h : ItemsText P t l) (rest : List Char) :
    ∀ fuel, t.length < fuel → scanItems item fuel (t ++ '}' :: rest) = .ok (some (l, rest)) := by
  induction h with
  | one ht =>
    rintro (_ | fuel) hf
    · omega
    rename_i t x
    have : item (t ++ '}' :: rest) = .ok (some (x, '}' :: rest)) :=
      (hi _ _ _).2 ⟨t, rfl, ht, by intro d hd; cases hd; decide⟩
    simp only [scanItems, this]
  | cons ht hu ih =>
    rintro (_ | fuel) hf
    · omega
    rename_i t x u l
    have h1 : item (t ++ ',' :: ' ' :: (u ++ '}' :: rest)) = .ok (some (x, ',' :: ' ' :: (u ++ '}' :: rest))) :=
      (hi _ _ _).2 ⟨t, rfl, ht, by intro d hd; cases hd; decide⟩
    have h2 := ih fuel (by simp at hf; omega)
    have he : (t ++ ',' :: ' ' :: u) ++ '}' :: rest = t ++ ',' :: ' ' :: (u ++ '}' :: rest) := by simp
    rw [he]
    simp only [scanItems, h1, expect, if_true, h2]

theorem readAttr_iff {s : List Char} {l : List α} : readAttr item s = .ok l ↔ AttrText P s l := by
  cases s with
  | nil =>
    simp only [readAttr, Except.ok.injEq, AttrText, true_and]
    constructor
    · rintro rfl; exact .inl rfl
    · rintro (h | ⟨t, h, -⟩)
      · exact h.symm
      · cases h
  | cons c s =>
    simp only [readAttr, AttrText, reduceCtorEq, false_and, false_or]
    constructor
    · intro h
      split at h
      · cases h
      · rename_i l' h'
        cases h
        unfold scanList at h'
        split at h'
        · cases h'
        rename_i s1 h1
        rw [expect_iff] at h1
        obtain ⟨t, rfl, ht⟩ := scanItems_text hi h'
        exact ⟨t, by simpa using h1, ht⟩
      · cases h
    · rintro ⟨t, hs, ht⟩
      rw [hs]
      have := scanItems_of_text hi ht [] ((t ++ ['}']).length + 1) (by simp; omega)
      simp only [List.cons_append, scanList, expect, if_true, this]

variable {Q : List Char → Prop} (hq : ∀ s e, item s = .error e ↔ e = .ub ∧ Q s)

include hq

theorem scanItems_error {fuel : Nat} {s : List Char} {e : Err} (hf : s.length < fuel) (h : scanItems item fuel s = .error e) :
    e = .ub ∧ ItemsCut P Q s := by
  induction fuel generalizing s with
  | zero => omega
  | succ fuel ih =>
    unfold scanItems at h
    split at h
    · rename_i e' h1
      cases h
      obtain ⟨he, h2⟩ := (hq _ _).1 h1
      exact ⟨he, .within h2⟩
    · cases h
    rename_i x s1 h1
    obtain ⟨t, rfl, ht, -⟩ := (hi _ _ _).1 h1
    split at h
    · cases h
      rw [List.append_nil]
      exact ⟨rfl, .after ht⟩
    · cases h
    · split at h
      · cases h
      rename_i s2 s3 h3
      rw [expect_iff] at h3
      subst h3
      split at h
      · rename_i e' h4
        cases h
        obtain ⟨rfl, h5⟩ := ih (by simp at hf; omega) h4
        exact ⟨rfl, .cons ht h5⟩
      · cases h
      · cases h
    · cases h

theorem scanItems_of_cut {t : List Char} (h : ItemsCut P Q t) :
    ∀ fuel, t.length < fuel → scanItems item fuel t = .error .ub := by
  induction h with
  | within ht =>
    rintro (_ | fuel) hf
    · omega
    simp only [scanItems, (hq _ _).2 ⟨rfl, ht⟩]
  | after ht =>
    rintro (_ | fuel) hf
    · omega
    rename_i t x
    have : item t = .ok (some (x, [])) :=
      (hi _ _ _).2 ⟨t, by simp, ht, by intro d hd; cases hd⟩
    simp only [scanItems, this]
  | cons ht hu ih =>
    rintro (_ | fuel) hf
    · omega
    rename_i t x u
    have h1 : item (t ++ ',' :: ' ' :: u) = .ok (some (x, ',' :: ' ' :: u)) :=
      (hi _ _ _).2 ⟨t, rfl, ht, by intro d hd; cases hd; decide⟩
    have h2 := ih fuel (by simp at hf; omega)
    simp only [scanItems, h1, expect, if_true, h2]

theorem readAttr_error {s : List Char} {e : Err} (h : readAttr item s = .error e) :
    e = .ub ∧ AttrCut P Q s ∨ e = .message ∧ ¬ AttrCut P Q s := by
  cases s with
  | nil => cases h
  | cons c s =>
    simp only [readAttr] at h
    have hcut : AttrCut P Q (c :: s) → scanList item (c :: s) = .error .ub := by
      rintro ⟨t, hs, ht⟩
      rw [hs]
      simp only [scanList, expect, if_true]
      exact scanItems_of_cut hi hq ht _ (by omega)
    split at h
    · rename_i e' h'
      cases h
      left
      unfold scanList at h'
      split at h'
      · cases h'
      rename_i s1 h1
      rw [expect_iff] at h1
      obtain ⟨rfl, h2⟩ := scanItems_error hi hq (by omega) h'
      exact ⟨rfl, s1, h1, h2⟩
    · cases h
    · rename_i h1 h2
      cases h
      refine .inr ⟨rfl, fun hc => ?_⟩
      have := hcut hc
      simp_all

theorem readAttr_cut {s : List Char} : readAttr item s = .error .ub ↔ AttrCut P Q s := by
  constructor
  · intro h
    rcases readAttr_error hi hq h with ⟨-, h⟩ | ⟨h, -⟩
    · exact h
    · cases h
  · rintro ⟨t, rfl, ht⟩
    have := scanItems_of_cut hi hq ht (t.length + 1) (by omega)
    simp only [readAttr, scanList, expect, if_true, this]

theorem readAttr_message {s : List Char} :
    readAttr item s = .error .message ↔ ¬ AttrCut P Q s ∧ ¬ ∃ l, AttrText P s l := by
  constructor
  · intro h
    refine ⟨fun hc => ?_, fun ⟨l, hl⟩ => ?_⟩
    · rw [(readAttr_cut hi hq).2 hc] at h
      cases h
    · rw [(readAttr_iff hi).2 hl] at h
      cases h
  · rintro ⟨h1, h2⟩
    cases h : readAttr item s with
    | ok l => exact absurd ⟨l, (readAttr_iff hi).1 h⟩ h2
    | error e =>
      rcases readAttr_error hi hq h with ⟨-, h⟩ | ⟨rfl, -⟩
      · exact absurd h h1
      · rfl

end

/-! ## C86 -/

/-- **C86 is false.**  The clock `x256` is read as the clock 0 and `x-1` as the clock 255; the reader of a text which ends after
the order has undefined behaviour. -/
theorem attribute_text_wrong :
    readGuard "{x256 < 5}".toList = .ok [⟨0, .lt, 5⟩] ∧ readGuard "{x-1 < 5}".toList = .ok [⟨255, .lt, 5⟩] ∧
    readResets "{256}".toList = .ok [0] ∧ readGuard "{x0 <".toList = .error .ub ∧ readResets "{0".toList = .error .ub := by
  decide +kernel

/-- **C86**, up to clock numbers modulo 256: the guard which is read is the guard which is written, and every text of that form is
read; likewise for resets. -/
theorem attribute_text_partial (s : List Char) :
    (∀ g, readGuard s = .ok g ↔ AttrText ConstraintText s g) ∧ ∀ xs, readResets s = .ok xs ↔ AttrText ClockText s xs :=
  ⟨fun _ => readAttr_iff fun _ _ _ => scanConstraint_iff, fun _ => readAttr_iff fun _ _ _ => scanClock_iff⟩

/-- **C86, the other texts**: the code reads a variable which is not initialised exactly if the text stops after `x<n> `, after
`x<n> <` or `x<n> >`, or after an item, and throws an exception for all other texts which are not of the form. -/
theorem attribute_text_bad (s : List Char) :
    (readGuard s = .error .ub ↔ AttrCut ConstraintText ConstraintCut s) ∧
    (readGuard s = .error .message ↔ ¬ AttrCut ConstraintText ConstraintCut s ∧ ¬ ∃ g, AttrText ConstraintText s g) ∧
    (readResets s = .error .ub ↔ AttrCut ClockText (fun _ => False) s) ∧
    (readResets s = .error .message ↔ ¬ AttrCut ClockText (fun _ => False) s ∧ ¬ ∃ xs, AttrText ClockText s xs) := by
  have h : ∀ s e, scanClock s = .error e ↔ e = .ub ∧ False := by simp [scanClock]
  exact ⟨readAttr_cut (fun _ _ _ => scanConstraint_iff) (fun _ _ => scanConstraint_error),
    readAttr_message (fun _ _ _ => scanConstraint_iff) (fun _ _ => scanConstraint_error),
    readAttr_cut (fun _ _ _ => scanClock_iff) h, readAttr_message (fun _ _ _ => scanClock_iff) h⟩

/-- Texts of both kinds. -/
example : AttrCut ConstraintText ConstraintCut "{x0 <= 10, x1 ".toList ∧ AttrCut ConstraintText ConstraintCut "{x0 > 1".toList ∧
    AttrCut ClockText (fun _ => False) "{0, 3".toList ∧ ¬ AttrCut ConstraintText ConstraintCut "{x0 <=".toList ∧
    ¬ AttrCut ClockText (fun _ => False) "{0,".toList := by
  refine ⟨(attribute_text_bad _).1.1 (by decide +kernel), (attribute_text_bad _).1.1 (by decide +kernel),
    (attribute_text_bad _).2.2.1.1 (by decide +kernel), fun h => ?_, fun h => ?_⟩
  · have := (attribute_text_bad _).1.2 h
    revert this
    decide +kernel
  · have := (attribute_text_bad _).2.2.1.2 h
    revert this
    decide +kernel

/-- What is written can be read in one way only. -/
theorem attribute_text_unique (s : List Char) (g g' : List Constraint) (h : AttrText ConstraintText s g)
    (h' : AttrText ConstraintText s g') : g = g' := by
  have h1 := ((attribute_text_partial s).1 g).2 h
  have h2 := ((attribute_text_partial s).1 g').2 h'
  rw [h1] at h2
  exact Except.ok.inj h2

/-- A guard with two constraints, one of them with a sign; the empty set and a missing blank are not of that form. -/
example : AttrText ConstraintText "{x0 <= 10, x12 > -3}".toList [⟨0, .le, 10⟩, ⟨12, .gt, -3⟩] ∧
    (∀ g, ¬ AttrText ConstraintText "{}".toList g) ∧ (∀ g, ¬ AttrText ConstraintText "{x0<5}".toList g) ∧
    AttrText ClockText "{0, 3}".toList [0, 3] := by
  refine ⟨((attribute_text_partial _).1 _).1 (by decide +kernel), fun g h => ?_, fun g h => ?_,
    ((attribute_text_partial _).2 _).1 (by decide +kernel)⟩
  · have := ((attribute_text_partial _).1 _).2 h
    rw [show readGuard "{}".toList = .error .message by decide +kernel] at this
    cases this
  · have := ((attribute_text_partial _).1 _).2 h
    rw [show readGuard "{x0<5}".toList = .error .message by decide +kernel] at this
    cases this

end Verif.Props
