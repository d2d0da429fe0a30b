import Verif.Spec.Dot

/-!
# The texts of guards and resets in files
-/

namespace Verif

/-- Decimal notation of `v`: an optional sign and at least one digit; the value fits in an `int`. -/
def IntText (s : List Char) (v : Int) : Prop :=
  FitsInt v ∧ ∃ ds : List Char, ds ≠ [] ∧ (∀ d ∈ ds, d.isDigit = true) ∧
    ((s = ds ∨ s = '+' :: ds) ∧ v = Nat.ofDigitChars 10 ds 0 ∨ s = '-' :: ds ∧ v = -(Nat.ofDigitChars 10 ds 0 : Int))

/-- `x<n> <order> <c>`, where the clock is `n` modulo 256. -/
def ConstraintText (s : List Char) (g : Constraint) : Prop :=
  ∃ xs cs n, s = 'x' :: xs ++ ' ' :: g.odr.show ++ ' ' :: cs ∧ IntText xs n ∧ IntText cs g.c ∧ (g.x : Int) = n % 256

/-- `<n>`, where the clock is `n` modulo 256. -/
def ClockText (s : List Char) (x : Nat) : Prop := ∃ n, IntText s n ∧ (x : Int) = n % 256

/-- One or more items separated by a comma and a blank. -/
inductive ItemsText {α : Type} (P : List Char → α → Prop) : List Char → List α → Prop
  | one {t x} : P t x → ItemsText P t [x]
  | cons {t x u l} : P t x → ItemsText P u l → ItemsText P (t ++ ',' :: ' ' :: u) (x :: l)

/-- An attribute: nothing, or items in braces. -/
def AttrText {α : Type} (P : List Char → α → Prop) (s : List Char) (l : List α) : Prop :=
  s = [] ∧ l = [] ∨ ∃ t, s = '{' :: t ++ ['}'] ∧ ItemsText P t l

/-- A constraint which stops where the order is read: `x<n> `, `x<n> <` or `x<n> >`. -/
def ConstraintCut (s : List Char) : Prop :=
  ∃ xs n, IntText xs n ∧ (s = 'x' :: xs ++ " ".toList ∨ s = 'x' :: xs ++ " <".toList ∨ s = 'x' :: xs ++ " >".toList)

/-- Items which stop within an item (`Q`) or after an item. -/
inductive ItemsCut {α : Type} (P : List Char → α → Prop) (Q : List Char → Prop) : List Char → Prop
  | within {t} : Q t → ItemsCut P Q t
  | after {t x} : P t x → ItemsCut P Q t
  | cons {t x u} : P t x → ItemsCut P Q u → ItemsCut P Q (t ++ ',' :: ' ' :: u)

/-- An attribute which stops where the code reads a character without asking whether there is one. -/
def AttrCut {α : Type} (P : List Char → α → Prop) (Q : List Char → Prop) (s : List Char) : Prop :=
  ∃ t, s = '{' :: t ∧ ItemsCut P Q t

end Verif
