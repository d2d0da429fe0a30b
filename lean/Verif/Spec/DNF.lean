import Verif.Model.NormalForm
import Verif.Spec.Interval

/-!
# Meaning of expressions and of their normal forms over signals

A signal has a duration `d` and a value at every instant of `[0, d)`.
-/

namespace Verif

/-- A signal; its value is 0 outside of `[0, dur)`. -/
@[ext]
structure Sig (K : Type) [Field K] [LinearOrder K] where
  dur : K
  val : K → Alphabet
  nonneg : 0 ≤ dur
  out : ∀ t, ¬ (0 ≤ t ∧ t < dur) → val t = 0

/-- The words of one or more factors. -/
inductive Iter {S : Type} (app : S → S → S) (P : S → Prop) : S → Prop
  | one {x} (h : P x) : Iter app P x
  | more {x y} (h : P x) (hr : Iter app P y) : Iter app P (app x y)

namespace Sig

variable {K : Type} [Field K] [LinearOrder K] [IsStrictOrderedRing K]

/-- The signal of duration 0. -/
def nil : Sig K := ⟨0, fun _ => 0, le_refl 0, fun _ _ => rfl⟩

/-- The value `c` during `d`. -/
def const (c : Alphabet) (d : K) (h : 0 ≤ d) : Sig K :=
  ⟨d, fun t => if 0 ≤ t ∧ t < d then c else 0, h, fun _ ht => if_neg ht⟩

/-- One signal after the other. -/
def app (x y : Sig K) : Sig K :=
  ⟨x.dur + y.dur, fun t => if t < x.dur then x.val t else y.val (t - x.dur), add_nonneg x.nonneg y.nonneg, by
    intro t ht
    by_cases h : t < x.dur
    · rw [if_pos h]
      exact x.out t fun h' => ht ⟨h'.1, lt_of_lt_of_le h (le_add_of_nonneg_right y.nonneg)⟩
    · rw [if_neg h]
      refine y.out _ fun h' => ht ⟨le_trans x.nonneg (not_lt.1 h), ?_⟩
      have := h'.2
      rwa [sub_lt_iff_lt_add'] at this⟩

end Sig

variable {K : Type} [Field K] [LinearOrder K] [IsStrictOrderedRing K]

/-- The signals of an expression.  A letter stands for its constant signals of any duration (monaa/intermediate_tre.hh:66-72). -/
def TRE.Signals : TRE K → Sig K → Prop
  | .atom c, x => ∃ d h, x = Sig.const c d h
  | .epsilon, x => x = Sig.nil
  | .plus e, x => Iter Sig.app (Signals e) x
  | .concat e f, x => ∃ y z, x = y.app z ∧ Signals e y ∧ Signals f z
  | .disj e f, x => Signals e x ∨ Signals f x
  | .conj e f, x => Signals e x ∧ Signals f x
  | .within e I, x => Signals e x ∧ I.Mem x.dur

/-- Parts of a `DNFTRE`: an `AtomicTRE`, the elements of a concatenation, the list of a `DNFTRE`, and one or more factors from it. -/
inductive Part where
  | atom (a : Nat)
  | seq (l : List Nat)
  | alt (l : List (List Nat))
  | rep (l : List (List Nat))

/-- The signals of a part of a `DNFTRE` in memory (documentation in monaa/intermediate_tre.hh:43-54, 78-89, 218-226). -/
inductive TMem.Den (m : TMem K) : Part → Sig K → Prop
  | singleton {a s I d} (h : 0 ≤ d) (ha : m.atom a = .singleton s) (hI : I ∈ (m.sing s).2) (hd : I.Mem d) :
    Den m (.atom a) (Sig.const (m.sing s).1 d h)
  | epsilon {a} (ha : m.atom a = .epsilon) : Den m (.atom a) Sig.nil
  | concat {a l x} (ha : m.atom a = .concat l) (h : Den m (.seq l) x) : Den m (.atom a) x
  | plus {a d x} (ha : m.atom a = .plus d) (h : Den m (.rep (m.dnf d)) x) : Den m (.atom a) x
  | within {a b I x} (ha : m.atom a = .within b I) (h : Den m (.atom b) x) (hI : I.Mem x.dur) : Den m (.atom a) x
  | nil : Den m (.seq []) Sig.nil
  | cons {a l x y} (h : Den m (.atom a) x) (hl : Den m (.seq l) y) : Den m (.seq (a :: l)) (x.app y)
  | alt {l c x} (hc : c ∈ l) (h : ∀ a ∈ c, Den m (.atom a) x) : Den m (.alt l) x
  | one {l x} (h : Den m (.alt l) x) : Den m (.rep l) x
  | more {l x y} (h : Den m (.alt l) x) (hr : Den m (.rep l) y) : Den m (.rep l) (x.app y)

namespace TRE

/-- The empty word is one of the alternatives (without time restriction). -/
def HasEpsilon : TRE K → Prop
  | .epsilon => True
  | .concat e f => HasEpsilon e ∧ HasEpsilon f
  | .disj e f => HasEpsilon e ∨ HasEpsilon f
  | .conj e f => HasEpsilon e ∨ HasEpsilon f
  | _ => False

/-- No conjunction except below a repetition. -/
def NoConj : TRE K → Prop
  | .atom _ => True
  | .epsilon => True
  | .plus _ => True
  | .concat e f => NoConj e ∧ NoConj f
  | .disj e f => NoConj e ∧ NoConj f
  | .conj _ _ => False
  | .within e _ => NoConj e

/-- No conjunction at all. -/
def ConjFree : TRE K → Prop
  | .atom _ => True
  | .epsilon => True
  | .plus e => ConjFree e
  | .concat e f => ConjFree e ∧ ConjFree f
  | .disj e f => ConjFree e ∧ ConjFree f
  | .conj _ _ => False
  | .within e _ => ConjFree e

/-- The lower ends of the restrictions of single letters, as far as these are alternatives of the expression. -/
def Lowers : TRE K → Bnd K → Prop
  | .atom _, b => b = .fin 0 true
  | .disj e f, b => Lowers e b ∨ Lowers f b
  | .conj e f, b => Lowers e b ∨ Lowers f b
  | .within e I, b => Lowers e b ∨ (b = I.lower ∧ ∃ b', Lowers e b')
  | _, _ => False

/-- The conditions for C42: no conjunction and no empty word directly below a concatenation; the restrictions of a letter have no
lower ends which differ only in strictness (letters have the closed lower end 0). -/
def Distributes : TRE K → Prop
  | .atom _ => True
  | .epsilon => True
  | .plus e => Distributes e
  | .concat e f => Distributes e ∧ Distributes f ∧ NoConj e ∧ NoConj f ∧ ¬ HasEpsilon e ∧ ¬ HasEpsilon f
  | .disj e f => Distributes e ∧ Distributes f
  | .conj e f => Distributes e ∧ Distributes f
  | .within e I => Distributes e ∧ ∀ c s t, Lowers e (.fin c s) → I.lower = .fin c t → s = t

/-- Exactly one alternative: no disjunction except below a repetition. -/
def Single : TRE K → Prop
  | .atom _ => True
  | .epsilon => True
  | .plus _ => True
  | .concat e f => Single e ∧ Single f
  | .disj _ _ => False
  | .conj _ _ => False
  | .within e _ => Single e

/-- All alternatives are the empty word. -/
def OnlyEpsilon : TRE K → Prop
  | .epsilon => True
  | .concat e f => OnlyEpsilon e ∧ OnlyEpsilon f
  | .disj e f => OnlyEpsilon e ∧ OnlyEpsilon f
  | _ => False

/-- The conditions for C66: no conjunction; letters are not 0 (which stands for the empty word in decisions); the operands of a
concatenation have one alternative; the operand of a time restriction has no empty word, and the restriction has a finite,
non-negative lower end; a repetition has some alternative which is not the empty word. -/
def Clean : TRE K → Prop
  | .atom c => c ≠ 0
  | .epsilon => True
  | .plus e => Clean e ∧ ¬ OnlyEpsilon e
  | .concat e f => Clean e ∧ Clean f ∧ Single e ∧ Single f
  | .disj e f => Clean e ∧ Clean f
  | .conj _ _ => False
  | .within e I => Clean e ∧ ¬ HasEpsilon e ∧ ∃ l s, I.lower = .fin l s ∧ 0 ≤ l

/-- The finite ends of the interval are integers. -/
def _root_.Verif.Interval.IntEnds (I : Interval K) : Prop :=
  (∀ c s, I.lower = .fin c s → ∃ n : Int, c = n) ∧ ∀ c s, I.upper = .fin c s → ∃ n : Int, c = n

/-- The finite ends of the time restrictions are integers. -/
def IntEnds : TRE K → Prop
  | .atom _ => True
  | .epsilon => True
  | .plus e => IntEnds e
  | .concat e f => IntEnds e ∧ IntEnds f
  | .disj e f => IntEnds e ∧ IntEnds f
  | .conj e f => IntEnds e ∧ IntEnds f
  | .within e I => IntEnds e ∧ I.IntEnds

/-- Built from the letter `c`. -/
def OnlyLetter (c : Alphabet) : TRE K → Prop
  | .atom c' => c' = c
  | .epsilon => False
  | .plus e => OnlyLetter c e
  | .concat e f => OnlyLetter c e ∧ OnlyLetter c f
  | .disj e f => OnlyLetter c e ∧ OnlyLetter c f
  | .conj _ _ => False
  | .within e _ => OnlyLetter c e

/-- Alternatives each of which is built from one letter. -/
def Letters : TRE K → Prop
  | .atom _ => True
  | .epsilon => False
  | .plus e => ∃ c, OnlyLetter c e
  | .concat e f => ∃ c, OnlyLetter c e ∧ OnlyLetter c f
  | .disj e f => Letters e ∧ Letters f
  | .conj _ _ => False
  | .within e _ => Letters e

/-- Alternatives of concatenations of parts which are built from one letter: repetitions and restrictions only of one letter. -/
def Flat : TRE K → Prop
  | .atom _ => True
  | .epsilon => True
  | .plus e => ∃ c, OnlyLetter c e
  | .concat e f => Flat e ∧ Flat f
  | .disj e f => Flat e ∧ Flat f
  | .conj _ _ => False
  | .within e _ => Letters e

/-- All time restrictions include their lower ends. -/
def Closed : TRE K → Prop
  | .atom _ => True
  | .epsilon => True
  | .plus e => Closed e
  | .concat e f => Closed e ∧ Closed f
  | .disj e f => Closed e ∧ Closed f
  | .conj e f => Closed e ∧ Closed f
  | .within e I => Closed e ∧ ∀ l s, I.lower = .fin l s → s = true

end TRE
end Verif
