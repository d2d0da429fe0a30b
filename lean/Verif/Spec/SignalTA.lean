import Verif.Spec.DNF
import Verif.Spec.TA

/-!
# Signals shown by timed words
-/

namespace Verif

variable {K : Type} [Field K] [LinearOrder K] [IsStrictOrderedRing K]

/-- The word `w` shows the signal `x` which begins at `t0`: the value is `c` until the time of the event `(c, t)`. -/
inductive Shows : K → TWord K → Sig K → Prop
  | nil {t0 : K} : Shows t0 [] Sig.nil
  | cons {t0 : K} {c : Alphabet} {t : K} {w : TWord K} {x : Sig K} (h : t0 ≤ t) (hw : Shows t w x) :
    Shows t0 ((c, t) :: w) ((Sig.const c (t - t0) (sub_nonneg.2 h)).app x)

/-- The signals of an expression in which every letter takes some time. -/
def TRE.PosSignals : TRE K → Sig K → Prop
  | .atom c, x => ∃ d h, x = Sig.const c d h ∧ 0 < d
  | .epsilon, x => x = Sig.nil
  | .plus e, x => Iter Sig.app (PosSignals e) x
  | .concat e f, x => ∃ y z, x = y.app z ∧ PosSignals e y ∧ PosSignals f z
  | .disj e f, x => PosSignals e x ∨ PosSignals f x
  | .conj e f, x => PosSignals e x ∧ PosSignals f x
  | .within e I, x => PosSignals e x ∧ I.Mem x.dur

/-- The letter of the log at the instant `t`: that of the first event after `t` (0 after the last event). -/
def valueAt (w : TWord K) (t : K) : Alphabet := ((w.find? fun e => decide (t < e.2)).map (·.1)).getD 0

/-- The part from `t` to `t'` of the log read as a signal. -/
def segment (w : TWord K) (t t' : K) (h : t ≤ t') : Sig K :=
  ⟨t' - t, fun u => if 0 ≤ u ∧ u < t' - t then valueAt w (t + u) else 0, sub_nonneg.2 h, fun _ hu => if_neg hu⟩

end Verif
