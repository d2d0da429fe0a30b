import Verif.Model.Ascii2bin
import Verif.Lemmas.Dot
import Verif.Props.Reader

/-!
# C83: the output of `ascii2bin`
-/

set_option linter.unusedSectionVars false

namespace Verif.Props

variable {K : Type}

theorem scanRecord_event {N : NumScan K} {T : TextCode K} {e : Alphabet × K} {w : TWord K} (hw : T.Fits N (e :: w)) (rest : List Char)
    (p : Option Char × Option K) :
    scanRecord N (T.file (e :: w) ++ rest) p = ((some (T.letter e.1), some e.2), skipWhite (T.file w ++ rest)) := by
  obtain ⟨h1, h2, ⟨c, l, h3, h4⟩, hsc⟩ := hw e (by simp)
  have h5 : T.file (e :: w) ++ rest = T.letter e.1 :: ' ' :: (T.chars e.2 ++ '\n' :: (T.file w ++ rest)) := by
    simp [TextCode.file]
  unfold scanRecord
  rw [h5, skipWhite_cons h1]
  simp only
  rw [skipWhite_white (by decide)]
  have h6 : skipWhite (T.chars e.2 ++ '\n' :: (T.file w ++ rest)) = T.chars e.2 ++ '\n' :: (T.file w ++ rest) := by
    rw [h3]
    exact skipWhite_cons h4 _
  rw [h6, hsc _ _ (by decide)]
  simp only [Prod.mk.injEq, true_and]
  rw [skipWhite_white (by decide)]

theorem scanRecord_skip (N : NumScan K) (f : List Char) (p : Option Char × Option K) : scanRecord N (skipWhite f) p = scanRecord N f p := by
  unfold scanRecord
  rw [skipWhite_idem]

/-- The last event, or the variables as they were. -/
def lastVars (T : TextCode K) (p : Option Char × Option K) (w : TWord K) : Option Char × Option K :=
  w.foldl (fun _ e => (some (T.letter e.1), some e.2)) p

theorem asciiLoop_events {N : NumScan K} {T : TextCode K} {w : TWord K} (B : BinaryCode K) (hw : T.Fits N w) (rest : List Char) (k : Nat)
    (p : Option Char × Option K) :
    asciiLoop N B (w.length + k) (skipWhite (T.file w ++ rest)) p =
      (asciiLoop N B k (skipWhite rest) (lastVars T p w)).map (B.file w ++ ·) := by
  induction w generalizing p with
  | nil =>
    simp only [List.length_nil, Nat.zero_add, TextCode.file, List.flatMap_nil, List.nil_append, lastVars, List.foldl_nil, BinaryCode.file]
    cases asciiLoop N B k (skipWhite rest) p <;> rfl
  | cons e w ih =>
    rw [show (e :: w).length + k = (w.length + k) + 1 by simp; omega, asciiLoop, scanRecord_skip, scanRecord_event hw]
    simp only
    rw [ih (fun x hx => hw x (by simp [hx]))]
    have hv : lastVars T p (e :: w) = lastVars T (some (T.letter e.1), some e.2) w := rfl
    rw [hv, (hw e (by simp)).2.1]
    cases asciiLoop N B k (skipWhite rest) (lastVars T (some (T.letter e.1), some e.2) w) with
    | error x => rfl
    | ok out => simp [bind, Except.bind, Except.map, BinaryCode.file]

theorem noDigit_white {c : Char} (hc : isWhite c = true) (l : List Char) : NoDigit (c :: l) := by
  intro d hd
  simp only [List.head?_cons, Option.mem_def, Option.some.injEq] at hd
  subst hd
  simp only [isWhite, Bool.or_eq_true, decide_eq_true_eq] at hc
  rcases hc with ((hc | hc) | hc) | hc <;> subst hc <;> decide

theorem skipWhite_digits (n : Nat) (l : List Char) : skipWhite (showInt n ++ l) = showInt n ++ l := by
  have hne : Nat.toDigits 10 n ≠ [] := by simp
  have hd : ∀ c ∈ Nat.toDigits 10 n, c.isDigit = true := fun c hc => Nat.isDigit_of_mem_toDigits (by omega) (by omega) hc
  have hs : showInt n = Nat.toDigits 10 n := by simp [showInt]
  rw [hs]
  cases h : Nat.toDigits 10 n with
  | nil => exact absurd h hne
  | cons c ds =>
    have hc := hd c (by rw [h]; simp)
    have : isWhite c = false := by
      cases hw : isWhite c with
      | false => rfl
      | true =>
        have := noDigit_white hw [] c (by simp)
        rw [this] at hc
        cases hc
    exact skipWhite_cons this _

/-- **C83, what holds** (`_partial`: for texts which begin with a line with the number of events).  `ascii2bin` writes the number as an
`int` and then the binary file of the log: without the first four bytes the output is read as the log. -/
theorem ascii2bin_partial [Zero K] (N : NumScan K) (I : IntCode) (B : BinaryCode K) (T : TextCode K) (w : TWord K) (hw : T.Fits N w)
    (hn : w.length ≤ 2147483647) (rest : List Char) :
    ∃ out, ascii2bin N I B (showInt w.length ++ '\n' :: (T.file w ++ rest)) = .ok out ∧ out = I.bytes w.length ++ B.file w ∧
      ∀ D : Decoder K, B.Fits D w → vectorRead (getOneBinary D) (w.length + 1) (out.drop 4) = .ok w := by
  refine ⟨_, ?_, rfl, fun D hD => ?_⟩
  · unfold ascii2bin
    rw [skipWhite_digits, scanInt_show ⟨by omega, by omega⟩ (noDigit_white (by decide) _)]
    simp only [Int.toNat_natCast]
    rw [skipWhite_white (by decide)]
    have := asciiLoop_events B hw rest 0 (none, none)
    rw [Nat.add_zero] at this
    rw [this]
    simp [asciiLoop, Except.map, bind, Except.bind]
  · rw [List.drop_left' (I.length _)]
    have := binary_vector D B w hD [] (by simp) (w.length + 1) (by omega)
    simpa using this

/-- If the number is larger than that of the events, the last event is written again. -/
theorem ascii2bin_short (N : NumScan K) (I : IntCode) (B : BinaryCode K) (T : TextCode K) (w : TWord K) (e : Alphabet × K)
    (hw : T.Fits N (w ++ [e])) (k : Nat) (hn : w.length + 1 + k ≤ 2147483647) (rest : List Char) (hr : ∀ c ∈ rest, isWhite c = true) :
    ascii2bin N I B (showInt (w.length + 1 + k : Nat) ++ '\n' :: (T.file (w ++ [e]) ++ rest)) =
      .ok (I.bytes (w.length + 1 + k : Nat) ++ B.file (w ++ e :: List.replicate k e)) := by
  unfold ascii2bin
  rw [skipWhite_digits, scanInt_show ⟨by omega, by omega⟩ (noDigit_white (by decide) _)]
  simp only [Int.toNat_natCast]
  rw [skipWhite_white (by decide)]
  have := asciiLoop_events B hw rest k (none, none)
  rw [List.length_append, List.length_singleton] at this
  rw [this]
  have hlast : lastVars T (none, none) (w ++ [e]) = (some (T.letter e.1), some e.2) := by simp [lastVars]
  have hrep : asciiLoop N B k (skipWhite rest) (some (T.letter e.1), some e.2) = .ok (B.file (List.replicate k e)) := by
    rw [skipWhite_all hr]
    clear this hn
    induction k with
    | zero => simp [asciiLoop, BinaryCode.file]
    | succ k ih =>
      rw [asciiLoop]
      simp only [scanRecord, skipWhite, List.dropWhile_nil]
      rw [ih]
      simp [bind, Except.bind, BinaryCode.file, List.replicate_succ, (hw e (by simp)).2.1]
  rw [hlast, hrep]
  simp [Except.map, bind, Except.bind, BinaryCode.file]

/-- If the number of the last record is missing, its letter is written with the time of the event before it. -/
theorem ascii2bin_missing (N : NumScan K) (I : IntCode) (B : BinaryCode K) (T : TextCode K) (w : TWord K) (e : Alphabet × K)
    (hw : T.Fits N (w ++ [e])) (hn : w.length + 2 ≤ 2147483647) (c : Char) (hc : isWhite c = false) (rest : List Char)
    (hr : (N.scan (skipWhite rest)).1 = none) :
    ascii2bin N I B (showInt (w.length + 2 : Nat) ++ '\n' :: (T.file (w ++ [e]) ++ c :: rest)) =
      .ok (I.bytes (w.length + 2 : Nat) ++ (B.file (w ++ [e]) ++ B.byte c.toNat :: B.bytes e.2)) := by
  unfold ascii2bin
  rw [skipWhite_digits, scanInt_show ⟨by omega, by omega⟩ (noDigit_white (by decide) _)]
  simp only [Int.toNat_natCast]
  rw [skipWhite_white (by decide)]
  have := asciiLoop_events B hw (c :: rest) 1 (none, none)
  rw [List.length_append, List.length_singleton] at this
  rw [this]
  have hlast : lastVars T (none, none) (w ++ [e]) = (some (T.letter e.1), some e.2) := by simp [lastVars]
  have hone : asciiLoop N B 1 (skipWhite (c :: rest)) (some (T.letter e.1), some e.2) = .ok (B.byte c.toNat :: B.bytes e.2) := by
    rw [asciiLoop, scanRecord_skip, scanRecord, skipWhite_cons hc]
    cases hs : N.scan (skipWhite rest) with
    | mk x f =>
      rw [hs] at hr
      simp only at hr
      subst hr
      simp [asciiLoop, bind, Except.bind, hs]
  rw [hlast, hone]
  simp [Except.map, bind, Except.bind]

/-- **C83 is false**: for the text file of a log, which `monaa` reads, `ascii2bin` has undefined behaviour; with a first line with the
number of events, `monaa -b` reads another log from its output. -/
theorem ascii2bin_wrong :
    (∃ (T : TextCode Nat) (w : TWord Nat), T.Fits toyScan w ∧ ∀ I, ascii2bin toyScan I toyBinary (T.file w) = .error .ub) ∧
    ∃ (T : TextCode Nat) (w : TWord Nat) (I : IntCode) (out : List UInt8), T.Fits toyScan w ∧ toyBinary.Fits toyDecoder w ∧
      ascii2bin toyScan I toyBinary (showInt w.length ++ '\n' :: T.file w) = .ok out ∧
      vectorRead (getOneBinary toyDecoder) (w.length + 1) out ≠ .ok w := by
  refine ⟨⟨toyText, [(97, 12), (98, 7)], toyText_fits, fun I => rfl⟩,
    toyText, [(97, 12), (98, 7)], ⟨fun n => [UInt8.ofNat n.toNat, 0, 0, 0], fun _ => rfl⟩, _, toyText_fits, ?_, rfl, by decide +kernel⟩
  intro e he
  simp only [List.mem_cons, List.not_mem_nil, or_false] at he
  rcases he with rfl | rfl <;> exact ⟨by decide, by decide⟩

/-- The hypotheses are met: the log `a 12, b 7`, with a first line with the number 2. -/
example : toyText.Fits toyScan [(97, 12), (98, 7)] ∧ showInt 2 ++ '\n' :: toyText.file [(97, 12), (98, 7)] = "2\na 12\nb 7\n".toList ∧
    showInt 4 ++ '\n' :: toyText.file [(97, 12), (98, 7)] = "4\na 12\nb 7\n".toList :=
  ⟨toyText_fits, by decide +kernel, by decide +kernel⟩

example : isWhite 'c' = false ∧ (toyScan.scan (skipWhite "".toList)).1 = none := by decide +kernel

end Verif.Props
