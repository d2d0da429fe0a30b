import Verif.Lemmas.Reader
import Verif.Props.Container
import Mathlib.Data.Rat.Floor

/-!
# Properties of reading logs from files (C08, C47, C48)
-/

namespace Verif.Props

variable {K : Type}

/-- **C08.** The in-memory container reads from the binary file of a log, followed by an incomplete record, exactly the
events of the log. -/
theorem binary_vector [Zero K] (D : Decoder K) (B : BinaryCode K) (w : TWord K)
    (hw : B.Fits D w) (rest : List UInt8) (hr : rest.length < 9) (fuel : Nat)
    (hf : w.length < fuel) : vectorRead (getOneBinary D) fuel (B.file w ++ rest) = .ok w :=
  vectorReadLoop_codes (binary_end D) (binary_codes hw hr) _ hf

/-- **C08.** The streaming container on the binary file of a log, followed by an incomplete record, gives after any
sequence of calls the answers it gives on the log: the `n`-th record is the `n`-th event, and the end is where the
complete records end. -/
theorem binary_lazy [Zero K] (D : Decoder K) (B : BinaryCode K) (w : TWord K)
    (hw : B.Fits D w) (rest : List UInt8) (hr : rest.length < 9) (ops : List LazyOp)
    (n : Nat) :
    let d := lazyFileAfter (getOneBinary D) (B.file w ++ rest) ops
    ((d.fetch (getOneBinary D) n).1 = true ↔ discarded ops ≤ n ∧ n < w.length) ∧
    ((∃ e, d.get n = .ok e ∧ w[n]? = some e) ∨ d.get n = .error .outOfRange) ∧
    d.get n = (lazyAfter w ops).get n ∧ d.N = (lazyAfter w ops).size := by
  intro d
  have h : LazySim _ _ d (lazyAfter w ops) := lazyFileAfter_sim (binary_end D) (binary_codes hw hr) ops
  refine ⟨?_, ?_, h.get n, h.N⟩
  · rw [(h.fetch (binary_end D) n).1]
    exact lazy_fetch_iff w ops n
  · rw [h.get n]
    exact lazy_at_event_or_throw w ops n

/-- A code for small natural instants, as an example: the instant is the last of the eight bytes. -/
def toyDecoder : Decoder Nat where
  letter b := b.toNat
  time bs := (bs.getD 7 0).toNat

def toyBinary : BinaryCode Nat := ⟨fun a => UInt8.ofNat a, fun t => [0, 0, 0, 0, 0, 0, 0, UInt8.ofNat t], fun _ => rfl⟩

/-- The hypotheses are met: a file with two records and a half. -/
example : (∀ w : TWord Nat, (∀ e ∈ w, e.1 < 256 ∧ e.2 < 256) → toyBinary.Fits toyDecoder w) ∧
    toyBinary.file [(97, 1), (98, 7)] ++ [97, 0, 0] = [97, 0, 0, 0, 0, 0, 0, 0, 1, 98, 0, 0, 0, 0, 0, 0, 0, 7, 97, 0, 0] ∧
    vectorRead (getOneBinary toyDecoder) 5
      [97, 0, 0, 0, 0, 0, 0, 0, 1, 98, 0, 0, 0, 0, 0, 0, 0, 7, 97, 0, 0] = .ok [(97, 1), (98, 7)] := by
  refine ⟨fun w hw e he => ?_, by decide, rfl⟩
  have := hw e he
  constructor
  · simp only [toyBinary, toyDecoder, UInt8.toNat_ofNat']
    exact Nat.mod_eq_of_lt this.1
  · simp only [toyBinary, toyDecoder, List.getD_cons_succ, List.getD_cons_zero, UInt8.toNat_ofNat']
    exact Nat.mod_eq_of_lt this.2

/-- **C47.** The text file of a log (a line with the label and the instant per event; labels are not white space) is
read back exactly, by both containers, whatever white space follows. -/
theorem text_vector [Zero K] (N : NumScan K) (T : TextCode K) (w : TWord K) (hw : T.Fits N w) (rest : List Char)
    (hr : ∀ c ∈ rest, isWhite c = true) (fuel : Nat) (hf : w.length < fuel) :
    vectorRead (getOne N) fuel (T.file w ++ rest) = .ok w := by
  exact vectorReadLoop_codes (text_end N) (text_codes hw (skipWhite_all hr)) _ hf

/-- **C47**, the streaming container. -/
theorem text_lazy [Zero K] (N : NumScan K) (T : TextCode K) (w : TWord K) (hw : T.Fits N w) (rest : List Char)
    (hr : ∀ c ∈ rest, isWhite c = true) (ops : List LazyOp) (n : Nat) :
    let d := lazyFileAfter (getOne N) (T.file w ++ rest) ops
    ((d.fetch (getOne N) n).1 = true ↔ discarded ops ≤ n ∧ n < w.length) ∧
    ((∃ e, d.get n = .ok e ∧ w[n]? = some e) ∨ d.get n = .error .outOfRange) ∧
    d.get n = (lazyAfter w ops).get n ∧ d.N = (lazyAfter w ops).size := by
  intro d
  have hr' := skipWhite_all hr
  have h : LazySim _ _ d (lazyAfter w ops) := lazyFileAfter_sim (text_end N) (text_codes hw hr') ops
  refine ⟨?_, ?_, h.get n, h.N⟩
  · rw [(h.fetch (text_end N) n).1]
    exact lazy_fetch_iff w ops n
  · rw [h.get n]
    exact lazy_at_event_or_throw w ops n

/-- The decimal digits at the beginning. -/
def digits : List Char → List Char × List Char
  | [] => ([], [])
  | c :: l => if c.isDigit then ((c :: (digits l).1), (digits l).2) else ([], c :: l)

theorem digits_le : ∀ f, (digits f).2.length ≤ f.length
  | [] => Nat.le_refl _
  | c :: l => by
    unfold digits
    split
    · exact Nat.le_succ_of_le (digits_le l)
    · exact Nat.le_refl _

/-- Scanning of natural numbers written in unary or decimal form, as an example. -/
def toyScan : NumScan Nat where
  scan f := match digits f with
    | ([], r) => (none, r)
    | (d, r) => (some (d.foldl (fun n c => 10 * n + (c.toNat - 48)) 0), r)
  le f := by
    have := digits_le f
    split <;> simp_all

theorem digits_white {d : List Char} (hd : ∀ c ∈ d, c.isDigit = true) {c : Char} (hc : isWhite c = true) (rest : List Char) :
    digits (d ++ c :: rest) = (d, c :: rest) := by
  have hc' : c.isDigit = false := by
    simp only [isWhite, Bool.or_eq_true, decide_eq_true_eq] at hc
    rcases hc with ((hc | hc) | hc) | hc <;> subst hc <;> decide
  induction d with
  | nil => simp [digits, hc']
  | cons a d ih =>
    simp only [List.cons_append, digits, hd a (by simp), if_true, ih fun x hx => hd x (by simp [hx])]

/-- Labels are characters; of the instants, 12 is written in digits. -/
def toyText : TextCode Nat := ⟨Char.ofNat, fun t => if t = 12 then ['1', '2'] else ['7']⟩

theorem toyText_fits : toyText.Fits toyScan [(97, 12), (98, 7)] := by
  intro e he
  simp only [List.mem_cons, List.not_mem_nil, or_false] at he
  rcases he with rfl | rfl
  · refine ⟨by decide, by decide, ⟨'1', ['2'], rfl, by decide⟩, fun c rest hc => ?_⟩
    simp only [toyText, toyScan, if_true, digits_white (d := ['1', '2']) (by decide) hc]
    rfl
  · refine ⟨by decide, by decide, ⟨'7', [], rfl, by decide⟩, fun c rest hc => ?_⟩
    have := digits_white (d := ['7']) (by decide) hc rest
    simp only [toyText, toyScan]
    rw [if_neg (by decide), this]
    rfl

/-- The hypotheses are met. -/
example : toyText.Fits toyScan [(97, 12), (98, 7)] ∧ toyText.file [(97, 12), (98, 7)] = "a 12\nb 7\n".toList :=
  ⟨toyText_fits, by decide⟩

example : vectorRead (getOne toyScan) 5 "a 12\nb 7\n".toList = .ok [(97, 12), (98, 7)] := by decide +kernel

/-- **C48 is false**: on a text file with an unreadable instant the two containers deliver different events (neither
reports an error): the in-memory one repeats the previous instant, the streaming one takes 0. -/
theorem containers_agree_wrong :
    ¬ ∀ (N : NumScan Nat) (f : List Char) (w : TWord Nat), vectorRead (getOne N) (f.length + 1) f = .ok w →
      ∀ n, ((lazyFileAfter (getOne N) f [.fetch n]).get n).toOption = w[n]? := by
  intro h
  have := h toyScan "a 12\nb x".toList [(97, 12), (98, 12), (120, 12)] (by decide +kernel) 1
  exact absurd this (by decide +kernel)

/-- **C48, what holds** (`_partial`: binary files only).  On every binary file, complete or not, the two containers deliver
the same events, and there are as many as complete records. -/
theorem containers_agree_partial [Zero K] (D : Decoder K) (f : List UInt8) :
    ∃ w : TWord K, w.length = f.length / 9 ∧ vectorRead (getOneBinary D) (f.length + 1) f = .ok w ∧
      ∀ (ops : List LazyOp) (n : Nat),
        (((lazyFileAfter (getOneBinary D) f ops).fetch (getOneBinary D) n).1 = true ↔ discarded ops ≤ n ∧ n < w.length) ∧
        (lazyFileAfter (getOneBinary D) f ops).get n = (lazyAfter w ops).get n := by
  obtain ⟨w, h1, h2⟩ := binary_total D f
  refine ⟨w, h1, vectorReadLoop_codes (binary_end D) h2 _ (by rw [h1]; omega), fun ops n => ?_⟩
  have h := lazyFileAfter_sim (binary_end D) h2 ops
  exact ⟨by rw [(h.fetch (binary_end D) n).1]; exact lazy_fetch_iff w ops n, h.get n⟩

end Verif.Props
