import Verif.Spec.Reader
import Verif.Lemmas.Lazy

/-! Files, and the containers reading them. -/

namespace Verif

variable {K F : Type}

/-- `f` holds the events `w`, then only something satisfying `E`. -/
def Codes (g : F → Alphabet × K → ReadResult K F) (E : F → Prop) : TWord K → F → Prop
  | [], f => E f
  | e :: w, f => ∃ f', (∀ p, g f p = (false, e, f')) ∧ Codes g E w f'

/-- At the end nothing is read any more. -/
def EndOk (g : F → Alphabet × K → ReadResult K F) (E : F → Prop) : Prop :=
  ∀ f, E f → ∀ p, (g f p).1 = true ∧ E (g f p).2.2

variable {g : F → Alphabet × K → ReadResult K F} {E : F → Prop}

theorem vectorReadLoop_codes (hE : EndOk g E) {w : TWord K} {f : F} (h : Codes g E w f) (p : Alphabet × K)
    {fuel : Nat} (hf : w.length < fuel) : vectorReadLoop g fuel f p = .ok w := by
  induction w generalizing f p fuel with
  | nil =>
    cases fuel with
    | zero => simp at hf
    | succ fuel =>
      have := (hE f h p).1
      unfold vectorReadLoop
      split
      · rfl
      · rename_i e f' he
        rw [he] at this
        simp at this
  | cons e w ih =>
    cases fuel with
    | zero => simp at hf
    | succ fuel =>
      obtain ⟨f', h1, h2⟩ := h
      simp only [vectorReadLoop, h1 p]
      rw [ih h2 e (by simpa using hf)]
      rfl

section lazy
variable [Zero K]

/-- The container on a file behaves as the one on the events of the file. -/
structure LazySim (g : F → Alphabet × K → ReadResult K F) (E : F → Prop) (d : LazyFile K F) (l : Lazy K) : Prop where
  front : d.front = l.front
  N : d.N = l.N
  deque : d.deque = l.deque
  file : Codes g E l.file d.file

theorem LazySim.beyond {d : LazyFile K F} {l : Lazy K} (h : LazySim g E d l) (n : Nat) : d.beyond n = l.beyond n := by
  unfold LazyFile.beyond Lazy.beyond
  rw [h.N]
  cases l.N <;> rfl

theorem LazySim.get {d : LazyFile K F} {l : Lazy K} (h : LazySim g E d l) (n : Nat) : d.get n = l.get n := by
  unfold LazyFile.get Lazy.get
  rw [h.beyond, h.front, h.deque]
  rfl

theorem LazySim.fetchLoop (hE : EndOk g E) {d : LazyFile K F} {l : Lazy K} (h : LazySim g E d l) (k : Nat) :
    (d.fetchLoop g k).1 = (l.fetchLoop k).1 ∧ LazySim g E (d.fetchLoop g k).2 (l.fetchLoop k).2 := by
  induction k generalizing d l with
  | zero => exact ⟨rfl, h⟩
  | succ k ih =>
    have hf := h.file
    unfold LazyFile.fetchLoop Lazy.fetchLoop
    cases hl : l.file with
    | nil =>
      rw [hl] at hf
      have := hE _ hf (0, 0)
      split
      · rename_i e f' he
        rw [he] at this
        refine ⟨rfl, h.front, ?_, h.deque, ?_⟩
        · simp [h.front, h.deque]
        · simp only [hl]
          exact this.2
      · rename_i e f' he
        rw [he] at this
        simp at this
    | cons e w =>
      rw [hl] at hf
      obtain ⟨f', h1, h2⟩ := hf
      simp only [h1 (0, 0)]
      exact ih ⟨h.front, h.N, by simp [h.deque], h2⟩

theorem LazySim.fetch (hE : EndOk g E) {d : LazyFile K F} {l : Lazy K} (h : LazySim g E d l) (n : Nat) :
    (d.fetch g n).1 = (l.fetch n).1 ∧ LazySim g E (d.fetch g n).2 (l.fetch n).2 := by
  unfold LazyFile.fetch Lazy.fetch
  rw [h.beyond, h.front, h.deque]
  split_ifs
  · exact ⟨rfl, h⟩
  · exact h.fetchLoop hE _

theorem skipLoop_codes (hE : EndOk g E) {w : TWord K} {f : F} (h : Codes g E w f) (k : Nat) :
    Codes g E (w.drop k) (LazyFile.skipLoop g k f) := by
  induction k generalizing w f with
  | zero => exact h
  | succ k ih =>
    cases w with
    | nil =>
      have := ih (w := []) (f := (g f (0, 0)).2.2) (hE f h _).2
      simpa [LazyFile.skipLoop] using this
    | cons e w =>
      obtain ⟨f', h1, h2⟩ := h
      simp only [LazyFile.skipLoop, h1 (0, 0), List.drop_succ_cons]
      exact ih h2

theorem LazySim.setFront (hE : EndOk g E) {d : LazyFile K F} {l : Lazy K} (h : LazySim g E d l) (n : Nat) :
    (∃ x, d.setFront g n = .error x ∧ l.setFront n = .error x) ∨
      ∃ d' l', d.setFront g n = .ok d' ∧ l.setFront n = .ok l' ∧ LazySim g E d' l' := by
  unfold LazyFile.setFront Lazy.setFront
  rw [h.front, h.deque]
  split_ifs
  · exact Or.inl ⟨_, rfl, rfl⟩
  · exact Or.inr ⟨_, _, rfl, rfl, rfl, h.N, rfl, skipLoop_codes hE h.file _⟩

theorem LazySim.exec (hE : EndOk g E) {d : LazyFile K F} {l : Lazy K} (h : LazySim g E d l) (o : LazyOp) :
    LazySim g E (o.execFile g d) (o.exec l) := by
  cases o with
  | fetch n => exact (h.fetch hE n).2
  | at' n => exact h
  | setFront n =>
    simp only [LazyOp.execFile, LazyOp.exec]
    rcases h.setFront hE n with ⟨x, h1, h2⟩ | ⟨d', l', h1, h2, h3⟩
    · rw [h1, h2]
      exact h
    · rw [h1, h2]
      exact h3

theorem lazyFileAfter_sim (hE : EndOk g E) {w : TWord K} {f : F} (h : Codes g E w f) (ops : List LazyOp) :
    LazySim g E (lazyFileAfter g f ops) (lazyAfter w ops) := by
  suffices ∀ (ops : List LazyOp) (d : LazyFile K F) (l : Lazy K), LazySim g E d l →
      LazySim g E (ops.foldl (LazyOp.execFile g) d) (ops.foldl LazyOp.exec l) from
    this ops _ _ ⟨rfl, rfl, rfl, h⟩
  intro ops
  induction ops with
  | nil => exact fun _ _ h => h
  | cons o ops ih => exact fun d l h => ih _ _ (h.exec hE o)

/-- It can be used as the log. -/
theorem lazyFile_implements (hE : EndOk g E) (w : TWord K) :
    Implements (lazyFileCont K F g) w (fun f k d => ∃ l, LazyInv w f k l ∧ LazySim g E d l) where
  fetch := by
    rintro f k d n ⟨l, hl, hd⟩ hn
    obtain ⟨h1, k', h2, h3, h4⟩ := (lazy_implements w).fetch hl hn
    obtain ⟨h5, h6⟩ := hd.fetch hE n
    exact ⟨h5.trans h1, k', h2, ⟨_, h3, h6⟩, h4⟩
  get := by
    rintro f k d n ⟨l, hl, hd⟩ hn hk hw
    exact (hd.get n).trans ((lazy_implements w).get hl hn hk hw)
  setFront := by
    rintro f k d n ⟨l, hl, hd⟩ hn
    obtain ⟨l', k', h1, h2, h3⟩ := (lazy_implements w).setFront hl hn
    change l.setFront n = _ at h1
    rcases hd.setFront hE n with ⟨x, -, h5⟩ | ⟨d', l'', h4, h5, h6⟩
    · rw [h1] at h5; cases h5
    · rw [h1] at h5
      cases h5
      exact ⟨d', k', h4, h2, l', h3, h6⟩

end lazy

/-! ### binary files -/

theorem fread_append {n : Nat} (a b : List UInt8) (h : a.length = n) : fread n (a ++ b) = (some a, b) := by
  subst h
  simp [fread]

theorem binary_end (D : Decoder K) : EndOk (getOneBinary D) (fun f => f.length < 9) := by
  intro f hf p
  rcases f with _ | ⟨b, f⟩
  · simp [getOneBinary, fread]
  · have : ¬ 8 ≤ f.length := by simp at hf; omega
    simp [getOneBinary, fread, this]

theorem binary_codes {D : Decoder K} {B : BinaryCode K} {w : TWord K}
    (hw : B.Fits D w) {rest : List UInt8} (hr : rest.length < 9) :
    Codes (getOneBinary D) (fun f => f.length < 9) w (B.file w ++ rest) := by
  induction w with
  | nil => exact hr
  | cons e w ih =>
    refine ⟨B.file w ++ rest, ?_, ih fun x hx => hw x (by simp [hx])⟩
    intro p
    have h1 : B.file (e :: w) ++ rest = [B.byte e.1] ++ (B.bytes e.2 ++ (B.file w ++ rest)) := by
      simp [BinaryCode.file]
    unfold getOneBinary
    rw [h1, fread_append (n := 1) [B.byte e.1] _ rfl]
    simp only
    rw [fread_append _ _ (B.length e.2)]
    simp only [(hw e (by simp)).1, (hw e (by simp)).2]

/-- Every binary file is read as some log: the two containers agree on it. -/
theorem binary_total (D : Decoder K) (f : List UInt8) :
    ∃ w, w.length = f.length / 9 ∧ Codes (getOneBinary D) (fun f => f.length < 9) w f := by
  induction hn : f.length using Nat.strong_induction_on generalizing f with
  | _ n ih =>
    by_cases h : n < 9
    · exact ⟨[], by simp; omega, by subst hn; exact h⟩
    · rcases f with _ | ⟨b, f⟩
      · simp at hn; omega
      · simp only [List.length_cons] at hn
        obtain ⟨w, h1, h2⟩ := ih (f.drop 8).length (by simp; omega) (f.drop 8) rfl
        refine ⟨(D.letter b, D.time (f.take 8)) :: w, ?_, f.drop 8, ?_, h2⟩
        · simp only [List.length_cons, h1, List.length_drop]
          omega
        · intro p
          have : 8 ≤ f.length := by omega
          simp [getOneBinary, fread, this]

/-! ### text files -/

theorem text_end (N : NumScan K) : EndOk (getOne N) (fun f => skipWhite f = []) := by
  intro f hf p
  unfold getOne
  rw [hf]
  exact ⟨rfl, rfl⟩

theorem skipWhite_cons {c : Char} (h : isWhite c = false) (l : List Char) : skipWhite (c :: l) = c :: l := by
  simp [skipWhite, h]

theorem skipWhite_white {c : Char} (h : isWhite c = true) (l : List Char) : skipWhite (c :: l) = skipWhite l := by
  simp [skipWhite, h]

theorem skipWhite_idem (l : List Char) : skipWhite (skipWhite l) = skipWhite l := by
  induction l with
  | nil => rfl
  | cons c l ih =>
    cases h : isWhite c
    · rw [skipWhite_cons h, skipWhite_cons h]
    · rw [skipWhite_white h, ih]

theorem skipWhite_all {l : List Char} (h : ∀ c ∈ l, isWhite c = true) : skipWhite l = [] := by
  induction l with
  | nil => rfl
  | cons c l ih => rw [skipWhite_white (h c (by simp)), ih fun x hx => h x (by simp [hx])]

theorem getOne_skip (N : NumScan K) (f : List Char) (p : Alphabet × K) : getOne N (skipWhite f) p = getOne N f p := by
  unfold getOne
  rw [skipWhite_idem]

theorem text_skip (N : NumScan K) {w : TWord K} {f : List Char}
    (h : Codes (getOne N) (fun f => skipWhite f = []) w f) :
    Codes (getOne N) (fun f => skipWhite f = []) w (skipWhite f) := by
  cases w with
  | nil => exact (skipWhite_idem f).trans h
  | cons e w =>
    obtain ⟨f', h1, h2⟩ := h
    exact ⟨f', fun p => (getOne_skip N f p).trans (h1 p), h2⟩

theorem text_codes {N : NumScan K} {T : TextCode K} {w : TWord K} (hw : T.Fits N w) {rest : List Char}
    (hr : skipWhite rest = []) :
    Codes (getOne N) (fun f => skipWhite f = []) w (T.file w ++ rest) := by
  induction w with
  | nil => exact hr
  | cons e w ih =>
    refine ⟨skipWhite (T.file w ++ rest), ?_, text_skip N (ih fun x hx => hw x (by simp [hx]))⟩
    intro p
    obtain ⟨h1, h2, ⟨c, l, h3, h4⟩, hsc⟩ := hw e (by simp)
    have h5 : T.file (e :: w) ++ rest
        = T.letter e.1 :: ' ' :: (T.chars e.2 ++ '\n' :: (T.file w ++ rest)) := by
      simp [TextCode.file]
    unfold getOne
    rw [h5, skipWhite_cons h1]
    simp only
    rw [skipWhite_white (by decide)]
    have h6 : skipWhite (T.chars e.2 ++ '\n' :: (T.file w ++ rest))
        = T.chars e.2 ++ '\n' :: (T.file w ++ rest) := by
      rw [h3]
      exact skipWhite_cons h4 _
    rw [h6, hsc _ _ (by decide)]
    simp only [h2, Prod.mk.injEq, true_and]
    rw [skipWhite_white (by decide)]

end Verif
