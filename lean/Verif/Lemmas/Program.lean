import Verif.Lemmas.Reader
import Verif.Lemmas.Monaa
import Verif.Props.Answers
import Verif.Spec.Program

/-!
# The parts of the program put together
-/

set_option linter.unusedSectionVars false

namespace Verif

variable {K : Type} [Field K] [LinearOrder K] [IsStrictOrderedRing K] [FloorRing K]

/-- How the log is read. -/
theorem Env.LogIs.implements {E : Env K} {name : String} {b : Bool} {w : TWord K} (h : E.LogIs name b w) :
    if b then ∃ Inv : Nat → Nat → LazyFile K (List UInt8) → Prop, Implements (lazyFileCont K _ (getOneBinary E.decoder)) w Inv ∧
        Inv 0 0 (LazyFile.mk0 (E.log name))
    else ∃ Inv : Nat → Nat → LazyFile K (List Char) → Prop, Implements (lazyFileCont K _ (getOne E.scan)) w Inv ∧
        Inv 0 0 (LazyFile.mk0 (charsOf (E.log name))) := by
  obtain ⟨bytes, hb, h⟩ := h
  have hlog : E.log name = bytes := by
    unfold Env.log
    rcases hb with ⟨rfl, rfl⟩ | ⟨hn, hb⟩
    · rfl
    · rw [if_neg hn, hb]
      rfl
  rw [hlog]
  split_ifs at h ⊢
  · obtain ⟨B, rest, hw, hr, h⟩ := h
    exact ⟨_, lazyFile_implements (binary_end E.decoder) w, Lazy.mk0 w, lazy_mk0 w, rfl, rfl, rfl, by rw [h]; exact binary_codes hw hr⟩
  · obtain ⟨T, rest, hw, hr, h⟩ := h
    exact ⟨_, lazyFile_implements (text_end E.scan) w, Lazy.mk0 w, lazy_mk0 w, rfl, rfl, rfl, by
      rw [show charsOf bytes = _ from h]; exact text_codes hw (skipWhite_all hr)⟩

theorem dollar_container {σ : Type} {C : Cont K σ} {w : TWord K} {Inv : Nat → Nat → σ → Prop} (H : Implements C w Inv) {s : σ}
    (h : Inv 0 0 s) (A : TA Nat) (fuel steps : Nat) (hs : w.length < steps) :
    monaaDollar id fuel steps C A s = monaaDollar id fuel steps (vectorCont K) A w := by
  unfold monaaDollar
  cases prepare id A with
  | error x => rfl
  | ok Ap =>
    simp only [bind, Except.bind]
    cases hT : makeTables K fuel Ap with
    | error x => rfl
    | ok T =>
      have hm := (sundayTable_shape (makeTables_spec hT).1).1
      simp only
      rw [matchLoop_spec (vector_implements w) (k := 0) (f := 0) rfl hm (by omega) hs, matchLoop_spec H h hm (by omega) hs]

theorem signal_container {σ : Type} {C : Cont K σ} {w : TWord K} {Inv : Nat → Nat → σ → Prop} (H : Implements C w Inv) {s : σ}
    (h : Inv 0 0 s) (A : TA Nat) (fuel steps efuel : Nat) (st : Option Nat) (hs : w.length < steps) :
    (monaa fuel steps efuel C st A s).1 = (monaa fuel steps efuel (vectorCont K) st A w).1 := by
  unfold monaa
  cases hT : makeTables K fuel A with
  | error x => rfl
  | ok T =>
    have hm := (sundayTable_shape (makeTables_spec hT).1).1
    simp only
    by_cases h1 : (A.states.all fun s => ((A.st s).next.find epsilon).isNone) = true
    · rw [if_pos h1, if_pos h1]
      simp only
      split_ifs
      · rw [matchLoop_spec (vector_implements w) (k := 0) (f := 0) rfl hm (by omega) hs, matchLoop_spec H h hm (by omega) hs]
      · rfl
    · rw [if_neg h1, if_neg h1]
      simp only
      rw [matchLoop_spec (vector_implements w) (k := 0) (f := 0) rfl hm (by omega) hs, matchLoop_spec H h hm (by omega) hs]

/-- The matcher on the file does what it does on the log. -/
theorem runEvent_eq {E : Env K} {name : String} {b : Bool} {w : TWord K} (h : E.LogIs name b w) (hs : w.length < E.steps) (A : TA Nat) :
    E.runEvent name b A = monaaDollar id E.fuel E.steps (vectorCont K) A w := by
  have := h.implements
  unfold Env.runEvent
  split_ifs at this ⊢ <;>
  · obtain ⟨Inv, H, hI⟩ := this
    exact dollar_container H hI A _ _ hs

theorem runSignal_eq {E : Env K} {name : String} {b : Bool} {w : TWord K} (h : E.LogIs name b w) (hs : w.length < E.steps) (A : TA Nat) :
    E.runSignal name b A = (monaa E.fuel E.steps E.efuel (vectorCont K) none A w).1 := by
  have := h.implements
  unfold Env.runSignal
  split_ifs at this ⊢ <;>
  · obtain ⟨Inv, H, hI⟩ := this
    exact signal_container H hI A _ _ _ _ hs

/-! ### the output -/

theorem printer_fold (zs : List (Zone K)) (p : Printer K) :
    (zs.foldl (ansPrinter K).push p).out = if p.isQuiet then p.out else p.out ++ zs.flatMap printBlock := by
  induction zs generalizing p with
  | nil => simp
  | cons z zs ih =>
    simp only [List.foldl_cons]
    rw [ih]
    simp only [ansPrinter]
    split_ifs <;> simp

theorem printed_matched (zs : List (Zone K)) (q : Bool) :
    (Outcome.matched zs q).printed = if q then [] else zs.flatMap printBlock := by
  simp only [Outcome.printed, printer_fold, Printer.new, List.nil_append]

/-- The rows of a block. -/
def blockRows (z : Zone K) : List (OutLine K) :=
  [.row (negFirst (z.get 0 1)) "t" (z.get 1 0), .row (negFirst (z.get 0 2)) "t'" (z.get 2 0), .row (negFirst (z.get 1 2)) "t' - t" (z.get 2 1)]

theorem printBlock_rows (z : Zone K) : printBlock z = blockRows z ++ [.separator] := rfl

theorem sep_notMem (z : Zone K) : (.separator : OutLine K) ∉ blockRows z := by simp [blockRows]

theorem split_sep {α : Type} {x : α} : ∀ {a b c d : List α}, x ∉ a → x ∉ c → a ++ x :: b = c ++ x :: d → a = c ∧ b = d
  | [], b, [], d, _, _, h => by simpa using h
  | [], b, y :: c, d, _, hc, h => by
    simp only [List.nil_append, List.cons_append, List.cons.injEq] at h
    exact absurd (by simp [h.1]) hc
  | y :: a, b, [], d, ha, _, h => by
    simp only [List.nil_append, List.cons_append, List.cons.injEq] at h
    exact absurd (by simp [h.1]) ha
  | y :: a, b, z :: c, d, ha, hc, h => by
    simp only [List.cons_append, List.cons.injEq] at h
    obtain ⟨h1, h2⟩ := split_sep (fun h => ha (by simp [h])) (fun h => hc (by simp [h])) h.2
    exact ⟨by rw [h.1, h1], h2⟩

/-- The pairs of the output are those of the printed zones. -/
theorem printedPair_iff (zs : List (Zone K)) (t t' : K) :
    PrintedPair (zs.flatMap printBlock) t t' ↔ ∃ z ∈ zs, ∀ l ∈ printBlock z, l.Holds t t' := by
  constructor
  · rintro ⟨pre, block, post, h, hpre, hb, hh⟩
    induction zs generalizing pre with
    | nil => simp at h
    | cons z zs ih =>
      rw [List.flatMap_cons, printBlock_rows] at h
      rcases hpre with rfl | ⟨p, rfl⟩
      · obtain ⟨h1, -⟩ := split_sep (sep_notMem z) hb (by simpa using h)
        refine ⟨z, by simp, ?_⟩
        rw [printBlock_rows, h1]
        intro l hl
        rcases List.mem_append.1 hl with hl | hl
        · exact hh l hl
        · rw [List.mem_singleton.1 hl]
          trivial
      · -- the first separator of `p ++ [separator]`
        by_cases hp : (.separator : OutLine K) ∈ p
        · obtain ⟨p1, p2, h3, h4⟩ := List.eq_append_cons_of_mem hp
          subst h3
          obtain ⟨h1, h2⟩ := split_sep (b := zs.flatMap printBlock) (c := p1) (d := p2 ++ .separator :: (block ++ .separator :: post))
            (sep_notMem z) h4 (by simpa using h)
          obtain ⟨z', hz, h⟩ := ih (pre := p2 ++ [.separator]) (by simpa using h2) (Or.inr ⟨p2, rfl⟩)
          exact ⟨z', by simp [hz], h⟩
        · obtain ⟨h1, h2⟩ := split_sep (b := zs.flatMap printBlock) (c := p) (d := block ++ .separator :: post)
            (sep_notMem z) hp (by simpa using h)
          obtain ⟨z', hz, h⟩ := ih (pre := []) (by simpa using h2) (Or.inl rfl)
          exact ⟨z', by simp [hz], h⟩
  · rintro ⟨z, hz, h⟩
    obtain ⟨l1, l2, rfl⟩ := List.append_of_mem hz
    refine ⟨l1.flatMap printBlock, blockRows z, l2.flatMap printBlock, ?_, ?_, sep_notMem z, fun l hl => h l ?_⟩
    · simp [printBlock_rows]
    · rcases List.eq_nil_or_concat l1 with rfl | ⟨l, y, rfl⟩
      · exact Or.inl rfl
      · refine Or.inr ⟨l.flatMap printBlock ++ blockRows y, ?_⟩
        simp [printBlock_rows]
    · rw [printBlock_rows]
      exact List.mem_append_left _ hl

/-- A tight bound which entails a finite one is finite. -/
theorem fin_of_entails {z : Zone K} (ht : z.Tight) {i j : Nat} (hi : i < z.n) (hj : j < z.n) (hij : i ≠ j)
    (h : z.Entails i j (.fin 0 true)) : ∃ c s, z.get i j = .fin c s := by
  cases hg : z.get i j with
  | fin c s => exact ⟨c, s, rfl⟩
  | inf s =>
    have := ht i j hi hj hij _ h 1 (by rw [hg]; simp [Bnd.sat])
    simp only [sat_t] at this
    exact absurd this (by simp)

/-- What is printed for a zone of matches describes the zone. -/
theorem printBlock_has {z : Zone K} (hn : z.n = 3) (hne : ∃ t t', z.Has t t') (ht : z.Tight)
    (h0 : ∀ t t', z.Has t t' → 0 ≤ t ∧ t ≤ t') (t t' : K) : (∀ l ∈ printBlock z, l.Holds t t') ↔ z.Has t t' := by
  have key : ∀ v, z.Sat v → 0 ≤ v 0 ∧ v 0 ≤ v 1 := by
    intro v hv
    refine h0 _ _ fun i j hi hj => ?_
    have := hv i j hi hj
    rw [hn] at hi hj
    have hi' : i = 0 ∨ i = 1 ∨ i = 2 := by omega
    have hj' : j = 0 ∨ j = 1 ∨ j = 2 := by omega
    rcases hi' with rfl | rfl | rfl <;> rcases hj' with rfl | rfl | rfl <;> exact this
  refine Props.printed_block_exact z hn ?_ ⟨?_, ?_, ?_⟩ t t'
  · obtain ⟨a, b, h⟩ := hne
    intro i hi
    have := h i i (by omega) (by omega)
    simpa using this
  · refine fin_of_entails ht (by omega) (by omega) (by omega) fun v hv => ?_
    have := key v hv
    simp only [Zone.ext, sat_t]
    simpa using this.1
  · refine fin_of_entails ht (by omega) (by omega) (by omega) fun v hv => ?_
    have := key v hv
    simp only [Zone.ext, sat_t]
    simpa using this.1.trans this.2
  · refine fin_of_entails ht (by omega) (by omega) (by omega) fun v hv => ?_
    have := key v hv
    simp only [Zone.ext, sat_t]
    simpa using this.2

end Verif
