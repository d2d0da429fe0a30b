import Verif.Props.Program
import Verif.Props.Prefix

/-!
# Patterns with the same language give the same results (C92)

The theorems are about a pattern whose language is the union of those of two others; with two equal ones this is about patterns with
the same language.
-/

set_option linter.unusedSectionVars false

namespace Verif.Props

open Bnd

/-! ### refutation -/

/-- `loopPattern` with a second way out of the loop: `3 -D→ 6 -B→ 4`. -/
def exitPattern : TA Nat :=
  { states := [1, 2, 3, 4, 5, 6], init := [1]
    st := fun s =>
      if s = 1 then ⟨false, false, [(65, [⟨some 2, [], []⟩])]⟩
      else if s = 2 then ⟨false, false, [(67, [⟨some 3, [], []⟩]), (66, [⟨some 4, [], []⟩])]⟩
      else if s = 3 then ⟨false, false, [(68, [⟨some 2, [], []⟩, ⟨some 6, [], []⟩])]⟩
      else if s = 4 then ⟨false, false, [(36, [⟨some 5, [], []⟩])]⟩
      else if s = 5 then ⟨true, false, []⟩
      else if s = 6 then ⟨false, false, [(66, [⟨some 4, [], []⟩])]⟩
      else ⟨false, false, []⟩
    maxC := [] }

theorem exitPattern_edges {s : Nat} {a : Alphabet} {e : Transition Nat} (he : e ∈ exitPattern.edges s a) :
    (s = 1 ∧ a = 65 ∧ e = ⟨some 2, [], []⟩) ∨ (s = 2 ∧ a = 67 ∧ e = ⟨some 3, [], []⟩) ∨ (s = 2 ∧ a = 66 ∧ e = ⟨some 4, [], []⟩) ∨
    (s = 3 ∧ a = 68 ∧ (e = ⟨some 2, [], []⟩ ∨ e = ⟨some 6, [], []⟩)) ∨ (s = 4 ∧ a = 36 ∧ e = ⟨some 5, [], []⟩) ∨
    (s = 6 ∧ a = 66 ∧ e = ⟨some 4, [], []⟩) := by
  simp only [TA.edges, exitPattern] at he
  split_ifs at he with h1 h2 h3 h4 h5 h6 <;> simp only [Next.at'_cons, Next.at'_nil] at he <;> (try split_ifs at he with k1 k2) <;>
    simp at he <;> simp_all

/-- The states 2 and 6 are one. -/
def exitMap (s : Nat) : Nat := if s = 6 then 2 else s

theorem exit_reads {K : Type} [Field K] [LinearOrder K] {s s' : Nat} {r : Nat → K} {w : TWord K} (h : exitPattern.Reads s r w s') :
    loopPattern.Reads (exitMap s) r w (exitMap s') := by
  induction w generalizing s r with
  | nil =>
    have h' : s = s' := h
    subst h'
    exact (rfl : exitMap s = exitMap s)
  | cons a w ih =>
    obtain ⟨a, τ⟩ := a
    obtain ⟨e, he, q, hq, hg, h⟩ := h
    have := ih h
    rcases exitPattern_edges he with ⟨rfl, ha, rfl⟩ | ⟨rfl, ha, rfl⟩ | ⟨rfl, ha, rfl⟩ | ⟨rfl, ha, rfl | rfl⟩ | ⟨rfl, ha, rfl⟩ | ⟨rfl, ha, rfl⟩ <;>
      simp only [Option.some.injEq] at hq <;> subst hq <;> subst ha <;>
      first
      | exact ⟨⟨some 2, [], []⟩, by decide, 2, rfl, hg, this⟩
      | exact ⟨⟨some 3, [], []⟩, by decide, 3, rfl, hg, this⟩
      | exact ⟨⟨some 4, [], []⟩, by decide, 4, rfl, hg, this⟩
      | exact ⟨⟨some 5, [], []⟩, by decide, 5, rfl, hg, this⟩

theorem loop_sub {s : Nat} {a : Alphabet} {e : Transition Nat} (he : e ∈ loopPattern.edges s a) : e ∈ exitPattern.edges s a := by
  simp only [TA.edges, loopPattern] at he
  split_ifs at he with h1 h2 h3 h4 h5 <;> simp only [Next.at'_cons, Next.at'_nil] at he <;> (try split_ifs at he with k1 k2) <;>
    simp only [List.mem_singleton, List.not_mem_nil, List.append_nil, List.nil_append] at he <;> subst he <;> (try subst k1) <;>
    (try subst k2) <;> subst s <;> decide

theorem exit_of_loop {K : Type} [Field K] [LinearOrder K] {s s' : Nat} {r : Nat → K} {w : TWord K} (h : loopPattern.Reads s r w s') :
    exitPattern.Reads s r w s' := by
  induction w generalizing s r with
  | nil => exact h
  | cons a w ih =>
    obtain ⟨e, he, q, hq, hg, h⟩ := h
    exact ⟨e, loop_sub he, q, hq, hg, ih h⟩

/-- The two patterns accept the same words. -/
theorem exit_language (w : TWord ℚ) : exitPattern.Accepts w ↔ loopPattern.Accepts w := by
  constructor
  · rintro ⟨s, hs, s', h, hm⟩
    have hs' : s = 1 := by simpa [exitPattern] using hs
    subst hs'
    refine ⟨1, by decide, exitMap s', exit_reads h, ?_⟩
    have h5 : s' = 5 := by
      simp only [exitPattern] at hm
      split_ifs at hm with h1 h2 h3 h4 h5 h6 <;> first | exact h5 | cases hm
    subst h5
    rfl
  · rintro ⟨s, hs, s', h, hm⟩
    have hs' : s = 1 := by simpa [loopPattern] using hs
    subst hs'
    refine ⟨1, by decide, s', exit_of_loop h, ?_⟩
    have h5 : s' = 5 := by
      simp only [loopPattern] at hm
      split_ifs at hm with h1 h2 h3 h4 h5 <;> first | exact h5 | cases hm
    subst h5
    rfl

theorem exit_check : (match monaaDollar id 20 20 (vectorCont ℚ) exitPattern loopLog with
    | .ok zs => !zs.isEmpty
    | .error _ => false) = true := by decide +kernel

/-- **C92 is false**: two automata without clocks accept the same words, and something is reported for one of them only. -/
theorem same_language_wrong :
    ¬ ∀ (A B : TA Nat) (w : TWord ℚ) (fuel steps : Nat) (zs zs' : List (Zone ℚ)), (∀ u : TWord ℚ, A.Accepts u ↔ B.Accepts u) →
      A.NoSilent → B.NoSilent → LogOk w → LogStrict w → LettersOk w → w.length < steps →
      monaaDollar id fuel steps (vectorCont ℚ) A w = .ok zs → monaaDollar id fuel steps (vectorCont ℚ) B w = .ok zs' →
      ∀ t t', (∃ z ∈ zs, z.Has t t') ↔ ∃ z ∈ zs', z.Has t t' := by
  intro h
  have key := exit_check
  split at key
  · rename_i zs hzs
    cases zs with
    | nil => cases key
    | cons z zs =>
      obtain ⟨-, ⟨t, t', ht⟩, -⟩ := matcher_zones_tight exitPattern loopLog loop_log.1 id 20 20 (by decide) _ (Or.inl hzs) z (by simp)
      obtain ⟨z', hz', -⟩ := (h exitPattern loopPattern loopLog 20 20 _ _ exit_language (by unfold TA.NoSilent; decide) loop_noSilent
        loop_log.1 loop_log.2.1 loop_log.2.2 (by decide) hzs loop_run t t').1 ⟨z, by simp, ht⟩
      cases hz'
  · cases key

/-! ### what holds -/

section automata

variable {S S₁ S₂ K : Type} [DecidableEq S] [DecidableEq S₁] [DecidableEq S₂] [Field K] [LinearOrder K] [IsStrictOrderedRing K]

/-- What `matcher_complete_partial` needs of a pattern. -/
structure Good (A : TA S) : Prop where
  tidy : A.Tidy
  declared : A.ClocksDeclared
  noSilent : A.NoSilent
  closed : A.Closed
  mapOk : A.MapOk
  loops : A.LoopsOk
  shiftable : A.Shiftable
  noZero : A.NoZeroDuration
  size : 2 * A.clockSize ≤ 256

theorem good_iff {A : TA S} (hA : Good A) {w : TWord K} (hw : LogOk w) (hstr : LogStrict w) (hlet : LettersOk w) {addr : S → Nat}
    {fuel steps : Nat} (hs : w.length < steps) {zs : List (Zone K)}
    (h : monaaDollar addr fuel steps (vectorCont K) A w = .ok zs ∨
      monaaDollar addr fuel steps (lazyCont K) A (Lazy.mk0 w) = .ok zs) {t t' : K} (hne : between w t t' ≠ []) :
    (∃ z ∈ zs, z.Has t t') ↔
      0 ≤ t ∧ t ≤ t' ∧ A.Accepts ((between w t t').map (fun e => (e.1, e.2 - t)) ++ [(dollar, t' - t)]) := by
  constructor
  · rintro ⟨z, hz, ht⟩
    exact matcher_sound A hA.tidy w hw addr fuel steps hs zs h z hz t t' ht
  · rintro ⟨h0, hle, hacc⟩
    refine matcher_complete_partial A hA.declared hA.noSilent hA.closed hA.mapOk hA.loops hA.shiftable hA.noZero hA.size w hw hstr hlet addr
      fuel steps hs zs h t t' ⟨h0, hle, (acceptsFrom_shift A _ _).2 ?_⟩ hne
    rw [List.map_append]
    simpa using hacc

/-- **C92, what holds** (`_partial`: for patterns which meet the conditions of `matcher_complete_partial`, and pairs with an event
between them).  If a pattern accepts the words which one of two others accepts, then the pairs reported for it are those reported for
one of the others, for all addresses and both containers. -/
theorem same_language_partial (A : TA S) (A₁ : TA S₁) (A₂ : TA S₂) (hA : Good A) (hA₁ : Good A₁) (hA₂ : Good A₂)
    (hL : ∀ u : TWord K, A.Accepts u ↔ A₁.Accepts u ∨ A₂.Accepts u)
    (w : TWord K) (hw : LogOk w) (hstr : LogStrict w) (hlet : LettersOk w)
    (addr : S → Nat) (addr₁ : S₁ → Nat) (addr₂ : S₂ → Nat) (fuel fuel₁ fuel₂ steps steps₁ steps₂ : Nat)
    (hs : w.length < steps) (hs₁ : w.length < steps₁) (hs₂ : w.length < steps₂) (zs zs₁ zs₂ : List (Zone K))
    (h : monaaDollar addr fuel steps (vectorCont K) A w = .ok zs ∨
      monaaDollar addr fuel steps (lazyCont K) A (Lazy.mk0 w) = .ok zs)
    (h₁ : monaaDollar addr₁ fuel₁ steps₁ (vectorCont K) A₁ w = .ok zs₁ ∨
      monaaDollar addr₁ fuel₁ steps₁ (lazyCont K) A₁ (Lazy.mk0 w) = .ok zs₁)
    (h₂ : monaaDollar addr₂ fuel₂ steps₂ (vectorCont K) A₂ w = .ok zs₂ ∨
      monaaDollar addr₂ fuel₂ steps₂ (lazyCont K) A₂ (Lazy.mk0 w) = .ok zs₂)
    (t t' : K) (hne : between w t t' ≠ []) :
    (∃ z ∈ zs, z.Has t t') ↔ (∃ z ∈ zs₁, z.Has t t') ∨ ∃ z ∈ zs₂, z.Has t t' := by
  rw [good_iff hA hw hstr hlet hs h hne, good_iff hA₁ hw hstr hlet hs₁ h₁ hne, good_iff hA₂ hw hstr hlet hs₂ h₂ hne, hL]
  tauto

end automata

section program

variable {K : Type} [Field K] [LinearOrder K] [IsStrictOrderedRing K] [FloorRing K]

/-- The conditions of `program_complete_partial` on a command line, its text `s`, and the log `w`; the matching finishes. -/
structure GoodRun (E : Env K) (o : Options) (e : TRE K) (w : TWord K) : Prop where
  inj : Function.Injective E.alloc
  named : o.Named
  event : o.signal = false
  loud : o.quiet = false
  text : ∃ s : String, (asked o).1 = .expression s ∧ '*' ∉ s.toList ∧ '>' ∉ s.toList ∧ parsePattern s.toList = .ok e
  loops : e.LoopsOk
  clocks : e.clocks ≤ 128
  late : e.Late ∨ e.Windowed
  log : E.LogIs (asked o).2 o.binary w
  steps : w.length < E.steps
  ends : ∃ zs q, E.run o = .matched zs q

theorem goodRun_iff {E : Env K} {o : Options} {e : TRE K} {w : TWord K} (h : GoodRun E o e w) (hw : LogOk w) (hstr : LogStrict w)
    (hlet : LettersOk w) {t t' : K} (hne : between w t t' ≠ []) : PrintedPair (E.run o).printed t t' ↔
      0 ≤ t ∧ t ≤ t' ∧ e.Lang ((between w t t').map (fun e => (e.1, e.2 - t)) ++ [(dollar, t' - t)]) := by
  obtain ⟨s, hs, h1, h2, hp⟩ := h.text
  constructor
  · exact program_sound_partial E h.inj o h.named h.event s hs h1 h2 e hp (le_trans h.clocks (by decide)) w h.log hw h.steps t t'
  · rintro ⟨h0, hle, hl⟩
    exact program_complete_partial E h.inj o h.named h.event h.loud s hs h1 h2 e hp h.loops h.clocks h.late w h.log hw hstr hlet h.steps
      h.ends t t' h0 hle hne hl

/-- **C92** for whole runs (`_partial`: for texts which meet the conditions of `program_complete_partial`, and pairs with an event
between them).  If a text matches what one of two others matches, then the pairs printed for it are those printed for one of the
others: in three runs, possibly with different options, allocations, and forms of the log. -/
theorem same_text_partial (E E₁ E₂ : Env K) (o o₁ o₂ : Options) (e e₁ e₂ : TRE K) (w : TWord K) (h : GoodRun E o e w)
    (h₁ : GoodRun E₁ o₁ e₁ w) (h₂ : GoodRun E₂ o₂ e₂ w) (hL : ∀ u, e.Lang u ↔ e₁.Lang u ∨ e₂.Lang u)
    (hw : LogOk w) (hstr : LogStrict w) (hlet : LettersOk w) (t t' : K) (hne : between w t t' ≠ []) :
    PrintedPair (E.run o).printed t t' ↔ PrintedPair (E₁.run o₁).printed t t' ∨ PrintedPair (E₂.run o₂).printed t t' := by
  rw [goodRun_iff h hw hstr hlet hne, goodRun_iff h₁ hw hstr hlet hne, goodRun_iff h₂ hw hstr hlet hne, hL]
  tauto

/-- So a choice prints what its alternatives print. -/
theorem alternatives_partial (E E₁ E₂ : Env K) (o o₁ o₂ : Options) (e₁ e₂ : TRE K) (w : TWord K) (h : GoodRun E o (.disj e₁ e₂) w)
    (h₁ : GoodRun E₁ o₁ e₁ w) (h₂ : GoodRun E₂ o₂ e₂ w)
    (hw : LogOk w) (hstr : LogStrict w) (hlet : LettersOk w) (t t' : K) (hne : between w t t' ≠ []) :
    PrintedPair (E.run o).printed t t' ↔ PrintedPair (E₁.run o₁).printed t t' ∨ PrintedPair (E₂.run o₂).printed t t' :=
  same_text_partial E E₁ E₂ o o₁ o₂ _ e₁ e₂ w h h₁ h₂ (fun _ => Iff.rfl) hw hstr hlet t t' hne

end program

/-! ### samples -/

/-- `0 -l→ 1 -$→ 2` for the letters `l` of a list. -/
def lettersPattern (ls : List Alphabet) : TA Nat :=
  { states := [0, 1, 2], init := [0]
    st := fun s =>
      if s = 0 then ⟨false, false, ls.map fun l => (l, [⟨some 1, [], []⟩])⟩
      else if s = 1 then ⟨false, false, [(36, [⟨some 2, [], []⟩])]⟩
      else if s = 2 then ⟨true, false, []⟩
      else ⟨false, false, []⟩
    maxC := [] }

theorem letters_at (ls : List Alphabet) (a : Alphabet) (e : Transition Nat) :
    e ∈ Next.at' (ls.map fun l => (l, [⟨some 1, [], []⟩])) a ↔ a ∈ ls ∧ e = ⟨some 1, [], []⟩ := by
  induction ls with
  | nil => simp [Next.at'_nil]
  | cons l ls ih =>
    simp only [List.map_cons, Next.at'_cons]
    split_ifs with h
    · subst h
      simp
    · rw [ih]
      simp only [List.mem_cons]
      constructor
      · exact fun ⟨h1, h2⟩ => ⟨Or.inr h1, h2⟩
      · rintro ⟨h1 | h1, h2⟩
        · exact absurd h1.symm h
        · exact ⟨h1, h2⟩

theorem letters_edges {ls : List Alphabet} {s : Nat} {a : Alphabet} {e : Transition Nat} :
    e ∈ (lettersPattern ls).edges s a ↔ (s = 0 ∧ a ∈ ls ∧ e = ⟨some 1, [], []⟩) ∨ (s = 1 ∧ a = 36 ∧ e = ⟨some 2, [], []⟩) := by
  simp only [TA.edges, lettersPattern]
  split_ifs with h0 h1 h2
  · subst h0
    rw [letters_at]
    simp
  · subst h1
    simp only [Next.at'_cons, Next.at'_nil]
    split_ifs with h
    · subst h
      simp
    · simp [Ne.symm h]
  · subst h2
    simp [Next.at'_nil]
  · simp [Next.at'_nil, h0, h1]

theorem letters_good (ls : List Alphabet) (hn : ls.Nodup) (hε : epsilon ∉ ls) : Good (lettersPattern ls) where
  tidy := by
    intro s hs
    simp only [lettersPattern, List.mem_cons, List.not_mem_nil, or_false, not_or] at hs ⊢
    rw [if_neg hs.1, if_neg hs.2.1, if_neg hs.2.2]
  declared := by
    intro s a e he
    rcases letters_edges.1 he with ⟨-, -, rfl⟩ | ⟨-, -, rfl⟩ <;> simp
  noSilent := by
    intro s hs
    simp only [lettersPattern, List.mem_cons, List.not_mem_nil, or_false] at hs ⊢
    rcases hs with rfl | rfl | rfl
    · simp only [if_true, Next.find, Option.map_eq_none_iff, List.find?_eq_none]
      intro p hp
      obtain ⟨l, hl, rfl⟩ := List.mem_map.1 hp
      simp only [beq_iff_eq]
      intro h
      exact hε (h ▸ hl)
    · rfl
    · rfl
  closed := by
    refine ⟨by simp [lettersPattern], ?_⟩
    intro s _ a e he q hq
    rcases letters_edges.1 he with ⟨-, -, rfl⟩ | ⟨-, -, rfl⟩ <;> cases hq <;> simp [lettersPattern]
  mapOk := by
    intro s
    simp only [lettersPattern]
    split_ifs
    · simpa [Function.comp_def] using hn
    · simp
    · simp
    · simp
  loops := .inl ⟨fun s => 2 - s, by
    intro s a e he q hq
    rcases letters_edges.1 he with ⟨rfl, -, rfl⟩ | ⟨rfl, -, rfl⟩ <;> cases hq <;> simp⟩
  shiftable := .inl ⟨fun _ _ => False, by simp, by
    intro s a e he
    rcases letters_edges.1 he with ⟨-, -, rfl⟩ | ⟨-, -, rfl⟩ <;> simp⟩
  noZero := by
    intro s hs
    simp only [lettersPattern, List.mem_cons, List.not_mem_nil, or_false] at hs ⊢
    rcases hs with rfl | rfl | rfl <;> rfl
  size := by simp [lettersPattern, TA.clockSize]

theorem letters_accepts (ls : List Alphabet) (u : TWord ℚ) :
    (lettersPattern ls).Accepts u ↔ ∃ a τ τ', a ∈ ls ∧ u = [(a, τ), (36, τ')] := by
  constructor
  · rintro ⟨s, hs, s', h, hm⟩
    have hs0 : s = 0 := by simpa [lettersPattern] using hs
    subst hs0
    have h2 : s' = 2 := by
      simp only [lettersPattern] at hm
      split_ifs at hm with h0 h1 h2 <;> first | exact h2 | cases hm
    subst h2
    match u, h with
    | [], h => exact absurd (show (0 : Nat) = 2 from h) (by decide)
    | (a, τ) :: u, ⟨e, he, q, hq, _, h⟩ =>
      rcases letters_edges.1 he with ⟨-, ha, rfl⟩ | ⟨h0, -⟩
      · cases hq
        match u, h with
        | [], h => exact absurd (show (1 : Nat) = 2 from h) (by decide)
        | (b, τ') :: u, ⟨e, he, q, hq, _, h⟩ =>
          rcases letters_edges.1 he with ⟨h0, -⟩ | ⟨-, hb, rfl⟩
          · cases h0
          · cases hq
            subst hb
            match u, h with
            | [], _ => exact ⟨a, τ, τ', ha, rfl⟩
            | (c, _) :: u, ⟨e, he, _⟩ => rcases letters_edges.1 he with ⟨h0, -⟩ | ⟨h0, -⟩ <;> cases h0
      · cases h0
  · rintro ⟨a, τ, τ', ha, rfl⟩
    exact ⟨0, by simp [lettersPattern], 2, ⟨⟨some 1, [], []⟩, letters_edges.2 (.inl ⟨rfl, ha, rfl⟩), 1, rfl, by simp [GuardHolds],
      ⟨some 2, [], []⟩, letters_edges.2 (.inr ⟨rfl, rfl, rfl⟩), 2, rfl, by simp [GuardHolds], rfl⟩, rfl⟩

def abLog : TWord ℚ := [(97, 1), (98, 2)]

/-- The hypotheses of `same_language_partial` are met by the patterns for `a` or `b`, for `a`, and for `b`, and a log `a`, `b`. -/
example : Good (lettersPattern [97, 98]) ∧ Good (lettersPattern [97]) ∧ Good (lettersPattern [98]) ∧
    (∀ u : TWord ℚ, (lettersPattern [97, 98]).Accepts u ↔ (lettersPattern [97]).Accepts u ∨ (lettersPattern [98]).Accepts u) ∧
    LogOk abLog ∧ LogStrict abLog ∧ LettersOk abLog ∧
    (∀ ls ∈ [[97, 98], [97], [98]], ∃ zs, monaaDollar id 20 20 (vectorCont ℚ) (lettersPattern ls) abLog = .ok zs ∧ zs ≠ []) ∧
    between abLog (0 : ℚ) 2 ≠ [] := by
  refine ⟨letters_good _ (by decide) (by decide), letters_good _ (by decide) (by decide), letters_good _ (by decide) (by decide), ?_,
    ⟨by decide +kernel, by decide +kernel, by decide⟩, ⟨by decide +kernel, by decide +kernel⟩, by unfold LettersOk; decide, ?_,
    by decide +kernel⟩
  · intro u
    simp only [letters_accepts]
    constructor
    · rintro ⟨a, τ, τ', ha, rfl⟩
      simp only [List.mem_cons, List.not_mem_nil, or_false] at ha
      rcases ha with rfl | rfl
      · exact .inl ⟨97, τ, τ', by simp, rfl⟩
      · exact .inr ⟨98, τ, τ', by simp, rfl⟩
    · rintro (⟨a, τ, τ', ha, rfl⟩ | ⟨a, τ, τ', ha, rfl⟩)
      · exact ⟨a, τ, τ', by simp_all, rfl⟩
      · exact ⟨a, τ, τ', by simp_all, rfl⟩
  · have key : ([[97, 98], [97], [98]] : List (List Alphabet)).all (fun ls =>
        match monaaDollar id 20 20 (vectorCont ℚ) (lettersPattern ls) abLog with
        | .ok zs => !zs.isEmpty
        | .error _ => false) = true := by decide +kernel
    intro ls hls
    have := List.all_eq_true.1 key ls hls
    split at this
    · rename_i zs hzs
      exact ⟨zs, hzs, by simpa using this⟩
    · cases this

/-- The command line `monaa -e s`. -/
def exprOptions (s : String) : Options := { toyOptions with expression := s }

/-- If a text without the characters excluded matches a word with a letter, it meets the conditions, with large enough bounds. -/
theorem text_good (s : String) (e : TRE ℚ) (hp : parsePattern s.toList = .ok e) (hne : s ≠ "") (hask : (asked (exprOptions s)).1 = .expression s ∧ (asked (exprOptions s)).2 = "stdin")
    (h1 : '*' ∉ s.toList) (h2 : '>' ∉ s.toList) (h2' : '&' ∉ s.toList) (hl : e.LoopsOk) (hc : e.clocks ≤ 128) (hlate : e.Late)
    (t : ℚ) (u : TWord ℚ) (hu : u ≠ [] ∧ LettersOk u ∧ (∀ e ∈ u, e.1 ≠ dollar) ∧ (∀ e ∈ u, 0 < e.2 ∧ e.2 < t) ∧
        u.Pairwise (fun a b => a.2 < b.2)) (hL : e.Lang (u ++ [(dollar, t)])) :
    ∃ N, ∀ fuel, N ≤ fuel → GoodRun { sampleEnv with fuel := fuel } (exprOptions s) e twoLog := by
  have hn : (exprOptions s).Named := by simp [Options.Named, exprOptions, toyOptions]
  have hcons : (exprOptions s).Consistent :=
    ⟨rfl, rfl, by simp [Options.Conflict, exprOptions, toyOptions], Or.inl ⟨s, hask.1⟩⟩
  have hlog : ∀ fuel, Env.LogIs { sampleEnv with fuel := fuel } (asked (exprOptions s)).2 (exprOptions s).binary twoLog := by
    intro fuel
    rw [hask.2]
    exact sample_log
  obtain ⟨N, h⟩ := program_ends_partial sampleEnv down_inj (exprOptions s) hn hcons rfl s hask.1 h1 h2 h2' e hp hl
    (le_trans hc (by decide)) (Or.inl hask.2) twoLog (hlog 30) two_log.2.2
  refine ⟨N, fun fuel hf => ⟨down_inj, hn, rfl, rfl, ⟨s, hask.1, h1, h2, hp⟩, hl, hc, .inl hlate, hlog fuel, show 4 < 30 by decide, ?_⟩⟩
  exact (h fuel 30 hf (by decide)).2 ⟨t, u, hu.1, hu.2.1, hu.2.2.1, hu.2.2.2.1, hu.2.2.2.2, hL⟩

/-- The hypotheses of `alternatives_partial` are met by the texts `(a$)|((aa)$)`, `a$` and `(aa)$`. -/
example : ∃ fuel, GoodRun { sampleEnv with fuel := fuel } (exprOptions "(a$)|((aa)$)")
      (.disj (.concat (.atom 97) (.atom 36)) (.concat (.concat (.atom 97) (.atom 97)) (.atom 36))) twoLog ∧
    GoodRun { sampleEnv with fuel := fuel } (exprOptions "a$") (.concat (.atom 97) (.atom 36)) twoLog ∧
    GoodRun { sampleEnv with fuel := fuel } (exprOptions "(aa)$") (.concat (.concat (.atom 97) (.atom 97)) (.atom 36)) twoLog ∧
    LogOk twoLog ∧ LogStrict twoLog ∧ LettersOk twoLog := by
  have l1 : (TRE.concat (.atom 97) (.atom 36) : TRE ℚ).Lang ([(97, 1)] ++ [(dollar, 3)]) := by
    exact ⟨[(97, 1)], [(36, 3)], rfl, ⟨1, rfl⟩, ⟨3, rfl⟩⟩
  have l2 : (TRE.concat (.concat (.atom 97) (.atom 97)) (.atom 36) : TRE ℚ).Lang ([(97, 1), (97, 2)] ++ [(dollar, 3)]) := by
    exact ⟨[(97, 1), (97, 2)], [(36, 3)], rfl, ⟨[(97, 1)], [(97, 2)], rfl, ⟨1, rfl⟩, ⟨2, rfl⟩⟩, ⟨3, rfl⟩⟩
  have hu : ([(97, 1)] : TWord ℚ) ≠ [] ∧ LettersOk ([(97, 1)] : TWord ℚ) ∧ (∀ e ∈ ([(97, 1)] : TWord ℚ), e.1 ≠ dollar) ∧
      (∀ e ∈ ([(97, 1)] : TWord ℚ), 0 < e.2 ∧ e.2 < 3) ∧ ([(97, 1)] : TWord ℚ).Pairwise (fun a b => a.2 < b.2) :=
    ⟨by simp, by unfold LettersOk; decide, by decide, by decide +kernel, by decide +kernel⟩
  have hu2 : ([(97, 1), (97, 2)] : TWord ℚ) ≠ [] ∧ LettersOk ([(97, 1), (97, 2)] : TWord ℚ) ∧ (∀ e ∈ ([(97, 1), (97, 2)] : TWord ℚ), e.1 ≠ dollar) ∧
      (∀ e ∈ ([(97, 1), (97, 2)] : TWord ℚ), 0 < e.2 ∧ e.2 < 3) ∧ ([(97, 1), (97, 2)] : TWord ℚ).Pairwise (fun a b => a.2 < b.2) :=
    ⟨by simp, by unfold LettersOk; decide, by decide, by decide +kernel, by decide +kernel⟩
  obtain ⟨N1, h1⟩ := text_good "(a$)|((aa)$)" _ rfl (by decide) ⟨by decide +kernel, by decide +kernel⟩ (by decide) (by decide) (by decide)
    (.inl ⟨⟨trivial, trivial⟩, ⟨trivial, trivial⟩, trivial⟩) (by decide) ⟨trivial, trivial⟩ 3 [(97, 1)] hu (Or.inl l1)
  obtain ⟨N2, h2⟩ := text_good "a$" _ rfl (by decide) ⟨by decide +kernel, by decide +kernel⟩ (by decide) (by decide) (by decide)
    (.inl ⟨trivial, trivial⟩) (by decide) trivial 3 [(97, 1)] hu l1
  obtain ⟨N3, h3⟩ := text_good "(aa)$" _ rfl (by decide) ⟨by decide +kernel, by decide +kernel⟩ (by decide) (by decide) (by decide)
    (.inl ⟨⟨trivial, trivial⟩, trivial⟩) (by decide) trivial 3 [(97, 1), (97, 2)] hu2 l2
  exact ⟨N1 + N2 + N3, h1 _ (by omega), h2 _ (by omega), h3 _ (by omega), two_log.1, two_log.2.1, two_log.2.2⟩

end Verif.Props
