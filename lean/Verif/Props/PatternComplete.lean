import Verif.Lemmas.TREClusters2
import Verif.Props.ParserMatch
import Verif.Props.SignalPos

/-!
# C75: no match of a pattern given as a text is missed
-/

namespace Verif.Props

variable {K : Type} [Field K] [LinearOrder K] [IsStrictOrderedRing K] [FloorRing K]

/-- The cycles of the automaton of an expression. -/
theorem eventTA_loops {alloc : Nat → Nat} (hinj : Function.Injective alloc) (e : TRE K) (he : e.Plain) (hε : e.EpsilonFree)
    (hp : e.LoopsOk) : ∃ A k, e.toEventTA alloc (fun _ => ⟨false, false, []⟩) 0 = .ok (A, k) ∧
      TransOk alloc (fun _ => ⟨false, false, []⟩) 0 k e A ∧ A.owned.LoopsOk ∧ (e.Late → A.LateTA) := by
  rcases hp with hp | ⟨hp, hend⟩
  · obtain ⟨A, k, h, hok, ⟨r, hr⟩, hL⟩ := e.toEventTA_late hinj he hε hp (fun _ => ⟨false, false, []⟩) 0
    refine ⟨A, k, h, hok, .inl ⟨r, fun s a t ht => ?_⟩, hL⟩
    have hs := mem_of_owned_edges ht
    rw [owned_edges hs] at ht
    exact hr s hs a t ht
  · obtain ⟨A, k, h, hok, hl, hE, hL⟩ := e.toEventTA_ordered hinj he hε hp (fun _ => ⟨false, false, []⟩) 0
    refine ⟨A, k, h, hok, .inr ?_, hL⟩
    obtain ⟨level, dist, ho⟩ := hl.ordered hok.wf (hE hend)
    refine ⟨level, dist, fun s (hs : s ∈ A.states) => ?_⟩
    rw [owned_st hs]
    refine (ho s hs).imp id ?_
    rintro ⟨h1, h2, c, es, h3, h4, h5, h6, h7⟩
    refine ⟨h1, h2, c, es, h3, h4, h5, h6, fun t (ht : t ∈ A.states) c' fs hl hn => ?_⟩
    rw [owned_st ht] at hn
    exact h7 t ht c' fs hl hn

/-- The conditions of `matcher_complete_partial` for the automaton of an expression. -/
theorem eventTA_late (alloc : Nat → Nat) (hinj : Function.Injective alloc) (e : TRE K) (he : e.Plain) (hε : e.EpsilonFree)
    (hp : e.LoopsOk) (hl : e.Late ∨ e.Windowed) : ∃ A, e.eventTA alloc = .ok A ∧ A.LoopsOk ∧ A.Shiftable ∧ A.NoZeroDuration := by
  obtain ⟨A, k, h, hok, hlo, hL⟩ := eventTA_loops hinj e he hε hp
  refine ⟨A.owned, by simp only [TRE.eventTA, h]; rfl, hlo, ?_, fun s (hs : s ∈ A.states) => ?_⟩
  · rcases hl with hl | hl
    · obtain ⟨F, hi, hF⟩ := hL hl
      refine .inl ⟨F, hi, fun s a t ht => ?_⟩
      have hs := mem_of_owned_edges ht
      rw [owned_edges hs] at ht
      exact hF s hs a t ht
    · obtain ⟨n, A', k', h', -, hW⟩ := e.toEventTA_windowed hinj he hε hl (fun _ => ⟨false, false, []⟩) 0
      rw [h] at h'
      cases h'
      refine .inr ⟨n, fun s a ha t ht => ?_⟩
      have hs := mem_of_owned_edges ht
      rw [owned_edges hs] at ht
      obtain ⟨g1, g2, g3⟩ := hW s hs a ha t ht
      refine ⟨g1, g2, g3.imp id (Or.imp id fun g3 q hq b e' he' => g3 q hq b e' ?_)⟩
      rwa [owned_edges (mem_of_owned_edges he')] at he'
  · rw [owned_st hs]
    exact hok.nozero hε.regular (TRE.not_nullable hε) s hs

/-- **C75** for expressions (`_partial`: no empty word, the condition `LoopsOk` on repetitions, no time restriction starting with the match or the form `Windowed`, at
most 128 clocks, integer ends; matches with at least one event).  Every pair `(t, t')` such that the events strictly between, followed by `$`, match the
expression is in a reported zone. -/
theorem expression_match_complete_partial (alloc : Nat → Nat) (hinj : Function.Injective alloc) (e : TRE K) (he : e.Plain)
    (hε : e.EpsilonFree) (hp : e.LoopsOk) (hl : e.Late ∨ e.Windowed) (hn : e.clocks ≤ 128) (A : TA Nat) (hA : e.eventTA alloc = .ok A)
    (w : TWord K) (hw : LogOk w) (hstr : LogStrict w) (hlet : LettersOk w) (addr : Nat → Nat)
    (fuel steps : Nat) (hs : w.length < steps) (zs : List (Zone K))
    (h : monaaDollar addr fuel steps (vectorCont K) A w = .ok zs ∨
      monaaDollar addr fuel steps (lazyCont K) A (Lazy.mk0 w) = .ok zs)
    (t t' : K) (h0 : 0 ≤ t) (htt : t ≤ t') (hne : between w t t' ≠ [])
    (hm : e.Lang ((between w t t').map (fun e => (e.1, e.2 - t)) ++ [(dollar, t' - t)])) : ∃ z ∈ zs, z.Has t t' := by
  obtain ⟨A', h', -, -, hcl, hC, hM, hT, hNS, hcs, -⟩ := eventTA_final_partial alloc hinj e he
  rw [hA] at h'
  cases h'
  obtain ⟨A', h', hlang, -⟩ := eventTA_lang_partial alloc hinj e he hε.regular
  rw [hA] at h'
  cases h'
  obtain ⟨A', h', hac, hU, hz⟩ := eventTA_late alloc hinj e he hε hp hl
  rw [hA] at h'
  cases h'
  refine matcher_complete_partial A hC hNS hcl hM hac hU hz (by omega) w hw hstr hlet addr fuel steps hs zs h t t'
    ⟨h0, htt, (acceptsFrom_shift A t _).2 ?_⟩ hne
  rw [List.map_append]
  exact (hlang 0 _).2 hm

/-- **C75** (`_partial`: for texts without `*` and `>`, the condition `LoopsOk` on repetitions, at most 128 clocks, no time restriction starting with the
match or the form `Windowed`; matches with at least one event): for a pattern given as a text, in event mode: the translation succeeds, and every pair `(t, t')` such that the
events strictly between, followed by `$`, match the expression which the grammar gives for the text is in a reported zone. -/
theorem pattern_match_complete_partial (s : List Char) (e : TRE K) (hp : parsePattern s = .ok e) (h1 : '*' ∉ s) (h1' : e.LoopsOk) (h2 : '>' ∉ s)
    (h3 : e.clocks ≤ 128) (hl : e.Late ∨ e.Windowed) (alloc : Nat → Nat) (hinj : Function.Injective alloc) :
    (∃ us tail, lexFrom .none (s.takeWhile (· ≠ '\x00')) = us ++ tail ∧ Chain us e ∧ EndEnd tail) ∧
    ∃ A, e.eventTA alloc = .ok A ∧ ∀ (w : TWord K), LogOk w → LogStrict w → LettersOk w → ∀ (addr : Nat → Nat) (fuel steps : Nat),
      w.length < steps → ∀ zs : List (Zone K),
      (monaaDollar addr fuel steps (vectorCont K) A w = .ok zs ∨ monaaDollar addr fuel steps (lazyCont K) A (Lazy.mk0 w) = .ok zs) →
      ∀ t t', 0 ≤ t → t ≤ t' → between w t t' ≠ [] →
        e.Lang ((between w t t').map (fun e => (e.1, e.2 - t)) ++ [(dollar, t' - t)]) → ∃ z ∈ zs, z.Has t t' := by
  obtain ⟨k1, k2⟩ := parse_plain s e hp
  have hpl := k1 h2 (by omega)
  obtain ⟨A, hA, -⟩ := eventTA_final_partial alloc hinj e hpl
  exact ⟨parseToks_sound hp, A, hA, fun w hw hstr hlet addr fuel steps hs zs h t t' ht htt hne hm =>
    expression_match_complete_partial alloc hinj e hpl (k2 h1) h1' hl h3 A hA w hw hstr hlet addr fuel steps hs zs h t t' ht htt hne hm⟩

/-- `(a+)((a%(1,3))$)`. -/
def laterE : TRE ℚ := .concat (.plus (.atom 97)) (.concat (.within (.atom 97) ⟨.fin 1 false, .fin 3 false⟩) (.atom 36))

theorem twoLog_between : between twoLog (5 / 2) 6 = [(97, 3), (97, 5)] := by decide +kernel

theorem later_between : between twoLog (1 / 2) 6 = [(97, 1), (97, 3), (97, 5)] := by decide +kernel

theorem later_lang : laterE.Lang ((between twoLog (1 / 2) 6).map (fun e => (e.1, e.2 - 1 / 2)) ++ [(dollar, 6 - 1 / 2)]) := by
  rw [later_between]
  refine ⟨[(97, 1 - 1 / 2), (97, 3 - 1 / 2)], _, rfl, .more (u := [(97, 1 - 1 / 2)]) ⟨_, rfl⟩ (.one ⟨_, rfl⟩), [(97, 5 - 1 / 2)], _, rfl,
    ⟨⟨_, rfl⟩, ?_⟩, ⟨_, rfl⟩⟩
  show (1 : ℚ) < 5 - 1 / 2 - (3 - 1 / 2) ∧ 5 - 1 / 2 - (3 - 1 / 2) < (3 : ℚ)
  norm_num

/-- This pattern satisfies the conditions, and the interval `(1/2, 6)` of the log is a match, with two repetitions. -/
example : parsePattern "(a+)((a%(1,3))$)".toList = .ok laterE ∧ '*' ∉ "(a+)((a%(1,3))$)".toList ∧ laterE.LoopsOk ∧
    '>' ∉ "(a+)((a%(1,3))$)".toList ∧ laterE.clocks ≤ 128 ∧ laterE.Late ∧ LogOk twoLog ∧ LogStrict twoLog ∧ LettersOk twoLog ∧
    between twoLog (1 / 2) 6 ≠ [] ∧
    laterE.Lang ((between twoLog (1 / 2) 6).map (fun e => (e.1, e.2 - 1 / 2)) ++ [(dollar, 6 - 1 / 2)]) :=
  ⟨rfl, by decide, .inl ⟨trivial, trivial, trivial⟩, by decide, by decide, trivial, two_log.1, two_log.2.1, two_log.2.2,
    by rw [later_between]; simp, later_lang⟩

/-- `((a(a+))%(1,20))$`. -/
def wholeE : TRE ℚ := .concat (.within (.concat (.atom 97) (.plus (.atom 97))) ⟨.fin 1 false, .fin 20 false⟩) (.atom 36)

theorem whole_lang : wholeE.Lang ((between twoLog (1 / 2) 6).map (fun e => (e.1, e.2 - 1 / 2)) ++ [(dollar, 6 - 1 / 2)]) := by
  rw [later_between]
  refine ⟨[(97, 1 - 1 / 2), (97, 3 - 1 / 2), (97, 5 - 1 / 2)], _, rfl, ⟨⟨[(97, 1 - 1 / 2)], _, rfl, ⟨_, rfl⟩,
    .more (u := [(97, 3 - 1 / 2)]) ⟨_, rfl⟩ (.one ⟨_, rfl⟩)⟩, ?_⟩, ⟨_, rfl⟩⟩
  show (1 : ℚ) < 5 - 1 / 2 - 0 ∧ 5 - 1 / 2 - 0 < (20 : ℚ)
  norm_num

theorem whole_windowed : wholeE.Windowed := by
  refine ⟨rfl, 1, ⟨trivial, rfl, .inr rfl⟩, fun x h1 h2 => ?_⟩
  show (1 : ℚ) < x ∧ x < (20 : ℚ)
  push_cast at h1 h2
  exact ⟨h1, by linarith⟩

/-- A pattern with a restriction of the duration of the whole match satisfies the conditions, and the interval `(1/2, 6)` of the log is a match. -/
example : parsePattern "((a(a+))%(1,20))$".toList = .ok wholeE ∧ '*' ∉ "((a(a+))%(1,20))$".toList ∧ wholeE.LoopsOk ∧
    '>' ∉ "((a(a+))%(1,20))$".toList ∧ wholeE.clocks ≤ 128 ∧ (wholeE.Late ∨ wholeE.Windowed) ∧ ¬ wholeE.Late ∧ LogOk twoLog ∧ LogStrict twoLog ∧
    LettersOk twoLog ∧ between twoLog (1 / 2) 6 ≠ [] ∧
    wholeE.Lang ((between twoLog (1 / 2) 6).map (fun e => (e.1, e.2 - 1 / 2)) ++ [(dollar, 6 - 1 / 2)]) :=
  ⟨rfl, by decide, .inl ⟨⟨trivial, trivial⟩, trivial⟩, by decide, by decide, .inr whole_windowed, id, two_log.1, two_log.2.1, two_log.2.2,
    by rw [later_between]; simp, whole_lang⟩

/-- `((ab)+)((c%(1,3))$)`. -/
def roundE : TRE ℚ := .concat (.plus (.concat (.atom 97) (.atom 98))) (.concat (.within (.atom 99) ⟨.fin 1 false, .fin 3 false⟩) (.atom 36))

/-- Events `a`, `b`, `a`, `b`, `c`. -/
def roundE_log : TWord ℚ := [(97, 1), (98, 2), (97, 3), (98, 4), (99, 6)]

theorem roundE_between : between roundE_log (1 / 2) 7 = roundE_log := by decide +kernel

theorem roundE_lang : roundE.Lang ((between roundE_log (1 / 2) 7).map (fun e => (e.1, e.2 - 1 / 2)) ++ [(dollar, 7 - 1 / 2)]) := by
  rw [roundE_between]
  refine ⟨[(97, 1 - 1 / 2), (98, 2 - 1 / 2), (97, 3 - 1 / 2), (98, 4 - 1 / 2)], _, rfl,
    .more (u := [(97, 1 - 1 / 2), (98, 2 - 1 / 2)]) ⟨[_], [_], rfl, ⟨_, rfl⟩, ⟨_, rfl⟩⟩ (.one ⟨[_], [_], rfl, ⟨_, rfl⟩, ⟨_, rfl⟩⟩),
    [(99, 6 - 1 / 2)], _, rfl, ⟨⟨_, rfl⟩, ?_⟩, ⟨_, rfl⟩⟩
  show (1 : ℚ) < 6 - 1 / 2 - (4 - 1 / 2) ∧ 6 - 1 / 2 - (4 - 1 / 2) < (3 : ℚ)
  norm_num

theorem roundE_loops : roundE.LoopsOk ∧ ¬ roundE.LetterLoops :=
  ⟨.inr ⟨⟨⟨by show (97 : Nat) ≠ 36; decide, by show (98 : Nat) ≠ 36; decide⟩, trivial, trivial⟩, trivial⟩, fun h => h.1⟩

/-- A pattern which repeats a sequence of two letters satisfies the conditions, and the interval `(1/2, 7)` of the log is a match, with two
rounds. -/
example : parsePattern "((ab)+)((c%(1,3))$)".toList = .ok roundE ∧ '*' ∉ "((ab)+)((c%(1,3))$)".toList ∧ roundE.LoopsOk ∧ ¬ roundE.LetterLoops ∧
    '>' ∉ "((ab)+)((c%(1,3))$)".toList ∧ roundE.clocks ≤ 128 ∧ roundE.Late ∧ LogOk roundE_log ∧ LogStrict roundE_log ∧ LettersOk roundE_log ∧
    between roundE_log (1 / 2) 7 ≠ [] ∧
    roundE.Lang ((between roundE_log (1 / 2) 7).map (fun e => (e.1, e.2 - 1 / 2)) ++ [(dollar, 7 - 1 / 2)]) := by
  have hs : LogStrict roundE_log := by
    unfold LogStrict roundE_log
    decide +kernel
  refine ⟨rfl, by decide, roundE_loops.1, roundE_loops.2, by decide, by decide, trivial,
    ⟨fun e he => (hs.1 e he).le, hs.2.imp fun h => h.le, by unfold roundE_log; decide +kernel⟩, hs, by unfold LettersOk roundE_log; decide +kernel, ?_, roundE_lang⟩
  · rw [roundE_between]; simp [roundE_log]

/-- `(a%(<1))((a%(1,3))$)`. -/
def lostE : TRE ℚ := .concat (.within (.atom 97) ⟨.fin 0 true, .fin 1 false⟩) (.concat (.within (.atom 97) ⟨.fin 1 false, .fin 3 false⟩) (.atom 36))

theorem lost_lang : lostE.Lang ((between twoLog (5 / 2) 6).map (fun e => (e.1, e.2 - 5 / 2)) ++ [(dollar, 6 - 5 / 2)]) := by
  rw [twoLog_between]
  refine ⟨[(97, 3 - 5 / 2)], _, rfl, ⟨⟨_, rfl⟩, ?_⟩, [(97, 5 - 5 / 2)], _, rfl, ⟨⟨_, rfl⟩, ?_⟩, ⟨_, rfl⟩⟩
  · show (0 : ℚ) ≤ 3 - 5 / 2 - 0 ∧ 3 - 5 / 2 - 0 < (1 : ℚ)
    norm_num
  · show (1 : ℚ) < 5 - 5 / 2 - (3 - 5 / 2) ∧ 5 - 5 / 2 - (3 - 5 / 2) < (3 : ℚ)
    norm_num

set_option maxRecDepth 100000 in
theorem lost_check : (lostE.eventTA down).toOption.any (fun A => okAll (fun z => beginExcludes z (5 / 2))
    (monaaDollar id 30 30 (vectorCont ℚ) A twoLog)) = true := by decide +kernel

/-- **C75 is false**: for the pattern `(a%(<1))((a%(1,3))$)` and the log with `a` at 1, 3, 5 and 7 the match `(5/2, 6)` is in no reported zone. -/
theorem pattern_match_complete_wrong : ¬ ∀ (s : List Char) (e : TRE ℚ) (alloc addr : Nat → Nat) (A : TA Nat) (w : TWord ℚ) (fuel steps : Nat)
    (zs : List (Zone ℚ)), parsePattern s = .ok e → '*' ∉ s → '+' ∉ s → '>' ∉ s → e.clocks ≤ 128 → Function.Injective alloc →
    Function.Injective addr → e.eventTA alloc = .ok A →
    LogOk w → LogStrict w → LettersOk w → w.length < steps → monaaDollar addr fuel steps (vectorCont ℚ) A w = .ok zs →
    ∀ t t', 0 ≤ t → t < t' → between w t t' ≠ [] → e.Lang ((between w t t').map (fun e => (e.1, e.2 - t)) ++ [(dollar, t' - t)]) →
      ∃ z ∈ zs, z.Has t t' := by
  intro h
  have hp : parsePattern "(a%(<1))((a%(1,3))$)".toList = .ok lostE := rfl
  have hpl : lostE.Plain := (parse_plain _ _ hp).1 (by decide) (by decide)
  obtain ⟨A, hA, -⟩ := eventTA_final_partial down down_inj lostE hpl
  have key := lost_check
  rw [hA] at key
  simp only [Except.toOption, Option.any_some] at key
  obtain ⟨zs, h1, h2⟩ := okAll_eq key
  obtain ⟨z, hz, hh⟩ := h _ lostE down id A twoLog 30 30 zs hp (by decide) (by decide) (by decide) (by decide) down_inj Function.injective_id hA
    two_log.1 two_log.2.1 two_log.2.2 (by decide) h1 (5 / 2) 6 (by norm_num) (by norm_num) (by rw [twoLog_between]; simp) lost_lang
  exact beginExcludes_has (h2 z hz) hh

end Verif.Props
