import Verif.Props.SameRuns
import Verif.Props.SameSignals
import Verif.Props.UnitRun

/-!
# Restricting a pattern never adds results (C95)
-/

set_option linter.unusedSectionVars false

namespace Verif

/-- `f` arises from `e` by widening time restrictions, dropping them, dropping parts of intersections, and adding alternatives. -/
inductive TRE.Narrower {K : Type} [Field K] [LinearOrder K] : TRE K → TRE K → Prop
  | refl (e : TRE K) : Narrower e e
  | plus {e f : TRE K} : Narrower e f → Narrower (.plus e) (.plus f)
  | concat {e f e' f' : TRE K} : Narrower e f → Narrower e' f' → Narrower (.concat e e') (.concat f f')
  | disj {e f e' f' : TRE K} : Narrower e f → Narrower e' f' → Narrower (.disj e e') (.disj f f')
  | conj {e f e' f' : TRE K} : Narrower e f → Narrower e' f' → Narrower (.conj e e') (.conj f f')
  | within {e f : TRE K} {I J : Interval K} : Narrower e f → (∀ d, I.Mem d → J.Mem d) → Narrower (.within e I) (.within f J)
  | drop {e f : TRE K} {I : Interval K} : Narrower e f → Narrower (.within e I) f
  | left {e f e' : TRE K} : Narrower e f → Narrower (.conj e e') f
  | right {e f e' : TRE K} : Narrower e f → Narrower (.conj e' e) f
  | first {e f f' : TRE K} : Narrower e f → Narrower e (.disj f f')
  | second {e f f' : TRE K} : Narrower e f → Narrower e (.disj f' f)

namespace Props

open Bnd

/-- **C95 is false**: two automata without clocks accept the same words, and something is reported for one of them only. -/
theorem narrower_wrong :
    ¬ ∀ (A B : TA Nat) (w : TWord ℚ) (fuel steps : Nat) (zs zs' : List (Zone ℚ)), (∀ u : TWord ℚ, A.Accepts u → B.Accepts u) →
      A.NoSilent → B.NoSilent → LogOk w → LogStrict w → LettersOk w → w.length < steps →
      monaaDollar id fuel steps (vectorCont ℚ) A w = .ok zs → monaaDollar id fuel steps (vectorCont ℚ) B w = .ok zs' →
      ∀ t t', (∃ z ∈ zs, z.Has t t') → ∃ z ∈ zs', z.Has t t' := by
  intro h
  exact same_language_wrong fun A B w fuel steps zs zs' hL hA hB hw hstr hlet hs h1 h2 t t' =>
    ⟨h A B w fuel steps zs zs' (fun u => (hL u).1) hA hB hw hstr hlet hs h1 h2 t t',
      h B A w fuel steps zs' zs (fun u => (hL u).2) hB hA hw hstr hlet hs h2 h1 t t'⟩

section automata

variable {S S' K : Type} [DecidableEq S] [DecidableEq S'] [Field K] [LinearOrder K] [IsStrictOrderedRing K]

/-- **C95, what holds** (`_partial`: the wider pattern meets the conditions of `matcher_complete_partial`, and the pair has an event
between its ends).  If every word which `A` accepts is accepted by `B`, then every pair reported for `A` is
reported for `B`.  There is no condition on the narrower pattern. -/
theorem narrower_partial (A : TA S) (B : TA S') (hA : A.Tidy) (hB : Good B) (hL : ∀ u : TWord K, A.Accepts u → B.Accepts u)
    (w : TWord K) (hw : LogOk w) (hstr : LogStrict w) (hlet : LettersOk w) (addr : S → Nat) (addr' : S' → Nat)
    (fuel fuel' steps steps' : Nat) (hs : w.length < steps) (hs' : w.length < steps') (zs zs' : List (Zone K))
    (h : monaaDollar addr fuel steps (vectorCont K) A w = .ok zs ∨
      monaaDollar addr fuel steps (lazyCont K) A (Lazy.mk0 w) = .ok zs)
    (h' : monaaDollar addr' fuel' steps' (vectorCont K) B w = .ok zs' ∨
      monaaDollar addr' fuel' steps' (lazyCont K) B (Lazy.mk0 w) = .ok zs')
    (t t' : K) (hne : between w t t' ≠ []) (hr : ∃ z ∈ zs, z.Has t t') : ∃ z ∈ zs', z.Has t t' := by
  obtain ⟨z, hz, ht⟩ := hr
  obtain ⟨h0, hle, hacc⟩ := matcher_sound A hA w hw addr fuel steps hs zs h z hz t t' ht
  exact (good_iff hB hw hstr hlet hs' h' hne).2 ⟨h0, hle, hL _ hacc⟩

/-- The hypotheses are met by the patterns for `a`, and for `a` or `b`, and a log `a`, `b`. -/
example : (lettersPattern [97]).Tidy ∧ Good (lettersPattern [97, 98]) ∧
    (∀ u : TWord ℚ, (lettersPattern [97]).Accepts u → (lettersPattern [97, 98]).Accepts u) ∧
    LogOk abLog ∧ LogStrict abLog ∧ LettersOk abLog ∧ between abLog (0 : ℚ) 2 ≠ [] ∧
    (∀ ls ∈ [[97], [97, 98]], ∃ zs, monaaDollar id 20 20 (vectorCont ℚ) (lettersPattern ls) abLog = .ok zs ∧ zs ≠ []) := by
  refine ⟨(letters_good _ (by decide) (by decide)).tidy, letters_good _ (by decide) (by decide), ?_,
    ⟨by decide +kernel, by decide +kernel, by decide⟩, ⟨by decide +kernel, by decide +kernel⟩, by unfold LettersOk; decide,
    by decide +kernel, ?_⟩
  · intro u
    simp only [letters_accepts]
    rintro ⟨a, τ, τ', ha, rfl⟩
    exact ⟨a, τ, τ', by simp_all, rfl⟩
  · have key : ([[97], [97, 98]] : List (List Alphabet)).all (fun ls =>
        match monaaDollar id 20 20 (vectorCont ℚ) (lettersPattern ls) abLog with
        | .ok zs => !zs.isEmpty
        | .error _ => false) = true := by decide +kernel
    intro ls hls
    have := List.all_eq_true.1 key ls hls
    split at this
    · rename_i zs hzs
      exact ⟨zs, hzs, by simpa using this⟩
    · cases this

/-- **C95** for `monaa` (`_partial`: the wider pattern meets the conditions of `signal_complete_partial`, and `t < t'`). -/
theorem narrower_signals_partial (A : TA S) (B : TA S') (hA : A.Tidy) (hε : A.NoSilent) (hB : GoodSignal B)
    (hL : ∀ u : TWord K, A.Accepts u → B.Accepts u)
    (w : TWord K) (hw : LogOk w) (hstr : LogStrict w) (hlet : LettersOk w)
    (fuel fuel' steps steps' efuel efuel' : Nat) (st st' : Option Nat) (hs : w.length < steps) (hs' : w.length < steps')
    (zs zs' : List (Zone K))
    (h : (monaa fuel steps efuel (vectorCont K) st A w).1 = .ok zs ∨
      (monaa fuel steps efuel (lazyCont K) st A (Lazy.mk0 w)).1 = .ok zs)
    (h' : (monaa fuel' steps' efuel' (vectorCont K) st' B w).1 = .ok zs' ∨
      (monaa fuel' steps' efuel' (lazyCont K) st' B (Lazy.mk0 w)).1 = .ok zs')
    (t t' : K) (htt : t < t') (hr : ∃ z ∈ zs, z.Has t t') : ∃ z ∈ zs', z.Has t t' := by
  obtain ⟨z, hz, ht⟩ := hr
  obtain ⟨h0, -, a, ha, hacc⟩ := signal_sound A hA hε w hw fuel steps efuel st hs zs h z hz t t' ht
  exact (goodSignal_iff hB hw hstr hlet hs' h' htt).2 ⟨h0, a, ha, hL _ hacc⟩

/-- The hypotheses are met by the patterns which ask for more than 2 and for more than 1. -/
example : (afterPattern 2).Tidy ∧ (afterPattern 2).NoSilent ∧ GoodSignal (afterPattern 1) ∧
    (∀ u : TWord ℚ, (afterPattern 2).Accepts u → (afterPattern 1).Accepts u) ∧ LogOk signalLog ∧ LogStrict signalLog ∧
    LettersOk signalLog ∧
    ∀ c ∈ ([1, 2] : List Int), ∃ zs : List (Zone ℚ), (monaa 20 20 20 (vectorCont ℚ) none (afterPattern c) signalLog).1 = .ok zs ∧ zs ≠ [] :=
  ⟨(after_good 2).tidy, (after_good 2).noSilent, after_good 1, fun _ => after_less (by decide), signalLog_ok.1, signalLog_ok.2.1, signalLog_ok.2.2,
    fun c hc => of_any (List.all_eq_true.1 after_check c hc)⟩

end automata

section program

variable {K : Type} [Field K] [LinearOrder K] [IsStrictOrderedRing K] [FloorRing K]

theorem Repeat.narrower {P Q : K → TWord K → Prop} (h : ∀ t w, P t w → Q t w) {t : K} {w : TWord K} (hr : Repeat P t w) : Repeat Q t w := by
  induction hr with
  | one hp => exact .one (h _ _ hp)
  | more hp _ ih => exact .more (h _ _ hp) ih

/-- What the narrower expression matches, the wider one matches. -/
theorem narrower_den {e f : TRE K} (h : e.Narrower f) : ∀ (t : K) (w : TWord K), e.Den t w → f.Den t w := by
  induction h with
  | refl => exact fun _ _ h => h
  | plus _ ih => exact fun _ _ h => Repeat.narrower ih h
  | concat _ _ ih ih' =>
    rintro t w ⟨u, v, rfl, hu, hv⟩
    exact ⟨u, v, rfl, ih _ _ hu, ih' _ _ hv⟩
  | disj _ _ ih ih' => exact fun _ _ h => h.imp (ih _ _) (ih' _ _)
  | conj _ _ ih ih' => exact fun _ _ h => ⟨ih _ _ h.1, ih' _ _ h.2⟩
  | within _ hI ih => exact fun _ _ h => ⟨ih _ _ h.1, hI _ h.2⟩
  | drop _ ih => exact fun _ _ h => ih _ _ h.1
  | left _ ih => exact fun _ _ h => ih _ _ h.1
  | right _ ih => exact fun _ _ h => ih _ _ h.2
  | first _ ih => exact fun _ _ h => .inl (ih _ _ h)
  | second _ ih => exact fun _ _ h => .inr (ih _ _ h)

/-- A command line with a text (without `*` and `>`, at most 256 clocks) in event mode, or with a file; `L` is the language of the
text or of the graph. -/
inductive AnyPattern (E : Env K) (o : Options) (w : TWord K) : (TWord K → Prop) → Prop
  | text {s : String} {e : TRE K} (h : (asked o).1 = .expression s) (h0 : o.signal = false) (h1 : '*' ∉ s.toList) (h2 : '>' ∉ s.toList)
      (hp : parsePattern s.toList = .ok e) (h3 : e.clocks ≤ 256) : AnyPattern E o w e.Lang
  | file {f : String} {l : List DotStmt} {G : DotGraph} (h : (asked o).1 = .file f) (hl : E.dot ((E.file f).getD []) = .ok l)
      (hG : parseBoostTA l = .ok G) : AnyPattern E o w (G.AcceptsFrom 0)

theorem anyPattern_sound {E : Env K} (hinj : Function.Injective E.alloc) {o : Options} (hn : o.Named) {w : TWord K} {L : TWord K → Prop}
    (h : AnyPattern E o w L) (hlog : E.LogIs (asked o).2 o.binary w) (hw : LogOk w) (hst : w.length < E.steps) {t t' : K}
    (hp : PrintedPair (E.run o).printed t t') :
    0 ≤ t ∧ t ≤ t' ∧ L ((between w t t').map (fun e => (e.1, e.2 - t)) ++ [(dollar, t' - t)]) := by
  cases h with
  | text h h0 h1 h2 hpa h3 => exact program_sound_partial E hinj o hn h0 _ h h1 h2 _ hpa h3 w hlog hw hst t t' hp
  | file h hl hG => exact program_file_sound E hinj o hn _ h _ hl _ hG w hlog hw hst t t' hp

/-- **C95** for whole runs with texts or files (`_partial`: the wider pattern meets the conditions of `program_complete_partial` or
`program_file_complete_partial`, and the pair has an event between its ends). -/
theorem narrower_runs_partial (E E' : Env K) (o o' : Options) (w : TWord K) (L L' : TWord K → Prop)
    (hinj : Function.Injective E.alloc) (hn : o.Named) (h : AnyPattern E o w L) (hlog : E.LogIs (asked o).2 o.binary w)
    (hst : w.length < E.steps) (h' : GoodPattern E' o' w L') (hL : ∀ u, L u → L' u)
    (hw : LogOk w) (hstr : LogStrict w) (hlet : LettersOk w) (t t' : K) (hne : between w t t' ≠ [])
    (hp : PrintedPair (E.run o).printed t t') : PrintedPair (E'.run o').printed t t' := by
  obtain ⟨h0, hle, hm⟩ := anyPattern_sound hinj hn h hlog hw hst hp
  exact (goodPattern_iff h' hw hstr hlet hne).2 ⟨h0, hle, hL _ hm⟩

/-- In particular for texts: if time restrictions are made wider or removed, parts of intersections removed or alternatives added,
every printed pair is still printed. -/
theorem narrower_text_partial (E E' : Env K) (o o' : Options) (w : TWord K) (e e' : TRE K) (hinj : Function.Injective E.alloc)
    (hn : o.Named) (hsig : o.signal = false) (s : String) (hs : (asked o).1 = .expression s) (h1 : '*' ∉ s.toList) (h2 : '>' ∉ s.toList)
    (hpa : parsePattern s.toList = .ok e) (h3 : e.clocks ≤ 256) (hlog : E.LogIs (asked o).2 o.binary w)
    (hst : w.length < E.steps) (h' : GoodRun E' o' e' w) (hee : e.Narrower e')
    (hw : LogOk w) (hstr : LogStrict w) (hlet : LettersOk w) (t t' : K) (hne : between w t t' ≠ [])
    (hp : PrintedPair (E.run o).printed t t') : PrintedPair (E'.run o').printed t t' :=
  narrower_runs_partial E E' o o' w e.Lang e'.Lang hinj hn (.text hs hsig h1 h2 hpa h3) hlog hst (.text h')
    (fun u => narrower_den hee 0 u) hw hstr hlet t t' hne hp

/-- An intersection prints exactly what both parts print (`_partial`: the three runs meet the conditions of `program_complete_partial`,
and the pair has an event between its ends). -/
theorem conjunction_partial (E E₁ E₂ : Env K) (o o₁ o₂ : Options) (e₁ e₂ : TRE K) (w : TWord K) (h : GoodRun E o (.conj e₁ e₂) w)
    (h₁ : GoodRun E₁ o₁ e₁ w) (h₂ : GoodRun E₂ o₂ e₂ w)
    (hw : LogOk w) (hstr : LogStrict w) (hlet : LettersOk w) (t t' : K) (hne : between w t t' ≠ []) :
    PrintedPair (E.run o).printed t t' ↔ PrintedPair (E₁.run o₁).printed t t' ∧ PrintedPair (E₂.run o₂).printed t t' := by
  rw [goodRun_iff h hw hstr hlet hne, goodRun_iff h₁ hw hstr hlet hne, goodRun_iff h₂ hw hstr hlet hne]
  show _ ↔ _
  constructor
  · rintro ⟨a, b, c, d⟩
    exact ⟨⟨a, b, c⟩, a, b, d⟩
  · rintro ⟨⟨a, b, c⟩, -, -, d⟩
    exact ⟨a, b, c, d⟩

end program

/-! ### samples -/

/-- `(a+)((a%(1,9))$)`. -/
def widerE : TRE ℚ := .concat (.plus (.atom 97)) (.concat (.within (.atom 97) ⟨.fin 1 false, .fin 9 false⟩) (.atom 36))

theorem later_narrower : laterE.Narrower widerE := by
  refine .concat (.refl _) (.concat (.within (.refl _) fun d hd => ?_) (.refl _))
  obtain ⟨h1, h2⟩ := hd
  exact ⟨h1, lt_trans (show d < 3 from h2) (by norm_num)⟩

/-- The hypotheses of `narrower_text_partial` are met by `(a+)((a%(1,3))$)` and `(a+)((a%(1,9))$)`: the pair `(1/2, 6)`, printed for
the first, is printed for the second. -/
example : ∃ N, ∀ fuel, N ≤ fuel → PrintedPair (Env.run { sampleEnv with fuel := fuel } (exprOptions "(a+)((a%(1,9))$)")).printed (1 / 2) 6 := by
  obtain ⟨F, hF⟩ := sample_printed
  have hl : widerE.Lang ([(97, 1), (97, 3)] ++ [(dollar, 4)]) :=
    ⟨[(97, 1)], _, rfl, .one ⟨_, rfl⟩, [(97, 3)], _, rfl, ⟨⟨_, rfl⟩, show (1 : ℚ) < 3 - 1 ∧ (3 : ℚ) - 1 < 9 by norm_num⟩, ⟨_, rfl⟩⟩
  obtain ⟨N, h⟩ := text_good "(a+)((a%(1,9))$)" widerE rfl (by decide) ⟨by decide +kernel, by decide +kernel⟩ (by decide) (by decide)
    (by decide) (.inl ⟨trivial, trivial, trivial⟩) (by decide) trivial 4 [(97, 1), (97, 3)]
    ⟨by simp, by unfold LettersOk; decide, by decide, by decide +kernel, by decide +kernel⟩ hl
  obtain ⟨hn, -, hs, hf⟩ := sample_consistent
  exact ⟨N, fun fuel hfuel => narrower_text_partial { sampleEnv with fuel := F } { sampleEnv with fuel := fuel } sampleOptions _ twoLog laterE widerE
    down_inj hn rfl _ hs (by decide) (by decide) rfl (by decide) (by rw [hf]; exact sample_log) (show 4 < 30 by decide) (h fuel hfuel)
    later_narrower two_log.1 two_log.2.1 two_log.2.2 (1 / 2) 6 (by rw [later_between]; simp) hF⟩

/-- The hypotheses of `narrower_runs_partial` are met by the text `a$` and the file `a.dot`. -/
example : AnyPattern sampleEnv (exprOptions "a$") twoLog (TRE.concat (.atom 97) (.atom 36) : TRE ℚ).Lang ∧
    GoodPattern sampleEnv fileOptions twoLog (fileGraph.AcceptsFrom 0) ∧
    ∀ u : TWord ℚ, (TRE.concat (.atom 97) (.atom 36) : TRE ℚ).Lang u → fileGraph.AcceptsFrom 0 u :=
  ⟨.text (s := "a$") (by decide +kernel) rfl (by decide) (by decide) rfl (by decide), .file file_good, fun u => (file_lang_text u).1⟩

/-- `a$`. -/
def bothE1 : TRE ℚ := .concat (.atom 97) (.atom 36)

/-- `(a|b)$`. -/
def bothE2 : TRE ℚ := .concat (.disj (.atom 97) (.atom 98)) (.atom 36)

theorem both_check : ((TRE.conj bothE1 bothE2).eventTA down).toOption.any (fun A =>
    (monaaDollar id 30 30 (vectorCont ℚ) A twoLog).toOption.any fun zs => !zs.isEmpty) = true := by decide +kernel

theorem both_good : GoodRun sampleEnv (exprOptions "(a$)&((a|b)$)") (.conj bothE1 bothE2) twoLog := by
  have hn : (exprOptions "(a$)&((a|b)$)").Named := by simp [Options.Named, exprOptions, toyOptions]
  have h1 : (asked (exprOptions "(a$)&((a|b)$)")).1 = .expression "(a$)&((a|b)$)" := by decide +kernel
  have h2 : (asked (exprOptions "(a$)&((a|b)$)")).2 = "stdin" := by decide +kernel
  have hp : parsePattern "(a$)&((a|b)$)".toList = .ok (.conj bothE1 bothE2) := by decide +kernel
  refine ⟨down_inj, hn, rfl, rfl, ⟨_, h1, by decide, by decide, hp⟩, .inl ⟨⟨trivial, trivial⟩, ⟨trivial, trivial⟩, trivial⟩,
    by decide, .inl ⟨trivial, trivial, trivial⟩, by rw [h2]; exact sample_log, show 4 < 30 by decide, ?_⟩
  have key := both_check
  cases hA : (TRE.conj bothE1 bothE2).eventTA down with
  | error x => rw [hA] at key; cases key
  | ok A =>
    rw [hA] at key
    simp only [Except.toOption, Option.any_some] at key
    cases hr : monaaDollar id 30 30 (vectorCont ℚ) A twoLog with
    | error x => rw [hr] at key; cases key
    | ok zs =>
      refine ⟨zs, false, (main_matched_iff sampleEnv.world _ hn zs false).2
        ⟨⟨rfl, rfl, by simp [Options.Conflict, exprOptions, toyOptions], Or.inl ⟨_, h1⟩⟩, rfl, A, ?_, Or.inl h2, ?_⟩⟩
      · have hW : sampleEnv.world.parse "(a$)&((a|b)$)" = .ok (some (.conj bothE1 bothE2)) := by
          show parseOutcome "(a$)&((a|b)$)" = _
          rw [parseOutcome, hp]
        have hT : sampleEnv.world.eventTA (.conj bothE1 bothE2) = .ok A := hA
        have hP := PatternIs.expression h1 hW
        rw [if_neg (show ¬ (exprOptions "(a$)&((a|b)$)").signal = true by decide), hT] at hP
        exact hP
      · rw [h2]
        show sampleEnv.runEvent "stdin" false A = _
        rw [runEvent_eq (E := sampleEnv) (show sampleEnv.LogIs "stdin" false twoLog from sample_log) (show 4 < 30 by decide)]
        exact hr

/-- The hypotheses of `conjunction_partial` are met by the texts `(a$)&((a|b)$)`, `a$` and `(a|b)$`, and the pair
`(2, 4)` is printed for all three. -/
example : ∃ fuel, PrintedPair (sampleEnv.run (exprOptions "(a$)&((a|b)$)")).printed 2 4 ∧
    PrintedPair (Env.run { sampleEnv with fuel := fuel } (exprOptions "a$")).printed 2 4 ∧
    PrintedPair (Env.run { sampleEnv with fuel := fuel } (exprOptions "(a|b)$")).printed 2 4 := by
  have hu : ([(97, 1)] : TWord ℚ) ≠ [] ∧ LettersOk ([(97, 1)] : TWord ℚ) ∧ (∀ e ∈ ([(97, 1)] : TWord ℚ), e.1 ≠ dollar) ∧
      (∀ e ∈ ([(97, 1)] : TWord ℚ), 0 < e.2 ∧ e.2 < 4) ∧ ([(97, 1)] : TWord ℚ).Pairwise (fun a b => a.2 < b.2) :=
    ⟨by simp, by unfold LettersOk; decide, by decide, by decide +kernel, by decide +kernel⟩
  have l1 : bothE1.Lang ([(97, 1)] ++ [(dollar, 4)]) :=
    ⟨[(97, 1)], _, rfl, ⟨_, rfl⟩, ⟨_, rfl⟩⟩
  have l2 : bothE2.Lang ([(97, 1)] ++ [(dollar, 4)]) :=
    ⟨[(97, 1)], _, rfl, .inl ⟨_, rfl⟩, ⟨_, rfl⟩⟩
  obtain ⟨N1, h1⟩ := text_good "a$" bothE1 rfl (by decide) ⟨by decide +kernel, by decide +kernel⟩ (by decide) (by decide)
    (by decide) (.inl ⟨trivial, trivial⟩) (by decide) trivial 4 [(97, 1)] hu l1
  obtain ⟨N2, h2⟩ := text_good "(a|b)$" bothE2 (by decide +kernel) (by decide) ⟨by decide +kernel, by decide +kernel⟩ (by decide) (by decide)
    (by decide) (.inl ⟨⟨trivial, trivial⟩, trivial⟩) (by decide) ⟨trivial, trivial⟩ 4 [(97, 1)] hu l2
  have hb : between twoLog 2 4 = [(97, 3)] := by decide +kernel
  have m1 : PrintedPair (Env.run { sampleEnv with fuel := N1 + N2 } (exprOptions "a$")).printed 2 4 := by
    refine (goodRun_iff (h1 _ (by omega)) two_log.1 two_log.2.1 two_log.2.2 (by rw [hb]; simp)).2 ⟨by norm_num, by norm_num, ?_⟩
    rw [hb]
    exact ⟨[(97, 3 - 2)], _, rfl, ⟨_, rfl⟩, ⟨_, rfl⟩⟩
  have m2 : PrintedPair (Env.run { sampleEnv with fuel := N1 + N2 } (exprOptions "(a|b)$")).printed 2 4 := by
    refine (goodRun_iff (h2 _ (by omega)) two_log.1 two_log.2.1 two_log.2.2 (by rw [hb]; simp)).2 ⟨by norm_num, by norm_num, ?_⟩
    rw [hb]
    exact ⟨[(97, 3 - 2)], _, rfl, .inl ⟨_, rfl⟩, ⟨_, rfl⟩⟩
  exact ⟨N1 + N2, (conjunction_partial sampleEnv _ _ _ _ _ bothE1 bothE2 twoLog both_good (h1 (N1 + N2) (by omega)) (h2 (N1 + N2) (by omega))
    two_log.1 two_log.2.1 two_log.2.2 2 4 (by rw [hb]; simp)).2 ⟨m1, m2⟩, m1, m2⟩

end Props
end Verif
