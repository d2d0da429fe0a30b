import Verif.Props.SameLanguage

/-!
# Whole runs: the same language, and the same events (C91, C92)

The theorems are about command lines with a text or with a file.
-/

set_option linter.unusedSectionVars false

namespace Verif.Props

open Bnd

section general

variable {K : Type} [Field K] [LinearOrder K] [IsStrictOrderedRing K] [FloorRing K]

/-- The conditions of `program_file_complete_partial` on a command line, the graph `G` of its file, and the log `w`; the matching
finishes. -/
structure GoodFile (E : Env K) (o : Options) (G : DotGraph) (w : TWord K) : Prop where
  inj : Function.Injective E.alloc
  named : o.Named
  loud : o.quiet = false
  file : ∃ f l, (asked o).1 = .file f ∧ E.dot ((E.file f).getD []) = .ok l ∧ parseBoostTA l = .ok G
  noSilent : ∀ e ∈ G.edges, e.label ≠ epsilon
  declared : (convBoostTA E.alloc G).ClocksDeclared
  loops : (convBoostTA E.alloc G).LoopsOk
  shiftable : (convBoostTA E.alloc G).Shiftable
  size : 2 * (convBoostTA E.alloc G).clockSize ≤ 256
  log : E.LogIs (asked o).2 o.binary w
  steps : w.length < E.steps
  ends : ∃ zs q, E.run o = .matched zs q

theorem goodFile_iff {E : Env K} {o : Options} {G : DotGraph} {w : TWord K} (h : GoodFile E o G w) (hw : LogOk w) (hstr : LogStrict w)
    (hlet : LettersOk w) {t t' : K} (hne : between w t t' ≠ []) : PrintedPair (E.run o).printed t t' ↔
      0 ≤ t ∧ t ≤ t' ∧ G.AcceptsFrom 0 ((between w t t').map (fun e => (e.1, e.2 - t)) ++ [(dollar, t' - t)]) := by
  obtain ⟨f, l, hf, hl, hG⟩ := h.file
  constructor
  · exact program_file_sound E h.inj o h.named f hf l hl G hG w h.log hw h.steps t t'
  · rintro ⟨h0, hle, hm⟩
    exact program_file_complete_partial E h.inj o h.named h.loud f hf l hl G hG h.noSilent h.declared h.loops h.shiftable
      (fun s _ => conv_flag s) h.size w h.log hw hstr hlet h.steps h.ends t t' h0 hle hne hm

/-- A command line with a text or a file which meets the conditions; `L` is the language of the text or of the graph. -/
inductive GoodPattern (E : Env K) (o : Options) (w : TWord K) : (TWord K → Prop) → Prop
  | text {e : TRE K} : GoodRun E o e w → GoodPattern E o w e.Lang
  | file {G : DotGraph} : GoodFile E o G w → GoodPattern E o w (G.AcceptsFrom 0)

theorem goodPattern_iff {E : Env K} {o : Options} {w : TWord K} {L : TWord K → Prop} (h : GoodPattern E o w L) (hw : LogOk w)
    (hstr : LogStrict w) (hlet : LettersOk w) {t t' : K} (hne : between w t t' ≠ []) : PrintedPair (E.run o).printed t t' ↔
      0 ≤ t ∧ t ≤ t' ∧ L ((between w t t').map (fun e => (e.1, e.2 - t)) ++ [(dollar, t' - t)]) := by
  cases h with
  | text h => exact goodRun_iff h hw hstr hlet hne
  | file h => exact goodFile_iff h hw hstr hlet hne

/-- **C92** for whole runs with texts or files (`_partial`: under the conditions of `program_complete_partial` and
`program_file_complete_partial`, for pairs with an event between them).  If a pattern matches what one of two others matches, then the
pairs printed for it are those printed for one of the others.  In particular a text and a file with the same language print the
same pairs. -/
theorem same_runs_partial (E E₁ E₂ : Env K) (o o₁ o₂ : Options) (w : TWord K) (L L₁ L₂ : TWord K → Prop) (h : GoodPattern E o w L)
    (h₁ : GoodPattern E₁ o₁ w L₁) (h₂ : GoodPattern E₂ o₂ w L₂) (hL : ∀ u, L u ↔ L₁ u ∨ L₂ u)
    (hw : LogOk w) (hstr : LogStrict w) (hlet : LettersOk w) (t t' : K) (hne : between w t t' ≠ []) :
    PrintedPair (E.run o).printed t t' ↔ PrintedPair (E₁.run o₁).printed t t' ∨ PrintedPair (E₂.run o₂).printed t t' := by
  rw [goodPattern_iff h hw hstr hlet hne, goodPattern_iff h₁ hw hstr hlet hne, goodPattern_iff h₂ hw hstr hlet hne, hL]
  tauto

/-- **C91** for whole runs (`_partial`: under the same conditions).  If the events between `t` and `t'` in one log are those between
`t + d` and `t' + d` in another, `d` later, then a block with `(t, t')` is printed for the first log if and only if one with
`(t + d, t' + d)` is for the second. -/
theorem program_local_partial (E E' : Env K) (o o' : Options) (w w' : TWord K) (L : TWord K → Prop) (h : GoodPattern E o w L)
    (h' : GoodPattern E' o' w' L) (hw : LogOk w) (hstr : LogStrict w) (hlet : LettersOk w) (hw' : LogOk w') (hstr' : LogStrict w')
    (hlet' : LettersOk w') (t t' d : K) (ht : 0 ≤ t) (hd : 0 ≤ t + d) (hne : between w t t' ≠ [])
    (hb : between w' (t + d) (t' + d) = (between w t t').map fun e => (e.1, e.2 + d)) :
    PrintedPair (E.run o).printed t t' ↔ PrintedPair (E'.run o').printed (t + d) (t' + d) := by
  have hne' : between w' (t + d) (t' + d) ≠ [] := by
    rw [hb]
    simpa using hne
  rw [goodPattern_iff h hw hstr hlet hne, goodPattern_iff h' hw' hstr' hlet' hne', hb, List.map_map]
  have e1 : (fun e : Alphabet × K => (e.1, e.2 - (t + d))) ∘ (fun e : Alphabet × K => (e.1, e.2 + d)) = fun e => (e.1, e.2 - t) := by
    funext e
    simp
  rw [e1, add_sub_add_right_eq_sub, add_le_add_iff_right]
  tauto

/-- In particular later events do not matter. -/
theorem program_prefix_partial (E E' : Env K) (o o' : Options) (w w' : TWord K) (L : TWord K → Prop) (h : GoodPattern E o w L)
    (h' : GoodPattern E' o' (w ++ w') L) (hw : LogOk (w ++ w')) (hstr : LogStrict (w ++ w')) (hlet : LettersOk (w ++ w'))
    (t t' : K) (ht : 0 ≤ t) (hne : between w t t' ≠ []) (hlater : ∀ e ∈ w', t' ≤ e.2) :
    PrintedPair (E.run o).printed t t' ↔ PrintedPair (E'.run o').printed t t' := by
  have hsub := List.sublist_append_left w w'
  have := program_local_partial E E' o o' w (w ++ w') L h h'
    ⟨fun e he => hw.nonneg e (by simp [he]), hw.sorted.sublist hsub, fun e he => hw.noMarker e (by simp [he])⟩
    ⟨fun e he => hstr.1 e (by simp [he]), hstr.2.sublist hsub⟩ (fun e he => hlet e (by simp [he])) hw hstr hlet
    t t' 0 ht (by simpa using ht) hne (by
      rw [add_zero, add_zero, between_append hlater]
      simp)
  simpa using this

end general

/-! ### samples -/

theorem file_shiftable : (convBoostTA down fileGraph).Shiftable := by
  refine .inl ⟨fun _ _ => False, fun _ _ _ h => h, fun s a e he => ⟨?_, fun _ _ _ h => h.elim⟩⟩
  intro g hg
  rw [(file_edges he).1] at hg
  cases hg

theorem file_size : 2 * (convBoostTA down fileGraph).clockSize ≤ 256 := by
  have : (convBoostTA down fileGraph).maxC = [] := by rw [conv_maxC]; rfl
  rw [TA.clockSize, this]
  decide

theorem file_asked : (asked fileOptions).1 = .file "a.dot" ∧ (asked fileOptions).2 = "stdin" := ⟨by decide +kernel, by decide +kernel⟩

/-- The command line `monaa -f a.dot` meets the conditions. -/
theorem file_good : GoodFile sampleEnv fileOptions fileGraph twoLog where
  inj := down_inj
  named := by simp [Options.Named, fileOptions, toyOptions]
  loud := rfl
  file := ⟨"a.dot", _, file_asked.1, rfl, file_graph⟩
  noSilent := by decide
  declared := file_declared
  loops := file_loops
  shiftable := file_shiftable
  size := file_size
  log := by
    rw [file_asked.2]
    exact sample_log
  steps := by decide
  ends := file_run.1

/-- The text `a$` and the graph have the same language. -/
theorem file_lang_text (u : TWord ℚ) : (TRE.concat (.atom 97) (.atom 36) : TRE ℚ).Lang u ↔ fileGraph.AcceptsFrom 0 u := by
  constructor
  · rintro ⟨u, v, rfl, ⟨t, rfl⟩, ⟨t', rfl⟩⟩
    exact ⟨0, false, rfl, 1, false, ⟨⟨0, 2, 97, [], []⟩, by decide, rfl, rfl, fun g hg => absurd hg (by simp),
      ⟨2, 1, 36, [], []⟩, by decide, rfl, rfl, fun g hg => absurd hg (by simp), rfl⟩, rfl⟩
  · rintro ⟨v, m, hv, v', i, hr, hv'⟩
    have h0 : v = 0 := by
      match v, hv with
      | 0, _ => rfl
      | n + 3, h => simp [fileGraph] at h
    have h1 : v' = 1 := by
      match v', hv' with
      | 1, _ => rfl
      | n + 3, h => simp [fileGraph] at h
    subst h0 h1
    have hcase : ∀ e ∈ fileGraph.edges, (e.source = 0 ∧ e.label = 97 ∧ e.target = 2) ∨ (e.source = 2 ∧ e.label = 36 ∧ e.target = 1) := by decide
    match u, hr with
    | [], hr => exact absurd (show (0 : Nat) = 1 from hr) (by decide)
    | (a, t) :: u, ⟨e, he, hs, ha, _, hr⟩ =>
      rcases hcase e he with ⟨-, hl, ht⟩ | ⟨h, -⟩
      · rw [ht] at hr
        rw [hl] at ha
        subst ha
        match u, hr with
        | [], hr => exact absurd (show (2 : Nat) = 1 from hr) (by decide)
        | (b, t') :: u, ⟨e, he, hs, hb, _, hr⟩ =>
          rcases hcase e he with ⟨h, -⟩ | ⟨-, hl, ht⟩
          · rw [h] at hs
            cases hs
          · rw [ht] at hr
            rw [hl] at hb
            subst hb
            match u, hr with
            | [], _ => exact ⟨[(97, t)], [(36, t')], rfl, ⟨t, rfl⟩, ⟨t', rfl⟩⟩
            | (c, _) :: u, ⟨e, he, hs, _⟩ =>
              rcases hcase e he with ⟨h, -⟩ | ⟨h, -⟩ <;> rw [h] at hs <;> cases hs
      · rw [h] at hs
        cases hs

/-- The hypotheses of `same_runs_partial` are met by the text `a$`, the file `a.dot`, and again the file. -/
example : ∃ fuel, GoodPattern { sampleEnv with fuel := fuel } (exprOptions "a$") twoLog (TRE.concat (.atom 97) (.atom 36) : TRE ℚ).Lang ∧
    GoodPattern sampleEnv fileOptions twoLog (fileGraph.AcceptsFrom 0) ∧
    (∀ u : TWord ℚ, (TRE.concat (.atom 97) (.atom 36) : TRE ℚ).Lang u ↔ fileGraph.AcceptsFrom 0 u ∨ fileGraph.AcceptsFrom 0 u) ∧
    LogOk twoLog ∧ LogStrict twoLog ∧ LettersOk twoLog ∧ between twoLog (3 / 2) 4 ≠ [] ∧
    PrintedPair (sampleEnv.run fileOptions).printed (3 / 2) 4 := by
  obtain ⟨N, h⟩ := text_good "a$" _ rfl (by decide) ⟨by decide +kernel, by decide +kernel⟩ (by decide) (by decide) (by decide)
    (.inl ⟨trivial, trivial⟩) (by decide) trivial 3 [(97, 1)]
    ⟨by simp, by unfold LettersOk; decide, by decide, by decide +kernel, by decide +kernel⟩ ⟨[(97, 1)], [(36, 3)], rfl, ⟨1, rfl⟩, ⟨3, rfl⟩⟩
  exact ⟨N, .text (h N le_rfl), .file file_good, fun u => by rw [or_self]; exact file_lang_text u, two_log.1, two_log.2.1, two_log.2.2,
    by decide +kernel, file_later⟩

/-- The first two events of `twoLog`. -/
def shortLog : TWord ℚ := twoLog.take 2

/-- The same computer, with the log `shortLog`. -/
def shortEnv : Env ℚ := { sampleEnv with stdin := bytesOf "a 1\na 3\n".toList }

theorem short_log : shortEnv.LogIs "stdin" false shortLog := by
  refine ⟨_, Or.inl ⟨rfl, rfl⟩, ?_⟩
  rw [if_neg (by decide)]
  refine ⟨digitText, [], ?_, by simp, by decide +kernel⟩
  intro e he
  have hd : ∀ c ∈ digitText.chars e.2, c.isDigit = true := by
    revert e
    decide +kernel
  have hlit : isWhite (digitText.letter e.1) = false ∧ (digitText.letter e.1).toNat = e.1 ∧
      (digitText.chars e.2).all (fun c => !isWhite c) = true ∧ (digitText.chars e.2).length = 1 ∧
      digitsValue (digitText.chars e.2) = e.2 := by
    revert e
    decide +kernel
  obtain ⟨h1, h2, h3, h4, h5⟩ := hlit
  obtain ⟨c, hc⟩ := List.length_eq_one_iff.1 h4
  refine ⟨h1, h2, ⟨c, [], hc, ?_⟩, fun b rest hb => ?_⟩
  · rw [hc] at h3
    simpa using h3
  · show digitScan.scan _ = _
    simp only [digitScan]
    rw [digits_white hd hb rest, if_neg (by rw [hc]; simp), h5]

theorem short_good : ∃ fuel, GoodFile { shortEnv with fuel := fuel } fileOptions fileGraph shortLog := by
  have hord : ∀ v v' m m', v < v' → fileGraph.vertices[v]? = some (true, m) → fileGraph.vertices[v']? = some (true, m') → down v < down v' := by
    intro v v' m m' hlt hv hv'
    have : ∀ v m, fileGraph.vertices[v]? = some (true, m) → v = 0 := by
      intro v m h
      match v with
      | 0 => rfl
      | 1 => simp [fileGraph] at h
      | 2 => simp [fileGraph] at h
      | n + 3 => simp [fileGraph] at h
    have a := this v m hv
    have b := this v' m' hv'
    omega
  have hlet : LettersOk shortLog := by unfold LettersOk; decide
  have hn : fileOptions.Named := by simp [Options.Named, fileOptions, toyOptions]
  have hlog : ∀ fuel, Env.LogIs { shortEnv with fuel := fuel } (asked fileOptions).2 fileOptions.binary shortLog := by
    intro fuel
    rw [file_asked.2]
    exact short_log
  obtain ⟨N, h⟩ := program_file_ends_partial shortEnv down_inj fileOptions hn
    ⟨rfl, rfl, by simp [Options.Conflict, fileOptions, toyOptions], Or.inr ⟨⟨_, file_asked.1⟩, rfl⟩⟩ "a.dot" file_asked.1 _ rfl fileGraph
    file_graph (by decide) file_declared file_loops hord (Or.inl file_asked.2) shortLog (hlog 30) hlet
  refine ⟨N, ⟨down_inj, hn, rfl, ⟨"a.dot", _, file_asked.1, rfl, file_graph⟩, by decide, file_declared, file_loops, file_shiftable, file_size,
    hlog N, show 2 < 30 by decide, ?_⟩⟩
  exact (h N 30 (le_refl _) (by decide)).2 ⟨5 / 2, [(97, 3 / 2)], by simp, by unfold LettersOk; decide +kernel,
    by decide +kernel, by decide +kernel, by simp, (file_lang_text _).1 ⟨[(97, 3 / 2)], [(36, 5 / 2)], rfl, ⟨_, rfl⟩, ⟨_, rfl⟩⟩⟩

/-- The hypotheses of `program_prefix_partial` (and so of `program_local_partial`) are met by the file `a.dot` and the pair
`(3/2, 4)`, which is printed for the longer log and so for the shorter. -/
example : ∃ fuel, GoodPattern { shortEnv with fuel := fuel } fileOptions shortLog (fileGraph.AcceptsFrom 0) ∧
    GoodPattern sampleEnv fileOptions (shortLog ++ twoLog.drop 2) (fileGraph.AcceptsFrom 0) ∧
    LogOk (shortLog ++ twoLog.drop 2) ∧ LogStrict (shortLog ++ twoLog.drop 2) ∧ LettersOk (shortLog ++ twoLog.drop 2) ∧
    between shortLog (3 / 2) 4 ≠ [] ∧ (∀ e ∈ twoLog.drop 2, 4 ≤ e.2) ∧
    PrintedPair (Env.run { shortEnv with fuel := fuel } fileOptions).printed (3 / 2) 4 := by
  obtain ⟨fuel, h⟩ := short_good
  have he : shortLog ++ twoLog.drop 2 = twoLog := List.take_append_drop 2 twoLog
  have g : GoodPattern sampleEnv fileOptions (shortLog ++ twoLog.drop 2) (fileGraph.AcceptsFrom 0) := by
    rw [he]
    exact .file file_good
  have h1 : LogOk (shortLog ++ twoLog.drop 2) := by rw [he]; exact two_log.1
  have h2 : LogStrict (shortLog ++ twoLog.drop 2) := by rw [he]; exact two_log.2.1
  have h3 : LettersOk (shortLog ++ twoLog.drop 2) := by rw [he]; exact two_log.2.2
  have h4 : between shortLog (3 / 2) 4 ≠ [] := by decide +kernel
  have h5 : ∀ e ∈ twoLog.drop 2, 4 ≤ e.2 := by decide +kernel
  exact ⟨fuel, .file h, g, h1, h2, h3, h4, h5,
    (program_prefix_partial _ sampleEnv fileOptions fileOptions shortLog _ _ (.file h) g h1 h2 h3 (3 / 2) 4 (by norm_num) h4 h5).2 file_later⟩

end Verif.Props
