import Verif.Props.Tre2ta
import Verif.Lemmas.TREReset

/-!
# C82: completeness of the two programs for texts without `&`
-/

set_option linter.unusedSectionVars false

namespace Verif.Props

variable {K : Type} [Field K] [LinearOrder K] [IsStrictOrderedRing K] [FloorRing K]

/-- Without `&` in the text there is no conjunction in the expression. -/
theorem parse_conjFree (s : List Char) (e : TRE K) (h : parsePattern s = .ok e) (hs : '&' ∉ s) : e.ConjFree := by
  obtain ⟨us, tail, e', hc, ht⟩ := parseToks_sound h
  have hq : ∀ t ∈ us, TokOf (· ∈ s) t := pattern_of _ (fun _ hc => hc) e'
  refine hc.expr.keeps ?_ hq
  exact {
    atom := fun _ _ => trivial
    plus := fun e he _ => by
      rcases e.mkPlus_cases with ⟨f, rfl, e'⟩ | ⟨-, e'⟩
      · exact he
      · rw [e']; exact he
    star := fun e he _ => ⟨trivial, by
      rcases e.mkPlus_cases with ⟨f, rfl, e'⟩ | ⟨-, e'⟩
      · exact he
      · rw [e']; exact he⟩
    concat := fun _ _ h h' => ⟨h, h'⟩
    disj := fun _ _ h h' => ⟨h, h'⟩
    conj := fun _ _ _ _ hs' => absurd hs' hs
    within := fun _ _ _ h _ _ _ => h }

/-- **C82**: the automaton of an expression without conjunction and without the empty word compares its last clock in some transition
between its states; so the file written by `tre2ta` mentions in a guard a clock at least as large as each clock which is reset. -/
theorem eventTA_resets_compared (alloc : Nat → Nat) (hinj : Function.Injective alloc) (e : TRE K) (he : e.Plain) (hε : e.EpsilonFree) (hc : e.ConjFree)
    (A : TA Nat) (hA : e.eventTA alloc = .ok A) : ∀ s ∈ A.states, ∀ a, ∀ t ∈ A.edges s a, ∀ x ∈ t.resets,
      ∃ s' ∈ A.states, ∃ b, ∃ t' ∈ A.edges s' b, ∃ q ∈ A.states, t'.target = some q ∧ ∃ g ∈ t'.guard, x ≤ g.x := by
  obtain ⟨A', k', h1, hok, hcmp, -⟩ := TRE.toEventTA_compared hinj e he hε hc (fun _ => ⟨false, false, []⟩) 0
  have : A'.owned = A := by
    rw [TRE.eventTA, h1] at hA
    cases hA
    rfl
  subst this
  intro s (hs : s ∈ A'.states) a t ht x hx
  rw [owned_edges hs] at ht
  have hlt := hok.wf.resets s hs a t ht x hx
  obtain ⟨s', hs', b, t', ht', q, hq, hg, g, hgm, hgx⟩ := hcmp (by omega)
  exact ⟨s', hs', b, t', by rw [owned_edges hs']; exact ht', q, hg.mem, hq, g, hgm, by omega⟩

/-- **C82**, the pipeline, completeness (`_partial`: for texts without `*`, `>` and `&`, with the conditions of C75 on the expression; logs
with strictly increasing times, matches with at least one event).  `tre2ta` writes a graph; if Boost reads from the file the statements which
were written and the matching of `monaa -f` with that file finishes, each match of the expression satisfies the lines of some printed block. -/
theorem pipeline_text_partial (alloc : Nat → Nat) (hinj : Function.Injective alloc) (p : Tre2taOptions) (hv : p.version = false)
    (hh : p.help = false) (h1 : '*' ∉ p.pattern.toList) (h2 : '>' ∉ p.pattern.toList) (h4 : '&' ∉ p.pattern.toList)
    (e : TRE K) (hp : parsePattern p.pattern.toList = .ok e) (h1' : e.LoopsOk) (h3 : e.clocks ≤ 128) (hlate : e.Late ∨ e.Windowed) :
    ∃ l, tre2taMain K alloc p = .wrote p.output l ∧
      ∀ (E : Env K), Function.Injective E.alloc → ∀ (o : Options), o.Named → o.quiet = false → (asked o).1 = .file p.output →
        E.dot ((E.file p.output).getD []) = .ok l → ∀ (w : TWord K), E.LogIs (asked o).2 o.binary w → LogOk w → LogStrict w → LettersOk w →
        w.length < E.steps → (∃ zs q, E.run o = .matched zs q) → ∀ t t', 0 ≤ t → t ≤ t' → between w t t' ≠ [] →
        e.Lang ((between w t t').map (fun e => (e.1, e.2 - t)) ++ [(dollar, t' - t)]) → PrintedPair (E.run o).printed t t' := by
  obtain ⟨l, G, hw, hG, h⟩ := pipeline_complete_partial alloc hinj p hv hh h1 h2 e hp h1' h3 hlate
  refine ⟨l, hw, h ?_⟩
  obtain ⟨k1, k2⟩ := parse_plain _ e hp
  have hpl := k1 h2 (by omega)
  have hεf := k2 h1
  obtain ⟨A, hA, hpr⟩ := eventTA_printable alloc hinj e hpl hεf.regular (parse_consts _ e hp)
  have hne : p.pattern.isEmpty = false := by
    cases hb : p.pattern.isEmpty with
    | false => rfl
    | true =>
      rw [String.isEmpty_iff] at hb
      rw [hb] at hp
      cases hp
  have hl : tre2taMain K alloc p = .wrote p.output (A.nodeStmts ++ A.printed.map A.edgeStmt) := by
    unfold tre2taMain parseOutcome
    rw [hv, hh, hne, hp]
    simp [hA, showTA_ok hpr]
  rw [hl] at hw
  cases hw
  rw [parse_show hpr] at hG
  cases hG
  intro d hd x hx
  obtain ⟨s, hs, a, t, ht, q, -, -, rfl⟩ := (graph_edges hpr).1 hd
  obtain ⟨s', hs', b, t', ht', q', hq', htq, g, hg, hle⟩ :=
    eventTA_resets_compared alloc hinj e hpl hεf (parse_conjFree _ e hp h4) A hA s hs a t ht x hx
  exact ⟨_, (graph_edges hpr).2 ⟨s', hs', b, t', ht', q', hq', htq, rfl⟩, g, hg, hle⟩

/-- The hypotheses of `pipeline_text_partial` are met: for the file written by `tre2ta -o a.dot -e 'a$'`, `monaa -f a.dot` prints a block
which the pair `(3/2, 4)` satisfies. -/
example : PrintedPair (pipeEnv.run fileOptions).printed (3 / 2) 4 := by
  obtain ⟨l, h1, h⟩ := pipeline_text_partial down down_inj (graphOptions "a.dot" "a$") rfl rfl (by decide) (by decide) (by decide)
    (.concat litA (.atom 36)) rfl (.inl ⟨trivial, trivial⟩) (by decide) (Or.inl trivial)
  have hw : tre2taMain ℚ down (graphOptions "a.dot" "a$") = .wrote "a.dot" graphOfA := by decide +kernel
  rw [hw] at h1
  cases h1
  have hlog : pipeEnv.LogIs (asked fileOptions).2 fileOptions.binary twoLog := by
    have : (asked fileOptions).2 = "stdin" := by decide +kernel
    rw [this]
    exact sample_log
  have hbet : between twoLog (3 / 2) 4 = [(97, 3)] := by decide +kernel
  refine h pipeEnv down_inj fileOptions (by simp [Options.Named, fileOptions, toyOptions]) rfl (by decide +kernel) rfl twoLog hlog
    two_log.1 two_log.2.1 two_log.2.2 (show 4 < 30 by decide) pipe_run.1 (3 / 2) 4 (by norm_num) (by norm_num) (by rw [hbet]; simp) ?_
  rw [hbet]
  exact ⟨[(97, 3 - 3 / 2)], _, rfl, ⟨_, rfl⟩, ⟨_, rfl⟩⟩

/-- An expression with a reset, `(a+)((a%(1,3))$)`, which satisfies the hypotheses on the text. -/
example : '*' ∉ "(a+)((a%(1,3))$)".toList ∧ '>' ∉ "(a+)((a%(1,3))$)".toList ∧ '&' ∉ "(a+)((a%(1,3))$)".toList ∧
    parsePattern "(a+)((a%(1,3))$)".toList = .ok laterE ∧ laterE.LoopsOk ∧ laterE.clocks ≤ 128 ∧ laterE.Late :=
  ⟨by decide, by decide, by decide, rfl, .inl ⟨trivial, trivial, trivial⟩, by decide, trivial⟩

end Verif.Props
