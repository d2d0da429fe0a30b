import Verif.Model.Tre2ta
import Verif.Props.Refuted
import Verif.Lemmas.DotLoops

/-!
# C82: `tre2ta`, and its output as a pattern for `monaa -f`
-/

set_option linter.unusedSectionVars false

namespace Verif.Props

variable {K : Type} [Field K] [LinearOrder K] [IsStrictOrderedRing K] [FloorRing K]

/-- The pattern of `tre2ta`: the last argument which belongs to no option, otherwise that of `-e`. -/
theorem tre2ta_pattern (o : Tre2taOptions) : (o.positional = [] → o.pattern = o.expression) ∧
    ∀ l s, o.positional = l ++ [s] → o.pattern = s := by
  constructor
  · intro h
    simp [Tre2taOptions.pattern, h]
  · intro l s h
    simp [Tre2taOptions.pattern, h]

/-- **C82**, messages: if the scanner does not fail, `tre2ta` ends with status 2 exactly if neither version nor usage is asked for and the
pattern is not empty and not a sentence of the grammar; the usage is printed for an empty pattern (it is not read from the standard
input). -/
theorem tre2ta_status (alloc : Nat → Nat) (o : Tre2taOptions)
    (hscan : ∀ x, .bad x ∉ lexFrom .none (o.pattern.toList.takeWhile (· ≠ '\x00'))) :
    (tre2taMain K alloc o = .fail 2 ↔ o.version = false ∧ o.help = false ∧ o.pattern ≠ "" ∧
      ¬ ∃ us tail, lexFrom .none (o.pattern.toList.takeWhile (· ≠ '\x00')) = us ++ tail ∧ EndEnd tail ∧ ∃ e : TRE K, ExprG us e) ∧
    (∀ n, tre2taMain K alloc o = .fail n → n = 2) ∧
    (tre2taMain K alloc o = .usage ↔ o.version = false ∧ (o.pattern = "" ∨ o.help = true)) ∧
    (tre2taMain K alloc o = .version ↔ o.version = true) := by
  rw [← (parse_grammar (K := K) _).1]
  unfold tre2taMain
  have hemp : (o.pattern.isEmpty = true) ↔ o.pattern = "" := by rw [String.isEmpty_iff]
  by_cases hv : o.version = true
  · simp [hv]
  · simp only [Bool.not_eq_true] at hv
    rw [hv]
    simp only [Bool.false_eq_true, if_false, true_and]
    by_cases hu : o.pattern = "" ∨ o.help = true
    · rw [if_pos (by rw [Bool.or_eq_true, hemp]; exact hu)]
      refine ⟨?_, by simp, by simp [hu], by simp⟩
      constructor
      · intro h; cases h
      · rintro ⟨h1, h2, -⟩
        rcases hu with hu | hu
        · exact absurd hu h2
        · rw [h1] at hu; cases hu
    · rw [if_neg (by rw [Bool.or_eq_true, hemp]; exact hu)]
      have hu1 : o.pattern ≠ "" := fun h => hu (Or.inl h)
      have hu2 : o.help = false := by
        cases h : o.help
        · rfl
        · exact absurd (Or.inr h) hu
      unfold parseOutcome parsePattern
      cases h : parseToks (K := K) (lexFrom .none (o.pattern.toList.takeWhile (· ≠ '\x00'))) with
      | ok e =>
        simp only
        cases e.eventTA alloc with
        | error x => simp [hu1, hu2]
        | ok A => cases hs : showTA A <;> simp [hu1, hu2, hs]
      | error x =>
        cases x with
        | «syntax» => simp [hu1, hu2]
        | scan x => exact absurd (parseLoop_err _ _ _ _ _ (Nat.lt_succ_self _) h) (hscan x)

theorem consts_of_intervals {P : Int → Prop} : ∀ {e : TRE K}, e.Intervals (fun I => ∀ (c : Int) (s : Bool), I.lower = .fin (c : K) s ∨ I.upper = .fin (c : K) s → P c) →
    e.Consts P
  | .atom _, _ => trivial
  | .epsilon, _ => trivial
  | .plus e, h => consts_of_intervals (e := e) h
  | .concat _ _, h => ⟨consts_of_intervals h.1, consts_of_intervals h.2⟩
  | .disj _ _, h => ⟨consts_of_intervals h.1, consts_of_intervals h.2⟩
  | .conj _ _, h => ⟨consts_of_intervals h.1, consts_of_intervals h.2⟩
  | .within _ _, h => ⟨consts_of_intervals h.1, h.2⟩

/-- The numbers of a pattern which is parsed fit in an `int`. -/
theorem parse_consts (s : List Char) (e : TRE K) (h : parsePattern s = .ok e) : e.Consts FitsInt := by
  obtain ⟨us, tail, e', hc, ht⟩ := parseToks_sound h
  have hq : ∀ t ∈ us, TokOf (· ∈ s) t := pattern_of _ (fun _ hc => hc) e'
  refine consts_of_intervals (hc.expr.keeps (keeps_intervals fun us I _ hI hu => ?_) hq)
  have one : ∀ (n : Nat) (b : Bool) (c : Int) (s : Bool), n ≤ 2147483647 → (Bnd.fin (n : K) b = .fin (c : K) s) → FitsInt c := by
    intro n b c s hn h
    simp only [Bnd.fin.injEq] at h
    have : (n : Int) = c := by exact_mod_cast h.1
    unfold FitsInt
    omega
  have zero : ∀ (b : Bool) (c : Int) (s : Bool), (Bnd.fin (0 : K) b = .fin (c : K) s) → FitsInt c := by
    intro b c s h
    exact one 0 b c s (by omega) (by simpa using h)
  induction hI with
  | oo => rintro c s (h | h) <;> exact one _ _ _ _ (by first | exact hu (.int _) (by simp) ) h
  | co => rintro c s (h | h) <;> exact one _ _ _ _ (by first | exact hu (.int _) (by simp) ) h
  | oc => rintro c s (h | h) <;> exact one _ _ _ _ (by first | exact hu (.int _) (by simp) ) h
  | cc => rintro c s (h | h) <;> exact one _ _ _ _ (by first | exact hu (.int _) (by simp) ) h
  | lt =>
    rintro c s (h | h)
    · exact zero _ _ _ h
    · exact one _ _ _ _ (by exact hu (.int _) (by simp)) h
  | le =>
    rintro c s (h | h)
    · exact zero _ _ _ h
    · exact one _ _ _ _ (by exact hu (.int _) (by simp)) h
  | eq => rintro c s (h | h) <;> exact one _ _ _ _ (by exact hu (.int _) (by simp)) h
  | ge =>
    rintro c s (h | h)
    · exact one _ _ _ _ (by exact hu (.int _) (by simp)) h
    · cases h
  | gt =>
    rintro c s (h | h)
    · exact one _ _ _ _ (by exact hu (.int _) (by simp)) h
    · cases h
  | paren h ih => exact ih fun t ht => hu t (by simp [ht])

/-- **C82**, the pipeline (`_partial`: for texts without `*` and `>` and at most 256 clocks).  `tre2ta` writes a graph; if Boost reads
from the file the statements which were written, each pair `(t, t')` which satisfies the lines of a block printed by `monaa -f` with that
file is a match of the expression. -/
theorem pipeline_sound_partial (alloc : Nat → Nat) (hinj : Function.Injective alloc) (p : Tre2taOptions) (hv : p.version = false)
    (hh : p.help = false) (h1 : '*' ∉ p.pattern.toList) (h2 : '>' ∉ p.pattern.toList)
    (e : TRE K) (hp : parsePattern p.pattern.toList = .ok e) (h3 : e.clocks ≤ 256) :
    ∃ l, tre2taMain K alloc p = .wrote p.output l ∧
      ∀ (E : Env K), Function.Injective E.alloc → ∀ (o : Options), o.Named → (asked o).1 = .file p.output →
        E.dot ((E.file p.output).getD []) = .ok l → ∀ (w : TWord K), E.LogIs (asked o).2 o.binary w → LogOk w → w.length < E.steps →
        ∀ t t', PrintedPair (E.run o).printed t t' →
          0 ≤ t ∧ t ≤ t' ∧ e.Lang ((between w t t').map (fun e => (e.1, e.2 - t)) ++ [(dollar, t' - t)]) := by
  obtain ⟨k1, k2⟩ := parse_plain _ e hp
  have hpl := k1 h2 h3
  have hreg := (k2 h1).regular
  have hfit := parse_consts _ e hp
  obtain ⟨A, l, -, hA, hl, -⟩ := tre2ta_lang_partial alloc alloc hinj hinj e hpl hreg hfit
  have hne : p.pattern.isEmpty = false := by
    cases hb : p.pattern.isEmpty with
    | false => rfl
    | true =>
      rw [String.isEmpty_iff] at hb
      rw [hb] at hp
      cases hp
  refine ⟨l, ?_, ?_⟩
  · unfold tre2taMain parseOutcome
    rw [hv, hh, hne, hp]
    simp [hA, hl]
  · intro E hinjE o hn hf hdot w hlog hw hst t t' hpr
    obtain ⟨A', l', B, hA', hl', hB, hlang⟩ := tre2ta_lang_partial alloc E.alloc hinj hinjE e hpl hreg hfit
    rw [hA] at hA'
    cases hA'
    rw [hl] at hl'
    cases hl'
    unfold loadTA at hB
    simp only [bind, Except.bind, pure, Except.pure] at hB
    cases hG : parseBoostTA l with
    | error x => rw [hG] at hB; cases hB
    | ok G =>
      rw [hG] at hB
      cases hB
      obtain ⟨m1, m2, m3⟩ := program_file_sound E hinjE o hn p.output hf l hdot G hG w hlog hw hst t t' hpr
      obtain ⟨j1, -⟩ := loaded_lang (K := K) E.alloc hinjE G (parsed_ok hG)
      exact ⟨m1, m2, (hlang 0 _).1 ((j1 0 _).2 m3)⟩

/-- **C82**, the pipeline, completeness (`_partial`: for texts without `*` and `>`, with the conditions of C75 on the expression, where
every clock which is reset is at most one which is compared in the graph; logs with strictly increasing times, matches with at least one event).
`tre2ta` writes a graph; if Boost reads from the file the statements which were written and the matching of `monaa -f` with that file
finishes, each match of the expression satisfies the lines of some printed block. -/
theorem pipeline_complete_partial (alloc : Nat → Nat) (hinj : Function.Injective alloc) (p : Tre2taOptions) (hv : p.version = false)
    (hh : p.help = false) (h1 : '*' ∉ p.pattern.toList) (h2 : '>' ∉ p.pattern.toList)
    (e : TRE K) (hp : parsePattern p.pattern.toList = .ok e) (h1' : e.LoopsOk) (h3 : e.clocks ≤ 128) (hlate : e.Late ∨ e.Windowed) :
    ∃ l G, tre2taMain K alloc p = .wrote p.output l ∧ parseBoostTA l = .ok G ∧
      ((∀ d ∈ G.edges, ∀ x ∈ d.resets, ∃ d' ∈ G.edges, ∃ g ∈ d'.guard, x ≤ g.x) →
        ∀ (E : Env K), Function.Injective E.alloc → ∀ (o : Options), o.Named → o.quiet = false → (asked o).1 = .file p.output →
        E.dot ((E.file p.output).getD []) = .ok l → ∀ (w : TWord K), E.LogIs (asked o).2 o.binary w → LogOk w → LogStrict w → LettersOk w →
        w.length < E.steps → (∃ zs q, E.run o = .matched zs q) → ∀ t t', 0 ≤ t → t ≤ t' → between w t t' ≠ [] →
        e.Lang ((between w t t').map (fun e => (e.1, e.2 - t)) ++ [(dollar, t' - t)]) → PrintedPair (E.run o).printed t t') := by
  obtain ⟨k1, k2⟩ := parse_plain _ e hp
  have hpl := k1 h2 (by omega)
  have hεf := k2 h1
  have hreg := hεf.regular
  have hfit := parse_consts _ e hp
  obtain ⟨A, hA, hpr⟩ := eventTA_printable alloc hinj e hpl hreg hfit
  obtain ⟨A', hA', hloop, hshift, -⟩ := eventTA_late alloc hinj e hpl hεf h1' hlate
  rw [hA] at hA'
  cases hA'
  obtain ⟨A', hA', -, -, -, hcd, -, -, hsil, hsize, -⟩ := eventTA_final_partial alloc hinj e hpl
  rw [hA] at hA'
  cases hA'
  obtain ⟨A', hA', hden, -⟩ := eventTA_lang_partial alloc hinj e hpl hreg
  rw [hA] at hA'
  cases hA'
  have hne : p.pattern.isEmpty = false := by
    cases hb : p.pattern.isEmpty with
    | false => rfl
    | true =>
      rw [String.isEmpty_iff] at hb
      rw [hb] at hp
      cases hp
  refine ⟨_, A.graph, ?_, parse_show hpr, ?_⟩
  · unfold tre2taMain parseOutcome
    rw [hv, hh, hne, hp]
    simp [hA, showTA_ok hpr]
  · intro hres E hinjE o hn hq hf hdot w hlog hw hstr hlet hst hr t t' h0 htt hbet hl
    have hGok := parsed_ok (parse_show hpr)
    obtain ⟨-, j2, j3⟩ := loaded_clocks_partial E.alloc A.graph hGok
    have hεl : ∀ d ∈ A.graph.edges, d.label ≠ epsilon := by
      intro d hd he
      obtain ⟨s, hs, a, u, hu, q, -, -, rfl⟩ := (graph_edges hpr).1 hd
      subst he
      have := hsil s hs
      rw [TA.edges, Next.at', this] at hu
      cases hu
    have hsz : (convBoostTA E.alloc A.graph).clockSize ≤ 128 := by
      by_contra hlt
      obtain ⟨⟨d, hd, g, hg, hx⟩, -⟩ := j2 128 (by omega)
      obtain ⟨s, hs, a, u, hu, q, -, -, rfl⟩ := (graph_edges hpr).1 hd
      have := (hcd s a u hu).1 g hg
      omega
    exact program_file_complete_partial E hinjE o hn hq p.output hf _ hdot A.graph (parse_show hpr) hεl (j3 hres)
      (loaded_loopsOk hinjE hpr hloop) (loaded_shiftable hinjE hpr hshift) (fun s _ => conv_flag s) (by omega) w hlog hw hstr hlet hst hr t t' h0 htt
      hbet ((graph_accepts hpr 0 _).2 ((hden 0 _).2 hl))

/-- The command line `tre2ta -o f -e s`. -/
def graphOptions (f s : String) : Tre2taOptions := ⟨false, false, f, s, []⟩

/-- Both outcomes of `tre2ta_status`: `tre2ta 'a|'` and `tre2ta`. -/
example : (∀ x, .bad x ∉ lexFrom .none ((graphOptions "stdout" "a|").pattern.toList.takeWhile (· ≠ '\x00'))) ∧
    tre2taMain ℚ down (graphOptions "stdout" "a|") = .fail 2 ∧ tre2taMain ℚ down (graphOptions "stdout" "") = .usage := by
  refine ⟨fun x => ?_, by decide +kernel, by decide +kernel⟩
  have : lexFrom .none ((graphOptions "stdout" "a|").pattern.toList.takeWhile (· ≠ '\x00')) = [.atom 'a', .bar] := by decide +kernel
  rw [this]
  simp

/-- **C82 is false**: `tre2ta -e '(a*)&a'` writes nothing; an exception is not caught (C65). -/
theorem tre2ta_writes_wrong : ¬ ∀ (alloc : Nat → Nat) (p : Tre2taOptions) (e : TRE ℚ), Function.Injective alloc → p.version = false → p.help = false →
    parsePattern p.pattern.toList = .ok e → e.Plain → ∃ l, tre2taMain ℚ alloc p = .wrote p.output l := by
  intro h
  obtain ⟨l, hl⟩ := h up (graphOptions "a.dot" "(a*)&a") (.conj (.star litA) litA) up_inj rfl rfl rfl ⟨⟨trivial, litA_plain⟩, litA_plain, by decide⟩
  have key : tre2taMain ℚ up (graphOptions "a.dot" "(a*)&a") = .died .outOfRange := by decide +kernel
  rw [hl] at key
  cases key

/-- What `tre2ta -o a.dot -e 'a$'` writes. -/
def graphOfA : List DotStmt :=
  [.node 1 true false false, .node 2 false false false, .node 3 false true false, .edge 1 2 97 [] [], .edge 2 3 36 [] []]

/-- The file `a.dot` is the one written by `tre2ta`. -/
def pipeEnv : Env ℚ := { sampleEnv with dot := fun _ => .ok graphOfA }

set_option maxRecDepth 100000 in
theorem pipe_check : (loadTA down graphOfA).toOption.any
    (fun A => (monaaDollar id 30 30 (vectorCont ℚ) A twoLog).toOption.any (fun zs => decide ((zs.flatMap printBlock).take 4 =
      [.row (.fin 0 true) "t" (.fin 1 false), .row (.fin 1 false) "t'" (.fin 3 true), .row (.fin 0 false) "t' - t" (.fin 3 true), .separator]))) =
    true := by decide +kernel

theorem pipe_run : (∃ zs q, pipeEnv.run fileOptions = .matched zs q) ∧ (pipeEnv.run fileOptions).printed.take 4 = [.row (.fin 0 true) "t" (.fin 1 false), .row (.fin 1 false) "t'" (.fin 3 true),
    .row (.fin 0 false) "t' - t" (.fin 3 true), .separator] := by
  have key := pipe_check
  cases hA : loadTA down graphOfA with
  | error x => rw [hA] at key; cases key
  | ok A =>
    rw [hA] at key
    simp only [Except.toOption, Option.any_some] at key
    cases hr : monaaDollar id 30 30 (vectorCont ℚ) A twoLog with
    | error x => rw [hr] at key; cases key
    | ok zs =>
      rw [hr] at key
      simp only [Option.any_some, decide_eq_true_eq] at key
      have h1 : (asked fileOptions).1 = .file "a.dot" := by decide +kernel
      have h2 : (asked fileOptions).2 = "stdin" := by decide +kernel
      have hm : pipeEnv.run fileOptions = .matched zs false := by
        refine (main_matched_iff pipeEnv.world fileOptions (by simp [Options.Named, fileOptions, toyOptions]) zs false).2
          ⟨⟨rfl, rfl, by simp [Options.Conflict, fileOptions, toyOptions], Or.inr ⟨⟨_, h1⟩, rfl⟩⟩, rfl, A, ?_, Or.inl h2, ?_⟩
        · rw [← hA]
          exact .file h1
        · rw [h2]
          show pipeEnv.runEvent "stdin" false A = _
          rw [runEvent_eq (E := pipeEnv) (show pipeEnv.LogIs "stdin" false twoLog from sample_log) (show 4 < 30 by decide)]
          exact hr
      refine ⟨⟨zs, false, hm⟩, ?_⟩
      rw [hm, printed_matched]
      exact key

/-- The hypotheses of `pipeline_sound_partial` are met: `monaa -f a.dot` prints a block which the pair `(1/2, 2)` satisfies. -/
example : '*' ∉ (graphOptions "a.dot" "a$").pattern.toList ∧ '>' ∉ (graphOptions "a.dot" "a$").pattern.toList ∧
    (∃ e : TRE ℚ, parsePattern (graphOptions "a.dot" "a$").pattern.toList = .ok e ∧ e.clocks ≤ 256) ∧
    tre2taMain ℚ down (graphOptions "a.dot" "a$") = .wrote "a.dot" graphOfA ∧ Function.Injective pipeEnv.alloc ∧ fileOptions.Named ∧
    (asked fileOptions).1 = .file "a.dot" ∧ pipeEnv.dot ((pipeEnv.file "a.dot").getD []) = .ok graphOfA ∧
    pipeEnv.LogIs (asked fileOptions).2 fileOptions.binary twoLog ∧ LogOk twoLog ∧ twoLog.length < pipeEnv.steps ∧
    PrintedPair (pipeEnv.run fileOptions).printed (1 / 2) 2 := by
  refine ⟨by decide, by decide, ⟨_, rfl, by decide⟩, by decide +kernel, down_inj, by simp [Options.Named, fileOptions, toyOptions], by decide +kernel, rfl, ?_,
    two_log.1, show 4 < 30 by decide, ?_⟩
  · have : (asked fileOptions).2 = "stdin" := by decide +kernel
    rw [this]
    exact sample_log
  · obtain ⟨post, hpost⟩ := take_four pipe_run.2
    refine ⟨[], [.row (.fin 0 true) "t" (.fin 1 false), .row (.fin 1 false) "t'" (.fin 3 true), .row (.fin 0 false) "t' - t" (.fin 3 true)],
      post, by rw [hpost]; rfl, Or.inl rfl, by simp, ?_⟩
    intro l hl
    simp only [List.mem_cons, List.not_mem_nil, or_false] at hl
    rcases hl with rfl | rfl | rfl <;> refine ⟨fun h => ?_, fun h => ?_, fun h => ?_⟩ <;> first
      | exact absurd h (by decide)
      | (unfold between'; norm_num)

/-- The graph of `graphOfA`. -/
def dotOfA : DotGraph := ⟨[(true, false), (false, false), (false, true)], [⟨0, 1, 97, [], []⟩, ⟨1, 2, 36, [], []⟩]⟩

/-- The hypotheses of `pipeline_complete_partial` are met: `monaa -f a.dot` prints a block which the pair `(3/2, 4)` satisfies. -/
example : PrintedPair (pipeEnv.run fileOptions).printed (3 / 2) 4 := by
  obtain ⟨l, G, h1, h2, h⟩ := pipeline_complete_partial down down_inj (graphOptions "a.dot" "a$") rfl rfl (by decide) (by decide)
    (.concat litA (.atom 36)) rfl (.inl ⟨trivial, trivial⟩) (by decide) (Or.inl trivial)
  have hw : tre2taMain ℚ down (graphOptions "a.dot" "a$") = .wrote "a.dot" graphOfA := by decide +kernel
  rw [hw] at h1
  cases h1
  have hG : parseBoostTA graphOfA = .ok dotOfA := by
    refine toOption_eq (?_ : Except.toOption _ = some dotOfA)
    decide +kernel
  rw [hG] at h2
  cases h2
  have hlog : pipeEnv.LogIs (asked fileOptions).2 fileOptions.binary twoLog := by
    have : (asked fileOptions).2 = "stdin" := by decide +kernel
    rw [this]
    exact sample_log
  have hbet : between twoLog (3 / 2) 4 = [(97, 3)] := by decide +kernel
  refine h (by decide) pipeEnv down_inj fileOptions (by simp [Options.Named, fileOptions, toyOptions]) rfl (by decide +kernel) rfl twoLog hlog
    two_log.1 two_log.2.1 two_log.2.2 (show 4 < 30 by decide) pipe_run.1 (3 / 2) 4 (by norm_num) (by norm_num) (by rw [hbet]; simp) ?_
  rw [hbet]
  exact ⟨[(97, 3 - 3 / 2)], _, rfl, ⟨_, rfl⟩, ⟨_, rfl⟩⟩

/-- The clocks which are reset are compared also in the graph of `(a+)((a%(1,3))$)`, which satisfies the conditions on the expression. -/
example : laterE.LoopsOk ∧ laterE.clocks ≤ 128 ∧ laterE.Late ∧ parsePattern "(a+)((a%(1,3))$)".toList = .ok laterE ∧
    (match tre2taMain ℚ down (graphOptions "a.dot" "(a+)((a%(1,3))$)") with
      | .wrote _ l => (parseBoostTA l).toOption.any fun G => decide (0 < (G.edges.flatMap (·.resets)).length) &&
          G.edges.all fun d => d.resets.all fun x => G.edges.any fun d' => d'.guard.any fun g => decide (x ≤ g.x)
      | _ => false) = true :=
  ⟨.inl ⟨trivial, trivial, trivial⟩, by decide, trivial, rfl, by decide +kernel⟩

end Verif.Props
