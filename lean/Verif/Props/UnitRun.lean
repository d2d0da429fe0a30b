import Verif.Props.LogForm
import Verif.Props.Tre2ta
import Verif.Props.UnitDot
import Verif.Lemmas.UnitSilent

/-!
# The unit of time for whole runs (C94)
-/

set_option linter.unusedSectionVars false

namespace Verif

variable {K : Type} [Field K] [LinearOrder K] [IsStrictOrderedRing K] [FloorRing K]

/-- The line of the output with its numbers multiplied. -/
def OutLine.scale (k : Int) : OutLine K → OutLine K
  | .row lower name upper => .row (lower.scale k) name (upper.scale k)
  | .separator => .separator

/-- The command line `o'` asks for the pattern of `o` in the other unit: a text of the expression with multiplied ends, or a file of
the graph with multiplied constants. -/
inductive AskedInUnit (k : Int) (E E' : Env K) (o o' : Options) : Prop
  | text {s s' : String} {e : TRE K} (h : (asked o).1 = .expression s) (hp : parsePattern s.toList = .ok e)
      (h' : (asked o').1 = .expression s') (hp' : parsePattern s'.toList = .ok (e.scale k)) : AskedInUnit k E E' o o'
  | file {f f' : String} {l l' : List DotStmt} {G : DotGraph} (h : (asked o).1 = .file f) (hl : E.dot ((E.file f).getD []) = .ok l)
      (hG : parseBoostTA l = .ok G) (h' : (asked o').1 = .file f') (hl' : E'.dot ((E'.file f').getD []) = .ok l')
      (hG' : parseBoostTA l' = .ok (G.scale k)) : AskedInUnit k E E' o o'

namespace Props

theorem intEnds_of_intervals : ∀ {e : TRE K}, e.Intervals Interval.IntEnds → e.IntEnds
  | .atom _, _ => trivial
  | .epsilon, _ => trivial
  | .plus e, h => intEnds_of_intervals (e := e) h
  | .concat _ _, h => ⟨intEnds_of_intervals h.1, intEnds_of_intervals h.2⟩
  | .disj _ _, h => ⟨intEnds_of_intervals h.1, intEnds_of_intervals h.2⟩
  | .conj _ _, h => ⟨intEnds_of_intervals h.1, intEnds_of_intervals h.2⟩
  | .within _ _, h => ⟨intEnds_of_intervals h.1, h.2⟩

/-- The ends in a text are whole numbers. -/
theorem parse_intEnds (s : List Char) (e : TRE K) (h : parsePattern s = .ok e) : e.IntEnds := by
  obtain ⟨us, tail, e', hc, ht⟩ := parseToks_sound h
  have hq : ∀ t ∈ us, TokOf (· ∈ s) t := pattern_of _ (fun _ hc => hc) e'
  refine intEnds_of_intervals (hc.expr.keeps (keeps_intervals fun us I _ hI hu => ?_) hq)
  have one : ∀ (n : Nat) (b : Bool) (c : K) (s : Bool), (Bnd.fin (n : K) b = .fin c s) → ∃ m : Int, c = m := by
    intro n b c s h
    simp only [Bnd.fin.injEq] at h
    exact ⟨n, by rw [← h.1]; simp⟩
  have zero : ∀ (b : Bool) (c : K) (s : Bool), (Bnd.fin (0 : K) b = .fin c s) → ∃ m : Int, c = m := by
    intro b c s h
    exact one 0 b c s (by simpa using h)
  clear hu
  induction hI with
  | lt => exact ⟨zero _, one _ _⟩
  | le => exact ⟨zero _, one _ _⟩
  | ge => exact ⟨one _ _, fun _ _ h => by cases h⟩
  | gt => exact ⟨one _ _, fun _ _ h => by cases h⟩
  | paren h ih => exact ih
  | _ => exact ⟨one _ _, one _ _⟩

theorem printBlock_scale {k : Int} (z : Zone K) : printBlock (z.scale k) = (printBlock z).map (OutLine.scale k) := by
  have h : ∀ b : Bnd K, negFirst (b.scale k) = (negFirst b).scale k := by
    intro b
    cases b with
    | inf s => rfl
    | fin c s => simp [negFirst, Bnd.scale]
  simp only [printBlock, Zone.scale_get, h, List.map_cons, List.map_nil, OutLine.scale]

theorem holds_scale {k : Int} (hk : 0 < k) (t t' : K) (l : OutLine K) :
    (l.scale k).Holds ((k : K) * t) ((k : K) * t') ↔ l.Holds t t' := by
  have hp := cast_pos (K := K) hk
  have h : ∀ (lo up : Bnd K) (x : K), between' (lo.scale k) ((k : K) * x) (up.scale k) ↔ between' lo x up := by
    intro lo up x
    rcases lo with ⟨c, _ | _⟩ | _ <;> rcases up with ⟨d, _ | _⟩ | _ <;>
      simp [between', Bnd.scale, mul_lt_mul_iff_right₀ hp, mul_le_mul_iff_right₀ hp]
  cases l with
  | separator => exact Iff.rfl
  | row lo name up => simp only [OutLine.scale, OutLine.Holds, ← mul_sub, h]

/-- The two outcomes agree: the same end, and the zones multiplied. -/
def OutcomeInUnit (k : Int) : Outcome (List (Zone K)) → Outcome (List (Zone K)) → Prop
  | .matched zs q, r => r = .matched (zs.map (Zone.scale k)) q
  | .died x, r => r = .died x
  | _, _ => False

theorem outcome_scale {k : Int} (hk : 0 < k) {r r' : Outcome (List (Zone K))} (h : OutcomeInUnit k r r') :
    r'.status = r.status ∧ r'.printed = r.printed.map (OutLine.scale k) ∧ (∀ x, r' = .died x ↔ r = .died x) ∧
    ∀ t t', PrintedPair r'.printed ((k : K) * t) ((k : K) * t') ↔ PrintedPair r.printed t t' := by
  cases r with
  | version => exact h.elim
  | usage => exact h.elim
  | fail n => exact h.elim
  | died x =>
    have h : r' = .died x := h
    subst h
    refine ⟨rfl, rfl, fun _ => Iff.rfl, fun t t' => ?_⟩
    have e : (Outcome.died x : Outcome (List (Zone K))).printed = ([] : List (Zone K)).flatMap printBlock := rfl
    rw [e, printedPair_iff, printedPair_iff]
    simp
  | matched zs q =>
    have h : r' = .matched (zs.map (Zone.scale k)) q := h
    subst h
    refine ⟨rfl, ?_, fun _ => by simp, fun t t' => ?_⟩
    · rw [printed_matched, printed_matched]
      cases q with
      | true => rfl
      | false =>
        simp only [Bool.false_eq_true, if_false, List.flatMap_map, List.map_flatMap]
        exact flatMap_congr' fun z _ => printBlock_scale z
    · rw [printed_matched, printed_matched]
      cases q with
      | true =>
        have e : ([] : List (OutLine K)) = ([] : List (Zone K)).flatMap printBlock := rfl
        simp only [if_true]
        rw [e, printedPair_iff, printedPair_iff]
        simp
      | false =>
        simp only [Bool.false_eq_true, if_false]
        rw [printedPair_iff, printedPair_iff]
        simp only [List.mem_map, exists_exists_and_eq_and, printBlock_scale, forall_exists_index, and_imp, forall_apply_eq_imp_iff₂,
          holds_scale hk]

theorem run_scale {k : Int} (hk : 0 < k) (A : TA Nat) (w : TWord K) (fuel steps : Nat) (q : Bool) :
    OutcomeInUnit k
      (match monaaDollar id fuel steps (vectorCont K) A w with
        | .ok r => .matched r q
        | .error x => .died x)
      (match monaaDollar id fuel steps (vectorCont K) (A.scale k) (scaleLog k w) with
        | .ok r => .matched r q
        | .error x => .died x) := by
  rw [monaaDollar_scale hk]
  cases monaaDollar id fuel steps (vectorCont K) A w <;> exact rfl

theorem run_signal_scale {k : Int} (hk : 0 < k) (A : TA Nat) (w : TWord K) (fuel steps efuel : Nat) (q : Bool) :
    OutcomeInUnit k
      (match (monaa fuel steps efuel (vectorCont K) none A w).1 with
        | .ok r => .matched r q
        | .error x => .died x)
      (match (monaa fuel steps efuel (vectorCont K) none (A.scale k) (scaleLog k w)).1 with
        | .ok r => .matched r q
        | .error x => .died x) := by
  have e : (monaa fuel steps efuel (vectorCont K) none (A.scale k) (scaleLog k w)).1 = _ := congrArg Prod.fst (monaa_scale hk fuel steps efuel none A w)
  rw [e]
  cases (monaa fuel steps efuel (vectorCont K) none A w).1 <;> exact rfl

/-- **C94** for whole runs, in both modes.  Two runs ask for the same pattern in two units (as texts or as files), and the times of
the second log are those of the first in the other unit: then the second run ends as the first one and prints the same lines in the
other unit.  In particular a pair satisfies a block of the first output if and only if the pair in the other unit satisfies a block
of the second. -/
theorem program_unit (k : Int) (hk : 0 < k) (E E' : Env K) (halloc : E'.alloc = E.alloc)
    (hfuel : E'.nfuel = E.nfuel ∧ E'.fuel = E.fuel ∧ E'.steps = E.steps ∧ E'.efuel = E.efuel)
    (o o' : Options) (hn : o.Named) (hn' : o'.Named) (hc : o.Consistent) (hc' : o'.Consistent) (hp : AskedInUnit k E E' o o')
    (hs : o'.signal = o.signal) (hq : o'.quiet = o.quiet)
    (w : TWord K) (hlog : E.LogIs (asked o).2 o.binary w) (hlog' : E'.LogIs (asked o').2 o'.binary (scaleLog k w))
    (hst : w.length < E.steps) :
    (E'.run o').status = (E.run o).status ∧ (E'.run o').printed = (E.run o).printed.map (OutLine.scale k) ∧
    (∀ x, E'.run o' = .died x ↔ E.run o = .died x) ∧
    ∀ t t', PrintedPair (E'.run o').printed ((k : K) * t) ((k : K) * t') ↔ PrintedPair (E.run o).printed t t' := by
  obtain ⟨f1, f2, f3, f4⟩ := hfuel
  refine outcome_scale hk ?_
  rw [run_eq hn hc hlog hst, run_eq hn' hc' hlog' (by rw [f3]; simpa [scaleLog] using hst), hs, hq, halloc, f1, f2, f3, f4]
  cases hp with
  | @text s s' e h hp h' hp' =>
    have p1 : (parseOutcome s : Except Err (Option (TRE K))) = .ok (some e) := by simp only [parseOutcome, hp]
    have p2 : (parseOutcome s' : Except Err (Option (TRE K))) = .ok (some (e.scale k)) := by simp only [parseOutcome, hp']
    have hi := parse_intEnds _ _ hp
    cases o.signal with
    | false =>
      have ht := TRE.eventTA_scale hk E.alloc e hi
      simp only [h, h', p1, p2, Bool.false_eq_true, if_false, ht]
      cases e.eventTA E.alloc with
      | error x => exact rfl
      | ok A => exact run_scale hk A w _ _ _
    | true =>
      have ht := TRE.signalTA_scale hk E.alloc E.nfuel e hi
      simp only [h, h', p1, p2, if_true, ht]
      cases e.signalTA E.alloc E.nfuel with
      | error x => exact rfl
      | ok A => exact run_signal_scale hk A w _ _ _ _
  | @file f f' l l' G h hl hG h' hl' hG' =>
    have p1 : E.world.loadTA f = .ok (convBoostTA E.alloc G) := by
      simp only [Env.world, hl, bind, Except.bind, loadTA, hG, pure, Except.pure]
    have p2 : E'.world.loadTA f' = .ok ((convBoostTA E.alloc G).scale k) := by
      simp only [Env.world, hl', bind, Except.bind, loadTA, hG', pure, Except.pure, halloc, graph_unit k hk]
    simp only [h, h', p1, p2]
    exact run_scale hk _ w _ _ _

/-! ### sample -/

/-- The computer of the sample with the log in the other unit (twice the numbers), as a binary file. -/
def halfEnv : Env ℚ := { binaryEnv with
  file := fun name => if name = "log" then some (byteCode.file (scaleLog 2 twoLog)) else none }

/-- The command line `monaa -b '(a+)((a%(2,6))$)' log`. -/
def halfOptions : Options := { toyOptions with binary := true, positional := ["(a+)((a%(2,6))$)", "log"] }

theorem half_asked : asked halfOptions = (.expression "(a+)((a%(2,6))$)", "log") := by decide +kernel

theorem half_log : halfEnv.LogIs "log" true (scaleLog 2 twoLog) := by
  refine ⟨byteCode.file (scaleLog 2 twoLog), Or.inr ⟨by decide, rfl⟩, ?_⟩
  rw [if_pos rfl]
  refine ⟨byteCode, [], ?_, by decide, by simp⟩
  unfold BinaryCode.Fits
  decide +kernel

theorem half_parse : parsePattern "(a+)((a%(2,6))$)".toList = .ok (laterE.scale 2) := by decide +kernel

/-- The hypotheses are met by `monaa -e '(a+)((a%(1,3))$)'` and `monaa -b '(a+)((a%(2,6))$)' log`. -/
theorem half_unit (fuel : Nat) (t t' : ℚ) :
    PrintedPair (Env.run { halfEnv with fuel := fuel } halfOptions).printed (2 * t) (2 * t') ↔
      PrintedPair (Env.run { sampleEnv with fuel := fuel } sampleOptions).printed t t' := by
  obtain ⟨hn, hc, hs, hf⟩ := sample_consistent
  have := (program_unit 2 (by norm_num) { sampleEnv with fuel := fuel } { halfEnv with fuel := fuel } rfl ⟨rfl, rfl, rfl, rfl⟩ sampleOptions halfOptions
    hn (by simp [Options.Named, halfOptions, toyOptions]) hc
    ⟨rfl, rfl, by simp [Options.Conflict, halfOptions, toyOptions], Or.inl ⟨_, by rw [half_asked]⟩⟩
    (.text (e := laterE) hs rfl (by rw [half_asked]) half_parse) rfl rfl twoLog (by rw [hf]; exact sample_log)
    (by rw [half_asked]; exact half_log) (show 4 < 30 by decide)).2.2.2 t t'
  simpa using this

theorem sample_printed : ∃ fuel, PrintedPair (Env.run { sampleEnv with fuel := fuel } sampleOptions).printed (1 / 2) 6 := by
  obtain ⟨hn, hc, hs, hf⟩ := sample_consistent
  have hlog : ∀ fuel, Env.LogIs { sampleEnv with fuel := fuel } (asked sampleOptions).2 sampleOptions.binary twoLog := by
    intro fuel
    rw [hf]
    exact sample_log
  obtain ⟨N, h⟩ := program_ends_partial sampleEnv down_inj sampleOptions hn hc rfl _ hs (by decide) (by decide) (by decide) laterE rfl (.inl ⟨trivial, trivial, trivial⟩)
    (by decide) (Or.inl hf) twoLog (hlog 30) two_log.2.2
  obtain ⟨-, h⟩ := h N 30 (le_refl _) (by decide)
  have hr := h ⟨6 - 1 / 2, (between twoLog (1 / 2) 6).map (fun e => (e.1, e.2 - 1 / 2)), by rw [later_between]; simp,
    by rw [later_between]; unfold LettersOk; decide +kernel, by rw [later_between]; decide +kernel, by rw [later_between]; decide +kernel,
    by rw [later_between]; decide +kernel, later_lang⟩
  exact ⟨N, program_complete_partial { sampleEnv with fuel := N } down_inj sampleOptions hn rfl rfl _ hs (by decide) (by decide)
    laterE rfl (.inl ⟨trivial, trivial, trivial⟩) (by decide) (Or.inl trivial) twoLog (hlog N) two_log.1 two_log.2.1 two_log.2.2 (show 4 < 30 by decide) hr (1 / 2) 6 (by norm_num) (by norm_num)
    (by rw [later_between]; simp) later_lang⟩

/-- A block which the pair `(1/2, 6)` satisfies is printed by the first run, and one which `(1, 12)` satisfies by the second. -/
example : ∃ fuel, PrintedPair (Env.run { halfEnv with fuel := fuel } halfOptions).printed 1 12 := by
  obtain ⟨fuel, h⟩ := sample_printed
  refine ⟨fuel, ?_⟩
  have := (half_unit fuel (1 / 2) 6).2 h
  norm_num at this
  exact this

/-- The command line `monaa -s -b '(aa)%[4,10]' log`. -/
def halfSignal : Options := { toyOptions with binary := true, signal := true, positional := ["(aa)%[4,10]", "log"] }

theorem halfSignal_asked : asked halfSignal = (.expression "(aa)%[4,10]", "log") := by decide +kernel

theorem halfSignal_parse : parsePattern "(aa)%[4,10]".toList = .ok (twiceE.scale 2) := by decide +kernel

/-- In signal mode: `monaa -s -e '(aa)%[2,5]'` prints `t = 1`, `t' = 3`, `t' - t = 2` first (`signal_run`), and
`monaa -s -b '(aa)%[4,10]' log` prints `t = 2`, `t' = 6`, `t' - t = 4`. -/
example : (halfEnv.run halfSignal).printed.take 4 = [.row (.fin 2 true) "t" (.fin 2 true), .row (.fin 6 true) "t'" (.fin 6 true),
    .row (.fin 4 true) "t' - t" (.fin 4 true), .separator] := by
  have h1 : (asked signalOptions).1 = .expression "(aa)%[2,5]" := by decide +kernel
  have h2 : (asked signalOptions).2 = "stdin" := by decide +kernel
  have := (program_unit 2 (by norm_num) sampleEnv halfEnv rfl ⟨rfl, rfl, rfl, rfl⟩ signalOptions halfSignal
    (by simp [Options.Named, signalOptions, toyOptions]) (by simp [Options.Named, halfSignal, toyOptions])
    ⟨rfl, rfl, by simp [Options.Conflict, signalOptions, toyOptions], Or.inl ⟨_, h1⟩⟩
    ⟨rfl, rfl, by simp [Options.Conflict, halfSignal, toyOptions], Or.inl ⟨_, by rw [halfSignal_asked]⟩⟩
    (.text (e := twiceE) h1 rfl (by rw [halfSignal_asked]) halfSignal_parse) rfl rfl twoLog (by rw [h2]; exact sample_log)
    (by rw [halfSignal_asked]; exact half_log) (show 4 < 30 by decide)).2.1
  rw [this, ← List.map_take, signal_run]
  simp [OutLine.scale, Bnd.scale]
  norm_num

end Props
end Verif
