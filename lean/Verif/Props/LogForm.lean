import Verif.Props.Program

/-!
# The form of the log and the way in which options are given do not matter (C93)
-/

set_option linter.unusedSectionVars false

namespace Verif.Props

section general

variable {K : Type} [Field K] [LinearOrder K] [IsStrictOrderedRing K] [FloorRing K]

theorem log_opens {E : Env K} {name : String} {b : Bool} {w : TWord K} (h : E.LogIs name b w) :
    ¬ (name ≠ "stdin" ∧ E.world.opens name = false) := by
  obtain ⟨bytes, h | h, -⟩ := h
  · exact fun k => k.1 h.1
  · rintro ⟨-, k⟩
    have : (E.file name).isSome = false := k
    rw [h.2] at this
    cases this

/-- What the program does on a consistent command line with a log which can be read. -/
theorem run_eq {E : Env K} {o : Options} (hn : o.Named) (hc : o.Consistent) {w : TWord K} (hlog : E.LogIs (asked o).2 o.binary w)
    (hst : w.length < E.steps) :
    E.run o = match (asked o).1 with
      | .expression s => match (parseOutcome s : Except Err (Option (TRE K))) with
        | .error x => .died x
        | .ok none => .fail 2
        | .ok (some e) => match (if o.signal then e.signalTA E.alloc E.nfuel else e.eventTA E.alloc) with
          | .ok A => match (if o.signal then (monaa E.fuel E.steps E.efuel (vectorCont K) none A w).1
              else monaaDollar id E.fuel E.steps (vectorCont K) A w) with
            | .ok r => .matched r o.quiet
            | .error x => .died x
          | .error x => .died x
      | .file f => match E.world.loadTA f with
        | .ok A => match monaaDollar id E.fuel E.steps (vectorCont K) A w with
          | .ok r => .matched r o.quiet
          | .error x => .died x
        | .error x => .died x
      | _ => .usage := by
  unfold Env.run
  rw [main_eq E.world o hn]
  obtain ⟨h1, h2, h3, h4⟩ := hc
  have hin : ∀ A, matchInput E.world (takePositional o) o.binary A =
      match (if o.signal then (monaa E.fuel E.steps E.efuel (vectorCont K) none A w).1
        else monaaDollar id E.fuel E.steps (vectorCont K) A w) with
      | .ok r => .matched r o.quiet
      | .error x => .died x := by
    intro A
    have m1 : E.world.monaa = E.runSignal := rfl
    have m2 : E.world.monaaDollar = E.runEvent := rfl
    rw [matchInput_eq E.world o hn, if_neg (log_opens hlog), ← runEvent_eq hlog hst, ← runSignal_eq hlog hst, m1, m2]
    generalize (if o.signal = true then E.runSignal (asked o).2 o.binary A else E.runEvent (asked o).2 o.binary A) = x
    cases x <;> rfl
  rcases h4 with ⟨s, hs⟩ | ⟨⟨f, hf⟩, hsig⟩
  · rw [if_neg (by simp [h1]), if_neg (by simp [hs, h2]), if_neg (fun h => h3 ((conflict_iff o).1 h)), hs]
    simp only [hin]
    have m3 : E.world.parse s = parseOutcome s := rfl
    rw [m3]
    cases parseOutcome (K := K) s with
    | error x => rfl
    | ok r =>
      cases r with
      | none => rfl
      | some e =>
        simp only
        have m4 : E.world.signalTA e = e.signalTA E.alloc E.nfuel := rfl
        have m5 : E.world.eventTA e = e.eventTA E.alloc := rfl
        rw [m4, m5]
        generalize (if o.signal = true then e.signalTA E.alloc E.nfuel else e.eventTA E.alloc) = x
        cases x with
        | error x => rfl
        | ok A => rfl
  · rw [if_neg (by simp [h1]), if_neg (by simp [hf, h2]), if_neg (fun h => h3 ((conflict_iff o).1 h)), hf]
    simp only [hin, hsig, Bool.false_eq_true, if_false]
    cases E.world.loadTA f <;> rfl

/-- **C93.**  Two runs on consistent command lines which ask for the same pattern, mode and verbosity, where the logs hold the same
events, have the same outcome: whether the log is text or binary, on the standard input or in a file, ends with white space or with an
unfinished record, and whether the pattern and the log are given by options or as free arguments. -/
theorem log_form (E E' : Env K) (halloc : E'.alloc = E.alloc) (hdot : E'.dot = E.dot)
    (hfuel : E'.nfuel = E.nfuel ∧ E'.fuel = E.fuel ∧ E'.steps = E.steps ∧ E'.efuel = E.efuel)
    (o o' : Options) (hn : o.Named) (hn' : o'.Named) (hc : o.Consistent) (hc' : o'.Consistent)
    (hp : (asked o').1 = (asked o).1) (hf : ∀ f, (asked o).1 = .file f → E'.file f = E.file f)
    (hs : o'.signal = o.signal) (hq : o'.quiet = o.quiet)
    (w : TWord K) (hlog : E.LogIs (asked o).2 o.binary w) (hlog' : E'.LogIs (asked o').2 o'.binary w) (hst : w.length < E.steps) :
    E'.run o' = E.run o ∧ (E'.run o').printed = (E.run o).printed ∧ (E'.run o').status = (E.run o).status := by
  obtain ⟨f1, f2, f3, f4⟩ := hfuel
  have key : E'.run o' = E.run o := by
    rw [run_eq hn hc hlog hst, run_eq hn' hc' hlog' (by rw [f3]; exact hst), hp, hs, hq, halloc, f1, f2, f3, f4]
    cases ha : (asked o).1 with
    | expression s => rfl
    | file f =>
      have : E'.world.loadTA f = E.world.loadTA f := by
        simp only [Env.world, hdot, hf f ha, halloc]
      simp only [this]
    | none => rfl
    | both => rfl
  exact ⟨key, by rw [key], by rw [key]⟩

end general

/-! ### sample -/

/-- Times are whole numbers, in the first of the eight bytes. -/
def byteCode : BinaryCode ℚ := ⟨fun a => UInt8.ofNat a, fun t => UInt8.ofNat t.num.toNat :: List.replicate 7 0, by simp⟩

/-- The same computer with the log as a binary file, which ends with an unfinished record. -/
def binaryEnv : Env ℚ := { sampleEnv with
  stdin := []
  file := fun name => if name = "log" then some (byteCode.file twoLog ++ [97, 9]) else none
  decoder := ⟨fun b => b.toNat, fun l => ((l.headD 0).toNat : ℚ)⟩ }

/-- The command line `monaa -b '(a+)((a%(1,3))$)' log`. -/
def binaryOptions : Options := { toyOptions with binary := true, positional := ["(a+)((a%(1,3))$)", "log"] }

theorem binary_asked : asked binaryOptions = (.expression "(a+)((a%(1,3))$)", "log") := by decide +kernel

theorem binary_log : binaryEnv.LogIs "log" true twoLog := by
  refine ⟨byteCode.file twoLog ++ [97, 9], Or.inr ⟨by decide, rfl⟩, ?_⟩
  rw [if_pos rfl]
  refine ⟨byteCode, [97, 9], ?_, by decide, rfl⟩
  unfold BinaryCode.Fits
  decide +kernel

/-- The hypotheses are met by `monaa -e '(a+)((a%(1,3))$)'` with the log as text on the standard input, and
`monaa -b '(a+)((a%(1,3))$)' log` with the log as a binary file; both print a block which the pair `(1/2, 6)` satisfies. -/
example : ∃ fuel, Env.run { binaryEnv with fuel := fuel } binaryOptions = Env.run { sampleEnv with fuel := fuel } sampleOptions ∧
    PrintedPair (Env.run { binaryEnv with fuel := fuel } binaryOptions).printed (1 / 2) 6 := by
  obtain ⟨hn, hc, hs, hf⟩ := sample_consistent
  have hlog : ∀ fuel, Env.LogIs { sampleEnv with fuel := fuel } (asked sampleOptions).2 sampleOptions.binary twoLog := by
    intro fuel
    rw [hf]
    exact sample_log
  have same : ∀ fuel, Env.run { binaryEnv with fuel := fuel } binaryOptions = Env.run { sampleEnv with fuel := fuel } sampleOptions := by
    intro fuel
    refine (log_form { sampleEnv with fuel := fuel } { binaryEnv with fuel := fuel } rfl rfl ⟨rfl, rfl, rfl, rfl⟩ sampleOptions binaryOptions
      hn ?_ hc ?_ ?_ ?_ rfl rfl twoLog (hlog fuel) ?_ (show 4 < 30 by decide)).1
    · simp [Options.Named, binaryOptions, toyOptions]
    · exact ⟨rfl, rfl, by simp [Options.Conflict, binaryOptions, toyOptions], Or.inl ⟨_, by rw [binary_asked]⟩⟩
    · rw [binary_asked, hs]
    · intro f h
      rw [hs] at h
      cases h
    · rw [binary_asked]
      exact binary_log
  obtain ⟨N, h⟩ := program_ends_partial sampleEnv down_inj sampleOptions hn hc rfl _ hs (by decide) (by decide) (by decide) laterE rfl (.inl ⟨trivial, trivial, trivial⟩)
    (by decide) (Or.inl hf) twoLog (hlog 30) two_log.2.2
  obtain ⟨-, h⟩ := h N 30 (le_refl _) (by decide)
  have hr := h ⟨6 - 1 / 2, (between twoLog (1 / 2) 6).map (fun e => (e.1, e.2 - 1 / 2)), by rw [later_between]; simp,
    by rw [later_between]; unfold LettersOk; decide +kernel, by rw [later_between]; decide +kernel, by rw [later_between]; decide +kernel,
    by rw [later_between]; decide +kernel, later_lang⟩
  refine ⟨N, same N, ?_⟩
  rw [same N]
  exact program_complete_partial { sampleEnv with fuel := N } down_inj sampleOptions hn rfl rfl _ hs (by decide) (by decide)
    laterE rfl (.inl ⟨trivial, trivial, trivial⟩) (by decide) (Or.inl trivial) twoLog (hlog N) two_log.1 two_log.2.1 two_log.2.2 (show 4 < 30 by decide) hr (1 / 2) 6 (by norm_num) (by norm_num)
    (by rw [later_between]; simp) later_lang

end Verif.Props
