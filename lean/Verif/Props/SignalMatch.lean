import Verif.Lemmas.SignalDead
import Verif.Props.SignalTA
import Verif.Props.Parser
import Verif.Examples.Silent

/-!
# C69, C76, C77: silent transitions of signal automata, and code which is never reached
-/

namespace Verif.Props

open TMem

variable {K : Type} [Field K] [LinearOrder K] [IsStrictOrderedRing K] [FloorRing K]

/-! ## C77 -/

/-- **C77**: for no expression does the translation to signal automata intersect automata or redirect a transition to a new accepting state (the model
has the outcome `notModelled` in these places). -/
theorem signalTA_no_dead_code (alloc : Nat → Nat) (fuel : Nat) (e : TRE K) : e.signalTA alloc fuel ≠ .error .notModelled := by
  have := signalTA_known alloc fuel e
  intro h
  rw [h] at this
  exact this rfl

/-- **C77**: accepting states of the result have no transitions. -/
theorem signalTA_accepting_final (alloc : Nat → Nat) (fuel : Nat) (e : TRE K) (A : TA Nat) (h : e.signalTA alloc fuel = .ok A) :
    ∀ s, (A.st s).isMatch = true → (A.st s).next = [] := by
  have := signalTA_known alloc fuel e
  rw [h] at this
  exact this

/-! ## C68: silent transitions -/

omit [IsStrictOrderedRing K] in
/-- A signal automaton is determined by its lists. -/
theorem signalTA_eq {alloc : Nat → Nat} {fuel : Nat} {e : TRE K} {B : TA Nat}
    (key : ((e.signalTA alloc fuel).toOption.map fun A => (A.states, A.init, A.states.map A.st, A.maxC)) =
      some (B.states, B.init, B.states.map B.st, B.maxC))
    (hB : ∀ s, s ∉ B.states → B.st s = ⟨false, false, []⟩) : e.signalTA alloc fuel = .ok B := by
  have out : ∀ A, e.signalTA alloc fuel = .ok A → ∀ s, s ∉ A.states → A.st s = ⟨false, false, []⟩ := by
    intro A hA s hs
    unfold TRE.signalTA at hA
    split at hA
    · cases hA
    · split at hA
      · cases hA
      · next B _ _ =>
        cases hB : B.renameEps with
        | error e => rw [hB] at hA; cases hA
        | ok C =>
          rw [hB] at hA
          simp only [Except.map, Except.ok.injEq] at hA
          subst hA
          have : s ∉ C.states := hs
          simp [TA.owned, this]
  cases hA : e.signalTA alloc fuel with
  | error e => rw [hA] at key; cases key
  | ok A =>
    have ho := out A hA
    rw [hA] at key
    simp only [Except.toOption, Option.map_some, Option.some.injEq, Prod.mk.injEq] at key
    obtain ⟨k1, k2, k3, k4⟩ := key
    obtain ⟨S, I, f, M⟩ := A
    simp only at k1 k2 k3 k4 ho
    subst k1 k2 k4
    rw [List.map_inj_left] at k3
    have : f = B.st := by
      funext s
      by_cases hs : s ∈ B.states
      · exact k3 s hs
      · rw [ho s hs, hB s hs]
    rw [this]

/-- `a((b*)%[0,1])(a%[1,2])`: the value is a, then perhaps b for at most 1, then a for 1 to 2 time units. -/
def gapPattern : TRE ℚ :=
  .concat litA (.concat (.within (.star litB) ⟨.fin 0 true, .fin 1 true⟩) (.within litA ⟨.fin 1 true, .fin 2 true⟩))

/-- Its automaton: without b in the states 0 to 3, with b in the states 4 to 9. -/
def gapTA : TA Nat :=
  { states := [0, 1, 2, 3, 4, 5, 6, 7, 8, 9], init := [0, 4]
    st := fun s =>
      if s = 0 then ⟨false, false, [(97, [⟨some 1, [], []⟩]), (0, [⟨some 2, [0], []⟩])]⟩
      else if s = 2 then ⟨false, false, [(97, [⟨some 3, [], [⟨0, .ge, 1⟩, ⟨0, .le, 2⟩]⟩])]⟩
      else if s = 3 then ⟨true, false, []⟩
      else if s = 4 then ⟨false, false, [(97, [⟨some 5, [], []⟩, ⟨some 6, [0], []⟩])]⟩
      else if s = 6 then ⟨false, false, [(98, [⟨some 7, [], [⟨0, .le, 1⟩]⟩, ⟨some 8, [0], [⟨0, .le, 1⟩]⟩])]⟩
      else if s = 8 then ⟨false, false, [(97, [⟨some 9, [], [⟨0, .ge, 1⟩, ⟨0, .le, 2⟩]⟩])]⟩
      else if s = 9 then ⟨true, false, []⟩
      else ⟨false, false, []⟩
    maxC := [2] }

theorem gap_signalTA : gapPattern.signalTA id 9 = .ok gapTA := by
  refine signalTA_eq (by decide +kernel) fun s hs => ?_
  simp only [gapTA, List.mem_cons, List.not_mem_nil, or_false, not_or] at hs
  simp [gapTA, hs]

/-- **C68, part on silent transitions, is false**: the text `a((b*)%[0,1])(a%[1,2])` gives an automaton with a silent transition which resets the
clock (where the repeated a is separated by nothing). -/
theorem signalTA_silent_wrong : ∃ A, gapPattern.signalTA id 9 = .ok A ∧
    parsePattern (K := ℚ) "a((b*)%[0,1])(a%[1,2])".toList = .ok gapPattern ∧ ¬ A.NoSilent ∧
    ∃ s ∈ A.init, ∃ t ∈ A.edges s epsilon, t.resets = [0] := by
  refine ⟨gapTA, gap_signalTA, rfl, fun h => ?_, 0, by decide, ⟨some 2, [0], []⟩, by decide, rfl⟩
  have := h 0 (by decide)
  revert this
  decide

/-! ## C69 and C76 -/

/-- `a (ε%[0,1]) (a%[1,2])`: the value is a for at least one time unit. -/
def quickPattern : TRE ℚ :=
  .concat litA (.concat (.within .epsilon ⟨.fin 0 true, .fin 1 true⟩) (.within litA ⟨.fin 1 true, .fin 2 true⟩))

/-- Its automaton: the states 0 to 3 of `gapTA`. -/
def quickTA : TA Nat :=
  { states := [0, 1, 2, 3], init := [0]
    st := fun s =>
      if s = 0 then ⟨false, false, [(97, [⟨some 1, [], []⟩]), (0, [⟨some 2, [0], []⟩])]⟩
      else if s = 2 then ⟨false, false, [(97, [⟨some 3, [], [⟨0, .ge, 1⟩, ⟨0, .le, 2⟩]⟩])]⟩
      else if s = 3 then ⟨true, false, []⟩
      else ⟨false, false, []⟩
    maxC := [2] }

theorem quick_signalTA : quickPattern.signalTA id 9 = .ok quickTA := by
  refine signalTA_eq (by decide +kernel) fun s hs => ?_
  simp only [quickTA, List.mem_cons, List.not_mem_nil, or_false, not_or] at hs
  simp [quickTA, hs]

theorem quick_closed : quickPattern.Closed := by
  refine ⟨trivial, ⟨trivial, fun l s h => ?_⟩, trivial, fun l s h => ?_⟩ <;> cases h <;> rfl

theorem quick_distributes : quickPattern.Distributes := by
  refine ⟨trivial, ⟨⟨trivial, fun _ _ _ h => h.elim⟩, ⟨trivial, fun c s t h h' => ?_⟩, trivial, trivial, fun h => h, fun h => h⟩, trivial,
    ⟨trivial, trivial⟩, fun h => h, fun h => h.1⟩
  cases h
  cases h'

theorem quick_intEnds : quickPattern.IntEnds := by
  refine ⟨trivial, ⟨trivial, fun c s h => ⟨0, ?_⟩, fun c s h => ⟨1, ?_⟩⟩, trivial, fun c s h => ⟨1, ?_⟩, fun c s h => ⟨2, ?_⟩⟩ <;>
  · cases h; norm_num

/-- All signals of the pattern last at least one time unit. -/
theorem quick_dur {x : Sig ℚ} (h : quickPattern.Signals x) : 1 ≤ x.dur := by
  obtain ⟨y, z, rfl, hy, u, v, rfl, -, hv⟩ := h
  have h2 : 1 ≤ v.dur := by simpa [Interval.Above, Bnd.sat] using hv.2.1
  have h1 := y.nonneg
  have h3 := u.nonneg
  show 1 ≤ y.dur + (u.dur + v.dur)
  linarith

theorem toOption_eq {α : Type} {r : Except Err α} {x : α} (h : r.toOption = some x) : r = .ok x := by
  cases r with
  | error e => cases h
  | ok y => cases h; rfl

omit [IsStrictOrderedRing K] [FloorRing K] in
theorem makeTables_eq {A : TA Nat} {fuel m : Nat} {d e : List Nat} {b : List (Nat × Nat)} (h1 : sundayTable K fuel A = .ok (m, d, e))
    (h2 : kmpTable K fuel A m = .ok b) : makeTables K fuel A = .ok ⟨m, e, d, betaAt b⟩ := by
  simp only [makeTables, h1, h2, bind, Except.bind]

omit [IsStrictOrderedRing K] [FloorRing K] in
theorem monaa_silent {A : TA Nat} {fuel steps efuel : Nat} {T : Tables Nat} (h : makeTables K fuel A = .ok T)
    (hs : (A.states.all fun s => ((A.st s).next.find epsilon).isNone) = false) (w : TWord K) :
    (monaa fuel steps efuel (vectorCont K) none A w).1 = matchLoop (vectorCont K) (silentHooks A A.clockSize efuel) T steps steps 0 w := by
  simp only [monaa, h, hs, Option.getD_none, Bool.false_eq_true, if_false]

def quickTables : Tables Nat := ⟨1, [97], (List.replicate 127 2).set 97 1, betaAt [(3, 1), (2, 1), (1, 1), (0, 1)]⟩

theorem quick_sunday : (sundayTable ℚ 10 quickTA).toOption = some (1, (List.replicate 127 2).set 97 1, [97]) := by decide +kernel

theorem quick_kmp : (kmpTable ℚ 10 quickTA 1).toOption = some [(3, 1), (2, 1), (1, 1), (0, 1)] := by decide +kernel

theorem quick_tables : makeTables ℚ 10 quickTA = .ok quickTables := makeTables_eq (toOption_eq quick_sunday) (toOption_eq quick_kmp)

/-- What is reported for the pattern. -/
theorem quick_monaa (w : TWord ℚ) : (monaa 10 8 8 (vectorCont ℚ) none quickTA w).1 =
    matchLoop (vectorCont ℚ) (silentHooks quickTA quickTA.clockSize 8) quickTables 8 8 0 w :=
  monaa_silent quick_tables (by decide) w

/-- The value is a until 3. -/
def quickLog : TWord ℚ := [(97, 3)]

/-- The begin lies in `[0, 2]`, the end in `[1, 2]`. -/
def quickZone : Zone ℚ := sixZone ⟨.fin 2 true, .fin 0 true, .fin 2 true, .fin (-1) true, .fin 2 true, .fin 0 true⟩

theorem quick_check : (monaa 10 8 8 (vectorCont ℚ) none quickTA quickLog).1 = .ok [quickZone] := by
  rw [quick_monaa]
  exact okOne_eq (by decide +kernel)

/-- **C69 is false in general**: for `a (ε%[0,1]) (a%[1,2])` and a value a until 3, the pair `(1, 3/2)` is reported, of duration 1/2. -/
theorem expression_signal_sound_wrong : ¬ ∀ (alloc : Nat → Nat) (e : TRE ℚ) (nfuel : Nat) (A : TA Nat) (w : TWord ℚ) (fuel steps efuel : Nat)
    (zs : List (Zone ℚ)), Function.Injective alloc → e.Closed → e.Distributes → e.IntEnds → e.signalTA alloc nfuel = .ok A → LogOk w →
    w.length < steps → (monaa fuel steps efuel (vectorCont ℚ) none A w).1 = .ok zs →
    ∀ z ∈ zs, ∀ t t', z.Has t t' → 0 ≤ t ∧ ∃ htt : t ≤ t', e.Signals (segment w t t' htt) := by
  intro h
  obtain ⟨-, ht, hx⟩ := h id quickPattern 9 quickTA quickLog 10 8 8 [quickZone] Function.injective_id quick_closed quick_distributes quick_intEnds
    quick_signalTA ⟨by decide +kernel, by decide +kernel, by decide⟩ (by decide) quick_check quickZone (by simp) 1 (3/2) (by
      refine sixZone_Sat.2 ?_
      simp only [Six.Sat, sat_t]
      norm_num)
  have := quick_dur hx
  simp only [segment] at this
  norm_num at this

/-- The value is b until 10, then a until 13. -/
def lateLog : TWord ℚ := [(98, 10), (97, 13)]

theorem late_check : (monaa 10 8 8 (vectorCont ℚ) none quickTA lateLog).1 = .ok [] := by
  rw [quick_monaa]
  obtain ⟨zs, h1, h2⟩ := okAll_eq (p := fun _ => false) (r := matchLoop (vectorCont ℚ) (silentHooks quickTA quickTA.clockSize 8)
    quickTables 8 8 0 lateLog) (by decide +kernel)
  rw [h1]
  cases zs with
  | nil => rfl
  | cons z zs => cases h2 z (by simp)

theorem late_segment : segment lateLog 10 13 (by norm_num) = Sig.const 97 3 (by norm_num) := by
  ext u
  · norm_num [segment, Sig.const]
  · simp only [segment, Sig.const]
    have e : (13 : ℚ) - 10 = 3 := by norm_num
    rw [e]
    split_ifs with hu
    · have h1 : ¬ (10 + u < 10) := by linarith [hu.1]
      have h2 : 10 + u < 13 := by linarith [hu.2]
      rw [lateLog, valueAt_neg _ h1, valueAt_pos _ h2]
    · rfl

theorem late_signal : quickPattern.Signals (segment lateLog 10 13 (by norm_num)) := by
  rw [late_segment]
  refine ⟨Sig.const 97 (3/2) (by norm_num), Sig.const 97 (3/2) (by norm_num), ?_, ⟨_, _, rfl⟩, Sig.nil, _, (Sig.nil_app _).symm, ⟨rfl, ?_⟩, ⟨_, _, rfl⟩, ?_⟩
  · rw [Sig.const_app]
    exact Sig.const_congr _ _ _ (by norm_num)
  · constructor <;> norm_num [Interval.Above, Sig.nil, Bnd.sat]
  · constructor <;> norm_num [Interval.Above, Sig.const, Bnd.sat]

/-- **C76 is false**: for the same pattern and the value b until 10, then a until 13, nothing is reported, although a from 10 to 13 is a match. -/
theorem expression_signal_complete_wrong : ¬ ∀ (alloc : Nat → Nat) (e : TRE ℚ) (nfuel : Nat) (A : TA Nat) (w : TWord ℚ) (fuel steps efuel : Nat)
    (zs : List (Zone ℚ)), Function.Injective alloc → e.Closed → e.Distributes → e.IntEnds → e.signalTA alloc nfuel = .ok A → LogOk w →
    w.length < steps → (monaa fuel steps efuel (vectorCont ℚ) none A w).1 = .ok zs →
    ∀ t t' (htt : t ≤ t'), 0 ≤ t → (∃ e ∈ w, t' ≤ e.2) → t < t' → e.Signals (segment w t t' htt) → ∃ z ∈ zs, z.Has t t' := by
  intro h
  obtain ⟨z, hz, -⟩ := h id quickPattern 9 quickTA lateLog 10 8 8 [] Function.injective_id quick_closed quick_distributes quick_intEnds
    quick_signalTA ⟨by decide +kernel, by decide +kernel, by decide⟩ (by decide) late_check 10 13 (by norm_num) (by norm_num)
    ⟨(97, 13), by simp [lateLog], by norm_num⟩ (by norm_num) late_signal
  cases hz

end Verif.Props
