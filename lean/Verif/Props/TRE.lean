import Verif.Lemmas.TRE
import Verif.Lemmas.Main
import Verif.Props.TA
import Verif.Props.Matcher
import Mathlib.Data.Rat.Floor

/-!
# C37, C38, C39, C61, C62: translation of timed regular expressions to automata over events

`alloc` gives the addresses at which the states are allocated; it is arbitrary, but different states have different addresses.
-/

set_option linter.unusedSectionVars false

namespace Verif.Props

open Verif TRE

variable {K : Type} [Field K] [LinearOrder K] [IsStrictOrderedRing K] [FloorRing K]

theorem owned_st {A : TA Nat} {s : Nat} (hs : s ∈ A.states) : A.owned.st s = A.st s := by simp [TA.owned, hs]

theorem owned_edges {A : TA Nat} {s : Nat} (hs : s ∈ A.states) (a : Alphabet) : A.owned.edges s a = A.edges s a := by
  rw [TA.edges, owned_st hs, TA.edges]

theorem owned_tidy (A : TA Nat) : A.owned.Tidy := by
  intro s hs
  have : s ∉ A.states := hs
  simp [TA.owned, this]

theorem mem_of_owned_edges {A : TA Nat} {s : Nat} {a : Alphabet} {e : Transition Nat} (h : e ∈ A.owned.edges s a) : s ∈ A.states := by
  by_contra hs
  rw [TA.edges_nil (owned_tidy A s hs)] at h
  cases h

theorem owned_accepts {A : TA Nat} (h : A.Wf) (t0 : K) (w : TWord K) : A.owned.AcceptsFrom t0 w ↔ A.AcceptsFrom t0 w := by
  rw [TA.acceptsFrom_iff, TA.acceptsFrom_iff]
  constructor
  · rintro ⟨s, hs, hr⟩
    exact ⟨s, hs, (TA.acc_congr (X := A.states) (fun s hs => (owned_st hs).symm) (h.closed) (h.init s hs) _ _).2 hr⟩
  · rintro ⟨s, hs, hr⟩
    exact ⟨s, hs, (TA.acc_congr (X := A.states) (fun s hs => (owned_st hs).symm) (h.closed) (h.init s hs) _ _).1 hr⟩

theorem eventTA_spec {alloc : Nat → Nat} (hinj : Function.Injective alloc) {e : TRE K} (he : e.Plain) :
    ∃ A k, e.eventTA alloc = .ok A.owned ∧ TransOk alloc (fun _ => ⟨false, false, []⟩) 0 k e A := by
  obtain ⟨A, k, h, hok⟩ := TRE.toEventTA_spec hinj e he (fun _ => ⟨false, false, []⟩) 0
  exact ⟨A, k, by rw [TRE.eventTA, h]; rfl, hok⟩

/-! ## Expressions used as examples -/

def litA : TRE ℚ := .atom 97
def litB : TRE ℚ := .atom 98

/-- Addresses in the order of allocation. -/
def up (n : Nat) : Nat := n

/-- Addresses against the order of allocation (for the first 20 states). -/
def down (n : Nat) : Nat := if n ≤ 20 then 20 - n else n

theorem up_inj : Function.Injective up := fun _ _ h => h

theorem down_inj : Function.Injective down := by
  intro a b h
  unfold down at h
  split at h <;> split at h <;> omega

/-- Does the automaton of `e` accept `w`? -/
def memberOf (alloc : Nat → Nat) (e : TRE ℚ) (w : TWord ℚ) : Except Err Bool := do (← e.eventTA alloc).isMember w

/-- The word is accepted, respectively rejected; `false` if there is an error. -/
def answers (b : Bool) (x : Except Err Bool) : Bool := match x with | .ok c => b == c | .error _ => false

theorem memberOf_answers {alloc : Nat → Nat} (hinj : Function.Injective alloc) {e : TRE ℚ} (he : e.Plain) {w : TWord ℚ} {b : Bool}
    (h : answers b (memberOf alloc e w) = true) : ∃ A, e.eventTA alloc = .ok A ∧ (b = true ↔ A.Accepts w) := by
  obtain ⟨A, k, hA, hok⟩ := eventTA_spec hinj he
  refine ⟨A.owned, hA, ?_⟩
  obtain ⟨c, hc, hcw⟩ := TA.isMember_spec (A := A.owned) (by
    intro s a t ht
    have hs := mem_of_owned_edges ht
    rw [owned_edges hs] at ht
    exact ⟨hok.wf.guards s hs a t ht, hok.wf.resets s hs a t ht⟩) w
  rw [memberOf, hA] at h
  simp only [bind, Except.bind, hc, answers, beq_iff_eq] at h
  rw [h]
  exact hcw

/-- `(a(b*))%(2,4)`, repeated. -/
def burst : TRE ℚ := .plus (.within (.concat litA (.star litB)) (Interval.openI 2 4))

theorem litA_plain : litA.Plain := by show (97 : Alphabet) ≠ epsilon; decide

theorem litB_plain : litB.Plain := by show (98 : Alphabet) ≠ epsilon; decide

theorem openI_int (l u : Int) : IsInt (Interval.openI l u : Interval ℚ).lower ∧ IsInt (Interval.openI l u : Interval ℚ).upper :=
  ⟨⟨l, false, rfl⟩, u, false, rfl⟩

theorem burst_plain : burst.Plain := by
  refine ⟨⟨litA_plain, trivial, litB_plain⟩, ?_, openI_int 2 4⟩
  show TRE.clocks (.concat litA (.star litB)) < 256
  decide

theorem burst_regular : burst.Regular := by
  have h : ¬ (TRE.concat litA (.star litB)).Nullable := fun h => h.1
  exact ⟨⟨⟨trivial, ⟨trivial, trivial, fun h => h⟩, fun _ => ⟨0, [(97, 0)], 0, rfl⟩⟩, h⟩, fun h' => h h'.1⟩

/-! ## C38 -/

/-- **C38 is false**: in the translation of `(a*)&a` there is a transition without target. -/
theorem eventTA_targets_wrong :
    ¬ ∀ (alloc : Nat → Nat) (e : TRE ℚ) (A : TA Nat), Function.Injective alloc → e.Plain → e.eventTA alloc = .ok A →
      ∀ s ∈ A.states, ∀ a, ∀ t ∈ A.edges s a, ∃ q ∈ A.states, t.target = some q := by
  intro h
  have hp : (TRE.conj (.star litA) litA).Plain := ⟨⟨trivial, litA_plain⟩, litA_plain, by decide⟩
  obtain ⟨A, k, hA, -⟩ := eventTA_spec up_inj hp
  have key : ((TRE.conj (.star litA) litA).eventTA up).toOption.any (fun A => A.states.any fun s =>
      (A.edges s 97).any fun t => t.target == none) = true := by decide +kernel
  rw [hA] at key
  simp only [Except.toOption, Option.any_some, List.any_eq_true, beq_iff_eq] at key
  obtain ⟨s, hs, t, ht, hn⟩ := key
  obtain ⟨q, -, hq⟩ := h up _ _ up_inj hp hA s hs 97 t ht
  rw [hn] at hq
  cases hq

/-- **C38, what holds** (`_partial`: that every transition has a target is only proved if the empty word is used in choice and
concatenation only; the ends of time restrictions are integers).  Wherever the states are allocated: the translation succeeds; accepting
states, of which there is at most one, have no transitions; initial states and targets are states of the automaton; guards and
resets use declared clocks; there are no silent transitions. -/
theorem eventTA_final_partial (alloc : Nat → Nat) (hinj : Function.Injective alloc) (e : TRE K) (he : e.Plain) :
    ∃ A, e.eventTA alloc = .ok A ∧ (∀ s ∈ A.states, (A.st s).isMatch = true → (A.st s).next = []) ∧
      (∀ s ∈ A.states, ∀ s' ∈ A.states, (A.st s).isMatch = true → (A.st s').isMatch = true → s = s') ∧
      A.Closed ∧ A.ClocksDeclared ∧ A.MapOk ∧ A.Tidy ∧ A.NoSilent ∧ A.clockSize = e.clocks ∧
      (e.Regular → ∀ s ∈ A.states, ∀ a, ∀ t ∈ A.edges s a, ∃ q ∈ A.states, t.target = some q) := by
  obtain ⟨A, k, h, hok⟩ := eventTA_spec hinj he
  refine ⟨A.owned, h, ?_, ?_, ⟨hok.wf.init, ?_⟩, ?_, ?_, owned_tidy A, ?_, hok.clocks, ?_⟩
  · intro s (hs : s ∈ A.states)
    rw [owned_st hs]
    exact hok.wf.term s hs
  · intro s (hs : s ∈ A.states) s' (hs' : s' ∈ A.states)
    rw [owned_st hs, owned_st hs']
    exact hok.one s hs s' hs'
  · intro s (hs : s ∈ A.states) a
    rw [owned_edges hs]
    exact hok.wf.closed s hs a
  · intro s a t ht
    have hs := mem_of_owned_edges ht
    rw [owned_edges hs] at ht
    exact ⟨hok.wf.guards s hs a t ht, hok.wf.resets s hs a t ht⟩
  · intro s
    by_cases hs : s ∈ A.states
    · rw [owned_st hs]; exact hok.wf.keys s hs
    · rw [owned_tidy A s hs]; simp
  · intro s (hs : s ∈ A.states)
    rw [owned_st hs]
    cases hf : (A.st s).next.find epsilon with
    | none => rfl
    | some l =>
      exfalso
      have h1 := hok.wf.lab s hs
      rw [TA.edges, Next.at', hf] at h1
      simp only [Option.getD_some] at h1
      subst h1
      rw [Next.find, Option.map_eq_some_iff] at hf
      obtain ⟨p, hp, hp2⟩ := hf
      exact hok.wf.ne s hs p (List.mem_of_find?_eq_some hp) hp2
  · intro hr s (hs : s ∈ A.states) a t ht
    rw [owned_edges hs] at ht
    cases hq : t.target with
    | none => exact absurd hq (hok.nonnull hr s hs a t ht)
    | some q => exact ⟨q, hok.wf.closed s hs a t ht q hq, rfl⟩

/-- The example is such an expression. -/
example : burst.Plain ∧ burst.Regular ∧ Function.Injective down := ⟨burst_plain, burst_regular, down_inj⟩

/-! ## C37 -/

/-- **C37 is false**: `((a*)|b)+` matches the word `a b`, but its automaton does not accept it. -/
theorem eventTA_lang_wrong :
    ¬ ∀ (alloc : Nat → Nat) (e : TRE ℚ) (A : TA Nat), Function.Injective alloc → e.Plain → e.eventTA alloc = .ok A →
      ∀ w, e.Lang w → A.Accepts w := by
  intro h
  have hp : (TRE.plus (.disj (.star litA) litB)).Plain := ⟨⟨trivial, litA_plain⟩, litB_plain⟩
  obtain ⟨A, hA, hw⟩ := memberOf_answers (b := false) (w := [(97, 1), (98, 2)]) up_inj hp (by decide +kernel)
  have := hw.2 (h up _ A up_inj hp hA _ (.more (u := [(97, 1)]) (v := [(98, 2)]) (.inl (.inr (.one ⟨1, rfl⟩))) (.one (.inr ⟨2, rfl⟩))))
  cases this

/-- **C37 is false** in the other direction, too: `((a*)%(1,2))b` does not match `b`, but its automaton accepts it. -/
theorem eventTA_lang_wrong_superset :
    ¬ ∀ (alloc : Nat → Nat) (e : TRE ℚ) (A : TA Nat), Function.Injective alloc → e.Plain → e.eventTA alloc = .ok A →
      ∀ w, A.Accepts w → e.Lang w := by
  intro h
  have hp : (TRE.concat (.within (.star litA) (Interval.openI 1 2)) litB).Plain :=
    ⟨⟨⟨trivial, litA_plain⟩, by decide, openI_int 1 2⟩, litB_plain⟩
  obtain ⟨A, hA, hw⟩ := memberOf_answers (b := true) (w := [(98, 1)]) down_inj hp (by decide +kernel)
  obtain ⟨u, v, huv, ⟨-, hm⟩, t, hv⟩ := h down _ A down_inj hp hA _ (hw.1 rfl)
  subst hv
  have hu : u = [] := by
    have := congrArg List.length huv
    simp at this
    exact this
  subst hu
  have := hm.1
  simp only [Interval.openI, Interval.Above, endTime] at this
  norm_num at this

/-- **C37, what holds** (`_partial`: the empty word is used in choice and concatenation only, and the ends of time restrictions
are integers).  Wherever the states are allocated, the automaton accepts exactly the words of the expression, whatever the
instant at which it is started, and `isMember` decides this. -/
theorem eventTA_lang_partial (alloc : Nat → Nat) (hinj : Function.Injective alloc) (e : TRE K) (he : e.Plain) (hr : e.Regular) :
    ∃ A, e.eventTA alloc = .ok A ∧ (∀ t0 (w : TWord K), A.AcceptsFrom t0 w ↔ e.Den t0 w) ∧
      ∀ w : TWord K, ∃ b, A.isMember w = .ok b ∧ (b = true ↔ e.Lang w) := by
  obtain ⟨A, k, h, hok⟩ := eventTA_spec hinj he
  have hl : ∀ t0 (w : TWord K), A.owned.AcceptsFrom t0 w ↔ e.Den t0 w := fun t0 w => (owned_accepts hok.wf t0 w).trans (hok.lang hr t0 w)
  refine ⟨A.owned, h, hl, fun w => ?_⟩
  obtain ⟨A', h', -, -, -, hC, -⟩ := eventTA_final_partial alloc hinj e he
  rw [h] at h'
  cases h'
  obtain ⟨b, hb, hbw⟩ := isMember_iff A.owned hC w
  exact ⟨b, hb, hbw.trans (hl 0 w)⟩

/-- The restriction to expressions without any empty word, i.e. without `*` and `?`, is enough. -/
theorem eventTA_lang_epsilonFree_partial (alloc : Nat → Nat) (hinj : Function.Injective alloc) (e : TRE K) (he : e.Plain)
    (hf : e.EpsilonFree) : ∃ A, e.eventTA alloc = .ok A ∧ ∀ w : TWord K, A.Accepts w ↔ e.Lang w := by
  obtain ⟨A, h, hl, -⟩ := eventTA_lang_partial alloc hinj e he hf.regular
  exact ⟨A, h, hl 0⟩

/-- The example matches two bursts: `a` at 2 and `b` at 3, then `a` at 4 and `b` at 6. -/
example : burst.Plain ∧ burst.Regular ∧ burst.Lang [(97, 2), (98, 3), (97, 4), (98, 6)] := by
  refine ⟨burst_plain, burst_regular, .more (u := [(97, 2), (98, 3)]) (v := [(97, 4), (98, 6)]) ?_ (.one ?_)⟩
  · refine ⟨⟨[(97, 2)], [(98, 3)], rfl, ⟨2, rfl⟩, .inr (.one ⟨3, rfl⟩)⟩, ?_⟩
    simp only [Interval.Mem, Interval.openI, endTime, Interval.Above, sat_f]
    norm_num
  · refine ⟨⟨[(97, 4)], [(98, 6)], rfl, ⟨4, rfl⟩, .inr (.one ⟨6, rfl⟩)⟩, ?_⟩
    simp only [Interval.Mem, Interval.openI, endTime, Interval.Above, sat_f]
    norm_num

/-- And an expression without empty words: `(ab)&((a|b)+)`. -/
example : (TRE.conj (.concat litA litB) (.plus (.disj litA litB))).Plain ∧
    (TRE.conj (.concat litA litB) (.plus (.disj litA litB))).EpsilonFree :=
  ⟨⟨⟨litA_plain, litB_plain⟩, ⟨litA_plain, litB_plain⟩, by decide⟩, ⟨trivial, trivial⟩, trivial, trivial⟩

/-! ## C39 -/

/-- **C39 is false**: whether the automaton for `(a*)&a` accepts `a` depends on the addresses of the states. -/
theorem eventTA_layout_wrong :
    ¬ ∀ (alloc alloc' : Nat → Nat) (e : TRE ℚ) (A A' : TA Nat), Function.Injective alloc → Function.Injective alloc' → e.Plain →
      e.eventTA alloc = .ok A → e.eventTA alloc' = .ok A' → ∀ w : TWord ℚ, A.Accepts w ↔ A'.Accepts w := by
  intro h
  have hp : (TRE.conj (.star litA) litA).Plain := ⟨⟨trivial, litA_plain⟩, litA_plain, by decide⟩
  obtain ⟨A, hA, hw⟩ := memberOf_answers (b := false) (w := [(97, 1)]) up_inj hp (by decide +kernel)
  obtain ⟨A', hA', hw'⟩ := memberOf_answers (b := true) (w := [(97, 1)]) down_inj hp (by decide +kernel)
  have := hw.2 ((h up down _ A A' up_inj down_inj hp hA hA' _).2 (hw'.1 rfl))
  cases this

/-- **C39, what holds** (`_partial`: with the restrictions of `eventTA_lang_partial`). -/
theorem eventTA_layout_partial (alloc alloc' : Nat → Nat) (hinj : Function.Injective alloc) (hinj' : Function.Injective alloc')
    (e : TRE K) (he : e.Plain) (hr : e.Regular) :
    ∃ A A', e.eventTA alloc = .ok A ∧ e.eventTA alloc' = .ok A' ∧ ∀ t0 (w : TWord K), A.AcceptsFrom t0 w ↔ A'.AcceptsFrom t0 w := by
  obtain ⟨A, h, hl, -⟩ := eventTA_lang_partial alloc hinj e he hr
  obtain ⟨A', h', hl', -⟩ := eventTA_lang_partial alloc' hinj' e he hr
  exact ⟨A, A', h, h', fun t0 w => (hl t0 w).trans (hl' t0 w).symm⟩

/-- The example with two layouts. -/
example : Function.Injective up ∧ Function.Injective down ∧ up ≠ down ∧ burst.Plain ∧ burst.Regular :=
  ⟨up_inj, down_inj, fun h => absurd (congrFun h 0) (by decide), burst_plain, burst_regular⟩

/-! ## C61 -/

/-- **C61 is false**: a time restriction without upper end converts infinity to `int`, which is undefined, whatever the
expression below it. -/
theorem eventTA_unbounded_wrong (alloc : Nat → Nat) (e : TRE K) (I : Interval K) (b : Bool) (hI : I.upper = .inf b) (A : TA Nat) :
    (TRE.within e I).eventTA alloc ≠ .ok A := by
  simp only [TRE.eventTA, TRE.toEventTA, bind, Except.bind, Except.map]
  cases TRE.toEventTA alloc (fun _ => ⟨false, false, []⟩) 0 e with
  | error x => simp
  | ok p => simp [TA.withinTA, hI, Bnd.toInt]

/-- `a%(>3)`. -/
example : (Interval.above 3 : Interval ℚ).upper = .inf false := rfl

/-- **C61, what holds** (`_partial`: the ends of time restrictions are integers, and the clocks fit in a byte).  The translation
succeeds. -/
theorem eventTA_defined_partial (alloc : Nat → Nat) (hinj : Function.Injective alloc) (e : TRE K) (he : e.Plain) :
    ∃ A, e.eventTA alloc = .ok A :=
  let ⟨A, _, h, _⟩ := eventTA_spec hinj he
  ⟨A.owned, h⟩

example : burst.Plain := burst_plain

/-! ## C62 -/

/-- **C62** (`_partial`: with the restrictions of `eventTA_lang_partial`).  For a pattern given as an expression, in event mode:
every pair `(t, t')` of a reported zone is such that the events strictly between `t` and `t'`, with times counted from `t`, followed
by `$`, match the expression. -/
theorem expression_match_sound_partial (alloc : Nat → Nat) (hinj : Function.Injective alloc) (e : TRE K) (he : e.Plain)
    (hr : e.Regular) (A : TA Nat) (hA : e.eventTA alloc = .ok A) (w : TWord K) (hw : LogOk w) (addr : Nat → Nat)
    (fuel steps : Nat) (hs : w.length < steps) (zs : List (Zone K))
    (h : monaaDollar addr fuel steps (vectorCont K) A w = .ok zs ∨
      monaaDollar addr fuel steps (lazyCont K) A (Lazy.mk0 w) = .ok zs) :
    ∀ z ∈ zs, ∀ t t', z.Has t t' → 0 ≤ t ∧ t ≤ t' ∧
      e.Lang ((between w t t').map (fun e => (e.1, e.2 - t)) ++ [(dollar, t' - t)]) := by
  obtain ⟨A', h', -, -, -, -, -, hT, -⟩ := eventTA_final_partial alloc hinj e he
  rw [hA] at h'
  cases h'
  obtain ⟨A', h', hl, -⟩ := eventTA_lang_partial alloc hinj e he hr
  rw [hA] at h'
  cases h'
  intro z hz t t' hzt
  obtain ⟨h1, h2, h3⟩ := matcher_sound A hT w hw addr fuel steps hs zs h z hz t t' hzt
  exact ⟨h1, h2, (hl 0 _).1 h3⟩

/-- `(a+)$`. -/
def closed : TRE ℚ := .concat (.plus litA) (.atom dollar)

/-- The call for this expression and a log with `a` at 2 and 4 reports zones. -/
example : closed.Plain ∧ closed.Regular ∧ LogOk [((97 : Alphabet), (2 : ℚ)), (97, 4)] ∧ ∃ A zs, closed.eventTA down = .ok A ∧
    monaaDollar id 20 20 (vectorCont ℚ) A [(97, 2), (97, 4)] = .ok zs ∧ zs ≠ [] := by
  have hp : closed.Plain := ⟨litA_plain, by show dollar ≠ epsilon; decide⟩
  refine ⟨hp, TRE.EpsilonFree.regular ⟨trivial, trivial⟩, ⟨by decide +kernel, by decide +kernel, by decide⟩, ?_⟩
  obtain ⟨A, k, hA, -⟩ := eventTA_spec down_inj hp
  have key : (closed.eventTA down).toOption.any (fun A =>
      (monaaDollar id 20 20 (vectorCont ℚ) A [(97, 2), (97, 4)]).toOption.any fun zs => !zs.isEmpty) = true := by decide +kernel
  rw [hA] at key
  simp only [Except.toOption, Option.any_some] at key
  refine ⟨A.owned, ?_⟩
  cases hz : monaaDollar id 20 20 (vectorCont ℚ) A.owned [(97, 2), (97, 4)] with
  | error x => rw [hz] at key; simp at key
  | ok zs =>
    rw [hz] at key
    exact ⟨zs, hA, rfl, by simpa using key⟩

end Verif.Props
