import Verif.Lemmas.Diverge
import Verif.Lemmas.TREFront
import Verif.Lemmas.TRELabels
import Verif.Props.PatternComplete
import Verif.Props.Total
import Verif.Props.ZA

/-!
# C46: does a call of the matcher for a pattern text return?  C78: is its behaviour defined?
-/

namespace Verif.Props

section general
variable {S K : Type} [Field K] [LinearOrder K] [IsStrictOrderedRing K] [DecidableEq S]

theorem deadLoop_outcome (Z : ZA S K) (fuel : Nat) (stack : List (Nat × List Nat)) (reach : List Nat) :
    (∃ l, Z.deadLoop fuel stack reach = .ok l) ∨ Z.deadLoop fuel stack reach = .error .fuel := by
  induction fuel generalizing stack reach with
  | zero => exact Or.inr rfl
  | succ fuel ih =>
    cases stack with
    | nil => exact Or.inl ⟨_, rfl⟩
    | cons x stack =>
      rw [ZA.deadLoop]
      exact ih _ _

theorem sundaySets_outcome (Z : ZA S K) (alive : List Nat) (fuel : Nat) (cs : List Nat) :
    (∃ l, sundaySets Z alive fuel cs = .ok l) ∨ sundaySets Z alive fuel cs = .error .fuel ∨
      sundaySets Z alive fuel cs = .error (.exit 10) := by
  induction fuel generalizing cs with
  | zero => exact Or.inr (Or.inl rfl)
  | succ fuel ih =>
    unfold sundaySets
    split_ifs
    · exact Or.inr (Or.inr rfl)
    · simp only
      split_ifs
      · exact Or.inl ⟨_, rfl⟩
      · simp only [bind, Except.bind]
        rcases ih ((sundayStep Z alive cs).map (·.2)) with ⟨l, h⟩ | h | h <;> rw [h]
        · exact Or.inl ⟨_, rfl⟩
        · exact Or.inr (Or.inl rfl)
        · exact Or.inr (Or.inr rfl)

theorem sundayTable_outcome {A : TA S} (hA : EdgesOk A) (fuel : Nat) :
    (∃ x, sundayTable K fuel A = .ok x) ∨ sundayTable K fuel A = .error .fuel ∨ sundayTable K fuel A = .error (.exit 10) := by
  unfold sundayTable
  simp only [bind, Except.bind]
  rcases ta2za_ok_or_fuel (K := K) hA fuel ZA.none with ⟨Z, h⟩ | h <;> rw [h]
  · simp only
    rcases deadLoop_outcome Z fuel (Z.init.reverse.map fun i => (i, [])) [] with ⟨l, h⟩ | h <;>
      rw [show Z.liveStates fuel = _ from h]
    · simp only
      rcases sundaySets_outcome Z l fuel (Z.init.filter fun i => decide (i ∈ l)) with ⟨x, h⟩ | h | h <;> rw [h]
      · exact Or.inl ⟨_, rfl⟩
      · exact Or.inr (Or.inl rfl)
      · exact Or.inr (Or.inr rfl)
    · exact Or.inr (Or.inl rfl)
  · exact Or.inr (Or.inl rfl)

section kmp
variable {A : TA S} {m : Nat}

theorem kmpSearch_outcome (hM : A.MapOk) (hC : A.ClocksDeclared) (hL : A.LabelsOk) (fuel : Nat) (o : S) (k n : Nat)
    (Z : ZA (KState S × DState S) K) :
    (∃ x, kmpSearch fuel A m o k n Z = .ok x) ∨ kmpSearch fuel A m o k n Z = .error .fuel := by
  induction k generalizing n Z with
  | zero => exact Or.inl ⟨_, rfl⟩
  | succ k ih =>
    unfold kmpSearch
    simp only [bind, Except.bind]
    rcases ta2za_ok_or_fuel (K := K) (a2_edgesOk (m := m) (n := n) (o := o) hM hC hL) fuel Z with ⟨Z, h⟩ | h <;> rw [h]
    · simp only
      split_ifs
      · exact ih _ _
      · exact Or.inl ⟨_, rfl⟩
    · exact Or.inr rfl

theorem kmpTable_outcome (hM : A.MapOk) (hC : A.ClocksDeclared) (hL : A.LabelsOk) (fuel : Nat) :
    (∃ x, kmpTable K fuel A m = .ok x) ∨ kmpTable K fuel A m = .error .fuel := by
  unfold kmpTable
  generalize A.states = os
  generalize ([] : List (S × Nat)) = beta
  generalize (ZA.none : ZA (KState S × DState S) K) = Z
  induction os generalizing beta Z with
  | nil => exact Or.inl ⟨_, rfl⟩
  | cons o os ih =>
    unfold kmpLoop
    simp only [bind, Except.bind]
    rcases kmpSearch_outcome hM hC hL fuel o m 1 Z with ⟨x, h⟩ | h <;> rw [h]
    · exact ih _ _
    · exact Or.inr rfl

end kmp

/-- The construction of the tables gives the tables, does not end, or ends the program with status 10. -/
theorem makeTables_outcome {A : TA S} (hM : A.MapOk) (hC : A.ClocksDeclared) (hL : A.LabelsOk) (fuel : Nat) :
    (∃ T, makeTables K fuel A = .ok T) ∨ makeTables K fuel A = .error .fuel ∨ makeTables K fuel A = .error (.exit 10) := by
  unfold makeTables
  simp only [bind, Except.bind]
  rcases sundayTable_outcome (K := K) (edgesOk_of hM hC hL) fuel with ⟨⟨m, delta, ends⟩, h⟩ | h | h <;> rw [h]
  · simp only
    rcases kmpTable_outcome (K := K) (m := m) hM hC hL fuel with ⟨x, h⟩ | h <;> rw [h]
    · exact Or.inl ⟨_, rfl⟩
    · exact Or.inr (Or.inl rfl)
  · exact Or.inr (Or.inl rfl)
  · exact Or.inr (Or.inr rfl)

theorem prepare_labels {A Ap : TA S} (hP : Prepared A Ap) (hL : A.LabelsOk) : Ap.LabelsOk := fun s a hne => by
  obtain ⟨e, he⟩ := List.exists_mem_of_ne_nil _ hne
  exact hL s a (List.ne_nil_of_mem (prepare_edges hP he))

/-- `binary_search` is used as it must be if the initial states are sorted. -/
theorem prepare_sorted {A : TA S} {addr : S → Nat} (hM : A.MapOk) (hs : A.init.Pairwise fun a b => addr a ≤ addr b)
    (ht : ∀ s ∈ A.states, ∀ a, ∀ e ∈ A.edges s a, ∃ q ∈ A.states, e.target = some q) : ∃ Ap, prepare addr A = .ok Ap := by
  unfold prepare
  rw [if_pos]
  · simp only
    rw [if_pos]
    · exact ⟨_, rfl⟩
    · rw [List.all_eq_true]
      intro s hs
      rw [List.all_eq_true]
      intro p hp
      rw [List.all_eq_true]
      intro e he
      have hp' : p ∈ (A.st s).next := by
        unfold dropDollar at hp
        split at hp
        · exact hp
        · exact List.mem_of_mem_filter hp
      have hmem : (p.1, e) ∈ outEdges A s := by
        unfold outEdges
        rw [List.mem_flatMap]
        exact ⟨p, hp', List.mem_map.2 ⟨e, he, rfl⟩⟩
      obtain ⟨q, hq, hqt⟩ := ht s hs p.1 e ((mem_outEdges_iff hM).1 hmem)
      rw [hqt]
      simpa using hq
  · rw [List.all_eq_true]
    intro s _
    refine decide_eq_true (hs.imp ?_)
    intro a b hab
    constructor <;> omega

/-- With the initial states sorted, nothing undefined happens in a call of `monaaDollar`: it returns zones, it ends the program with
status 10, or a loop does not end. -/
theorem dollar_outcome (A : TA S) (hA : A.Closed) (hM : A.MapOk) (hC : A.ClocksDeclared) (hL : A.LabelsOk)
    (addr : S → Nat) (Ap : TA S) (hp : prepare addr A = .ok Ap) (w : TWord K) (hl : LettersOk w) (fuel steps : Nat) :
    (∃ zs, monaaDollar addr fuel steps (vectorCont K) A w = .ok zs) ∨
      monaaDollar addr fuel steps (vectorCont K) A w = .error .fuel ∨
      monaaDollar addr fuel steps (vectorCont K) A w = .error (.exit 10) := by
  have hP := prepare_spec hp
  have key : ∀ steps, w.length < steps → (∃ zs, monaaDollar addr fuel steps (vectorCont K) A w = .ok zs) ∨
      monaaDollar addr fuel steps (vectorCont K) A w = .error .fuel ∨
      monaaDollar addr fuel steps (vectorCont K) A w = .error (.exit 10) := by
    intro steps hs
    rcases makeTables_outcome (K := K) (prepare_mapOk hP hM) (prepare_clocks hP hC) (prepare_labels hP hL) fuel with ⟨T, hT⟩ | h | h
    · exact Or.inl (matcher_stops A hA hM hC addr Ap hp fuel T hT w hl steps hs).1
    · right; left
      unfold monaaDollar
      rw [hp]
      simp only [bind, Except.bind]
      rw [h]
    · right; right
      unfold monaaDollar
      rw [hp]
      simp only [bind, Except.bind]
      rw [h]
  rcases monaaDollar_le addr (vectorCont K) A w (le_refl fuel) (le_max_left steps (w.length + 1)) with h | h
  · exact Or.inr (Or.inl h)
  · rw [h]
    exact key _ (by omega)

/-- **C46, where it fails**: a pattern with a loop at an initial state such that the loop resets the clocks of its guard and the guard asks
for a positive value of one of them.  The construction of the second table does not end: whatever the log, no call returns zones (it runs
forever, or the first table has ended the program with status 10). -/
theorem dollar_hangs [Archimedean K] (A : TA S) (hA : A.Closed) (hM : A.MapOk) (hC : A.ClocksDeclared) (hL : A.LabelsOk)
    (hz : A.NoZeroDuration) (addr : S → Nat) (Ap : TA S) (hp : prepare addr A = .ok Ap)
    (s : S) (hs : s ∈ A.init) (a : Alphabet) (ha : 1 ≤ a) (had : a ≠ dollar) (e : Transition S) (he : e ∈ A.edges s a)
    (ht : e.target = some s) (hr : ∀ g ∈ e.guard, g.x ∈ e.resets) (d : K) (hd : 0 < d) (hg : ∀ g ∈ e.guard, g.Holds d)
    (g : Constraint) (hge : g ∈ e.guard) (hlow : ¬ g.IsUpper) (hpos : 0 < g.c) (hmax : ∃ c ∈ A.maxC, 0 < c) {σ : Type} (C : Cont K σ)
    (w : σ) (fuel steps : Nat) :
    monaaDollar addr fuel steps C A w = .error .fuel ∨
      (sundayTable K fuel Ap = .error (.exit 10) ∧ monaaDollar addr fuel steps C A w = .error (.exit 10)) := by
  have hP := prepare_spec hp
  have hsA := hA.1 s hs
  have key : makeTables K fuel Ap = .error .fuel ∨
      (sundayTable K fuel Ap = .error (.exit 10) ∧ makeTables K fuel Ap = .error (.exit 10)) := by
    unfold makeTables
    simp only [bind, Except.bind]
    rcases sundayTable_outcome (K := K) (edgesOk_of (prepare_mapOk hP hM) (prepare_clocks hP hC) (prepare_labels hP hL)) fuel with
      ⟨⟨m, delta, ends⟩, h⟩ | h | h <;> rw [h]
    · left
      simp only
      rw [kmpTable_diverges (K := K) (s := s) (a := a) (e := e) (d := d) (g := g) (prepare_mapOk hP hM) (prepare_clocks hP hC)
        (prepare_labels hP hL) ?_ ?_ ?_ ha ?_ ht hr hd hg hge hlow hpos ?_ (sundayTable_shape h).1]
      · exact prepare_closed hP hA
      · exact prepare_noZero hP hz
      · rw [hP.2.1, List.mem_filter]
        exact ⟨hsA, by simpa using hs⟩
      · unfold TA.edges
        rw [hP.2.2.1, dropDollar_at _ had]
        exact he
      · rw [hP.2.2.2]
        exact hmax
    · exact Or.inl rfl
    · exact Or.inr ⟨rfl, rfl⟩
  unfold monaaDollar
  rw [hp]
  simp only [bind, Except.bind]
  rcases key with h | ⟨h, h'⟩
  · rw [h]
    simp
  · rw [h', h]
    simp

end general

section patterns
variable {K : Type} [Field K] [LinearOrder K] [IsStrictOrderedRing K] [FloorRing K]

/-- The labels of the automaton of an expression are letters of the expression. -/
theorem eventTA_labels {alloc : Nat → Nat} (hinj : Function.Injective alloc) {P : Alphabet → Prop} {e : TRE K} (he : e.Plain)
    (hP : e.LettersIn P) {A : TA Nat} (hA : e.eventTA alloc = .ok A) : ∀ s a, A.edges s a ≠ [] → P a := by
  obtain ⟨B, k', h, -, hl⟩ := e.toEventTA_labels hinj he hP (fun _ => ⟨false, false, []⟩) 0
  have : A = B.owned := by
    have h2 : e.eventTA alloc = .ok B.owned := by simp only [TRE.eventTA, h]; rfl
    rw [h2] at hA
    cases hA
    rfl
  subst this
  intro s a hne
  obtain ⟨t, ht⟩ := List.exists_mem_of_ne_nil _ hne
  have hs := mem_of_owned_edges ht
  rw [owned_edges hs] at ht
  exact hl s hs a t ht

theorem letter_small {c : Char} (h : LexSt.isLetter c = true) : c.toNat < 127 := by
  unfold LexSt.isLetter at h
  simp only [Bool.or_eq_true, Bool.and_eq_true, decide_eq_true_eq] at h
  rcases h with (⟨-, h⟩ | ⟨-, h⟩) | rfl
  · have : c.toNat ≤ 'z'.toNat := h
    exact lt_of_le_of_lt this (by decide)
  · have : c.toNat ≤ 'Z'.toNat := h
    exact lt_of_le_of_lt this (by decide)
  · decide

theorem keeps_frontSorted {Q : Tok → Prop} (h : ¬ Q .amp) : GramKeeps (K := K) Q TRE.FrontSorted where
  atom _ _ := trivial
  plus e he _ := by
    rcases e.mkPlus_cases with ⟨f, rfl, e'⟩ | ⟨-, e'⟩
    · exact he
    · rw [e']; exact he
  star _ _ _ := trivial
  concat _ _ h h' := h
  disj _ _ h h' := trivial
  conj _ _ _ _ ha := absurd ha h
  within _ _ _ h _ _ _ := h

/-- The initial states of the automaton are sorted by address. -/
theorem eventTA_sorted {alloc : Nat → Nat} (hinj : Function.Injective alloc) {e : TRE K} (he : e.Plain) (hε : e.EpsilonFree)
    (hf : e.FrontSorted) {A : TA Nat} (hA : e.eventTA alloc = .ok A) : A.init.Pairwise (· ≤ ·) := by
  obtain ⟨B, k', h, -, -, hl⟩ := e.toEventTA_front hinj he hε (fun _ => ⟨false, false, []⟩) 0
  have : A = B.owned := by
    have h2 : e.eventTA alloc = .ok B.owned := by simp only [TRE.eventTA, h]; rfl
    rw [h2] at hA
    cases hA
    rfl
  subst this
  exact hl hf

/-- What is needed of the automaton of a pattern text without `*`, `>` and `&`. -/
theorem pattern_prepared (s : List Char) (e : TRE K) (hp : parsePattern s = .ok e) (h1 : '*' ∉ s) (h2 : '>' ∉ s) (h3 : '&' ∉ s)
    (h4 : e.clocks ≤ 256) (alloc : Nat → Nat) (hinj : Function.Injective alloc) :
    ∃ A, e.eventTA alloc = .ok A ∧ A.Closed ∧ A.MapOk ∧ A.ClocksDeclared ∧ A.LabelsOk ∧ A.Tidy ∧ A.NoSilent ∧
      ∃ Ap, prepare id A = .ok Ap := by
  obtain ⟨k1, k2⟩ := parse_plain s e hp
  have hpl := k1 h2 h4
  have hε := k2 h1
  obtain ⟨A, hA, -, -, hcl, hC, hM, hT, hNS, -, htgt⟩ := eventTA_final_partial alloc hinj e hpl
  obtain ⟨us, tail, e', hc, ht⟩ := parseToks_sound hp
  have hq : ∀ t ∈ us, TokOf (· ∈ s) t := pattern_of _ (fun _ hc => hc) e'
  have hL : e.LettersIn (· < 127) := hc.expr.keeps (keeps_letters fun c hc => letter_small hc.1) hq
  have hf : e.FrontSorted := hc.expr.keeps (keeps_frontSorted h3) hq
  exact ⟨A, hA, hcl, hM, hC, eventTA_labels hinj hpl hL hA, hT, hNS,
    prepare_sorted hM (eventTA_sorted hinj hpl hε hf hA) (htgt hε.regular)⟩

/-- **C78** (`_partial`: for texts without `*`, `>` and `&`, and at most 256 clocks): the call for a pattern given as a text in event
mode has no undefined behaviour and throws no exception, wherever the states are allocated: it returns zones, it ends the program with
status 10, or a loop does not end. -/
theorem pattern_defined_partial (s : List Char) (e : TRE K) (hp : parsePattern s = .ok e) (h1 : '*' ∉ s) (h2 : '>' ∉ s) (h3 : '&' ∉ s)
    (h4 : e.clocks ≤ 256) (alloc : Nat → Nat) (hinj : Function.Injective alloc) :
    ∃ A, e.eventTA alloc = .ok A ∧ ∀ (w : TWord K), LettersOk w → ∀ fuel steps,
      (∃ zs, monaaDollar id fuel steps (vectorCont K) A w = .ok zs) ∨
        monaaDollar id fuel steps (vectorCont K) A w = .error .fuel ∨
        monaaDollar id fuel steps (vectorCont K) A w = .error (.exit 10) := by
  obtain ⟨A, hA, hcl, hM, hC, hL, -, -, Ap, hAp⟩ := pattern_prepared s e hp h1 h2 h3 h4 alloc hinj
  exact ⟨A, hA, fun w hl fuel steps => dollar_outcome A hcl hM hC hL id Ap hAp w hl fuel steps⟩

/-- **C46** for pattern texts (`_partial`: without `*`, `>` and `&`, the condition `LoopsOk` on repetitions, at most 256 clocks): the call in event mode has the
same outcome for all bounds of the loops which are large enough; it is a list of zones or the end of the program with status 10, and a list of
zones if the expression matches a word which has an event and ends with `$`. -/
theorem pattern_returns_partial (s : List Char) (e : TRE K) (hp : parsePattern s = .ok e) (h1 : '*' ∉ s) (h1' : e.LoopsOk) (h2 : '>' ∉ s)
    (h3 : '&' ∉ s) (h4 : e.clocks ≤ 256) (alloc : Nat → Nat) (hinj : Function.Injective alloc) :
    ∃ A, e.eventTA alloc = .ok A ∧ ∀ (w : TWord K), LettersOk w → ∃ N r, (∀ fuel steps, N ≤ fuel → w.length < steps →
        monaaDollar id fuel steps (vectorCont K) A w = r ∧ monaaDollar id fuel steps (lazyCont K) A (Lazy.mk0 w) = r) ∧
      ((∃ zs, r = .ok zs) ∨ r = .error (.exit 10)) ∧
      ((∃ (t : K) (u : TWord K), u ≠ [] ∧ LettersOk u ∧ (∀ e ∈ u, e.1 ≠ dollar) ∧ (∀ e ∈ u, 0 < e.2 ∧ e.2 < t) ∧
        u.Pairwise (fun a b => a.2 < b.2) ∧ e.Lang (u ++ [(dollar, t)])) → ∃ zs, r = .ok zs) := by
  obtain ⟨A, hA, hcl, hM, hC, hL, -, hNS, Ap, hAp⟩ := pattern_prepared s e hp h1 h2 h3 h4 alloc hinj
  obtain ⟨k1, k2⟩ := parse_plain s e hp
  have hpl := k1 h2 h4
  have hε := k2 h1
  obtain ⟨B, k, h, -, hac, -⟩ := eventTA_loops hinj e hpl hε h1'
  have : A = B.owned := by
    have h2 : e.eventTA alloc = .ok B.owned := by simp only [TRE.eventTA, h]; rfl
    rw [h2] at hA
    cases hA
    rfl
  subst this
  refine ⟨_, hA, fun w hl => ?_⟩
  obtain ⟨N, r, r1, r2, r3⟩ := dollar_total_partial B.owned hcl hM hC hL hac (Or.inl hNS) id Ap hAp w hl
  refine ⟨N, r, r1, r2, ?_⟩
  rintro ⟨t, u, hne, hu, hd, hpos, hsort, hlang⟩
  obtain ⟨A', hA', hl', -⟩ := eventTA_lang_partial alloc hinj e hpl hε.regular
  rw [hA] at hA'
  cases hA'
  exact r3 ⟨0, t, u, hne, hu, hd, ⟨le_refl _, fun e he => (hpos e he).1⟩, hsort, fun e he => (hpos e he).2, (hl' 0 _).2 hlang⟩

end patterns

/-- The text of `pattern_match_complete_partial` satisfies the conditions; the expression matches the events `a`, `a`, `a`. -/
example : parsePattern "(a+)((a%(1,3))$)".toList = .ok laterE ∧ '*' ∉ "(a+)((a%(1,3))$)".toList ∧ laterE.LoopsOk ∧
    '>' ∉ "(a+)((a%(1,3))$)".toList ∧ '&' ∉ "(a+)((a%(1,3))$)".toList ∧ laterE.clocks ≤ 256 ∧
    laterE.Lang ([(97, 1 / 2), (97, 1), (97, 3)] ++ [(dollar, 4)]) := by
  refine ⟨rfl, by decide, .inl ⟨trivial, trivial, trivial⟩, by decide, by decide, by decide, [(97, 1 / 2), (97, 1)], _, rfl,
    .more (u := [(97, 1 / 2)]) ⟨_, rfl⟩ (.one ⟨_, rfl⟩), [(97, 3)], _, rfl, ⟨⟨_, rfl⟩, ?_⟩, ⟨_, rfl⟩⟩
  show (1 : ℚ) < 3 - 1 ∧ (3 : ℚ) - 1 < (3 : ℚ)
  norm_num

/-! ### A pattern for which no call returns -/

/-- `((a%(1,2))+)$`. -/
def hangE : TRE ℚ := .concat (.plus (.within (.atom 97) ⟨.fin 1 false, .fin 2 false⟩)) (.atom 36)

/-- The guard `x0 < 2, x0 > 1`. -/
def hangGuard : List Constraint := [⟨0, .lt, 2⟩, ⟨0, .gt, 1⟩]

theorem hang_check : (hangE.eventTA down).toOption.any (fun A => decide (A.init = [20]) && decide (A.maxC = [2]) &&
    decide (A.states = [20, 17, 16]) && (A.states.all fun s => !(A.st s).zeroDuration) &&
    decide ((⟨some 20, [0], hangGuard⟩ : Transition Nat) ∈ A.edges 20 97) &&
    (prepare id A).toOption.any (fun Ap => (sundayTable ℚ 20 Ap).toOption.isSome)) = true := by decide +kernel

/-- **C46 is false**: for the pattern `((a%(1,2))+)$` no call returns, whatever the log: the tables are never finished.
(An application of `dollar_hangs`, so its hypotheses are met.) -/
theorem pattern_hangs : parsePattern "((a%(1,2))+)$".toList = .ok hangE ∧ ∃ A, hangE.eventTA down = .ok A ∧
    ∀ (σ : Type) (C : Cont ℚ σ) (w : σ) (fuel steps : Nat), monaaDollar id fuel steps C A w = .error .fuel := by
  have hp : parsePattern "((a%(1,2))+)$".toList = .ok hangE := rfl
  obtain ⟨A, hA, hcl, hM, hC, hL, -, -, Ap, hAp⟩ := pattern_prepared _ _ hp (by decide) (by decide) (by decide) (by decide) down down_inj
  refine ⟨hp, A, hA, fun σ C w fuel steps => ?_⟩
  have key := hang_check
  rw [hA] at key
  simp only [Except.toOption, Option.any_some, Bool.and_eq_true, decide_eq_true_eq, List.all_eq_true, Bool.not_eq_true'] at key
  obtain ⟨⟨⟨⟨⟨k1, k2⟩, k3⟩, k4⟩, k5⟩, k6⟩ := key
  have h1 : ∀ g ∈ hangGuard, g.Holds (3 / 2 : ℚ) := by
    intro g hg
    simp only [hangGuard, List.mem_cons, List.not_mem_nil, or_false] at hg
    rcases hg with rfl | rfl <;> (unfold Constraint.Holds; refine ⟨fun h => ?_, fun h => ?_, fun h => ?_, fun h => ?_⟩ <;> first | cases h; done | norm_num)
  rcases dollar_hangs A hcl hM hC hL k4 id Ap hAp 20 (by rw [k1]; simp) 97 (by decide) (by decide) _ k5 rfl (by decide)
    (3 / 2 : ℚ) (by norm_num) h1 ⟨0, .gt, 1⟩ (by decide) (by simp [Constraint.IsUpper]) (by decide) ⟨2, by rw [k2]; simp, by decide⟩
    C w fuel steps with h | ⟨h, -⟩
  · exact h
  · exfalso
    have h' := (sundayTable_le (K := ℚ) Ap (le_max_left fuel 20)).eq (by rw [h]; simp)
    rw [hAp] at k6
    simp only [Option.any_some] at k6
    rcases hs : sundayTable ℚ 20 Ap with x | x
    · rw [hs] at k6
      simp at k6
    · have hs' := (sundayTable_le (K := ℚ) Ap (le_max_right fuel 20)).eq (by rw [hs]; simp)
      rw [h', h, hs] at hs'
      cases hs'

/-- **C46 is false** (the claim itself): not every call in event mode for a pattern text which is accepted and translated has an outcome. -/
theorem pattern_returns_wrong : ¬ ∀ (s : List Char) (e : TRE ℚ) (alloc : Nat → Nat) (A : TA Nat) (w : TWord ℚ), parsePattern s = .ok e →
    Function.Injective alloc → e.eventTA alloc = .ok A → LettersOk w → ∃ fuel steps, monaaDollar id fuel steps (vectorCont ℚ) A w ≠ .error .fuel := by
  intro h
  obtain ⟨hp, A, hA, hh⟩ := pattern_hangs
  obtain ⟨fuel, steps, hne⟩ := h _ _ down A [] hp down_inj hA (by simp [LettersOk])
  exact hne (hh _ _ _ _ _)

/-! ### A pattern for which the initial states are searched in an unsorted vector -/

/-- `(a*)$`. -/
def searchE : TRE ℚ := .concat (.star (.atom 97)) (.atom 36)

/-- **C78 is false**: for the pattern `(a*)$`, if each state is allocated below the states made before, the initial states are searched with
`std::binary_search` in a vector which is not sorted.  So no call has defined behaviour. -/
theorem pattern_defined_wrong : ¬ ∀ (s : List Char) (e : TRE ℚ) (alloc : Nat → Nat) (A : TA Nat) (w : TWord ℚ) (fuel steps : Nat),
    parsePattern s = .ok e → Function.Injective alloc → e.eventTA alloc = .ok A → LettersOk w →
    monaaDollar id fuel steps (vectorCont ℚ) A w ≠ .error .ub := by
  intro h
  have hp : parsePattern "(a*)$".toList = .ok searchE := rfl
  have key : (searchE.eventTA down).toOption.any (fun A => !(A.states.all fun s => partitioned id A.init s)) = true := by decide +kernel
  rcases hA : searchE.eventTA down with x | A
  · rw [hA] at key
    simp [Except.toOption] at key
  · rw [hA] at key
    simp only [Except.toOption, Option.any_some, Bool.not_eq_true'] at key
    refine h _ _ down A [] 0 0 hp down_inj hA (by simp [LettersOk]) ?_
    unfold monaaDollar prepare
    rw [key]
    rfl

/-- The first eight addresses go up, the next ones down. -/
def bend (n : Nat) : Nat := if n < 8 then n else if n ≤ 50 then 100 - n else n + 100

theorem bend_inj : Function.Injective bend := by
  intro a b h
  unfold bend at h
  split at h <;> split at h <;> (try split at h) <;> (try split at h) <;> omega

/-- `((a|b)&(a|b))$`. -/
def meetE : TRE ℚ := .concat (.conj (.disj (.atom 97) (.atom 98)) (.disj (.atom 97) (.atom 98))) (.atom 36)

/-- **C78 is false** also for patterns without repetition, here for `((a|b)&(a|b))$`. -/
theorem pattern_defined_wrong_conj : ¬ ∀ (s : List Char) (e : TRE ℚ) (alloc : Nat → Nat) (A : TA Nat) (w : TWord ℚ) (fuel steps : Nat),
    parsePattern s = .ok e → '*' ∉ s → '>' ∉ s → Function.Injective alloc → e.eventTA alloc = .ok A → LettersOk w →
    monaaDollar id fuel steps (vectorCont ℚ) A w ≠ .error .ub := by
  intro h
  have hp : parsePattern "((a|b)&(a|b))$".toList = .ok meetE := rfl
  have key : (meetE.eventTA bend).toOption.any (fun A => !(A.states.all fun s => partitioned id A.init s)) = true := by decide +kernel
  rcases hA : meetE.eventTA bend with x | A
  · rw [hA] at key
    simp [Except.toOption] at key
  · rw [hA] at key
    simp only [Except.toOption, Option.any_some, Bool.not_eq_true'] at key
    refine h _ _ bend A [] 0 0 hp (by decide) (by decide) bend_inj hA (by simp [LettersOk]) ?_
    unfold monaaDollar prepare
    rw [key]
    rfl

end Verif.Props
