import Verif.Examples.Zones
import Verif.Lemmas.Total
import Verif.Lemmas.ZAOneClock

/-!
# Properties of zone automata (C32-C35)

`ta2za fuel A ZA.none` is the call of `ta2za` on an empty zone automaton; `fuel` bounds the rounds of its breadth first
search, and `.error .fuel` is the outcome "not finished after `fuel` rounds".
-/

set_option linter.unusedSectionVars false

namespace Verif.Props

variable {S K : Type} [DecidableEq S] [Field K] [LinearOrder K] [IsStrictOrderedRing K]

/-! ## C32 -/

/-- **C32.** If `ta2za` returns `Z`, every run of the timed automaton with strictly increasing instants after its start `t` has
a path in `Z` from an initial state which follows it.  (Silent transitions are transitions with the label 0.) -/
theorem za_covers (A : TA S) (fuel : Nat) (Z : ZA S K) (h : ta2za fuel A ZA.none = .ok Z) (t : K) (u : TWord K)
    (ht : ∀ e ∈ u, t < e.2) (hu : u.Pairwise fun a b => a.2 < b.2) (s₀ s : S) (hs : s₀ ∈ A.init)
    (hr : A.Reads s₀ (fun _ => t) u s) : ∃ i ∈ Z.init, ∃ j, Z.Follows A i s₀ (fun _ => t) t u s j := by
  obtain ⟨hC, hinit, -⟩ := ta2za_spec (complete_nil A) h
  obtain ⟨i, n, hi, hsn, hv, hii⟩ := hinit s₀ hs
  refine ⟨i, hii rfl, ?_⟩
  have key : ∀ (u : TWord K) (s₀ : S) (r : Nat → K) (now : K) (i : Nat) (n : ZNode S K), (∀ e ∈ u, now < e.2) →
      (u.Pairwise fun a b => a.2 < b.2) → Z.nodes[i]? = some n → n.s = s₀ → n.zone.Sat (fun x => now - r x) →
      A.Reads s₀ r u s → ∃ j, Z.Follows A i s₀ r now u s j := by
    intro u
    induction u with
    | nil =>
      intro s₀ r now i n _ _ hi hs hv hr
      have e : s₀ = s := hr
      exact ⟨i, e ▸ .stop hi hs hv⟩
    | cons p u ih =>
      intro s₀ r now i n hnow hu hi hs hv hr
      obtain ⟨a, t⟩ := p
      obtain ⟨e, he, q, hq, hg, hr⟩ := hr
      have ht : now < t := hnow (a, t) (by simp)
      have hfun : (fun x => now - r x + (t - now)) = fun x => t - r x := by
        funext x
        ring
      obtain ⟨k, nk, hk, hnk, hsk, hvk⟩ := complete_step hC hi hv (d := t - now) (by linarith) (hs.symm ▸ he) hq
        (by rw [hfun]; exact hg)
      rw [List.pairwise_cons] at hu
      have hvk' : nk.zone.Sat (fun x => t - resetAt r e.resets t x) := by
        convert hvk using 1
        funext x
        unfold resetAt
        split_ifs <;> ring
      obtain ⟨j, hj⟩ := ih q _ t k nk (fun e he => hu.1 e he) hu.2 hnk hsk hvk' hr
      exact ⟨j, .step e hi hs hv he hq hg ⟨n, hi, hk⟩ hj⟩
  exact key u s₀ _ t i n ht hu hi hsn (by simpa using hv) hr

/-- **C32.** Nothing is invented: initial states are initial, every zone has a solution, and every edge comes from a
transition of the automaton with the same label. -/
theorem za_from_automaton (A : TA S) (hM : A.MapOk) (fuel : Nat) (Z : ZA S K) (h : ta2za fuel A ZA.none = .ok Z) :
    (∀ (i : Nat) (n : ZNode S K), Z.nodes[i]? = some n → n.zone.n = A.clockSize + 1 ∧ n.zone.Nonempty ∧ n.isMatch = (A.st n.s).isMatch) ∧
      ∀ i c j, Z.Edge i c j → ∃ ni nj : ZNode S K, Z.nodes[i]? = some ni ∧ Z.nodes[j]? = some nj ∧
        ∃ e ∈ A.edges ni.s c, e.target = some nj.s := by
  obtain ⟨hC, -, hm⟩ := ta2za_spec (complete_nil A) h
  constructor
  · intro i n hn
    have hok := hC.ok n (List.mem_of_getElem? hn)
    exact ⟨hok.size, hok.nonempty, hm rfl n (List.mem_of_getElem? hn)⟩
  · rintro i c j ⟨n, hn, hp⟩
    obtain ⟨-, nj, hnj, e, he, hq⟩ := (hC.ok n (List.mem_of_getElem? hn)).edges _ hp
    exact ⟨n, nj, hn, hnj, e, (mem_outEdges_iff hM).1 he, hq⟩

/-- **C32.** If the zone automaton is empty, the automaton accepts no word with strictly increasing positive instants. -/
theorem za_empty (A : TA S) (fuel : Nat) (Z : ZA S K) (h : ta2za fuel A ZA.none = .ok Z) (he : Z.empty = true)
    (u : TWord K) (hpos : ∀ e ∈ u, 0 < e.2) (hu : u.Pairwise fun a b => a.2 < b.2) : ¬ A.Accepts u := by
  rintro ⟨s₀, hs₀, s, hr, hm⟩
  obtain ⟨hC, hinit, hmatch⟩ := ta2za_spec (complete_nil A) h
  obtain ⟨i, n, hi, hsn, hv, hii⟩ := hinit s₀ hs₀
  obtain ⟨j, nj, hp, hnj, hsj⟩ := complete_reads hC hpos hu hi hsn (r := fun _ => 0) (by simpa using hv) hr
  refine (ZA.empty_iff (complete_wellFormed h)).1 he i (hii rfl) ⟨_, j, nj, hp, hnj, ?_⟩
  rw [hmatch rfl nj (List.mem_of_getElem? hnj), hsj]
  exact hm

/-- `0 -a{x0≥2}→ 1`: the only accepting runs wait two seconds. -/
def waitPattern : TA Nat :=
  { states := [0, 1], init := [0]
    st := fun s => if s = 0 then ⟨false, false, [(97, [⟨some 1, [], [⟨0, .ge, 2⟩]⟩])]⟩
      else if s = 1 then ⟨true, false, []⟩ else ⟨false, false, []⟩
    maxC := [2] }

theorem wait_mapOk : waitPattern.MapOk := by
  intro s
  simp only [waitPattern]
  split_ifs <;> simp

theorem wait_declared : waitPattern.ClocksDeclared := by
  intro s a e he
  simp only [TA.edges, waitPattern] at he
  split_ifs at he <;> simp only [Next.at'_cons, Next.at'_nil] at he <;> (try split_ifs at he) <;>
    simp at he <;> (try subst he) <;> simp [waitPattern, TA.clockSize]

theorem wait_labels : waitPattern.LabelsOk := by
  intro s a h
  by_contra hc
  apply h
  simp only [TA.edges, waitPattern]
  have h1 : ¬ (97 : Nat) = a := by intro e; apply hc; subst e; decide
  split_ifs <;> simp [Next.at'_cons, Next.at'_nil, h1]

theorem wait_acyclic : waitPattern.Acyclic := by
  refine ⟨fun s => 1 - s, ?_⟩
  intro s a e he q hq
  simp only [TA.edges, waitPattern] at he
  split_ifs at he <;> simp only [Next.at'_cons, Next.at'_nil] at he <;> (try split_ifs at he) <;>
    simp at he <;> (try subst he) <;> simp at hq <;> subst hq <;> (beta_reduce; omega)

/-! ## C33 -/

/-- The labels and clocks of the transitions are in range. -/
theorem edgesOk_of {A : TA S} (hM : A.MapOk) (hC : A.ClocksDeclared) (hL : A.LabelsOk) : EdgesOk A := by
  rintro s ⟨a, e⟩ hp
  have he := (mem_outEdges_iff hM).1 hp
  exact ⟨hL s a (List.ne_nil_of_mem he), hC s a e he⟩

/-- **C33.** The construction has no other failure than not ending. -/
theorem za_no_error (A : TA S) (hM : A.MapOk) (hC : A.ClocksDeclared) (hL : A.LabelsOk) (fuel : Nat) :
    (∃ Z : ZA S K, ta2za fuel A ZA.none = .ok Z) ∨ ta2za fuel A (ZA.none : ZA S K) = .error .fuel :=
  ta2za_ok_or_fuel (edgesOk_of hM hC hL) fuel ZA.none

/-- **C33 is false**: for a pattern with two clocks the construction never ends, because the abstraction drops large upper
bounds but no large lower bounds. -/
theorem za_terminates_wrong :
    ¬ ∀ A : TA Nat, A.Closed → A.MapOk → A.ClocksDeclared → A.LabelsOk →
      ∃ fuel, ∃ Z : ZA Nat ℚ, ta2za fuel A ZA.none = .ok Z := by
  intro h
  obtain ⟨fuel, Z, hZ⟩ := h slowPattern slow_closed slow_mapOk slow_declared slow_labels
  exact ta2za_diverges (s := 0) (a := 97) (c := 1) (by decide) (by decide) one_pos (by norm_num [maxBound, slowPattern])
    (by decide) fuel Z hZ

/-- **C33 is false** for the pattern above, whatever the number of rounds. -/
theorem za_slow_diverges (fuel : Nat) : ta2za fuel slowPattern (ZA.none : ZA Nat ℚ) = .error .fuel := by
  rcases za_no_error (K := ℚ) slowPattern slow_mapOk slow_declared slow_labels fuel with ⟨Z, h⟩ | h
  · exact absurd h (ta2za_diverges (s := 0) (a := 97) (c := 1) (by decide) (by decide) one_pos
      (by norm_num [maxBound, slowPattern]) (by decide) fuel Z)
  · exact h

theorem wait_closed : waitPattern.Closed := by
  refine ⟨by decide, ?_⟩
  intro s _ a e he q hq
  simp only [TA.edges, waitPattern] at he
  split_ifs at he <;> simp only [Next.at'_cons, Next.at'_nil] at he <;> (try split_ifs at he) <;>
    simp at he <;> (try subst he) <;> simp at hq <;> subst hq <;> decide

/-- **C33, what holds** (`_partial`: for automata with no guard and no reset on their cycles). -/
theorem za_terminates_partial (A : TA S) (hcl : A.Closed) (hM : A.MapOk) (hC : A.ClocksDeclared) (hL : A.LabelsOk) (hac : A.PlainCycles) :
    ∃ fuel, ∃ Z : ZA S K, ta2za fuel A ZA.none = .ok Z := by
  obtain ⟨B, hB⟩ := ta2za_plainCycles (K := K) hcl hM (edgesOk_of hM hC hL) hac
  exact ⟨B, hB B le_rfl ZA.none⟩

/-- **C33, what holds** (`_partial`: for automata with at most one clock, whatever their cycles). -/
theorem za_terminates_oneClock_partial (A : TA S) (hcl : A.Closed) (hM : A.MapOk) (hC : A.ClocksDeclared) (hL : A.LabelsOk)
    (h1 : A.clockSize ≤ 1) : ∃ fuel, ∃ Z : ZA S K, ta2za fuel A ZA.none = .ok Z := by
  obtain ⟨B, hB⟩ := ta2za_oneClock (K := K) hcl hM hC (edgesOk_of hM hC hL) h1
  exact ⟨B, hB B le_rfl ZA.none⟩

/-- As `slowPattern`, with one clock: `a` at most 1 after the last one, any number of times, then `$`. -/
def ringPattern : TA Nat :=
  { states := [0, 1], init := [0]
    st := fun s =>
      if s = 0 then ⟨false, false, [(97, [⟨some 0, [0], [⟨0, .le, 1⟩]⟩, ⟨some 0, [], [⟨0, .gt, 1⟩]⟩]), (36, [⟨some 1, [], [⟨0, .ge, 1⟩]⟩])]⟩
      else if s = 1 then ⟨true, false, []⟩
      else ⟨false, false, []⟩
    maxC := [1] }

/-- `za_terminates_oneClock_partial` applies to `ringPattern`, which has guards and resets on its cycles, and not
`za_terminates_partial`. -/
example : (∃ fuel, ∃ Z : ZA Nat ℚ, ta2za fuel ringPattern ZA.none = .ok Z) ∧ ¬ ringPattern.PlainCycles := by
  constructor
  · refine za_terminates_oneClock_partial _ ⟨by decide, ?_⟩ ?_ ?_ ?_ (by decide)
    · intro s _ a e he q hq
      simp only [TA.edges, ringPattern] at he
      split_ifs at he <;> simp only [Next.at'_cons, Next.at'_nil] at he <;> (try split_ifs at he) <;> simp at he <;>
        (try rcases he with he | he) <;> (try subst he) <;> simp at hq <;> subst hq <;> decide
    · intro s
      simp only [ringPattern]
      split_ifs <;> simp
    · intro s a e he
      simp only [TA.edges, ringPattern] at he
      split_ifs at he <;> simp only [Next.at'_cons, Next.at'_nil] at he <;> (try split_ifs at he) <;> simp at he <;>
        (try rcases he with he | he) <;> (try subst he) <;> simp [ringPattern, TA.clockSize]
    · intro s a h
      by_contra hc
      apply h
      simp only [TA.edges, ringPattern]
      have h1 : ¬ (97 : Nat) = a := by intro e; apply hc; subst e; decide
      have h2 : ¬ (36 : Nat) = a := by intro e; apply hc; subst e; decide
      split_ifs <;> simp [Next.at'_cons, Next.at'_nil, h1, h2]
  · rintro ⟨level, h⟩
    rcases h 0 (by decide) 97 ⟨some 0, [0], [⟨0, .le, 1⟩]⟩ (by decide) 0 rfl with h | ⟨-, h, -⟩
    · exact lt_irrefl _ h
    · cases h

/-- The hypotheses of the theorems of C32 and C33 are met by `waitPattern`, which accepts `(a, 3)`. -/
example : waitPattern.Closed ∧ waitPattern.MapOk ∧ waitPattern.ClocksDeclared ∧ waitPattern.LabelsOk ∧ waitPattern.Acyclic ∧
    (∃ fuel, ∃ Z : ZA Nat ℚ, ta2za fuel waitPattern ZA.none = .ok Z) ∧
    waitPattern.Reads 0 (fun _ => (0 : ℚ)) [(97, 3)] 1 := by
  refine ⟨wait_closed, wait_mapOk, wait_declared, wait_labels, wait_acyclic,
    za_terminates_partial _ wait_closed wait_mapOk wait_declared wait_labels wait_acyclic.plainLoops.plainCycles, ?_⟩
  exact ⟨⟨some 1, [], [⟨0, .ge, 2⟩]⟩, by decide, 1, rfl, by norm_num [GuardHolds, Constraint.Holds] <;> decide, rfl⟩

/-- `za_empty` applies to some automaton: no accepting state. -/
example : ∃ fuel, ∃ Z : ZA Nat ℚ, ta2za fuel { waitPattern with init := [2] } ZA.none = .ok Z ∧ Z.empty = true := by
  refine ⟨3, ?_⟩
  refine ⟨_, rfl, ?_⟩
  decide +kernel

/-! ## C34 -/

/-- **C34.** `empty` is false exactly if an accepting state is reachable. -/
theorem za_empty_iff (Z : ZA S K) (hw : Z.WellFormed) :
    Z.empty = false ↔ ∃ i n, Z.Reachable i ∧ Z.nodes[i]? = some n ∧ n.isMatch = true := by
  rw [← Bool.not_eq_true, ZA.empty_iff hw]
  push_neg
  constructor
  · rintro ⟨i, hi, l, j, n, hp, hn, hm⟩
    exact ⟨j, n, ⟨i, hi, l, hp⟩, hn, hm⟩
  · rintro ⟨j, n, ⟨i, hi, l, hp⟩, hn, hm⟩
    exact ⟨i, hi, l, j, n, hp, hn, hm⟩

/-- Zone automata built by `ta2za` are well formed. -/
theorem za_wellFormed (A : TA S) (fuel : Nat) (Z : ZA S K) (h : ta2za fuel A ZA.none = .ok Z) : Z.WellFormed :=
  complete_wellFormed h

/-- A graph with a cycle in which an accepting state is reachable. -/
example : loopGraph.WellFormed ∧ loopGraph.empty = false ∧ ({ loopGraph with init := [3] } : ZA Nat ℚ).empty = false ∧
    ({ loopGraph with init := [] } : ZA Nat ℚ).empty = true :=
  ⟨loopGraph_wf, by decide +kernel, by decide +kernel, by decide +kernel⟩

/-! ## C35 -/

/-- **C35 is false**: a state from which an accepting state is reachable is removed. -/
theorem za_dead_wrong :
    ¬ ∀ (Z : ZA Nat ℚ) (fuel : Nat) (alive : List Nat), Z.WellFormed → Z.liveStates fuel = .ok alive →
      ∀ i, i ∈ alive ↔ Z.Reachable i ∧ Z.Live i := by
  intro h
  have h2 := (h loopGraph 20 _ loopGraph_wf loopGraph_run 2).2 ⟨⟨0, by decide, [65, 67],
      .cons (j := 1) ⟨_, rfl, by simp⟩ (.cons (j := 2) ⟨_, rfl, by simp⟩ (.nil _))⟩,
    ⟨[68, 66], 3, _, .cons (j := 1) ⟨_, rfl, by simp⟩ (.cons (j := 3) ⟨_, rfl, by simp⟩ (.nil _)), rfl, rfl⟩⟩
  simp at h2

/-- **C35.** The search always ends. -/
theorem za_dead_terminates (Z : ZA S K) (hw : Z.WellFormed) : ∃ fuel alive, Z.liveStates fuel = .ok alive :=
  ZA.liveStates_terminates hw

/-- **C35.** A state which is kept is reachable, and an accepting state can be reached from it. -/
theorem za_dead_sound (Z : ZA S K) (fuel : Nat) (alive : List Nat) (h : Z.liveStates fuel = .ok alive) :
    ∀ i ∈ alive, Z.Reachable i ∧ Z.Live i :=
  fun i hi => ⟨ZA.liveStates_reachable h i hi, ZA.liveStates_sound h i hi⟩

/-- **C35, what holds** (`_partial`: for graphs without cycles other than self loops): exactly the reachable states from
which an accepting state can be reached are kept. -/
theorem za_dead_partial (Z : ZA S K) (hw : Z.WellFormed) (rank : Nat → Nat)
    (hrank : ∀ i c j, Z.Edge i c j → j = i ∨ rank j < rank i) (fuel : Nat) (alive : List Nat)
    (h : Z.liveStates fuel = .ok alive) (i : Nat) : i ∈ alive ↔ Z.Reachable i ∧ Z.Live i :=
  ⟨za_dead_sound Z fuel alive h i, fun ⟨h1, h2⟩ => ZA.liveStates_complete hw hrank h h1 h2⟩

/-- `0 → 0`, `0 → 1`, `0 → 2`, where 1 is accepting and 2 is dead. -/
def starGraph : ZA Nat ℚ :=
  { nodes := [⟨0, Zone.zero 1 (.fin 0 true), false, [(65, 0), (66, 2), (65, 1)]⟩, ⟨1, Zone.zero 1 (.fin 0 true), true, []⟩,
      ⟨2, Zone.zero 1 (.fin 0 true), false, []⟩]
    init := [0] }

/-- The hypotheses are met by a graph with a self loop and a dead state, which is removed. -/
example : starGraph.WellFormed ∧ (∀ i c j, starGraph.Edge i c j → j = i ∨ (2 - (if j = 0 then 0 else 1)) < 2 - (if i = 0 then 0 else 1)) ∧
    starGraph.liveStates 20 = .ok [1, 0] := by
  have edge : ∀ i c j, starGraph.Edge i c j → i = 0 ∧ (j = 0 ∨ j = 1 ∨ j = 2) ∧ c < 127 := by
    rintro i c j ⟨n, hn, hp⟩
    rcases i with _ | _ | _ | i
    · simp [starGraph] at hn
      subst hn
      simp at hp
      rcases hp with ⟨rfl, rfl⟩ | ⟨rfl, rfl⟩ | ⟨rfl, rfl⟩ <;> decide
    · simp [starGraph] at hn
      subst hn
      simp at hp
    · simp [starGraph] at hn
      subst hn
      simp at hp
    · simp [starGraph] at hn
  refine ⟨⟨by decide, ?_⟩, ?_, by decide +kernel⟩
  · intro i n hn p hp
    obtain ⟨-, h, hc⟩ := edge i p.1 p.2 ⟨n, hn, hp⟩
    refine ⟨hc, ?_⟩
    have : starGraph.nodes.length = 3 := rfl
    omega
  · intro i c j h
    obtain ⟨rfl, rfl | rfl | rfl, -⟩ := edge i c j h <;> simp

end Verif.Props
