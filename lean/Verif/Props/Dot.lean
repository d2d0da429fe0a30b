import Verif.Lemmas.Dot
import Verif.Props.TRE

/-!
# C40, C41, C63, C64, C65: printing and loading automata
-/

set_option linter.unusedSectionVars false

namespace Verif.Props

open Verif

variable {K : Type} [Field K] [LinearOrder K] [IsStrictOrderedRing K]

/-! ## C40 -/

/-- **C40 is false** for the printer of `ResetVars`: the clock is printed as a character, so `{1}` is not readable any more, and
the clock 50 (the character `2`) is read back as clock 2. -/
theorem resetVars_roundtrip_wrong :
    ¬ ∀ xs : List Nat, xs ≠ [] → ResetsFit xs → readResets (showResetVars xs) = .ok xs := by
  intro h
  have h1 := h [50] (by simp) (by intro x hx; simp at hx; omega)
  have h2 : readResets (showResetVars [50]) = .ok [2] := by rfl
  rw [h2] at h1
  simp at h1

/-- **C40, what holds** (`_partial`: resets as printed by the printer of automata).  Reading a printed guard gives the guard, and
reading printed resets gives the resets. -/
theorem print_read_partial (g : List Constraint) (hg : g ≠ []) (hf : GuardFits g) (xs : List Nat) (hx : xs ≠ []) (hr : ResetsFit xs) :
    readGuard (showGuard g) = .ok g ∧ readResets (showResets xs) = .ok xs :=
  ⟨readGuard_show hg hf, readResets_show hx hr⟩

/-- A guard with negative constants and several clocks. -/
example : ([⟨0, .le, 10⟩, ⟨12, .gt, -3⟩] : List Constraint) ≠ [] ∧ GuardFits [⟨0, .le, 10⟩, ⟨12, .gt, -3⟩] ∧
    ([1, 200] : List Nat) ≠ [] ∧ ResetsFit [1, 200] ∧
    showGuard [⟨0, .le, 10⟩, ⟨12, .gt, -3⟩] = "{x0 <= 10, x12 > -3}".toList ∧ showResets [1, 200] = "{1, 200}".toList := by
  refine ⟨by simp, ?_, by simp, ?_, by rfl, by rfl⟩
  · intro c hc
    simp only [List.mem_cons, List.not_mem_nil, or_false] at hc
    rcases hc with rfl | rfl <;> (unfold FitsInt; decide)
  · intro x hx
    simp only [List.mem_cons, List.not_mem_nil, or_false] at hx
    omega

/-! ## C41 -/

/-- One vertex with a loop which resets clock 0 and has no guard. -/
def resetGraph : DotGraph := ⟨[(true, true)], [⟨0, 0, 97, [0], []⟩]⟩

theorem resetGraph_ok : resetGraph.Ok := by
  intro e he
  simp only [resetGraph, List.mem_singleton] at he
  subst he
  exact ⟨by decide, by decide⟩

/-- **C41 is false**: clocks which are only reset are not declared; and `isMember` of the loaded automaton writes out of bounds. -/
theorem loaded_clocks_wrong :
    ¬ ∀ (alloc : Nat → Nat) (G : DotGraph), Function.Injective alloc → G.Ok →
      (convBoostTA alloc G).ClocksDeclared ∧ (convBoostTA alloc G).isMember [((97 : Alphabet), (1 : ℚ))] ≠ .error .ub := by
  intro h
  refine (h up resetGraph up_inj resetGraph_ok).2 ?_
  have key : (match (convBoostTA up resetGraph).isMember [((97 : Alphabet), (1 : ℚ))] with
      | .error .ub => true
      | _ => false) = true := by decide +kernel
  revert key
  cases (convBoostTA up resetGraph).isMember [((97 : Alphabet), (1 : ℚ))] with
  | ok b => simp
  | error e => cases e <;> simp

/-- **C41, what holds** (`_partial`: for resets only if the clock is at most one which occurs in a guard).  In a loaded automaton
every clock of a guard is declared, nothing else is declared than clocks up to one of a guard, the maximal constant of a clock is at
least all constants compared with it, and it is one of them or 0. -/
theorem loaded_clocks_partial (alloc : Nat → Nat) (G : DotGraph) (hG : G.Ok) :
    (∀ s a, ∀ t ∈ (convBoostTA alloc G).edges s a, ∀ g ∈ t.guard,
      g.x < (convBoostTA alloc G).clockSize ∧ g.c ≤ (convBoostTA alloc G).maxC.getD g.x 0) ∧
    (∀ x < (convBoostTA alloc G).clockSize, (∃ e ∈ G.edges, ∃ g ∈ e.guard, x ≤ g.x) ∧
      ((convBoostTA alloc G).maxC.getD x 0 = 0 ∨
        ∃ e ∈ G.edges, ∃ g ∈ e.guard, g.x = x ∧ g.c = (convBoostTA alloc G).maxC.getD x 0)) ∧
    ((∀ e ∈ G.edges, ∀ x ∈ e.resets, ∃ e' ∈ G.edges, ∃ g ∈ e'.guard, x ≤ g.x) → (convBoostTA alloc G).ClocksDeclared) := by
  have hmem : ∀ {g}, g ∈ G.sorted.flatMap (·.guard) ↔ ∃ e ∈ G.edges, g ∈ e.guard := by
    intro g
    simp only [List.mem_flatMap, DotGraph.mem_sorted hG]
  have hlt : ∀ e ∈ G.edges, ∀ g ∈ e.guard, g.x < (convBoostTA alloc G).clockSize := by
    intro e he g hg
    rw [TA.clockSize, conv_maxC]
    exact (foldl_addConst_length _ []).2 g (hmem.2 ⟨e, he, hg⟩)
  refine ⟨?_, ?_, ?_⟩
  · intro s a t ht g hg
    obtain ⟨e, he, -, -, rfl⟩ := (conv_edges hG s a t).1 ht
    refine ⟨hlt e he g hg, ?_⟩
    rw [conv_maxC]
    exact (foldl_addConst_ge _ [] g.x).2 g (hmem.2 ⟨e, he, hg⟩) rfl
  · intro x hx
    constructor
    · by_contra hno
      have : (convBoostTA alloc G).clockSize ≤ x := by
        rw [TA.clockSize, conv_maxC]
        refine foldl_addConst_min _ [] (Nat.zero_le _) fun g hg => ?_
        obtain ⟨e, he, hg⟩ := hmem.1 hg
        by_contra hgx
        exact hno ⟨e, he, g, hg, by omega⟩
      omega
    · rw [conv_maxC]
      rcases foldl_addConst_attained (G.sorted.flatMap (·.guard)) [] x with h | ⟨g, hg, h1, h2⟩
      · exact .inl (by rw [h]; rfl)
      · obtain ⟨e, he, hg⟩ := hmem.1 hg
        exact .inr ⟨e, he, g, hg, h1, h2⟩
  · intro hr s a t ht
    obtain ⟨e, he, -, -, rfl⟩ := (conv_edges hG s a t).1 ht
    refine ⟨hlt e he, fun x hx => ?_⟩
    obtain ⟨e', he', g, hg, hxg⟩ := hr e he x hx
    exact lt_of_le_of_lt hxg (hlt e' he' g hg)

/-- Two vertices; clock 1 is reset by a loop and read by the edge to the accepting vertex. -/
def smallGraph : DotGraph := ⟨[(true, false), (false, true)], [⟨0, 0, 97, [1], [⟨0, .lt, 5⟩]⟩, ⟨0, 1, 98, [], [⟨1, .ge, 2⟩]⟩]⟩

theorem smallGraph_ok : smallGraph.Ok := by
  intro e he
  simp only [smallGraph, List.mem_cons, List.not_mem_nil, or_false] at he
  rcases he with rfl | rfl <;> decide

example : smallGraph.Ok ∧ (∀ e ∈ smallGraph.edges, ∀ x ∈ e.resets, ∃ e' ∈ smallGraph.edges, ∃ g ∈ e'.guard, x ≤ g.x) ∧
    (convBoostTA up smallGraph).maxC = [5, 2] := by
  refine ⟨smallGraph_ok, ?_, by decide +kernel⟩
  decide

/-! ## C63 -/

/-- **C63.**  Wherever its states are allocated, the automaton loaded from a graph accepts exactly the words which the graph
accepts; it is closed, the states are different, every transition has a target, and there are no other states. -/
theorem loaded_lang (alloc : Nat → Nat) (hinj : Function.Injective alloc) (G : DotGraph) (hG : G.Ok) :
    (∀ (t0 : K) (w : TWord K), (convBoostTA alloc G).AcceptsFrom t0 w ↔ G.AcceptsFrom t0 w) ∧
    (convBoostTA alloc G).states.Nodup ∧ (convBoostTA alloc G).states.length = G.vertices.length ∧
    (convBoostTA alloc G).Closed ∧ (convBoostTA alloc G).MapOk ∧ (convBoostTA alloc G).Tidy ∧
    (∀ s a, ∀ t ∈ (convBoostTA alloc G).edges s a, ∃ q ∈ (convBoostTA alloc G).states, t.target = some q) ∧
    ((∀ e ∈ G.edges, e.label ≠ epsilon) → (convBoostTA alloc G).NoSilent) := by
  refine ⟨conv_accepts hinj hG, ?_, ?_, conv_closed hG, conv_mapOk, conv_tidy hG, ?_, ?_⟩
  · rw [conv_states]
    exact List.nodup_range.map hinj
  · rw [conv_states]; simp
  · intro s a t ht
    obtain ⟨e, he, -, -, rfl⟩ := (conv_edges hG s a t).1 ht
    rw [conv_states]
    exact ⟨_, List.mem_map.2 ⟨_, List.mem_range.2 (hG e he).2, rfl⟩, rfl⟩
  · intro he s _
    cases hf : ((convBoostTA alloc G).st s).next.find epsilon with
    | none => rfl
    | some l =>
      exfalso
      have h1 : (convBoostTA alloc G).edges s epsilon = l := by rw [TA.edges, Next.at', hf]; rfl
      rw [Next.find, Option.map_eq_some_iff] at hf
      obtain ⟨p, hp, hp2⟩ := hf
      have hne := conv_ne (alloc := alloc) (G := G) s p (List.mem_of_find?_eq_some hp)
      rw [hp2, ← h1] at hne
      obtain ⟨t, ht⟩ := List.exists_mem_of_ne_nil _ hne
      obtain ⟨e, hm, -, hl, -⟩ := (conv_edges hG s epsilon t).1 ht
      exact he e hm hl

/-- The graph accepts `a` at 1 and `b` at 4. -/
example : Function.Injective down ∧ smallGraph.Ok ∧ (∀ e ∈ smallGraph.edges, e.label ≠ epsilon) ∧
    smallGraph.AcceptsFrom (0 : ℚ) [(97, 1), (98, 4)] ∧ ¬ smallGraph.AcceptsFrom (0 : ℚ) [(97, 1)] := by
  refine ⟨down_inj, smallGraph_ok, by decide, ?_, ?_⟩
  · refine ⟨0, false, rfl, 1, false, ⟨⟨0, 0, 97, [1], [⟨0, .lt, 5⟩]⟩, by simp [smallGraph], rfl, rfl, ?_,
      ⟨0, 1, 98, [], [⟨1, .ge, 2⟩]⟩, by simp [smallGraph], rfl, rfl, ?_, rfl⟩, rfl⟩
    · intro c hc
      simp only [List.mem_singleton] at hc
      subst hc
      simp only [Constraint.Holds]
      norm_num
      decide
    · intro c hc
      simp only [List.mem_singleton] at hc
      subst hc
      simp only [Constraint.Holds, resetAt]
      norm_num
      decide
  · rintro ⟨v, m, hv, v', i, ⟨e, he, hs, hl, -, hr⟩, hv'⟩
    simp only [smallGraph, List.mem_cons, List.not_mem_nil, or_false] at he
    rcases he with rfl | rfl
    · rw [← show (0 : Nat) = v' from hr] at hv'
      simp [smallGraph] at hv'
    · exact absurd hl (by decide)

/-! ## C64 -/

/-- **C64.**  An automaton which owns the targets of its transitions can be printed, the printed file can be loaded, and the loaded
automaton accepts the same words, wherever its states are allocated. -/
theorem print_load_lang (alloc : Nat → Nat) (hinj : Function.Injective alloc) (A : TA Nat) (hA : A.Printable) :
    ∃ l B, showTA A = .ok l ∧ loadTA alloc l = .ok B ∧ ∀ (t0 : K) (w : TWord K), B.AcceptsFrom t0 w ↔ A.AcceptsFrom t0 w := by
  refine ⟨_, convBoostTA alloc A.graph, showTA_ok hA, ?_, fun t0 w => ?_⟩
  · rw [loadTA, parse_show hA]; rfl
  · exact (conv_accepts hinj (graph_ok hA) t0 w).trans (graph_accepts hA t0 w)

/-- One accepting state with a loop which resets clock 0; no guard reads the clock. -/
def resetTA : TA Nat := ⟨[0], [0], fun _ => ⟨true, false, [(97, [⟨some 0, [0], []⟩])]⟩, [0]⟩

theorem resetTA_edges {s : Nat} {a : Alphabet} {t : Transition Nat} (ht : t ∈ resetTA.edges s a) : t = ⟨some 0, [0], []⟩ := by
  simp only [TA.edges, resetTA, Next.at'_cons, Next.at'_nil] at ht
  split at ht
  · simpa using ht
  · cases ht

theorem resetTA_printable : resetTA.Printable := by
  refine ⟨by simp [resetTA], by simp [resetTA], by simp [resetTA], ?_, ?_, ?_⟩
  · intro s _ a t ht
    exact ⟨0, by simp [resetTA], by rw [resetTA_edges ht]⟩
  · intro s _ a t ht c hc
    rw [resetTA_edges ht] at hc
    cases hc
  · intro s _ a t ht x hx
    rw [resetTA_edges ht] at hx
    simp only [List.mem_singleton] at hx
    omega

/-- **C64 is false** for running the loaded automaton: clocks which are reset but not read are declared in the printed automaton
and not in the loaded one, where `isMember` writes out of bounds. -/
theorem print_load_member_wrong :
    ¬ ∀ (alloc : Nat → Nat) (A : TA Nat) (l : List DotStmt) (B : TA Nat) (w : TWord ℚ), Function.Injective alloc → A.Printable →
      A.ClocksDeclared → showTA A = .ok l → loadTA alloc l = .ok B → B.isMember w = A.isMember w := by
  intro h
  have hd : resetTA.ClocksDeclared := by
    intro s a t ht
    rw [resetTA_edges ht]
    simp [resetTA, TA.clockSize]
  obtain ⟨l, B, hl, hB, -⟩ := print_load_lang (K := ℚ) up up_inj resetTA resetTA_printable
  have h1 := h up resetTA l B [(97, 1)] up_inj resetTA_printable hd hl hB
  have h2 : resetTA.isMember [((97 : Alphabet), (1 : ℚ))] = .ok true := by
    have : answers true (resetTA.isMember [((97 : Alphabet), (1 : ℚ))]) = true := by decide +kernel
    revert this
    cases resetTA.isMember [((97 : Alphabet), (1 : ℚ))] <;> simp [answers, eq_comm]
  have key : ((showTA resetTA).toOption.any fun l => (loadTA up l).toOption.any fun B =>
      (B.isMember [((97 : Alphabet), (1 : ℚ))]).toOption.isNone) = true := by decide +kernel
  rw [hl] at key
  simp only [Except.toOption, Option.any_some] at key
  rw [hB] at key
  simp only [Option.any_some] at key
  rw [h1, h2] at key
  simp at key

/-- **C64, what holds for running the loaded automaton** (`_partial`: every clock which is reset is at most one which is read).  Then
`isMember` gives the same answer for both automata. -/
theorem print_load_member_partial (alloc : Nat → Nat) (hinj : Function.Injective alloc) (A : TA Nat) (hA : A.Printable)
    (hd : A.ClocksDeclared) (hr : ∀ s ∈ A.states, ∀ a, ∀ t ∈ A.edges s a, ∀ x ∈ t.resets,
      ∃ s' ∈ A.states, ∃ a', ∃ t' ∈ A.edges s' a', ∃ g ∈ t'.guard, x ≤ g.x) :
    ∃ l B, showTA A = .ok l ∧ loadTA alloc l = .ok B ∧ B.ClocksDeclared ∧
      ∀ w : TWord K, ∃ b, B.isMember w = .ok b ∧ A.isMember w = .ok b := by
  have hB : (convBoostTA alloc A.graph).ClocksDeclared := by
    refine (loaded_clocks_partial alloc A.graph (graph_ok hA)).2.2 ?_
    intro e he x hx
    obtain ⟨s, hs, a, t, ht, q, hq, htq, rfl⟩ := (graph_edges hA).1 he
    obtain ⟨s', hs', a', t', ht', g, hg, hxg⟩ := hr s hs a t ht x hx
    obtain ⟨q', hq', htq'⟩ := hA.target s' hs' a' t' ht'
    exact ⟨_, (graph_edges hA).2 ⟨s', hs', a', t', ht', q', hq', htq', rfl⟩, g, hg, hxg⟩
  refine ⟨_, convBoostTA alloc A.graph, showTA_ok hA, ?_, hB, fun w => ?_⟩
  · rw [loadTA, parse_show hA]; rfl
  · obtain ⟨b, hb, hbw⟩ := isMember_iff (convBoostTA alloc A.graph) hB w
    obtain ⟨b', hb', hbw'⟩ := isMember_iff A hd w
    have : b = b' := by
      rw [Bool.eq_iff_iff, hbw, hbw']
      exact (conv_accepts hinj (graph_ok hA) 0 w).trans (graph_accepts hA 0 w)
    exact ⟨b, hb, this ▸ hb'⟩

theorem smallTA_printable : (convBoostTA down smallGraph).Printable := by
  obtain ⟨-, h2, -, h3, h4, -, h5, -⟩ := loaded_lang (K := ℚ) down down_inj smallGraph smallGraph_ok
  refine ⟨h2, h3.1, fun s _ => h4 s, fun s _ => h5 s, ?_, ?_⟩
  · intro s _ a t ht
    obtain ⟨e, he, -, -, rfl⟩ := (conv_edges smallGraph_ok s a t).1 ht
    simp only [smallGraph, List.mem_cons, List.not_mem_nil, or_false] at he
    intro c hc
    rcases he with rfl | rfl <;> (simp only [DotEdge.trans, List.mem_singleton] at hc; subst hc; unfold FitsInt; decide)
  · intro s _ a t ht
    obtain ⟨e, he, -, -, rfl⟩ := (conv_edges smallGraph_ok s a t).1 ht
    simp only [smallGraph, List.mem_cons, List.not_mem_nil, or_false] at he
    intro x hx
    rcases he with rfl | rfl <;> simp [DotEdge.trans] at hx
    omega

/-- The automaton loaded from the example can be printed; the clock which it resets is read. -/
example : (convBoostTA down smallGraph).Printable ∧ (convBoostTA down smallGraph).ClocksDeclared ∧
    ∀ s ∈ (convBoostTA down smallGraph).states, ∀ a, ∀ t ∈ (convBoostTA down smallGraph).edges s a, ∀ x ∈ t.resets,
      ∃ s' ∈ (convBoostTA down smallGraph).states, ∃ a', ∃ t' ∈ (convBoostTA down smallGraph).edges s' a', ∃ g ∈ t'.guard, x ≤ g.x := by
  refine ⟨smallTA_printable, (loaded_clocks_partial down smallGraph smallGraph_ok).2.2 (by decide), ?_⟩
  intro s _ a t ht x hx
  refine ⟨down 0, by decide, 98, ⟨some (down 1), [], [⟨1, .ge, 2⟩]⟩, by decide, ⟨1, .ge, 2⟩, by simp, ?_⟩
  obtain ⟨e, he, -, -, rfl⟩ := (conv_edges smallGraph_ok s a t).1 ht
  simp only [smallGraph, List.mem_cons, List.not_mem_nil, or_false] at he
  rcases he with rfl | rfl <;> simp [DotEdge.trans] at hx
  simp [hx]

/-! ## C65: `tre2ta` -/

variable [FloorRing K]

/-- **C65 is false**: printing the translation of `(a*)&a` throws an exception. -/
theorem tre2ta_wrong :
    ¬ ∀ (alloc : Nat → Nat) (e : TRE ℚ) (A : TA Nat), Function.Injective alloc → e.Plain → e.eventTA alloc = .ok A →
      ∃ l, showTA A = .ok l := by
  intro h
  have hp : (TRE.conj (.star litA) litA).Plain := ⟨⟨trivial, litA_plain⟩, litA_plain, by decide⟩
  obtain ⟨A, k, hA, -⟩ := eventTA_spec up_inj hp
  obtain ⟨l, hl⟩ := h up _ _ up_inj hp hA
  have key : ((TRE.conj (.star litA) litA).eventTA up).toOption.any (fun A => (showTA A).toOption.isNone) = true := by decide +kernel
  rw [hA] at key
  simp [Except.toOption, hl] at key

/-- The automaton of an expression can be printed. -/
theorem eventTA_printable (alloc : Nat → Nat) (hinj : Function.Injective alloc) (e : TRE K) (he : e.Plain) (hr : e.Regular)
    (hc : e.Consts FitsInt) : ∃ A, e.eventTA alloc = .ok A ∧ A.Printable := by
  obtain ⟨A, k, hA, hok⟩ := eventTA_spec hinj he
  obtain ⟨A', h', -, -, hcl, hcd, hmap, -, -, hsize, htgt⟩ := eventTA_final_partial alloc hinj e he
  rw [hA] at h'
  cases h'
  have hle : A.owned.clockSize ≤ 256 := hsize ▸ he.clocks
  refine ⟨A.owned, hA, hok.wf.nodup, hcl.1, fun s _ => hmap s, htgt hr, ?_, ?_⟩
  · intro s hs a t ht g hg
    have h1 := (hcd s a t ht).1 g hg
    refine ⟨by omega, ?_⟩
    rw [owned_edges (A := A) hs] at ht
    exact hok.consts FitsInt hc s hs a t ht g hg
  · intro s hs a t ht x hx
    have h1 := (hcd s a t ht).2 x hx
    omega

/-- **C65, what holds** (`_partial`: with the restrictions of `eventTA_lang_partial`, and the constants fit in an `int`).  The
output of `tre2ta` can be loaded, and the loaded automaton accepts the words of the expression. -/
theorem tre2ta_lang_partial (alloc alloc' : Nat → Nat) (hinj : Function.Injective alloc) (hinj' : Function.Injective alloc')
    (e : TRE K) (he : e.Plain) (hr : e.Regular) (hc : e.Consts FitsInt) :
    ∃ A l B, e.eventTA alloc = .ok A ∧ showTA A = .ok l ∧ loadTA alloc' l = .ok B ∧
      ∀ (t0 : K) (w : TWord K), B.AcceptsFrom t0 w ↔ e.Den t0 w := by
  obtain ⟨A, hA, hp⟩ := eventTA_printable alloc hinj e he hr hc
  obtain ⟨l, B, hl, hB, hlang⟩ := print_load_lang (K := K) alloc' hinj' A hp
  obtain ⟨A', h', hden, -⟩ := eventTA_lang_partial alloc hinj e he hr
  rw [hA] at h'
  cases h'
  exact ⟨A, l, B, hA, hl, hB, fun t0 w => (hlang t0 w).trans (hden t0 w)⟩

/-- The example. -/
example : burst.Plain ∧ burst.Regular ∧ burst.Consts FitsInt := by
  refine ⟨burst_plain, burst_regular, ⟨⟨trivial, trivial, trivial⟩, ?_⟩⟩
  rintro c s (h | h)
  · simp only [Interval.openI, Bnd.fin.injEq] at h
    have : c = 2 := by exact_mod_cast h.1.symm
    subst this
    unfold FitsInt
    decide
  · simp only [Interval.openI, Bnd.fin.injEq] at h
    have : c = 4 := by exact_mod_cast h.1.symm
    subst this
    unfold FitsInt
    decide

end Verif.Props
