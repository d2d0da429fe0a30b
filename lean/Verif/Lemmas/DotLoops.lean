import Verif.Lemmas.Dot
import Verif.Spec.Loops

set_option linter.unusedSectionVars false

/-! The automaton which is loaded from the file of an automaton has the same cycles and guards. -/

namespace Verif

/-- A map with one key. -/
theorem Next.eq_single {S : Type} {m : Next S} (hm : (m.map (·.1)).Nodup) (hne : ∀ p ∈ m, p.2 ≠ []) {c : Alphabet} {es : List (Transition S)}
    (hes : es ≠ []) (hc : m.at' c = es) (ho : ∀ a, a ≠ c → m.at' a = []) : m = [(c, es)] := by
  have key : ∀ p ∈ m, p = (c, es) := by
    rintro ⟨a, l⟩ hp
    have h1 := Next.at'_of_mem hm (c := a) (l := l) hp
    by_cases hac : a = c
    · subst hac
      rw [hc] at h1
      rw [h1]
    · rw [ho a hac] at h1
      exact absurd h1.symm (hne _ hp)
  match m, hm, hc, key with
  | [], _, hc, _ => exact absurd (hc ▸ rfl) hes
  | [p], _, _, key => rw [key p (by simp)]
  | p :: q :: m, hm, _, key =>
    have h1 := key p (by simp)
    have h2 := key q (by simp)
    rw [h1, h2] at hm
    simp at hm

section

variable {alloc : Nat → Nat} {A : TA Nat}

/-- A transition after loading. -/
def TA.moved (alloc : Nat → Nat) (A : TA Nat) (t : Transition Nat) : Transition Nat :=
  ⟨some (alloc (A.vertex (t.target.getD 0))), t.resets, t.guard⟩

open Classical in
/-- The state at an address. -/
noncomputable def TA.back (alloc : Nat → Nat) (A : TA Nat) (b : Nat) : Nat :=
  if h : ∃ s ∈ A.states, alloc (A.vertex s) = b then h.choose else 0

theorem back_vertex (hinj : Function.Injective alloc) (h : A.Printable) {s : Nat} (hs : s ∈ A.states) : A.back alloc (alloc (A.vertex s)) = s := by
  have hex : ∃ s' ∈ A.states, alloc (A.vertex s') = alloc (A.vertex s) := ⟨s, hs, rfl⟩
  rw [TA.back, dif_pos hex]
  exact TA.vertex_inj h hex.choose_spec.1 hs (hinj hex.choose_spec.2)

theorem loaded_mem (h : A.Printable) {b : Nat} (hb : b ∈ (convBoostTA alloc A.graph).states) : ∃ s ∈ A.states, b = alloc (A.vertex s) := by
  rw [conv_states, List.mem_map] at hb
  obtain ⟨v, hv, rfl⟩ := hb
  rw [List.mem_range, graph_length] at hv
  obtain ⟨s, hs, rfl⟩ := TA.vertex_surj h hv
  exact ⟨s, hs, rfl⟩

theorem loaded_edge (h : A.Printable) {b : Nat} {a : Alphabet} {t : Transition Nat} (ht : t ∈ (convBoostTA alloc A.graph).edges b a) :
    ∃ s ∈ A.states, b = alloc (A.vertex s) ∧ ∃ u ∈ A.edges s a, ∃ q ∈ A.states, u.target = some q ∧
      t = ⟨some (alloc (A.vertex q)), u.resets, u.guard⟩ := by
  obtain ⟨e, he, hb, hl, rfl⟩ := (conv_edges (graph_ok h) b a t).1 ht
  obtain ⟨s, hs, a', u, hu, q, hq, htq, rfl⟩ := (graph_edges h).1 he
  simp only at hl hb
  subst hl
  exact ⟨s, hs, hb.symm, u, hu, q, hq, htq, rfl⟩

/-- The transitions of a state, in the same order. -/
theorem loaded_edges (hinj : Function.Injective alloc) (h : A.Printable) {s : Nat} (hs : s ∈ A.states) (a : Alphabet) :
    (convBoostTA alloc A.graph).edges (alloc (A.vertex s)) a = (A.edges s a).map (A.moved alloc) := by
  rw [convBoostTA_eq, (foldl_convEdge A.graph.sorted _).2.2.2.2.1, TA.edges, convStates_next, Next.at'_nil, List.nil_append]
  have hv := TA.vertex_lt h hs
  -- the edges of the vertex
  have e1 : (A.graph.sorted.filter fun e => decide (alloc e.source = alloc (A.vertex s) ∧ e.label = a)) =
      A.graph.edges.filter fun e => decide (e.source = A.vertex s ∧ e.label = a) := by
    have : ∀ (vs : List Nat), vs.Nodup → ((vs.flatMap fun v => A.graph.edges.filter fun e => e.source == v).filter
        fun e => decide (alloc e.source = alloc (A.vertex s) ∧ e.label = a)) =
        if A.vertex s ∈ vs then A.graph.edges.filter fun e => decide (e.source = A.vertex s ∧ e.label = a) else [] := by
      intro vs hvs
      induction vs with
      | nil => simp
      | cons v vs ih =>
        rw [List.nodup_cons] at hvs
        rw [List.flatMap_cons, List.filter_append, ih hvs.2, List.filter_filter]
        by_cases hve : v = A.vertex s
        · subst hve
          rw [if_neg hvs.1, if_pos (by simp), List.append_nil]
          refine List.filter_congr fun e _ => ?_
          by_cases he : e.source = A.vertex s <;> simp [he, hinj.eq_iff]
        · have hnil : (A.graph.edges.filter fun e => decide (alloc e.source = alloc (A.vertex s) ∧ e.label = a) && (e.source == v)) = [] := by
            rw [List.filter_eq_nil_iff]
            intro e _ hc
            simp only [hinj.eq_iff, Bool.and_eq_true, decide_eq_true_eq, beq_iff_eq] at hc
            exact hve (hc.2.symm.trans hc.1.1)
          rw [hnil, List.nil_append]
          simp [Ne.symm hve]
    rw [DotGraph.sorted, this _ List.nodup_range, if_pos (by rw [List.mem_range, graph_length]; exact hv)]
  rw [e1]
  -- the transitions of the state
  have e2 : (A.graph.edges.filter fun e => decide (e.source = A.vertex s ∧ e.label = a)) = ((A.edges s a).map fun t => A.dotEdge A.names (s, a, t)) := by
    have inner : ∀ (m : Next Nat), (m.map (·.1)).Nodup → (((m.flatMap fun p => p.2.map fun e => (s, p.1, e)).map (A.dotEdge A.names)).filter
        fun e => decide (e.source = A.vertex s ∧ e.label = a)) = (m.at' a).map fun t => A.dotEdge A.names (s, a, t) := by
      intro m hm
      induction m with
      | nil => rfl
      | cons p m ih =>
        obtain ⟨c, l⟩ := p
        simp only [List.map_cons, List.nodup_cons] at hm
        rw [List.flatMap_cons, List.map_append, List.filter_append, ih hm.2, Next.at'_cons]
        by_cases hc : c = a
        · subst hc
          have hno : Next.at' m c = [] := by
            unfold Next.at' Next.find
            rw [List.find?_eq_none.2]
            · rfl
            · intro p hp hpc
              rw [beq_iff_eq] at hpc
              exact hm.1 (List.mem_map.2 ⟨p, hp, hpc⟩)
          rw [hno]
          simp only [List.map_nil, List.append_nil, if_true]
          rw [List.filter_eq_self.2]
          · simp
          · intro e he
            simp only [List.map_map, List.mem_map, Function.comp] at he
            obtain ⟨t, -, rfl⟩ := he
            simp [TA.dotEdge, TA.vertex]
        · rw [if_neg hc]
          have : ((l.map fun e => (s, c, e)).map (A.dotEdge A.names)).filter (fun e => decide (e.source = A.vertex s ∧ e.label = a)) = [] := by
            rw [List.filter_eq_nil_iff]
            intro e he hd
            simp only [List.map_map, List.mem_map, Function.comp] at he
            obtain ⟨t, -, rfl⟩ := he
            exact hc (of_decide_eq_true hd).2
          rw [this, List.nil_append]
    have outer : ∀ (ss : List Nat), ss.Nodup → (∀ u ∈ ss, u ∈ A.states) →
        (((ss.flatMap fun s => (A.st s).next.flatMap fun p => p.2.map fun e => (s, p.1, e)).map (A.dotEdge A.names)).filter
          fun e => decide (e.source = A.vertex s ∧ e.label = a)) =
        if s ∈ ss then (A.edges s a).map fun t => A.dotEdge A.names (s, a, t) else [] := by
      intro ss hss hsub
      induction ss with
      | nil => simp
      | cons u ss ih =>
        rw [List.nodup_cons] at hss
        rw [List.flatMap_cons, List.map_append, List.filter_append, ih hss.2 fun x hx => hsub x (List.mem_cons_of_mem _ hx)]
        by_cases hu : u = s
        · subst hu
          rw [if_neg hss.1, List.append_nil, if_pos (by simp), inner _ (h.keys u hs)]
          rfl
        · have hnil : (((A.st u).next.flatMap fun p => p.2.map fun e => (u, p.1, e)).map (A.dotEdge A.names)).filter
              (fun e => decide (e.source = A.vertex s ∧ e.label = a)) = [] := by
            rw [List.filter_eq_nil_iff]
            intro e he hd
            simp only [List.mem_map, List.mem_flatMap] at he
            obtain ⟨x, ⟨p, -, t, -, rfl⟩, rfl⟩ := he
            exact hu (TA.vertex_inj h (hsub u (by simp)) hs (of_decide_eq_true hd).1)
          rw [hnil, List.nil_append]
          simp [Ne.symm hu]
    have := outer A.states h.nodup (fun _ h => h)
    rw [if_pos hs] at this
    exact this
  rw [e2, List.map_map]
  rfl

theorem loaded_plainLoops (hinj : Function.Injective alloc) (h : A.Printable) (hL : A.PlainLoops) : (convBoostTA alloc A.graph).PlainLoops := by
  obtain ⟨rank, hL⟩ := hL
  refine ⟨fun b => rank (A.back alloc b), fun b a t ht q hq => ?_⟩
  obtain ⟨s, hs, rfl, u, hu, p, hp, htp, rfl⟩ := loaded_edge h ht
  simp only [Option.some.injEq] at hq
  subst hq
  simp only [back_vertex hinj h hs, back_vertex hinj h hp]
  rcases hL s a u hu p htp with h1 | ⟨rfl, h1, h2⟩
  · exact Or.inl h1
  · exact Or.inr ⟨rfl, h1, h2⟩

theorem loaded_shiftable (hinj : Function.Injective alloc) (h : A.Printable) (hU : A.Shiftable) : (convBoostTA alloc A.graph).Shiftable := by
  rcases hU with ⟨F, h1, h2⟩ | ⟨n, h1⟩
  · left
    refine ⟨fun b => F (A.back alloc b), ?_, ?_⟩
    · intro b hb
      have hbs := (conv_closed (alloc := alloc) (graph_ok h)).1 b hb
      obtain ⟨s, hs, rfl⟩ := loaded_mem h hbs
      obtain ⟨v, m, hv, hvb⟩ := conv_init.1 hb
      have := hinj hvb
      subst this
      rw [graph_vertex h hs] at hv
      simp only [Option.some.injEq, Prod.mk.injEq, decide_eq_true_eq] at hv
      simp only [back_vertex hinj h hs]
      exact h1 s hv.1
    · intro b a t ht
      obtain ⟨s, hs, rfl, u, hu, p, hp, htp, rfl⟩ := loaded_edge h ht
      obtain ⟨k1, k2⟩ := h2 s a u hu
      simp only [back_vertex hinj h hs]
      refine ⟨k1, fun q hq => ?_⟩
      simp only [Option.some.injEq] at hq
      subst hq
      rw [back_vertex hinj h hp]
      exact k2 p htp
  · right
    refine ⟨n, fun b a ha t ht => ?_⟩
    obtain ⟨s, hs, rfl, u, hu, p, hp, htp, rfl⟩ := loaded_edge h ht
    obtain ⟨k1, k2, k3⟩ := h1 s a ha u hu
    refine ⟨k1, k2, ?_⟩
    rcases k3 with k3 | k3 | k3
    · exact Or.inl k3
    · exact Or.inr (Or.inl k3)
    · refine Or.inr (Or.inr fun q hq b t' ht' => ?_)
      simp only [Option.some.injEq] at hq
      subst hq
      obtain ⟨s', hs', he, u', hu', -⟩ := loaded_edge h ht'
      have := TA.vertex_inj h hp hs' (hinj he)
      subst this
      exact k3 p htp b u' hu'

theorem loaded_orderedLoops (hinj : Function.Injective alloc) (h : A.Printable) (hL : A.OrderedLoops) :
    (convBoostTA alloc A.graph).OrderedLoops := by
  obtain ⟨level, dist, hL⟩ := hL
  have hnext0 : ∀ s ∈ A.states, (A.st s).next = [] → ((convBoostTA alloc A.graph).st (alloc (A.vertex s))).next = [] := by
    intro s hs h0
    refine Next.eq_nil (conv_mapOk _) (conv_ne _) fun a => ?_
    have := loaded_edges hinj h hs a
    rw [show A.edges s a = [] by simp [TA.edges, h0, Next.at'_nil], List.map_nil] at this
    exact this
  have hnext1 : ∀ s ∈ A.states, ∀ c es, es ≠ [] → (A.st s).next = [(c, es)] →
      ((convBoostTA alloc A.graph).st (alloc (A.vertex s))).next = [(c, es.map (A.moved alloc))] := by
    intro s hs c es hne hn
    refine Next.eq_single (conv_mapOk _) (conv_ne _) (by simpa using hne) ?_ ?_
    · have := loaded_edges hinj h hs c
      rw [show A.edges s c = es by simp [TA.edges, hn, Next.at'_cons]] at this
      exact this
    · intro a ha
      have := loaded_edges hinj h hs a
      rw [show A.edges s a = [] by simp [TA.edges, hn, Next.at'_cons, Next.at'_nil, Ne.symm ha], List.map_nil] at this
      exact this
  -- the targets of the transitions of a state
  have htgt : ∀ s ∈ A.states, ∀ c es, (A.st s).next = [(c, es)] → ∀ e ∈ es, ∃ q ∈ A.states, e.target = some q := by
    intro s hs c es hn e he
    exact h.target s hs c e (by rw [show A.edges s c = es by simp [TA.edges, hn, Next.at'_cons]]; exact he)
  have hleav : ∀ s ∈ A.states, ∀ c es, (A.st s).next = [(c, es)] → ∀ e ∈ es, ∀ k,
      (TA.Leaves (fun b => level (A.back alloc b)) k (A.moved alloc e) ↔ TA.Leaves level k e) := by
    intro s hs c es hn e he k
    obtain ⟨q, hq, htq⟩ := htgt s hs c es hn e he
    constructor
    · rintro ⟨b, hb, hk⟩
      simp only [TA.moved, htq, Option.getD_some, Option.some.injEq] at hb
      subst hb
      simp only [back_vertex hinj h hq] at hk
      exact ⟨q, htq, hk⟩
    · rintro ⟨b, hb, hk⟩
      rw [htq] at hb
      cases hb
      refine ⟨alloc (A.vertex q), ?_, ?_⟩
      · simp [TA.moved, htq]
      · simp only [back_vertex hinj h hq]
        exact hk
  refine ⟨fun b => level (A.back alloc b), fun b => dist (A.back alloc b), fun b hb => ?_⟩
  obtain ⟨s, hs, rfl⟩ := loaded_mem h hb
  simp only [back_vertex hinj h hs]
  rcases hL s hs with ⟨h0, h1⟩ | ⟨hm, hpos, c, es, hn, hl, hpw, hor, huni⟩
  · exact Or.inl ⟨hnext0 s hs h0, h1⟩
  · right
    have hne : es ≠ [] := by
      rcases hor with ⟨e, he, -⟩ | ⟨es', e, q, rfl, -⟩
      · exact List.ne_nil_of_mem he
      · simp
    refine ⟨?_, hpos, c, _, hnext1 s hs c es hne hn, ?_, ?_, ?_, ?_⟩
    · have hlt : A.vertex s < A.graph.vertices.length := by rw [graph_length]; exact TA.vertex_lt h hs
      rw [conv_match hinj hlt]
      have := graph_vertex h hs
      rw [List.getElem?_eq_getElem hlt, Option.some.injEq] at this
      rw [this]
      exact hm
    · intro t ht b hb
      rw [List.mem_map] at ht
      obtain ⟨e, he, rfl⟩ := ht
      obtain ⟨q, hq, htq⟩ := htgt s hs c es hn e he
      simp only [TA.moved, htq, Option.getD_some, Option.some.injEq] at hb
      subst hb
      rw [back_vertex hinj h hq]
      exact hl e he q htq
    · rw [List.pairwise_map]
      refine hpw.imp_of_mem fun he hf hef h1 => ?_
      exact (hleav s hs c es hn _ hf _).2 (hef ((hleav s hs c es hn _ he _).1 h1))
    · rcases hor with ⟨e, he, h1⟩ | ⟨es', e, q, rfl, h2, h3, h4⟩
      · exact Or.inl ⟨_, List.mem_map.2 ⟨e, he, rfl⟩, (hleav s hs c es hn e he _).2 h1⟩
      · obtain ⟨q', hq', htq⟩ := htgt s hs c _ hn e (by simp)
        rw [h2] at htq
        cases htq
        refine Or.inr ⟨es'.map (A.moved alloc), A.moved alloc e, alloc (A.vertex q), by simp, ?_, ?_, ?_⟩
        · simp [TA.moved, h2]
        · rw [back_vertex hinj h hq']
          exact h3
        · rw [back_vertex hinj h hq']
          exact h4
    · intro b hb c' fs hlev hfs
      obtain ⟨u, hu, rfl⟩ := loaded_mem h hb
      rw [back_vertex hinj h hu] at hlev
      -- the transitions of the other state
      have : ∃ gs, (A.st u).next = [(c', gs)] ∧ fs = gs.map (A.moved alloc) := by
        rcases hL u hu with ⟨h0, -⟩ | ⟨-, -, c1, es1, hn1, -, -, hor1, -⟩
        · rw [hnext0 u hu h0] at hfs
          cases hfs
        · have hne1 : es1 ≠ [] := by
            rcases hor1 with ⟨e, he, -⟩ | ⟨es', e, q, rfl, -⟩
            · exact List.ne_nil_of_mem he
            · simp
          rw [hnext1 u hu c1 es1 hne1 hn1] at hfs
          simp only [List.cons.injEq, Prod.mk.injEq, and_true] at hfs
          obtain ⟨rfl, rfl⟩ := hfs
          exact ⟨es1, hn1, rfl⟩
      obtain ⟨gs, hgs, rfl⟩ := this
      obtain ⟨k1, k2⟩ := huni u hu c' gs hlev hgs
      refine ⟨?_, k2⟩
      rintro ⟨f, hf, hlf⟩ t ht hlt
      rw [List.mem_map] at hf ht
      obtain ⟨f, hf, rfl⟩ := hf
      obtain ⟨e, he, rfl⟩ := ht
      exact List.mem_map.2 ⟨e, k1 ⟨f, hf, (hleav u hu c' gs hgs f hf _).1 hlf⟩ e he ((hleav s hs c es hn e he _).1 hlt), rfl⟩

theorem loaded_loopsOk (hinj : Function.Injective alloc) (h : A.Printable) (hL : A.LoopsOk) : (convBoostTA alloc A.graph).LoopsOk := by
  rcases hL with hL | hL
  · exact Or.inl (loaded_plainLoops hinj h hL)
  · exact Or.inr (loaded_orderedLoops hinj h hL)

end

end Verif
