import Verif.Spec.TRE
import Verif.Lemmas.Intersection
import Mathlib.Tactic.SplitIfs
import Mathlib.Data.List.Sort
import Mathlib.Data.List.Nodup

/-! Merging and removing states keeps the language. -/

set_option linter.unusedSectionVars false

namespace Verif

variable {S K : Type} [Field K] [LinearOrder K] [IsStrictOrderedRing K]

namespace Next

theorem at'_map {T : Type} (f : List (Transition S) → List (Transition T)) (hf : f [] = []) (m : Next S) (c : Alphabet) :
    at' (m.map fun p => (p.1, f p.2)) c = f (at' m c) := by
  induction m with
  | nil => simp [at'_nil, hf]
  | cons p m ih =>
    obtain ⟨d, l⟩ := p
    rw [List.map_cons, at'_cons, at'_cons, ih]
    split <;> rfl

theorem at'_not_mem {m : Next S} {c : Alphabet} (h : c ∉ m.map (·.1)) : at' m c = [] := by
  induction m with
  | nil => rfl
  | cons p m ih =>
    obtain ⟨d, l⟩ := p
    simp only [List.map_cons, List.mem_cons, not_or] at h
    rw [at'_cons, if_neg (Ne.symm h.1), ih h.2]

theorem at'_filter {m : Next S} (hm : (m.map (·.1)).Nodup) (c : Alphabet) :
    at' (m.filter fun p => !p.2.isEmpty) c = at' m c := by
  induction m with
  | nil => rfl
  | cons p m ih =>
    obtain ⟨d, l⟩ := p
    rw [List.map_cons, List.nodup_cons] at hm
    rw [List.filter_cons]
    by_cases hl : l = []
    · subst hl
      simp only [List.isEmpty_nil, Bool.not_true, Bool.false_eq_true, if_false]
      rw [ih hm.2, at'_cons]
      split
      · rename_i h
        subst h
        exact at'_not_mem hm.1
      · rfl
    · have : (!l.isEmpty) = true := by simpa using hl
      simp only [this, if_true]
      rw [at'_cons, at'_cons, ih hm.2]

theorem at'_of_mem {m : Next S} (hm : (m.map (·.1)).Nodup) {c : Alphabet} {l : List (Transition S)} (h : (c, l) ∈ m) :
    at' m c = l := by
  induction m with
  | nil => simp at h
  | cons p m ih =>
    obtain ⟨d, l'⟩ := p
    rw [List.map_cons, List.nodup_cons] at hm
    rw [at'_cons]
    rcases List.mem_cons.1 h with h | h
    · simp only [Prod.mk.injEq] at h
      rw [if_pos h.1.symm, h.2]
    · have : d ≠ c := fun hd => hm.1 (List.mem_map.2 ⟨_, h, hd.symm⟩)
      rw [if_neg this, ih hm.2 h]

theorem eq_nil {m : Next S} (hm : (m.map (·.1)).Nodup) (hne : ∀ p ∈ m, p.2 ≠ []) (h : ∀ a, at' m a = []) : m = [] := by
  rw [List.eq_nil_iff_forall_not_mem]
  rintro ⟨a, l⟩ hp
  have h2 := h a
  rw [at'_of_mem hm hp] at h2
  exact hne _ hp h2

theorem push_keys (m : Next S) (c : Alphabet) (e : Transition S) :
    (m.push c e).map (·.1) = if c ∈ m.map (·.1) then m.map (·.1) else m.map (·.1) ++ [c] := by
  induction m with
  | nil => simp [push]
  | cons p m ih =>
    obtain ⟨d, l⟩ := p
    by_cases hd : d = c
    · subst hd
      simp [push]
    · have hb : (d == c) = false := by simpa using hd
      simp only [push, hb, Bool.false_eq_true, if_false, List.map_cons, ih, List.mem_cons, Ne.symm hd, false_or]
      split <;> simp

theorem push_nodup {m : Next S} (hm : (m.map (·.1)).Nodup) (c : Alphabet) (e : Transition S) :
    ((m.push c e).map (·.1)).Nodup := by
  rw [push_keys]
  split
  · exact hm
  · rename_i h
    exact List.nodup_append.2 ⟨hm, by simp, fun a ha b hb => by
      simp only [List.mem_singleton] at hb
      rintro rfl
      exact h (hb ▸ ha)⟩

theorem push_ne {m : Next S} (hm : ∀ p ∈ m, p.2 ≠ []) (c : Alphabet) (e : Transition S) : ∀ p ∈ m.push c e, p.2 ≠ [] := by
  induction m with
  | nil => simp [push]
  | cons p m ih =>
    obtain ⟨d, l⟩ := p
    intro q hq
    simp only [push] at hq
    split at hq
    · rcases List.mem_cons.1 hq with rfl | hq
      · simp
      · exact hm q (List.mem_cons_of_mem _ hq)
    · rcases List.mem_cons.1 hq with rfl | hq
      · exact hm _ List.mem_cons_self
      · exact ih (fun p hp => hm p (List.mem_cons_of_mem _ hp)) q hq

theorem foldl_push (ps : List (Alphabet × Transition S)) (m : Next S) (h1 : (m.map (·.1)).Nodup) (h2 : ∀ p ∈ m, p.2 ≠ []) :
    ((ps.foldl (fun m q => m.push q.1 q.2) m).map (·.1)).Nodup ∧ ∀ p ∈ ps.foldl (fun m q => m.push q.1 q.2) m, p.2 ≠ [] := by
  induction ps generalizing m with
  | nil => exact ⟨h1, h2⟩
  | cons p ps ih => exact ih _ (push_nodup h1 _ _) (push_ne h2 _ _)

end Next

namespace TA

/-- The automaton can read `w` from the state `s` with last reset instants `r` and then accepts. -/
def Acc (A : TA S) : S → (Nat → K) → TWord K → Prop
  | s, _, [] => (A.st s).isMatch = true
  | s, r, (a, t) :: w => ∃ e ∈ A.edges s a, ∃ q, e.target = some q ∧
      GuardHolds e.guard (fun x => t - r x) ∧ Acc A q (resetAt r e.resets t) w

theorem acc_iff (A : TA S) (s : S) (r : Nat → K) (w : TWord K) :
    A.Acc s r w ↔ ∃ s', A.Reads s r w s' ∧ (A.st s').isMatch = true := by
  induction w generalizing s r with
  | nil => simp [Acc, Reads]
  | cons p w ih =>
    obtain ⟨a, t⟩ := p
    simp only [Acc, Reads, ih]
    constructor
    · rintro ⟨e, he, q, hq, hg, s', hr, hm⟩
      exact ⟨s', ⟨e, he, q, hq, hg, hr⟩, hm⟩
    · rintro ⟨s', ⟨e, he, q, hq, hg, hr⟩, hm⟩
      exact ⟨e, he, q, hq, hg, s', hr, hm⟩

theorem acceptsFrom_iff (A : TA S) (t0 : K) (w : TWord K) :
    A.AcceptsFrom t0 w ↔ ∃ s ∈ A.init, A.Acc s (fun _ => t0) w := by
  simp only [AcceptsFrom, acc_iff]

/-- Properties of all automata made by the translation. -/
structure Wf (A : TA Nat) : Prop where
  nodup : A.states.Nodup
  init : ∀ s ∈ A.init, s ∈ A.states
  keys : ∀ s ∈ A.states, ((A.st s).next.map (·.1)).Nodup
  ne : ∀ s ∈ A.states, ∀ p ∈ (A.st s).next, p.2 ≠ []
  closed : ∀ s ∈ A.states, ∀ a, ∀ e ∈ A.edges s a, ∀ q, e.target = some q → q ∈ A.states
  guards : ∀ s ∈ A.states, ∀ a, ∀ e ∈ A.edges s a, ∀ g ∈ e.guard, g.x < A.clockSize
  resets : ∀ s ∈ A.states, ∀ a, ∀ e ∈ A.edges s a, ∀ x ∈ e.resets, x < A.clockSize
  lab : ∀ s ∈ A.states, A.edges s epsilon = []
  term : ∀ s ∈ A.states, (A.st s).isMatch = true → (A.st s).next = []
  zterm : ∀ s ∈ A.states, (A.st s).zeroDuration = true → (A.st s).next = []

theorem edges_nil {A : TA S} {s : S} (h : (A.st s).next = []) (a : Alphabet) : A.edges s a = [] := by
  rw [edges, h, Next.at'_nil]

theorem Wf.next_nil {A : TA Nat} (h : A.Wf) {s : Nat} (hs : s ∈ A.states) (he : ∀ a, A.edges s a = []) : (A.st s).next = [] :=
  Next.eq_nil (h.keys s hs) (h.ne s hs) he

theorem Wf.mem_edges {A : TA Nat} (h : A.Wf) {s : Nat} (hs : s ∈ A.states) {p : Alphabet × List (Transition Nat)}
    (hp : p ∈ (A.st s).next) {e : Transition Nat} (he : e ∈ p.2) : e ∈ A.edges s p.1 := by
  rw [edges, Next.at'_of_mem (h.keys s hs) (c := p.1) (l := p.2) hp]
  exact he

/-- `Acc` only depends on the states in a closed set. -/
theorem acc_congr {A B : TA Nat} {X : List Nat} (hst : ∀ s ∈ X, A.st s = B.st s)
    (hcl : ∀ s ∈ X, ∀ a, ∀ e ∈ A.edges s a, ∀ q, e.target = some q → q ∈ X) {s : Nat} (hs : s ∈ X) (r : Nat → K) (w : TWord K) :
    A.Acc s r w ↔ B.Acc s r w := by
  induction w generalizing s r with
  | nil => simp only [Acc, hst s hs]
  | cons p w ih =>
    obtain ⟨a, t⟩ := p
    have he : A.edges s a = B.edges s a := by simp only [edges, hst s hs]
    simp only [Acc]
    constructor
    · rintro ⟨e, h, q, hq, hg, hr⟩
      exact ⟨e, he ▸ h, q, hq, hg, (ih (hcl s hs a e h q hq) _).1 hr⟩
    · rintro ⟨e, h, q, hq, hg, hr⟩
      rw [← he] at h
      exact ⟨e, h, q, hq, hg, (ih (hcl s hs a e h q hq) _).2 hr⟩

/-- `Acc` only depends on the declared clocks. -/
theorem acc_clocks {A : TA Nat} {n : Nat} {X : List Nat}
    (hcl : ∀ s ∈ X, ∀ a, ∀ e ∈ A.edges s a, ∀ q, e.target = some q → q ∈ X)
    (hg : ∀ s ∈ X, ∀ a, ∀ e ∈ A.edges s a, ∀ g ∈ e.guard, g.x < n)
    {s : Nat} (hs : s ∈ X) {r r' : Nat → K} (hr : ∀ x, x < n → r x = r' x) (w : TWord K) :
    A.Acc s r w ↔ A.Acc s r' w := by
  have key : ∀ (w : TWord K) (s : Nat), s ∈ X → ∀ r r' : Nat → K, (∀ x, x < n → r x = r' x) → A.Acc s r w → A.Acc s r' w := by
    intro w
    induction w with
    | nil => intro s _ r r' _ h; exact h
    | cons p w ih =>
      obtain ⟨a, t⟩ := p
      rintro s hs r r' hr ⟨e, h, q, hq, hgd, hacc⟩
      refine ⟨e, h, q, hq, fun c hc => ?_, ih q (hcl s hs a e h q hq) _ _ (fun x hx => ?_) hacc⟩
      · simp only [← hr c.x (hg s hs a e h c hc)]
        exact hgd c hc
      · simp only [resetAt, hr x hx]
  exact ⟨key w s hs r r' hr, key w s hs r' r fun x hx => (hr x hx).symm⟩

theorem acc_stuck {A : TA S} {s : S} (hm : (A.st s).isMatch = false) (hn : (A.st s).next = []) (r : Nat → K) (w : TWord K) :
    ¬ A.Acc s r w := by
  cases w with
  | nil => simp [Acc, hm]
  | cons p w =>
    obtain ⟨a, t⟩ := p
    simp [Acc, edges_nil hn]

/-! ### Merging -/

theorem mem_terminals {A : TA Nat} {s : Nat} :
    s ∈ A.terminals ↔ s ∈ A.states ∧ (A.st s).isMatch = true ∧ (A.st s).next = [] := by
  simp [terminals, List.mem_insertionSort, and_assoc]

theorem terminals_nodup {A : TA Nat} (h : A.states.Nodup) : A.terminals.Nodup := by
  rw [terminals, (List.perm_insertionSort _ _).nodup_iff]
  exact h.filter _

/-- The state by which `q` is replaced. -/
def rep (ts : List Nat) (q : Nat) : Nat := if q ∈ ts then ts.headD q else q

theorem redirect_target (ts : List Nat) (e : Transition Nat) : (redirect ts e).target = e.target.map (rep ts) := by
  rcases ht : e.target with _ | q
  · simp [redirect, ht]
  · simp only [redirect, ht, rep, Option.map_some]
    by_cases h : q ∈ ts
    · cases ts with
      | nil => simp at h
      | cons f l => simp [h]
    · simp [h, ht]

theorem redirect_guard (ts : List Nat) (e : Transition Nat) : (redirect ts e).guard = e.guard := by
  unfold redirect
  split <;> [rfl; split <;> rfl]

theorem redirect_resets (ts : List Nat) (e : Transition Nat) : (redirect ts e).resets = e.resets := by
  unfold redirect
  split <;> [rfl; split <;> rfl]

theorem rep_mem {ts : List Nat} {q : Nat} (h : q ∈ ts) : rep ts q ∈ ts := by
  rw [rep, if_pos h]
  cases ts with
  | nil => simp at h
  | cons f l => simp

theorem merge_st (A : TA Nat) (a : Nat) : A.mergeAccepting.st a =
    if a ∈ A.states then (A.st a).mapEdges (fun es => es.map (redirect A.terminals)) else A.st a := by
  simp only [mergeAccepting]
  split <;> rfl

theorem merge_maxC (A : TA Nat) : A.mergeAccepting.maxC = A.maxC := by
  simp only [mergeAccepting]
  split <;> rfl

theorem merge_states (A : TA Nat) : A.mergeAccepting.states = A.states.filter fun s => !decide (s ∈ A.terminals.tail) := by
  simp only [mergeAccepting]
  split
  · rename_i h
    simp only [h, List.tail_cons]
  · rename_i h
    have ht : A.terminals.tail = [] := by
      rcases hc : A.terminals with _ | ⟨f, _ | ⟨x, l⟩⟩
      · rfl
      · rfl
      · exact absurd hc (h f x l)
    rw [ht]
    simp [mapSt]

theorem merge_init {A : TA Nat} (hnd : A.states.Nodup) {s : Nat} :
    s ∈ A.mergeAccepting.init ↔ ∃ i ∈ A.init, s = rep A.terminals i := by
  have hts := terminals_nodup hnd
  simp only [mergeAccepting]
  split
  · rename_i f x l h
    rw [h] at hts ⊢
    have hf : f ∉ x :: l := (List.nodup_cons.1 hts).1
    simp only [List.mem_filter, Bool.not_eq_true', decide_eq_false_iff_not]
    split
    · rename_i hc
      simp only [List.mem_insertionSort, List.any_eq_true, decide_eq_true_eq] at hc
      obtain ⟨hfi, i0, hi0, hi0'⟩ := hc
      simp only [List.mem_append, List.mem_insertionSort, List.mem_singleton]
      constructor
      · rintro ⟨hs | rfl, hn⟩
        · refine ⟨s, hs, ?_⟩
          rw [rep, if_neg]
          rw [List.mem_cons]
          rintro (rfl | h)
          · exact hfi hs
          · exact hn h
        · exact ⟨i0, hi0, by rw [rep, if_pos (List.mem_cons_of_mem _ hi0')]; rfl⟩
      · rintro ⟨i, hi, rfl⟩
        by_cases hit : i ∈ f :: x :: l
        · rw [rep, if_pos hit]
          exact ⟨Or.inr rfl, hf⟩
        · rw [rep, if_neg hit]
          exact ⟨Or.inl hi, fun h => hit (List.mem_cons_of_mem _ h)⟩
    · rename_i hc
      simp only [List.mem_insertionSort, List.any_eq_true, decide_eq_true_eq, not_and, not_exists] at hc
      simp only [List.mem_insertionSort]
      constructor
      · rintro ⟨hs, hn⟩
        refine ⟨s, hs, ?_⟩
        by_cases hsf : s = f
        · subst hsf
          simp [rep]
        · rw [rep, if_neg]
          rw [List.mem_cons]
          rintro (h | h)
          · exact hsf h
          · exact hn h
      · rintro ⟨i, hi, rfl⟩
        by_cases hit : i ∈ f :: x :: l
        · rw [rep, if_pos hit]
          refine ⟨?_, hf⟩
          show f ∈ A.init
          by_contra hfi
          rcases List.mem_cons.1 hit with rfl | hit
          · exact hfi hi
          · exact hc hfi i hi hit
        · rw [rep, if_neg hit]
          exact ⟨hi, fun h => hit (List.mem_cons_of_mem _ h)⟩
  · rename_i h
    have hrep : ∀ q, rep A.terminals q = q := by
      intro q
      rcases hc : A.terminals with _ | ⟨f, _ | ⟨x, l⟩⟩
      · simp [rep]
      · simp only [rep, List.mem_singleton, List.headD_cons]
        split
        · rename_i h; exact h.symm
        · rfl
      · exact absurd hc (h f x l)
    simp [mapSt, hrep]

theorem merge_edges {A : TA Nat} {s : Nat} (hs : s ∈ A.states) (a : Alphabet) :
    A.mergeAccepting.edges s a = (A.edges s a).map (redirect A.terminals) := by
  rw [edges, merge_st, if_pos hs]
  simp only [TAState.mapEdges]
  exact Next.at'_map (fun es => es.map (redirect A.terminals)) rfl _ _

theorem merge_isMatch (A : TA Nat) (s : Nat) : (A.mergeAccepting.st s).isMatch = (A.st s).isMatch := by
  rw [merge_st]; split <;> rfl

theorem merge_zero (A : TA Nat) (s : Nat) : (A.mergeAccepting.st s).zeroDuration = (A.st s).zeroDuration := by
  rw [merge_st]; split <;> rfl

theorem merge_next_nil (A : TA Nat) (s : Nat) : (A.mergeAccepting.st s).next = [] ↔ (A.st s).next = [] := by
  rw [merge_st]
  split
  · simp [TAState.mapEdges]
  · rfl

theorem rep_states {A : TA Nat} (hnd : A.states.Nodup) {q : Nat} (hq : q ∈ A.states) : rep A.terminals q ∈ A.mergeAccepting.states := by
  rw [merge_states, List.mem_filter]
  have hts := terminals_nodup hnd
  simp only [Bool.not_eq_true', decide_eq_false_iff_not]
  by_cases h : q ∈ A.terminals
  · refine ⟨(mem_terminals.1 (rep_mem h)).1, ?_⟩
    rw [rep, if_pos h]
    rcases hc : A.terminals with _ | ⟨f, l⟩
    · rw [hc] at h; simp at h
    · rw [hc] at hts
      exact (List.nodup_cons.1 hts).1
  · rw [rep, if_neg h]
    exact ⟨hq, fun h' => h (List.mem_of_mem_tail h')⟩

theorem merge_states_sub {A : TA Nat} {s : Nat} (h : s ∈ A.mergeAccepting.states) : s ∈ A.states := by
  rw [merge_states] at h
  exact (List.mem_filter.1 h).1

theorem Wf.merge {A : TA Nat} (h : A.Wf) : A.mergeAccepting.Wf := by
  have hsub : ∀ {s}, s ∈ A.mergeAccepting.states → s ∈ A.states := merge_states_sub
  have hcs : A.mergeAccepting.clockSize = A.clockSize := by rw [clockSize, merge_maxC]; rfl
  refine ⟨?_, ?_, ?_, ?_, ?_, ?_, ?_, ?_, ?_, ?_⟩
  · rw [merge_states]; exact h.nodup.filter _
  · intro s hs
    obtain ⟨i, hi, rfl⟩ := (merge_init h.nodup).1 hs
    exact rep_states h.nodup (h.init i hi)
  · intro s hs
    rw [merge_st, if_pos (hsub hs)]
    simpa [TAState.mapEdges, Function.comp_def] using h.keys s (hsub hs)
  · intro s hs p hp
    rw [merge_st, if_pos (hsub hs)] at hp
    simp only [TAState.mapEdges, List.mem_map] at hp
    obtain ⟨p', hp', rfl⟩ := hp
    simpa using h.ne s (hsub hs) p' hp'
  · intro s hs a e he q hq
    rw [merge_edges (hsub hs), List.mem_map] at he
    obtain ⟨e', he', rfl⟩ := he
    rw [redirect_target, Option.map_eq_some_iff] at hq
    obtain ⟨q', hq', rfl⟩ := hq
    exact rep_states h.nodup (h.closed s (hsub hs) a e' he' q' hq')
  · intro s hs a e he g hg
    rw [merge_edges (hsub hs), List.mem_map] at he
    obtain ⟨e', he', rfl⟩ := he
    rw [redirect_guard] at hg
    rw [hcs]
    exact h.guards s (hsub hs) a e' he' g hg
  · intro s hs a e he g hg
    rw [merge_edges (hsub hs), List.mem_map] at he
    obtain ⟨e', he', rfl⟩ := he
    rw [redirect_resets] at hg
    rw [hcs]
    exact h.resets s (hsub hs) a e' he' g hg
  · intro s hs
    rw [merge_edges (hsub hs), h.lab s (hsub hs), List.map_nil]
  · intro s hs hm
    rw [merge_isMatch] at hm
    exact (merge_next_nil A s).2 (h.term s (hsub hs) hm)
  · intro s hs hm
    rw [merge_zero] at hm
    exact (merge_next_nil A s).2 (h.zterm s (hsub hs) hm)

theorem merge_one {A : TA Nat} (h : A.Wf) {s s' : Nat} (hs : s ∈ A.mergeAccepting.states) (hs' : s' ∈ A.mergeAccepting.states)
    (hm : (A.mergeAccepting.st s).isMatch = true) (hm' : (A.mergeAccepting.st s').isMatch = true) : s = s' := by
  rw [merge_isMatch] at hm hm'
  have key : ∀ s ∈ A.mergeAccepting.states, (A.st s).isMatch = true → A.terminals.head? = some s := by
    intro s hs hm
    have ht : s ∈ A.terminals := mem_terminals.2 ⟨merge_states_sub hs, hm, h.term s (merge_states_sub hs) hm⟩
    rw [merge_states, List.mem_filter] at hs
    have hn := hs.2
    simp only [Bool.not_eq_true', decide_eq_false_iff_not] at hn
    rcases hc : A.terminals with _ | ⟨f, l⟩
    · rw [hc] at ht; simp at ht
    · rw [hc] at ht hn
      simp only [List.tail_cons] at hn
      rcases List.mem_cons.1 ht with rfl | h
      · rfl
      · exact absurd h hn
  have h1 := key s hs hm
  rw [key s' hs' hm'] at h1
  exact (Option.some.inj h1).symm

theorem acc_merge {A : TA Nat} (h : A.Wf) {s : Nat} (hs : s ∈ A.states) (r : Nat → K) (w : TWord K) :
    A.mergeAccepting.Acc (rep A.terminals s) r w ↔ A.Acc s r w := by
  induction w generalizing s r with
  | nil =>
    simp only [Acc, merge_isMatch]
    by_cases ht : s ∈ A.terminals
    · have h1 := (mem_terminals.1 ht).2.1
      have h2 := (mem_terminals.1 (rep_mem ht)).2.1
      simp [h1, h2]
    · rw [rep, if_neg ht]
  | cons p w ih =>
    obtain ⟨a, t⟩ := p
    by_cases ht : s ∈ A.terminals
    · have h1 := (mem_terminals.1 ht).2.2
      have h2 := (mem_terminals.1 (rep_mem ht)).2.2
      simp only [Acc, edges_nil h1, edges_nil ((merge_next_nil A _).2 h2)]
      simp
    · rw [rep, if_neg ht]
      simp only [Acc, merge_edges hs, List.mem_map]
      constructor
      · rintro ⟨_, ⟨e, he, rfl⟩, q, hq, hg, hacc⟩
        rw [redirect_target, Option.map_eq_some_iff] at hq
        obtain ⟨q', hq', rfl⟩ := hq
        rw [redirect_guard] at hg
        rw [redirect_resets] at hacc
        exact ⟨e, he, q', hq', hg, (ih (h.closed s hs a e he q' hq') _).1 hacc⟩
      · rintro ⟨e, he, q, hq, hg, hacc⟩
        refine ⟨_, ⟨e, he, rfl⟩, rep A.terminals q, by rw [redirect_target, hq]; rfl, by rwa [redirect_guard], ?_⟩
        rw [redirect_resets]
        exact (ih (h.closed s hs a e he q hq) _).2 hacc

theorem accepts_merge {A : TA Nat} (h : A.Wf) (t0 : K) (w : TWord K) :
    A.mergeAccepting.AcceptsFrom t0 w ↔ A.AcceptsFrom t0 w := by
  simp only [acceptsFrom_iff]
  constructor
  · rintro ⟨s, hs, hacc⟩
    obtain ⟨i, hi, rfl⟩ := (merge_init h.nodup).1 hs
    exact ⟨i, hi, (acc_merge h (h.init i hi) _ _).1 hacc⟩
  · rintro ⟨i, hi, hacc⟩
    exact ⟨_, (merge_init h.nodup).2 ⟨i, hi, rfl⟩, (acc_merge h (h.init i hi) _ _).2 hacc⟩

/-! ### Removing stuck states -/

theorem mem_stuck {A : TA Nat} {s : Nat} : s ∈ A.stuck ↔ s ∈ A.states ∧ (A.st s).isMatch = false ∧ (A.st s).next = [] := by
  simp [stuck, isStuck]

/-- The transitions kept. -/
def keepEdge (bad : List Nat) (e : Transition Nat) : Bool := match e.target with | none => true | some q => !decide (q ∈ bad)

theorem stuck_edges {A : TA Nat} (h : A.Wf) {s : Nat} (hs : s ∈ A.states) (a : Alphabet) :
    A.removeStuckStates.edges s a = (A.edges s a).filter (keepEdge A.stuck) := by
  simp only [edges, removeStuckStates, mapSt, if_pos hs, dropStuck]
  rw [Next.at'_filter]
  · exact Next.at'_map (fun es => es.filter (keepEdge A.stuck)) rfl _ _
  · simpa [Function.comp_def] using h.keys s hs

theorem stuck_isMatch (A : TA Nat) (s : Nat) : (A.removeStuckStates.st s).isMatch = (A.st s).isMatch := by
  simp only [removeStuckStates, mapSt]; split <;> rfl

theorem stuck_zero (A : TA Nat) (s : Nat) : (A.removeStuckStates.st s).zeroDuration = (A.st s).zeroDuration := by
  simp only [removeStuckStates, mapSt]; split <;> rfl

theorem stuck_states {A : TA Nat} {s : Nat} : s ∈ A.removeStuckStates.states ↔ s ∈ A.states ∧ s ∉ A.stuck := by
  simp [removeStuckStates]

theorem stuck_init {A : TA Nat} {s : Nat} : s ∈ A.removeStuckStates.init ↔ s ∈ A.init ∧ s ∉ A.stuck := by
  simp [removeStuckStates]

theorem stuck_next_nil {A : TA Nat} {s : Nat} (hn : (A.st s).next = []) : (A.removeStuckStates.st s).next = [] := by
  simp only [removeStuckStates, mapSt]
  split
  · simp [dropStuck, hn]
  · exact hn

theorem Wf.removeStuck {A : TA Nat} (h : A.Wf) : A.removeStuckStates.Wf := by
  have hsub : ∀ {s}, s ∈ A.removeStuckStates.states → s ∈ A.states := fun hs => (stuck_states.1 hs).1
  refine ⟨?_, ?_, ?_, ?_, ?_, ?_, ?_, ?_, ?_, ?_⟩
  · exact h.nodup.filter _
  · intro s hs
    obtain ⟨h1, h2⟩ := stuck_init.1 hs
    exact stuck_states.2 ⟨h.init s h1, h2⟩
  · intro s hs
    simp only [removeStuckStates, mapSt, if_pos (hsub hs), dropStuck]
    refine List.Nodup.sublist (List.Sublist.map _ List.filter_sublist) ?_
    simpa [Function.comp_def] using h.keys s (hsub hs)
  · intro s hs p hp
    simp only [removeStuckStates, mapSt, if_pos (hsub hs), dropStuck, List.mem_filter] at hp
    simpa using hp.2
  · intro s hs a e he q hq
    rw [stuck_edges h (hsub hs), List.mem_filter] at he
    refine stuck_states.2 ⟨h.closed s (hsub hs) a e he.1 q hq, ?_⟩
    simpa [keepEdge, hq] using he.2
  · intro s hs a e he g hg
    rw [stuck_edges h (hsub hs), List.mem_filter] at he
    exact h.guards s (hsub hs) a e he.1 g hg
  · intro s hs a e he g hg
    rw [stuck_edges h (hsub hs), List.mem_filter] at he
    exact h.resets s (hsub hs) a e he.1 g hg
  · intro s hs
    rw [stuck_edges h (hsub hs), h.lab s (hsub hs), List.filter_nil]
  · intro s hs hm
    rw [stuck_isMatch] at hm
    exact stuck_next_nil (h.term s (hsub hs) hm)
  · intro s hs hm
    rw [stuck_zero] at hm
    exact stuck_next_nil (h.zterm s (hsub hs) hm)

theorem acc_removeStuck {A : TA Nat} (h : A.Wf) {s : Nat} (hs : s ∈ A.states) (r : Nat → K) (w : TWord K) :
    A.removeStuckStates.Acc s r w ↔ A.Acc s r w := by
  induction w generalizing s r with
  | nil => simp only [Acc, stuck_isMatch]
  | cons p w ih =>
    obtain ⟨a, t⟩ := p
    simp only [Acc, stuck_edges h hs, List.mem_filter]
    constructor
    · rintro ⟨e, ⟨he, _⟩, q, hq, hg, hacc⟩
      exact ⟨e, he, q, hq, hg, (ih (h.closed s hs a e he q hq) _).1 hacc⟩
    · rintro ⟨e, he, q, hq, hg, hacc⟩
      refine ⟨e, ⟨he, ?_⟩, q, hq, hg, (ih (h.closed s hs a e he q hq) _).2 hacc⟩
      simp only [keepEdge, hq, Bool.not_eq_true', decide_eq_false_iff_not]
      intro hb
      obtain ⟨_, hm, hn⟩ := mem_stuck.1 hb
      exact acc_stuck hm hn _ _ hacc

theorem accepts_removeStuck {A : TA Nat} (h : A.Wf) (t0 : K) (w : TWord K) :
    A.removeStuckStates.AcceptsFrom t0 w ↔ A.AcceptsFrom t0 w := by
  simp only [acceptsFrom_iff]
  constructor
  · rintro ⟨s, hs, hacc⟩
    obtain ⟨hs, _⟩ := stuck_init.1 hs
    exact ⟨s, hs, (acc_removeStuck h (h.init s hs) _ _).1 hacc⟩
  · rintro ⟨s, hs, hacc⟩
    refine ⟨s, stuck_init.2 ⟨hs, fun hb => ?_⟩, (acc_removeStuck h (h.init s hs) _ _).2 hacc⟩
    obtain ⟨_, hm, hn⟩ := mem_stuck.1 hb
    exact acc_stuck hm hn _ _ hacc

/-- What holds after the merge and is kept by `removeStuckStates`, relative to an automaton `A0`. -/
structure Kept (A0 A : TA Nat) : Prop where
  wf : A.Wf
  sub : ∀ s ∈ A.states, s ∈ A0.states
  frame : ∀ a, a ∉ A0.states → A.st a = A0.st a
  maxC : A.maxC = A0.maxC
  isMatch : ∀ s, (A.st s).isMatch = (A0.st s).isMatch
  zero : ∀ s, (A.st s).zeroDuration = (A0.st s).zeroDuration
  one : ∀ s ∈ A.states, ∀ s' ∈ A.states, (A.st s).isMatch = true → (A.st s').isMatch = true → s = s'
  lang : ∀ {K : Type} [Field K] [LinearOrder K] [IsStrictOrderedRing K] (t0 : K) (w : TWord K),
    A.AcceptsFrom t0 w ↔ A0.AcceptsFrom t0 w
  zinit : (∀ s ∈ A0.states, (A0.st s).zeroDuration = true → (A0.st s).isMatch = true → s ∈ A0.init) →
    ∀ s ∈ A.states, (A.st s).zeroDuration = true → (A.st s).isMatch = true → s ∈ A.init
  nonnull : (∀ s ∈ A0.states, ∀ a, ∀ e ∈ A0.edges s a, e.target ≠ none) → ∀ s ∈ A.states, ∀ a, ∀ e ∈ A.edges s a, e.target ≠ none
  guard : ∀ s ∈ A.states, ∀ a, ∀ e ∈ A.edges s a, ∃ e' ∈ A0.edges s a, e.guard = e'.guard

theorem Kept.merge {A : TA Nat} (h : A.Wf) : Kept A A.mergeAccepting := by
  refine ⟨h.merge, fun s hs => merge_states_sub hs, fun a ha => ?_, merge_maxC A, merge_isMatch A, merge_zero A,
    fun s hs s' hs' hm hm' => merge_one h hs hs' hm hm', fun t0 w => accepts_merge h t0 w, ?_, ?_, ?_⟩
  · rw [merge_st, if_neg ha]
  · intro hz s hs hzs hm
    rw [merge_zero] at hzs
    have hm0 := hm
    rw [merge_isMatch] at hm0
    have hsA := merge_states_sub hs
    refine (merge_init h.nodup).2 ⟨s, hz s hsA hzs hm0, ?_⟩
    have ht : s ∈ A.terminals := mem_terminals.2 ⟨hsA, hm0, h.term s hsA hm0⟩
    refine merge_one h hs (rep_states h.nodup hsA) hm ?_
    rw [merge_isMatch]
    exact (mem_terminals.1 (rep_mem ht)).2.1
  · intro hn s hs a e he hq
    rw [merge_edges (merge_states_sub hs), List.mem_map] at he
    obtain ⟨e', he', rfl⟩ := he
    rw [redirect_target, Option.map_eq_none_iff] at hq
    exact hn s (merge_states_sub hs) a e' he' hq
  · intro s hs a e he
    rw [merge_edges (merge_states_sub hs), List.mem_map] at he
    obtain ⟨e', he', rfl⟩ := he
    refine ⟨e', he', ?_⟩
    unfold redirect
    split
    · rfl
    · split <;> rfl

theorem Kept.removeStuck {A0 A : TA Nat} (h : Kept A0 A) : Kept A0 A.removeStuckStates := by
  refine ⟨h.wf.removeStuck, fun s hs => h.sub s (stuck_states.1 hs).1, fun a ha => ?_, h.maxC,
    fun s => (stuck_isMatch A s).trans (h.isMatch s), fun s => (stuck_zero A s).trans (h.zero s), ?_,
    fun t0 w => (accepts_removeStuck h.wf t0 w).trans (h.lang t0 w), ?_, ?_, ?_⟩
  · simp only [removeStuckStates, mapSt]
    rw [if_neg fun hs => ha (h.sub a hs), h.frame a ha]
  · intro s hs s' hs' hm hm'
    rw [stuck_isMatch] at hm hm'
    exact h.one s (stuck_states.1 hs).1 s' (stuck_states.1 hs').1 hm hm'
  · intro hz s hs hzs hm
    rw [stuck_zero] at hzs
    rw [stuck_isMatch] at hm
    refine stuck_init.2 ⟨h.zinit hz s (stuck_states.1 hs).1 hzs hm, fun hb => ?_⟩
    rw [(mem_stuck.1 hb).2.1] at hm
    simp at hm
  · intro hn s hs a e he
    rw [stuck_edges h.wf (stuck_states.1 hs).1, List.mem_filter] at he
    exact h.nonnull hn s (stuck_states.1 hs).1 a e he.1
  · intro s hs a e he
    rw [stuck_edges h.wf (stuck_states.1 hs).1, List.mem_filter] at he
    exact h.guard s (stuck_states.1 hs).1 a e he.1

theorem reduceLoop_spec {A0 : TA Nat} (n : Nat) (A : TA Nat) (hn : A.states.length < n) (h : Kept A0 A) :
    Kept A0 (reduceLoop n A) ∧
      ∀ s ∈ (reduceLoop n A).states, ((reduceLoop n A).st s).next = [] → ((reduceLoop n A).st s).isMatch = true := by
  induction n generalizing A with
  | zero => omega
  | succ n ih =>
  rw [reduceLoop]
  split
  · rename_i hlen
    refine ⟨h.removeStuck, fun s hs hn => ?_⟩
    have hno : ∀ x ∈ A.states, x ∉ A.stuck := by
      have : A.states.filter (fun s => !decide (s ∈ A.stuck)) = A.states :=
        List.filter_sublist.eq_of_length hlen
      intro x hx
      rw [← this, List.mem_filter] at hx
      simpa using hx.2
    have hsA := (stuck_states.1 hs).1
    rw [stuck_isMatch]
    by_contra hm
    simp only [Bool.not_eq_true] at hm
    refine hno s hsA (mem_stuck.2 ⟨hsA, hm, h.wf.next_nil hsA fun a => ?_⟩)
    have hn' := edges_nil hn a
    rw [stuck_edges h.wf hsA, List.filter_eq_nil_iff] at hn'
    rw [List.eq_nil_iff_forall_not_mem]
    intro e he
    refine hn' e he ?_
    unfold keepEdge
    split
    · rfl
    · rename_i q hq
      simp only [Bool.not_eq_true', decide_eq_false_iff_not]
      exact hno q (h.wf.closed s hsA a e he q hq)
  · rename_i hlen
    refine ih A.removeStuckStates ?_ h.removeStuck
    have : A.removeStuckStates.states.length ≤ A.states.length := by
      simp only [removeStuckStates]
      exact List.length_filter_le _ _
    omega

theorem reduce_spec {A0 : TA Nat} (A : TA Nat) (h : Kept A0 A) :
    Kept A0 A.reduceStates ∧ ∀ s ∈ A.reduceStates.states, (A.reduceStates.st s).next = [] → (A.reduceStates.st s).isMatch = true :=
  reduceLoop_spec _ A (by omega) h

theorem finish_spec {A : TA Nat} (h : A.Wf) :
    Kept A A.finish ∧ ∀ s ∈ A.finish.states, (A.finish.st s).next = [] → (A.finish.st s).isMatch = true :=
  reduce_spec _ (Kept.merge h)

end TA
end Verif
