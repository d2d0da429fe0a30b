import Verif.Lemmas.TREWindow
import Verif.Spec.Loops

/-!
# The lists of transitions of the automaton of an expression, and its cycles
-/

namespace Verif

namespace TA

/-! ### The end of the translation, exactly -/

/-- `B` is `D` with the targets redirected; the accepting states in `ts` are the ones redirected. -/
structure Fin (D B : TA Nat) (ts : List Nat) : Prop where
  sub : ∀ s ∈ B.states, s ∈ D.states
  mtch : ∀ s, (B.st s).isMatch = (D.st s).isMatch
  next : ∀ s ∈ B.states, (B.st s).next = (D.st s).next.map fun p => (p.1, p.2.map (redirect ts))
  ts : ∀ q ∈ ts, (D.st q).isMatch = true ∧ q ∈ D.states
  init : D.init ≠ [] → B.init ≠ []

theorem removeStuck_self {A : TA Nat} (hw : A.Wf) (h : A.stuck = []) : A.removeStuckStates = A := by
  have hst : (A.mapSt A.states (dropStuck [])).st = A.st := by
    funext s
    simp only [mapSt]
    split
    · rename_i hs
      have h1 : ((A.st s).next.map fun p => (p.1, p.2.filter (keepEdge []))) = (A.st s).next := by
        conv_rhs => rw [← List.map_id (A.st s).next]
        refine List.map_congr_left fun p _ => ?_
        have : p.2.filter (keepEdge []) = p.2 := by
          rw [List.filter_eq_self]
          intro e _
          unfold keepEdge
          split <;> simp
        rw [this]
        rfl
      have h0 : (dropStuck [] (A.st s)).next = (A.st s).next := by
        show (((A.st s).next.map fun p => (p.1, p.2.filter (keepEdge []))).filter fun p => !p.2.isEmpty) = _
        rw [h1, List.filter_eq_self.2]
        intro p hp
        simpa using hw.ne s hs p hp
      show ({ A.st s with next := (dropStuck [] (A.st s)).next } : TAState Nat) = A.st s
      rw [h0]
    · rfl
  unfold removeStuckStates
  simp only [h, List.not_mem_nil, decide_false, Bool.not_false, List.filter_true]
  show ({ (A.mapSt A.states (dropStuck [])) with states := A.states, init := A.init } : TA Nat) = A
  have : (A.mapSt A.states (dropStuck [])) = A := by
    show ({ A with st := (A.mapSt A.states (dropStuck [])).st } : TA Nat) = A
    rw [hst]
  rw [this]

theorem reduceLoop_self {A : TA Nat} (hw : A.Wf) (h : A.stuck = []) (n : Nat) : reduceLoop n A = A := by
  cases n with
  | zero => rfl
  | succ n =>
    rw [reduceLoop, removeStuck_self hw h]
    simp

theorem stuck_next {A : TA Nat} {s : Nat} (hs : s ∈ A.states) : (A.removeStuckStates.st s).next =
    ((A.st s).next.map fun p => (p.1, p.2.filter (keepEdge A.stuck))).filter fun p => !p.2.isEmpty := by
  simp only [removeStuckStates, mapSt, if_pos hs, dropStuck]
  rfl

theorem merge_stuck {A : TA Nat} {q : Nat} : q ∈ A.mergeAccepting.stuck ↔ q ∈ A.stuck := by
  rw [mem_stuck, mem_stuck, merge_isMatch, merge_next_nil]
  constructor
  · rintro ⟨h1, h2⟩
    exact ⟨merge_states_sub h1, h2⟩
  · rintro ⟨h1, h2, h3⟩
    refine ⟨?_, h2, h3⟩
    rw [merge_states, List.mem_filter]
    refine ⟨h1, ?_⟩
    simp only [Bool.not_eq_true', decide_eq_false_iff_not]
    intro h
    have := (mem_terminals.1 (List.mem_of_mem_tail h)).2.1
    rw [h2] at this
    cases this

theorem rep_stuck {A : TA Nat} {q : Nat} : rep A.terminals q ∈ A.stuck ↔ q ∈ A.stuck := by
  by_cases h : q ∈ A.terminals
  · have h1 : ∀ x ∈ A.terminals, x ∉ A.stuck := fun x hx hx' => by
      have := (mem_terminals.1 hx).2.1
      rw [(mem_stuck.1 hx').2.1] at this
      cases this
    exact iff_of_false (h1 _ (rep_mem h)) (h1 _ h)
  · rw [rep, if_neg h]

theorem keep_redirect {A : TA Nat} (e : Transition Nat) :
    keepEdge A.mergeAccepting.stuck (redirect A.terminals e) = keepEdge A.stuck e := by
  unfold keepEdge
  rw [redirect_target]
  cases e.target with
  | none => rfl
  | some q =>
    simp only [Option.map_some]
    rw [decide_eq_decide.2 (merge_stuck.trans rep_stuck)]

theorem merge_stuck_next {A : TA Nat} {s : Nat} (hs : s ∈ A.mergeAccepting.states) : (A.mergeAccepting.removeStuckStates.st s).next =
    (A.removeStuckStates.st s).next.map fun p => (p.1, p.2.map (redirect A.terminals)) := by
  rw [stuck_next hs, stuck_next (merge_states_sub hs), merge_st, if_pos (merge_states_sub hs)]
  simp only [TAState.mapEdges, List.map_map]
  rw [List.filter_map, List.filter_map, List.map_map]
  have h1 : ∀ p : Alphabet × List (Transition Nat), (p.2.map (redirect A.terminals)).filter (keepEdge A.mergeAccepting.stuck) =
      (p.2.filter (keepEdge A.stuck)).map (redirect A.terminals) := by
    intro p
    rw [List.filter_map]
    congr 1
    refine List.filter_congr fun e _ => ?_
    exact keep_redirect e
  simp only [Function.comp_def, h1, List.isEmpty_map]

theorem fin_of {A : TA Nat} (hw : A.Wf)
    (hns : ∀ s ∈ A.removeStuckStates.states, (A.st s).isMatch = true ∨ (A.removeStuckStates.st s).next ≠ []) :
    Fin A.removeStuckStates A.finish A.terminals := by
  have hnone : A.mergeAccepting.removeStuckStates.stuck = [] := by
    rw [List.eq_nil_iff_forall_not_mem]
    intro s hs
    obtain ⟨h1, h2, h3⟩ := mem_stuck.1 hs
    obtain ⟨h4, h5⟩ := stuck_states.1 h1
    rw [merge_stuck_next h4, List.map_eq_nil_iff] at h3
    rw [stuck_isMatch, merge_isMatch] at h2
    rcases hns s (stuck_states.2 ⟨merge_states_sub h4, fun h => h5 (merge_stuck.2 h)⟩) with h | h
    · rw [h2] at h
      cases h
    · exact h h3
  have heq : A.finish = A.mergeAccepting.removeStuckStates := by
    show reduceLoop (A.mergeAccepting.states.length + 1) A.mergeAccepting = _
    rw [reduceLoop, reduceLoop_self hw.merge.removeStuck hnone]
    simp
  rw [heq]
  refine ⟨fun s hs => ?_, fun s => ?_, fun s hs => ?_, fun q hq => ?_, fun h => ?_⟩
  · obtain ⟨h1, h2⟩ := stuck_states.1 hs
    exact stuck_states.2 ⟨merge_states_sub h1, fun h => h2 (merge_stuck.2 h)⟩
  · rw [stuck_isMatch, stuck_isMatch, merge_isMatch]
  · exact merge_stuck_next (stuck_states.1 hs).1
  · have := mem_terminals.1 hq
    refine ⟨by rw [stuck_isMatch]; exact this.2.1, stuck_states.2 ⟨this.1, fun h => ?_⟩⟩
    have := (mem_stuck.1 h).2.1
    rw [(mem_terminals.1 hq).2.1] at this
    cases this
  · obtain ⟨i, hi⟩ := List.exists_mem_of_ne_nil _ h
    obtain ⟨h1, h2⟩ := stuck_init.1 hi
    refine List.ne_nil_of_mem (stuck_init.2 ⟨(merge_init hw.nodup).2 ⟨i, h1, rfl⟩, fun h => h2 ?_⟩)
    exact rep_stuck.1 (merge_stuck.1 h)

theorem stuck_nil {A : TA Nat} (h : ∀ s ∈ A.states, (A.st s).isMatch = true ∨ (A.st s).next ≠ []) : A.stuck = [] := by
  rw [List.eq_nil_iff_forall_not_mem]
  intro s hs
  obtain ⟨h1, h2, h3⟩ := mem_stuck.1 hs
  rcases h s h1 with h | h
  · rw [h2] at h
    cases h
  · exact h h3

theorem fin_of_live {A : TA Nat} (hw : A.Wf) (h : ∀ s ∈ A.states, (A.st s).isMatch = true ∨ (A.st s).next ≠ []) :
    Fin A A.finish A.terminals := by
  have hs := removeStuck_self hw (stuck_nil h)
  have := fin_of hw (by rw [hs]; exact h)
  rwa [hs] at this

/-! ### The end of the translation of a concatenation -/

/-- The transitions added by the concatenation. -/
def exits (A : TA Nat) (ri : List Nat) (n : Nat) (es : List (Transition Nat)) : List (Transition Nat) :=
  es.flatMap fun e => if A.isAcc e then ri.map fun i => { e with target := some i, resets := allClocks n } else []

theorem mem_exits {A : TA Nat} {ri : List Nat} {n : Nat} {es : List (Transition Nat)} {e : Transition Nat} :
    e ∈ A.exits ri n es ↔ ∃ e' ∈ es, A.isAcc e' = true ∧ ∃ i ∈ ri, e = { e' with target := some i, resets := allClocks n } := by
  simp only [exits, List.mem_flatMap]
  constructor
  · rintro ⟨e', he', h⟩
    split at h
    · rename_i hacc
      obtain ⟨i, hi, rfl⟩ := List.mem_map.1 h
      exact ⟨e', he', hacc, i, hi, rfl⟩
    · cases h
  · rintro ⟨e', he', hacc, i, hi, rfl⟩
    exact ⟨e', he', by rw [if_pos hacc]; exact List.mem_map.2 ⟨i, hi, rfl⟩⟩

/-- Every state has transitions on one letter at most, all of them with a target. -/
def SingleLetter (A : TA Nat) : Prop := A.init ≠ [] ∧ ∀ s ∈ A.states, (A.st s).isMatch = true ∨
  ((A.st s).isMatch = false ∧ ∃ c es, (A.st s).next = [(c, es)] ∧ ∀ e ∈ es, ∃ q, e.target = some q)

theorem SingleLetter.live {A : TA Nat} (h : A.SingleLetter) : ∀ s ∈ A.states, (A.st s).isMatch = true ∨ (A.st s).next ≠ [] := by
  intro s hs
  rcases h.2 s hs with h | ⟨-, c, es, h, -⟩
  · exact .inl h
  · exact .inr (by rw [h]; simp)

section concat
variable {L R : TA Nat} (hst : L.st = R.st) (hL : L.Wf) (hR : R.Wf) (hd : ∀ s ∈ L.states, s ∉ R.states)
include hst hL hR hd

theorem concat_isMatch_left {s : Nat} (hs : s ∈ L.states) : ((L.concat2 R).st s).isMatch = false := by
  rw [concat2_left hst hL hR hd hs]

theorem concat_isMatch_right {s : Nat} (hs : s ∉ L.states) : ((L.concat2 R).st s).isMatch = (R.st s).isMatch := by
  rw [concat2_right hst hL hR hd hs]
  split <;> rfl

theorem concat_next_left {s : Nat} (hs : s ∈ L.states) : ((L.concat2 R).st s).next =
    (L.st s).next.map fun p => (p.1, p.2 ++ L.exits R.init R.clockSize p.2) := by
  rw [concat2_left hst hL hR hd hs]
  rfl

theorem concat_next_right {s : Nat} (hs : s ∉ L.states) : ((L.concat2 R).st s).next = (R.st s).next := by
  rw [concat2_right hst hL hR hd hs]
  split <;> rfl

theorem concat_stuck (h1 : L.SingleLetter) (h2 : R.SingleLetter) {s : Nat} :
    s ∈ (L.concat2 R).stuck ↔ s ∈ L.states ∧ (L.st s).isMatch = true := by
  rw [mem_stuck]
  constructor
  · rintro ⟨hs, hm, hn⟩
    by_cases hsL : s ∈ L.states
    · refine ⟨hsL, ?_⟩
      rw [concat_next_left hst hL hR hd hsL, List.map_eq_nil_iff] at hn
      exact (h1.live s hsL).resolve_right fun h => h hn
    · have hsR : s ∈ R.states := (List.mem_append.1 hs).resolve_left hsL
      rw [concat_isMatch_right hst hL hR hd hsL] at hm
      rw [concat_next_right hst hL hR hd hsL] at hn
      rcases h2.live s hsR with h | h
      · rw [hm] at h
        cases h
      · exact absurd hn h
  · rintro ⟨hs, hm⟩
    refine ⟨List.mem_append.2 (.inl hs), concat_isMatch_left hst hL hR hd hs, ?_⟩
    rw [concat_next_left hst hL hR hd hs, hL.term s hs hm]
    rfl

theorem concat_keep (h1 : L.SingleLetter) (h2 : R.SingleLetter) {q : Nat} {e : Transition Nat} (he : e.target = some q) :
    keepEdge (L.concat2 R).stuck e = !decide (q ∈ L.states ∧ (L.st q).isMatch = true) := by
  simp only [keepEdge, he]
  rw [decide_eq_decide.2 (concat_stuck hst hL hR hd h1 h2)]

theorem concat_final_states (h1 : L.SingleLetter) (h2 : R.SingleLetter) {s : Nat} :
    s ∈ (L.concat2 R).removeStuckStates.states ↔ s ∈ L.states ∧ (L.st s).isMatch = false ∨ s ∈ R.states := by
  rw [stuck_states, concat_stuck hst hL hR hd h1 h2]
  have : s ∈ (L.concat2 R).states ↔ s ∈ L.states ∨ s ∈ R.states := List.mem_append
  rw [this]
  constructor
  · rintro ⟨h | h, hn⟩
    · exact .inl ⟨h, by simpa using fun hm => hn ⟨h, hm⟩⟩
    · exact .inr h
  · rintro (⟨h, hm⟩ | h)
    · exact ⟨.inl h, fun h' => by rw [hm] at h'; cases h'.2⟩
    · exact ⟨.inr h, fun h' => hd s h'.1 h⟩

theorem concat_final_left (h1 : L.SingleLetter) (h2 : R.SingleLetter) {s : Nat} (hs : s ∈ L.states) {c : Alphabet} {es : List (Transition Nat)}
    (hn : (L.st s).next = [(c, es)]) (ht : ∀ e ∈ es, ∃ q, e.target = some q) :
    ((L.concat2 R).removeStuckStates.st s).next = [(c, es.filter (fun e => !L.isAcc e) ++ L.exits R.init R.clockSize es)] := by
  have hsC : s ∈ (L.concat2 R).states := List.mem_append.2 (.inl hs)
  rw [stuck_next hsC, concat_next_left hst hL hR hd hs, hn]
  have hes : es.filter (keepEdge (L.concat2 R).stuck) = es.filter (fun e => !L.isAcc e) := by
    refine List.filter_congr fun e he => ?_
    obtain ⟨q, hq⟩ := ht e he
    have hqL : q ∈ L.states := hL.closed s hs c e (by rw [edges, hn, Next.at'_cons, if_pos rfl]; exact he) q hq
    rw [concat_keep hst hL hR hd h1 h2 hq]
    simp [isAcc, hq, hqL]
  have hex : (L.exits R.init R.clockSize es).filter (keepEdge (L.concat2 R).stuck) = L.exits R.init R.clockSize es := by
    rw [List.filter_eq_self]
    intro e he
    obtain ⟨e', he', -, i, hi, rfl⟩ := mem_exits.1 he
    rw [concat_keep hst hL hR hd h1 h2 (q := i) rfl]
    have : i ∉ L.states := fun h => hd i h (hR.init i hi)
    simp [this]
  simp only [List.map_cons, List.map_nil, List.filter_append, hes, hex]
  have hne : es.filter (fun e => !L.isAcc e) ++ L.exits R.init R.clockSize es ≠ [] := by
    have h0 : es ≠ [] := hL.ne s hs (c, es) (by rw [hn]; simp)
    obtain ⟨e, he⟩ := List.exists_mem_of_ne_nil _ h0
    by_cases ha : L.isAcc e = true
    · obtain ⟨i, hi⟩ := List.exists_mem_of_ne_nil _ h2.1
      exact List.ne_nil_of_mem (List.mem_append.2 (.inr (mem_exits.2 ⟨e, he, ha, i, hi, rfl⟩)))
    · exact List.ne_nil_of_mem (List.mem_append.2 (.inl (List.mem_filter.2 ⟨he, by simpa using ha⟩)))
  rw [List.filter_cons, if_pos]
  · rfl
  · simpa [List.isEmpty_iff] using hne

theorem concat_final_right (h1 : L.SingleLetter) (h2 : R.SingleLetter) {s : Nat} (hs : s ∈ R.states) :
    ((L.concat2 R).removeStuckStates.st s).next = (R.st s).next := by
  have hsL : s ∉ L.states := fun h => hd s h hs
  have hsC : s ∈ (L.concat2 R).states := List.mem_append.2 (.inr hs)
  rw [stuck_next hsC, concat_next_right hst hL hR hd hsL]
  have h3 : ((R.st s).next.map fun p => (p.1, p.2.filter (keepEdge (L.concat2 R).stuck))) = (R.st s).next := by
    conv_rhs => rw [← List.map_id (R.st s).next]
    refine List.map_congr_left fun p hp => ?_
    have : p.2.filter (keepEdge (L.concat2 R).stuck) = p.2 := by
      rw [List.filter_eq_self]
      intro e he
      cases hq : e.target with
      | none => simp [keepEdge, hq]
      | some q =>
        rw [concat_keep hst hL hR hd h1 h2 hq]
        have hqR := hR.closed s hs p.1 e (hR.mem_edges hs hp he) q hq
        have : q ∉ L.states := fun h => hd q h hqR
        simp [this]
    rw [this]
    rfl
  rw [h3, List.filter_eq_self.2]
  intro p hp
  simpa using hR.ne s hs p hp

theorem concat_final_isMatch {s : Nat} : ((L.concat2 R).removeStuckStates.st s).isMatch =
    if s ∈ L.states then false else (R.st s).isMatch := by
  rw [stuck_isMatch]
  split
  · rename_i h
    exact concat_isMatch_left hst hL hR hd h
  · rename_i h
    exact concat_isMatch_right hst hL hR hd h

theorem concat_final_init (h1 : L.SingleLetter) (h2 : R.SingleLetter) (hnull : ∀ s ∈ L.init, (L.st s).isMatch = false) :
    (L.concat2 R).removeStuckStates.init ≠ [] := by
  obtain ⟨i, hi⟩ := List.exists_mem_of_ne_nil _ h1.1
  refine List.ne_nil_of_mem (a := i) (stuck_init.2 ⟨?_, fun h => ?_⟩)
  · simp only [concat2]
    split
    · exact List.mem_append.2 (.inl hi)
    · exact hi
  · have := ((concat_stuck hst hL hR hd h1 h2).1 h).2
    rw [hnull i hi] at this
    cases this

/-- The stuck states after the concatenation are removed in one step. -/
theorem concat_fin (h1 : L.SingleLetter) (h2 : R.SingleLetter) (hn : R.clockSize ≤ 256) :
    Fin (L.concat2 R).removeStuckStates (L.concat2 R).finish (L.concat2 R).terminals := by
  refine fin_of (concat2_wf hst hL hR hd hn) fun s hs => ?_
  rcases (concat_final_states hst hL hR hd h1 h2).1 hs with ⟨h, hm⟩ | h
  · right
    rcases h1.2 s h with h' | ⟨-, c, es, hn, ht⟩
    · rw [hm] at h'
      cases h'
    · rw [concat_final_left hst hL hR hd h1 h2 h hn ht]
      simp
  · rw [concat_final_right hst hL hR hd h1 h2 h, concat_isMatch_right hst hL hR hd fun h' => hd s h' h]
    exact h2.live s h

end concat

end TA

end Verif
