import Verif.Lemmas.TRELoops

/-!
# The automaton of an expression in which only expressions without time restrictions are repeated has ordered loops
-/

namespace Verif

namespace TA

theorem Fin.rep_match {D B : TA Nat} {ts : List Nat} (h : Fin D B ts) (q : Nat) : (D.st (rep ts q)).isMatch = (D.st q).isMatch := by
  by_cases hq : q ∈ ts
  · rw [(h.ts q hq).1, (h.ts _ (rep_mem hq)).1]
  · rw [rep, if_neg hq]

theorem Fin.isAcc {D B : TA Nat} {ts : List Nat} (h : Fin D B ts) (e : Transition Nat) : B.isAcc (redirect ts e) = D.isAcc e := by
  unfold TA.isAcc
  rw [redirect_target]
  cases e.target with
  | none => rfl
  | some q => simp only [Option.map_some, h.mtch, h.rep_match]

theorem rep_eq {D B : TA Nat} {ts : List Nat} (h : Fin D B ts) {q : Nat} (hq : (D.st q).isMatch = false) : rep ts q = q := by
  rw [rep, if_neg]
  intro hm
  rw [(h.ts q hm).1] at hq
  cases hq

theorem Fin.single {D B : TA Nat} {ts : List Nat} (h : Fin D B ts) {s : Nat} (hs : s ∈ B.states) {c : Alphabet} {es : List (Transition Nat)}
    (hn : (D.st s).next = [(c, es)]) : (B.st s).next = [(c, es.map (redirect ts))] := by
  rw [h.next s hs, hn]
  rfl

/-! ### Repeated expressions -/

/-- From every state one comes to a transition to an accepting state by taking the last transition each time. -/
def UTA (A : TA Nat) : Prop := A.init ≠ [] ∧ ∃ dist : Nat → Nat, ∀ s ∈ A.states, (A.st s).isMatch = true ∨
  ((A.st s).isMatch = false ∧ ∃ c es, (A.st s).next = [(c, es)] ∧ c ≠ dollar ∧ (∀ e ∈ es, ∃ q, e.target = some q) ∧
    ((∃ e ∈ es, A.isAcc e = true) ∨ ∃ es' e q, es = es' ++ [e] ∧ e.target = some q ∧ (A.st q).isMatch = false ∧ dist q < dist s))

theorem UTA.oneLetter {A : TA Nat} (h : A.UTA) : A.SingleLetter := by
  obtain ⟨h0, dist, h⟩ := h
  refine ⟨h0, fun s hs => (h s hs).imp id ?_⟩
  rintro ⟨hm, c, es, hn, -, ht, -⟩
  exact ⟨hm, c, es, hn, ht⟩

theorem UTA.fin {D B : TA Nat} {ts : List Nat} (hF : Fin D B ts) (h : D.UTA) : B.UTA := by
  obtain ⟨h0, dist, h⟩ := h
  refine ⟨hF.init h0, dist, fun s hs => ?_⟩
  rw [hF.mtch]
  refine (h s (hF.sub s hs)).imp id ?_
  rintro ⟨hm, c, es, hn, hc, ht, hl⟩
  refine ⟨hm, c, _, hF.single hs hn, hc, fun e he => ?_, ?_⟩
  · obtain ⟨e', he', rfl⟩ := List.mem_map.1 he
    obtain ⟨q, hq⟩ := ht e' he'
    exact ⟨rep ts q, by rw [redirect_target, hq]; rfl⟩
  · rcases hl with ⟨e, he, ha⟩ | ⟨es', e, q, rfl, hq, hm, hlt⟩
    · exact .inl ⟨_, List.mem_map_of_mem he, by rw [hF.isAcc]; exact ha⟩
    · refine .inr ⟨es'.map (redirect ts), redirect ts e, q, by simp, ?_, by rw [hF.mtch]; exact hm, hlt⟩
      rw [redirect_target, hq, Option.map_some, rep_eq hF hm]

theorem UTA.congr {A : TA Nat} (hw : A.Wf) (h : A.UTA) {st : Nat → TAState Nat} (hst : ∀ s ∈ A.states, st s = A.st s) :
    ({ A with st := st } : TA Nat).UTA := by
  obtain ⟨h0, dist, h⟩ := h
  refine ⟨h0, dist, fun s hs => ?_⟩
  show (st s).isMatch = true ∨ ((st s).isMatch = false ∧ ∃ c es, (st s).next = [(c, es)] ∧ _)
  rw [hst s hs]
  refine (h s hs).imp id ?_
  rintro ⟨hm, c, es, hn, hc, ht, hl⟩
  have hcl : ∀ e ∈ es, ∀ q, e.target = some q → q ∈ A.states := fun e he q hq =>
    hw.closed s hs c e (by rw [edges, hn, Next.at'_cons, if_pos rfl]; exact he) q hq
  refine ⟨hm, c, es, hn, hc, ht, ?_⟩
  rcases hl with ⟨e, he, ha⟩ | ⟨es', e, q, rfl, hq, hm, hlt⟩
  · obtain ⟨q, hq, hm⟩ := isAcc_iff.1 ha
    exact .inl ⟨e, he, isAcc_iff.2 ⟨q, hq, by show (st q).isMatch = true; rw [hst q (hcl e he q hq)]; exact hm⟩⟩
  · refine .inr ⟨es', e, q, rfl, hq, ?_, hlt⟩
    show (st q).isMatch = false
    rw [hst q (hcl e (by simp) q hq)]
    exact hm

theorem edge_mem {A : TA Nat} {s : Nat} {c : Alphabet} {es : List (Transition Nat)} (hn : (A.st s).next = [(c, es)]) {e : Transition Nat}
    (he : e ∈ es) : e ∈ A.edges s c := by
  rw [edges, hn, Next.at'_cons, if_pos rfl]
  exact he

theorem plusEdges_self {A : TA Nat} {es : List (Transition Nat)} (h : ∀ e ∈ es, A.isAcc e = false) : A.plusEdges es = es := by
  unfold plusEdges
  refine (congrArg (es ++ ·) (List.flatMap_eq_nil_iff.2 ?_)).trans (List.append_nil es)
  intro e he
  have := h e he
  unfold TA.isAcc at this
  cases hq : e.target with
  | none => rfl
  | some q =>
    rw [hq] at this
    simp only at this
    simp [this]

theorem plus_isMatch (A : TA Nat) (s : Nat) : (A.plusTA.st s).isMatch = (A.st s).isMatch := by
  simp only [plusTA, mapSt]
  split <;> rfl

theorem plus_isAcc (A : TA Nat) (e : Transition Nat) : A.plusTA.isAcc e = A.isAcc e := by
  unfold TA.isAcc
  cases e.target with
  | none => rfl
  | some q => exact plus_isMatch A q

theorem UTA.plus {A : TA Nat} (h : A.UTA) : A.plusTA.UTA := by
  obtain ⟨h0, dist, h⟩ := h
  refine ⟨h0, dist, fun s (hs : s ∈ A.states) => ?_⟩
  rw [plus_isMatch]
  refine (h s hs).imp id ?_
  rintro ⟨hm, c, es, hn, hc, ht, hl⟩
  refine ⟨hm, c, A.plusEdges es, by rw [plus_st hs]; simp [TAState.mapEdges, hn], hc, fun e he => ?_, ?_⟩
  · rcases mem_plusEdges.1 he with he | ⟨e', -, q, -, -, -, i, -, -, rfl⟩
    · exact ht e he
    · exact ⟨i, rfl⟩
  · by_cases ha : ∃ e ∈ es, A.isAcc e = true
    · obtain ⟨e, he, ha⟩ := ha
      exact .inl ⟨e, mem_plusEdges.2 (.inl he), by rw [plus_isAcc]; exact ha⟩
    · rcases hl with h | ⟨es', e, q, he, hq, hm, hlt⟩
      · exact absurd h ha
      · rw [plusEdges_self fun e he => by simpa using fun h => ha ⟨e, he, h⟩]
        exact .inr ⟨es', e, q, he, hq, by rw [plus_isMatch]; exact hm, hlt⟩

section two
variable {L R : TA Nat} (hst : L.st = R.st) (hL : L.Wf) (hR : R.Wf) (hd : ∀ s ∈ L.states, s ∉ R.states)
include hst hL hR hd

/-- A transition to an initial state of the second automaton is no transition to an accepting state. -/
theorem concat_isAcc_left (hnull : ∀ s ∈ R.init, (R.st s).isMatch = false) {s : Nat} (hs : s ∈ L.states) {c : Alphabet}
    {es : List (Transition Nat)} (hn : (L.st s).next = [(c, es)]) {e : Transition Nat}
    (he : e ∈ es.filter (fun e => !L.isAcc e) ++ L.exits R.init R.clockSize es) : (L.concat2 R).removeStuckStates.isAcc e = false := by
  rw [Bool.eq_false_iff]
  intro ha
  obtain ⟨q, hq, hm⟩ := isAcc_iff.1 ha
  rw [concat_final_isMatch hst hL hR hd] at hm
  rcases List.mem_append.1 he with he | he
  · rw [if_pos (hL.closed s hs c e (edge_mem hn (List.mem_filter.1 he).1) q hq)] at hm
    cases hm
  · obtain ⟨e', -, -, i, hi, rfl⟩ := mem_exits.1 he
    cases hq
    split at hm
    · cases hm
    · rw [hnull _ hi] at hm
      cases hm

theorem concat_isAcc_right {s : Nat} (hs : s ∈ R.states) {c : Alphabet} {es : List (Transition Nat)} (hn : (R.st s).next = [(c, es)])
    {e : Transition Nat} (he : e ∈ es) : (L.concat2 R).removeStuckStates.isAcc e = R.isAcc e := by
  unfold TA.isAcc
  cases hq : e.target with
  | none => rfl
  | some q =>
    simp only
    rw [concat_final_isMatch hst hL hR hd, if_neg fun h => hd q h (hR.closed s hs c e (edge_mem hn he) q hq)]

theorem UTA.concat (h1 : L.UTA) (h2 : R.UTA) (hnl : ∀ s ∈ L.init, (L.st s).isMatch = false)
    (hnull : ∀ s ∈ R.init, (R.st s).isMatch = false) : (L.concat2 R).removeStuckStates.UTA := by
  have o1 := h1.oneLetter
  have o2 := h2.oneLetter
  obtain ⟨h10, d1, h1⟩ := h1
  obtain ⟨h20, d2, h2⟩ := h2
  have hle : ∀ s ∈ R.states, d2 s ≤ (R.states.map d2).sum := fun s hs => List.single_le_sum (by simp) _ (List.mem_map.2 ⟨s, hs, rfl⟩)
  classical
  refine ⟨concat_final_init hst hL hR hd o1 o2 hnl, fun s => if s ∈ L.states then d1 s + (R.states.map d2).sum + 1 else d2 s, fun s hs => ?_⟩
  rcases (concat_final_states hst hL hR hd o1 o2).1 hs with ⟨hsL, hm⟩ | hsR
  · right
    rw [concat_final_isMatch hst hL hR hd, if_pos hsL]
    rcases h1 s hsL with h | ⟨-, c, es, hn, hc, ht, hl⟩
    · rw [hm] at h
      cases h
    refine ⟨rfl, c, _, concat_final_left hst hL hR hd o1 o2 hsL hn ht, hc, fun e he => ?_, .inr ?_⟩
    · rcases List.mem_append.1 he with he | he
      · exact ht e (List.mem_filter.1 he).1
      · obtain ⟨e', -, -, i, -, rfl⟩ := mem_exits.1 he
        exact ⟨i, rfl⟩
    · by_cases ha : ∃ e ∈ es, L.isAcc e = true
      · obtain ⟨e, he, ha⟩ := ha
        obtain ⟨i, hi⟩ := List.exists_mem_of_ne_nil _ h20
        have hne : L.exits R.init R.clockSize es ≠ [] := List.ne_nil_of_mem (mem_exits.2 ⟨e, he, ha, i, hi, rfl⟩)
        obtain ⟨es', x, hx⟩ := (List.eq_nil_or_concat _).resolve_left hne
        rw [List.concat_eq_append] at hx
        obtain ⟨e', -, -, j, hj, hxe⟩ := mem_exits.1 (show x ∈ L.exits R.init R.clockSize es by rw [hx]; simp)
        have hjL : j ∉ L.states := fun h => hd j h (hR.init j hj)
        refine ⟨es.filter (fun e => !L.isAcc e) ++ es', x, j, by rw [hx, List.append_assoc], by rw [hxe], ?_, ?_⟩
        · rw [concat_final_isMatch hst hL hR hd, if_neg hjL]
          exact hnull j hj
        · beta_reduce; rw [if_neg hjL, if_pos hsL]
          have := hle j (hR.init j hj)
          omega
      · have hno : ∀ e ∈ es, L.isAcc e = false := fun e he => by simpa using fun h => ha ⟨e, he, h⟩
        rcases hl with h | ⟨es', e, q, he, hq, hm, hlt⟩
        · exact absurd h ha
        · have hx : L.exits R.init R.clockSize es = [] := by
            rw [List.eq_nil_iff_forall_not_mem]
            intro x hx
            obtain ⟨e', he', h', -⟩ := mem_exits.1 hx
            rw [hno e' he'] at h'
            cases h'
          have hf : es.filter (fun e => !L.isAcc e) = es := by
            rw [List.filter_eq_self]
            intro e he
            rw [hno e he]
            rfl
          have hqL : q ∈ L.states := hL.closed s hsL c e (edge_mem hn (by rw [he]; simp)) q hq
          refine ⟨es', e, q, by rw [hx, hf, List.append_nil, he], hq, ?_, ?_⟩
          · rw [concat_final_isMatch hst hL hR hd, if_pos hqL]
          · beta_reduce; rw [if_pos hqL, if_pos hsL]
            omega
  · have hsL : s ∉ L.states := fun h => hd s h hsR
    rw [concat_final_isMatch hst hL hR hd, if_neg hsL]
    refine (h2 s hsR).imp id ?_
    rintro ⟨hm, c, es, hn, hc, ht, hl⟩
    refine ⟨hm, c, es, by rw [concat_final_right hst hL hR hd o1 o2 hsR, hn], hc, ht, ?_⟩
    rcases hl with ⟨e, he, ha⟩ | ⟨es', e, q, rfl, hq, hm, hlt⟩
    · exact .inl ⟨e, he, by rw [concat_isAcc_right hst hL hR hd hsR hn he]; exact ha⟩
    · have hqL : q ∉ L.states := fun h => hd q h (hR.closed s hsR c e (edge_mem hn (by simp)) q hq)
      refine .inr ⟨es', e, q, rfl, hq, ?_, ?_⟩
      · rw [concat_final_isMatch hst hL hR hd, if_neg hqL]
        exact hm
      · beta_reduce; rw [if_neg hqL, if_neg hsL]
        exact hlt

theorem UTA.disj (h1 : L.UTA) (h2 : R.UTA) : (L.disjTA R).UTA := by
  obtain ⟨h10, d1, h1⟩ := h1
  obtain ⟨h20, d2, h2⟩ := h2
  classical
  refine ⟨fun h => h10 (List.append_eq_nil_iff.1 h).1, fun s => if s ∈ L.states then d1 s else d2 s, fun s hs => ?_⟩
  by_cases hsL : s ∈ L.states
  · have heq : (L.disjTA R).st = L.st := hst.symm
    have hacc : ∀ e, (L.disjTA R).isAcc e = L.isAcc e := fun e => by unfold TA.isAcc; rw [heq]
    rw [heq]
    refine (h1 s hsL).imp id ?_
    rintro ⟨hm, c, es, hn, hc, ht, hl⟩
    refine ⟨hm, c, es, hn, hc, ht, ?_⟩
    rcases hl with ⟨e, he, ha⟩ | ⟨es', e, q, rfl, hq, hm, hlt⟩
    · exact .inl ⟨e, he, by rw [hacc]; exact ha⟩
    · refine .inr ⟨es', e, q, rfl, hq, hm, ?_⟩
      beta_reduce; rw [if_pos hsL, if_pos (hL.closed s hsL c e (edge_mem hn (by simp)) q hq)]
      exact hlt
  · have hsR : s ∈ R.states := (List.mem_append.1 hs).resolve_left hsL
    have heq : (L.disjTA R).st = R.st := rfl
    have hacc : ∀ e, (L.disjTA R).isAcc e = R.isAcc e := fun e => rfl
    rw [heq]
    refine (h2 s hsR).imp id ?_
    rintro ⟨hm, c, es, hn, hc, ht, hl⟩
    refine ⟨hm, c, es, hn, hc, ht, ?_⟩
    rcases hl with ⟨e, he, ha⟩ | ⟨es', e, q, rfl, hq, hm, hlt⟩
    · exact .inl ⟨e, he, by rw [hacc]; exact ha⟩
    · refine .inr ⟨es', e, q, rfl, hq, hm, ?_⟩
      beta_reduce; rw [if_neg hsL, if_neg fun h => hd q h (hR.closed s hsR c e (edge_mem hn (by simp)) q hq)]
      exact hlt

end two

theorem UTA.atom {alloc : Nat → Nat} (hinj : Function.Injective alloc) (heap : Nat → TAState Nat) (k : Nat) {c : Alphabet}
    (hc : c ≠ dollar) : (atomTA alloc k heap c).UTA := by
  have hne : alloc (k + 1) ≠ alloc k := fun h => by have := hinj h; omega
  refine ⟨by simp [atomTA], fun _ => 0, fun s hs => ?_⟩
  simp only [atomTA, List.mem_cons, List.not_mem_nil, or_false] at hs
  rcases hs with rfl | rfl
  · refine .inr ⟨by simp [atomTA], c, [⟨some (alloc (k + 1)), [], []⟩], by simp [atomTA], hc, ?_, .inl ⟨_, List.mem_singleton.2 rfl, ?_⟩⟩
    · intro e he
      rw [List.mem_singleton] at he
      exact ⟨_, by rw [he]⟩
    · simp [TA.isAcc, atomTA, hne]
  · exact .inl (by simp [atomTA, hne])

/-! ### All expressions -/

/-- The transitions of a state which is not accepting: either there are transitions to accepting states, and the others stay on the level,
or there are none, and the list ends with those which leave the level, or the last one is nearer to such a transition. -/
def LoopState (A : TA Nat) (level dist : Nat → Nat) (s : Nat) (es : List (Transition Nat)) : Prop :=
  (∀ e ∈ es, ∃ q, e.target = some q ∧ (level q < level s ∨ (level q = level s ∧ e.guard = [] ∧ e.resets = []))) ∧
  (((∃ e ∈ es, A.isAcc e = true) ∧ ∀ e ∈ es, A.isAcc e = true ∨ ¬ Leaves level (level s) e) ∨
    ((∀ e ∈ es, A.isAcc e = false) ∧ (es.Pairwise fun e f => Leaves level (level s) e → Leaves level (level s) f) ∧
      ((∃ e ∈ es, Leaves level (level s) e) ∨ ∃ es' e q, es = es' ++ [e] ∧ e.target = some q ∧ level q = level s ∧ dist q < dist s)))

/-- States of the same level have the same transitions leaving the level. -/
def LoopShare (A : TA Nat) (level : Nat → Nat) (s : Nat) (c : Alphabet) (es : List (Transition Nat)) : Prop :=
  ∀ t ∈ A.states, ∀ c' fs, level t = level s → (A.st t).next = [(c', fs)] →
    ((∃ f ∈ fs, Leaves level (level s) f) → ∀ e ∈ es, Leaves level (level s) e → e ∈ fs) ∧ (c = dollar → c' = dollar)

/-- `OrderedLoops`, except that the order of transitions to accepting states is arbitrary. -/
def LoopTA (A : TA Nat) : Prop := A.init ≠ [] ∧ ∃ level dist : Nat → Nat, ∀ s ∈ A.states,
  ((A.st s).isMatch = true ∧ level s = 0) ∨
  ((A.st s).isMatch = false ∧ 0 < level s ∧ ∃ c es, (A.st s).next = [(c, es)] ∧ A.LoopState level dist s es ∧ A.LoopShare level s c es)

/-- A state with a transition to an accepting state has no other ones. -/
def EndTA (A : TA Nat) : Prop :=
  ∀ s ∈ A.states, ∀ c es, (A.st s).next = [(c, es)] → (∃ e ∈ es, A.isAcc e = true) → ∀ e ∈ es, A.isAcc e = true

theorem LoopTA.oneLetter {A : TA Nat} (h : A.LoopTA) : A.SingleLetter := by
  obtain ⟨h0, level, dist, h⟩ := h
  refine ⟨h0, fun s hs => (h s hs).imp And.left ?_⟩
  rintro ⟨hm, -, c, es, hn, ⟨ht, -⟩, -⟩
  exact ⟨hm, c, es, hn, fun e he => (ht e he).imp fun q hq => hq.1⟩

theorem LoopTA.ordered {A : TA Nat} (hw : A.Wf) (h : A.LoopTA) (hE : A.EndTA) : A.OrderedLoops := by
  obtain ⟨h0, level, dist, h⟩ := h
  refine ⟨level, dist, fun s hs => ?_⟩
  rcases h s hs with ⟨hm, hl⟩ | ⟨hm, hpos, c, es, hn, ⟨ht, hc⟩, hsh⟩
  · exact .inl ⟨hw.term s hs hm, hl⟩
  · refine .inr ⟨hm, hpos, c, es, hn, fun e he q hq => ?_, ?_⟩
    · obtain ⟨q', hq', h⟩ := ht e he
      rw [hq] at hq'
      cases hq'
      exact h
    · rcases hc with ⟨⟨e, he, ha⟩, -⟩ | ⟨-, h1, h2⟩
      · have hall : ∀ f ∈ es, Leaves level (level s) f := fun f hf => by
          obtain ⟨q, hq, hmq⟩ := isAcc_iff.1 (hE s hs c es hn ⟨e, he, ha⟩ f hf)
          refine ⟨q, hq, ?_⟩
          rcases h q (hw.closed s hs c f (edge_mem hn hf) q hq) with ⟨-, h⟩ | ⟨h, -⟩
          · omega
          · rw [hmq] at h
            cases h
        exact ⟨List.pairwise_of_forall_mem_list fun _ _ f hf _ => hall f hf, .inl ⟨e, he, hall e he⟩, hsh⟩
      · exact ⟨h1, h2, hsh⟩

theorem leaves_congr {level level' : Nat → Nat} {k k' : Nat} {e e' : Transition Nat} {q q' : Nat} (h : e.target = some q)
    (h' : e'.target = some q') (hlt : level q < k ↔ level' q' < k') : Leaves level k e ↔ Leaves level' k' e' := by
  constructor
  · rintro ⟨x, hx, hl⟩
    rw [h] at hx
    cases hx
    exact ⟨q', h', hlt.1 hl⟩
  · rintro ⟨x, hx, hl⟩
    rw [h'] at hx
    cases hx
    exact ⟨q, h, hlt.2 hl⟩

/-- A map of the transitions which changes neither the levels of the targets nor the transitions which stay on a level. -/
theorem LoopState.map {A B : TA Nat} {level dist : Nat → Nat} {s : Nat} {es : List (Transition Nat)} (h : A.LoopState level dist s es)
    (f : Transition Nat → Transition Nat) (hacc : ∀ e ∈ es, B.isAcc (f e) = A.isAcc e)
    (hlv : ∀ e ∈ es, ∀ q, e.target = some q → ∃ q', (f e).target = some q' ∧ level q' = level q)
    (hsame : ∀ e ∈ es, ∀ q, e.target = some q → level q = level s → f e = e) :
    B.LoopState level dist s (es.map f) := by
  obtain ⟨ht, h⟩ := h
  have hleave : ∀ e ∈ es, Leaves level (level s) (f e) ↔ Leaves level (level s) e := fun e he => by
    obtain ⟨q, hq, -⟩ := ht e he
    obtain ⟨q', hq', hl⟩ := hlv e he q hq
    exact leaves_congr hq' hq (by rw [hl])
  refine ⟨fun e he => ?_, ?_⟩
  · rw [List.mem_map] at he; obtain ⟨e, he, rfl⟩ := he
    obtain ⟨q, hq, hc⟩ := ht e he
    obtain ⟨q', hq', hl⟩ := hlv e he q hq
    rcases hc with hc | ⟨hc, h1, h2⟩
    · exact ⟨q', hq', .inl (by omega)⟩
    · rw [hsame e he q hq hc]
      exact ⟨q, hq, .inr ⟨hc, h1, h2⟩⟩
  · rcases h with ⟨⟨e, he, ha⟩, h⟩ | ⟨h1, h2, h3⟩
    · refine .inl ⟨⟨f e, List.mem_map_of_mem he, by rw [hacc e he]; exact ha⟩, fun x hx => ?_⟩
      rw [List.mem_map] at hx; obtain ⟨x, hx, rfl⟩ := hx
      rw [hacc x hx, hleave x hx]
      exact h x hx
    · refine .inr ⟨fun x hx => ?_, ?_, ?_⟩
      · rw [List.mem_map] at hx; obtain ⟨x, hx, rfl⟩ := hx
        rw [hacc x hx]
        exact h1 x hx
      · rw [List.pairwise_map]
        exact h2.imp_of_mem fun ha hb hab => by rw [hleave _ ha, hleave _ hb]; exact hab
      · rcases h3 with ⟨e, he, hl⟩ | ⟨es', e, q, rfl, hq, hl, hd⟩
        · exact .inl ⟨f e, List.mem_map_of_mem he, (hleave e he).2 hl⟩
        · refine .inr ⟨es'.map f, e, q, ?_, hq, hl, hd⟩
          rw [List.map_append, List.map_cons, List.map_nil, hsame e (by simp) q hq hl]

/-- Transitions which leave the level are mapped in the same way. -/
theorem LoopTA.map {A B : TA Nat} (h : A.LoopTA) (f : Transition Nat → Transition Nat) (hsub : ∀ s ∈ B.states, s ∈ A.states)
    (hinit : A.init ≠ [] → B.init ≠ []) (hm : ∀ s ∈ B.states, (B.st s).isMatch = (A.st s).isMatch)
    (hnext : ∀ s ∈ B.states, (B.st s).next = (A.st s).next.map fun p => (p.1, p.2.map f))
    (hacc : ∀ s ∈ B.states, ∀ c es, (A.st s).next = [(c, es)] → ∀ e ∈ es, B.isAcc (f e) = A.isAcc e)
    (hlv : ∀ s ∈ B.states, ∀ c es, (A.st s).next = [(c, es)] → ∀ e ∈ es, ∀ q, e.target = some q → ∃ q', (f e).target = some q' ∧
      (q' = q ∨ (q ∈ A.states ∧ q' ∈ A.states ∧ (A.st q).isMatch = true ∧ (A.st q').isMatch = true)))
    (hsame : ∀ s ∈ B.states, ∀ c es, (A.st s).next = [(c, es)] → ∀ e ∈ es, A.isAcc e = false → f e = e)
    (hcl : ∀ s ∈ A.states, ∀ c es, (A.st s).next = [(c, es)] → ∀ e ∈ es, ∀ q, e.target = some q → q ∈ A.states) : B.LoopTA := by
  obtain ⟨h0, level, dist, h⟩ := h
  have hzero : ∀ q ∈ A.states, (A.st q).isMatch = true → level q = 0 := fun q hq hm => by
    rcases h q hq with h | h
    · exact h.2
    · rw [hm] at h
      cases h.1
  have hlv' : ∀ s ∈ B.states, ∀ c es, (A.st s).next = [(c, es)] → ∀ e ∈ es, ∀ q, e.target = some q →
      ∃ q', (f e).target = some q' ∧ level q' = level q := fun s hs c es hn e he q hq => by
    obtain ⟨q', hq', h | ⟨h1, h2, h3, h4⟩⟩ := hlv s hs c es hn e he q hq
    · exact ⟨q', hq', by rw [h]⟩
    · exact ⟨q', hq', by rw [hzero _ h1 h3, hzero _ h2 h4]⟩
  refine ⟨hinit h0, level, dist, fun s hs => ?_⟩
  rw [hm s hs]
  refine (h s (hsub s hs)).imp id ?_
  rintro ⟨hms, hpos, c, es, hn, hS, hsh⟩
  refine ⟨hms, hpos, c, es.map f, by rw [hnext s hs, hn]; rfl, hS.map f (hacc s hs c es hn) (hlv' s hs c es hn) fun e he q hq hl => ?_,
    fun t ht c' fs hl hnt => ?_⟩
  · refine hsame s hs c es hn e he ?_
    rw [Bool.eq_false_iff]
    intro ha
    obtain ⟨q', hq', hmq⟩ := isAcc_iff.1 ha
    rw [hq] at hq'
    cases hq'
    have := hzero q (hcl s (hsub s hs) c es hn e he q hq) hmq
    omega
  · rcases h t (hsub t ht) with ⟨-, hz⟩ | ⟨-, -, ct, gs, hgt, hSt, -⟩
    · omega
    have h1 := hsh t (hsub t ht) ct gs hl hgt
    have h2 := hnext t ht
    rw [hgt, hnt] at h2
    simp only [List.map_cons, List.map_nil, List.cons.injEq, Prod.mk.injEq, and_true] at h2
    obtain ⟨rfl, rfl⟩ := h2
    have hleave : ∀ s ∈ B.states, ∀ c es, (A.st s).next = [(c, es)] → (∀ e ∈ es, ∃ q, e.target = some q) → ∀ k, ∀ e ∈ es,
        (Leaves level k (f e) ↔ Leaves level k e) := fun s hs c es hn ht k e he => by
      obtain ⟨q, hq⟩ := ht e he
      obtain ⟨q', hq', hl⟩ := hlv' s hs c es hn e he q hq
      exact leaves_congr hq' hq (by rw [hl])
    refine ⟨?_, h1.2⟩
    rintro ⟨x, hx, hlx⟩ y hy hly
    rw [List.mem_map] at hx; obtain ⟨x, hx, rfl⟩ := hx
    rw [List.mem_map] at hy; obtain ⟨y, hy, rfl⟩ := hy
    rw [hleave t ht _ _ hgt (fun e he => (hSt.1 e he).imp fun _ h => h.1) _ x hx] at hlx
    rw [hleave s hs _ _ hn (fun e he => (hS.1 e he).imp fun _ h => h.1) _ y hy] at hly
    exact List.mem_map_of_mem (h1.1 ⟨x, hx, hlx⟩ y hy hly)

theorem LoopTA.fin {D B : TA Nat} {ts : List Nat} (hF : Fin D B ts) (hD : D.Wf) (h : D.LoopTA) : B.LoopTA := by
  have hcl : ∀ s ∈ D.states, ∀ c es, (D.st s).next = [(c, es)] → ∀ e ∈ es, ∀ q, e.target = some q → q ∈ D.states :=
    fun s hs c es hn e he q hq => hD.closed s hs c e (edge_mem hn he) q hq
  refine h.map (redirect ts) hF.sub hF.init (fun s _ => hF.mtch s) hF.next (fun s _ c es _ e _ => hF.isAcc e) (fun s hs c es hn e he q hq => ?_)
    (fun s hs c es hn e he ha => ?_) hcl
  · refine ⟨rep ts q, by rw [redirect_target, hq]; rfl, ?_⟩
    by_cases hm : q ∈ ts
    · exact .inr ⟨(hF.ts q hm).2, (hF.ts _ (rep_mem hm)).2, (hF.ts q hm).1, (hF.ts _ (rep_mem hm)).1⟩
    · exact .inl (by rw [rep, if_neg hm])
  · unfold redirect
    split
    · rfl
    · rename_i q hq
      rw [if_neg]
      intro hm
      rw [isAcc_iff.2 ⟨q, hq, (hF.ts q hm).1⟩] at ha
      cases ha

theorem EndTA.fin {D B : TA Nat} {ts : List Nat} (hF : Fin D B ts) (hO : D.SingleLetter) (hB : B.Wf) (h : D.EndTA) : B.EndTA := by
  intro s hs c es hn ⟨e, he, ha⟩ x hx
  rcases hO.2 s (hF.sub s hs) with hm | ⟨-, c', fs, hn', -⟩
  · rw [← hF.mtch] at hm
    rw [hB.term s hs hm] at hn
    cases hn
  · have := hF.single hs hn'
    rw [hn] at this
    simp only [List.cons.injEq, Prod.mk.injEq, and_true] at this
    obtain ⟨rfl, rfl⟩ := this
    rw [List.mem_map] at he; obtain ⟨e, he, rfl⟩ := he
    rw [List.mem_map] at hx; obtain ⟨x, hx, rfl⟩ := hx
    rw [hF.isAcc] at ha ⊢
    exact h s (hF.sub s hs) c fs hn' ⟨e, he, ha⟩ x hx

theorem isAcc_congr {A : TA Nat} (hw : A.Wf) {st : Nat → TAState Nat} (hst : ∀ s ∈ A.states, st s = A.st s) {s : Nat} (hs : s ∈ A.states)
    {c : Alphabet} {es : List (Transition Nat)} (hn : (A.st s).next = [(c, es)]) {e : Transition Nat} (he : e ∈ es) :
    ({ A with st := st } : TA Nat).isAcc e = A.isAcc e := by
  unfold TA.isAcc
  cases hq : e.target with
  | none => rfl
  | some q =>
    simp only
    rw [hst q (hw.closed s hs c e (edge_mem hn he) q hq)]

theorem LoopTA.congr {A : TA Nat} (hw : A.Wf) (h : A.LoopTA) {st : Nat → TAState Nat} (hst : ∀ s ∈ A.states, st s = A.st s) :
    ({ A with st := st } : TA Nat).LoopTA := by
  refine h.map id (fun s hs => hs) id (fun s hs => by simp only [hst s hs]) (fun s hs => by simp [hst s hs])
    (fun s hs c es hn e he => isAcc_congr hw hst hs hn he) (fun s hs c es hn e he q hq => ⟨q, hq, .inl rfl⟩)
    (fun _ _ _ _ _ _ _ _ => rfl) fun s hs c es hn e he q hq => hw.closed s hs c e (edge_mem hn he) q hq

theorem UTA.loop {A : TA Nat} (hw : A.Wf) (hc : A.clockSize = 0)
    (hone : ∀ s ∈ A.states, ∀ s' ∈ A.states, (A.st s).isMatch = true → (A.st s').isMatch = true → s = s') (h : A.UTA) : A.LoopTA := by
  obtain ⟨h0, dist, h⟩ := h
  refine ⟨h0, fun s => if (A.st s).isMatch then 0 else 1, dist, fun s hs => ?_⟩
  rcases h s hs with hm | ⟨hm, c, es, hn, hd, ht, hl⟩
  · exact .inl ⟨hm, by simp [hm]⟩
  have hlv : ∀ e, Leaves (fun s => if (A.st s).isMatch then 0 else 1) 1 e ↔ A.isAcc e = true := fun e => by
    rw [isAcc_iff]
    refine exists_congr fun q => and_congr_right fun _ => ?_
    cases h : (A.st q).isMatch <;> simp [h]
  have hls : (fun s => if (A.st s).isMatch then 0 else 1) s = 1 := by simp [hm]
  refine .inr ⟨hm, by simp [hm], c, es, hn, ⟨fun e he => ?_, ?_⟩, fun t htt c' fs hlt hnt => ?_⟩
  · obtain ⟨q, hq⟩ := ht e he
    refine ⟨q, hq, ?_⟩
    rw [hls]
    obtain ⟨h1, h2⟩ := hw.noClocks hc hs (edge_mem hn he)
    by_cases hmq : (A.st q).isMatch = true
    · exact .inl (by simp [hmq])
    · exact .inr ⟨by simp [hmq], h1, h2⟩
  · rw [hls]
    simp only [hlv]
    by_cases ha : ∃ e ∈ es, A.isAcc e = true
    · exact .inl ⟨ha, fun e _ => Classical.em _⟩
    · have hno : ∀ e ∈ es, A.isAcc e = false := fun e he => by simpa using fun h => ha ⟨e, he, h⟩
      refine .inr ⟨hno, ?_, ?_⟩
      · refine List.pairwise_of_forall_mem_list fun e he f hf h => ?_
        rw [hno e he] at h
        cases h
      · rcases hl with hl | ⟨es', e, q, he, hq, hmq, hlt⟩
        · exact absurd hl ha
        · exact .inr ⟨es', e, q, he, hq, by simp [hmq], hlt⟩
  · rw [hls]
    simp only [hlv]
    refine ⟨?_, fun h => absurd h hd⟩
    rintro ⟨f, hf, haf⟩ e he hae
    obtain ⟨q1, hq1, hm1⟩ := isAcc_iff.1 haf
    obtain ⟨q2, hq2, hm2⟩ := isAcc_iff.1 hae
    obtain ⟨g1, r1⟩ := hw.noClocks hc htt (edge_mem hnt hf)
    obtain ⟨g2, r2⟩ := hw.noClocks hc hs (edge_mem hn he)
    have h12 := hone q1 (hw.closed t htt c' f (edge_mem hnt hf) q1 hq1) q2 (hw.closed s hs c e (edge_mem hn he) q2 hq2) hm1 hm2
    have : e = f := by
      rcases e with ⟨te, re, ge⟩
      rcases f with ⟨tf, rf, gf⟩
      simp only at *
      subst g1 g2 r1 r2 h12
      rw [hq1, hq2]
    rw [this]
    exact hf

end TA

end Verif
