import Verif.Lemmas.TREBase
import Verif.Lemmas.Interval

/-! The automata for the operators. -/

set_option linter.unusedSectionVars false

namespace Verif

variable {K : Type} [Field K] [LinearOrder K] [IsStrictOrderedRing K]

theorem maxVec_length (xs ys : List Int) : (maxVec xs ys).length = max xs.length ys.length := by
  induction xs generalizing ys with
  | nil => simp [maxVec]
  | cons x xs ih =>
    cases ys with
    | nil => simp only [maxVec, List.length_cons, ih, List.length_nil]; omega
    | cons y ys => simp only [maxVec, List.length_cons, ih]; omega

theorem mem_allClocks {n x : Nat} (hn : n ≤ 256) : x ∈ allClocks n ↔ x < n := by
  simp only [allClocks, List.mem_map, List.mem_range]
  constructor
  · rintro ⟨y, hy, rfl⟩
    rwa [Nat.mod_eq_of_lt (by omega)]
  · intro hx
    exact ⟨x, hx, Nat.mod_eq_of_lt (by omega)⟩

theorem endTime_nil (t0 : K) : endTime t0 [] = t0 := rfl

theorem endTime_cons (t0 : K) (a : Alphabet) (t : K) (w : TWord K) : endTime t0 ((a, t) :: w) = endTime t w := by
  cases w with
  | nil => rfl
  | cons p w => simp [endTime, List.getLast?_cons_cons, List.getLast?_cons]

theorem endTime_ne {t0 t1 : K} {w : TWord K} (h : w ≠ []) : endTime t0 w = endTime t1 w := by
  cases w with
  | nil => exact absurd rfl h
  | cons p w => obtain ⟨a, t⟩ := p; rw [endTime_cons, endTime_cons]

namespace TA

theorem Wf.congr {A : TA Nat} (h : A.Wf) {st : Nat → TAState Nat} (hst : ∀ s ∈ A.states, st s = A.st s) :
    ({ A with st := st } : TA Nat).Wf := by
  have hed : ∀ s ∈ A.states, ∀ a, ({ A with st := st } : TA Nat).edges s a = A.edges s a := by
    intro s hs a; simp only [edges, hst s hs]
  refine ⟨h.nodup, h.init, ?_, ?_, ?_, ?_, ?_, ?_, ?_, ?_⟩
  · intro s hs; simp only [hst s hs]; exact h.keys s hs
  · intro s hs; simp only [hst s hs]; exact h.ne s hs
  · intro s hs a e he; rw [hed s hs] at he; exact h.closed s hs a e he
  · intro s hs a e he; rw [hed s hs] at he; exact h.guards s hs a e he
  · intro s hs a e he; rw [hed s hs] at he; exact h.resets s hs a e he
  · intro s hs; rw [hed s hs]; exact h.lab s hs
  · intro s hs; simp only [hst s hs]; exact h.term s hs
  · intro s hs; simp only [hst s hs]; exact h.zterm s hs

theorem accepts_congr {A : TA Nat} (h : A.Wf) {st : Nat → TAState Nat} (hst : ∀ s ∈ A.states, st s = A.st s) (t0 : K) (w : TWord K) :
    ({ A with st := st } : TA Nat).AcceptsFrom t0 w ↔ A.AcceptsFrom t0 w := by
  simp only [acceptsFrom_iff]
  have : ∀ s ∈ A.init, (({ A with st := st } : TA Nat).Acc s (fun _ => t0) w ↔ A.Acc s (fun _ => t0) w) := fun s hs =>
    (acc_congr (A := A) (B := { A with st := st }) (X := A.states) (fun s hs => (hst s hs).symm) h.closed (h.init s hs) _ _).symm
  constructor
  · rintro ⟨s, hs, ha⟩; exact ⟨s, hs, (this s hs).1 ha⟩
  · rintro ⟨s, hs, ha⟩; exact ⟨s, hs, (this s hs).2 ha⟩

theorem isAcc_iff {A : TA Nat} {e : Transition Nat} : A.isAcc e = true ↔ ∃ q, e.target = some q ∧ (A.st q).isMatch = true := by
  unfold isAcc
  split
  · rename_i h; simp [h]
  · rename_i q h; simp [h]

/-! ### Concatenation -/

section concat
variable {L R : TA Nat} (hst : L.st = R.st) (hL : L.Wf) (hR : R.Wf) (hd : ∀ s ∈ L.states, s ∉ R.states)
include hst hL hR hd

theorem concat2_left {s : Nat} (hs : s ∈ L.states) : (L.concat2 R).st s =
    { (L.st s).mapEdges (L.concatEdges R.init R.clockSize) with isMatch := false } := by
  have hL' : ({ L with st := R.st } : TA Nat) = L := by rw [← hst]
  have hi : s ∉ R.init := fun h => hd s hs (hR.init s h)
  simp only [concat2, hL', mapSt, if_pos hs]
  congr 1 <;> split <;> simp [hs, hi, TAState.mapEdges, hst]

theorem concat2_right {s : Nat} (hs : s ∉ L.states) : (L.concat2 R).st s =
    if L.hasAccEdge = true ∧ s ∈ R.init then { R.st s with zeroDuration := false } else R.st s := by
  have hL' : ({ L with st := R.st } : TA Nat) = L := by rw [← hst]
  simp only [concat2, hL', mapSt, if_neg hs]
  by_cases ha : L.hasAccEdge = true <;> by_cases hi : s ∈ R.init <;> simp [ha, hi, hs, hst]

theorem concat2_edges_left {s : Nat} (hs : s ∈ L.states) (a : Alphabet) :
    (L.concat2 R).edges s a = L.concatEdges R.init R.clockSize (L.edges s a) := by
  rw [edges, concat2_left hst hL hR hd hs]
  exact Next.at'_map _ rfl _ _

theorem concat2_edges_right {s : Nat} (hs : s ∉ L.states) (a : Alphabet) : (L.concat2 R).edges s a = R.edges s a := by
  rw [edges, concat2_right hst hL hR hd hs]
  split <;> rfl

theorem concat2_clockSize : (L.concat2 R).clockSize = max L.clockSize R.clockSize := maxVec_length _ _

theorem mem_concatEdges {A : TA Nat} {ri : List Nat} {n : Nat} {es : List (Transition Nat)} {e : Transition Nat} :
    e ∈ A.concatEdges ri n es ↔ e ∈ es ∨ ∃ e' ∈ es, ∃ q, e'.target = some q ∧ (A.st q).isMatch = true ∧ ∃ i ∈ ri,
      e = { e' with target := some i, resets := allClocks n } := by
  simp only [concatEdges, List.mem_append, List.mem_flatMap]
  refine or_congr Iff.rfl ?_
  constructor
  · rintro ⟨e', he', h⟩
    split at h
    · rename_i hacc
      obtain ⟨q, hq, hm⟩ := isAcc_iff.1 hacc
      obtain ⟨i, hi, rfl⟩ := List.mem_map.1 h
      exact ⟨e', he', q, hq, hm, i, hi, rfl⟩
    · simp at h
  · rintro ⟨e', he', q, hq, hm, i, hi, rfl⟩
    refine ⟨e', he', ?_⟩
    rw [if_pos (isAcc_iff.2 ⟨q, hq, hm⟩)]
    exact List.mem_map.2 ⟨i, hi, rfl⟩

theorem concat2_wf (hn : R.clockSize ≤ 256) : (L.concat2 R).Wf := by
  have hcs : (L.concat2 R).clockSize = max L.clockSize R.clockSize := maxVec_length _ _
  have hL' : ({ L with st := R.st } : TA Nat) = L := by rw [← hst]
  have hstates : ∀ s, s ∈ (L.concat2 R).states ↔ s ∈ L.states ∨ s ∈ R.states := fun s => by simp [concat2]
  have hRL : ∀ s ∈ R.states, s ∉ L.states := fun s hs h => hd s h hs
  have hinit : ∀ s, s ∈ (L.concat2 R).init → s ∈ L.init ∨ s ∈ R.init := by
    intro s hs
    simp only [concat2, hL'] at hs
    split at hs
    · exact List.mem_append.1 hs
    · exact Or.inl hs
  refine ⟨?_, ?_, ?_, ?_, ?_, ?_, ?_, ?_, ?_, ?_⟩
  · simp only [concat2]
    exact List.Nodup.append hL.nodup hR.nodup (fun s h1 h2 => hd s h1 h2)
  · intro s hs
    rw [hstates]
    exact (hinit s hs).imp (hL.init s) (hR.init s)
  · intro s hs
    rcases (hstates s).1 hs with hs | hs
    · rw [concat2_left hst hL hR hd hs]
      simpa [TAState.mapEdges, Function.comp_def] using hL.keys s hs
    · rw [concat2_right hst hL hR hd (hRL s hs)]
      split <;> exact hR.keys s hs
  · intro s hs p hp
    rcases (hstates s).1 hs with hs | hs
    · rw [concat2_left hst hL hR hd hs] at hp
      simp only [TAState.mapEdges, List.mem_map] at hp
      obtain ⟨p', hp', rfl⟩ := hp
      have := hL.ne s hs p' hp'
      simp [concatEdges, this]
    · rw [concat2_right hst hL hR hd (hRL s hs)] at hp
      refine hR.ne s hs p ?_
      split at hp <;> exact hp
  · intro s hs a e he q hq
    rw [hstates]
    rcases (hstates s).1 hs with hs | hs
    · rw [concat2_edges_left hst hL hR hd hs, mem_concatEdges hst hL hR hd] at he
      rcases he with he | ⟨e', he', q', _, _, i, hi, rfl⟩
      · exact Or.inl (hL.closed s hs a e he q hq)
      · simp only [Option.some.injEq] at hq
        exact Or.inr (hq ▸ hR.init i hi)
    · rw [concat2_edges_right hst hL hR hd (hRL s hs)] at he
      exact Or.inr (hR.closed s hs a e he q hq)
  · intro s hs a e he g hg
    rw [hcs]
    rcases (hstates s).1 hs with hs | hs
    · rw [concat2_edges_left hst hL hR hd hs, mem_concatEdges hst hL hR hd] at he
      rcases he with he | ⟨e', he', q', _, _, i, hi, rfl⟩
      · have := hL.guards s hs a e he g hg; omega
      · have := hL.guards s hs a e' he' g hg; omega
    · rw [concat2_edges_right hst hL hR hd (hRL s hs)] at he
      have := hR.guards s hs a e he g hg; omega
  · intro s hs a e he g hg
    rw [hcs]
    rcases (hstates s).1 hs with hs | hs
    · rw [concat2_edges_left hst hL hR hd hs, mem_concatEdges hst hL hR hd] at he
      rcases he with he | ⟨e', he', q', _, _, i, hi, rfl⟩
      · have := hL.resets s hs a e he g hg; omega
      · have := (mem_allClocks hn).1 hg; omega
    · rw [concat2_edges_right hst hL hR hd (hRL s hs)] at he
      have := hR.resets s hs a e he g hg; omega
  · intro s hs
    rcases (hstates s).1 hs with hs | hs
    · rw [concat2_edges_left hst hL hR hd hs, hL.lab s hs]; rfl
    · rw [concat2_edges_right hst hL hR hd (hRL s hs), hR.lab s hs]
  · intro s hs hm
    rcases (hstates s).1 hs with hs | hs
    · rw [concat2_left hst hL hR hd hs] at hm; simp at hm
    · rw [concat2_right hst hL hR hd (hRL s hs)] at hm ⊢
      split at hm <;> rename_i hc <;> simp only [hc, if_true, if_false] <;> exact hR.term s hs hm
  · intro s hs hm
    rcases (hstates s).1 hs with hs | hs
    · rw [concat2_left hst hL hR hd hs] at hm ⊢
      simp only [TAState.mapEdges] at hm ⊢
      rw [hL.zterm s hs hm, List.map_nil]
    · rw [concat2_right hst hL hR hd (hRL s hs)] at hm ⊢
      split at hm <;> rename_i hc
      · simp at hm
      · rw [if_neg hc]; exact hR.zterm s hs hm

theorem acc_concat2_right {s : Nat} (hs : s ∈ R.states) (r : Nat → K) (w : TWord K) :
    (L.concat2 R).Acc s r w ↔ R.Acc s r w := by
  induction w generalizing s r with
  | nil =>
    simp only [Acc]
    rw [concat2_right hst hL hR hd (fun h => hd s h hs)]
    split <;> rfl
  | cons p w ih =>
    obtain ⟨a, t⟩ := p
    simp only [Acc, concat2_edges_right hst hL hR hd (fun h => hd s h hs)]
    constructor
    · rintro ⟨e, he, q, hq, hg, hacc⟩
      exact ⟨e, he, q, hq, hg, (ih (hR.closed s hs a e he q hq) _).1 hacc⟩
    · rintro ⟨e, he, q, hq, hg, hacc⟩
      exact ⟨e, he, q, hq, hg, (ih (hR.closed s hs a e he q hq) _).2 hacc⟩

theorem acc_concat2_left (hn : R.clockSize ≤ 256) {s : Nat} (hs : s ∈ L.states) (r : Nat → K) (w : TWord K) :
    (L.concat2 R).Acc s r w ↔
      ∃ u v, w = u ++ v ∧ u ≠ [] ∧ L.Acc s r u ∧ R.AcceptsFrom (endTime 0 u) v := by
  induction w generalizing s r with
  | nil =>
    simp only [Acc, concat2_left hst hL hR hd hs]
    constructor
    · intro h; simp at h
    · rintro ⟨u, v, hw, hu, _⟩
      exact absurd (List.append_eq_nil_iff.1 hw.symm).1 hu
  | cons p w ih =>
    obtain ⟨a, t⟩ := p
    simp only [Acc, concat2_edges_left hst hL hR hd hs, mem_concatEdges hst hL hR hd]
    constructor
    · rintro ⟨e, he | ⟨e', he', q', hq', hm', i, hi, rfl⟩, q, hq, hg, hacc⟩
      · obtain ⟨u, v, rfl, hu, h1, h2⟩ := (ih (hL.closed s hs a e he q hq) _).1 hacc
        refine ⟨(a, t) :: u, v, rfl, by simp, ⟨e, he, q, hq, hg, h1⟩, ?_⟩
        rw [endTime_cons, endTime_ne (t1 := 0) hu]
        exact h2
      · simp only [Option.some.injEq] at hq
        subst hq
        refine ⟨[(a, t)], w, rfl, by simp, ⟨e', he', q', hq', hg, hm'⟩, ?_⟩
        rw [endTime_cons, endTime_nil, acceptsFrom_iff]
        refine ⟨i, hi, ?_⟩
        have h1 := (acc_concat2_right hst hL hR hd (hR.init i hi) _ _).1 hacc
        exact (acc_clocks hR.closed hR.guards (hR.init i hi)
          (fun x hx => by simp [resetAt, (mem_allClocks hn).2 hx]) w).1 h1
    · rintro ⟨u, v, hw, hu, h1, h2⟩
      cases u with
      | nil => exact absurd rfl hu
      | cons p u =>
        simp only [List.cons_append, List.cons.injEq] at hw
        obtain ⟨rfl, rfl⟩ := hw
        obtain ⟨e, he, q, hq, hg, h1⟩ := h1
        cases u with
        | nil =>
          rw [endTime_cons, endTime_nil, acceptsFrom_iff] at h2
          obtain ⟨i, hi, h2⟩ := h2
          refine ⟨_, Or.inr ⟨e, he, q, hq, h1, i, hi, rfl⟩, i, rfl, hg, ?_⟩
          simp only [List.nil_append]
          rw [acc_concat2_right hst hL hR hd (hR.init i hi)]
          exact (acc_clocks hR.closed hR.guards (hR.init i hi)
            (fun x hx => by simp [resetAt, (mem_allClocks hn).2 hx]) v).2 h2
        | cons p' u =>
          refine ⟨e, Or.inl he, q, hq, hg, (ih (hL.closed s hs a e he q hq) _).2 ⟨p' :: u, v, rfl, by simp, h1, ?_⟩⟩
          rw [endTime_cons, endTime_ne (t1 := 0) (by simp)] at h2
          exact h2

theorem accepts_concat2 (hn : R.clockSize ≤ 256) (t0 : K) (w : TWord K) :
    (L.concat2 R).AcceptsFrom t0 w ↔ ∃ u v, w = u ++ v ∧ L.AcceptsFrom t0 u ∧ R.AcceptsFrom (endTime t0 u) v := by
  have hL' : ({ L with st := R.st } : TA Nat) = L := by rw [← hst]
  rw [acceptsFrom_iff]
  constructor
  · rintro ⟨s, hs, hacc⟩
    have left : s ∈ L.init → ∃ u v, w = u ++ v ∧ L.AcceptsFrom t0 u ∧ R.AcceptsFrom (endTime t0 u) v := by
      intro hs
      obtain ⟨u, v, rfl, hu, h1, h2⟩ := (acc_concat2_left hst hL hR hd hn (hL.init s hs) _ _).1 hacc
      refine ⟨u, v, rfl, (acceptsFrom_iff _ _ _).2 ⟨s, hs, h1⟩, ?_⟩
      rw [endTime_ne (t1 := 0) hu]; exact h2
    simp only [concat2, hL'] at hs
    split at hs
    · rename_i hc
      rcases List.mem_append.1 hs with hs | hs
      · exact left hs
      · simp only [List.any_eq_true] at hc
        obtain ⟨i, hi, hm⟩ := hc
        refine ⟨[], w, rfl, (acceptsFrom_iff _ _ _).2 ⟨i, hi, by rw [Acc, hst]; exact hm⟩, ?_⟩
        rw [endTime_nil, acceptsFrom_iff]
        exact ⟨s, hs, (acc_concat2_right hst hL hR hd (hR.init s hs) _ _).1 hacc⟩
    · exact left hs
  · rintro ⟨u, v, rfl, h1, h2⟩
    obtain ⟨s, hs, h1⟩ := (acceptsFrom_iff _ _ _).1 h1
    by_cases hu : u = []
    · subst hu
      obtain ⟨i, hi, h2⟩ := (acceptsFrom_iff _ _ _).1 h2
      refine ⟨i, ?_, (acc_concat2_right hst hL hR hd (hR.init i hi) _ _).2 h2⟩
      simp only [concat2, hL']
      rw [Acc, hst] at h1
      rw [if_pos (List.any_eq_true.2 ⟨s, hs, h1⟩)]
      exact List.mem_append_right _ hi
    · refine ⟨s, ?_, (acc_concat2_left hst hL hR hd hn (hL.init s hs) _ _).2 ⟨u, v, rfl, hu, h1, ?_⟩⟩
      · simp only [concat2, hL']
        split
        · exact List.mem_append_left _ hs
        · exact hs
      · rw [endTime_ne (t1 := t0) hu]; exact h2

end concat

/-- A word is accepted: it is empty, or there is a transition to an accepting state. -/
theorem hasAccEdge_of_accepts {A : TA Nat} (h : A.Wf) {t0 : K} {w : TWord K} (ha : A.AcceptsFrom t0 w) :
    A.hasAccEdge = true ∨ ∃ s ∈ A.init, (A.st s).isMatch = true := by
  obtain ⟨s, hs, hacc⟩ := (acceptsFrom_iff _ _ _).1 ha
  have key : ∀ (w : TWord K) (s : Nat) (r : Nat → K), s ∈ A.states → A.Acc s r w → w ≠ [] → A.hasAccEdge = true := by
    intro w
    induction w with
    | nil => intro s r _ _ h; exact absurd rfl h
    | cons p w ih =>
      obtain ⟨a, t⟩ := p
      rintro s r hs ⟨e, he, q, hq, _, hacc⟩ _
      have hqs := h.closed s hs a e he q hq
      by_cases hw : w = []
      · subst hw
        simp only [hasAccEdge, List.any_eq_true]
        obtain ⟨l, hl, hel⟩ := (Next.mem_at'_iff (h.keys s hs)).1 he
        exact ⟨s, hs, (a, l), hl, e, hel, isAcc_iff.2 ⟨q, hq, hacc⟩⟩
      · exact ih q _ hqs hacc hw
  by_cases hw : w = []
  · subst hw
    exact Or.inr ⟨s, hs, hacc⟩
  · exact Or.inl (key w s _ (h.init s hs) hacc hw)

/-! ### Choice -/

section disj
variable {L R : TA Nat} (hst : L.st = R.st) (hL : L.Wf) (hR : R.Wf) (hd : ∀ s ∈ L.states, s ∉ R.states)
include hst hL hR hd

theorem disj_wf : (L.disjTA R).Wf := by
  have hcs : (L.disjTA R).clockSize = max L.clockSize R.clockSize := maxVec_length _ _
  have hstates : ∀ s, s ∈ (L.disjTA R).states ↔ s ∈ L.states ∨ s ∈ R.states := fun s => by simp [disjTA]
  have hs1 : ∀ s, (L.disjTA R).st s = L.st s := fun s => by rw [hst]; rfl
  have hs2 : ∀ s, (L.disjTA R).st s = R.st s := fun s => rfl
  have he1 : ∀ s a, (L.disjTA R).edges s a = L.edges s a := fun s a => by simp only [edges, hs1]
  have he2 : ∀ s a, (L.disjTA R).edges s a = R.edges s a := fun s a => rfl
  refine ⟨?_, ?_, ?_, ?_, ?_, ?_, ?_, ?_, ?_, ?_⟩
  · exact List.Nodup.append hL.nodup hR.nodup (fun s h1 h2 => hd s h1 h2)
  · intro s hs
    rw [hstates]
    exact (List.mem_append.1 hs).imp (hL.init s) (hR.init s)
  · intro s hs
    rcases (hstates s).1 hs with hs | hs
    · rw [hs1]; exact hL.keys s hs
    · exact hR.keys s hs
  · intro s hs
    rcases (hstates s).1 hs with hs | hs
    · rw [hs1]; exact hL.ne s hs
    · exact hR.ne s hs
  · intro s hs a e he q hq
    rw [hstates]
    rcases (hstates s).1 hs with hs | hs
    · rw [he1] at he; exact Or.inl (hL.closed s hs a e he q hq)
    · exact Or.inr (hR.closed s hs a e he q hq)
  · intro s hs a e he g hg
    rw [hcs]
    rcases (hstates s).1 hs with hs | hs
    · rw [he1] at he; have := hL.guards s hs a e he g hg; omega
    · have := hR.guards s hs a e he g hg; omega
  · intro s hs a e he g hg
    rw [hcs]
    rcases (hstates s).1 hs with hs | hs
    · rw [he1] at he; have := hL.resets s hs a e he g hg; omega
    · have := hR.resets s hs a e he g hg; omega
  · intro s hs
    rcases (hstates s).1 hs with hs | hs
    · rw [he1]; exact hL.lab s hs
    · exact hR.lab s hs
  · intro s hs
    rcases (hstates s).1 hs with hs | hs
    · rw [hs1]; exact hL.term s hs
    · exact hR.term s hs
  · intro s hs
    rcases (hstates s).1 hs with hs | hs
    · rw [hs1]; exact hL.zterm s hs
    · exact hR.zterm s hs

theorem accepts_disj (t0 : K) (w : TWord K) : (L.disjTA R).AcceptsFrom t0 w ↔ L.AcceptsFrom t0 w ∨ R.AcceptsFrom t0 w := by
  simp only [acceptsFrom_iff]
  have h1 : ∀ s ∈ L.init, ((L.disjTA R).Acc s (fun _ => t0) w ↔ L.Acc s (fun _ => t0) w) := fun s hs =>
    (acc_congr (A := L) (B := L.disjTA R) (X := L.states) (fun s _ => by rw [hst]; rfl) hL.closed (hL.init s hs) _ _).symm
  have h2 : ∀ s ∈ R.init, ((L.disjTA R).Acc s (fun _ => t0) w ↔ R.Acc s (fun _ => t0) w) := fun s hs =>
    (acc_congr (A := R) (B := L.disjTA R) (X := R.states) (fun s _ => rfl) hR.closed (hR.init s hs) _ _).symm
  constructor
  · rintro ⟨s, hs, ha⟩
    rcases List.mem_append.1 hs with hs | hs
    · exact Or.inl ⟨s, hs, (h1 s hs).1 ha⟩
    · exact Or.inr ⟨s, hs, (h2 s hs).1 ha⟩
  · rintro (⟨s, hs, ha⟩ | ⟨s, hs, ha⟩)
    · exact ⟨s, List.mem_append_left _ hs, (h1 s hs).2 ha⟩
    · exact ⟨s, List.mem_append_right _ hs, (h2 s hs).2 ha⟩

end disj

/-! ### Repetition -/

section plus
variable {A : TA Nat} (h : A.Wf)

theorem mem_plusEdges {es : List (Transition Nat)} {e : Transition Nat} :
    e ∈ A.plusEdges es ↔ e ∈ es ∨ ∃ e' ∈ es, ∃ q, e'.target = some q ∧ (A.st q).isMatch = true ∧
      (A.st q).zeroDuration = false ∧ ∃ i ∈ A.init, (A.st i).zeroDuration = false ∧
      e = { e' with target := some i, resets := e'.resets ++ allClocks A.clockSize } := by
  simp only [plusEdges, List.mem_append, List.mem_flatMap]
  refine or_congr Iff.rfl ?_
  constructor
  · rintro ⟨e', he', hh⟩
    split at hh
    · simp at hh
    · rename_i q hq
      split at hh
      · rename_i hc
        simp only [Bool.and_eq_true, Bool.not_eq_true'] at hc
        obtain ⟨i, hi, rfl⟩ := List.mem_map.1 hh
        simp only [List.mem_filter, Bool.not_eq_true'] at hi
        exact ⟨e', he', q, hq, hc.1, hc.2, i, hi.1, hi.2, rfl⟩
      · simp at hh
  · rintro ⟨e', he', q, hq, hm, hz, i, hi, hzi, rfl⟩
    refine ⟨e', he', ?_⟩
    simp only [hq, hm, hz, Bool.not_false, Bool.and_self, if_true]
    exact List.mem_map.2 ⟨i, by simp [hi, hzi], rfl⟩

theorem plus_st {s : Nat} (hs : s ∈ A.states) : A.plusTA.st s = (A.st s).mapEdges A.plusEdges := by
  simp only [plusTA, mapSt, if_pos hs]

theorem plus_edges {s : Nat} (hs : s ∈ A.states) (a : Alphabet) : A.plusTA.edges s a = A.plusEdges (A.edges s a) := by
  rw [edges, plus_st hs]
  exact Next.at'_map _ rfl _ _

include h

theorem plus_wf (hn : A.clockSize ≤ 256) : A.plusTA.Wf := by
  have hcs : A.plusTA.clockSize = A.clockSize := rfl
  have hsub : ∀ {s}, s ∈ A.plusTA.states → s ∈ A.states := id
  refine ⟨h.nodup, h.init, ?_, ?_, ?_, ?_, ?_, ?_, ?_, ?_⟩
  · intro s (hs : s ∈ A.states)
    rw [plus_st hs]
    simpa [TAState.mapEdges, Function.comp_def] using h.keys s hs
  · intro s (hs : s ∈ A.states) p hp
    rw [plus_st hs] at hp
    simp only [TAState.mapEdges, List.mem_map] at hp
    obtain ⟨p', hp', rfl⟩ := hp
    have := h.ne s hs p' hp'
    simp [plusEdges, this]
  · intro s (hs : s ∈ A.states) a e he q hq
    rw [plus_edges hs, mem_plusEdges] at he
    rcases he with he | ⟨e', he', q', _, _, _, i, hi, _, rfl⟩
    · exact h.closed s hs a e he q hq
    · simp only [Option.some.injEq] at hq
      exact hq ▸ h.init i hi
  · intro s (hs : s ∈ A.states) a e he g hg
    rw [plus_edges hs, mem_plusEdges] at he
    rcases he with he | ⟨e', he', q', _, _, _, i, hi, _, rfl⟩
    · exact h.guards s hs a e he g hg
    · exact h.guards s hs a e' he' g hg
  · intro s (hs : s ∈ A.states) a e he g hg
    rw [plus_edges hs, mem_plusEdges] at he
    rcases he with he | ⟨e', he', q', _, _, _, i, hi, _, rfl⟩
    · exact h.resets s hs a e he g hg
    · rcases List.mem_append.1 hg with hg | hg
      · exact h.resets s hs a e' he' g hg
      · exact (mem_allClocks hn).1 hg
  · intro s (hs : s ∈ A.states)
    rw [plus_edges hs, h.lab s hs]; rfl
  · intro s (hs : s ∈ A.states) hm
    rw [plus_st hs] at hm ⊢
    simp only [TAState.mapEdges] at hm ⊢
    rw [h.term s hs hm, List.map_nil]
  · intro s (hs : s ∈ A.states) hm
    rw [plus_st hs] at hm ⊢
    simp only [TAState.mapEdges] at hm ⊢
    rw [h.zterm s hs hm, List.map_nil]

theorem acc_plus (hn : A.clockSize ≤ 256) (hz : ∀ s ∈ A.states, (A.st s).zeroDuration = false) {s : Nat} (hs : s ∈ A.states)
    (r : Nat → K) (w : TWord K) :
    A.plusTA.Acc s r w ↔ A.Acc s r w ∨ ∃ u v, w = u ++ v ∧ u ≠ [] ∧ A.Acc s r u ∧ A.plusTA.AcceptsFrom (endTime 0 u) v := by
  have hw := plus_wf h hn
  induction w generalizing s r with
  | nil =>
    simp only [Acc, plus_st hs, TAState.mapEdges]
    constructor
    · exact Or.inl
    · rintro (h | ⟨u, v, hw, hu, _⟩)
      · exact h
      · exact absurd (List.append_eq_nil_iff.1 hw.symm).1 hu
  | cons p w ih =>
    obtain ⟨a, t⟩ := p
    simp only [Acc, plus_edges hs, mem_plusEdges]
    constructor
    · rintro ⟨e, he | ⟨e', he', q', hq', hm', hz', i, hi, hzi, rfl⟩, q, hq, hg, hacc⟩
      · rcases (ih (h.closed s hs a e he q hq) _).1 hacc with h1 | ⟨u, v, rfl, hu, h1, h2⟩
        · exact Or.inl ⟨e, he, q, hq, hg, h1⟩
        · refine Or.inr ⟨(a, t) :: u, v, rfl, by simp, ⟨e, he, q, hq, hg, h1⟩, ?_⟩
          rw [endTime_cons, endTime_ne (t1 := 0) hu]
          exact h2
      · simp only [Option.some.injEq] at hq
        subst hq
        refine Or.inr ⟨[(a, t)], w, rfl, by simp, ⟨e', he', q', hq', hg, hm'⟩, ?_⟩
        rw [endTime_cons, endTime_nil, acceptsFrom_iff]
        refine ⟨i, hi, ?_⟩
        exact (acc_clocks hw.closed hw.guards (h.init i hi)
          (fun x hx => by
            have : x ∈ allClocks A.clockSize := (mem_allClocks hn).2 hx
            simp [resetAt, this]) w).1 hacc
    · rintro (⟨e, he, q, hq, hg, h1⟩ | ⟨u, v, hw', hu, h1, h2⟩)
      · exact ⟨e, Or.inl he, q, hq, hg, (ih (h.closed s hs a e he q hq) _).2 (Or.inl h1)⟩
      · cases u with
        | nil => exact absurd rfl hu
        | cons p u =>
          simp only [List.cons_append, List.cons.injEq] at hw'
          obtain ⟨rfl, rfl⟩ := hw'
          obtain ⟨e, he, q, hq, hg, h1⟩ := h1
          have hqs := h.closed s hs a e he q hq
          cases u with
          | nil =>
            rw [endTime_cons, endTime_nil, acceptsFrom_iff] at h2
            obtain ⟨i, hi, h2⟩ := h2
            refine ⟨_, Or.inr ⟨e, he, q, hq, h1, hz q hqs, i, hi, hz i (h.init i hi), rfl⟩, i, rfl, hg, ?_⟩
            simp only [List.nil_append]
            exact (acc_clocks hw.closed hw.guards (h.init i hi)
              (fun x hx => by
                have : x ∈ allClocks A.clockSize := (mem_allClocks hn).2 hx
                simp [resetAt, this]) v).2 h2
          | cons p' u =>
            refine ⟨e, Or.inl he, q, hq, hg, (ih hqs _).2 (Or.inr ⟨p' :: u, v, rfl, by simp, h1, ?_⟩)⟩
            rw [endTime_cons, endTime_ne (t1 := 0) (by simp)] at h2
            exact h2

theorem accepts_plus (hn : A.clockSize ≤ 256) (hz : ∀ s ∈ A.states, (A.st s).zeroDuration = false)
    (he : ∀ t0 : K, ¬ A.AcceptsFrom t0 []) (t0 : K) (w : TWord K) :
    A.plusTA.AcceptsFrom t0 w ↔ Repeat A.AcceptsFrom t0 w := by
  have hinit : A.plusTA.init = A.init := rfl
  constructor
  · have key : ∀ n (w : TWord K), w.length ≤ n → ∀ t0, A.plusTA.AcceptsFrom t0 w → Repeat A.AcceptsFrom t0 w := by
      intro n
      induction n with
      | zero =>
        intro w hw t0 ha
        have : w = [] := List.length_eq_zero_iff.1 (Nat.le_zero.1 hw)
        subst this
        obtain ⟨s, hs, ha⟩ := (acceptsFrom_iff _ _ _).1 ha
        refine .one ((acceptsFrom_iff _ _ _).2 ⟨s, hs, ?_⟩)
        rcases (acc_plus h hn hz (h.init s hs) _ _).1 ha with h1 | ⟨u, v, hw, hu, _⟩
        · exact h1
        · exact absurd (List.append_eq_nil_iff.1 hw.symm).1 hu
      | succ n ih =>
        intro w hw t0 ha
        obtain ⟨s, hs, ha⟩ := (acceptsFrom_iff _ _ _).1 ha
        rcases (acc_plus h hn hz (h.init s hs) _ _).1 ha with h1 | ⟨u, v, rfl, hu, h1, h2⟩
        · exact .one ((acceptsFrom_iff _ _ _).2 ⟨s, hs, h1⟩)
        · refine .more ((acceptsFrom_iff _ _ _).2 ⟨s, hs, h1⟩) ?_
          rw [endTime_ne (t1 := 0) hu]
          refine ih v ?_ _ h2
          have : 0 < u.length := List.length_pos_iff.2 hu
          simp only [List.length_append] at hw
          omega
    exact key w.length w le_rfl t0
  · intro hr
    induction hr with
    | one h1 =>
      obtain ⟨s, hs, ha⟩ := (acceptsFrom_iff _ _ _).1 h1
      exact (acceptsFrom_iff _ _ _).2 ⟨s, hs, (acc_plus h hn hz (h.init s hs) _ _).2 (Or.inl ha)⟩
    | @more t0 u v h1 _ ih =>
      have hu : u ≠ [] := by rintro rfl; exact he _ h1
      obtain ⟨s, hs, ha⟩ := (acceptsFrom_iff _ _ _).1 h1
      refine (acceptsFrom_iff _ _ _).2 ⟨s, hs, (acc_plus h hn hz (h.init s hs) _ _).2 (Or.inr ⟨u, v, rfl, hu, ha, ?_⟩)⟩
      rw [endTime_ne (t1 := t0) hu]
      exact ih

end plus

end TA
end Verif
