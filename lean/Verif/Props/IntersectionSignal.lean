import Verif.Lemmas.IntersectionSignal
import Verif.Props.TA

/-!
# The product of signal automata (C81)

A word accepted by a signal automaton shows a signal: the value is the letter of the next event.  The product is to
accept words which show exactly the signals that both automata accept.
-/

set_option linter.unusedSectionVars false

namespace Verif.Props

variable {S T K : Type} [Field K] [LinearOrder K] [IsStrictOrderedRing K] [DecidableEq S] [DecidableEq T]

/-- **C81, what holds** (`_partial`: accepted signals in which every segment takes time, see
`signalProduct_complete_wrong`).  A signal shown by a word of the first and by a word of the second automaton is shown
by a word of the product; the two words may split the signal in different places. -/
theorem signalProduct_complete_partial (A : TA S) (B : TA T) (hcA : A.ClocksDeclared)
    (hcB : B.ClocksDeclared) (hlA : A.Closed) (hlB : B.Closed) (hf : A.SameFlag B)
    (hn : A.clockSize + B.clockSize ≤ 256) (w1 w2 : TWord K) (hw1 : LogStrict w1) (hw2 : LogStrict w2)
    (hε : ∀ p ∈ w1, p.1 ≠ epsilon) (x : Sig K) (h1 : Shows 0 w1 x) (h2 : Shows 0 w2 x) (a1 : A.Accepts w1) (a2 : B.Accepts w2) :
    ∃ w, LogStrict w ∧ Shows 0 w x ∧ (A.intersectionSignal B).SAccepts w := by
  have conv : ∀ w : TWord K, ((0 : K) :: w.map (·.2)).Pairwise (· < ·) ↔ LogStrict w := by
    intro w
    rw [List.pairwise_cons, List.pairwise_map, LogStrict]
    simp only [List.mem_map, Prod.exists, exists_eq_right, Prod.forall, forall_exists_index]
    exact and_congr_left fun _ => ⟨fun h a b hm => h b a hm, fun h a b hm => h b a hm⟩
  obtain ⟨s1, hs1, s1', r1, m1⟩ := a1
  obtain ⟨s2, hs2, s2', r2, m2⟩ := a2
  obtain ⟨w, hw, hx, hr⟩ := TA.signal_complete hcA hcB hn hf hlA hlB _ rfl ((conv w1).2 hw1) ((conv w2).2 hw2) hε h1 h2
    (hlA.1 s1 hs1) (hlB.1 s2 hs2) (r := fun _ => 0) ⟨fun _ _ => rfl, fun _ _ => rfl⟩ r1 r2
  refine ⟨w, (conv w).1 hw, hx, (s1, s2), mem_productStates.2 ⟨hs1, hs2, ?_⟩, (s1', s2'), hr, ?_⟩
  · obtain ⟨b, hb1, hb2⟩ := hf; simp only; rw [hb1 s1 (hlA.1 s1 hs1), hb2 s2 (hlB.1 s2 hs2)]
  · simp [TA.intersectionSignal, m1, m2]

/-- **C81, what holds** (`_partial`: automata in which each state has transitions of one letter only, and accepting
states have none; see `signalProduct_sound_wrong`).  The signal shown by a word of the product is shown by a word of
each automaton. -/
theorem signalProduct_sound_partial (A : TA S) (B : TA T) (hA : A.MapOk) (lA : A.LettersOnly) (lB : B.LettersOnly)
    (oA : A.OneLetter) (oB : B.OneLetter) (fA : A.FinalStuck) (fB : B.FinalStuck) (hcA : A.ClocksDeclared)
    (hcB : B.ClocksDeclared) (hn : A.clockSize + B.clockSize ≤ 256) (w : TWord K)
    (h : (A.intersectionSignal B).SAccepts w) :
    ∃ x w1 w2, Shows 0 w x ∧ Shows 0 w1 x ∧ Shows 0 w2 x ∧ A.Accepts w1 ∧ B.Accepts w2 := by
  obtain ⟨p, hp, p', hr, hm⟩ := h
  have hp := mem_productStates.1 hp
  simp only [TA.intersectionSignal, Bool.and_eq_true] at hm
  obtain ⟨_, x, w1, w2, hx, h1, h2, i1, i2⟩ := TA.signal_sound hA lA lB oA oB fA fB hcA hcB hn (r1 := fun _ => 0)
    (r2 := fun _ => 0) ⟨fun _ _ => rfl, fun _ _ => rfl⟩ hr hm.1 hm.2
  exact ⟨x, w1, w2, hx, h1, h2, ⟨p.1, hp.1, p'.1, i1, hm.1⟩, ⟨p.2, hp.2.1, p'.2, i2, hm.2⟩⟩

/-- A path through states 0, 1, 2, ..., the last one accepting; one list of transitions per state. -/
def pathTA (maxC : List Int) (l : List (Next Nat)) : TA Nat :=
  { states := List.range (l.length + 1), init := [0]
    st := fun s => ⟨decide (s = l.length), false, l.getD s []⟩
    maxC := maxC }

/-- The value `a` in two pieces, the first at most 1 long, then `b`. -/
def splitTA : TA Nat := pathTA [1] [[(97, [⟨some 1, [], [⟨0, .le, 1⟩]⟩])], [(97, [⟨some 2, [], []⟩])], [(98, [⟨some 3, [], []⟩])]]

/-- The value `a`, then `b`, less than 5 in all. -/
def shortTA : TA Nat := pathTA [5] [[(97, [⟨some 1, [], []⟩])], [(98, [⟨some 2, [], [⟨0, .lt, 5⟩]⟩])]]

/-- What has to be checked of a path for the theorems above. -/
theorem pathTA_ok (m : List Int) (l : List (Next Nat))
    (h : ∀ n ∈ l, (n.map (·.1)).Nodup ∧ ∀ p ∈ n, p.1 ≠ epsilon ∧ ∀ e ∈ p.2, (∀ g ∈ e.guard, g.x < m.length) ∧
      (∀ x ∈ e.resets, x < m.length) ∧ ∀ q, e.target = some q → q ≤ l.length) :
    (pathTA m l).MapOk ∧ (pathTA m l).LettersOnly ∧ (pathTA m l).ClocksDeclared ∧ (pathTA m l).Closed ∧
      (pathTA m l).FinalStuck := by
  have hg : ∀ s, l.getD s [] = [] ∨ l.getD s [] ∈ l := by
    intro s
    rw [List.getD_eq_getElem?_getD]
    rcases hs : l[s]? with _ | n
    · exact Or.inl rfl
    · exact Or.inr (List.mem_of_getElem? hs)
  have he : ∀ s a, ∀ e ∈ (pathTA m l).edges s a, ∃ n ∈ l, ∃ p ∈ n, e ∈ p.2 := by
    intro s a e he
    have hm := TA.entry_of_edge he
    rcases hg s with h0 | h0
    · have : (a, (pathTA m l).edges s a) ∈ l.getD s [] := hm
      rw [h0] at this
      simp at this
    · exact ⟨_, h0, _, hm, he⟩
  refine ⟨fun s => ?_, fun s p hp => ?_, fun s a e hh => ?_, ⟨fun s hs => ?_, fun s _ a e hh q hq => ?_⟩, fun s hs => ?_⟩
  · rcases hg s with h0 | h0
    · simp [pathTA, -List.getD_eq_getElem?_getD, h0]
    · exact (h _ h0).1
  · have hp : p ∈ l.getD s [] := hp
    rcases hg s with h0 | h0
    · rw [h0] at hp; simp at hp
    · exact ((h _ h0).2 p hp).1
  · obtain ⟨n, hn, p, hp, hh⟩ := he s a e hh
    exact ⟨(((h n hn).2 p hp).2 e hh).1, (((h n hn).2 p hp).2 e hh).2.1⟩
  · simp only [pathTA, List.mem_singleton] at hs
    subst hs
    simp [pathTA]
  · obtain ⟨n, hn, p, hp, hh⟩ := he s a e hh
    have := (((h n hn).2 p hp).2 e hh).2.2 q hq
    simp only [pathTA, List.mem_range]
    omega
  · have hs : s = l.length := by simpa [pathTA] using hs
    simp [pathTA, hs]

theorem pathTA_oneLetter (m : List Int) (l : List (Next Nat)) (h : ∀ n ∈ l, n.length ≤ 1) : (pathTA m l).OneLetter := by
  intro s p hp p' hp'
  have hp : p ∈ l.getD s [] := hp
  have hp' : p' ∈ l.getD s [] := hp'
  have hg : l.getD s [] = [] ∨ l.getD s [] ∈ l := by
    rw [List.getD_eq_getElem?_getD]
    rcases hs : l[s]? with _ | n
    · exact Or.inl rfl
    · exact Or.inr (List.mem_of_getElem? hs)
  rcases hg with h0 | h0
  · rw [h0] at hp; simp at hp
  · have := h _ h0
    match hn : l.getD s [], this with
    | [], _ => rw [hn] at hp; simp at hp
    | [y], _ => rw [hn] at hp hp'; simp only [List.mem_singleton] at hp hp'; rw [hp, hp']

theorem pathTA_sameFlag (m m' : List Int) (l l' : List (Next Nat)) : (pathTA m l).SameFlag (pathTA m' l') :=
  ⟨false, fun _ _ => rfl, fun _ _ => rfl⟩


theorem splitTA_ok : splitTA.MapOk ∧ splitTA.LettersOnly ∧ splitTA.ClocksDeclared ∧ splitTA.Closed ∧ splitTA.FinalStuck :=
  pathTA_ok _ _ (by decide)

theorem shortTA_ok : shortTA.MapOk ∧ shortTA.LettersOnly ∧ shortTA.ClocksDeclared ∧ shortTA.Closed ∧ shortTA.FinalStuck :=
  pathTA_ok _ _ (by decide)

theorem splitTA_accepts : splitTA.Accepts [(97, (1 : ℚ)), (97, 2), (98, 3)] := by
  obtain ⟨b, hb, h⟩ := isMember_iff splitTA splitTA_ok.2.2.1 [(97, (1 : ℚ)), (97, 2), (98, 3)]
  have : splitTA.isMember [(97, (1 : ℚ)), (97, 2), (98, 3)] = .ok true := by decide +kernel
  rw [this] at hb
  cases hb
  exact h.1 rfl

theorem shortTA_accepts : shortTA.Accepts [(97, (2 : ℚ)), (98, 3)] := by
  obtain ⟨b, hb, h⟩ := isMember_iff shortTA shortTA_ok.2.2.1 [(97, (2 : ℚ)), (98, 3)]
  have : shortTA.isMember [(97, (2 : ℚ)), (98, 3)] = .ok true := by decide +kernel
  rw [this] at hb
  cases hb
  exact h.1 rfl

/-- The first automaton splits the signal, the second does not; the product accepts it, and both theorems apply. -/
example : splitTA.OneLetter ∧ shortTA.OneLetter ∧ splitTA.SameFlag shortTA ∧
    ∃ x, Shows 0 [(97, (1 : ℚ)), (97, 2), (98, 3)] x ∧ Shows 0 [(97, (2 : ℚ)), (98, 3)] x ∧
    ∃ w, Shows 0 w x ∧ (splitTA.intersectionSignal shortTA).SAccepts w := by
  refine ⟨pathTA_oneLetter _ _ (by decide), pathTA_oneLetter _ _ (by decide), pathTA_sameFlag .., ?_⟩
  have h2 : Shows 0 [(97, (2 : ℚ)), (98, 3)] _ := .cons (by norm_num) (.cons (by norm_num) .nil)
  have h2' : Shows 1 [(97, (2 : ℚ)), (98, 3)] _ := .cons (by norm_num) (.cons (by norm_num) .nil)
  have h1 := Shows.cons (t0 := (0 : ℚ)) (c := 97) (by norm_num) h2'
  have e := h2'.earlier (t0 := 0) (by norm_num)
  obtain ⟨w, _, hw, ha⟩ := signalProduct_complete_partial splitTA shortTA splitTA_ok.2.2.1 shortTA_ok.2.2.1 splitTA_ok.2.2.2.1
    shortTA_ok.2.2.2.1 (pathTA_sameFlag ..) (by decide) _ _ ⟨by simp, by norm_num⟩ ⟨by simp, by norm_num⟩ (by decide) _ h1 e
    splitTA_accepts shortTA_accepts
  exact ⟨_, h1, e, w, hw, ha⟩

/-- The value `c` for at least 1, then `d`. -/
def slowTA : TA Nat := pathTA [1] [[(99, [⟨some 1, [], [⟨0, .ge, 1⟩]⟩])], [(100, [⟨some 2, [], []⟩])]]

/-- One of the values `c` and `d`. -/
def eitherTA : TA Nat := pathTA [0] [[(99, [⟨some 1, [], []⟩]), (100, [⟨some 1, [], []⟩])]]

/-- **C81 is false**: with two letters at one state the product accepts signals which the first automaton does not.
While the first automaton reads `c`, the second waits for a later move with `d`. -/
theorem signalProduct_sound_wrong :
    slowTA.MapOk ∧ eitherTA.MapOk ∧ slowTA.LettersOnly ∧ eitherTA.LettersOnly ∧ slowTA.ClocksDeclared ∧
    eitherTA.ClocksDeclared ∧ slowTA.Closed ∧ eitherTA.Closed ∧ slowTA.FinalStuck ∧ eitherTA.FinalStuck ∧
    slowTA.SameFlag eitherTA ∧
    ∃ w : TWord ℚ, (slowTA.intersectionSignal eitherTA).SAccepts w ∧
      ∃ x, Shows 0 w x ∧ ¬ ∃ w1, Shows 0 w1 x ∧ slowTA.Accepts w1 := by
  obtain ⟨a1, a2, a3, a4, a5⟩ := pathTA_ok [1] [[(99, [⟨some 1, [], [⟨0, .ge, 1⟩]⟩])], [(100, [⟨some 2, [], []⟩])]] (by decide)
  obtain ⟨b1, b2, b3, b4, b5⟩ := pathTA_ok [0] [[(99, [⟨some 1, [], []⟩]), (100, [⟨some 1, [], []⟩])]] (by decide)
  refine ⟨a1, b1, a2, b2, a3, b3, a4, b4, a5, b5, pathTA_sameFlag .., [(100, 5)], ?_, _, .cons (by norm_num) .nil, ?_⟩
  · refine ⟨(0, 0), by decide, (2, 1), ?_, by decide⟩
    refine .silent 1 ⟨some (1, 0), [], [⟨0, .ge, 1⟩]⟩ (1, 0) (by decide +kernel) rfl (by norm_num) ?_ ?_
    · intro c hc
      simp only [List.mem_singleton] at hc
      subst hc
      unfold Constraint.Holds
      norm_num
      exact ⟨by decide, by decide⟩
    · exact .event ⟨some (2, 1), [], []⟩ (2, 1) (by decide +kernel) rfl (by decide) (by norm_num) (by simp [GuardHolds]) (.done ..)
  · rintro ⟨w1, hs, s, h0, s', hr, hm⟩
    simp only [slowTA, pathTA, List.mem_singleton] at h0
    subst h0
    generalize hz : (Sig.const 100 ((5 : ℚ) - 0) _).app Sig.nil = z at hs
    cases hs with
    | nil =>
      have hr : 0 = s' := hr
      subst hr
      exact absurd hm (by decide)
    | @cons _ c t w x h hw =>
      obtain ⟨e, he, q, hq, hg, _⟩ := hr
      have hc : c = 99 := by
        have := TA.entry_of_edge he
        have : (c, slowTA.edges 0 c) ∈ [((99 : Alphabet), [(⟨some 1, [], [⟨0, .ge, 1⟩]⟩ : Transition Nat)])] := this
        simp only [List.mem_singleton, Prod.mk.injEq] at this
        exact this.1
      subst hc
      have he : e ∈ [(⟨some 1, [], [⟨0, .ge, 1⟩]⟩ : Transition Nat)] := he
      simp only [List.mem_singleton] at he
      subst he
      have ht := hg ⟨0, .ge, 1⟩ (by simp)
      unfold Constraint.Holds at ht
      norm_num at ht
      have h1 := congrFun (congrArg Sig.val hz) 0
      rw [Sig.const_val 100 (by norm_num : (0 : ℚ) < 5 - 0), Sig.const_val 99 (by linarith : (0 : ℚ) < t - 0)] at h1
      exact absurd h1 (by decide)

/-- The value `a` with a moment of `c` in between. -/
def momentTA : TA Nat := pathTA [1] [[(97, [⟨some 1, [], [⟨0, .le, 1⟩]⟩])], [(99, [⟨some 2, [], []⟩])], [(97, [⟨some 3, [], []⟩])]]

/-- The value `a`. -/
def onlyTA : TA Nat := pathTA [0] [[(97, [⟨some 1, [], []⟩])]]

/-- **C81 is false** in the other direction as well, even if each state has one letter: the signal `a` of length 2 is
accepted by both automata, by the first with a segment `c` of length 0; the product accepts nothing. -/
theorem signalProduct_complete_wrong :
    momentTA.MapOk ∧ onlyTA.MapOk ∧ momentTA.LettersOnly ∧ onlyTA.LettersOnly ∧ momentTA.OneLetter ∧ onlyTA.OneLetter ∧
    momentTA.ClocksDeclared ∧ onlyTA.ClocksDeclared ∧ momentTA.Closed ∧ onlyTA.Closed ∧ momentTA.FinalStuck ∧
    onlyTA.FinalStuck ∧ momentTA.SameFlag onlyTA ∧
    (∃ (x : Sig ℚ) (w1 w2 : TWord ℚ), x.dur = 2 ∧ Shows 0 w1 x ∧ Shows 0 w2 x ∧ momentTA.Accepts w1 ∧ onlyTA.Accepts w2) ∧
    ∀ w : TWord ℚ, ¬ (momentTA.intersectionSignal onlyTA).SAccepts w := by
  obtain ⟨a1, a2, a3, a4, a5⟩ := pathTA_ok [1] [[(97, [⟨some 1, [], [⟨0, .le, 1⟩]⟩])], [(99, [⟨some 2, [], []⟩])], [(97, [⟨some 3, [], []⟩])]] (by decide)
  obtain ⟨b1, b2, b3, b4, b5⟩ := pathTA_ok [0] [[(97, [⟨some 1, [], []⟩])]] (by decide)
  refine ⟨a1, b1, a2, b2, pathTA_oneLetter _ _ (by decide), pathTA_oneLetter _ _ (by decide), a3, b3, a4, b4, a5, b5,
    pathTA_sameFlag .., ?_, ?_⟩
  · refine ⟨Sig.const 97 2 (by norm_num), [(97, 1), (99, 1), (97, 2)], [(97, 2)], rfl, ?_, ?_, ?_, ?_⟩
    · have : Shows 0 [(97, (1 : ℚ)), (99, 1), (97, 2)] _ :=
        .cons (by norm_num) (.cons (by norm_num) (.cons (by norm_num) .nil))
      convert this using 1
      rw [Sig.app_nil, show Sig.const 99 ((1 : ℚ) - 1) _ = Sig.const 99 0 le_rfl from by congr; norm_num]
      rw [show Sig.const 99 (0 : ℚ) le_rfl = Sig.nil from by
        apply Sig.ext
        · rfl
        · funext t
          have : ¬ (0 ≤ t ∧ t < 0) := fun h => absurd h.2 (not_lt.2 h.1)
          simp [Sig.const, Sig.nil, this], Sig.nil_app, Sig.const_app]
      congr 1
      norm_num
    · have : Shows 0 [(97, (2 : ℚ))] _ := .cons (by norm_num) .nil
      convert this using 1
      rw [Sig.app_nil]
      congr 1
      norm_num
    · obtain ⟨b, hb, h⟩ := isMember_iff momentTA a3 [(97, (1 : ℚ)), (99, 1), (97, 2)]
      have : momentTA.isMember [(97, (1 : ℚ)), (99, 1), (97, 2)] = .ok true := by decide +kernel
      rw [this] at hb
      cases hb
      exact h.1 rfl
    · obtain ⟨b, hb, h⟩ := isMember_iff onlyTA b3 [(97, (2 : ℚ))]
      have : onlyTA.isMember [(97, (2 : ℚ))] = .ok true := by decide +kernel
      rw [this] at hb
      cases hb
      exact h.1 rfl
  · rintro w ⟨p, hp, p', hr, hm⟩
    have hp : p ∈ [((0 : Nat), (0 : Nat))] := hp
    simp only [List.mem_singleton] at hp
    subst hp
    have stuck : ∀ {p p' : Nat × Nat} {r : Nat → ℚ} {now : ℚ} {w : TWord ℚ}, ((momentTA.intersectionSignal onlyTA).st p).next = [] →
        (momentTA.intersectionSignal onlyTA).SReads p r now w p' → p' = p := by
      intro p p' r now w h0 h
      cases h with
      | done => rfl
      | event e q he => simp [TA.edges, h0, Next.at'_nil] at he
      | silent t e q he => simp [TA.edges, h0, Next.at'_nil] at he
    have fin : ∀ p, p = (1, 1) ∨ p = (1, 0) ∨ p = (0, 1) → ((momentTA.intersectionSignal onlyTA).st p).next = [] ∧
        ((momentTA.intersectionSignal onlyTA).st p).isMatch = false := by
      rintro p (rfl | rfl | rfl) <;> exact ⟨List.isEmpty_iff.1 (by decide +kernel), by decide +kernel⟩
    have tgt : ∀ c, ∀ e ∈ (momentTA.intersectionSignal onlyTA).edges (0, 0) c, ∀ q, e.target = some q →
        q = (1, 1) ∨ q = (1, 0) ∨ q = (0, 1) := by
      intro c e he q hq
      have hm := TA.entry_of_edge he
      have : ∀ l ∈ ((momentTA.intersectionSignal onlyTA).st (0, 0)).next, ∀ e ∈ l.2,
          e.target = some (1, 1) ∨ e.target = some (1, 0) ∨ e.target = some (0, 1) := by decide +kernel
      have := this _ hm e he
      rw [hq] at this
      simpa using this
    cases hr with
    | done => exact absurd hm (by decide +kernel)
    | event e q he hq ha ht hg h =>
      have := fin q (tgt _ e he q hq)
      rw [stuck this.1 h, this.2] at hm
      exact absurd hm (by decide)
    | silent t e q he hq ht hg h =>
      have := fin q (tgt _ e he q hq)
      rw [stuck this.1 h, this.2] at hm
      exact absurd hm (by decide)

end Verif.Props
