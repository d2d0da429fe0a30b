import Verif.Model.IntersectionSignal
import Verif.Lemmas.Intersection
import Verif.Lemmas.DNF
import Verif.Spec.SignalTA
import Verif.Spec.Match
import Verif.Spec.IntersectionSignal

set_option linter.unusedSectionVars false

namespace Verif

variable {S T K : Type} [Field K] [LinearOrder K] [IsStrictOrderedRing K]

namespace TA

section product
variable [DecidableEq S] [DecidableEq T]

theorem mem_signalPushes {A : TA S} {B : TA T} {s1 : S} {s2 : T} {p : Alphabet × List (Transition S)}
    {c : Alphabet} {e : Transition (S × T)} :
    (c, e) ∈ signalPushes A B s1 s2 p ↔
      ((((B.st s2).next.touch epsilon).find p.1).isSome ∧
       ((c = p.1 ∧ ∃ e1 ∈ p.2, ∃ e2 ∈ B.edges s2 p.1, ∃ q1 q2, e1.target = some q1 ∧ e2.target = some q2 ∧
          e = productTransition A.clockSize (toIState A B (q1, q2)) e1.resets e1.guard e2.resets e2.guard) ∨
        (c = epsilon ∧ ∃ e1 ∈ p.2, ∃ q1, e1.target = some q1 ∧
          e = productTransition A.clockSize (toIState A B (q1, s2)) e1.resets e1.guard [] []) ∨
        (c = epsilon ∧ ∃ e2 ∈ B.edges s2 p.1, ∃ q2, e2.target = some q2 ∧
          e = productTransition A.clockSize (toIState A B (s1, q2)) [] [] e2.resets e2.guard))) := by
  unfold signalPushes
  rcases hf : ((B.st s2).next.touch epsilon).find p.1 with _ | es2
  · simp
  · have hes := Next.find_getD hf
    rw [Next.at'_touch] at hes
    have hes : B.edges s2 p.1 = es2 := hes
    simp only [Option.isSome_some, true_and, List.mem_append, or_assoc, hes]
    refine or_congr ?_ (or_congr ?_ ?_)
    · simp only [List.mem_flatMap]
      constructor
      · rintro ⟨e1, he1, h⟩
        rcases ht : e1.target with _ | q1 <;> rw [ht] at h
        · simp at h
        · obtain ⟨e2, he2, h⟩ := List.mem_flatMap.1 h
          rcases ht2 : e2.target with _ | q2 <;> rw [ht2] at h
          · simp at h
          · simp only [List.mem_singleton, Prod.mk.injEq] at h
            exact ⟨h.1, e1, he1, e2, he2, q1, q2, ht, ht2, h.2⟩
      · rintro ⟨rfl, e1, he1, e2, he2, q1, q2, ht, ht2, rfl⟩
        refine ⟨e1, he1, ?_⟩
        simp only [ht]
        exact List.mem_flatMap.2 ⟨e2, he2, by simp [ht2]⟩
    · simp only [List.mem_flatMap]
      constructor
      · rintro ⟨e1, he1, h⟩
        rcases ht : e1.target with _ | q1 <;> rw [ht] at h
        · simp at h
        · simp only [List.mem_singleton, Prod.mk.injEq] at h
          exact ⟨h.1, e1, he1, q1, ht, h.2⟩
      · rintro ⟨rfl, e1, he1, q1, ht, rfl⟩
        exact ⟨e1, he1, by simp [ht]⟩
    · simp only [List.mem_flatMap]
      constructor
      · rintro ⟨e1, he1, h⟩
        rcases ht : e1.target with _ | q1 <;> rw [ht] at h
        · simp at h
        · simp only [List.mem_singleton, Prod.mk.injEq] at h
          exact ⟨h.1, e1, he1, q1, ht, h.2⟩
      · rintro ⟨rfl, e1, he1, q1, ht, rfl⟩
        exact ⟨e1, he1, by simp [ht]⟩

theorem mem_edges_intersectionSignal {A : TA S} {B : TA T} {s1 : S} {s2 : T} {c : Alphabet}
    {e : Transition (S × T)} :
    e ∈ (A.intersectionSignal B).edges (s1, s2) c ↔ (toIState A B (s1, s2)).isSome ∧
      ((c = epsilon ∧ ∃ e1 ∈ A.edges s1 epsilon, ∃ q1, e1.target = some q1 ∧
          e = productTransition A.clockSize (toIState A B (q1, s2)) e1.resets e1.guard [] []) ∨
       (c = epsilon ∧ ∃ e2 ∈ B.edges s2 epsilon, ∃ q2, e2.target = some q2 ∧
          e = productTransition A.clockSize (toIState A B (s1, q2)) [] [] e2.resets e2.guard) ∨
       ∃ p ∈ (A.st s1).next.touch epsilon, (c, e) ∈ signalPushes A B s1 s2 p) := by
  by_cases hI : (toIState A B (s1, s2)).isSome
  swap
  · simp [edges, intersectionSignal, hI, Next.at'_nil]
  simp only [edges, intersectionSignal, hI, if_true, Next.mem_at'_foldl_push, Next.at'_nil, List.not_mem_nil,
    false_or, true_and]
  simp only [signalProductPushes, List.mem_append, or_assoc]
  refine or_congr ?_ (or_congr ?_ (by rw [List.mem_flatMap]))
  · simp only [List.mem_flatMap]
    constructor
    · rintro ⟨e1, he1, h⟩
      rcases ht : e1.target with _ | q1 <;> rw [ht] at h
      · simp at h
      · simp only [List.mem_singleton, Prod.mk.injEq] at h
        exact ⟨h.1, e1, he1, q1, ht, h.2⟩
    · rintro ⟨rfl, e1, he1, q1, ht, rfl⟩
      exact ⟨e1, he1, by simp [ht]⟩
  · simp only [List.mem_flatMap]
    constructor
    · rintro ⟨e1, he1, h⟩
      rcases ht : e1.target with _ | q1 <;> rw [ht] at h
      · simp at h
      · simp only [List.mem_singleton, Prod.mk.injEq] at h
        exact ⟨h.1, e1, he1, q1, ht, h.2⟩
    · rintro ⟨rfl, e1, he1, q1, ht, rfl⟩
      exact ⟨e1, he1, by simp [ht]⟩

theorem find_mem {m : Next S} {a : Alphabet} (h : (m.find a).isSome) : ∃ l, (a, l) ∈ m := by
  rw [Next.find, Option.isSome_map, List.find?_isSome] at h
  obtain ⟨⟨b, l⟩, hm, hb⟩ := h
  rw [beq_iff_eq] at hb
  exact ⟨l, hb ▸ hm⟩

theorem find_of_mem {m : Next S} {a : Alphabet} {l : List (Transition S)} (h : (a, l) ∈ m) : (m.find a).isSome := by
  rw [Next.find, Option.isSome_map, List.find?_isSome]
  exact ⟨_, h, by simp⟩

theorem edge_entry {A : TA S} {s : S} {a : Alphabet} {e : Transition S} (h : e ∈ A.edges s a) :
    (A.edges s a, a) ∈ (A.st s).next.map Prod.swap := by
  unfold edges at h ⊢
  generalize (A.st s).next = m at h
  induction m with
  | nil => simp [Next.at'_nil] at h
  | cons p m ih =>
    obtain ⟨b, l⟩ := p
    rw [Next.at'_cons] at h ⊢
    by_cases hb : b = a
    · subst hb; simp
    · rw [if_neg hb] at h ⊢
      rw [List.map_cons]
      exact List.mem_cons_of_mem _ (ih h)

theorem entry_of_edge {A : TA S} {s : S} {a : Alphabet} {e : Transition S} (h : e ∈ A.edges s a) :
    (a, A.edges s a) ∈ (A.st s).next := by
  obtain ⟨⟨b, l⟩, hm, he⟩ := List.mem_map.1 (edge_entry h)
  simp only [Prod.swap, Prod.mk.injEq] at he
  obtain ⟨h1, h2⟩ := he
  rw [h1, h2] at hm
  exact hm

theorem touch_entry {m : Next S} {a : Alphabet} {l : List (Transition S)} (ha : a ≠ epsilon)
    (h : (a, l) ∈ m.touch epsilon) : (a, l) ∈ m := by
  unfold Next.touch at h
  split at h
  · exact h
  · rcases List.mem_append.1 h with h | h
    · exact h
    · simp only [List.mem_singleton, Prod.mk.injEq] at h
      exact absurd h.1 ha

/-- The three kinds of transitions, for automata without silent transitions. -/
theorem edges_signal_fwd {A : TA S} {B : TA T} (hA : A.MapOk) (lA : A.LettersOnly) (lB : B.LettersOnly)
    {s1 : S} {s2 : T} {c : Alphabet} {e : Transition (S × T)} (h : e ∈ (A.intersectionSignal B).edges (s1, s2) c) :
    (∃ e1 ∈ A.edges s1 c, ∃ e2 ∈ B.edges s2 c, ∃ q1 q2, e1.target = some q1 ∧ e2.target = some q2 ∧
      e = productTransition A.clockSize (toIState A B (q1, q2)) e1.resets e1.guard e2.resets e2.guard) ∨
    (c = epsilon ∧ ∃ a, (∃ l, (a, l) ∈ (B.st s2).next) ∧ ∃ e1 ∈ A.edges s1 a, ∃ q1, e1.target = some q1 ∧
      e = productTransition A.clockSize (toIState A B (q1, s2)) e1.resets e1.guard [] []) ∨
    (c = epsilon ∧ ∃ a, (∃ l, (a, l) ∈ (A.st s1).next) ∧ ∃ e2 ∈ B.edges s2 a, ∃ q2, e2.target = some q2 ∧
      e = productTransition A.clockSize (toIState A B (s1, q2)) [] [] e2.resets e2.guard) := by
  obtain ⟨_, h⟩ := mem_edges_intersectionSignal.1 h
  rcases h with ⟨_, e1, he1, _⟩ | ⟨_, e2, he2, _⟩ | ⟨⟨a, l⟩, hp, h⟩
  · exact absurd rfl (lA s1 _ (entry_of_edge he1))
  · exact absurd rfl (lB s2 _ (entry_of_edge he2))
  · obtain ⟨hf, h⟩ := mem_signalPushes.1 h
    simp only at hf h
    rcases h with ⟨rfl, e1, he1, e2, he2, q1, q2, ht1, ht2, rfl⟩ | ⟨rfl, e1, he1, q1, ht1, rfl⟩ | ⟨rfl, e2, he2, q2, ht2, rfl⟩
    · obtain ⟨_, _, hp⟩ := touch_mem ⟨e1, he1, hp⟩
      exact Or.inl ⟨e1, (Next.mem_at'_iff (hA s1)).2 ⟨l, hp, he1⟩, e2, he2, q1, q2, ht1, ht2, rfl⟩
    · obtain ⟨_, _, hp⟩ := touch_mem ⟨e1, he1, hp⟩
      have ha : a ≠ epsilon := lA s1 _ hp
      obtain ⟨l2, h2⟩ := find_mem hf
      exact Or.inr (Or.inl ⟨rfl, a, ⟨l2, touch_entry ha h2⟩, e1, (Next.mem_at'_iff (hA s1)).2 ⟨l, hp, he1⟩, q1, ht1, rfl⟩)
    · have ha : a ≠ epsilon := lB s2 _ (entry_of_edge he2)
      exact Or.inr (Or.inr ⟨rfl, a, ⟨l, touch_entry ha hp⟩, e2, he2, q2, ht2, rfl⟩)

end product

end TA

/-! Signals -/

namespace Sig

theorem app_left_cancel {x y z : Sig K} (h : x.app y = x.app z) : y = z := by
  have hd : y.dur = z.dur := by
    have := congrArg Sig.dur h
    simpa [app] using this
  apply Sig.ext hd
  funext t
  by_cases ht : 0 ≤ t
  · have := congrFun (congrArg Sig.val h) (t + x.dur)
    simpa [app, not_lt.2 (le_add_of_nonneg_left ht)] using this
  · rw [y.out t (fun h => ht h.1), z.out t (fun h => ht h.1)]

theorem const_val (c : Alphabet) {d : K} (hd : 0 < d) (y : Sig K) : ((const c d hd.le).app y).val 0 = c := by
  simp [app, const, hd]

end Sig

/-- The first event may be seen from an earlier instant. -/
theorem Shows.earlier {t0 t1 : K} {a : Alphabet} {t : K} {w : TWord K} {x : Sig K} (h01 : t0 ≤ t1)
    (h : Shows t1 ((a, t) :: w) x) :
    Shows t0 ((a, t) :: w) ((Sig.const a (t1 - t0) (sub_nonneg.2 h01)).app x) := by
  cases h with
  | @cons _ _ _ _ x h hw =>
    have := Shows.cons (c := a) (h01.trans h) hw
    rw [← Sig.app_assoc, Sig.const_app]
    convert this using 3
    ring

theorem Shows.later {t0 t1 : K} {a : Alphabet} {t : K} {w : TWord K} {x : Sig K} (h01 : t0 ≤ t1) (h1 : t1 ≤ t)
    (h : Shows t0 ((a, t) :: w) ((Sig.const a (t1 - t0) (sub_nonneg.2 h01)).app x)) :
    Shows t1 ((a, t) :: w) x := by
  generalize hz : (Sig.const a (t1 - t0) (sub_nonneg.2 h01)).app x = z at h
  cases h with
  | @cons _ _ _ _ y h hw =>
    have := Shows.cons (c := a) h1 hw
    have e : x = (Sig.const a (t - t1) (sub_nonneg.2 h1)).app y := by
      apply Sig.app_left_cancel (x := Sig.const a (t1 - t0) (sub_nonneg.2 h01))
      rw [hz, ← Sig.app_assoc, Sig.const_app]
      congr 2
      ring
    rw [e]
    exact this

namespace TA

variable [DecidableEq S] [DecidableEq T] {A : TA S} {B : TA T}

theorem reads_entry {s s' : S} {r : Nat → K} {a : Alphabet} {t : K} {w : TWord K} (h : A.Reads s r ((a, t) :: w) s') :
    ∃ l, (a, l) ∈ (A.st s).next := by
  obtain ⟨e, he, _⟩ := h
  exact ⟨_, entry_of_edge he⟩

theorem signal_sound (hA : A.MapOk) (lA : A.LettersOnly) (lB : B.LettersOnly) (oA : A.OneLetter) (oB : B.OneLetter)
    (fA : A.FinalStuck) (fB : B.FinalStuck) (hcA : A.ClocksDeclared) (hcB : B.ClocksDeclared)
    (hn : A.clockSize + B.clockSize ≤ 256) {w : TWord K} {now : K} {p p' : S × T} {r r1 r2 : Nat → K}
    (hr : Comb A.clockSize B.clockSize r r1 r2) (h : (A.intersectionSignal B).SReads p r now w p')
    (hm1 : (A.st p'.1).isMatch = true) (hm2 : (B.st p'.2).isMatch = true) :
    (∀ a, ((∃ l, (a, l) ∈ (A.st p.1).next) ∨ ∃ l, (a, l) ∈ (B.st p.2).next) → ∃ t v, w = (a, t) :: v) ∧
    ∃ x w1 w2, Shows now w x ∧ Shows now w1 x ∧ Shows now w2 x ∧ A.Reads p.1 r1 w1 p'.1 ∧ B.Reads p.2 r2 w2 p'.2 := by
  induction h generalizing r1 r2 with
  | done s r now =>
    refine ⟨fun a ha => ?_, _, [], [], .nil, .nil, .nil, rfl, rfl⟩
    rw [fA _ hm1, fB _ hm2] at ha
    simp at ha
  | @event p r now a t w p' e q he hq ha ht hg h ih =>
    obtain ⟨s1, s2⟩ := p
    rcases edges_signal_fwd hA lA lB he with ⟨e1, he1, e2, he2, q1, q2, ht1, ht2, rfl⟩ | ⟨h0, _⟩ | ⟨h0, _⟩
    · have := toIState_eq hq
      subst this
      have c1 := hcA s1 a e1 he1
      have c2 := hcB s2 a e2 he2
      obtain ⟨g1, g2⟩ := (hr.guard hn c1.1 c2.1 t).1 hg
      obtain ⟨_, x, w1, w2, hx, hx1, hx2, i1, i2⟩ := ih (hr.reset hn c1.2 c2.2 t) hm1 hm2
      refine ⟨?_, _, (a, t) :: w1, (a, t) :: w2, .cons ht hx, .cons ht hx1, .cons ht hx2, ⟨e1, he1, q1, ht1, g1, i1⟩,
        ⟨e2, he2, q2, ht2, g2, i2⟩⟩
      rintro b (⟨l, hb⟩ | ⟨l, hb⟩)
      · exact ⟨t, w, by rw [show b = a from oA s1 _ hb _ (entry_of_edge he1)]⟩
      · exact ⟨t, w, by rw [show b = a from oB s2 _ hb _ (entry_of_edge he2)]⟩
    · exact absurd h0 ha
    · exact absurd h0 ha
  | @silent p r now w p' t e q he hq ht hg h ih =>
    obtain ⟨s1, s2⟩ := p
    rcases edges_signal_fwd hA lA lB he with ⟨e1, he1, _⟩ | ⟨_, a, ⟨l, hl⟩, e1, he1, q1, ht1, rfl⟩ |
      ⟨_, a, ⟨l, hl⟩, e2, he2, q2, ht2, rfl⟩
    · exact absurd rfl (lA s1 _ (entry_of_edge he1))
    · have := toIState_eq hq
      subst this
      have c1 := hcA s1 _ e1 he1
      obtain ⟨g1, g2⟩ := (hr.guard hn c1.1 (by simp) t).1 hg
      obtain ⟨hh, x, w1, w2, hx, hx1, hx2, i1, i2⟩ := ih (hr.reset hn c1.2 (by simp) t) hm1 hm2
      rw [resetAt_nil] at i2
      obtain ⟨t', v, rfl⟩ := hh a (Or.inr ⟨l, hl⟩)
      refine ⟨?_, _, (a, t) :: w1, w2, hx.earlier ht, .cons ht hx1, ?_, ⟨e1, he1, q1, ht1, g1, i1⟩, i2⟩
      · rintro b (⟨l', hb⟩ | ⟨l', hb⟩)
        · exact ⟨t', v, by rw [show b = a from oA s1 _ hb _ (entry_of_edge he1)]⟩
        · exact ⟨t', v, by rw [show b = a from oB s2 _ hb _ hl]⟩
      · cases w2 with
        | nil =>
          have i2 : s2 = p'.2 := i2
          rw [i2, fB _ hm2] at hl
          simp at hl
        | cons f w2 =>
          obtain ⟨b, u⟩ := f
          obtain ⟨l', hb⟩ := reads_entry i2
          have := oB s2 _ hb _ hl
          simp only at this
          subst this
          exact hx2.earlier ht
    · have := toIState_eq hq
      subst this
      have c2 := hcB s2 _ e2 he2
      obtain ⟨g1, g2⟩ := (hr.guard hn (by simp) c2.1 t).1 hg
      obtain ⟨hh, x, w1, w2, hx, hx1, hx2, i1, i2⟩ := ih (hr.reset hn (by simp) c2.2 t) hm1 hm2
      rw [resetAt_nil] at i1
      obtain ⟨t', v, rfl⟩ := hh a (Or.inl ⟨l, hl⟩)
      refine ⟨?_, _, w1, (a, t) :: w2, hx.earlier ht, ?_, .cons ht hx2, i1, ⟨e2, he2, q2, ht2, g2, i2⟩⟩
      · rintro b (⟨l', hb⟩ | ⟨l', hb⟩)
        · exact ⟨t', v, by rw [show b = a from oA s1 _ hb _ hl]⟩
        · exact ⟨t', v, by rw [show b = a from oB s2 _ hb _ (entry_of_edge he2)]⟩
      · cases w1 with
        | nil =>
          have i1 : s1 = p'.1 := i1
          rw [i1, fA _ hm1] at hl
          simp at hl
        | cons f w1 =>
          obtain ⟨b, u⟩ := f
          obtain ⟨l', hb⟩ := reads_entry i1
          have := oA s1 _ hb _ hl
          simp only at this
          subst this
          exact hx1.earlier ht

/-! Completeness -/

theorem touch_entry' {m : Next S} {a c : Alphabet} {l : List (Transition S)} (h : (a, l) ∈ m) : ((m.touch c).find a).isSome :=
  find_of_mem (touch_mem' h)

variable (hcA : A.ClocksDeclared) (hcB : B.ClocksDeclared)
    (hn : A.clockSize + B.clockSize ≤ 256) (hf : SameFlag A B) (hlA : A.Closed) (hlB : B.Closed)

include hcA hcB hn hf hlA hlB in
theorem signal_complete (n : Nat) : ∀ {w1 w2 : TWord K}, w1.length + w2.length = n → ∀ {now : K} {x : Sig K},
    (now :: w1.map (·.2)).Pairwise (· < ·) → (now :: w2.map (·.2)).Pairwise (· < ·) →
    (∀ p ∈ w1, p.1 ≠ epsilon) → Shows now w1 x → Shows now w2 x →
    ∀ {s1 s1' : S} {s2 s2' : T} {r r1 r2 : Nat → K}, s1 ∈ A.states → s2 ∈ B.states →
    Comb A.clockSize B.clockSize r r1 r2 → A.Reads s1 r1 w1 s1' → B.Reads s2 r2 w2 s2' →
    ∃ w, (now :: w.map (·.2)).Pairwise (· < ·) ∧ Shows now w x ∧
      (A.intersectionSignal B).SReads (s1, s2) r now w (s1', s2') := by
  induction n using Nat.strong_induction_on with
  | _ n ih =>
  intro w1 w2 hlen now x p1 p2 hε h1 h2 s1 s1' s2 s2' r r1 r2 hs1 hs2 hr i1 i2
  have hI : (toIState A B (s1, s2)).isSome := by rw [toIState_some hf hs1 hs2]; rfl
  cases h1 with
  | nil =>
    generalize hz : (Sig.nil : Sig K) = z at h2
    cases h2 with
    | nil =>
      have i1 : s1 = s1' := i1
      have i2 : s2 = s2' := i2
      subst i1 i2
      exact ⟨[], by simp, hz ▸ .nil, .done ..⟩
    | @cons _ b t2 w2 x h hw =>
      exfalso
      have hd := congrArg Sig.dur hz
      simp only [Sig.nil, Sig.app, Sig.const] at hd
      have := x.nonneg
      have : now < t2 := by simp at p2; exact p2.1.1
      linarith
  | @cons _ a t1 w1 x1 hle1 hw1 =>
    have lt1 : now < t1 := by simp at p1; exact p1.1.1
    generalize hz : (Sig.const a (t1 - now) (sub_nonneg.2 hle1)).app x1 = z at h2
    cases h2 with
    | nil =>
      exfalso
      have hd := congrArg Sig.dur hz
      simp only [Sig.nil, Sig.app, Sig.const] at hd
      have := x1.nonneg
      linarith
    | @cons _ b t2 w2 x2 hle2 hw2 =>
      have lt2 : now < t2 := by simp at p2; exact p2.1.1
      have hab : a = b := by
        have := congrFun (congrArg Sig.val hz) 0
        rwa [Sig.const_val a (sub_pos.2 lt1), Sig.const_val b (sub_pos.2 lt2)] at this
      subst hab
      have ha : a ≠ epsilon := hε (a, t1) List.mem_cons_self
      obtain ⟨e1, he1, q1, hq1, g1, j1⟩ := id i1
      obtain ⟨e2, he2, q2, hq2, g2, j2⟩ := id i2
      have c1 := hcA s1 _ e1 he1
      have c2 := hcB s2 _ e2 he2
      have hq1' := hlA.2 s1 hs1 _ e1 he1 q1 hq1
      have hq2' := hlB.2 s2 hs2 _ e2 he2 q2 hq2
      have n1 := entry_of_edge he1
      have n2 := entry_of_edge he2
      have pp1 : (t1 :: w1.map (·.2)).Pairwise (· < ·) := (List.pairwise_cons.1 p1).2
      have pp2 : (t2 :: w2.map (·.2)).Pairwise (· < ·) := (List.pairwise_cons.1 p2).2
      have hε' : ∀ p ∈ w1, p.1 ≠ epsilon := fun p hp => hε p (List.mem_cons_of_mem _ hp)
      simp only [List.length_cons] at hlen
      -- the last part of the cases in which only one automaton moves
      have fin : ∀ (t : K) (w : TWord K) (y : Sig K) (hlt : now ≤ t), (∃ b', y.val 0 = a ∧ 0 < y.dur ∧ b' = y.dur) →
          (t :: w.map (·.2)).Pairwise (· < ·) → Shows t w y → now < t →
          (now :: w.map (·.2)).Pairwise (· < ·) ∧
          Shows now w ((Sig.const a (t - now) (sub_nonneg.2 hlt)).app y) := by
        rintro t w y hlt ⟨_, hv, hd, rfl⟩ hp hs hnt
        constructor
        · rw [List.pairwise_cons] at hp ⊢
          exact ⟨fun u hu => hnt.trans (hp.1 u hu), hp.2⟩
        · cases hs with
          | nil => exact absurd hd (lt_irrefl _)
          | @cons _ b u w y h hw =>
            have : t < u := by simp at hp; exact hp.1.1
            rw [Sig.const_val b (sub_pos.2 this)] at hv
            subst hv
            exact (Shows.cons h hw).earlier hlt
      rcases lt_trichotomy t1 t2 with hlt | rfl | hlt
      · -- the first automaton moves
        have e : x1 = (Sig.const a (t2 - t1) (sub_nonneg.2 hlt.le)).app x2 := by
          apply Sig.app_left_cancel (x := Sig.const a (t1 - now) (sub_nonneg.2 hle1))
          rw [hz, ← Sig.app_assoc, Sig.const_app]
          congr 2
          ring
        have p2' : (t1 :: ((a, t2) :: w2).map (·.2)).Pairwise (· < ·) := by
          rw [List.pairwise_cons]
          refine ⟨?_, pp2⟩
          intro u hu
          simp only [List.map_cons, List.mem_cons] at hu
          rcases hu with rfl | hu
          · exact hlt
          · exact hlt.trans ((List.pairwise_cons.1 pp2).1 u hu)
        have hr' := hr.reset hn c1.2 (xs2 := []) (by simp) t1
        rw [resetAt_nil r2] at hr'
        obtain ⟨w, pw, sw, rw'⟩ := ih (w1.length + (w2.length + 1)) (by omega) (w1 := w1) (w2 := (a, t2) :: w2) (by simp)
          pp1 p2' hε' hw1 (e ▸ Shows.cons hlt.le hw2) hq1' hs2 hr' j1 i2
        obtain ⟨f1, f2⟩ := fin t1 w x1 hle1 ⟨_, by rw [e, Sig.const_val a (sub_pos.2 hlt)], by
          rw [e]; simp only [Sig.app, Sig.const]; have := x2.nonneg; linarith, rfl⟩ pw sw lt1
        refine ⟨w, f1, hz ▸ f2, ?_⟩
        refine .silent t1 _ (q1, s2) (mem_edges_intersectionSignal.2 ⟨hI, Or.inr (Or.inr ⟨(a, A.edges s1 a), touch_mem' n1,
          mem_signalPushes.2 ⟨touch_entry' n2, Or.inr (Or.inl ⟨rfl, e1, he1, q1, hq1, rfl⟩)⟩⟩)⟩) (toIState_some hf hq1' hs2) hle1 ?_ rw'
        exact (hr.guard hn c1.1 (g2 := []) (by simp) t1).2 ⟨g1, by simp [GuardHolds]⟩
      · -- both move
        have e : x1 = x2 := Sig.app_left_cancel hz
        obtain ⟨w, pw, sw, rw'⟩ := ih (w1.length + w2.length) (by omega) (w1 := w1) (w2 := w2) rfl
          pp1 pp2 hε' hw1 (e ▸ hw2) hq1' hq2' (hr.reset hn c1.2 c2.2 t1) j1 j2
        refine ⟨(a, t1) :: w, ?_, hz ▸ .cons hle1 sw, ?_⟩
        · rw [List.pairwise_cons]
          refine ⟨?_, pw⟩
          intro u hu
          simp only [List.map_cons, List.mem_cons] at hu
          rcases hu with rfl | hu
          · exact lt1
          · exact lt1.trans ((List.pairwise_cons.1 pw).1 u hu)
        · refine .event _ (q1, q2) (mem_edges_intersectionSignal.2 ⟨hI, Or.inr (Or.inr ⟨(a, A.edges s1 a), touch_mem' n1,
            mem_signalPushes.2 ⟨touch_entry' n2, Or.inl ⟨rfl, e1, he1, e2, he2, q1, q2, hq1, hq2, rfl⟩⟩⟩)⟩)
            (toIState_some hf hq1' hq2') ha hle1 ?_ rw'
          exact (hr.guard hn c1.1 c2.1 t1).2 ⟨g1, g2⟩
      · -- the second automaton moves
        have e : x2 = (Sig.const a (t1 - t2) (sub_nonneg.2 hlt.le)).app x1 := by
          apply Sig.app_left_cancel (x := Sig.const a (t2 - now) (sub_nonneg.2 hle2))
          rw [← hz, ← Sig.app_assoc, Sig.const_app]
          congr 2
          ring
        have p1' : (t2 :: ((a, t1) :: w1).map (·.2)).Pairwise (· < ·) := by
          rw [List.pairwise_cons]
          refine ⟨?_, pp1⟩
          intro u hu
          simp only [List.map_cons, List.mem_cons] at hu
          rcases hu with rfl | hu
          · exact hlt
          · exact hlt.trans ((List.pairwise_cons.1 pp1).1 u hu)
        have hr' := hr.reset hn (xs1 := []) (by simp) c2.2 t2
        rw [resetAt_nil r1] at hr'
        obtain ⟨w, pw, sw, rw'⟩ := ih ((w1.length + 1) + w2.length) (by omega) (w1 := (a, t1) :: w1) (w2 := w2) (by simp)
          p1' pp2 hε (e ▸ Shows.cons hlt.le hw1) hw2 hs1 hq2' hr' i1 j2
        obtain ⟨f1, f2⟩ := fin t2 w x2 hle2 ⟨_, by rw [e, Sig.const_val a (sub_pos.2 hlt)], by
          rw [e]; simp only [Sig.app, Sig.const]; have := x1.nonneg; linarith, rfl⟩ pw sw lt2
        refine ⟨w, f1, f2, ?_⟩
        refine .silent t2 _ (s1, q2) (mem_edges_intersectionSignal.2 ⟨hI, Or.inr (Or.inr ⟨(a, A.edges s1 a), touch_mem' n1,
          mem_signalPushes.2 ⟨touch_entry' n2, Or.inr (Or.inr ⟨rfl, e2, he2, q2, hq2, rfl⟩)⟩⟩)⟩) (toIState_some hf hs1 hq2') hle2 ?_ rw'
        exact (hr.guard hn (g1 := []) (by simp) c2.1 t2).2 ⟨by simp [GuardHolds], g2⟩

end TA
end Verif
