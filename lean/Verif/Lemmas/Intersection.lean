import Verif.Model.Intersection
import Verif.Lemmas.TA

set_option linter.unusedSectionVars false

namespace Verif

variable {S T K : Type} [Field K] [LinearOrder K] [IsStrictOrderedRing K]

namespace Next

theorem at'_nil (c : Alphabet) : at' ([] : Next S) c = [] := rfl

theorem at'_cons (d : Alphabet) (l : List (Transition S)) (m : Next S) (c : Alphabet) :
    at' ((d, l) :: m) c = if d = c then l else at' m c := by
  by_cases h : d = c <;> simp [at', find, List.find?_cons, h]

theorem at'_push (m : Next S) (c d : Alphabet) (e : Transition S) :
    (m.push c e).at' d = if c = d then m.at' d ++ [e] else m.at' d := by
  induction m with
  | nil => by_cases h : c = d <;> simp [push, at'_cons, at'_nil, h]
  | cons p m ih =>
    obtain ⟨b, l⟩ := p
    by_cases hb : b = c
    · subst hb
      simp only [push, beq_self_eq_true, if_true, at'_cons]
      by_cases h : b = d <;> simp [h]
    · simp only [push, beq_iff_eq, hb, if_false, at'_cons, ih]
      by_cases h1 : b = d
      · subst h1
        simp [Ne.symm hb]
      · simp [h1]

theorem mem_at'_foldl_push (ps : List (Alphabet × Transition S)) (m : Next S) (d : Alphabet)
    (e : Transition S) :
    e ∈ (ps.foldl (fun m q => m.push q.1 q.2) m).at' d ↔ e ∈ m.at' d ∨ (d, e) ∈ ps := by
  induction ps generalizing m with
  | nil => simp
  | cons p ps ih =>
    obtain ⟨c, e'⟩ := p
    rw [List.foldl_cons, ih, at'_push]
    by_cases h : c = d
    · subst h
      simp only [if_true, List.mem_append, List.mem_cons, List.not_mem_nil, or_false, Prod.mk.injEq,
        true_and, or_assoc]
    · simp [h, Ne.symm h]

theorem at'_touch (m : Next S) (c d : Alphabet) : (m.touch c).at' d = m.at' d := by
  unfold touch
  split
  · rfl
  · rename_i h
    simp only [Option.not_isSome_iff_eq_none] at h
    induction m with
    | nil => by_cases h : c = d <;> simp [at'_cons, at'_nil, h]
    | cons p m ih =>
      obtain ⟨b, l⟩ := p
      rw [List.cons_append, at'_cons, at'_cons, ih]
      simp only [find, List.find?_cons] at h
      by_cases hb : b = c
      · simp [hb] at h
      · have : (b == c) = false := by simp [hb]
        rw [this] at h
        exact h

theorem mem_at'_iff {m : Next S} (hm : (m.map (·.1)).Nodup) {c : Alphabet} {e : Transition S} :
    e ∈ m.at' c ↔ ∃ l, (c, l) ∈ m ∧ e ∈ l := by
  induction m with
  | nil => simp [at'_nil]
  | cons p m ih =>
    obtain ⟨b, l⟩ := p
    rw [List.map_cons, List.nodup_cons] at hm
    rw [at'_cons]
    by_cases h : b = c
    · subst h
      simp only [if_true, List.mem_cons, Prod.mk.injEq, true_and]
      constructor
      · intro he; exact ⟨l, Or.inl rfl, he⟩
      · rintro ⟨l', h | h, he⟩
        · exact h ▸ he
        · exact absurd (List.mem_map.2 ⟨_, h, rfl⟩) hm.1
    · rw [if_neg h, ih hm.2]
      simp [Ne.symm h]

theorem find_getD {m : Next S} {c : Alphabet} {l : List (Transition S)} (h : m.find c = some l) :
    m.at' c = l := by simp [at', h]

end Next

namespace TA

section product
variable [DecidableEq S] [DecidableEq T]

theorem toIState_eq {A : TA S} {B : TA T} {p q : S × T} (h : toIState A B p = some q) : q = p := by
  simp only [toIState] at h
  split at h <;> simp_all

theorem touch_mem {m : Next S} {c d : Alphabet} {l : List (Transition S)} :
    (∃ e ∈ l, (d, l) ∈ m.touch c) → (∃ e ∈ l, (d, l) ∈ m) := by
  rintro ⟨e, he, h⟩
  unfold Next.touch at h
  split at h
  · exact ⟨e, he, h⟩
  · rcases List.mem_append.1 h with h | h
    · exact ⟨e, he, h⟩
    · simp only [List.mem_singleton, Prod.mk.injEq] at h
      rw [h.2] at he; simp at he

theorem touch_mem' {m : Next S} {c d : Alphabet} {l : List (Transition S)} (h : (d, l) ∈ m) :
    (d, l) ∈ m.touch c := by
  unfold Next.touch
  split
  · exact h
  · exact List.mem_append_left _ h

theorem mem_edges_intersection' {A : TA S} {B : TA T} {s1 : S} (hA : ((A.st s1).next.map (·.1)).Nodup) {s2 : T} {c : Alphabet}
    {e : Transition (S × T)} :
    e ∈ (A.intersection B).edges (s1, s2) c ↔ (toIState A B (s1, s2)).isSome ∧
      ((c = epsilon ∧ ∃ e1 ∈ A.edges s1 epsilon, ∃ q1, e1.target = some q1 ∧
          e = productTransition A.clockSize (toIState A B (q1, s2)) e1.resets e1.guard [] []) ∨
       (c = epsilon ∧ ∃ e2 ∈ B.edges s2 epsilon, ∃ q2, e2.target = some q2 ∧
          e = productTransition A.clockSize (toIState A B (s1, q2)) [] [] e2.resets e2.guard) ∨
       (∃ e1 ∈ A.edges s1 c, ∃ e2 ∈ B.edges s2 c, ∃ q1 q2, e1.target = some q1 ∧ e2.target = some q2 ∧
          e = productTransition A.clockSize (toIState A B (q1, q2)) e1.resets e1.guard e2.resets e2.guard)) := by
  by_cases hI : (toIState A B (s1, s2)).isSome
  swap
  · simp [edges, intersection, hI, Next.at'_nil]
  simp only [edges, intersection, hI, if_true, Next.mem_at'_foldl_push, Next.at'_nil, List.not_mem_nil,
    false_or, true_and]
  simp only [productPushes, List.mem_append, or_assoc]
  refine or_congr ?_ (or_congr ?_ ?_)
  · simp only [List.mem_flatMap]
    constructor
    · rintro ⟨e1, he1, h⟩
      rcases ht : e1.target with _ | q1 <;> rw [ht] at h
      · simp at h
      · simp only [List.mem_singleton, Prod.mk.injEq] at h
        exact ⟨h.1, e1, he1, q1, ht, h.2⟩
    · rintro ⟨rfl, e1, he1, q1, ht, rfl⟩
      exact ⟨e1, he1, by simp [ht]⟩
  · simp only [List.mem_flatMap]
    constructor
    · rintro ⟨e1, he1, h⟩
      rcases ht : e1.target with _ | q1 <;> rw [ht] at h
      · simp at h
      · simp only [List.mem_singleton, Prod.mk.injEq] at h
        exact ⟨h.1, e1, he1, q1, ht, h.2⟩
    · rintro ⟨rfl, e1, he1, q1, ht, rfl⟩
      exact ⟨e1, he1, by simp [ht]⟩
  · simp only [List.mem_flatMap]
    constructor
    · rintro ⟨⟨d, l⟩, hdl, e1, he1, h⟩
      obtain ⟨_, _, hdl⟩ := touch_mem ⟨e1, he1, hdl⟩
      rcases ht : e1.target with _ | q1 <;> rw [ht] at h
      · simp at h
      · rcases hf : ((B.st s2).next.touch epsilon).find d with _ | es2 <;> simp only [hf] at h
        · simp at h
        · have hes := Next.find_getD hf
          rw [Next.at'_touch] at hes
          obtain ⟨e2, he2, h⟩ := List.mem_flatMap.1 h
          rcases ht2 : e2.target with _ | q2 <;> rw [ht2] at h
          · simp at h
          · simp only [List.mem_singleton, Prod.mk.injEq] at h
            obtain ⟨rfl, rfl⟩ := h
            exact ⟨e1, (Next.mem_at'_iff hA).2 ⟨l, hdl, he1⟩, e2, hes ▸ he2, q1, q2, ht, ht2, rfl⟩
    · rintro ⟨e1, he1, e2, he2, q1, q2, ht, ht2, rfl⟩
      obtain ⟨l, hl, he1⟩ := (Next.mem_at'_iff hA).1 he1
      refine ⟨(c, l), touch_mem' hl, e1, he1, ?_⟩
      simp only [ht]
      have : ((B.st s2).next.touch epsilon).at' c = (B.st s2).next.at' c := Next.at'_touch _ _ _
      rcases hf : ((B.st s2).next.touch epsilon).find c with _ | es2
      · rw [Next.at', hf] at this
        rw [← this] at he2
        simp at he2
      · have hes := Next.find_getD hf
        rw [this] at hes
        exact List.mem_flatMap.2 ⟨e2, hes ▸ he2, by simp [ht2]⟩

theorem mem_edges_intersection {A : TA S} {B : TA T} (hA : A.MapOk) {s1 : S} {s2 : T} {c : Alphabet}
    {e : Transition (S × T)} :
    e ∈ (A.intersection B).edges (s1, s2) c ↔ (toIState A B (s1, s2)).isSome ∧
      ((c = epsilon ∧ ∃ e1 ∈ A.edges s1 epsilon, ∃ q1, e1.target = some q1 ∧
          e = productTransition A.clockSize (toIState A B (q1, s2)) e1.resets e1.guard [] []) ∨
       (c = epsilon ∧ ∃ e2 ∈ B.edges s2 epsilon, ∃ q2, e2.target = some q2 ∧
          e = productTransition A.clockSize (toIState A B (s1, q2)) [] [] e2.resets e2.guard) ∨
       (∃ e1 ∈ A.edges s1 c, ∃ e2 ∈ B.edges s2 c, ∃ q1 q2, e1.target = some q1 ∧ e2.target = some q2 ∧
          e = productTransition A.clockSize (toIState A B (q1, q2)) e1.resets e1.guard e2.resets e2.guard)) :=
  mem_edges_intersection' (hA s1)

/-- Reset instants of the product agree with those of the two components. -/
def Comb (n1 n2 : Nat) (r r1 r2 : Nat → K) : Prop :=
  (∀ i, i < n1 → r i = r1 i) ∧ ∀ i, i < n2 → r (i + n1) = r2 i

theorem shiftClock_eq {n1 n2 x : Nat} (hn : n1 + n2 ≤ 256) (hx : x < n2) : shiftClock n1 x = x + n1 := by
  rw [shiftClock, Nat.mod_eq_of_lt (by omega)]

theorem Comb.reset {n1 n2 : Nat} (hn : n1 + n2 ≤ 256) {r r1 r2 : Nat → K} (h : Comb n1 n2 r r1 r2)
    {xs1 xs2 : List Nat} (h1 : ∀ x ∈ xs1, x < n1) (h2 : ∀ x ∈ xs2, x < n2) (t : K) :
    Comb n1 n2 (resetAt r (xs1 ++ xs2.map (shiftClock n1)) t) (resetAt r1 xs1 t) (resetAt r2 xs2 t) := by
  constructor
  · intro i hi
    have : i ∈ xs1 ++ xs2.map (shiftClock n1) ↔ i ∈ xs1 := by
      simp only [List.mem_append, List.mem_map, or_iff_left_iff_imp]
      rintro ⟨x, hx, rfl⟩
      rw [shiftClock_eq hn (h2 x hx)] at hi; omega
    simp only [resetAt, this, h.1 i hi]
  · intro i hi
    have : i + n1 ∈ xs1 ++ xs2.map (shiftClock n1) ↔ i ∈ xs2 := by
      simp only [List.mem_append, List.mem_map]
      constructor
      · rintro (hx | ⟨x, hx, e⟩)
        · have := h1 _ hx; omega
        · rw [shiftClock_eq hn (h2 x hx)] at e
          have : x = i := by omega
          exact this ▸ hx
      · intro hx; exact Or.inr ⟨i, hx, shiftClock_eq hn (h2 i hx)⟩
    simp only [resetAt, this, h.2 i hi]

theorem Comb.guard {n1 n2 : Nat} (hn : n1 + n2 ≤ 256) {r r1 r2 : Nat → K} (h : Comb n1 n2 r r1 r2)
    {g1 g2 : List Constraint} (h1 : ∀ g ∈ g1, g.x < n1) (h2 : ∀ g ∈ g2, g.x < n2) (t : K) :
    GuardHolds (g1 ++ g2.map fun g => { g with x := shiftClock n1 g.x }) (fun x => t - r x) ↔
      GuardHolds g1 (fun x => t - r1 x) ∧ GuardHolds g2 (fun x => t - r2 x) := by
  simp only [GuardHolds, List.mem_append, List.mem_map]
  constructor
  · intro hg
    refine ⟨fun c hc => ?_, fun c hc => ?_⟩
    · have := hg c (Or.inl hc)
      rwa [h.1 c.x (h1 c hc)] at this
    · have := hg _ (Or.inr ⟨c, hc, rfl⟩)
      simp only [shiftClock_eq hn (h2 c hc), h.2 c.x (h2 c hc)] at this
      exact this
  · rintro ⟨hg1, hg2⟩ c (hc | ⟨c, hc, rfl⟩)
    · rw [h.1 c.x (h1 c hc)]; exact hg1 c hc
    · simp only [shiftClock_eq hn (h2 c hc), h.2 c.x (h2 c hc)]
      exact hg2 c hc

theorem resetAt_nil (r : Nat → K) (t : K) : resetAt r [] t = r := by funext x; simp [resetAt]

theorem toIState_some {A : TA S} {B : TA T} (hf : SameFlag A B) {s1 : S} {s2 : T} (h1 : s1 ∈ A.states)
    (h2 : s2 ∈ B.states) : toIState A B (s1, s2) = some (s1, s2) := by
  obtain ⟨b, hb1, hb2⟩ := hf
  rw [toIState, if_pos]
  exact ⟨h1, h2, by rw [hb1 s1 h1, hb2 s2 h2]⟩

variable {A : TA S} {B : TA T}

theorem reads_intersection_fwd (hA : A.MapOk) (hcA : A.ClocksDeclared) (hcB : B.ClocksDeclared)
    (hn : A.clockSize + B.clockSize ≤ 256) {w : TWord K} (hw : ∀ p ∈ w, p.1 ≠ epsilon)
    {s1 s1' : S} {s2 s2' : T} {r r1 r2 : Nat → K} (hr : Comb A.clockSize B.clockSize r r1 r2)
    (h : (A.intersection B).Reads (s1, s2) r w (s1', s2')) :
    A.Reads s1 r1 w s1' ∧ B.Reads s2 r2 w s2' := by
  induction w generalizing s1 s2 r r1 r2 with
  | nil => simp only [Reads, Prod.mk.injEq] at h ⊢; exact h
  | cons p w ih =>
    obtain ⟨a, t⟩ := p
    obtain ⟨e, he, q, hq, hg, h⟩ := h
    obtain ⟨_, he⟩ := (mem_edges_intersection hA).1 he
    have ha := hw (a, t) List.mem_cons_self
    simp only at ha
    rcases he with ⟨h0, _⟩ | ⟨h0, _⟩ | ⟨e1, he1, e2, he2, q1, q2, ht1, ht2, rfl⟩
    · exact absurd h0 ha
    · exact absurd h0 ha
    · have := toIState_eq hq
      subst this
      have w1 := hcA s1 a e1 he1
      have w2 := hcB s2 a e2 he2
      obtain ⟨g1, g2⟩ := (hr.guard hn w1.1 w2.1 t).1 hg
      obtain ⟨i1, i2⟩ := ih (fun p hp => hw p (List.mem_cons_of_mem _ hp)) (hr.reset hn w1.2 w2.2 t) h
      exact ⟨⟨e1, he1, q1, ht1, g1, i1⟩, ⟨e2, he2, q2, ht2, g2, i2⟩⟩

theorem reads_intersection_bwd (hA : A.MapOk) (hcA : A.ClocksDeclared) (hcB : B.ClocksDeclared)
    (hn : A.clockSize + B.clockSize ≤ 256) (hf : SameFlag A B) (hlA : A.Closed) (hlB : B.Closed)
    {w : TWord K}
    {s1 s1' : S} {s2 s2' : T} (hs1 : s1 ∈ A.states) (hs2 : s2 ∈ B.states)
    {r r1 r2 : Nat → K} (hr : Comb A.clockSize B.clockSize r r1 r2)
    (h1 : A.Reads s1 r1 w s1') (h2 : B.Reads s2 r2 w s2') :
    (A.intersection B).Reads (s1, s2) r w (s1', s2') := by
  induction w generalizing s1 s2 r r1 r2 with
  | nil => simp only [Reads, Prod.mk.injEq] at h1 h2 ⊢; exact ⟨h1, h2⟩
  | cons p w ih =>
    obtain ⟨a, t⟩ := p
    obtain ⟨e1, he1, q1, ht1, g1, h1⟩ := h1
    obtain ⟨e2, he2, q2, ht2, g2, h2⟩ := h2
    have w1 := hcA s1 a e1 he1
    have w2 := hcB s2 a e2 he2
    have hq1 := hlA.2 s1 hs1 a e1 he1 q1 ht1
    have hq2 := hlB.2 s2 hs2 a e2 he2 q2 ht2
    refine ⟨_, (mem_edges_intersection hA).2 ⟨by rw [toIState_some hf hs1 hs2]; rfl,
      Or.inr (Or.inr ⟨e1, he1, e2, he2, q1, q2, ht1, ht2, rfl⟩)⟩, (q1, q2), toIState_some hf hq1 hq2,
      (hr.guard hn w1.1 w2.1 t).2 ⟨g1, g2⟩, ?_⟩
    exact ih hq1 hq2 (hr.reset hn w1.2 w2.2 t) h1 h2

theorem sreads_mono {A : TA S} {s s' : S} {r : Nat → K} {now now' : K} {w : TWord K} (hn : now' ≤ now)
    (h : A.SReads s r now w s') : A.SReads s r now' w s' := by
  cases h with
  | done => exact .done ..
  | event e q he hq ha ht hg h => exact .event e q he hq ha (hn.trans ht) hg h
  | silent t e q he hq ht hg h => exact .silent t e q he hq (hn.trans ht) hg h

theorem sreads_head_le {A : TA S} {s s' : S} {r : Nat → K} {now t : K} {a : Alphabet} {w : TWord K}
    (h : A.SReads s r now ((a, t) :: w) s') : now ≤ t := by
  generalize hw : ((a, t) :: w) = w' at h
  induction h with
  | done => simp at hw
  | event e q he hq ha ht hg h _ => simp only [List.cons.injEq, Prod.mk.injEq] at hw; rw [hw.1.2]; exact ht
  | silent t' e q he hq ht hg h ih => exact ht.trans (ih hw)

theorem sreads_intersection_fwd (hA : A.MapOk) (hcA : A.ClocksDeclared) (hcB : B.ClocksDeclared)
    (hn : A.clockSize + B.clockSize ≤ 256) {w : TWord K} {now : K}
    {p p' : S × T} {r r1 r2 : Nat → K} (hr : Comb A.clockSize B.clockSize r r1 r2)
    (h : (A.intersection B).SReads p r now w p') :
    A.SReads p.1 r1 now w p'.1 ∧ B.SReads p.2 r2 now w p'.2 := by
  induction h generalizing r1 r2 with
  | done s r now => exact ⟨.done .., .done ..⟩
  | @event p r now a t w p' e q he hq ha ht hg h ih =>
    obtain ⟨s1, s2⟩ := p
    obtain ⟨_, he⟩ := (mem_edges_intersection hA).1 he
    rcases he with ⟨h0, _⟩ | ⟨h0, _⟩ | ⟨e1, he1, e2, he2, q1, q2, ht1, ht2, rfl⟩
    · exact absurd h0 ha
    · exact absurd h0 ha
    · have := toIState_eq hq
      subst this
      have w1 := hcA s1 a e1 he1
      have w2 := hcB s2 a e2 he2
      obtain ⟨g1, g2⟩ := (hr.guard hn w1.1 w2.1 t).1 hg
      obtain ⟨i1, i2⟩ := ih (hr.reset hn w1.2 w2.2 t)
      exact ⟨.event e1 q1 he1 ht1 ha ht g1 i1, .event e2 q2 he2 ht2 ha ht g2 i2⟩
  | @silent p r now w p' t e q he hq ht hg h ih =>
    obtain ⟨s1, s2⟩ := p
    obtain ⟨_, he⟩ := (mem_edges_intersection hA).1 he
    rcases he with ⟨_, e1, he1, q1, ht1, rfl⟩ | ⟨_, e2, he2, q2, ht2, rfl⟩ |
      ⟨e1, he1, e2, he2, q1, q2, ht1, ht2, rfl⟩
    · have := toIState_eq hq
      subst this
      have w1 := hcA s1 _ e1 he1
      obtain ⟨g1, g2⟩ := (hr.guard hn w1.1 (by simp) t).1 hg
      obtain ⟨i1, i2⟩ := ih (hr.reset hn w1.2 (by simp) t)
      rw [resetAt_nil] at i2
      exact ⟨.silent t e1 q1 he1 ht1 ht g1 i1, sreads_mono ht i2⟩
    · have := toIState_eq hq
      subst this
      have w2 := hcB s2 _ e2 he2
      obtain ⟨g1, g2⟩ := (hr.guard hn (by simp) w2.1 t).1 hg
      obtain ⟨i1, i2⟩ := ih (hr.reset hn (by simp) w2.2 t)
      rw [resetAt_nil] at i1
      exact ⟨sreads_mono ht i1, .silent t e2 q2 he2 ht2 ht g2 i2⟩
    · have := toIState_eq hq
      subst this
      have w1 := hcA s1 _ e1 he1
      have w2 := hcB s2 _ e2 he2
      obtain ⟨g1, g2⟩ := (hr.guard hn w1.1 w2.1 t).1 hg
      obtain ⟨i1, i2⟩ := ih (hr.reset hn w1.2 w2.2 t)
      exact ⟨.silent t e1 q1 he1 ht1 ht g1 i1, .silent t e2 q2 he2 ht2 ht g2 i2⟩

/-- One silent step of the first component in the product. -/
theorem silent_left (hA : A.MapOk) (hcA : A.ClocksDeclared)
    (hn : A.clockSize + B.clockSize ≤ 256) (hf : SameFlag A B) (hlA : A.Closed)
    {s1 : S} {s2 : T} (hs1 : s1 ∈ A.states) (hs2 : s2 ∈ B.states) {r r1 r2 : Nat → K}
    (hr : Comb A.clockSize B.clockSize r r1 r2) {now t : K} {w : TWord K} {p' : S × T}
    {e : Transition S} {q : S} (he : e ∈ A.edges s1 epsilon) (hq : e.target = some q) (ht : now ≤ t)
    (hg : GuardHolds e.guard (fun x => t - r1 x))
    (h : ∀ r', Comb A.clockSize B.clockSize r' (resetAt r1 e.resets t) r2 →
      (A.intersection B).SReads (q, s2) r' t w p') :
    (A.intersection B).SReads (s1, s2) r now w p' := by
  have w1 := hcA s1 _ e he
  have hq' := hlA.2 s1 hs1 _ e he q hq
  have hr' := hr.reset hn w1.2 (xs2 := []) (by simp) t
  rw [resetAt_nil r2] at hr'
  refine .silent t _ (q, s2) ((mem_edges_intersection hA).2 ⟨by rw [toIState_some hf hs1 hs2]; rfl,
    Or.inl ⟨rfl, e, he, q, hq, rfl⟩⟩) (toIState_some hf hq' hs2) ht ?_ (h _ hr')
  exact (hr.guard hn w1.1 (g2 := []) (by simp) t).2 ⟨hg, by simp [GuardHolds]⟩

theorem silent_right (hA : A.MapOk) (hcB : B.ClocksDeclared)
    (hn : A.clockSize + B.clockSize ≤ 256) (hf : SameFlag A B) (hlB : B.Closed)
    {s1 : S} {s2 : T} (hs1 : s1 ∈ A.states) (hs2 : s2 ∈ B.states) {r r1 r2 : Nat → K}
    (hr : Comb A.clockSize B.clockSize r r1 r2) {now t : K} {w : TWord K} {p' : S × T}
    {e : Transition T} {q : T} (he : e ∈ B.edges s2 epsilon) (hq : e.target = some q) (ht : now ≤ t)
    (hg : GuardHolds e.guard (fun x => t - r2 x))
    (h : ∀ r', Comb A.clockSize B.clockSize r' r1 (resetAt r2 e.resets t) →
      (A.intersection B).SReads (s1, q) r' t w p') :
    (A.intersection B).SReads (s1, s2) r now w p' := by
  have w2 := hcB s2 _ e he
  have hq' := hlB.2 s2 hs2 _ e he q hq
  have hr' := hr.reset hn (xs1 := []) (by simp) w2.2 t
  rw [resetAt_nil r1] at hr'
  refine .silent t _ (s1, q) ((mem_edges_intersection hA).2 ⟨by rw [toIState_some hf hs1 hs2]; rfl,
    Or.inr (Or.inl ⟨rfl, e, he, q, hq, rfl⟩)⟩) (toIState_some hf hs1 hq') ht ?_ (h _ hr')
  exact (hr.guard hn (g1 := []) (by simp) w2.1 t).2 ⟨by simp [GuardHolds], hg⟩

theorem sreads_intersection_bwd (hA : A.MapOk) (hcA : A.ClocksDeclared) (hcB : B.ClocksDeclared)
    (hn : A.clockSize + B.clockSize ≤ 256) (hf : SameFlag A B) (hlA : A.Closed) (hlB : B.Closed)
    {w : TWord K} {now1 : K} {s1 s1' : S} {r1 : Nat → K} (h1 : A.SReads s1 r1 now1 w s1') :
    s1 ∈ A.states → ∀ {now2 now : K} {s2 s2' : T} {r r2 : Nat → K}, now ≤ now1 → now ≤ now2 →
    s2 ∈ B.states → Comb A.clockSize B.clockSize r r1 r2 → B.SReads s2 r2 now2 w s2' →
    (A.intersection B).SReads (s1, s2) r now w (s1', s2') := by
  induction h1 with
  | done s1 r1 now1 =>
    intro hs1 now2 now s2 s2' r r2 hnow1 hnow2 hs2 hr h2
    clear hnow1
    generalize hw : ([] : TWord K) = w at h2
    induction h2 generalizing r now with
    | done => exact .done ..
    | event => simp at hw
    | silent t e q he hq ht hg h ih =>
      exact silent_right hA hcB hn hf hlB hs1 hs2 hr he hq (hnow2.trans ht) hg fun r' hr' =>
        ih (now := t) (r := r') le_rfl (hlB.2 _ hs2 _ e he q hq) hr' hw
  | @event s1 r1 now1 a t w s1' e1 q1 he1 hq1 ha ht1 hg1 h1 ih1 =>
    intro hs1 now2 now s2 s2' r r2 hnow1 hnow2 hs2 hr h2
    clear hnow1
    generalize hw : (a, t) :: w = w' at h2
    induction h2 generalizing r now with
    | done => simp at hw
    | @event s2 r2 now2 a' t' w' s2' e q he hq ha' ht hg h ih =>
      simp only [List.cons.injEq, Prod.mk.injEq] at hw
      obtain ⟨⟨rfl, rfl⟩, rfl⟩ := hw
      have w1 := hcA s1 _ e1 he1
      have w2 := hcB s2 _ e he
      have hq1' := hlA.2 s1 hs1 _ e1 he1 q1 hq1
      have hq2' := hlB.2 s2 hs2 _ e he q hq
      refine .event _ (q1, q) ((mem_edges_intersection hA).2 ⟨by rw [toIState_some hf hs1 hs2]; rfl,
        Or.inr (Or.inr ⟨e1, he1, e, he, q1, q, hq1, hq, rfl⟩)⟩) (toIState_some hf hq1' hq2') ha
        (hnow2.trans ht) ((hr.guard hn w1.1 w2.1 t).2 ⟨hg1, hg⟩) ?_
      exact ih1 hq1' le_rfl le_rfl hq2' (hr.reset hn w1.2 w2.2 t) h
    | silent t' e q he hq ht hg h ih =>
      exact silent_right hA hcB hn hf hlB hs1 hs2 hr he hq (hnow2.trans ht) hg fun r' hr' =>
        ih (now := t') (r := r') le_rfl (hlB.2 _ hs2 _ e he q hq) hr' hw
  | @silent s1 r1 now1 w s1' t1 e1 q1 he1 hq1 ht1 hg1 h1 ih1 =>
    intro hs1 now2 now s2 s2' r r2 hnow1 hnow2 hs2 hr h2
    have hq1' := hlA.2 s1 hs1 _ e1 he1 q1 hq1
    have hnow : now ≤ t1 := hnow1.trans ht1
    clear hnow1
    induction h2 generalizing r now with
    | done s2 r2 now2 =>
      exact silent_left hA hcA hn hf hlA hs1 hs2 hr he1 hq1 hnow hg1 fun r' hr' =>
        ih1 hq1' le_rfl (le_refl t1) hs2 hr' (.done ..)
    | event e q he hq ha ht hg h ih =>
      have htt := sreads_head_le h1
      exact silent_left hA hcA hn hf hlA hs1 hs2 hr he1 hq1 hnow hg1 fun r' hr' =>
        ih1 hq1' le_rfl (le_refl t1) hs2 hr' (.event e q he hq ha htt hg h)
    | silent t2 e q he hq ht hg h ih =>
      rcases le_or_gt t1 t2 with h12 | h12
      · exact silent_left hA hcA hn hf hlA hs1 hs2 hr he1 hq1 hnow hg1 fun r' hr' =>
          ih1 hq1' le_rfl (le_refl t1) hs2 hr' (.silent t2 e q he hq h12 hg h)
      · exact silent_right hA hcB hn hf hlB hs1 hs2 hr he hq (hnow2.trans ht) hg fun r' hr' =>
          ih h1 ih1 (now := t2) (r := r') le_rfl (hlB.2 _ hs2 _ e he q hq) hr' h12.le

end product
end TA
end Verif
