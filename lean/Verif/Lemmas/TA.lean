import Verif.Spec.TA
import Verif.Lemmas.Constraint
import Mathlib.Tactic.Ring

set_option linter.unusedSectionVars false

namespace Verif

variable {S K : Type} [Field K] [LinearOrder K] [IsStrictOrderedRing K]

/-- A clock vector at time `now` agrees with reset instants. -/
def Agrees (n : Nat) (val : List K) (r : Nat → K) (now : K) : Prop :=
  val.length = n ∧ ∀ i, i < n → val[i]? = some (now - r i)

theorem Agrees.delay {n : Nat} {val : List K} {r : Nat → K} {now t : K} (h : Agrees n val r now) :
    Agrees n (val.map (· + (t - now))) r t := by
  refine ⟨by simp [h.1], fun i hi => ?_⟩
  rw [List.getElem?_map, h.2 i hi]
  simp only [Option.map_some, Option.some.injEq]
  ring

namespace TA

theorem guardAll_spec {n : Nat} {val : List K} {r : Nat → K} {t : K} (h : Agrees n val r t)
    {g : List Constraint} (hg : ∀ c ∈ g, c.x < n) :
    ∃ b, guardAll g val = .ok b ∧ (b = true ↔ GuardHolds g (fun x => t - r x)) := by
  induction g with
  | nil => exact ⟨true, rfl, by simp [GuardHolds]⟩
  | cons c g ih =>
    obtain ⟨b, hb, hb'⟩ := ih fun c hc => hg c (List.mem_cons_of_mem _ hc)
    have hv := h.2 c.x (hg c List.mem_cons_self)
    simp only [guardAll, hv]
    by_cases hc : c.satisfy (t - r c.x) = true
    · refine ⟨b, by simp [hc, hb], ?_⟩
      rw [hb']
      simp [GuardHolds, (c.satisfy_iff _).1 hc]
    · refine ⟨false, by simp [hc], ?_⟩
      simp only [GuardHolds, List.forall_mem_cons]
      rw [← c.satisfy_iff]
      simp [hc]

theorem resetAll_spec {n : Nat} {xs : List Nat} {val : List K} {r : Nat → K} {t : K}
    (h : Agrees n val r t) (hx : ∀ x ∈ xs, x < n) :
    ∃ val', resetAll xs val = .ok val' ∧ Agrees n val' (resetAt r xs t) t := by
  induction xs generalizing val r with
  | nil =>
    refine ⟨val, rfl, ?_⟩
    have : resetAt r [] t = r := by funext x; simp [resetAt]
    rw [this]; exact h
  | cons x xs ih =>
    have hxn := hx x List.mem_cons_self
    have h1 : Agrees n (val.set x 0) (fun i => if i = x then t else r i) t := by
      refine ⟨by simp [h.1], fun i hi => ?_⟩
      by_cases hix : i = x
      · subst hix
        rw [List.getElem?_set_self (by rw [h.1]; exact hi)]
        simp
      · rw [List.getElem?_set_ne (Ne.symm hix), h.2 i hi]
        simp [hix]
    obtain ⟨val', hv, hag⟩ := ih h1 fun y hy => hx y (List.mem_cons_of_mem _ hy)
    refine ⟨val', by rw [resetAll, if_pos (by rw [h.1]; exact hxn)]; exact hv, ?_⟩
    have : resetAt (fun i => if i = x then t else r i) xs t = resetAt r (x :: xs) t := by
      funext i
      simp only [resetAt, List.mem_cons]
      by_cases h1 : i ∈ xs <;> by_cases h2 : i = x <;> simp [h1, h2]
    rw [← this]
    exact hag

/-- The configurations produced by the edges of one configuration. -/
theorem memberEdges_spec {n : Nat} {val : List K} {r : Nat → K} {t : K} (h : Agrees n val r t)
    {es : List (Transition S)}
    (hes : ∀ e ∈ es, (∀ g ∈ e.guard, g.x < n) ∧ ∀ x ∈ e.resets, x < n) :
    ∃ cs, memberEdges es val = .ok cs ∧
      (∀ c ∈ cs, ∃ e ∈ es, e.target = some c.1 ∧ GuardHolds e.guard (fun x => t - r x) ∧
        Agrees n c.2 (resetAt r e.resets t) t) ∧
      (∀ e ∈ es, ∀ q, e.target = some q → GuardHolds e.guard (fun x => t - r x) →
        ∃ v, (q, v) ∈ cs ∧ Agrees n v (resetAt r e.resets t) t) := by
  induction es with
  | nil => exact ⟨[], rfl, by simp, by simp⟩
  | cons e es ih =>
    obtain ⟨cs, hcs, h1, h2⟩ := ih fun e he => hes e (List.mem_cons_of_mem _ he)
    have hw := hes e List.mem_cons_self
    obtain ⟨b, hb, hb'⟩ := guardAll_spec h hw.1
    obtain ⟨v, hv, hag⟩ := resetAll_spec h hw.2
    simp only [memberEdges, hb, hcs, bind, Except.bind, pure, Except.pure]
    rcases hbb : b with _ | _
    · refine ⟨cs, by simp, ?_, ?_⟩
      · intro c hc
        obtain ⟨e', he', hh⟩ := h1 c hc
        exact ⟨e', List.mem_cons_of_mem _ he', hh⟩
      · intro e' he' q hq hg
        rcases List.mem_cons.1 he' with rfl | he'
        · rw [← hb', hbb] at hg; simp at hg
        · exact h2 e' he' q hq hg
    · have hg := hb'.1 hbb
      rcases ht : e.target with _ | q
      · refine ⟨cs, by simp, ?_, ?_⟩
        · intro c hc
          obtain ⟨e', he', hh⟩ := h1 c hc
          exact ⟨e', List.mem_cons_of_mem _ he', hh⟩
        · intro e' he' q hq hg
          rcases List.mem_cons.1 he' with rfl | he'
          · rw [ht] at hq; simp at hq
          · exact h2 e' he' q hq hg
      · refine ⟨(q, v) :: cs, by simp [hv], ?_, ?_⟩
        · intro c hc
          rcases List.mem_cons.1 hc with rfl | hc
          · exact ⟨e, List.mem_cons_self, ht, hg, hag⟩
          · obtain ⟨e', he', hh⟩ := h1 c hc
            exact ⟨e', List.mem_cons_of_mem _ he', hh⟩
        · intro e' he' q' hq hg'
          rcases List.mem_cons.1 he' with rfl | he'
          · rw [ht] at hq
            simp only [Option.some.injEq] at hq
            subst hq
            exact ⟨v, List.mem_cons_self, hag⟩
          · obtain ⟨v', hv', ha'⟩ := h2 e' he' q' hq hg'
            exact ⟨v', List.mem_cons_of_mem _ hv', ha'⟩

theorem reads_congr {A : TA S} (hA : A.ClocksDeclared) {s s' : S} {r r' : Nat → K} {w : TWord K}
    (hr : ∀ i, i < A.clockSize → r i = r' i) (h : A.Reads s r w s') : A.Reads s r' w s' := by
  induction w generalizing s r r' with
  | nil => exact h
  | cons p w ih =>
    obtain ⟨a, t⟩ := p
    obtain ⟨e, he, q, hq, hg, h⟩ := h
    refine ⟨e, he, q, hq, fun c hc => ?_, ih (fun i hi => ?_) h⟩
    · have := hg c hc
      simp only at this ⊢
      rwa [← hr c.x ((hA s a e he).1 c hc)]
    · simp only [resetAt, hr i hi]

theorem agrees_inj {n : Nat} {val : List K} {r r' : Nat → K} {now : K} (h : Agrees n val r now)
    (h' : Agrees n val r' now) : ∀ i, i < n → r i = r' i := by
  intro i hi
  have h1 := h.2 i hi
  rw [h'.2 i hi] at h1
  simp only [Option.some.injEq] at h1
  linarith

theorem memberStep_spec {A : TA S} (hA : A.ClocksDeclared) {a : Alphabet} {now t : K}
    {cs : List (S × List K)} (hcs : ∀ c ∈ cs, ∃ r, Agrees A.clockSize c.2 r now) :
    ∃ cs', memberStep A a (t - now) cs = .ok cs' ∧
      (∀ c' ∈ cs', ∃ r', Agrees A.clockSize c'.2 r' t) ∧
      ∀ w s', (∃ c' ∈ cs', ∃ r', Agrees A.clockSize c'.2 r' t ∧ A.Reads c'.1 r' w s') ↔
        ∃ c ∈ cs, ∃ r, Agrees A.clockSize c.2 r now ∧ A.Reads c.1 r ((a, t) :: w) s' := by
  induction cs with
  | nil => exact ⟨[], rfl, by simp, by simp⟩
  | cons c cs ih =>
    obtain ⟨cs', hcs', h1, h2⟩ := ih fun c hc => hcs c (List.mem_cons_of_mem _ hc)
    obtain ⟨r, hr⟩ := hcs c List.mem_cons_self
    obtain ⟨s, val⟩ := c
    -- the successors of the first configuration
    have hhere : ∃ here, memberConfig A a (t - now) s val = Except.ok here ∧
        (∀ c ∈ here, ∃ e ∈ A.edges s a, e.target = some c.1 ∧ GuardHolds e.guard (fun x => t - r x) ∧
          Agrees A.clockSize c.2 (resetAt r e.resets t) t) ∧
        (∀ e ∈ A.edges s a, ∀ q, e.target = some q → GuardHolds e.guard (fun x => t - r x) →
          ∃ v, (q, v) ∈ here ∧ Agrees A.clockSize v (resetAt r e.resets t) t) := by
      rcases hf : (A.st s).next.find a with _ | es
      · have : A.edges s a = [] := by simp [edges, Next.at', hf]
        refine ⟨[], by simp [memberConfig, hf], by simp, by simp [this]⟩
      · have : A.edges s a = es := by simp [edges, Next.at', hf]
        rw [this, show memberConfig A a (t - now) s val = memberEdges es (val.map (· + (t - now))) by
          simp [memberConfig, hf]]
        exact memberEdges_spec hr.delay fun e he => hA s a e (this ▸ he)
    obtain ⟨here, hh, hh1, hh2⟩ := hhere
    refine ⟨here ++ cs', ?_, ?_, ?_⟩
    · simp only [memberStep, hcs', hh]; rfl
    · intro c' hc'
      rcases List.mem_append.1 hc' with hc' | hc'
      · obtain ⟨e, _, _, _, h⟩ := hh1 c' hc'; exact ⟨_, h⟩
      · exact h1 c' hc'
    · intro w s'
      constructor
      · rintro ⟨c', hc', r', hr', hreads⟩
        rcases List.mem_append.1 hc' with hc' | hc'
        · obtain ⟨e, he, hq, hg, hag⟩ := hh1 c' hc'
          refine ⟨(s, val), List.mem_cons_self, r, hr, e, he, c'.1, hq, hg, ?_⟩
          exact reads_congr hA (agrees_inj hr' hag) hreads
        · obtain ⟨c, hc, h⟩ := (h2 w s').1 ⟨c', hc', r', hr', hreads⟩
          exact ⟨c, List.mem_cons_of_mem _ hc, h⟩
      · rintro ⟨c, hc, r0, hr0, hreads⟩
        rcases List.mem_cons.1 hc with rfl | hc
        · have hreads := reads_congr hA (agrees_inj hr0 hr) hreads
          obtain ⟨e, he, q, hq, hg, hreads⟩ := hreads
          obtain ⟨v, hv, hag⟩ := hh2 e he q hq hg
          exact ⟨(q, v), List.mem_append_left _ hv, _, hag, hreads⟩
        · obtain ⟨c', hc', h⟩ := (h2 w s').2 ⟨c, hc, r0, hr0, hreads⟩
          exact ⟨c', List.mem_append_right _ hc', h⟩

theorem memberLoop_spec {A : TA S} (hA : A.ClocksDeclared) {w : TWord K} {now : K}
    {cs : List (S × List K)} (hcs : ∀ c ∈ cs, ∃ r, Agrees A.clockSize c.2 r now) :
    ∃ b, memberLoop A now cs w = .ok b ∧
      (b = true ↔ ∃ c ∈ cs, ∃ r, Agrees A.clockSize c.2 r now ∧
        ∃ s', A.Reads c.1 r w s' ∧ (A.st s').isMatch = true) := by
  induction w generalizing now cs with
  | nil =>
    refine ⟨_, rfl, ?_⟩
    rw [List.any_eq_true]
    constructor
    · rintro ⟨c, hc, h⟩
      obtain ⟨r, hr⟩ := hcs c hc
      exact ⟨c, hc, r, hr, c.1, rfl, h⟩
    · rintro ⟨c, hc, r, hr, s', hs, h⟩
      simp only [Reads] at hs
      exact ⟨c, hc, by rw [hs]; exact h⟩
  | cons p w ih =>
    obtain ⟨a, t⟩ := p
    obtain ⟨cs', hcs', h1, h2⟩ := memberStep_spec hA (a := a) (t := t) hcs
    obtain ⟨b, hb, hb'⟩ := ih h1
    refine ⟨b, by simp only [memberLoop, hcs']; exact hb, ?_⟩
    rw [hb']
    constructor
    · rintro ⟨c', hc', r', hr', s', hs, hm⟩
      obtain ⟨c, hc, r, hr, h⟩ := (h2 w s').1 ⟨c', hc', r', hr', hs⟩
      exact ⟨c, hc, r, hr, s', h, hm⟩
    · rintro ⟨c, hc, r, hr, s', hs, hm⟩
      obtain ⟨c', hc', r', hr', h⟩ := (h2 w s').2 ⟨c, hc, r, hr, hs⟩
      exact ⟨c', hc', r', hr', s', h, hm⟩

theorem isMember_spec {A : TA S} (hA : A.ClocksDeclared) (w : TWord K) :
    ∃ b, A.isMember w = .ok b ∧ (b = true ↔ A.Accepts w) := by
  have hz : ∀ r : Nat → K, Agrees A.clockSize (List.replicate A.clockSize (0 : K)) r 0 ↔
      ∀ i, i < A.clockSize → r i = 0 := by
    intro r
    constructor
    · intro h i hi
      have := h.2 i hi
      rw [List.getElem?_replicate, if_pos hi] at this
      simpa using this
    · intro h
      refine ⟨by simp, fun i hi => ?_⟩
      rw [List.getElem?_replicate, if_pos hi, h i hi]; simp
  obtain ⟨b, hb, hb'⟩ := memberLoop_spec hA (w := w) (now := (0 : K))
    (cs := A.init.map fun s => (s, List.replicate A.clockSize 0)) (by
      intro c hc
      obtain ⟨s, _, rfl⟩ := List.mem_map.1 hc
      exact ⟨fun _ => 0, (hz _).2 fun _ _ => rfl⟩)
  refine ⟨b, hb, hb'.trans ?_⟩
  constructor
  · rintro ⟨c, hc, r, hr, s', h, hm⟩
    obtain ⟨s, hs, rfl⟩ := List.mem_map.1 hc
    exact ⟨s, hs, s', reads_congr hA ((hz r).1 hr) h, hm⟩
  · rintro ⟨s, hs, s', h, hm⟩
    exact ⟨(s, _), List.mem_map.2 ⟨s, hs, rfl⟩, fun _ => 0, (hz _).2 fun _ _ => rfl, s', h, hm⟩

/-- Without silent edges, runs with silent moves are plain runs on words with non-decreasing times. -/
theorem sreads_iff_reads {A : TA S} (hA : ∀ s, A.edges s epsilon = []) {s s' : S} {r : Nat → K} {now : K}
    {w : TWord K} : A.SReads s r now w s' ↔
      (A.Reads s r w s' ∧ (∀ p ∈ w, p.1 ≠ epsilon) ∧ List.IsChain (· ≤ ·) (now :: w.map (·.2))) := by
  constructor
  · intro h
    induction h with
    | done s r now => exact ⟨rfl, by simp, by simp⟩
    | event e q he hq ha ht hg _ ih =>
      exact ⟨⟨e, he, q, hq, hg, ih.1⟩, by simpa using ⟨ha, fun a b h => ih.2.1 (a, b) h⟩,
        by simpa using ⟨ht, ih.2.2⟩⟩
    | silent t e q he _ _ _ _ _ => rw [hA] at he; simp at he
  · intro h
    induction w generalizing s r now with
    | nil => have := h.1; simp only [Reads] at this; subst this; exact .done ..
    | cons p w ih =>
      obtain ⟨a, t⟩ := p
      obtain ⟨⟨e, he, q, hq, hg, hr⟩, ha, hc⟩ := h
      simp only [List.map_cons, List.isChain_cons_cons] at hc
      exact .event e q he hq (ha (a, t) List.mem_cons_self) hc.1 hg
        (ih ⟨hr, fun p hp => ha p (List.mem_cons_of_mem _ hp), hc.2⟩)

end TA
end Verif
