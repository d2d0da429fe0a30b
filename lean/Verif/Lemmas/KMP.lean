import Verif.Lemmas.Sunday
import Verif.Lemmas.Constraint
import Verif.Lemmas.Match
import Mathlib.Data.List.Nodup

set_option linter.unusedSectionVars false

/-! The KMP table is right for patterns whose upper bounds are on clocks reset since the start. -/

namespace Verif

variable {S K : Type}

/-! ### the transitions of the two automata -/

theorem at'_map_snd {T : Type} (m : Next S) (f : List (Transition S) → List (Transition T)) (hf : f [] = [])
    (c : Alphabet) : Next.at' (m.map fun p => (p.1, f p.2)) c = f (m.at' c) := by
  induction m with
  | nil => rw [List.map_nil, Next.at'_nil, Next.at'_nil, hf]
  | cons p m ih =>
    obtain ⟨b, l⟩ := p
    rw [List.map_cons, Next.at'_cons, Next.at'_cons, ih]
    split_ifs <;> rfl

theorem at'_const {T : Type} (ls : List Alphabet) (l : List (Transition T)) (c : Alphabet) :
    Next.at' (ls.map fun c => (c, l)) c = if c ∈ ls then l else [] := by
  induction ls with
  | nil => simp [Next.at'_nil]
  | cons b ls ih =>
    rw [List.map_cons, Next.at'_cons, ih]
    by_cases h : b = c
    · simp [h]
    · simp [h, Ne.symm h]

theorem push_keys (m : Next S) (c : Alphabet) (e : Transition S) (h : (m.map (·.1)).Nodup) :
    ((m.push c e).map (·.1)).Nodup ∧ ∀ d, d ∈ (m.push c e).map (·.1) → d = c ∨ d ∈ m.map (·.1) := by
  induction m with
  | nil => simp [Next.push]
  | cons p m ih =>
    obtain ⟨b, l⟩ := p
    rw [List.map_cons, List.nodup_cons] at h
    obtain ⟨h1, h2⟩ := ih h.2
    unfold Next.push
    by_cases hb : b = c
    · subst hb
      simp only [beq_self_eq_true, if_true, List.map_cons, List.nodup_cons]
      exact ⟨h, fun d hd => Or.inr hd⟩
    · simp only [beq_iff_eq, hb, if_false, List.map_cons, List.nodup_cons]
      refine ⟨⟨fun hc => ?_, h1⟩, fun d hd => ?_⟩
      · rcases h2 b hc with h' | h'
        · exact hb h'
        · exact h.1 h'
      · rcases List.mem_cons.1 hd with rfl | hd
        · simp
        · rcases h2 d hd with h' | h'
          · exact Or.inl h'
          · exact Or.inr (List.mem_cons_of_mem _ h')

theorem foldl_push_nodup (ps : List (Alphabet × Transition S)) (m : Next S) (h : (m.map (·.1)).Nodup) :
    ((ps.foldl (fun m q => m.push q.1 q.2) m).map (·.1)).Nodup := by
  induction ps generalizing m with
  | nil => exact h
  | cons p ps ih => exact ih _ (push_keys m p.1 p.2 h).1

theorem letters_nodup : letters.Nodup := by
  unfold letters
  refine List.Nodup.map ?_ List.nodup_range
  intro a b h
  exact Nat.add_right_cancel h

section edges
variable [DecidableEq S] {A : TA S} {m n : Nat} {o : S}

theorem a0_orig (s : S) (c : Alphabet) (e : Transition (KState S)) :
    e ∈ (kmpA0 A m n).edges (.orig s) c ↔ (∃ e' ∈ A.edges s c, e = liftEdge .orig e') ∨
      ∃ e' ∈ A.edges s c, ∃ q, e'.target = some q ∧ (A.st q).isMatch = true ∧
        e = { target := some .acc, resets := e'.resets, guard := widen e'.guard } := by
  unfold TA.edges
  simp only [kmpA0]
  rw [at'_map_snd (T := KState S) (A.st s).next (fun l : List (Transition S) => l.map (liftEdge KState.orig) ++
    ((l.filter (intoMatch A)).map fun e =>
                ({ target := some KState.acc, resets := e.resets, guard := widen e.guard } : Transition (KState S)))) rfl]
  simp only [List.mem_append, List.mem_map, List.mem_filter]
  constructor
  · rintro (⟨e', he', rfl⟩ | ⟨e', ⟨he', h⟩, rfl⟩)
    · exact Or.inl ⟨e', he', rfl⟩
    · unfold intoMatch at h
      rcases ht : e'.target with _ | q
      · rw [ht] at h
        simp at h
      · rw [ht] at h
        exact Or.inr ⟨e', he', q, ht, h, rfl⟩
  · rintro (⟨e', he', rfl⟩ | ⟨e', he', q, ht, h, rfl⟩)
    · exact Or.inl ⟨e', he', rfl⟩
    · exact Or.inr ⟨e', ⟨he', by rw [intoMatch, ht]; exact h⟩, rfl⟩

theorem a0_ext_succ (k : Nat) (c : Alphabet) (e : Transition (KState S)) :
    e ∈ (kmpA0 A m n).edges (.ext (k + 1)) c ↔ c ∈ letters ∧ e = ⟨some (.ext k), List.range A.clockSize, []⟩ := by
  unfold TA.edges
  simp only [kmpA0]
  rw [at'_const]
  split_ifs with h <;> simp [h]

theorem a0_ext_zero (c : Alphabet) (e : Transition (KState S)) (hA : A.MapOk) :
    e ∈ (kmpA0 A m n).edges (.ext 0) c ↔ ∃ s ∈ A.init, ∃ e' ∈ A.edges s c, e = widenEdge (liftEdge .orig e') := by
  unfold TA.edges
  simp only [kmpA0]
  rw [Next.mem_at'_foldl_push]
  simp only [Next.at'_nil, List.not_mem_nil, false_or, List.mem_flatMap, List.mem_map, Prod.mk.injEq]
  constructor
  · rintro ⟨s, hs, p, hp, e', he', rfl, rfl⟩
    exact ⟨s, hs, e', (Next.mem_at'_iff (hA s)).2 ⟨p.2, hp, he'⟩, rfl⟩
  · rintro ⟨s, hs, e', he', rfl⟩
    obtain ⟨l, hl, he'⟩ := (Next.mem_at'_iff (hA s)).1 he'
    exact ⟨s, hs, _, hl, e', he', rfl, rfl⟩

theorem a0_acc (c : Alphabet) (e : Transition (KState S)) :
    e ∈ (kmpA0 A m n).edges .acc c ↔ c ∈ letters ∧ e = ⟨some .acc, [], []⟩ := by
  unfold TA.edges
  simp only [kmpA0, selfLoops]
  rw [at'_const]
  split_ifs with h <;> simp [h]

theorem as_orig (s : S) (c : Alphabet) (e : Transition (DState S)) :
    e ∈ (kmpAs A o).edges (.orig s) c ↔ (∃ e' ∈ A.edges s c, e = liftEdge .orig e') ∨
      (c = epsilon ∧ e = ⟨some (.dummy s), [], []⟩) := by
  unfold TA.edges
  simp only [kmpAs]
  rw [Next.at'_push, at'_map_snd (T := DState S) (A.st s).next (fun l => l.map (liftEdge .orig)) rfl]
  by_cases h : epsilon = c
  · subst h
    simp [eq_comm]
  · have h' : ¬ c = epsilon := fun hc => h hc.symm
    simp [h, h', eq_comm]

theorem as_dummy (s : S) (c : Alphabet) (e : Transition (DState S)) :
    e ∈ (kmpAs A o).edges (.dummy s) c ↔ c ∈ letters ∧ e = ⟨some (.dummy s), [], []⟩ := by
  unfold TA.edges
  simp only [kmpAs, selfLoops]
  rw [at'_const]
  split_ifs with h <;> simp [h]

theorem a0_mapOk (hA : A.MapOk) : (kmpA0 A m n).MapOk := by
  intro q
  rcases q with s | k | _
  · simpa [kmpA0, Function.comp_def] using hA s
  · rcases k with _ | k
    · simp only [kmpA0]
      exact foldl_push_nodup _ _ (by simp)
    · simpa [kmpA0, Function.comp_def] using letters_nodup
  · simpa [kmpA0, selfLoops, Function.comp_def] using letters_nodup

theorem a0_clocks (hM : A.MapOk) (hA : A.ClocksDeclared) : (kmpA0 A m n).ClocksDeclared := by
  have hsz : (kmpA0 A m n).clockSize = A.clockSize := rfl
  intro q c e he
  rw [hsz]
  rcases q with s | k | _
  · rcases (a0_orig s c e).1 he with ⟨e', he', rfl⟩ | ⟨e', he', -, -, -, rfl⟩
    · exact hA s c e' he'
    · exact ⟨fun g hg => (hA s c e' he').1 g (mem_widen.1 hg).1, (hA s c e' he').2⟩
  · rcases k with _ | k
    · obtain ⟨s, -, e', he', rfl⟩ := (a0_ext_zero c e hM).1 he
      exact ⟨fun g hg => (hA s c e' he').1 g (mem_widen.1 hg).1, (hA s c e' he').2⟩
    · obtain ⟨-, rfl⟩ := (a0_ext_succ k c e).1 he
      exact ⟨by simp, by simp⟩
  · obtain ⟨-, rfl⟩ := (a0_acc c e).1 he
    exact ⟨by simp, by simp⟩

theorem as_clocks (hA : A.ClocksDeclared) : (kmpAs A o).ClocksDeclared := by
  have hsz : (kmpAs A o).clockSize = A.clockSize := rfl
  intro q c e he
  rw [hsz]
  rcases q with s | s
  · rcases (as_orig s c e).1 he with ⟨e', he', rfl⟩ | ⟨-, rfl⟩
    · exact hA s c e' he'
    · exact ⟨by simp, by simp⟩
  · obtain ⟨-, rfl⟩ := (as_dummy s c e).1 he
    exact ⟨by simp, by simp⟩

theorem a0_closed (hM : A.MapOk) (hA : A.Closed) (hn : n ≤ m) : (kmpA0 A m n).Closed := by
  have hst : ∀ q, q ∈ (kmpA0 A m n).states ↔ (∃ s ∈ A.states, q = .orig s) ∨ q = .acc ∨ ∃ k, k ≤ m ∧ q = .ext k := by
    intro q
    simp only [kmpA0, List.mem_append, List.mem_map, List.mem_cons, List.mem_range, Nat.lt_succ_iff, eq_comm]
  refine ⟨?_, ?_⟩
  · intro q hq
    have : q = .ext n := by simpa [kmpA0] using hq
    exact (hst q).2 (Or.inr (Or.inr ⟨n, hn, this⟩))
  · intro q hq c e he q' hq'
    rw [hst]
    rcases (hst q).1 hq with ⟨s, hs, rfl⟩ | rfl | ⟨k, hk, rfl⟩
    · rcases (a0_orig s c e).1 he with ⟨e', he', rfl⟩ | ⟨e', he', -, -, -, rfl⟩
      · simp only [liftEdge, Option.map_eq_some_iff] at hq'
        obtain ⟨q1, h1, rfl⟩ := hq'
        exact Or.inl ⟨q1, hA.2 s hs c e' he' q1 h1, rfl⟩
      · simp only [Option.some.injEq] at hq'
        exact Or.inr (Or.inl hq'.symm)
    · obtain ⟨-, rfl⟩ := (a0_acc c e).1 he
      simp only [Option.some.injEq] at hq'
      exact Or.inr (Or.inl hq'.symm)
    · rcases k with _ | k
      · obtain ⟨s, hs, e', he', rfl⟩ := (a0_ext_zero c e hM).1 he
        simp only [liftEdge, widenEdge, Option.map_eq_some_iff] at hq'
        obtain ⟨q1, h1, rfl⟩ := hq'
        exact Or.inl ⟨q1, hA.2 s (hA.1 s hs) c e' he' q1 h1, rfl⟩
      · obtain ⟨-, rfl⟩ := (a0_ext_succ k c e).1 he
        simp only [Option.some.injEq] at hq'
        exact Or.inr (Or.inr ⟨k, by omega, hq'.symm⟩)

theorem as_closed (hA : A.Closed) : (kmpAs A o).Closed := by
  have hst : ∀ q, q ∈ (kmpAs A o).states ↔ ∃ s ∈ A.states, q = .orig s ∨ q = .dummy s := by
    intro q
    simp only [kmpAs, List.mem_append, List.mem_map]
    constructor
    · rintro (⟨s, hs, rfl⟩ | ⟨s, hs, rfl⟩)
      · exact ⟨s, hs, Or.inl rfl⟩
      · exact ⟨s, hs, Or.inr rfl⟩
    · rintro ⟨s, hs, rfl | rfl⟩
      · exact Or.inl ⟨s, hs, rfl⟩
      · exact Or.inr ⟨s, hs, rfl⟩
  refine ⟨?_, ?_⟩
  · intro q hq
    simp only [kmpAs, List.mem_map] at hq
    obtain ⟨s, hs, rfl⟩ := hq
    exact (hst _).2 ⟨s, hA.1 s hs, Or.inl rfl⟩
  · intro q hq c e he q' hq'
    rw [hst]
    obtain ⟨s, hs, rfl | rfl⟩ := (hst q).1 hq
    · rcases (as_orig s c e).1 he with ⟨e', he', rfl⟩ | ⟨-, rfl⟩
      · simp only [liftEdge, Option.map_eq_some_iff] at hq'
        obtain ⟨q1, h1, rfl⟩ := hq'
        exact ⟨q1, hA.2 s hs c e' he' q1 h1, Or.inl rfl⟩
      · simp only [Option.some.injEq] at hq'
        exact ⟨s, hs, Or.inr hq'.symm⟩
    · obtain ⟨-, rfl⟩ := (as_dummy s c e).1 he
      simp only [Option.some.injEq] at hq'
      exact ⟨s, hs, Or.inr hq'.symm⟩

theorem a2_sameFlag (hA : A.NoZeroDuration) : TA.SameFlag (kmpA0 A m n) (kmpAs A o) := by
  refine ⟨false, ?_, ?_⟩
  · intro q hq
    simp only [kmpA0, List.mem_append, List.mem_map, List.mem_cons, List.mem_range] at hq
    rcases hq with ⟨s, hs, rfl⟩ | rfl | ⟨k, -, rfl⟩
    · exact hA s hs
    · rfl
    · cases k <;> rfl
  · intro q hq
    simp only [kmpAs, List.mem_append, List.mem_map] at hq
    rcases hq with ⟨s, hs, rfl⟩ | ⟨s, hs, rfl⟩
    · exact hA s hs
    · rfl

end edges

/-! ### runs of the two automata -/

variable [Field K] [LinearOrder K] [IsStrictOrderedRing K]

section runs
variable [DecidableEq S] {A : TA S} {m n : Nat} {o : S}

theorem as_reads_orig {u : TWord K} {s s' : S} {r : Nat → K} (h : A.Reads s r u s') :
    (kmpAs A o).Reads (.orig s) r u (.orig s') := by
  induction u generalizing s r with
  | nil => exact congrArg DState.orig h
  | cons p u ih =>
    obtain ⟨a, t⟩ := p
    obtain ⟨e, he, q, hq, hg, h⟩ := h
    exact ⟨liftEdge .orig e, (as_orig s a _).2 (Or.inl ⟨e, he, rfl⟩), .orig q, by simp [liftEdge, hq], hg, ih h⟩

theorem as_reads_dummy {u : TWord K} (hu : LettersOk u) {s : S} {r : Nat → K} :
    (kmpAs A o).Reads (.dummy s) r u (.dummy s) := by
  induction u generalizing r with
  | nil => rfl
  | cons p u ih =>
    obtain ⟨a, t⟩ := p
    exact ⟨_, (as_dummy s a _).2 ⟨mem_letters.2 (hu (a, t) (by simp)), rfl⟩, .dummy s, rfl, by simp [GuardHolds],
      ih fun e he => hu e (by simp [he])⟩

theorem a0_reads_acc {u : TWord K} (hu : LettersOk u) {r : Nat → K} : (kmpA0 A m n).Reads .acc r u .acc := by
  induction u generalizing r with
  | nil => rfl
  | cons p u ih =>
    obtain ⟨a, t⟩ := p
    exact ⟨_, (a0_acc a _).2 ⟨mem_letters.2 (hu (a, t) (by simp)), rfl⟩, .acc, rfl, by simp [GuardHolds],
      ih fun e he => hu e (by simp [he])⟩

/-- Reset instants which are not later, and equal for the clocks in `F`. -/
def Earlier (F : Nat → Prop) (r0 r2 : Nat → K) : Prop := ∀ x, r0 x ≤ r2 x ∧ (F x → r0 x = r2 x)

theorem Earlier.guard {F : Nat → Prop} {r0 r2 : Nat → K} (h : Earlier F r0 r2) {gs : List Constraint}
    (hg : ∀ g ∈ gs, g.IsUpper → F g.x) {t : K} (hh : GuardHolds gs (fun x => t - r2 x)) :
    GuardHolds gs (fun x => t - r0 x) := by
  intro g hgs
  have h1 := hh g hgs
  obtain ⟨h2, h3⟩ := h g.x
  have h4 := hg g hgs
  rcases g with ⟨x, odr, c⟩
  simp only at h2 h3 h4
  cases odr <;> simp only [Constraint.Holds, Constraint.IsUpper, reduceCtorEq, false_implies, true_implies,
    true_and, and_true, or_false, or_true, false_or, or_self, forall_const] at h1 h4 ⊢
  · rw [h3 h4]
    exact h1
  · rw [h3 h4]
    exact h1
  · linarith
  · linarith

theorem Earlier.reset {F F' : Nat → Prop} {r0 r2 : Nat → K} (h : Earlier F r0 r2) {xs : List Nat}
    (hF : ∀ x, F' x → F x ∨ x ∈ xs) (t : K) : Earlier F' (resetAt r0 xs t) (resetAt r2 xs t) := by
  intro x
  unfold resetAt
  by_cases hx : x ∈ xs
  · simp [hx]
  · simp only [hx, if_false]
    exact ⟨(h x).1, fun hf => (h x).2 ((hF x hf).resolve_right hx)⟩

theorem a0_reads_match {F : S → Nat → Prop}
    (hF : ∀ s a, ∀ e ∈ A.edges s a, (∀ g ∈ e.guard, g.IsUpper → F s g.x) ∧
      ∀ q, e.target = some q → ∀ x, F q x → F s x ∨ x ∈ e.resets)
    {u v : TWord K} (hu : u ≠ []) (hv : LettersOk v) {s s' : S} {r0 r2 : Nat → K} (hr : Earlier (F s) r0 r2)
    (h : A.Reads s r2 u s') (hm : (A.st s').isMatch = true) :
    (kmpA0 A m n).Reads (.orig s) r0 (u ++ v) .acc := by
  induction u generalizing s r0 r2 with
  | nil => exact absurd rfl hu
  | cons p u ih =>
    obtain ⟨a, t⟩ := p
    obtain ⟨e, he, q, hq, hg, h⟩ := h
    obtain ⟨f1, f2⟩ := hF s a e he
    have hg' := hr.guard f1 hg
    by_cases hu' : u = []
    · subst hu'
      have hqs : q = s' := h
      subst hqs
      exact ⟨_, (a0_orig s a _).2 (Or.inr ⟨e, he, q, hq, hm, rfl⟩), .acc, rfl,
        fun g hg => hg' g (mem_widen.1 hg).1, a0_reads_acc hv⟩
    · exact ⟨liftEdge .orig e, (a0_orig s a _).2 (Or.inl ⟨e, he, rfl⟩), .orig q, by simp [liftEdge, hq], hg',
        ih hu' (hr.reset (f2 q hq) t) h⟩

/-- From the last extended initial state: follow a match. -/
theorem a0_reads_start (hM : A.MapOk) {F : S → Nat → Prop}
    (hF : ∀ s a, ∀ e ∈ A.edges s a, (∀ g ∈ e.guard, g.IsUpper → F s g.x) ∧
      ∀ q, e.target = some q → ∀ x, F q x → F s x ∨ x ∈ e.resets)
    {u v : TWord K} (hu : 2 ≤ u.length) (hv : LettersOk v) {s s' : S} (hs : s ∈ A.init)
    {r0 r2 : Nat → K} (hr' : Earlier (F s) r0 r2) (h : A.Reads s r2 u s') (hm : (A.st s').isMatch = true) :
    (kmpA0 A m n).Reads (.ext 0) r0 (u ++ v) .acc := by
  rcases u with _ | ⟨⟨a, τ⟩, u⟩
  · simp at hu
  · obtain ⟨e, he, q, hq, hg, h⟩ := h
    obtain ⟨f1, f2⟩ := hF s a e he
    have hg' := hr'.guard f1 hg
    refine ⟨widenEdge (liftEdge .orig e), (a0_ext_zero a _ hM).2 ⟨s, hs, e, he, rfl⟩, .orig q,
      by simp [liftEdge, widenEdge, hq], fun g hg => hg' g (mem_widen.1 hg).1, ?_⟩
    refine a0_reads_match hF ?_ hv (hr'.reset (f2 q hq) τ) h hm
    rintro rfl
    simp at hu

/-- From the extended initial state: skip some events, then follow a match. -/
theorem a0_reads_ext (hM : A.MapOk) {F : S → Nat → Prop} (hinit : ∀ s ∈ A.init, ∀ x, ¬ F s x)
    (hF : ∀ s a, ∀ e ∈ A.edges s a, (∀ g ∈ e.guard, g.IsUpper → F s g.x) ∧
      ∀ q, e.target = some q → ∀ x, F q x → F s x ∨ x ∈ e.resets)
    {u₀ u v : TWord K} (hu₀ : LettersOk u₀) (hu : 2 ≤ u.length) (hv : LettersOk v) {s s' : S} (hs : s ∈ A.init)
    {r0 : Nat → K} {t : K} (hr : ∀ x, r0 x ≤ t) (ht : ∀ e ∈ u₀, e.2 ≤ t)
    (h : A.Reads s (fun _ => t) u s') (hm : (A.st s').isMatch = true) :
    (kmpA0 A m n).Reads (.ext u₀.length) r0 (u₀ ++ (u ++ v)) .acc := by
  induction u₀ generalizing r0 with
  | nil => exact a0_reads_start hM hF hu hv hs (r2 := fun _ => t) (fun x => ⟨hr x, fun hx => absurd hx (hinit s hs x)⟩) h hm
  | cons p u₀ ih =>
    obtain ⟨a, τ⟩ := p
    refine ⟨_, (a0_ext_succ u₀.length a _).2 ⟨mem_letters.2 (hu₀ (a, τ) (by simp)), rfl⟩, .ext u₀.length, rfl,
      by simp [GuardHolds], ?_⟩
    refine ih (fun e he => hu₀ e (by simp [he])) ?_ fun e he => ht e (by simp [he])
    intro x
    unfold resetAt
    split_ifs
    · exact ht (a, τ) (by simp)
    · exact hr x

/-- The run of the product: both components read `v₁`, the second one moves silently to the dummy state, then
both read `v₂`. -/
theorem a2_reads (hM : A.MapOk) (hC : A.ClocksDeclared) (hsz : A.clockSize + A.clockSize ≤ 256)
    (hz : A.NoZeroDuration) (hA : A.Closed) (hn : n ≤ m) {v₁ v₂ : TWord K} (hv₂ : LettersOk v₂) {tε : K}
    {q q' : KState S} {s₀ s : S} {r r1 r2 : Nat → K} (hq : q ∈ (kmpA0 A m n).states) (hs₀ : s₀ ∈ A.states)
    (hr : TA.Comb A.clockSize A.clockSize r r1 r2) (h1 : (kmpA0 A m n).Reads q r1 (v₁ ++ v₂) q')
    (h2 : A.Reads s₀ r2 v₁ s) :
    (kmpA2 A m n o).Reads (q, .orig s₀) r (v₁ ++ (epsilon, tε) :: v₂) (q', .dummy s) := by
  have hM0 : (kmpA0 A m n).MapOk := a0_mapOk hM
  have hC0 : (kmpA0 A m n).ClocksDeclared := a0_clocks hM hC
  have hCs : (kmpAs A o).ClocksDeclared := as_clocks hC
  have hA0 : (kmpA0 A m n).Closed := a0_closed hM hA hn
  have hAs : (kmpAs A o).Closed := as_closed hA
  have hF : TA.SameFlag (kmpA0 A m n) (kmpAs A o) := a2_sameFlag hz
  have hmem : ∀ s ∈ A.states, DState.orig s ∈ (kmpAs A o).states ∧ DState.dummy s ∈ (kmpAs A o).states := by
    intro s hs
    simp only [kmpAs, List.mem_append, List.mem_map]
    exact ⟨Or.inl ⟨s, hs, rfl⟩, Or.inr ⟨s, hs, rfl⟩⟩
  induction v₁ generalizing q s₀ r r1 r2 with
  | nil =>
    have hss : s₀ = s := h2
    subst hss
    refine ⟨_, (TA.mem_edges_intersection hM0).2 ⟨?_, Or.inr (Or.inl ⟨rfl, _,
      (as_orig s₀ epsilon _).2 (Or.inr ⟨rfl, rfl⟩), .dummy s₀, rfl, rfl⟩)⟩, (q, .dummy s₀),
      TA.toIState_some hF hq (hmem s₀ hs₀).2, by simp [TA.productTransition, GuardHolds], ?_⟩
    · rw [TA.toIState_some hF hq (hmem s₀ hs₀).1]
      rfl
    · have : resetAt r (TA.productTransition (kmpA0 A m n).clockSize (TA.toIState (kmpA0 A m n) (kmpAs A o) (q, DState.dummy s₀)) [] []
          ([] : List Nat) []).resets tε = r := by
        simp [TA.productTransition, TA.resetAt_nil]
      rw [this]
      exact TA.reads_intersection_bwd hM0 hC0 hCs hsz hF hA0 hAs hq (hmem s₀ hs₀).2 hr h1 (as_reads_dummy hv₂)
  | cons p v₁ ih =>
    obtain ⟨a, t⟩ := p
    obtain ⟨e1, he1, q1, ht1, hg1, h1⟩ := h1
    obtain ⟨e2, he2, q2, ht2, hg2, h2⟩ := h2
    have he2' : liftEdge .orig e2 ∈ (kmpAs A o).edges (.orig s₀) a := (as_orig s₀ a _).2 (Or.inl ⟨e2, he2, rfl⟩)
    have w1 := hC0 q a e1 he1
    have w2 := hCs _ a _ he2'
    have hq1 := hA0.2 q hq a e1 he1 q1 ht1
    have hq2 := hA.2 s₀ hs₀ a e2 he2 q2 ht2
    refine ⟨_, (TA.mem_edges_intersection hM0).2 ⟨by rw [TA.toIState_some hF hq (hmem s₀ hs₀).1]; rfl,
      Or.inr (Or.inr ⟨e1, he1, _, he2', q1, .orig q2, ht1, by simp [liftEdge, ht2], rfl⟩)⟩, (q1, .orig q2),
      TA.toIState_some hF hq1 (hmem q2 hq2).1, (hr.guard hsz w1.1 w2.1 t).2 ⟨hg1, hg2⟩, ?_⟩
    exact ih hq1 hq2 (hr.reset hsz w1.2 w2.2 t) h1 h2

end runs

/-! ### the search -/

section search
variable [DecidableEq S] {A : TA S} {m : Nat}

/-- The product with start `ext n` and goal `o` accepts a word with strictly increasing times. -/
def KmpRun (K : Type) [Field K] [LinearOrder K] (A : TA S) (m n : Nat) (o : S) : Prop :=
  ∃ (t : K) (v : TWord K), (∀ e ∈ v, t < e.2) ∧ v.Pairwise (fun a b => a.2 < b.2) ∧
    ∃ p ∈ (kmpA2 A m n o).init, ∃ p', (kmpA2 A m n o).Reads p (fun _ => t) v p' ∧
      ((kmpA2 A m n o).st p').isMatch = true

theorem toIState_a2 (n n' : Nat) (o o' : S) :
    TA.toIState (kmpA0 A m n) (kmpAs A o) = TA.toIState (kmpA0 A m n') (kmpAs A o') := by
  funext p
  obtain ⟨q1, q2⟩ := p
  cases q2 <;> rfl

theorem pushes_a2 (n n' : Nat) (o o' : S) (q1 : KState S) (q2 : DState S) :
    TA.productPushes (kmpA0 A m n) (kmpAs A o) q1 q2 = TA.productPushes (kmpA0 A m n') (kmpAs A o') q1 q2 := by
  unfold TA.productPushes
  rw [toIState_a2 n n' o o']
  cases q2 <;> rfl

theorem outEdges_a2 (n n' : Nat) (o o' : S) (p : KState S × DState S) :
    outEdges (kmpA2 A m n o) p = outEdges (kmpA2 A m n' o') p := by
  unfold outEdges kmpA2 TA.intersection
  simp only
  rw [toIState_a2 n n' o o', pushes_a2 n n' o o']

theorem complete_congr {A B : TA S} (hsz : A.clockSize = B.clockSize) (ho : ∀ s, outEdges A s = outEdges B s)
    {N : List (ZNode S K)} (h : Complete A N) : Complete B N := by
  refine ⟨fun n hn => ?_, fun i hi n hn p hp => ?_⟩
  · have := h.ok n hn
    refine ⟨hsz ▸ this.size, this.nonempty, fun p hp => ?_⟩
    obtain ⟨h1, nj, h2, e, h3, h4⟩ := this.edges p hp
    exact ⟨h1, nj, h2, e, ho n.s ▸ h3, h4⟩
  · rw [← ho] at hp
    have := h.full i hi n hn p hp
    unfold EdgeDone at this ⊢
    rw [← hsz]
    exact this

theorem complete_a2 {n : Nat} {o : S} (n' : Nat) (o' : S) {N : List (ZNode (KState S × DState S) K)}
    (h : Complete (kmpA2 A m n o) N) : Complete (kmpA2 A m n' o') N :=
  complete_congr (A := kmpA2 A m n o) (B := kmpA2 A m n' o') rfl (outEdges_a2 n n' o o') h

theorem complete_update {A : TA S} {Z : ZA S K} (h : Complete A Z.nodes) (B : TA S) :
    Complete A (Z.updateInitAccepting B).nodes := by
  have hget : ∀ i : Nat, (Z.updateInitAccepting B).nodes[i]? =
      (Z.nodes[i]?).map fun n => { n with isMatch := (B.st n.s).isMatch } := by
    intro i
    simp [ZA.updateInitAccepting]
  refine ⟨?_, ?_⟩
  · intro n hn
    simp only [ZA.updateInitAccepting, List.mem_map] at hn
    obtain ⟨n0, hn0, rfl⟩ := hn
    have := h.ok n0 hn0
    refine ⟨this.size, this.nonempty, fun p hp => ?_⟩
    obtain ⟨h1, nj, h2, e, h3, h4⟩ := this.edges p hp
    exact ⟨h1, { nj with isMatch := (B.st nj.s).isMatch }, by rw [hget, h2]; rfl, e, h3, h4⟩
  · intro i hi n hn p hp q hq
    have hi' : i < Z.nodes.length := by simpa [ZA.updateInitAccepting] using hi
    rw [hget] at hn
    rcases h0 : Z.nodes[i]? with _ | n0
    · simp [h0] at hn
    · simp only [h0, Option.map_some, Option.some.injEq] at hn
      subst hn
      obtain ⟨a1, a2⟩ := h.full i hi' n0 h0 p hp q hq
      refine ⟨a1, fun z hz => ?_⟩
      obtain ⟨b1, n', j, nj, b2, b3, b4, b5, b6⟩ := a2 z hz
      rw [h0] at b2
      cases b2
      exact ⟨b1, { n0 with isMatch := (B.st n0.s).isMatch }, j, { nj with isMatch := (B.st nj.s).isMatch }, by rw [hget, h0]; rfl, b3, by rw [hget, b4]; rfl, b5, b6⟩

theorem kmpRun_not_empty {n : Nat} {o : S} {fuel : Nat} {Z Z' : ZA (KState S × DState S) K}
    (hZ : Complete (kmpA2 A m n o) Z.nodes) (h : ta2za fuel (kmpA2 A m n o) Z = .ok Z')
    (hrun : KmpRun K A m n o) : (Z'.updateInitAccepting (kmpA2 A m n o)).empty = false := by
  obtain ⟨t, v, ht, hv, p, hp, p', hr, hm⟩ := hrun
  obtain ⟨hC, hinit, -⟩ := ta2za_spec hZ h
  obtain ⟨i, ni, hi, hs, hsat, -⟩ := hinit p hp
  set A2 := kmpA2 A m n o with hA2
  have hCU := complete_update hC A2
  have hget : ∀ i : Nat, (Z'.updateInitAccepting A2).nodes[i]? =
      (Z'.nodes[i]?).map fun n => { n with isMatch := (A2.st n.s).isMatch } := by
    intro i
    simp [ZA.updateInitAccepting]
  obtain ⟨j, nj, hpath, hj, hsj⟩ := complete_reads hCU ht hv (now := t) (r := fun _ => t) (i := i)
    (n := { ni with isMatch := (A2.st ni.s).isMatch }) (by rw [hget, hi]; rfl) hs (by simpa using hsat) hr
  have hw : (Z'.updateInitAccepting A2).WellFormed := by
    refine ⟨?_, ?_⟩
    · intro i hi
      simp only [ZA.updateInitAccepting, List.mem_filter, List.mem_range] at hi
      simpa [ZA.updateInitAccepting] using hi.1
    · intro i n hn p hp
      obtain ⟨hc, nj, hj, -⟩ := (hCU.ok n (List.mem_of_getElem? hn)).edges p hp
      obtain ⟨hlt, -⟩ := List.getElem?_eq_some_iff.1 hj
      exact ⟨hc, hlt⟩
  rw [Bool.eq_false_iff, ne_eq, ZA.empty_iff hw]
  intro hc
  refine hc i ?_ ⟨_, j, nj, hpath, hj, ?_⟩
  · obtain ⟨hlt, -⟩ := List.getElem?_eq_some_iff.1 hi
    simp only [ZA.updateInitAccepting, List.mem_filter, List.mem_range]
    refine ⟨hlt, ?_⟩
    rw [hi]
    simpa [hs] using hp
  · rw [hget] at hj
    rcases h0 : Z'.nodes[j]? with _ | n0
    · simp [h0] at hj
    · simp only [h0, Option.map_some, Option.some.injEq] at hj
      subst hj
      simp only at hsj ⊢
      rw [hsj]
      exact hm

theorem kmpSearch_spec {fuel : Nat} {o : S} {cnt n : Nat} {Z Z' : ZA (KState S × DState S) K}
    {r : Option Nat} (hZ : Complete (kmpA2 A m 0 o) Z.nodes)
    (h : kmpSearch fuel A m o cnt n Z = .ok (r, Z')) :
    Complete (kmpA2 A m 0 o) Z'.nodes ∧
      (∀ b, r = some b → n ≤ b ∧ b < n + cnt ∧ ∀ k, n ≤ k → k < b → ¬ KmpRun K A m k o) ∧
      (r = none → ∀ k, n ≤ k → k < n + cnt → ¬ KmpRun K A m k o) := by
  induction cnt generalizing n Z with
  | zero =>
    simp only [kmpSearch, Except.ok.injEq, Prod.mk.injEq] at h
    obtain ⟨rfl, rfl⟩ := h
    exact ⟨hZ, by simp, fun _ k h1 h2 => by omega⟩
  | succ cnt ih =>
    unfold kmpSearch at h
    simp only [bind, Except.bind] at h
    split at h
    · cases h
    · rename_i Z1 hZ1
      obtain ⟨hC, -, -⟩ := ta2za_spec (complete_a2 n o hZ) hZ1
      have hCU := complete_a2 0 o (complete_update hC (kmpA2 A m n o))
      split_ifs at h with hemp
      · have hno : ¬ KmpRun K A m n o := fun hrun => by
          rw [kmpRun_not_empty (complete_a2 n o hZ) hZ1 hrun] at hemp
          cases hemp
        obtain ⟨a1, a2, a3⟩ := ih hCU h
        refine ⟨a1, ?_, ?_⟩
        · intro b hb
          obtain ⟨b1, b2, b3⟩ := a2 b hb
          refine ⟨by omega, by omega, fun k h1 h2 => ?_⟩
          rcases Nat.eq_or_lt_of_le h1 with rfl | h1
          · exact hno
          · exact b3 k h1 h2
        · intro hr k h1 h2
          rcases Nat.eq_or_lt_of_le h1 with rfl | h1
          · exact hno
          · exact a3 hr k h1 (by omega)
      · simp only [Except.ok.injEq, Prod.mk.injEq] at h
        obtain ⟨rfl, rfl⟩ := h
        refine ⟨hCU, ?_, by simp⟩
        intro b hb
        simp only [Option.some.injEq] at hb
        subst hb
        exact ⟨Nat.le_refl _, by omega, fun k h1 h2 => by omega⟩

/-- A right entry of the table. -/
def BetaOk (K : Type) [Field K] [LinearOrder K] (A : TA S) (m : Nat) (p : S × Nat) : Prop :=
  (1 ≤ m → 1 ≤ p.2) ∧ p.2 ≤ m ∧ ∀ k, 0 < k → k < p.2 → ¬ KmpRun K A m k p.1

theorem betaAt_some {beta : List (S × Nat)} {o : S} {b : Nat} (h : betaAt beta o = some b) : (o, b) ∈ beta := by
  unfold betaAt at h
  rw [Option.map_eq_some_iff] at h
  obtain ⟨p, hp, rfl⟩ := h
  have h1 := List.find?_some hp
  simp only [decide_eq_true_eq] at h1
  subst h1
  exact List.mem_of_find?_eq_some hp

theorem betaAt_isSome {beta : List (S × Nat)} {o : S} : (betaAt beta o).isSome = true ↔ ∃ b, (o, b) ∈ beta := by
  unfold betaAt
  simp only [Option.isSome_map, List.find?_isSome, decide_eq_true_eq]
  constructor
  · rintro ⟨p, hp, rfl⟩
    exact ⟨p.2, hp⟩
  · rintro ⟨b, hb⟩
    exact ⟨_, hb, rfl⟩

theorem kmpLoop_spec {fuel : Nat} {os : List S} {beta out : List (S × Nat)} {Z : ZA (KState S × DState S) K}
    (hZ : ∀ o, Complete (kmpA2 A m 0 o) Z.nodes) (hb : ∀ p ∈ beta, BetaOk K A m p)
    (h : kmpLoop fuel A m os beta Z = .ok out) :
    (∀ p ∈ out, BetaOk K A m p) ∧ ∀ o, ((betaAt beta o).isSome = true ∨ o ∈ os) → (betaAt out o).isSome = true := by
  induction os generalizing beta Z with
  | nil =>
    cases h
    exact ⟨hb, fun o ho => by simpa using ho⟩
  | cons o os ih =>
    unfold kmpLoop at h
    simp only [bind, Except.bind] at h
    split at h
    · cases h
    · rename_i rz hrz
      obtain ⟨r, Z'⟩ := rz
      obtain ⟨a1, a2, a3⟩ := kmpSearch_spec (hZ o) hrz
      simp only at h
      have step : ∀ beta', (∀ p ∈ beta', BetaOk K A m p) →
          (∀ o', ((betaAt beta o').isSome = true ∨ o' = o) → (betaAt beta' o').isSome = true) →
          kmpLoop fuel A m os beta' Z' = .ok out → (∀ p ∈ out, BetaOk K A m p) ∧
          ∀ o', ((betaAt beta o').isSome = true ∨ o' ∈ o :: os) → (betaAt out o').isSome = true := by
        intro beta' h1 h2 h3
        obtain ⟨b1, b2⟩ := ih (fun o' => complete_a2 0 o' a1) h1 h3
        refine ⟨b1, fun o' ho' => b2 o' ?_⟩
        rcases ho' with ho' | ho'
        · exact Or.inl (h2 o' (Or.inl ho'))
        · rcases List.mem_cons.1 ho' with rfl | ho'
          · exact Or.inl (h2 _ (Or.inr rfl))
          · exact Or.inr ho'
      have hins : ∀ b, BetaOk K A m (o, b) → (∀ p ∈ (o, b) :: beta, BetaOk K A m p) ∧
          ∀ o', ((betaAt beta o').isSome = true ∨ o' = o) → (betaAt ((o, b) :: beta) o').isSome = true := by
        intro b hok
        refine ⟨?_, ?_⟩
        · intro p hp
          rcases List.mem_cons.1 hp with rfl | hp
          · exact hok
          · exact hb p hp
        · intro o' ho'
          rw [betaAt_isSome]
          rcases ho' with ho' | rfl
          · obtain ⟨b', hb'⟩ := betaAt_isSome.1 ho'
            exact ⟨b', by simp [hb']⟩
          · exact ⟨b, by simp⟩
      rcases r with _ | b
      · simp only at h
        split_ifs at h with hs
        · refine step beta hb ?_ h
          intro o' ho'
          rcases ho' with ho' | rfl
          · exact ho'
          · exact hs
        · obtain ⟨i1, i2⟩ := hins m ⟨id, Nat.le_refl _, fun k h1 h2 => a3 rfl k h1 (by omega)⟩
          exact step _ i1 i2 h
      · obtain ⟨c1, c2, c3⟩ := a2 b rfl
        obtain ⟨i1, i2⟩ := hins b ⟨fun _ => c1, by simp only; omega, fun k h1 h2 => c3 k h1 h2⟩
        exact step _ i1 i2 h

theorem kmpTable_spec {fuel : Nat} {beta : List (S × Nat)} (h : kmpTable K fuel A m = .ok beta) :
    (∀ s b, betaAt beta s = some b → (1 ≤ m → 1 ≤ b) ∧ b ≤ m ∧ ∀ k, 0 < k → k < b → ¬ KmpRun K A m k s) ∧
      ∀ s ∈ A.states, ∃ b, betaAt beta s = some b := by
  obtain ⟨h1, h2⟩ := kmpLoop_spec (fun _ => complete_nil _) (by simp) h
  exact ⟨fun s b hb => h1 _ (betaAt_some hb), fun s hs => Option.isSome_iff_exists.1 (h2 s (Or.inr hs))⟩

end search

/-! ### the prepared automaton -/

section prepared
variable [DecidableEq S] {A Ap : TA S}

theorem dropDollar_dollar (s : TAState S) : (dropDollar s).next.at' dollar = [] := by
  unfold dropDollar
  split
  · rename_i h
    simp [Next.at', h]
  · simp only [Next.at', Next.find]
    have : (s.next.filter fun p => p.1 != dollar).find? (fun p => p.1 == dollar) = none := by
      rw [List.find?_eq_none]
      intro p hp
      rw [List.mem_filter] at hp
      simpa using hp.2
    rw [this]
    rfl

theorem prepare_edges (h : Prepared A Ap) {s : S} {a : Alphabet} {e : Transition S}
    (he : e ∈ Ap.edges s a) : e ∈ A.edges s a := by
  obtain ⟨-, -, hst, -⟩ := id h
  unfold TA.edges at he ⊢
  rw [hst] at he
  by_cases ha : a = dollar
  · subst ha
    rw [dropDollar_dollar] at he
    simp at he
  · rwa [dropDollar_at _ ha] at he

theorem prepare_mapOk (h : Prepared A Ap) (hA : A.MapOk) : Ap.MapOk := by
  obtain ⟨-, -, hst, -⟩ := id h
  intro s
  rw [hst]
  unfold dropDollar
  split
  · exact hA s
  · exact (hA s).sublist (List.filter_sublist.map _)

theorem prepare_clocks (h : Prepared A Ap) (hA : A.ClocksDeclared) : Ap.ClocksDeclared := by
  obtain ⟨-, -, -, hm⟩ := id h
  intro s a e he
  have : Ap.clockSize = A.clockSize := by simp only [TA.clockSize, hm]
  rw [this]
  exact hA s a e (prepare_edges h he)

theorem prepare_closed (h : Prepared A Ap) (hA : A.Closed) : Ap.Closed := by
  obtain ⟨h1, h2, -, -⟩ := id h
  refine ⟨?_, ?_⟩
  · intro s hs
    rw [h2, List.mem_filter] at hs
    rw [h1]
    exact hs.1
  · intro s hs a e he q hq
    rw [h1] at hs ⊢
    exact hA.2 s hs a e (prepare_edges h he) q hq

theorem prepare_noZero (h : Prepared A Ap) (hA : A.NoZeroDuration) : Ap.NoZeroDuration := by
  obtain ⟨h1, -, hst, -⟩ := id h
  intro s hs
  rw [h1] at hs
  rw [hst]
  unfold dropDollar
  split
  · exact hA s hs
  · exact hA s hs

end prepared

/-- An instant between the events of two parts of a word. -/
theorem exists_between_parts {u v : TWord K} {t : K} (ht : ∀ e ∈ u ++ v, t < e.2)
    (hs : (u ++ v).Pairwise fun a b => a.2 < b.2) : ∃ x, t < x ∧ (∀ e ∈ u, e.2 < x) ∧ ∀ e ∈ v, x < e.2 := by
  induction u generalizing t with
  | nil =>
    rcases v with _ | ⟨e, v⟩
    · exact ⟨t + 1, by linarith, by simp, by simp⟩
    · have h1 := ht e (by simp)
      refine ⟨(t + e.2) / 2, by linarith, by simp, ?_⟩
      intro f hf
      simp only [List.nil_append, List.pairwise_cons] at hs
      rcases List.mem_cons.1 hf with rfl | hf
      · linarith
      · have := hs.1 f hf
        linarith
  | cons e u ih =>
    rw [List.cons_append, List.pairwise_cons] at hs
    obtain ⟨x, h1, h2, h3⟩ := ih (t := e.2) hs.1 hs.2
    have h0 := ht e (by simp)
    refine ⟨x, lt_trans h0 h1, ?_, h3⟩
    intro f hf
    rcases List.mem_cons.1 hf with rfl | hf
    · exact h1
    · exact h2 f hf

/-- There are no runs of the two automata over the same word below the entry of the table. -/
theorem kmp_core_runs [DecidableEq S] {B : TA S} {fuel m : Nat} {beta : List (S × Nat)}
    (hk : kmpTable K fuel B m = .ok beta) (hM : B.MapOk) (hC : B.ClocksDeclared) (hA : B.Closed) (hz : B.NoZeroDuration)
    (hsz : 2 * B.clockSize ≤ 256) {V₁ V₂ : TWord K} (hVl : LettersOk V₂) {t : K} (htL : ∀ e ∈ V₁ ++ V₂, t < e.2)
    (hsL : (V₁ ++ V₂).Pairwise fun a b => a.2 < b.2) {s₀ s : S} (hs₀ : s₀ ∈ B.init)
    (hrA : B.Reads s₀ (fun _ => t) V₁ s) {b : Nat} (hbeta : betaAt beta s = some b) {k : Nat} (hk0 : 0 < k)
    (hkb : k < b) (hrun0 : (kmpA0 B m k).Reads (.ext k) (fun _ => t) (V₁ ++ V₂) .acc) : False := by
  obtain ⟨hk1, -⟩ := kmpTable_spec hk
  obtain ⟨-, hbm, hno⟩ := hk1 s b hbeta
  obtain ⟨x, hx1, hx2, hx3⟩ := exists_between_parts htL hsL
  have hs₀A := hA.1 s₀ hs₀
  refine hno k hk0 hkb ⟨t, V₁ ++ (epsilon, x) :: V₂, ?_, ?_, (.ext k, .orig s₀), ?_, (.acc, .dummy s), ?_, ?_⟩
  · intro e he
    simp only [List.mem_append, List.mem_cons] at he
    rcases he with he | rfl | he
    · exact htL e (by simp [he])
    · exact hx1
    · exact htL e (by simp [he])
  · rw [List.pairwise_append] at hsL ⊢
    refine ⟨hsL.1, List.pairwise_cons.2 ⟨fun e he => hx3 e he, hsL.2.1⟩, ?_⟩
    intro a ha b hb
    rcases List.mem_cons.1 hb with rfl | hb
    · exact hx2 a ha
    · exact hsL.2.2 a ha b hb
  · simp only [kmpA2, TA.intersection, TA.productStates, List.mem_flatMap]
    have hz0 := hz s₀ hs₀A
    refine ⟨.ext k, by simp [kmpA0], .orig s₀, ?_, ?_⟩
    · simp only [kmpAs, List.mem_map]
      exact ⟨s₀, hs₀, rfl⟩
    · have h0 : ((kmpA0 B m k).st (.ext k)).zeroDuration = false := by cases k <;> rfl
      have h1 : ((kmpAs B s).st (.orig s₀)).zeroDuration = false := hz0
      rw [if_pos (by rw [h0, h1])]
      simp
  · refine a2_reads hM hC (by omega) hz hA (by omega) hVl ?_ hs₀A ?_ hrun0 hrA
    · simp only [kmpA0, List.mem_append, List.mem_map, List.mem_cons, List.mem_range]
      exact Or.inr (Or.inr ⟨k, by omega, rfl⟩)
    · exact ⟨fun _ _ => rfl, fun _ _ => rfl⟩
  · simp [kmpA2, TA.intersection, kmpA0, kmpAs]

/-- The table never skips over a word accepted by the automaton it was built for. -/
theorem kmp_core_upper [DecidableEq S] {B : TA S} {fuel m : Nat} {beta : List (S × Nat)}
    (hk : kmpTable K fuel B m = .ok beta) (hM : B.MapOk) (hC : B.ClocksDeclared) (hA : B.Closed) (hz : B.NoZeroDuration)
    (hU : B.UpperAfterReset) (hsz : 2 * B.clockSize ≤ 256) {W : TWord K} (hWl : LettersOk W)
    (hWs : W.Pairwise fun a b => a.2 < b.2) {t t₂ : K} (htW : ∀ e ∈ W, t < e.2) {s₀ s : S} (hs₀ : s₀ ∈ B.init) {j : Nat}
    (hrA : B.Reads s₀ (fun _ => t) (W.take j) s) {b : Nat} (hbeta : betaAt beta s = some b) {k l : Nat} (hk0 : 0 < k)
    (hkb : k < b) (hkW : k ≤ W.length) (hbefore : ∀ e ∈ W.take k, e.2 ≤ t₂) {s₂ s' : S} (hs₂ : s₂ ∈ B.init)
    (hlen2 : m ≤ ((W.drop k).take l).length) (hr₂ : B.Reads s₂ (fun _ => t₂) ((W.drop k).take l) s')
    (hm₂ : (B.st s').isMatch = true) : False := by
  obtain ⟨hk1, -⟩ := kmpTable_spec hk
  obtain ⟨-, hbm, -⟩ := hk1 s b hbeta
  set u := (W.drop k).take l with hub
  set L := max j (k + l) with hL
  have e1 : W.take L = W.take j ++ (W.drop j).take (L - j) := by
    have : L = j + (L - j) := by omega
    conv_lhs => rw [this, List.take_add]
  have e2 : W.take L = W.take k ++ (u ++ (W.drop (k + l)).take (L - (k + l))) := by
    have : L = k + (l + (L - (k + l))) := by omega
    conv_lhs => rw [this, List.take_add, List.take_add]
    rw [← hub, List.drop_drop]
  have hlk : (W.take k).length = k := by
    rw [List.length_take]
    omega
  have htakeL : (W.take L).Sublist W := List.take_sublist _ _
  have htL : ∀ e ∈ W.take L, t < e.2 := fun e he => htW e (htakeL.subset he)
  have hsL : (W.take L).Pairwise fun a b => a.2 < b.2 := hWs.sublist htakeL
  rw [e1] at htL hsL
  obtain ⟨F, hFi, hF⟩ := hU
  have htt : t ≤ t₂ := by
    have hW0 : W.take k ≠ [] := by
      intro hc
      rw [hc] at hlk
      simp at hlk
      omega
    obtain ⟨e, he⟩ := List.exists_mem_of_ne_nil _ hW0
    exact le_of_lt (lt_of_lt_of_le (htW e (List.take_subset _ _ he)) (hbefore e he))
  refine kmp_core_runs hk hM hC hA hz hsz (fun e he => hWl e (List.drop_subset _ _ (List.take_subset _ _ he))) htL hsL hs₀ hrA hbeta hk0 hkb ?_
  rw [← e1, e2]
  have := a0_reads_ext (A := B) (m := m) (n := k) hM (F := F) hFi hF
    (u₀ := W.take k) (u := u) (v := (W.drop (k + l)).take (L - (k + l)))
    (fun e he => hWl e (List.take_subset _ _ he)) (by omega)
    (fun e he => hWl e (List.drop_subset _ _ (List.take_subset _ _ he))) hs₂ (r0 := fun _ => t) (t := t₂)
    (fun _ => htt) hbefore hr₂ hm₂
  rwa [hlk] at this

/-! ### words with other times -/

/-- `OneWindow` without the marker. -/
def Window (B : TA S) (n : Nat) : Prop :=
  ∀ s a, ∀ e ∈ B.edges s a, e.resets = [] ∧
    (∀ g ∈ e.guard, (g.IsUpper → (n : Int) + 1 ≤ g.c) ∧ (¬ g.IsUpper → g.c ≤ n)) ∧
    (n = 0 ∨ e.guard = [] ∨ ∀ q, e.target = some q → ∀ b, B.edges q b = [])

theorem around_holds {n : Nat} {g : Constraint} (h : (g.IsUpper → (n : Int) + 1 ≤ g.c) ∧ (¬ g.IsUpper → g.c ≤ n)) {x : K}
    (h1 : (n : K) < x) (h2 : x < n + 1) : g.Holds x := by
  obtain ⟨ha, hb⟩ := h
  have ha' : g.IsUpper → (n : K) + 1 ≤ g.c := fun h => by exact_mod_cast ha h
  have hb' : ¬ g.IsUpper → (g.c : K) ≤ n := fun h => by exact_mod_cast hb h
  rcases g with ⟨y, odr, c⟩
  cases odr <;> simp only [Constraint.Holds, Constraint.IsUpper, reduceCtorEq, false_implies, true_implies, true_and, and_true, or_false,
    or_true, false_or, or_self, not_true_eq_false, not_false_eq_true, forall_const] at ha' hb' ⊢ <;> linarith

/-- A run for the same letters at other times. -/
theorem reads_retimed {B : TA S} {n : Nat} (hB : Window B n) {u u' : TWord K} (hl : u.map (·.1) = u'.map (·.1)) {s s' : S}
    {r : Nat → K} {c : K} (h : B.Reads s r u s')
    (hw : (n = 0 ∧ ∀ e ∈ u', c < e.2 ∧ e.2 < c + 1) ∨ (n ≠ 0 ∧ ∀ e, u'.getLast? = some e → c + n < e.2 ∧ e.2 < c + n + 1)) :
    B.Reads s (fun _ => c) u' s' := by
  induction u generalizing u' s r with
  | nil =>
    cases u' with
    | nil => exact h
    | cons => simp at hl
  | cons p u ih =>
    obtain ⟨a, t⟩ := p
    cases u' with
    | nil => simp at hl
    | cons p' u' =>
      obtain ⟨a', t'⟩ := p'
      simp only [List.map_cons, List.cons.injEq] at hl
      obtain ⟨rfl, hl⟩ := hl
      obtain ⟨e, he, q, hq, hg, h⟩ := h
      obtain ⟨k1, k2, k3⟩ := hB s a e he
      have hok : GuardHolds e.guard (fun _ => t' - c) := by
        intro g hgm
        rcases hw with ⟨rfl, hw⟩ | ⟨h0, hw⟩
        · have := hw (a, t') (by simp)
          refine around_holds (k2 g hgm) ?_ ?_ <;> push_cast <;> simp only at this <;> linarith [this.1, this.2]
        · have hlast : u' = [] := by
            by_contra hu'
            rcases k3 with k3 | k3 | k3
            · exact h0 k3
            · rw [k3] at hgm
              cases hgm
            · cases u with
              | nil =>
                cases u' with
                | nil => exact hu' rfl
                | cons => simp at hl
              | cons p u =>
                obtain ⟨b, t₂⟩ := p
                obtain ⟨e', he', -⟩ := h
                rw [k3 q hq b] at he'
                cases he'
          subst hlast
          have := hw (a, t') (by simp)
          refine around_holds (k2 g hgm) ?_ ?_ <;> simp only at this <;> linarith [this.1, this.2]
      refine ⟨e, he, q, hq, hok, ?_⟩
      rw [k1] at h ⊢
      have hid : resetAt (fun _ => c) [] t' = fun _ => c := TA.resetAt_nil _ _
      rw [hid]
      refine ih hl h ?_
      rcases hw with ⟨h0, hw⟩ | ⟨h0, hw⟩
      · exact Or.inl ⟨h0, fun e he => hw e (by simp [he])⟩
      · refine Or.inr ⟨h0, fun e he => hw e ?_⟩
        cases u' with
        | nil => simp at he
        | cons => simpa using he

/-- From an extended initial state: skip some events, the clocks are reset at the last of them. -/
theorem a0_reads_skip [DecidableEq S] {A : TA S} {m n : Nat} {u₀ V : TWord K} (hu₀ : LettersOk u₀) {a : Alphabet} {τ : K}
    (ha : 1 ≤ a ∧ a < 127) {q : KState S} {r0 : Nat → K} (hr : ∀ x, r0 x ≤ τ) (ht : ∀ e ∈ u₀, e.2 ≤ τ)
    (h : ∀ r : Nat → K, (∀ x, r x ≤ τ) → (∀ x < A.clockSize, r x = τ) → (kmpA0 A m n).Reads (.ext 0) r V q) :
    (kmpA0 A m n).Reads (.ext (u₀.length + 1)) r0 (u₀ ++ (a, τ) :: V) q := by
  induction u₀ generalizing r0 with
  | nil =>
    refine ⟨_, (a0_ext_succ 0 a _).2 ⟨mem_letters.2 ha, rfl⟩, .ext 0, rfl, by simp [GuardHolds], h _ ?_ ?_⟩
    · intro x
      unfold resetAt
      split_ifs
      · exact le_refl _
      · exact hr x
    · intro x hx
      unfold resetAt
      rw [if_pos (by simpa using hx)]
  | cons p u₀ ih =>
    obtain ⟨b, t⟩ := p
    refine ⟨_, (a0_ext_succ (u₀.length + 1) b _).2 ⟨mem_letters.2 (hu₀ (b, t) (by simp)), rfl⟩, .ext (u₀.length + 1), rfl,
      by simp [GuardHolds], ?_⟩
    refine ih (fun e he => hu₀ e (by simp [he])) ?_ fun e he => ht e (by simp [he])
    intro x
    unfold resetAt
    split_ifs
    · exact ht (b, t) (by simp)
    · exact hr x

/-- The same letters at the times `f 0`, `f 1`, … -/
def retime (f : Nat → K) (W : TWord K) : TWord K := W.mapIdx fun p e => (e.1, f p)

theorem retime_length (f : Nat → K) (W : TWord K) : (retime f W).length = W.length := by simp [retime]

theorem retime_letters (f : Nat → K) (W : TWord K) : W.map (·.1) = (retime f W).map (·.1) := by
  apply List.ext_getElem
  · simp [retime]
  · intro i h1 h2
    simp [retime]

theorem retime_getElem (f : Nat → K) (W : TWord K) (p : Nat) (hp : p < (retime f W).length) :
    (retime f W)[p] = ((W[p]'(by rwa [retime_length] at hp)).1, f p) := by
  simp [retime]

theorem retime_ok {f : Nat → K} {W : TWord K} (h : LettersOk W) : LettersOk (retime f W) := by
  intro e he
  obtain ⟨p, hp, rfl⟩ := List.mem_iff_getElem.1 he
  rw [retime_getElem]
  exact h (W[p]'(by rwa [retime_length] at hp)) (List.getElem_mem _)

theorem retime_take {f : Nat → K} {W : TWord K} {j : Nat} {e : Alphabet × K} (he : e ∈ (retime f W).take j) : ∃ p < j, p < W.length ∧ e.2 = f p := by
  obtain ⟨p, hp, rfl⟩ := List.mem_iff_getElem.1 he
  rw [List.getElem_take, retime_getElem]
  simp only [List.length_take, retime_length] at hp
  exact ⟨p, by omega, by omega, rfl⟩

theorem retime_sub {f : Nat → K} {W : TWord K} {k l : Nat} {e : Alphabet × K} (he : e ∈ ((retime f W).drop k).take l) :
    ∃ p, k ≤ p ∧ p < W.length ∧ e.2 = f p := by
  obtain ⟨p, hp, rfl⟩ := List.mem_iff_getElem.1 he
  rw [List.getElem_take, List.getElem_drop, retime_getElem]
  simp only [List.length_take, List.length_drop, retime_length] at hp
  exact ⟨k + p, by omega, by omega, rfl⟩

theorem retime_last {f : Nat → K} {W : TWord K} {k l : Nat} {e : Alphabet × K} (he : (((retime f W).drop k).take l).getLast? = some e) :
    ∃ p, p + 1 = k + min l (W.length - k) ∧ k ≤ p ∧ p < W.length ∧ e.2 = f p := by
  rw [List.getLast?_eq_getElem?, List.getElem?_eq_some_iff] at he
  obtain ⟨hp, rfl⟩ := he
  rw [List.getElem_take, List.getElem_drop, retime_getElem]
  simp only [List.length_take, List.length_drop, retime_length] at hp ⊢
  exact ⟨k + (min l (W.length - k) - 1), by omega, by omega, by omega, rfl⟩

/-- The table never skips over a word accepted by the automaton it was built for: automata with one window. -/
theorem kmp_core_window [DecidableEq S] {B : TA S} {fuel m : Nat} {beta : List (S × Nat)}
    (hk : kmpTable K fuel B m = .ok beta) (hM : B.MapOk) (hC : B.ClocksDeclared) (hA : B.Closed) (hz : B.NoZeroDuration)
    {n : Nat} (hU : Window B n) (hsz : 2 * B.clockSize ≤ 256) {W : TWord K} (hWl : LettersOk W)
    {t t₂ : K} {s₀ s : S} (hs₀ : s₀ ∈ B.init) {j : Nat}
    (hrA : B.Reads s₀ (fun _ => t) (W.take j) s) {b : Nat} (hbeta : betaAt beta s = some b) {k l : Nat} (hk0 : 0 < k)
    (hkb : k < b) (hkW : k ≤ W.length) {s₂ s' : S} (hs₂ : s₂ ∈ B.init)
    (hlen2 : m ≤ ((W.drop k).take l).length) (hr₂ : B.Reads s₂ (fun _ => t₂) ((W.drop k).take l) s')
    (hm₂ : (B.st s').isMatch = true) : False := by
  obtain ⟨hk1, -⟩ := kmpTable_spec hk
  obtain ⟨-, hbm, -⟩ := hk1 s b hbeta
  have hlen3 : m ≤ min l (W.length - k) := by simpa using hlen2
  obtain ⟨N, hN⟩ : ∃ N : K, N = W.length + 1 := ⟨_, rfl⟩
  have hNpos : 0 < N := by rw [hN]; positivity
  -- the offsets of the events before and from position `k`
  obtain ⟨lo, hi, hlo, hhi, hd, hlast⟩ : ∃ lo hi : Nat, lo ≤ hi ∧ hi = lo + n ∧ (n = 0 → lo = 0) ∧
      (n ≠ 0 → (j ≤ k → lo = n) ∧ (k < j → hi = n)) := by
    by_cases h0 : n = 0
    · exact ⟨0, 0, le_refl _, by omega, fun _ => rfl, fun h => absurd h0 h⟩
    · by_cases hjk : j ≤ k
      · exact ⟨n, n + n, by omega, rfl, fun h => absurd h h0, fun _ => ⟨fun _ => rfl, fun h => by omega⟩⟩
      · exact ⟨0, n, by omega, by omega, fun h => rfl, fun _ => ⟨fun h => absurd h hjk, fun _ => rfl⟩⟩
  obtain ⟨f, hf⟩ : ∃ f : Nat → K, ∀ p, f p = t + ((if p < k then lo else hi : Nat) : K) + ((p + 1 : Nat) : K) / N := ⟨_, fun _ => rfl⟩
  have hfrac : ∀ p < W.length, 0 < ((p + 1 : Nat) : K) / N ∧ ((p + 1 : Nat) : K) / N < 1 := by
    intro p hp
    have h1 : ((p + 1 : Nat) : K) ≤ (W.length : K) := by exact_mod_cast hp
    exact ⟨div_pos (by positivity) hNpos, by rw [div_lt_one hNpos, hN]; linarith⟩
  have hmono : ∀ p q, p < q → f p < f q := by
    intro p q hpq
    rw [hf, hf]
    have h1 : ((p + 1 : Nat) : K) / N < ((q + 1 : Nat) : K) / N := by
      apply div_lt_div_of_pos_right _ hNpos
      exact_mod_cast Nat.add_lt_add_right hpq 1
    have h2 : ((if p < k then lo else hi : Nat) : K) ≤ ((if q < k then lo else hi : Nat) : K) := by
      have : (if p < k then lo else hi) ≤ (if q < k then lo else hi) := by split_ifs <;> omega
      exact_mod_cast this
    linarith
  have hafter : ∀ p, t < f p := by
    intro p
    rw [hf]
    have h1 : 0 < ((p + 1 : Nat) : K) / N := div_pos (by positivity) hNpos
    have h2 : (0 : K) ≤ ((if p < k then lo else hi : Nat) : K) := Nat.cast_nonneg _
    linarith
  -- the word with other times
  obtain ⟨V, hV⟩ : ∃ V, V = retime f W := ⟨_, rfl⟩
  have hVlen : V.length = W.length := by rw [hV, retime_length]
  have hVl : LettersOk V := by rw [hV]; exact retime_ok hWl
  set L := max j (k + l) with hL
  have e1 : V.take L = V.take j ++ (V.drop j).take (L - j) := by
    have : L = j + (L - j) := by omega
    conv_lhs => rw [this, List.take_add]
  have e2 : V.take L = V.take k ++ ((V.drop k).take l ++ (V.drop (k + l)).take (L - (k + l))) := by
    have : L = k + (l + (L - (k + l))) := by omega
    conv_lhs => rw [this, List.take_add, List.take_add]
    rw [List.drop_drop]
  have htL : ∀ e ∈ V.take L, t < e.2 := by
    intro e he
    rw [hV] at he
    obtain ⟨p, -, -, h⟩ := retime_take he
    rw [h]
    exact hafter p
  have hsL : (V.take L).Pairwise fun a b => a.2 < b.2 := by
    refine List.Pairwise.sublist (List.take_sublist _ _) ?_
    rw [List.pairwise_iff_getElem]
    intro p q hp hq hpq
    simp only [hV, retime_getElem]
    exact hmono p q hpq
  have hrA' : B.Reads s₀ (fun _ => t) (V.take j) s := by
    refine reads_retimed hU (u := W.take j) ?_ hrA ?_
    · rw [List.map_take, List.map_take, hV, ← retime_letters]
    · by_cases h0 : n = 0
      · refine Or.inl ⟨h0, fun e he => ?_⟩
        rw [hV] at he
        obtain ⟨p, -, hp, h⟩ := retime_take he
        have hz : (if p < k then lo else hi) = 0 := by have := hd h0; split_ifs <;> omega
        rw [h, hf, hz]
        have := hfrac p hp
        push_cast at this ⊢
        exact ⟨by linarith [this.1], by linarith [this.2]⟩
      · refine Or.inr ⟨h0, fun e he => ?_⟩
        have he' : (((retime f W).drop 0).take j).getLast? = some e := by rw [List.drop_zero, ← hV]; exact he
        obtain ⟨p, hp1, -, hp2, h⟩ := retime_last he'
        obtain ⟨o1, o2⟩ := hlast h0
        have hz : (if p < k then lo else hi) = n := by
          split_ifs with hpk
          · by_cases hjk : j ≤ k
            · exact o1 hjk
            · omega
          · exact o2 (by omega)
        rw [h, hf, hz]
        have := hfrac p hp2
        exact ⟨by linarith [this.1], by linarith [this.2]⟩
  obtain ⟨k', rfl⟩ : ∃ k', k = k' + 1 := ⟨k - 1, by omega⟩
  have hk'V : k' < V.length := by omega
  have hVk : V[k'] = (V[k'].1, f k') := by simp only [hV, retime_getElem]
  have hr₂' : B.Reads s₂ (fun _ => f k') ((V.drop (k' + 1)).take l) s' := by
    have hdiff : ∀ p, k' + 1 ≤ p → p < W.length → f k' + n < f p ∧ f p < f k' + n + 1 := by
      intro p hp hpW
      rw [hf, hf, if_pos (Nat.lt_succ_self k'), if_neg (by omega), hhi]
      have h1 : ((k' + 1 : Nat) : K) / N < ((p + 1 : Nat) : K) / N := by
        apply div_lt_div_of_pos_right _ hNpos
        exact_mod_cast (by omega : k' + 1 < p + 1)
      have h2 := (hfrac p hpW).2
      have h3 : 0 < ((k' + 1 : Nat) : K) / N := div_pos (by positivity) hNpos
      push_cast at h1 h2 h3 ⊢
      exact ⟨by linarith, by linarith⟩
    refine reads_retimed hU (u := (W.drop (k' + 1)).take l) ?_ hr₂ ?_
    · rw [List.map_take, List.map_drop, List.map_take, List.map_drop, hV, ← retime_letters]
    · by_cases h0 : n = 0
      · refine Or.inl ⟨h0, fun e he => ?_⟩
        rw [hV] at he
        obtain ⟨p, hp, hpW, h⟩ := retime_sub he
        have := hdiff p hp hpW
        rw [h0, Nat.cast_zero] at this
        rw [h]
        exact ⟨by linarith [this.1], by linarith [this.2]⟩
      · refine Or.inr ⟨h0, fun e he => ?_⟩
        rw [hV] at he
        obtain ⟨p, -, hp, hpW, h⟩ := retime_last he
        rw [h]
        exact hdiff p hp hpW
  refine kmp_core_runs hk hM hC hA hz hsz (V₁ := V.take j) (V₂ := (V.drop j).take (L - j))
    (fun e he => hVl e (List.drop_subset _ _ (List.take_subset _ _ he))) (by rw [← e1]; exact htL) (by rw [← e1]; exact hsL) hs₀ hrA' hbeta hk0
    hkb ?_
  rw [← e1, e2, List.take_succ_eq_append_getElem hk'V, hVk, List.append_assoc, List.singleton_append]
  have hlk : (V.take k').length = k' := by rw [List.length_take]; omega
  have key := a0_reads_skip (A := B) (m := m) (n := k' + 1) (u₀ := V.take k')
    (V := (V.drop (k' + 1)).take l ++ (V.drop (k' + 1 + l)).take (L - (k' + 1 + l)))
    (fun e he => hVl e (List.take_subset _ _ he)) (a := V[k'].1) (τ := f k') (hVl _ (List.getElem_mem _)) (q := .acc) (r0 := fun _ => t)
    (fun _ => le_of_lt (hafter k')) ?_ ?_
  · rwa [hlk] at key
  · intro e he
    rw [hV] at he
    obtain ⟨p, hp, -, h⟩ := retime_take he
    rw [h]
    exact le_of_lt (hmono p k' hp)
  · intro r hr1 hr2
    refine a0_reads_start hM (F := fun _ x => x < B.clockSize) ?_ ?_ (fun e he => hVl e (List.drop_subset _ _ (List.take_subset _ _ he))) hs₂
      (r2 := fun _ => f k') (fun x => ⟨hr1 x, fun hx => hr2 x hx⟩) hr₂' hm₂
    · intro s a e he
      exact ⟨fun g hg _ => (hC s a e he).1 g hg, fun q _ x hx => Or.inl hx⟩
    · rw [List.length_take, List.length_drop, hVlen]
      omega

/-- The two conditions for the prepared automaton. -/
def ShiftableB (B : TA S) : Prop := B.UpperAfterReset ∨ ∃ n, Window B n

/-- The table never skips over a word accepted by the automaton it was built for. -/
theorem kmp_core [DecidableEq S] {B : TA S} {fuel m : Nat} {beta : List (S × Nat)}
    (hk : kmpTable K fuel B m = .ok beta) (hM : B.MapOk) (hC : B.ClocksDeclared) (hA : B.Closed) (hz : B.NoZeroDuration)
    (hU : ShiftableB B) (hsz : 2 * B.clockSize ≤ 256) {W : TWord K} (hWl : LettersOk W)
    (hWs : W.Pairwise fun a b => a.2 < b.2) {t t₂ : K} (htW : ∀ e ∈ W, t < e.2) {s₀ s : S} (hs₀ : s₀ ∈ B.init) {j : Nat}
    (hrA : B.Reads s₀ (fun _ => t) (W.take j) s) {b : Nat} (hbeta : betaAt beta s = some b) {k l : Nat} (hk0 : 0 < k)
    (hkb : k < b) (hkW : k ≤ W.length) (hbefore : ∀ e ∈ W.take k, e.2 ≤ t₂) {s₂ s' : S} (hs₂ : s₂ ∈ B.init)
    (hlen2 : m ≤ ((W.drop k).take l).length) (hr₂ : B.Reads s₂ (fun _ => t₂) ((W.drop k).take l) s')
    (hm₂ : (B.st s').isMatch = true) : False := by
  rcases hU with hU | ⟨n, hU⟩
  · exact kmp_core_upper hk hM hC hA hz hU hsz hWl hWs htW hs₀ hrA hbeta hk0 hkb hkW hbefore hs₂ hlen2 hr₂ hm₂
  · exact kmp_core_window hk hM hC hA hz hU hsz hWl hs₀ hrA hbeta hk0 hkb hkW hs₂ hlen2 hr₂ hm₂

theorem prepare_window [DecidableEq S] {A Ap : TA S} (h : Prepared A Ap) (hU : A.OneWindow) : ∃ n, Window Ap n := by
  obtain ⟨n, hU⟩ := hU
  obtain ⟨-, -, hst, -⟩ := id h
  have hnd : ∀ s, Ap.edges s dollar = [] := by
    intro s
    unfold TA.edges
    rw [hst]
    exact dropDollar_dollar _
  refine ⟨n, fun s a e he => ?_⟩
  have ha : a ≠ dollar := by
    rintro rfl
    rw [hnd s] at he
    cases he
  obtain ⟨h1, h2, h3⟩ := hU s a ha e (prepare_edges h he)
  refine ⟨h1, h2, h3.imp_right (Or.imp_right fun h3 q hq b => ?_)⟩
  rw [List.eq_nil_iff_forall_not_mem]
  intro e' he'
  have := h3 q hq b e' (prepare_edges h he')
  subst this
  rw [hnd q] at he'
  cases he'

theorem prepare_upper [DecidableEq S] {A Ap : TA S} (h : Prepared A Ap)
    (hU : A.UpperAfterReset) : Ap.UpperAfterReset := by
  obtain ⟨F, hFi, hF⟩ := hU
  obtain ⟨-, hinit, -, -⟩ := id h
  refine ⟨F, ?_, fun s a e he => hF s a e (prepare_edges h he)⟩
  intro s hs
  refine hFi s ?_
  rw [hinit, List.mem_filter] at hs
  simpa using hs.2

theorem prepare_shiftable [DecidableEq S] {A Ap : TA S} (h : Prepared A Ap) (hU : A.Shiftable) : ShiftableB Ap :=
  hU.imp (prepare_upper h) (prepare_window h)

theorem kmp_sound [DecidableEq S] {A Ap : TA S} (hp : Prepared A Ap) {fuel : Nat}
    {T : Tables S} {beta : List (S × Nat)} (hk : kmpTable K fuel Ap T.m = .ok beta) (hb : T.beta = betaAt beta)
    (hlen : ∀ (t : K) u t', A.Fits t u t' → T.m ≤ u.length) (hM : A.MapOk) (hC : A.ClocksDeclared)
    (hA : A.Closed) (hz : A.NoZeroDuration) (hU : A.Shiftable) (hsz : 2 * A.clockSize ≤ 256) :
    KMPSound K A T := by
  intro w hw hs hl i j t s s₀ hstart hs₀ hr b hbeta k hk0 hkb
  rintro ⟨t₂, t₂', hstart₂, hne, hm⟩
  rw [hb] at hbeta
  have hf := fits_of_match hw hl hs hne hm
  have hlen2 := hlen _ _ _ hf
  obtain ⟨s₂, hs₂, s', hr₂, hm₂⟩ := prepare_fits hA hp hf.noMarker hf.accepts
  obtain ⟨hst, hinit, -, hmc⟩ := id hp
  obtain ⟨l, hbl⟩ := between_getElem (t' := t₂') hw hstart₂
  have hcs : Ap.clockSize = A.clockSize := by simp only [TA.clockSize, hmc]
  have hub : between w t₂ t₂' = ((w.drop i).drop k).take l := by rw [hbl, List.drop_drop]
  rw [hub] at hlen2 hr₂
  refine kmp_core hk (prepare_mapOk hp hM) (prepare_clocks hp hC) (prepare_closed hp hA) (prepare_noZero hp hz)
    (prepare_shiftable hp hU) (by rw [hcs]; exact hsz) (W := w.drop i) (fun e he => hl e (List.drop_subset _ _ he))
    (hs.2.sublist (List.drop_sublist i w)) hstart.after (s₀ := s₀) ?_
    ((prepare_reads hp fun e he => hw.noMarker e (List.drop_subset _ _ (List.take_subset _ _ he))).2 hr) hbeta hk0 hkb ?_ ?_ hs₂
    hlen2 hr₂ hm₂
  · rw [hinit, List.mem_filter]
    exact ⟨hA.1 s₀ hs₀, by simpa using hs₀⟩
  · have := hstart₂.lt
    rw [List.length_drop]
    omega
  · intro e he
    refine hstart₂.before e ?_
    rw [List.take_add]
    exact List.mem_append_right _ he

end Verif
