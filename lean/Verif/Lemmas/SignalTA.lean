import Verif.Lemmas.NormalFormInit
import Verif.Lemmas.TREOps2
import Verif.Model.SignalTA
import Verif.Spec.SignalTA

/-! The automata of normal forms. -/

set_option linter.unusedSectionVars false

namespace Verif

variable {K : Type} [Field K] [LinearOrder K] [IsStrictOrderedRing K]

theorem Shows.append {t0 : K} {u : TWord K} {x : Sig K} (h : Shows t0 u x) : ∀ {v : TWord K} {y : Sig K}, Shows (endTime t0 u) v y →
    Shows t0 (u ++ v) (x.app y) := by
  induction h with
  | nil =>
    intro v y hv
    rw [Sig.nil_app]
    exact hv
  | @cons t0 c t w x h hw ih =>
    intro v y hv
    rw [endTime_cons] at hv
    rw [Sig.app_assoc, List.cons_append]
    exact .cons h (ih hv)

theorem Shows.split {v : TWord K} : ∀ {t0 : K} {u : TWord K} {z : Sig K}, Shows t0 (u ++ v) z →
    ∃ x y, z = x.app y ∧ Shows t0 u x ∧ Shows (endTime t0 u) v y
  | t0, [], z, h => ⟨Sig.nil, z, (Sig.nil_app z).symm, .nil, h⟩
  | t0, (c, t) :: u, z, h => by
    rw [List.cons_append] at h
    cases h with
    | cons h hw =>
      obtain ⟨x, y, rfl, h1, h2⟩ := Shows.split hw
      exact ⟨_, y, (Sig.app_assoc _ _ _).symm, .cons h h1, by rw [endTime_cons]; exact h2⟩

variable [FloorRing K]

namespace TA

theorem toInt_of_int {c : K} {s : Bool} (h : ∃ n : Int, c = n) : ∃ n : Int, c = n ∧ (Bnd.fin c s).toInt = .ok n := by
  obtain ⟨n, rfl⟩ := h
  exact ⟨n, rfl, by simp [Bnd.toInt]⟩

/-- The guard of an interval is its membership test. -/
theorem intervalGuard_ok {cl : Bool} {I : Interval K} (hI : Interval.IOk cl I) (hi : I.IntEnds) :
    ∃ g, intervalGuard I = .ok g ∧ (∀ c ∈ g, c.x = 0 ∧ 0 ≤ c.c) ∧ ∀ v : Nat → K, 0 ≤ v 0 → (GuardHolds g v ↔ I.Mem (v 0)) := by
  obtain ⟨l, s, hl, h0, hu, _⟩ := hI
  have low : ∃ g, lowerGuard I.lower = .ok g ∧ (∀ c ∈ g, c.x = 0 ∧ 0 ≤ c.c) ∧
      ∀ v : Nat → K, 0 ≤ v 0 → (GuardHolds g v ↔ Interval.Above I.lower (v 0)) := by
    rw [hl]
    obtain ⟨n, rfl, e⟩ := toInt_of_int (s := s) (hi.1 l s hl)
    simp only [lowerGuard, e]
    have hn : 0 ≤ n := by exact_mod_cast h0
    split
    · next h =>
      refine ⟨_, rfl, by simp, fun v hv => ?_⟩
      rw [h.1, h.2]
      simpa [GuardHolds, Interval.Above] using hv
    · refine ⟨_, rfl, by simpa using hn, fun v _ => ?_⟩
      cases s <;> simp [GuardHolds, Interval.Above, Constraint.Holds]
  have up : ∃ g, upperGuard I.upper = .ok g ∧ (∀ c ∈ g, c.x = 0 ∧ 0 ≤ c.c) ∧ ∀ v : Nat → K, (GuardHolds g v ↔ I.upper.sat (v 0)) := by
    cases e : I.upper with
    | inf t => exact ⟨[], rfl, by simp, fun v => by simp [GuardHolds, Bnd.sat]⟩
    | fin u t =>
      obtain ⟨n, rfl, e'⟩ := toInt_of_int (s := t) (hi.2 u t e)
      simp only [upperGuard, e']
      have hn : 0 ≤ n := by exact_mod_cast h0.trans (hu _ t e).1
      refine ⟨_, rfl, by simpa using hn, fun v => ?_⟩
      cases t <;> simp [GuardHolds, Bnd.sat, Constraint.Holds]
  obtain ⟨g, e1, p1, q1⟩ := low
  obtain ⟨g', e2, p2, q2⟩ := up
  refine ⟨g ++ g', by simp only [intervalGuard, e1, e2], fun c hc => (List.mem_append.1 hc).elim (p1 c) (p2 c), fun v hv => ?_⟩
  rw [Interval.Mem, ← q1 v hv, ← q2 v]
  simp only [GuardHolds, List.mem_append, or_imp, forall_and]

theorem guardsOf_ok {cl : Bool} : ∀ {S : List (Interval K)}, (∀ I ∈ S, Interval.IOk cl I) → (∀ I ∈ S, I.IntEnds) →
    ∃ gs, guardsOf S = .ok gs ∧ (∀ g ∈ gs, ∀ c ∈ g, c.x = 0 ∧ 0 ≤ c.c) ∧ (S ≠ [] → gs ≠ []) ∧
      ∀ v : Nat → K, 0 ≤ v 0 → ((∃ g ∈ gs, GuardHolds g v) ↔ Interval.MemAny S (v 0))
  | [], _, _ => ⟨[], rfl, by simp, by simp, fun v _ => by simp [Interval.MemAny]⟩
  | I :: S, h, h' => by
    obtain ⟨g, e1, p1, q1⟩ := intervalGuard_ok (h I (List.mem_cons_self ..)) (h' I (List.mem_cons_self ..))
    obtain ⟨gs, e2, p2, _, q2⟩ := guardsOf_ok (cl := cl) (S := S) (fun J hJ => h J (List.mem_cons_of_mem _ hJ)) fun J hJ => h' J (List.mem_cons_of_mem _ hJ)
    refine ⟨g :: gs, by simp only [guardsOf, e1, e2], fun x hx => ?_, by simp, fun v hv => ?_⟩
    · rcases List.mem_cons.1 hx with rfl | hx
      · exact p1
      · exact p2 x hx
    · simp only [List.mem_cons, exists_eq_or_imp, q1 v hv, q2 v hv, Interval.MemAny]

theorem maxConst_ge {gs : List (List Constraint)} (h : ∀ g ∈ gs, ∀ c ∈ g, c.x = 0 ∧ 0 ≤ c.c) (hm : maxConst gs = -1) : ∀ g ∈ gs, g = [] := by
  have key : ∀ (l : List Constraint) (m : Int), m ≤ l.foldl (fun m g => max m g.c) m ∧ ∀ c ∈ l, c.c ≤ l.foldl (fun m g => max m g.c) m := by
    intro l
    induction l with
    | nil => intro m; simp
    | cons c l ih =>
      intro m
      obtain ⟨h1, h2⟩ := ih (max m c.c)
      refine ⟨le_trans (le_max_left _ _) h1, fun x hx => ?_⟩
      rcases List.mem_cons.1 hx with rfl | hx
      · exact le_trans (le_max_right _ _) h1
      · exact h2 x hx
  intro g hg
  rw [List.eq_nil_iff_forall_not_mem]
  intro c hc
  have h1 := (key gs.flatten (-1)).2 c (List.mem_flatten.2 ⟨g, hg, hc⟩)
  have h2 := (h g hg c hc).2
  rw [maxConst] at hm
  omega

/-- No transition to a state which has transitions with the same letter. -/
def NoRep (A : TA Nat) : Prop := ∀ s ∈ A.states, ∀ a, ∀ e ∈ A.edges s a, ∀ q, e.target = some q → A.edges q a = []

end TA

open TA

variable [D : Durs K]

/-- The letters have durations in `D`. -/
def Steps : K → TWord K → Prop
  | _, [] => True
  | t0, e :: w => Durs.ok (e.2 - t0) ∧ Steps e.2 w

theorem steps_append : ∀ {u : TWord K} {t0 : K} {v : TWord K}, Steps t0 (u ++ v) ↔ Steps t0 u ∧ Steps (endTime t0 u) v
  | [], _, _ => ⟨fun h => ⟨trivial, h⟩, fun h => h.2⟩
  | (c, t) :: u, t0, v => by
    rw [List.cons_append, Steps, Steps, steps_append, endTime_cons, and_assoc]

theorem steps_all : ∀ (w : TWord K) (t0 : K), Steps (D := allDurs) t0 w
  | [], _ => trivial
  | _ :: w, _ => ⟨trivial, steps_all w _⟩

/-- What the translation guarantees for the signals `L`. -/
structure SigOk (alloc : Nat → Nat) (heap : Nat → TAState Nat) (k k' : Nat) (A : TA Nat) (L : Sig K → Prop) : Prop where
  wf : A.Wf
  le : k ≤ k'
  range : ∀ s ∈ A.states, ∃ i, k ≤ i ∧ i < k' ∧ s = alloc i
  frame : ∀ a, (∀ i, k ≤ i → i < k' → a ≠ alloc i) → A.st a = heap a
  clocks : A.clockSize ≤ 1
  nonnull : ∀ s ∈ A.states, ∀ a, ∀ e ∈ A.edges s a, e.target ≠ none
  norep : A.NoRep
  up : ∀ s ∈ A.states, ∀ a, ∀ e ∈ A.edges s a, ∀ q, e.target = some q → ∃ i j, i < j ∧ s = alloc i ∧ q = alloc j
  zd : ∀ s ∈ A.states, (A.st s).zeroDuration = false
  sound : ∀ t0 w x, Shows t0 w x → Steps t0 w → A.AcceptsFrom t0 w → L x
  complete : ∀ t0 x, L x → ∃ w, Shows t0 w x ∧ Steps t0 w ∧ A.AcceptsFrom t0 w

theorem sigOk_none (alloc : Nat → Nat) (heap : Nat → TAState Nat) (k : Nat) {L : Sig K → Prop} (hL : ∀ x, ¬ L x) :
    SigOk alloc heap k k (noneTA heap) L where
  wf := ⟨List.nodup_nil, fun _ h => (by cases h), fun _ h => (by cases h), fun _ h => (by cases h), fun _ h => (by cases h), fun _ h => (by cases h),
    fun _ h => (by cases h), fun _ h => (by cases h), fun _ h => (by cases h), fun _ h => (by cases h)⟩
  le := le_refl k
  range := fun _ h => by cases h
  frame := fun _ _ => rfl
  clocks := Nat.zero_le _
  nonnull := fun _ h => by cases h
  norep := fun _ h => by cases h
  up := fun _ h => by cases h
  zd := fun _ h => by cases h
  sound := fun _ _ _ _ _ h => by obtain ⟨s, hs, _⟩ := h; cases hs
  complete := fun _ x h => absurd h (hL x)

theorem sigOk_eps {alloc : Nat → Nat} (heap : Nat → TAState Nat) (k : Nat) :
    SigOk (K := K) alloc heap k (k + 1) (epsTA alloc heap k) (fun x => x = Sig.nil) := by
  have hs : ∀ s ∈ (epsTA alloc heap k).states, (epsTA alloc heap k).st s = ⟨true, false, []⟩ := fun s hs => by
    rw [List.mem_singleton.1 hs]
    exact if_pos rfl
  have he : ∀ s ∈ (epsTA alloc heap k).states, ∀ a, (epsTA alloc heap k).edges s a = [] := fun s h a => by
    simp [edges, hs s h, Next.at'_nil]
  refine ⟨⟨List.nodup_singleton _, fun s h => h, fun s h => by simp [hs s h], fun s h => by simp [hs s h], fun s h a e h' => by simp [he s h] at h',
    fun s h a e h' => by simp [he s h] at h', fun s h a e h' => by simp [he s h] at h', fun s h => he s h _, fun s h _ => by simp [hs s h],
    fun s h _ => by simp [hs s h]⟩, Nat.le_succ k, fun s h => ⟨k, le_refl _, Nat.lt_succ_self _, List.mem_singleton.1 h⟩, fun a ha => ?_, Nat.zero_le _,
    fun s h a e h' => by simp [he s h] at h', fun s h a e h' => by simp [he s h] at h', fun s h a e h' => by simp [he s h] at h',
    fun s h => by simp [hs s h], fun t0 w x hw _ h => ?_, fun t0 x hx => ?_⟩
  · exact if_neg (ha k (le_refl _) (Nat.lt_succ_self _))
  · obtain ⟨s, hs', h⟩ := (acceptsFrom_iff _ _ _).1 h
    cases hw with
    | nil => rfl
    | cons h1 h2 =>
      obtain ⟨e, h', _⟩ := h
      simp [he s hs'] at h'
  · subst hx
    exact ⟨[], .nil, trivial, (acceptsFrom_iff _ _ _).2 ⟨alloc k, List.mem_singleton.2 rfl, by simp [TA.Acc, hs _ (List.mem_singleton.2 rfl)]⟩⟩

/-- The transitions into accepting states have the letter `c`. -/
def LastL (A : TA Nat) (c : Alphabet) : Prop :=
  ∀ s ∈ A.states, ∀ a, ∀ e ∈ A.edges s a, ∀ q, e.target = some q → (A.st q).isMatch = true → a = c

/-- The initial states are not accepting and have only transitions with the letter `c`. -/
def FirstL (A : TA Nat) (c : Alphabet) : Prop := ∀ i ∈ A.init, (A.st i).isMatch = false ∧ ∀ a, a ≠ c → A.edges i a = []

theorem sigOk_sing {cl : Bool} {alloc : Nat → Nat} (hinj : Function.Injective alloc) (heap : Nat → TAState Nat) (k : Nat) {c : Alphabet} (hc : c ≠ 0)
    {S : List (Interval K)} (hS : ∀ I ∈ S, Interval.IOk cl I) (hi : ∀ I ∈ S, I.IntEnds) :
    ∃ A k', singTA alloc heap k c S = .ok (A, k') ∧ SigOk alloc heap k k' A (NTree.lang (.sing c S)) ∧ LastL A c ∧ FirstL A c := by
  by_cases h0 : S = []
  · subst h0
    refine ⟨_, _, rfl, sigOk_none alloc heap k fun x => ?_, fun _ h => (by cases h), fun _ h => (by cases h)⟩
    rintro ⟨d, h, _, _, I, hI, _⟩
    cases hI
  · obtain ⟨gs, e, p, hne, q⟩ := guardsOf_ok hS hi
    have e' : singTA alloc heap k c S = .ok (edgeTA alloc heap k c gs, k + 2) := by
      unfold singTA
      split
      · next h => exact absurd rfl h0
      · rw [e]
    refine ⟨_, _, e', ?_⟩
    generalize hA : edgeTA alloc heap k c gs = A
    have hne' : alloc k ≠ alloc (k + 1) := fun h => by have := hinj h; omega
    have hstates : A.states = [alloc k, alloc (k + 1)] := by rw [← hA]; rfl
    have hinit : A.init = [alloc k] := by rw [← hA]; rfl
    have h1 : A.st (alloc k) = ⟨false, false, [(c, gs.map fun g => ⟨some (alloc (k + 1)), [], g⟩)]⟩ := by
      rw [← hA]; exact if_pos rfl
    have h2 : A.st (alloc (k + 1)) = ⟨true, false, []⟩ := by
      rw [← hA]; simp only [edgeTA, if_neg (Ne.symm hne'), if_true]
    have hcs : A.clockSize = if maxConst gs = -1 then 0 else 1 := by
      rw [← hA]; simp only [clockSize, edgeTA]; split <;> rfl
    have hE1 : ∀ a, A.edges (alloc k) a = if c = a then gs.map fun g => ⟨some (alloc (k + 1)), [], g⟩ else [] := fun a => by
      rw [edges, h1, Next.at'_cons, Next.at'_nil]
    have hE2 : ∀ a, A.edges (alloc (k + 1)) a = [] := fun a => by rw [edges, h2, Next.at'_nil]
    have two : ∀ s ∈ A.states, s = alloc k ∨ s = alloc (k + 1) := fun s hs => by
      rw [hstates] at hs
      simpa using hs
    have hE : ∀ s ∈ A.states, ∀ a, ∀ e ∈ A.edges s a, s = alloc k ∧ a = c ∧ ∃ g ∈ gs, e = ⟨some (alloc (k + 1)), [], g⟩ := by
      intro s hs a e he
      rcases two s hs with rfl | rfl
      · rw [hE1] at he
        split at he
        · next h =>
          obtain ⟨g, hg, rfl⟩ := List.mem_map.1 he
          exact ⟨rfl, h.symm, g, hg, rfl⟩
        · cases he
      · rw [hE2] at he
        cases he
    refine ⟨⟨⟨?_, ?_, ?_, ?_, ?_, ?_, ?_, ?_, ?_, ?_⟩, by omega, ?_, ?_, ?_, ?_, ?_, ?_, ?_, ?_, ?_⟩, ?_, ?_⟩
    · rw [hstates]; simpa using hne'
    · intro s hs
      rw [hinit] at hs
      rw [hstates, List.mem_singleton.1 hs]
      simp
    · intro s hs
      rcases two s hs with rfl | rfl
      · rw [h1]; simp
      · rw [h2]; simp
    · intro s hs
      rcases two s hs with rfl | rfl
      · rw [h1]; simpa using hne h0
      · rw [h2]; simp
    · intro s hs a e he r hr
      obtain ⟨_, _, g, _, rfl⟩ := hE s hs a e he
      simp only [Option.some.injEq] at hr
      rw [hstates, ← hr]
      simp
    · intro s hs a e he g hg
      obtain ⟨_, _, g', hg', rfl⟩ := hE s hs a e he
      rw [hcs, (p g' hg' g hg).1]
      split
      · next hm =>
        rw [maxConst_ge p hm g' hg'] at hg
        cases hg
      · exact Nat.one_pos
    · intro s hs a e he x hx
      obtain ⟨_, _, g', hg', rfl⟩ := hE s hs a e he
      cases hx
    · intro s hs
      rw [List.eq_nil_iff_forall_not_mem]
      intro e he
      exact hc (hE s hs _ e he).2.1.symm
    · intro s hs hm
      rcases two s hs with rfl | rfl
      · rw [h1] at hm; cases hm
      · rw [h2]
    · intro s hs hm
      rcases two s hs with rfl | rfl
      · rw [h1] at hm; cases hm
      · rw [h2]
    · intro s hs
      rcases two s hs with rfl | rfl
      · exact ⟨k, le_refl _, by omega, rfl⟩
      · exact ⟨k + 1, by omega, by omega, rfl⟩
    · intro a ha
      rw [← hA]
      simp only [edgeTA, if_neg (ha k (le_refl _) (by omega)), if_neg (ha (k + 1) (by omega) (by omega))]
    · rw [hcs]; split <;> omega
    · intro s hs a e he
      obtain ⟨_, _, g', hg', rfl⟩ := hE s hs a e he
      simp
    · intro s hs a e he r hr
      obtain ⟨_, _, g, _, rfl⟩ := hE s hs a e he
      simp only [Option.some.injEq] at hr
      rw [← hr, hE2]
    · intro s hs a e he r hr
      obtain ⟨rfl, _, g, _, rfl⟩ := hE s hs a e he
      simp only [Option.some.injEq] at hr
      exact ⟨k, k + 1, Nat.lt_succ_self k, rfl, hr.symm⟩
    · intro s hs
      rcases two s hs with rfl | rfl
      · rw [h1]
      · rw [h2]
    · intro t0 w x hw hst h
      obtain ⟨s, hs, h⟩ := (acceptsFrom_iff _ _ _).1 h
      rw [hinit] at hs
      rw [List.mem_singleton.1 hs] at h
      cases hw with
      | nil =>
        simp only [TA.Acc, h1] at h
        cases h
      | cons ht hw =>
        obtain ⟨e, he, r, hr, hg, h⟩ := h
        obtain ⟨_, rfl, g, hgs, rfl⟩ := hE _ (by rw [hstates]; simp) _ e he
        simp only [Option.some.injEq] at hr
        subst hr
        cases hw with
        | nil =>
          rw [Sig.app_nil]
          exact ⟨_, _, rfl, hst.1, (q _ (sub_nonneg.2 ht)).1 ⟨g, hgs, hg⟩⟩
        | cons ht' hw =>
          obtain ⟨e, he, _⟩ := h
          rw [hE2] at he
          cases he
    · rintro t0 x ⟨d, hd, rfl, ho, hm⟩
      have ht : t0 ≤ t0 + d := le_add_of_nonneg_right hd
      have hs := Shows.cons (c := c) ht (Shows.nil (K := K))
      have hx : (Sig.const c (t0 + d - t0) (sub_nonneg.2 ht)).app Sig.nil = Sig.const c d hd := by
        rw [Sig.app_nil]
        exact Sig.const_congr _ _ _ (by ring)
      rw [hx] at hs
      refine ⟨_, hs, ⟨by simpa using ho, trivial⟩, (acceptsFrom_iff _ _ _).2 ⟨alloc k, by rw [hinit]; simp, ?_⟩⟩
      obtain ⟨g, hg, hh⟩ := (q (fun _ => t0 + d - t0) (by simpa using hd)).2 (by simpa using hm)
      refine ⟨⟨some (alloc (k + 1)), [], g⟩, ?_, _, rfl, hh, ?_⟩
      · rw [hE1, if_pos rfl]
        exact List.mem_map.2 ⟨g, hg, rfl⟩
      · simp only [TA.Acc, h2]
    · intro s hs a e he r _ _
      exact (hE s hs a e he).2.1
    · intro i hi
      rw [hinit] at hi
      rw [List.mem_singleton.1 hi]
      refine ⟨by rw [h1], fun a ha => ?_⟩
      rw [hE1, if_neg (Ne.symm ha)]

section two
variable {alloc : Nat → Nat} (hinj : Function.Injective alloc) {heap : Nat → TAState Nat} {k k1 k2 : Nat} {L M : Sig K → Prop} {A B : TA Nat}
  (hA : SigOk alloc heap k k1 A L) (hB : SigOk alloc A.st k1 k2 B M)
include hinj hA hB

theorem sig_disjoint : ∀ s ∈ A.states, s ∉ B.states := by
  intro s hs hs'
  obtain ⟨i, _, hi, rfl⟩ := hA.range s hs
  obtain ⟨j, hj, _, hij⟩ := hB.range _ hs'
  have := hinj hij
  omega

theorem sig_keep : ∀ s ∈ A.states, B.st s = A.st s := by
  intro s hs
  refine hB.frame s fun i hi1 _ hsi => ?_
  obtain ⟨j, _, hj, hjs⟩ := hA.range s hs
  have := hinj (hjs.symm.trans hsi)
  omega

theorem sig_frame {a : Nat} (ha : ∀ i, k ≤ i → i < k2 → a ≠ alloc i) : B.st a = heap a := by
  have h1 := hA.le
  have h2 := hB.le
  rw [hB.frame a fun i hi1 hi2 => ha i (by omega) hi2, hA.frame a fun i hi1 hi2 => ha i hi1 (by omega)]

theorem sig_range {s : Nat} (hs : s ∈ A.states ∨ s ∈ B.states) : ∃ i, k ≤ i ∧ i < k2 ∧ s = alloc i := by
  have h1 := hA.le
  have h2 := hB.le
  rcases hs with hs | hs
  · obtain ⟨i, hi1, hi2, h⟩ := hA.range s hs
    exact ⟨i, hi1, by omega, h⟩
  · obtain ⟨i, hi1, hi2, h⟩ := hB.range s hs
    exact ⟨i, by omega, hi2, h⟩

theorem SigOk.disj : SigOk alloc heap k k2 (A.disjTA B) (fun x => L x ∨ M x) := by
  have hkeep := sig_keep hinj hA hB
  have hd := sig_disjoint hinj hA hB
  have hw : ({ A with st := B.st } : TA Nat).Wf := hA.wf.congr hkeep
  have hss : ({ A with st := B.st } : TA Nat).st = B.st := rfl
  have heq : A.disjTA B = ({ A with st := B.st } : TA Nat).disjTA B := rfl
  have hlangA : ∀ t0 (w : TWord K), ({ A with st := B.st } : TA Nat).AcceptsFrom t0 w ↔ A.AcceptsFrom t0 w :=
    fun t0 w => TA.accepts_congr hA.wf hkeep t0 w
  have hstates : ∀ s, s ∈ (A.disjTA B).states → s ∈ A.states ∨ s ∈ B.states := fun s hs => List.mem_append.1 hs
  have hkeepE : ∀ s ∈ A.states, ∀ a, (A.disjTA B).edges s a = A.edges s a := fun s hs a => by
    show (B.st s).next.at' a = _
    rw [hkeep s hs]
    rfl
  refine ⟨?_, hA.le.trans hB.le, fun s hs => sig_range hinj hA hB (hstates s hs), fun a ha => sig_frame hinj hA hB ha, ?_, ?_, ?_, ?_, ?_, ?_, ?_⟩
  · rw [heq]; exact TA.disj_wf hss hw hB.wf hd
  · have := maxVec_length A.maxC B.maxC
    have h1 := hA.clocks
    have h2 := hB.clocks
    simp only [clockSize, disjTA] at *
    omega
  · intro s hs a e he
    rcases hstates s hs with hs | hs
    · rw [hkeepE s hs] at he
      exact hA.nonnull s hs a e he
    · exact hB.nonnull s hs a e he
  · intro s hs a e he q hq
    rcases hstates s hs with hs | hs
    · rw [hkeepE s hs] at he
      rw [hkeepE q (hA.wf.closed s hs a e he q hq)]
      exact hA.norep s hs a e he q hq
    · exact hB.norep s hs a e he q hq
  · intro s hs a e he q hq
    rcases hstates s hs with hs | hs
    · rw [hkeepE s hs] at he
      exact hA.up s hs a e he q hq
    · exact hB.up s hs a e he q hq
  · intro s hs
    rcases hstates s hs with hs | hs
    · show (B.st s).zeroDuration = false
      rw [hkeep s hs]
      exact hA.zd s hs
    · exact hB.zd s hs
  · intro t0 w x hx hst h
    rw [heq, TA.accepts_disj hss hw hB.wf hd, hlangA] at h
    exact h.imp (hA.sound t0 w x hx hst) (hB.sound t0 w x hx hst)
  · intro t0 x hx
    rcases hx with hx | hx
    · obtain ⟨w, h1, h0, h2⟩ := hA.complete t0 x hx
      exact ⟨w, h1, h0, by rw [heq, TA.accepts_disj hss hw hB.wf hd, hlangA]; exact .inl h2⟩
    · obtain ⟨w, h1, h0, h2⟩ := hB.complete t0 x hx
      exact ⟨w, h1, h0, by rw [heq, TA.accepts_disj hss hw hB.wf hd, hlangA]; exact .inr h2⟩

theorem SigOk.concat {c c' : Alphabet} (hc : c ≠ c') (hl : LastL A c) (hni : ∀ i ∈ A.init, (A.st i).isMatch = false) (hf : FirstL B c') (hl' : LastL B c') :
    SigOk alloc heap k k2 (A.concat2 B) (fun x => ∃ y z, x = y.app z ∧ L y ∧ M z) ∧ LastL (A.concat2 B) c' ∧
      ∀ i ∈ (A.concat2 B).init, ((A.concat2 B).st i).isMatch = false := by
  have hkeep := sig_keep hinj hA hB
  have hd := sig_disjoint hinj hA hB
  have hw : ({ A with st := B.st } : TA Nat).Wf := hA.wf.congr hkeep
  have hss : ({ A with st := B.st } : TA Nat).st = B.st := rfl
  have heq : A.concat2 B = ({ A with st := B.st } : TA Nat).concat2 B := rfl
  have hn : B.clockSize ≤ 256 := le_trans hB.clocks (by norm_num)
  have hlangA : ∀ t0 (w : TWord K), ({ A with st := B.st } : TA Nat).AcceptsFrom t0 w ↔ A.AcceptsFrom t0 w :=
    fun t0 w => TA.accepts_congr hA.wf hkeep t0 w
  have hstates : ∀ s, s ∈ (A.concat2 B).states → s ∈ A.states ∨ s ∈ B.states := fun s hs => List.mem_append.1 hs
  have hEA : ∀ s ∈ A.states, ∀ a, ({ A with st := B.st } : TA Nat).edges s a = A.edges s a := fun s hs a => by
    show (B.st s).next.at' a = _
    rw [hkeep s hs]
    rfl
  have hM1 : ∀ s ∈ A.states, ((A.concat2 B).st s).isMatch = false := fun s hs => by
    rw [heq, TA.concat2_left hss hw hB.wf hd hs]
  have hM2 : ∀ s ∈ B.states, ((A.concat2 B).st s).isMatch = (B.st s).isMatch := fun s hs => by
    rw [heq, TA.concat2_right hss hw hB.wf hd (fun h => hd s h hs)]
    split <;> rfl
  have hE2 : ∀ s ∈ B.states, ∀ a, (A.concat2 B).edges s a = B.edges s a := fun s hs a => by
    rw [heq, TA.concat2_edges_right hss hw hB.wf hd (fun h => hd s h hs)]
  have hE1 : ∀ s ∈ A.states, ∀ a e, e ∈ (A.concat2 B).edges s a ↔ e ∈ A.edges s a ∨ ∃ e' ∈ A.edges s a, ∃ q, e'.target = some q ∧ (B.st q).isMatch = true ∧
      ∃ i ∈ B.init, e = { e' with target := some i, resets := allClocks B.clockSize } := fun s hs a e => by
    rw [heq, TA.concat2_edges_left hss hw hB.wf hd hs, TA.mem_concatEdges hss hw hB.wf hd, hEA s hs]
  have hnil : ∀ s ∈ A.states, ∀ a, A.edges s a = [] → (A.concat2 B).edges s a = [] := fun s hs a h => by
    rw [List.eq_nil_iff_forall_not_mem]
    intro e he
    rw [hE1 s hs, h] at he
    rcases he with he | ⟨_, he, _⟩ <;> cases he
  refine ⟨⟨?_, hA.le.trans hB.le, fun s hs => sig_range hinj hA hB (hstates s hs), fun a ha => ?_, ?_, ?_, ?_, ?_, ?_, ?_, ?_⟩, ?_, ?_⟩
  · rw [heq]; exact TA.concat2_wf hss hw hB.wf hd hn
  · have hna : a ∉ A.states := fun hs => by
      obtain ⟨i, h1, h2, h3⟩ := sig_range hinj hA hB (Or.inl hs)
      exact ha i h1 h2 h3
    have hnb : a ∉ B.init := fun hs => by
      obtain ⟨i, h1, h2, h3⟩ := sig_range hinj hA hB (Or.inr (hB.wf.init a hs))
      exact ha i h1 h2 h3
    rw [heq, TA.concat2_right hss hw hB.wf hd hna, if_neg fun h => hnb h.2]
    exact sig_frame hinj hA hB ha
  · rw [heq, TA.concat2_clockSize hss hw hB.wf hd]
    exact max_le hA.clocks hB.clocks
  · intro s hs a e he
    rcases hstates s hs with hs | hs
    · rcases (hE1 s hs a e).1 he with he | ⟨e', _, q, _, _, i, _, rfl⟩
      · exact hA.nonnull s hs a e he
      · simp
    · rw [hE2 s hs] at he
      exact hB.nonnull s hs a e he
  · intro s hs a e he q hq
    rcases hstates s hs with hs | hs
    · rcases (hE1 s hs a e).1 he with he | ⟨e', he', q', hq', hm, i, hi, rfl⟩
      · exact hnil q (hA.wf.closed s hs a e he q hq) a (hA.norep s hs a e he q hq)
      · simp only [Option.some.injEq] at hq
        subst hq
        have hqs := hA.wf.closed s hs a e' he' q' hq'
        rw [hkeep q' hqs] at hm
        have := hl s hs a e' he' q' hq' hm
        subst this
        rw [hE2 i (hB.wf.init i hi)]
        exact (hf i hi).2 a hc
    · rw [hE2 s hs] at he
      rw [hE2 q (hB.wf.closed s hs a e he q hq)]
      exact hB.norep s hs a e he q hq
  · intro s hs a e he q hq
    rcases hstates s hs with hs | hs
    · rcases (hE1 s hs a e).1 he with he | ⟨e', he', q', hq', hm, i, hi, rfl⟩
      · exact hA.up s hs a e he q hq
      · simp only [Option.some.injEq] at hq
        subst hq
        obtain ⟨x, _, h2, h3⟩ := hA.range s hs
        obtain ⟨y, h4, _, h5⟩ := hB.range i (hB.wf.init i hi)
        exact ⟨x, y, by omega, h3, h5⟩
    · rw [hE2 s hs] at he
      exact hB.up s hs a e he q hq
  · intro s hs
    rcases hstates s hs with hs | hs
    · rw [heq, TA.concat2_left hss hw hB.wf hd hs]
      show (B.st s).zeroDuration = false
      rw [hkeep s hs]
      exact hA.zd s hs
    · rw [heq, TA.concat2_right hss hw hB.wf hd (fun h => hd s h hs)]
      split
      · rfl
      · exact hB.zd s hs
  · intro t0 w x hx hst h
    rw [heq, TA.accepts_concat2 hss hw hB.wf hd hn] at h
    obtain ⟨u, v, rfl, h1, h2⟩ := h
    obtain ⟨y, z, rfl, hy, hz⟩ := hx.split
    exact ⟨y, z, rfl, hA.sound _ _ _ hy (steps_append.1 hst).1 ((hlangA _ _).1 h1), hB.sound _ _ _ hz (steps_append.1 hst).2 h2⟩
  · rintro t0 x ⟨y, z, rfl, hy, hz⟩
    obtain ⟨u, h1, s1, h2⟩ := hA.complete t0 y hy
    obtain ⟨v, h3, s3, h4⟩ := hB.complete (endTime t0 u) z hz
    exact ⟨u ++ v, h1.append h3, steps_append.2 ⟨s1, s3⟩, by rw [heq, TA.accepts_concat2 hss hw hB.wf hd hn]; exact ⟨u, v, rfl, (hlangA _ _).2 h2, h4⟩⟩
  · intro s hs a e he q hq hm
    rcases hstates s hs with hs | hs
    · rcases (hE1 s hs a e).1 he with he | ⟨e', he', q', hq', _, i, hi, rfl⟩
      · rw [hM1 q (hA.wf.closed s hs a e he q hq)] at hm
        cases hm
      · simp only [Option.some.injEq] at hq
        subst hq
        rw [hM2 i (hB.wf.init i hi), (hf i hi).1] at hm
        cases hm
    · rw [hE2 s hs] at he
      rw [hM2 q (hB.wf.closed s hs a e he q hq)] at hm
      exact hl' s hs a e he q hq hm
  · intro i hi
    have hany : (A.init.any fun s => (B.st s).isMatch) = false := by
      rw [List.any_eq_false]
      intro s hs
      rw [hkeep s (hA.wf.init s hs), hni s hs]
      simp
    have : (A.concat2 B).init = A.init := by
      simp only [concat2, hany, Bool.false_eq_true, if_false]
    rw [this] at hi
    exact hM1 i (hA.wf.init i hi)

end two

theorem SigOk.congr {alloc : Nat → Nat} {heap : Nat → TAState Nat} {k k' : Nat} {A : TA Nat} {L M : Sig K → Prop} (h : SigOk alloc heap k k' A L)
    (hLM : ∀ x, L x ↔ M x) : SigOk alloc heap k k' A M := by
  have : L = M := funext fun x => propext (hLM x)
  exact this ▸ h

namespace TMem

open NTree

variable {cl : Bool} {m : TMem K} {alloc : Nat → Nat} (hinj : Function.Injective alloc) {heap : Nat → TAState Nat}
include hinj

theorem signal_sing {a : Nat} {c : Alphabet} {S : List (Interval K)} {F : Set Nat} (hr : Rep m (.atom a) (.sing c S) F) (hg : GT cl (.sing c S))
    (hn : Nice (.sing c S)) (fuel : Nat) (heap : Nat → TAState Nat) (k : Nat) :
    ∃ A k', m.signalAtom alloc (fuel + 1) heap k a = .ok (A, k') ∧ SigOk alloc heap k k' A (NTree.lang (.sing c S)) ∧ LastL A c ∧ FirstL A c := by
  obtain ⟨s0, a1, a2, _, _⟩ := hr.sing_inv
  obtain ⟨A, k', h1, h2⟩ := sigOk_sing hinj heap k hg.1 hg.2 hn
  refine ⟨A, k', ?_, h2⟩
  simp only [signalAtom, a1, a2, h1]

theorem signal_concat {fuel k0 : Nat} : ∀ (l : List Nat) (s : NTree K) (F : Set Nat), Rep m (.seq l) s F → GT cl s → Nice s → EachSing s → Alt s →
    ∀ (A : TA Nat) (k : Nat) (L : Sig K → Prop) (c : Alphabet), SigOk alloc heap k0 k A L → LastL A c → (∀ i ∈ A.init, (A.st i).isMatch = false) →
    headL s ≠ some c →
    ∃ A' k', concatSignal (m.signalAtom alloc (fuel + 1)) A k l = .ok (A', k') ∧
      SigOk alloc heap k0 k' A' (fun x => ∃ y z, x = y.app z ∧ L y ∧ seqL s z)
  | [], s, F, hr, _, _, _, _, A, k, L, c, hA, _, _, _ => by
    cases hr
    refine ⟨A, k, rfl, hA.congr fun x => ⟨fun h => ⟨x, Sig.nil, (Sig.app_nil x).symm, h, rfl⟩, ?_⟩⟩
    rintro ⟨y, z, rfl, hy, rfl⟩
    rwa [Sig.app_nil]
  | a :: l, s, F, hr, hg, hn, he, ha, A, k, L, c, hA, hl, hi, hc => by
    cases hr with
    | @cons _ _ t s _ F1 F2 h1 h2 hd ht hs =>
      obtain ⟨⟨c', S, rfl⟩, he⟩ := he
      obtain ⟨B, k1, e1, hB, l1, f1⟩ := signal_sing hinj ht hg.1 hn.1 fuel A.st k
      have hne : c ≠ c' := fun e => hc (by simp [headL, e])
      obtain ⟨i1, i2, i3⟩ := hA.concat hinj hB hne hl hi f1 l1
      obtain ⟨A', k', j1, j2⟩ := signal_concat (fuel := fuel) l s F2 hs hg.2 hn.2 he ha.2 (A.concat2 B) k1 _ c' i1 i2 i3 (ha.1 c' rfl)
      refine ⟨A', k', by simp only [concatSignal, e1, j1], j2.congr fun x => ⟨?_, ?_⟩⟩
      · rintro ⟨_, z, rfl, ⟨y, z', rfl, h, h'⟩, h''⟩
        exact ⟨y, z'.app z, Sig.app_assoc _ _ _, h, z', z, rfl, h', h''⟩
      · rintro ⟨y, _, rfl, h, z', z, rfl, h', h''⟩
        exact ⟨y.app z', z, (Sig.app_assoc _ _ _).symm, ⟨y, z', rfl, h, h'⟩, h''⟩

theorem signal_atom {a : Nat} {t : NTree K} {F : Set Nat} (hr : Rep m (.atom a) t F) (hg : GT cl t) (hn : Nice t) (hp : PlainT t) (hm : Merged t)
    (fuel : Nat) (heap : Nat → TAState Nat) (k : Nat) :
    ∃ A k', m.signalAtom alloc (fuel + 2) heap k a = .ok (A, k') ∧ SigOk alloc heap k k' A t.lang := by
  rcases hp with rfl | ⟨c, S, rfl⟩ | ⟨s, rfl, he⟩
  · refine ⟨_, _, ?_, sigOk_eps heap k⟩
    simp only [signalAtom, hr.eps_iff.2 rfl]
  · obtain ⟨A, k', h1, h2, _⟩ := signal_sing hinj hr hg hn (fuel + 1) heap k
    exact ⟨A, k', h1, h2⟩
  · cases hr with
    | @cat _ l _ _ G e ha hG hnm hr =>
      cases hr with
      | nil => exact absurd rfl hg.2.2
      | @cons b l t s _ F1 F2 h1 h2 hd ht hs =>
        obtain ⟨⟨c, S, rfl⟩, he⟩ := he
        obtain ⟨A, k1, e1, hA, l1, f1⟩ := signal_sing hinj ht hg.1.1 hn.1 fuel heap k
        obtain ⟨A', k', j1, j2⟩ := signal_concat (fuel := fuel) hinj l s F2 hs hg.1.2 hn.2 he hm.2 A k1 _ c hA l1 (fun i hi => (f1 i hi).1) (hm.1 c rfl)
        refine ⟨A', k', ?_, j2.congr fun x => Iff.rfl⟩
        simp only [signalAtom, e] at *
        simp only [e1, j1]

theorem signal_alt {fuel k0 : Nat} : ∀ (as : List Nat) (s : NTree K) (F : Set Nat), Rep m (.seq as) s F → GT cl s → Nice s → EachPlain s → MergedL s →
    ∀ (A : TA Nat) (k : Nat) (L : Sig K → Prop), SigOk alloc heap k0 k A L →
    ∃ A' k', altSignal (m.signalAtom alloc (fuel + 2)) A k (as.map fun x => [x]) = .ok (A', k') ∧ SigOk alloc heap k0 k' A' (fun x => L x ∨ altL s x)
  | [], s, F, hr, _, _, _, _, A, k, L, hA => by
    cases hr
    exact ⟨A, k, rfl, hA.congr fun x => ⟨.inl, fun h => h.elim id fun h => h.elim⟩⟩
  | a :: as, s, F, hr, hg, hn, hp, hm, A, k, L, hA => by
    cases hr with
    | @cons _ _ t s _ F1 F2 h1 h2 hd ht hs =>
      obtain ⟨B, k1, e1, hB⟩ := signal_atom hinj ht hg.1 hn.1 hp.1 hm.1 fuel A.st k
      obtain ⟨A', k', j1, j2⟩ := signal_alt (fuel := fuel) as s F2 hs hg.2 hn.2 hp.2 hm.2 (A.disjTA B) k1 _ (hA.disj hinj hB)
      refine ⟨A', k', ?_, j2.congr fun x => or_assoc⟩
      simp only [List.map_cons, altSignal, e1, j1]

end TMem

/-- `renameToEpsilonTransitions` changes nothing. -/
theorem renameEps_ok {alloc : Nat → Nat} {heap : Nat → TAState Nat} {k k' : Nat} {A : TA Nat} {L : Sig K → Prop} (h : SigOk alloc heap k k' A L) :
    A.renameEps = .ok A := by
  have h0 : ∀ s ∈ A.states, ∀ p ∈ (A.st s).next, ∀ e ∈ p.2, A.repeats p.1 e = false := by
    intro s hs p hp e he
    have hE := h.wf.mem_edges hs hp he
    unfold repeats
    split
    · rfl
    · next q hq =>
      rw [Bool.eq_false_iff]
      intro h'
      have hn := h.norep s hs p.1 e hE q hq
      have hqs := h.wf.closed s hs p.1 e hE q hq
      rw [Bool.and_eq_true] at h'
      obtain ⟨l, hl⟩ := Option.isSome_iff_exists.1 h'.2
      have hl' : l = [] := by
        have : A.edges q p.1 = l := by simp [edges, Next.at', hl]
        rw [← this, hn]
      simp only [Next.find, Option.map_eq_some_iff] at hl
      obtain ⟨p', hp', rfl⟩ := hl
      exact h.wf.ne q hqs p' (List.mem_of_find?_eq_some hp') hl'
  have h1 : A.repeatsAcc = false := by
    rw [repeatsAcc, List.any_eq_false]
    intro s hs h'
    obtain ⟨p, hp, h'⟩ := List.any_eq_true.1 h'
    obtain ⟨e, he, h'⟩ := List.any_eq_true.1 h'
    rw [h0 s hs p hp e he] at h'
    simp at h'
  simp only [renameEps, h1, Bool.false_eq_true, if_false, Except.ok.injEq]
  have : ∀ a, (A.mapSt A.states fun s => { s with next := A.epsNext s.next }).st a = A.st a := by
    intro a
    simp only [mapSt]
    split
    · next ha =>
      have : A.epsNext (A.st a).next = (A.st a).next := by
        have e1 : ((A.st a).next.flatMap fun p => p.2.filter (A.repeats p.1)) = [] := by
          rw [List.flatMap_eq_nil_iff]
          intro p hp
          rw [List.filter_eq_nil_iff]
          intro e he
          rw [h0 a ha p hp e he]
          simp
        rw [epsNext, e1, List.foldl_nil]
        conv_rhs => rw [← List.map_id (A.st a).next]
        refine List.map_congr_left fun p hp => ?_
        have : p.2.filter (fun e => e.target.isSome && !A.repeats p.1 e) = p.2 := by
          rw [List.filter_eq_self]
          intro e he
          rw [h0 a ha p hp e he, Option.isSome_iff_ne_none.2 (h.nonnull a ha p.1 e (h.wf.mem_edges ha hp he))]
          rfl
        rw [this]
        rfl
      simp only [this]
    · rfl
  have hst := funext this
  cases A
  simp only [mapSt, TA.mk.injEq, true_and, and_true] at *
  exact hst

end Verif
