import Verif.Lemmas.TRELate
import Verif.Lemmas.TREFront

/-!
# Automata of expressions with time restrictions of the whole match
-/

namespace Verif

namespace TA

/-- `OneWindow` for the states of `A`. -/
def WinTA (n : Nat) (A : TA Nat) : Prop :=
  ∀ s ∈ A.states, ∀ a, a ≠ dollar → ∀ t ∈ A.edges s a, t.resets = [] ∧
    (∀ g ∈ t.guard, (g.IsUpper → (n : Int) + 1 ≤ g.c) ∧ (¬ g.IsUpper → g.c ≤ n)) ∧
    (n = 0 ∨ t.guard = [] ∨ ∀ q, t.target = some q → ∀ b, ∀ e' ∈ A.edges q b, b = dollar)

theorem Wf.noClocks {A : TA Nat} (hw : A.Wf) (hc : A.clockSize = 0) {s : Nat} (hs : s ∈ A.states) {a : Alphabet} {t : Transition Nat}
    (ht : t ∈ A.edges s a) : t.guard = [] ∧ t.resets = [] := by
  constructor
  · refine List.eq_nil_iff_forall_not_mem.2 fun g hg => ?_
    have := hw.guards s hs a t ht g hg
    omega
  · refine List.eq_nil_iff_forall_not_mem.2 fun x hx => ?_
    have := hw.resets s hs a t ht x hx
    omega

theorem WinTA.of_noClocks {A : TA Nat} (n : Nat) (hw : A.Wf) (hc : A.clockSize = 0) : A.WinTA n := by
  intro s hs a _ t ht
  obtain ⟨h1, h2⟩ := hw.noClocks hc hs ht
  exact ⟨h2, by simp [h1], .inr (.inl h1)⟩

theorem WinTA.finish {n : Nat} {A : TA Nat} (hw : A.Wf) (hwf : A.finish.Wf) (h : A.WinTA n) : A.finish.WinTA n := by
  obtain ⟨-, hf⟩ := finish_from hw
  intro s hs a ha t ht
  obtain ⟨hs', hfs⟩ := hf s hs
  obtain ⟨t', ht', h1, h2, htt⟩ := hfs a t ht
  obtain ⟨g1, g2, g3⟩ := h s hs' a ha t' ht'
  rw [h1, h2]
  refine ⟨g1, g2, ?_⟩
  rcases g3 with g3 | g3 | g3
  · exact .inl g3
  · exact .inr (.inl g3)
  · refine .inr (.inr fun q hq b e' he' => ?_)
    have hqs := hwf.closed s hs a t ht q hq
    rw [hq, eq_comm, Option.map_eq_some_iff] at htt
    obtain ⟨q', hq', rfl⟩ := htt
    obtain ⟨e, he, -⟩ := (hf _ hqs).2 b e' he'
    have : q' ∉ A.terminals := fun h => not_terminal he (rep_mem h)
    rw [rep, if_neg this] at he
    exact g3 q' hq' b e he

section two
variable {L R : TA Nat} (hst : L.st = R.st) (hL : L.Wf) (hR : R.Wf) (hd : ∀ s ∈ L.states, s ∉ R.states)
include hst hL hR hd

theorem WinTA.concat {n : Nat} (hc : R.clockSize = 0) (h1 : L.WinTA n)
    (hn : n = 0 ∨ L.clockSize = 0 ∨ ∀ s ∈ R.init, ∀ b, ∀ e ∈ R.edges s b, b = dollar) : (L.concat2 R).WinTA n := by
  intro s hs a ha t ht
  by_cases hsL : s ∈ L.states
  · have key : ∀ e ∈ L.edges s a, n = 0 ∨ e.guard = [] ∨ (∀ i ∈ R.init, ∀ b, ∀ e ∈ R.edges i b, b = dollar) := by
      intro e he
      rcases hn with h | h | h
      · exact .inl h
      · exact .inr (.inl (hL.noClocks h hsL he).1)
      · exact .inr (.inr h)
    rw [concat2_edges_left hst hL hR hd hsL, mem_concatEdges hst hL hR hd] at ht
    rcases ht with ht | ⟨e', he', q', hq', -, i, hi, rfl⟩
    · obtain ⟨g1, g2, g3⟩ := h1 s hsL a ha t ht
      refine ⟨g1, g2, ?_⟩
      rcases g3 with g3 | g3 | g3
      · exact .inl g3
      · exact .inr (.inl g3)
      · refine .inr (.inr fun q hq b e' he' => ?_)
        have hqL := hL.closed s hsL a t ht q hq
        rw [concat2_edges_left hst hL hR hd hqL, mem_concatEdges hst hL hR hd] at he'
        rcases he' with he' | ⟨e', he', -⟩
        · exact g3 q hq b _ he'
        · exact g3 q hq b _ he'
    · obtain ⟨g1, g2, g3⟩ := h1 s hsL a ha e' he'
      refine ⟨by simp only [hc]; rfl, g2, ?_⟩
      rcases key e' he' with h | h | h
      · exact .inl h
      · exact .inr (.inl h)
      · refine .inr (.inr fun q hq b e hqe => ?_)
        cases hq
        rw [concat2_edges_right hst hL hR hd fun h => hd i h (hR.init i hi)] at hqe
        exact h i hi b e hqe
  · have hsR : s ∈ R.states := (List.mem_append.1 hs).resolve_left hsL
    rw [concat2_edges_right hst hL hR hd hsL] at ht
    obtain ⟨k1, k2⟩ := hR.noClocks hc hsR ht
    exact ⟨k2, by simp [k1], .inr (.inl k1)⟩

theorem WinTA.disj {n : Nat} (h1 : L.WinTA n) (h2 : R.WinTA n) : (L.disjTA R).WinTA n := by
  intro s hs a ha t ht
  have ht' : t ∈ (R.st s).next.at' a := ht
  by_cases hsL : s ∈ L.states
  · rw [← hst] at ht'
    obtain ⟨g1, g2, g3⟩ := h1 s hsL a ha t ht'
    refine ⟨g1, g2, g3.imp id (Or.imp id fun g3 q hq b e he => ?_)⟩
    have he' : e ∈ (R.st q).next.at' b := he
    rw [← hst] at he'
    exact g3 q hq b e he'
  · have hsR : s ∈ R.states := (List.mem_append.1 hs).resolve_left hsL
    exact h2 s hsR a ha t ht'

end two

theorem WinTA.congr {n : Nat} {A : TA Nat} (hw : A.Wf) (h : A.WinTA n) {st : Nat → TAState Nat} (hst : ∀ s ∈ A.states, st s = A.st s) :
    ({ A with st := st } : TA Nat).WinTA n := by
  intro s hs a ha t ht
  simp only [edges, hst s hs] at ht
  obtain ⟨g1, g2, g3⟩ := h s hs a ha t ht
  refine ⟨g1, g2, g3.imp id (Or.imp id fun g3 q hq b e he => ?_)⟩
  simp only [edges, hst q (hw.closed s hs a t ht q hq)] at he
  exact g3 q hq b e he

theorem WinTA.restrict {n : Nat} {A : TA Nat} (hw : A.Wf) (h : A.WinTA n) {gs : List Constraint} (u : Int)
    (hg : ∀ g ∈ gs, (g.IsUpper → (n : Int) + 1 ≤ g.c) ∧ (¬ g.IsUpper → g.c ≤ n)) : (A.restrictTA gs u).WinTA n := by
  intro s (hs : s ∈ A.states) a ha t ht
  rw [restrict_edges _ hs] at ht
  obtain ⟨t', ht', rfl⟩ := List.mem_map.1 ht
  obtain ⟨g1, g2, g3⟩ := h s hs a ha t' ht'
  split
  · rename_i hacc
    refine ⟨g1, fun g hg' => ?_, .inr (.inr fun q hq b e he => ?_)⟩
    · rcases List.mem_append.1 hg' with h | h
      · exact g2 g h
      · exact hg g h
    · have hq' : t'.target = some q := hq
      have hqs := hw.closed s hs a t' ht' q hq'
      simp only [isAcc, hq'] at hacc
      rw [restrict_edges _ hqs, edges_nil (hw.term q hqs hacc)] at he
      cases he
  · refine ⟨g1, g2, g3.imp id (Or.imp id fun g3 q hq b e he => ?_)⟩
    rw [restrict_edges _ (hw.closed s hs a t' ht' q hq)] at he
    obtain ⟨e', he', -⟩ := List.mem_map.1 he
    exact g3 q hq b e' he'

end TA

variable {K : Type} [Field K] [LinearOrder K] [IsStrictOrderedRing K] [FloorRing K]

/-- The ends of a restriction which holds for all times between `n` and `n + 1`. -/
theorem Interval.window_ends {I : Interval K} {n : Nat} {l u : Int} {ls us : Bool} (hl : I.lower = .fin (l : K) ls)
    (hu : I.upper = .fin (u : K) us) (h : ∀ x : K, (n : K) < x → x < n + 1 → I.Mem x) : l ≤ n ∧ (n : Int) + 1 ≤ u := by
  obtain ⟨h1, h2⟩ := h ((n : K) + 1 / 2) (by linarith) (by linarith)
  have h1' : (l : K) ≤ n + 1 / 2 := by
    rw [hl] at h1
    cases ls <;> simp only [Above] at h1
    · exact h1.le
    · exact h1
  have h2' : (n : K) + 1 / 2 ≤ u := by
    rw [hu] at h2
    cases us <;> simp only [Bnd.sat] at h2
    · exact h2.le
    · exact h2
  constructor
  · have : (l : K) < ((n : Int) + 1 : Int) := by push_cast; linarith
    have := Int.cast_lt.1 this
    omega
  · have : (((n : Int) : Int) : K) < (u : K) := by push_cast; linarith
    have := Int.cast_lt.1 this
    omega

theorem TRE.toEventTA_window {alloc : Nat → Nat} (hinj : Function.Injective alloc) (e : TRE K) (he : e.Plain) (hε : e.EpsilonFree)
    (n : Nat) (hp : e.Window n) (heap : Nat → TAState Nat) (k : Nat) :
    ∃ A k', e.toEventTA alloc heap k = .ok (A, k') ∧ TransOk alloc heap k k' e A ∧ A.WinTA n := by
  induction e generalizing heap k with
  | atom c =>
    obtain ⟨A, k', h, hA, -⟩ := TRE.toEventTA_front hinj (.atom c) he hε heap k
    exact ⟨A, k', h, hA, .of_noClocks n hA.wf hA.clocks⟩
  | epsilon => exact hε.elim
  | plus e ih =>
    obtain ⟨A, k', h, hA, -⟩ := TRE.toEventTA_front hinj (.plus e) he hε heap k
    exact ⟨A, k', h, hA, .of_noClocks n hA.wf (hA.clocks.trans hp)⟩
  | concat e f ih1 ih2 =>
    obtain ⟨A, k1, h1, hA, wA⟩ := ih1 he.1 hε.1 hp.1 heap k
    obtain ⟨B, k2, h2, hB, -⟩ := TRE.toEventTA_front hinj f he.2 hε.2 A.st k1
    have hkeep := two_keep hinj hA hB
    have hd := two_disjoint hinj hA hB
    have hw := two_wf hinj hA hB
    have hss : ({ A with st := B.st } : TA Nat).st = B.st := rfl
    have heq : A.concat2 B = ({ A with st := B.st } : TA Nat).concat2 B := rfl
    have hn : B.clockSize ≤ 256 := by rw [hB.clocks]; exact he.2.clocks
    have hok := TransOk.concat hinj hA hB he.1 he.2
    refine ⟨_, _, by simp only [toEventTA, h1, bind, Except.bind, h2]; rfl, hok, ?_⟩
    refine TA.WinTA.finish (by rw [heq]; exact TA.concat2_wf hss hw hB.wf hd hn) hok.wf ?_
    rw [heq]
    refine TA.WinTA.concat hss hw hB.wf hd (hB.clocks.trans hp.2.1) (wA.congr hA.wf hkeep) (hp.2.2.imp id fun h => .inl ?_)
    exact hA.clocks.trans h
  | disj e f ih1 ih2 =>
    obtain ⟨A, k1, h1, hA, wA⟩ := ih1 he.1 hε.1 hp.1 heap k
    obtain ⟨B, k2, h2, hB, wB⟩ := ih2 he.2 hε.2 hp.2 A.st k1
    have hkeep := two_keep hinj hA hB
    have hd := two_disjoint hinj hA hB
    have hw := two_wf hinj hA hB
    have hss : ({ A with st := B.st } : TA Nat).st = B.st := rfl
    have heq : A.disjTA B = ({ A with st := B.st } : TA Nat).disjTA B := rfl
    have hok := TransOk.disj hinj hA hB
    refine ⟨_, _, by simp only [toEventTA, h1, bind, Except.bind, h2]; rfl, hok, ?_⟩
    refine TA.WinTA.finish (by rw [heq]; exact TA.disj_wf hss hw hB.wf hd) hok.wf ?_
    rw [heq]
    exact TA.WinTA.disj hss hw hB.wf hd (wA.congr hA.wf hkeep) wB
  | conj e f ih1 ih2 =>
    obtain ⟨A, k', h, hA, -⟩ := TRE.toEventTA_front hinj (.conj e f) he hε heap k
    refine ⟨A, k', h, hA, .of_noClocks n hA.wf (hA.clocks.trans ?_)⟩
    simp only [TRE.clocks, hp.1, hp.2]
  | within e I ih =>
    obtain ⟨A, k1, h1, hA, wA⟩ := ih he.1 hε hp.1 heap k
    obtain ⟨B, h2, hB⟩ := hA.within he
    refine ⟨_, _, by simp only [toEventTA, h1, bind, Except.bind, h2]; rfl, hB, ?_⟩
    obtain ⟨_, hn, ⟨l, ls, hl⟩, ⟨u, us, hu⟩⟩ := he
    have hn' : A.clockSize < 256 := by rw [hA.clocks]; exact hn
    have := TA.within_eq hA.wf hl hu
    rw [h2] at this
    cases this
    obtain ⟨e1, e2⟩ := Interval.window_ends hl hu hp.2
    refine TA.WinTA.finish (TA.restrict_wf hA.wf _ ?_) hB.wf (TA.WinTA.restrict hA.wf wA u ?_)
    · intro c hc
      simp only [TA.withinGuard, List.mem_cons, List.not_mem_nil, or_false] at hc
      rcases hc with rfl | rfl <;> simp [Nat.mod_eq_of_lt hn']
    · intro g hg
      simp only [TA.withinGuard, List.mem_cons, List.not_mem_nil, or_false] at hg
      rcases hg with rfl | rfl
      · cases us <;> simp [Constraint.IsUpper] <;> omega
      · cases ls <;> simp [Constraint.IsUpper] <;> omega

/-- The automaton of a letter has only transitions with the letter. -/
theorem TA.atom_labels {alloc : Nat → Nat} (hinj : Function.Injective alloc) (heap : Nat → TAState Nat) (k : Nat) {c : Alphabet}
    (hc : c ≠ epsilon) : ∀ s ∈ (TA.atomTA alloc k heap c).finish.states, ∀ b, ∀ e ∈ (TA.atomTA alloc k heap c).finish.edges s b, b = c := by
  intro s hs b e he
  have hne : alloc (k + 1) ≠ alloc k := fun h => by have := hinj h; omega
  obtain ⟨hs', hf⟩ := (TA.finish_from (TA.atomTA_wf hinj heap k hc)).2 s hs
  obtain ⟨t, ht, -⟩ := hf b e he
  simp only [TA.atomTA, List.mem_cons, List.not_mem_nil, or_false] at hs'
  rcases hs' with rfl | rfl
  · simp only [TA.edges, TA.atomTA, if_true, Next.at'_cons, Next.at'_nil] at ht
    split at ht
    · rename_i h
      exact h.symm
    · simp at ht
  · simp only [TA.edges, TA.atomTA, if_true, if_neg hne, Next.at'_nil] at ht
    cases ht

theorem TRE.toEventTA_windowed {alloc : Nat → Nat} (hinj : Function.Injective alloc) (e : TRE K) (he : e.Plain) (hε : e.EpsilonFree)
    (hp : e.Windowed) (heap : Nat → TAState Nat) (k : Nat) :
    ∃ n A k', e.toEventTA alloc heap k = .ok (A, k') ∧ TransOk alloc heap k k' e A ∧ A.WinTA n := by
  cases e with
  | concat e f =>
    cases f with
    | atom c =>
      obtain ⟨rfl, n, hp⟩ := hp
      obtain ⟨A, k1, h1, hA, wA⟩ := TRE.toEventTA_window hinj e he.1 hε.1 n hp heap k
      have hB := TransOk.atom (K := K) hinj A.st k1 he.2
      set B := (TA.atomTA alloc k1 A.st dollar).finish with hBdef
      have h2 : (TRE.atom dollar : TRE K).toEventTA alloc A.st k1 = .ok (B, k1 + 2) := rfl
      have hkeep := two_keep hinj hA hB
      have hd := two_disjoint hinj hA hB
      have hw := two_wf hinj hA hB
      have hss : ({ A with st := B.st } : TA Nat).st = B.st := rfl
      have heq : A.concat2 B = ({ A with st := B.st } : TA Nat).concat2 B := rfl
      have hn : B.clockSize ≤ 256 := by rw [hB.clocks]; exact he.2.clocks
      have hok := TransOk.concat hinj hA hB he.1 he.2
      refine ⟨n, _, _, by rw [toEventTA]; simp only [h1, bind, Except.bind, h2]; rfl, hok, ?_⟩
      refine TA.WinTA.finish (by rw [heq]; exact TA.concat2_wf hss hw hB.wf hd hn) hok.wf ?_
      rw [heq]
      refine TA.WinTA.concat hss hw hB.wf hd hB.clocks (wA.congr hA.wf hkeep) (.inr (.inr fun s hs => ?_))
      exact TA.atom_labels hinj A.st k1 he.2 s (hB.wf.init s hs)
    | _ => exact hp.elim
  | _ => exact hp.elim

end Verif
