import Verif.Lemmas.TRE
import Verif.Lemmas.IntersectionSignal
import Verif.Spec.Consts

/-!
# Maximal constants of translated expressions and of products
-/

set_option linter.unusedSectionVars false

namespace Verif

theorem maxVec_getD (xs ys : List Int) (i : Nat) : (maxVec xs ys).getD i 0 = max (xs.getD i 0) (ys.getD i 0) := by
  induction xs generalizing ys i with
  | nil =>
    simp only [maxVec, List.getD_nil]
    induction ys generalizing i with
    | nil => simp
    | cons y ys ih =>
      cases i with
      | zero => simp
      | succ i => simpa using ih i
  | cons x xs ih =>
    cases ys with
    | nil =>
      cases i with
      | zero => simp [maxVec]
      | succ i => simpa [maxVec] using ih [] i
    | cons y ys =>
      cases i with
      | zero => simp [maxVec]
      | succ i => simpa [maxVec] using ih ys i

theorem getD_append_left (xs ys : List Int) {i : Nat} (h : i < xs.length) : (xs ++ ys).getD i 0 = xs.getD i 0 := by
  rw [List.getD_eq_getElem?_getD, List.getElem?_append_left h, ← List.getD_eq_getElem?_getD]

theorem getD_append_right (xs ys : List Int) (i : Nat) : (xs ++ ys).getD (xs.length + i) 0 = ys.getD i 0 := by
  rw [List.getD_eq_getElem?_getD, List.getElem?_append_right (by omega), Nat.add_sub_cancel_left, ← List.getD_eq_getElem?_getD]

namespace TA

theorem ConstsCovered.finish {A : TA Nat} (hw : A.Wf) (h : A.ConstsCovered) : A.finish.ConstsCovered := by
  obtain ⟨hk, -⟩ := finish_spec hw
  intro s hs a t ht g hg
  obtain ⟨t', ht', hgt⟩ := hk.guard s hs a t ht
  rw [hk.maxC]
  exact h s (hk.sub s hs) a t' ht' g (hgt ▸ hg)

theorem ConstsCovered.plus {A : TA Nat} (h : A.ConstsCovered) : A.plusTA.ConstsCovered := by
  intro s (hs : s ∈ A.states) a t ht
  rw [plus_edges hs, mem_plusEdges] at ht
  rcases ht with ht | ⟨e', he', q', _, _, _, i, hi, _, rfl⟩
  · exact h s hs a t ht
  · exact h s hs a e' he'

theorem ConstsCovered.restrict {A : TA Nat} (hw : A.Wf) (h : A.ConstsCovered) (hn : A.clockSize < 256) {l u : Int} (hlu : l ≤ u)
    (us ls : Bool) : (A.restrictTA (withinGuard A.clockSize u l us ls) u).ConstsCovered := by
  intro s (hs : s ∈ A.states) a t ht g hg
  rw [restrict_edges _ hs] at ht
  obtain ⟨t', ht', rfl⟩ := List.mem_map.1 ht
  show g.c ≤ (A.maxC ++ [u]).getD g.x 0
  have hold : ∀ g ∈ t'.guard, g.c ≤ (A.maxC ++ [u]).getD g.x 0 := by
    intro g hg
    rw [getD_append_left _ _ (hw.guards s hs a t' ht' g hg)]
    exact h s hs a t' ht' g hg
  split at hg
  · rcases List.mem_append.1 hg with hg | hg
    · exact hold g hg
    · have hlast : (A.maxC ++ [u]).getD A.clockSize 0 = u := getD_append_right A.maxC [u] 0
      simp only [withinGuard, List.mem_cons, List.not_mem_nil, or_false] at hg
      rcases hg with rfl | rfl
      · simp only [Nat.mod_eq_of_lt hn, hlast, le_refl]
      · simp only [Nat.mod_eq_of_lt hn, hlast]; exact hlu
  · exact hold g hg

/-- The guards of a transition of a product. -/
theorem product_covered {m1 m2 : List Int} (hn : m1.length + m2.length ≤ 256) {S T : Type} {t : Option (S × T)} {r1 r2 : List Nat}
    {g1 g2 : List Constraint} (h1 : ∀ g ∈ g1, g.x < m1.length ∧ g.c ≤ m1.getD g.x 0)
    (h2 : ∀ g ∈ g2, g.x < m2.length ∧ g.c ≤ m2.getD g.x 0) :
    ∀ g ∈ (productTransition m1.length t r1 g1 r2 g2).guard, g.c ≤ (m1 ++ m2).getD g.x 0 := by
  intro g hg
  simp only [productTransition, List.mem_append, List.mem_map] at hg
  rcases hg with hg | ⟨g', hg', rfl⟩
  · rw [getD_append_left _ _ (h1 g hg).1]
    exact (h1 g hg).2
  · simp only [shiftClock_eq hn (h2 g' hg').1]
    rw [Nat.add_comm, getD_append_right]
    exact (h2 g' hg').2

section product
variable {S T : Type} [DecidableEq S] [DecidableEq T] {A : TA S} {B : TA T}

theorem productStates_mem {l1 : List S} {l2 : List T} {p : S × T} (h : p ∈ productStates A B l1 l2) : p.1 ∈ l1 ∧ p.2 ∈ l2 := by
  simp only [productStates, List.mem_flatMap] at h
  obtain ⟨s1, h1, s2, h2, h⟩ := h
  split at h
  · rw [List.mem_singleton.1 h]; exact ⟨h1, h2⟩
  · cases h

theorem ConstsCovered.intersection (hA : A.MapOk) (hcA : A.ClocksDeclared) (hcB : B.ClocksDeclared)
    (hn : A.clockSize + B.clockSize ≤ 256) (h1 : A.ConstsCovered) (h2 : B.ConstsCovered) : (A.intersection B).ConstsCovered := by
  rintro ⟨s1, s2⟩ hs a e he
  obtain ⟨m1, m2⟩ := productStates_mem hs
  have e1' : ∀ a, ∀ e ∈ A.edges s1 a, ∀ g ∈ e.guard, g.x < A.maxC.length ∧ g.c ≤ A.maxC.getD g.x 0 :=
    fun a e he g hg => ⟨(hcA s1 a e he).1 g hg, h1 s1 m1 a e he g hg⟩
  have e2' : ∀ a, ∀ e ∈ B.edges s2 a, ∀ g ∈ e.guard, g.x < B.maxC.length ∧ g.c ≤ B.maxC.getD g.x 0 :=
    fun a e he g hg => ⟨(hcB s2 a e he).1 g hg, h2 s2 m2 a e he g hg⟩
  obtain ⟨_, he⟩ := (mem_edges_intersection hA).1 he
  rcases he with ⟨_, e1, he1, q1, _, rfl⟩ | ⟨_, e2, he2, q2, _, rfl⟩ | ⟨e1, he1, e2, he2, q1, q2, _, _, rfl⟩
  · exact product_covered hn (e1' _ _ he1) (by simp)
  · exact product_covered hn (by simp) (e2' _ _ he2)
  · exact product_covered hn (e1' _ _ he1) (e2' _ _ he2)

theorem signalEdge_cases {s1 : S} {s2 : T} {c : Alphabet} {e : Transition (S × T)} (hA : A.MapOk)
    (h : e ∈ (A.intersectionSignal B).edges (s1, s2) c) :
    (∃ a, ∃ e1 ∈ A.edges s1 a, ∃ e2 ∈ B.edges s2 a, ∃ q, e = productTransition A.clockSize (toIState A B q) e1.resets e1.guard e2.resets e2.guard) ∨
    (∃ a, ∃ e1 ∈ A.edges s1 a, ∃ q, e = productTransition A.clockSize (toIState A B q) e1.resets e1.guard [] []) ∨
    ∃ a, ∃ e2 ∈ B.edges s2 a, ∃ q, e = productTransition A.clockSize (toIState A B q) [] [] e2.resets e2.guard := by
  obtain ⟨_, h⟩ := mem_edges_intersectionSignal.1 h
  rcases h with ⟨_, e1, he1, q1, _, rfl⟩ | ⟨_, e2, he2, q2, _, rfl⟩ | ⟨⟨a, l⟩, hp, h⟩
  · exact .inr (.inl ⟨_, e1, he1, _, rfl⟩)
  · exact .inr (.inr ⟨_, e2, he2, _, rfl⟩)
  · obtain ⟨_, h⟩ := mem_signalPushes.1 h
    have hl : ∀ e1 ∈ l, e1 ∈ A.edges s1 a := by
      intro e1 he1
      have hmem : (a, l) ∈ (A.st s1).next := by
        unfold Next.touch at hp
        split at hp
        · exact hp
        · rcases List.mem_append.1 hp with hp | hp
          · exact hp
          · simp only [List.mem_singleton, Prod.mk.injEq] at hp
            rw [hp.2] at he1
            cases he1
      rw [edges, Next.at'_of_mem (hA s1) hmem]
      exact he1
    rcases h with ⟨_, e1, he1, e2, he2, q1, q2, _, _, rfl⟩ | ⟨_, e1, he1, q1, _, rfl⟩ | ⟨_, e2, he2, q2, _, rfl⟩
    · exact .inl ⟨_, e1, hl e1 he1, e2, he2, _, rfl⟩
    · exact .inr (.inl ⟨_, e1, hl e1 he1, _, rfl⟩)
    · exact .inr (.inr ⟨_, e2, he2, _, rfl⟩)

theorem ConstsCovered.intersectionSignal (hA : A.MapOk) (hcA : A.ClocksDeclared) (hcB : B.ClocksDeclared)
    (hn : A.clockSize + B.clockSize ≤ 256) (h1 : A.ConstsCovered) (h2 : B.ConstsCovered) : (A.intersectionSignal B).ConstsCovered := by
  rintro ⟨s1, s2⟩ hs a e he
  obtain ⟨m1, m2⟩ := productStates_mem hs
  have e1' : ∀ a, ∀ e ∈ A.edges s1 a, ∀ g ∈ e.guard, g.x < A.maxC.length ∧ g.c ≤ A.maxC.getD g.x 0 :=
    fun a e he g hg => ⟨(hcA s1 a e he).1 g hg, h1 s1 m1 a e he g hg⟩
  have e2' : ∀ a, ∀ e ∈ B.edges s2 a, ∀ g ∈ e.guard, g.x < B.maxC.length ∧ g.c ≤ B.maxC.getD g.x 0 :=
    fun a e he g hg => ⟨(hcB s2 a e he).1 g hg, h2 s2 m2 a e he g hg⟩
  rcases signalEdge_cases hA he with ⟨a, e1, he1, e2, he2, q, rfl⟩ | ⟨a, e1, he1, q, rfl⟩ | ⟨a, e2, he2, q, rfl⟩
  · exact product_covered hn (e1' _ _ he1) (e2' _ _ he2)
  · exact product_covered hn (e1' _ _ he1) (by simp)
  · exact product_covered hn (by simp) (e2' _ _ he2)

end product

end TA

section two
variable {K : Type} [Field K] [LinearOrder K] [IsStrictOrderedRing K] [FloorRing K]
variable {alloc : Nat → Nat} (hinj : Function.Injective alloc) {heap : Nat → TAState Nat} {k k1 k2 : Nat} {e f : TRE K} {A B : TA Nat}
  (hA : TransOk alloc heap k k1 e A) (hB : TransOk alloc A.st k1 k2 f B) (cA : A.ConstsCovered) (cB : B.ConstsCovered)
include hinj hA hB cA cB

theorem covered_concat : (A.concat2 B).ConstsCovered := by
  have hkeep := two_keep hinj hA hB
  have hd := two_disjoint hinj hA hB
  have hw := two_wf hinj hA hB
  have hss : ({ A with st := B.st } : TA Nat).st = B.st := rfl
  have heq : A.concat2 B = ({ A with st := B.st } : TA Nat).concat2 B := rfl
  have hstates : ∀ s, s ∈ (A.concat2 B).states → s ∈ A.states ∨ s ∈ B.states := fun s hs => List.mem_append.1 hs
  intro s hs a t ht g hg
  have hm : (A.concat2 B).maxC.getD g.x 0 = max (A.maxC.getD g.x 0) (B.maxC.getD g.x 0) := maxVec_getD _ _ _
  rw [hm]
  rcases hstates s hs with hs | hs
  · rw [heq, TA.concat2_edges_left hss hw hB.wf hd hs, TA.mem_concatEdges hss hw hB.wf hd] at ht
    have : ∀ t ∈ ({ A with st := B.st } : TA Nat).edges s a, ∀ g ∈ t.guard, g.c ≤ A.maxC.getD g.x 0 := by
      intro t ht
      simp only [TA.edges, hkeep s hs] at ht
      exact cA s hs a t ht
    rcases ht with ht | ⟨e', he', q', _, _, i, hi, rfl⟩
    · exact le_max_of_le_left (this t ht g hg)
    · exact le_max_of_le_left (this e' he' g hg)
  · rw [heq, TA.concat2_edges_right hss hw hB.wf hd (fun h => hd s h hs)] at ht
    exact le_max_of_le_right (cB s hs a t ht g hg)

theorem covered_disj : (A.disjTA B).ConstsCovered := by
  have hkeep := two_keep hinj hA hB
  intro s hs a t ht g hg
  have hm : (A.disjTA B).maxC.getD g.x 0 = max (A.maxC.getD g.x 0) (B.maxC.getD g.x 0) := maxVec_getD _ _ _
  rw [hm]
  rcases List.mem_append.1 hs with hs | hs
  · have : t ∈ A.edges s a := by
      have h2 : t ∈ (B.st s).next.at' a := ht
      rw [hkeep s hs] at h2
      exact h2
    exact le_max_of_le_left (cA s hs a t this g hg)
  · exact le_max_of_le_right (cB s hs a t ht g hg)

theorem covered_conj (hn : e.clocks + f.clocks ≤ 256) : (A.conjTA alloc k2 B).1.ConstsCovered := by
  have hkeep := two_keep hinj hA hB
  have hw := two_wf hinj hA hB
  set L : TA Nat := { A with st := B.st } with hLdef
  have hn' : L.maxC.length + B.maxC.length ≤ 256 := by
    have h1 : L.maxC.length = e.clocks := hA.clocks
    have h2 : B.maxC.length = f.clocks := hB.clocks
    omega
  have heq : (A.conjTA alloc k2 B).1 = (L.intersection B).place alloc k2 B.st := rfl
  rw [heq]
  intro s hs a t ht
  obtain ⟨⟨s1, s2⟩, hp, rfl⟩ := List.mem_map.1 hs
  rw [TA.place_edges hinj hp] at ht
  obtain ⟨t', ht', rfl⟩ := List.mem_map.1 ht
  obtain ⟨e1, he1, e2, he2, q1, q2, hq1, hq2, rfl⟩ := (TA.mem_conj_edges hw hB.wf hp).1 ht'
  have hs1 := (TA.mem_product.1 hp).1
  have hs2 := (TA.mem_product.1 hp).2.1
  have he1' : e1 ∈ (B.st s1).next.at' a := he1
  rw [hkeep s1 hs1] at he1'
  exact TA.product_covered (t := L.toIState B (q1, q2)) (r1 := e1.resets) (r2 := e2.resets) hn' (fun g hg => ⟨hw.guards s1 hs1 a e1 he1 g hg, cA s1 hs1 a e1 he1' g hg⟩)
    (fun g hg => ⟨hB.wf.guards s2 hs2 a e2 he2 g hg, cB s2 hs2 a e2 he2 g hg⟩)

end two

variable {K : Type} [Field K] [LinearOrder K] [IsStrictOrderedRing K] [FloorRing K]

theorem TRE.toEventTA_covered {alloc : Nat → Nat} (hinj : Function.Injective alloc) (e : TRE K) (he : e.Plain) (ho : e.EndsInOrder)
    (heap : Nat → TAState Nat) (k : Nat) :
    ∃ A k', e.toEventTA alloc heap k = .ok (A, k') ∧ TransOk alloc heap k k' e A ∧ A.ConstsCovered := by
  induction e generalizing heap k with
  | atom c =>
    refine ⟨_, _, rfl, TransOk.atom hinj heap k he, fun s hs a t ht g hg => ?_⟩
    exact ((TransOk.atom (K := K) hinj heap k he).consts (fun _ => False) trivial s hs a t ht g hg).elim
  | epsilon =>
    refine ⟨_, _, rfl, TransOk.epsilon alloc heap k, fun s hs a t ht g hg => ?_⟩
    exact ((TransOk.epsilon (K := K) alloc heap k).consts (fun _ => False) trivial s hs a t ht g hg).elim
  | plus e ih =>
    obtain ⟨A, k1, h1, hA, cA⟩ := ih he ho heap k
    have hn : A.clockSize ≤ 256 := by rw [hA.clocks]; exact TRE.Plain.clocks he
    exact ⟨_, _, by simp only [toEventTA, h1]; rfl, hA.plus he, cA.plus.finish (TA.plus_wf hA.wf hn)⟩
  | concat e f ih1 ih2 =>
    obtain ⟨A, k1, h1, hA, cA⟩ := ih1 he.1 ho.1 heap k
    obtain ⟨B, k2, h2, hB, cB⟩ := ih2 he.2 ho.2 A.st k1
    refine ⟨_, _, ?_, TransOk.concat hinj hA hB he.1 he.2, (covered_concat hinj hA hB cA cB).finish ?_⟩
    · simp only [toEventTA, h1, bind, Except.bind, h2]; rfl
    · have hn : B.clockSize ≤ 256 := by rw [hB.clocks]; exact TRE.Plain.clocks he.2
      have hd := two_disjoint hinj hA hB
      exact TA.concat2_wf (L := { A with st := B.st }) rfl (two_wf hinj hA hB) hB.wf hd hn
  | disj e f ih1 ih2 =>
    obtain ⟨A, k1, h1, hA, cA⟩ := ih1 he.1 ho.1 heap k
    obtain ⟨B, k2, h2, hB, cB⟩ := ih2 he.2 ho.2 A.st k1
    refine ⟨_, _, ?_, TransOk.disj hinj hA hB, (covered_disj hinj hA hB cA cB).finish ?_⟩
    · simp only [toEventTA, h1, bind, Except.bind, h2]; rfl
    · have hd := two_disjoint hinj hA hB
      exact TA.disj_wf (L := { A with st := B.st }) rfl (two_wf hinj hA hB) hB.wf hd
  | conj e f ih1 ih2 =>
    obtain ⟨A, k1, h1, hA, cA⟩ := ih1 he.1 ho.1 heap k
    obtain ⟨B, k2, h2, hB, cB⟩ := ih2 he.2.1 ho.2 A.st k1
    refine ⟨_, _, ?_, TransOk.conj hinj hA hB he.2.2, (covered_conj hinj hA hB cA cB he.2.2).finish ?_⟩
    · simp only [toEventTA, h1, bind, Except.bind, h2]; rfl
    · have hn : ({ A with st := B.st } : TA Nat).clockSize + B.clockSize ≤ 256 := by
        have h1 : A.clockSize = e.clocks := hA.clocks
        have h2 : B.clockSize = f.clocks := hB.clocks
        have h3 := he.2.2
        show A.clockSize + B.clockSize ≤ 256
        omega
      exact TA.conj_wf (two_wf hinj hA hB) hB.wf hn hinj _ _
  | within e I ih =>
    obtain ⟨A, k1, h1, hA, cA⟩ := ih he.1 ho.1 heap k
    obtain ⟨B, h2, hB⟩ := hA.within he
    refine ⟨_, _, ?_, hB, ?_⟩
    · simp only [toEventTA, h1, bind, Except.bind, h2]; rfl
    · obtain ⟨_, hn, ⟨l, ls, hl⟩, ⟨u, us, hu⟩⟩ := he
      have hn' : A.clockSize < 256 := by rw [hA.clocks]; exact hn
      rw [TA.within_eq hA.wf hl hu, Except.ok.injEq] at h2
      subst h2
      have hlu : l ≤ u := by exact_mod_cast ho.2 _ _ _ _ hl hu
      refine (cA.restrict hA.wf hn' hlu us ls).finish (TA.restrict_wf hA.wf _ ?_)
      intro c hc
      simp only [TA.withinGuard, List.mem_cons, List.not_mem_nil, or_false] at hc
      rcases hc with rfl | rfl <;> simp [Nat.mod_eq_of_lt hn']

end Verif
