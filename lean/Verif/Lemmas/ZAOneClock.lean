import Verif.Lemmas.ZAFinite
import Mathlib.Data.Finite.Prod

set_option linter.unusedSectionVars false

/-! The zones of an automaton with one clock are finitely many. -/

namespace Verif

variable {S K : Type} [Field K] [LinearOrder K] [IsStrictOrderedRing K] [DecidableEq S]

open Bnd Zone

/-- The bounds with a value from the list, and infinity. -/
def boundsOf (l : List K) : Set (Bnd K) := {b | match b with | .fin c _ => c ∈ l | .inf _ => True}

theorem boundsOf_finite (l : List K) : (boundsOf l).Finite := by
  refine ((((l.map fun c => Bnd.fin c true) ++ (l.map fun c => Bnd.fin c false)) ++ [Bnd.inf true, Bnd.inf false]).finite_toSet).subset ?_
  rintro (⟨c, s⟩ | s) h
  · have h : c ∈ l := h
    cases s <;> simp only [List.mem_append, List.mem_map, Set.mem_setOf_eq]
    · exact Or.inl (Or.inr ⟨c, h, rfl⟩)
    · exact Or.inl (Or.inl ⟨c, h, rfl⟩)
  · cases s <;> simp

/-- The sums of two values. -/
def sumsOf (l : List K) : List K := 0 :: l.flatMap fun a => l.map fun b => a + b

theorem add_boundsOf {l : List K} {a b : Bnd K} (ha : a ∈ boundsOf l) (hb : b ∈ boundsOf l) : a + b ∈ boundsOf (sumsOf l) := by
  rcases a with ⟨a, s⟩ | s <;> rcases b with ⟨b, t⟩ | t
  · have ha : a ∈ l := ha
    have hb : b ∈ l := hb
    show a + b ∈ sumsOf l
    simp only [sumsOf, List.mem_cons, List.mem_flatMap, List.mem_map]
    exact Or.inr ⟨a, ha, b, hb, rfl⟩
  all_goals trivial

theorem min_boundsOf {l : List K} {a b : Bnd K} (ha : a ∈ boundsOf l) (hb : b ∈ boundsOf l) : Bnd.min a b ∈ boundsOf l := by
  rcases min_eq a b with h | h <;> rw [h] <;> assumption

/-- Adding a bound which is not negative does not make a bound smaller. -/
theorem min_add_boundsOf {l : List K} {a d : Bnd K} (ha : a ∈ boundsOf l) (hd : d.sat 0) : Bnd.min a (a + d) ∈ boundsOf l := by
  rcases a with ⟨a, s⟩ | s
  · rcases d with ⟨d, t⟩ | t
    · have : Bnd.min (fin a s) (fin a s + fin d t) = fin a s := by
        unfold Bnd.min
        rw [if_neg]
        simp only [add_fin_fin, blt]
        cases t <;> simp [sat] at hd ⊢
        · exact ⟨hd.le, fun h => absurd h hd.ne'⟩
        · exact hd
      rw [this]
      exact ha
    · have : Bnd.min (fin a s) (fin a s + inf t) = fin a s := by
        simp [Bnd.min, blt]
      rw [this]
      exact ha
  · rcases min_eq (inf s : Bnd K) (inf s + d) with h | h <;> rw [h]
    · trivial
    · cases d <;> trivial

theorem min_add_boundsOf' {l : List K} {a d : Bnd K} (ha : a ∈ boundsOf l) (hd : d.sat 0) : Bnd.min a (d + a) ∈ boundsOf l := by
  rw [badd_comm]
  exact min_add_boundsOf ha hd

/-- A zone with one clock whose bounds come from the values of a list. -/
structure OneRow (l : List K) (z : Zone K) : Prop where
  size : z.n = 2
  lower : z.get 0 1 ∈ boundsOf l
  upper : z.get 1 0 ∈ boundsOf l
  diag0 : z.get 0 0 ∈ boundsOf (sumsOf l)
  diag1 : z.get 1 1 ∈ boundsOf (sumsOf l)

theorem OneRow.close1 {l : List K} {z : Zone K} (h : OneRow l z) (hne : z.Nonempty) {x : Nat} (hx : x < 2) : OneRow l (z.close1 x) := by
  obtain ⟨v, hv⟩ := hne
  have n2 := h.size
  have d0 : (z.get 0 0).sat 0 := sat_diag hv (by omega)
  have d1 : (z.get 1 1).sat 0 := sat_diag hv (by omega)
  have row : ∀ {b d : Bnd K} {m : List K}, b ∈ boundsOf m → d.sat 0 → Bnd.min b (b + d) ∈ boundsOf m := fun hb hd => min_add_boundsOf hb hd
  have dd : (Bnd.min (z.get 0 0) (z.get 0 0 + z.get 0 0)).sat 0 := sat_min.2 ⟨d0, by simpa using sat_add d0 d0⟩
  have hx' : x = 0 ∨ x = 1 := by omega
  refine ⟨by simpa using n2, ?_, ?_, ?_, ?_⟩ <;> rw [Zone.close1, get_build (by omega) (by omega)] <;>
    rcases hx' with rfl | rfl <;> simp only [le_refl, if_true, Nat.zero_le, Nat.not_succ_le_zero, if_false]
  · exact min_add_boundsOf h.lower d0
  · exact min_add_boundsOf' h.lower d1
  · exact min_add_boundsOf' h.upper dd
  · exact min_add_boundsOf h.upper d1
  · exact min_add_boundsOf h.diag0 d0
  · exact min_boundsOf h.diag0 (add_boundsOf h.upper h.lower)
  · exact min_boundsOf h.diag1 (add_boundsOf (min_add_boundsOf h.lower d0) h.upper)
  · exact min_add_boundsOf h.diag1 d1

theorem OneRow.canonize {l : List K} {z : Zone K} (h : OneRow l z) (hne : z.Nonempty) : OneRow l z.canonize := by
  have n2 := h.size
  have e : z.canonize = (z.close1 0).close1 1 := by
    simp [Zone.canonize, n2, List.range_succ]
  rw [e]
  refine (h.close1 hne (by omega)).close1 ?_ (by omega)
  obtain ⟨v, hv⟩ := hne
  exact ⟨v, (close1_Sat (by omega)).2 hv⟩

theorem OneRow.set01 {l : List K} {z : Zone K} (h : OneRow l z) {b : Bnd K} (hb : b ∈ boundsOf l) : OneRow l (z.set 0 1 b) := by
  have n2 := h.size
  refine ⟨n2, ?_, ?_, ?_, ?_⟩ <;> rw [get_set (by omega) (by omega)]
  · simpa using hb
  · simpa using h.upper
  · simpa using h.diag0
  · simpa using h.diag1

theorem OneRow.set10 {l : List K} {z : Zone K} (h : OneRow l z) {b : Bnd K} (hb : b ∈ boundsOf l) : OneRow l (z.set 1 0 b) := by
  have n2 := h.size
  refine ⟨n2, ?_, ?_, ?_, ?_⟩ <;> rw [get_set (by omega) (by omega)]
  · simpa using h.lower
  · simpa using hb
  · simpa using h.diag0
  · simpa using h.diag1

theorem OneRow.tighten01 {l : List K} {z : Zone K} (h : OneRow l z) {b : Bnd K} (hb : b ∈ boundsOf l) (hne : (z.tighten 0 1 b).Nonempty) :
    OneRow l (z.tighten 0 1 b) := by
  have n2 := h.size
  obtain ⟨v, hv⟩ := hne
  unfold Zone.tighten at hv ⊢
  have hv1 := (close1_Sat (by simp; omega)).1 hv
  have hv2 := (close1_Sat (by simp; omega)).1 hv1
  exact ((h.set01 (min_boundsOf h.lower hb)).close1 ⟨v, hv2⟩ (by omega)).close1 ⟨v, hv1⟩ (by omega)

theorem OneRow.tighten10 {l : List K} {z : Zone K} (h : OneRow l z) {b : Bnd K} (hb : b ∈ boundsOf l) (hne : (z.tighten 1 0 b).Nonempty) :
    OneRow l (z.tighten 1 0 b) := by
  have n2 := h.size
  obtain ⟨v, hv⟩ := hne
  unfold Zone.tighten at hv ⊢
  have hv1 := (close1_Sat (by simp; omega)).1 hv
  have hv2 := (close1_Sat (by simp; omega)).1 hv1
  exact ((h.set10 (min_boundsOf h.upper hb)).close1 ⟨v, hv2⟩ (by omega)).close1 ⟨v, hv1⟩ (by omega)

theorem OneRow.elapse {l : List K} {z : Zone K} (h : OneRow l z) : OneRow l z.elapse := by
  have n2 := h.size
  refine ⟨by simpa using n2, ?_, ?_, ?_, ?_⟩ <;> rw [elapse_get (by omega) (by omega)]
  · simp only [one_ne_zero, if_false, if_true]
    have := h.lower
    rcases hz : z.get 0 1 with ⟨c, s⟩ | s
    · rw [hz] at this
      exact this
    · trivial
  · trivial
  · trivial
  · simpa using h.diag1

theorem OneRow.reset {l : List K} {z : Zone K} (h : OneRow l z) (h0 : (0 : K) ∈ l) : OneRow l (z.reset 0) := by
  have n2 := h.size
  refine ⟨by simpa using n2, ?_, ?_, ?_, ?_⟩ <;> rw [reset_get (by omega) (by omega) (by omega)]
  · simpa using (show (fin 0 true : Bnd K) ∈ boundsOf l from h0)
  · simpa using (show (fin 0 true : Bnd K) ∈ boundsOf l from h0)
  · simpa using h.diag0
  · simpa using (show (fin 0 true : Bnd K) ∈ boundsOf (sumsOf l) from List.mem_cons_self)

theorem OneRow.abstractize {l : List K} {z : Zone K} (h : OneRow l z) : OneRow l z.abstractize := by
  have n2 := h.size
  have key : ∀ {b M : Bnd K} {m : List K}, b ∈ boundsOf m → (if Bnd.bge b M then .inf false else b) ∈ boundsOf m := by
    intro b M m hb
    split_ifs
    · trivial
    · exact hb
  refine ⟨by simpa using n2, ?_, ?_, ?_, ?_⟩ <;> rw [Zone.abstractize, get_build (by omega) (by omega)]
  · exact key h.lower
  · exact key h.upper
  · exact key h.diag0
  · exact key h.diag1

theorem zoneGuard_oneRow {l : List K} {gs : List Constraint} (hl : ∀ g ∈ gs, (g.c : K) ∈ l ∧ -(g.c : K) ∈ l) :
    ∀ {z z' : Zone K}, OneRow l z → zoneGuard 1 z gs = .ok z' → z'.Nonempty → OneRow l z' := by
  induction gs with
  | nil =>
    intro z z' h hz _
    cases hz
    exact h
  | cons g gs ih =>
    intro z z' h hz hne
    unfold zoneGuard at hz
    split_ifs at hz with hx
    have hx0 : g.x = 0 := by omega
    have n2 := h.size
    obtain ⟨hp, hm⟩ := hl g (by simp)
    refine ih (fun g' hg' => hl g' (by simp [hg'])) ?_ hz hne
    obtain ⟨v, hv⟩ := hne
    obtain ⟨-, hs⟩ := zoneGuard_sat (n := 1) (by cases g.odr <;> simpa using n2) hz
    have hv' := ((hs v).1 hv).1
    rw [hx0] at hv' ⊢
    cases ho : g.odr <;> rw [ho] at hv' <;> simp only at hv' ⊢
    · exact h.tighten10 hp ⟨v, hv'⟩
    · exact h.tighten10 hp ⟨v, hv'⟩
    · exact h.tighten01 hm ⟨v, hv'⟩
    · exact h.tighten01 hm ⟨v, hv'⟩

theorem zoneReset_oneRow {l : List K} (h0 : (0 : K) ∈ l) {xs : List Nat} :
    ∀ {z z' : Zone K}, OneRow l z → zoneReset 1 z xs = .ok z' → OneRow l z' := by
  induction xs with
  | nil =>
    intro z z' h hz
    cases hz
    exact h
  | cons x xs ih =>
    intro z z' h hz
    unfold zoneReset at hz
    split_ifs at hz with hx
    have hx0 : x = 0 := by omega
    subst hx0
    exact ih (h.reset h0) hz

/-- The zone has no cells outside of the matrix. -/
def Built (z : Zone K) : Prop := z = build z.n z.M z.get

theorem built_build {n : Nat} {M : Bnd K} {f : Nat → Nat → Bnd K} : Built (build n M f) := by
  unfold Built
  have : (build n M f).n = n := rfl
  rw [this]
  show build n M f = build n M _
  unfold build
  congr 1
  refine List.map_congr_left fun i hi => List.map_congr_left fun j hj => ?_
  exact (get_build (List.mem_range.1 hi) (List.mem_range.1 hj)).symm

theorem zoneSucc_oneRow {l : List K} (h0 : (0 : K) ∈ l) {z z' : Zone K} (h : OneRow l z) {e : Transition S}
    (hl : ∀ g ∈ e.guard, (g.c : K) ∈ l ∧ -(g.c : K) ∈ l) (hz : zoneSucc 1 z.elapse e = .ok (some z')) : OneRow l z' ∧ Built z' := by
  have n2 := h.size
  unfold zoneSucc at hz
  simp only [bind, Except.bind] at hz
  split at hz
  · cases hz
  · rename_i z1 hz1
    obtain ⟨h1, -⟩ := zoneGuard_sat (n := 1) (by simpa using n2) hz1
    by_cases hb : z1.isSatisfiable.1 = true
    · rw [if_pos hb] at hz
      split at hz
      · cases hz
      · rename_i z2 hz2
        simp only [Except.ok.injEq, Option.some.injEq] at hz
        subst hz
        have hne := isSatisfiable_iff'.1 hb
        rw [isSatisfiable_snd] at hz2
        have g1 := (zoneGuard_oneRow hl h.elapse hz1 hne).canonize hne
        have g2 := zoneReset_oneRow h0 g1 hz2
        obtain ⟨v, hv⟩ := hne
        obtain ⟨-, h4⟩ := zoneReset_sat (z := z1.canonize) (by simpa using h1) hz2 (canonize_Sat.2 hv)
        have n2' := g2.abstractize.size
        refine ⟨g2.abstractize.canonize ⟨_, abstractize_Sat h4⟩, ?_⟩
        have e : z2.abstractize.canonize = (z2.abstractize.close1 0).close1 1 := by
          simp only [Zone.canonize, n2', List.range_succ]
          rfl
        rw [e]
        exact built_build
    · rw [if_neg hb] at hz
      cases hz

theorem oneRow_finite (l : List K) (M : Bnd K) : {z : Zone K | OneRow l z ∧ Built z ∧ z.M = M}.Finite := by
  let f : Bnd K × Bnd K × Bnd K × Bnd K → Zone K := fun p => build 2 M fun i j =>
    if i = 0 then (if j = 0 then p.1 else p.2.1) else (if j = 0 then p.2.2.1 else p.2.2.2)
  refine (((boundsOf_finite (sumsOf l)).prod ((boundsOf_finite l).prod ((boundsOf_finite l).prod (boundsOf_finite (sumsOf l))))).image f).subset ?_
  rintro z ⟨h, hb, rfl⟩
  refine ⟨(z.get 0 0, z.get 0 1, z.get 1 0, z.get 1 1), ⟨h.diag0, h.lower, h.upper, h.diag1⟩, ?_⟩
  refine Eq.trans ?_ hb.symm
  rw [h.size]
  simp [f, build, List.range_succ]

/-- The constants of an automaton. -/
def constsOf (A : TA S) : List Int := A.states.flatMap fun s => (outEdges A s).flatMap fun p => p.2.guard.map fun g => g.c

theorem zreach_oneClock {A : TA S} (h1 : A.clockSize = 1) (hX : ∀ s ∈ A.states, ∀ c e q, (c, e) ∈ outEdges A s → e.target = some q → q ∈ A.states)
    {s : S} (hs : s ∈ A.states) : (ZReach A (s, (Zone.zero (A.clockSize + 1) (maxBound A) : Zone K))).Finite := by
  let l : List K := 0 :: (List.map (fun c : Int => (c : K)) (constsOf A) ++ List.map (fun c : Int => -(c : K)) (constsOf A))
  have h0 : (0 : K) ∈ l := by simp [l]
  refine (((List.finite_toSet A.states).prod (oneRow_finite l (maxBound A)))).subset ?_
  intro x hx
  have hx' : Relation.ReflTransGen (ZStep A) (s, (Zone.zero (A.clockSize + 1) (maxBound A) : Zone K)) x := hx
  clear hx
  induction hx' with
  | refl =>
    refine ⟨hs, ?_, ?_, rfl⟩
    · rw [h1]
      have hz : ∀ i j, i < 2 → j < 2 → (Zone.zero 2 (maxBound A) : Zone K).get i j = fin 0 true := fun i j hi hj => get_build hi hj
      refine ⟨rfl, ?_, ?_, ?_, ?_⟩ <;> rw [hz _ _ (by omega) (by omega)]
      · exact h0
      · exact h0
      · exact List.mem_cons_self
      · exact List.mem_cons_self
    · exact built_build
  | @tail y x _ hyx ih =>
    obtain ⟨hyS, hy1, hy2, hy3⟩ := ih
    obtain ⟨c, e, he, hq, hz⟩ := hyx
    rw [h1] at hz
    have hl : ∀ g ∈ e.guard, (g.c : K) ∈ l ∧ -(g.c : K) ∈ l := by
      intro g hg
      have : g.c ∈ constsOf A := List.mem_flatMap.2 ⟨y.1, hyS, List.mem_flatMap.2 ⟨(c, e), he, List.mem_map.2 ⟨g, hg, rfl⟩⟩⟩
      constructor
      · simp only [l, List.mem_cons, List.mem_append, List.mem_map]
        exact Or.inr (Or.inl ⟨g.c, this, rfl⟩)
      · simp only [l, List.mem_cons, List.mem_append, List.mem_map]
        exact Or.inr (Or.inr ⟨g.c, this, rfl⟩)
    obtain ⟨w1, w2⟩ := zoneSucc_oneRow h0 hy1 hl hz
    obtain ⟨-, w3⟩ := zoneSucc_canon (z := y.2.elapse) (by simpa using hy1.size) hz
    exact ⟨hX _ hyS _ _ _ he hq, w1, w2, by rw [w3]; simpa using hy3⟩

/-- The zone automaton of an automaton with at most one clock is built. -/
theorem ta2za_oneClock {A : TA S} (hcl : A.Closed) (hM : A.MapOk) (hC : A.ClocksDeclared) (hA : EdgesOk A) (h : A.clockSize ≤ 1) :
    ∃ B, ∀ fuel, B ≤ fuel → ∀ Z : ZA S K, ∃ Z', ta2za fuel A Z = .ok Z' := by
  have hX : ∀ s ∈ A.states, ∀ c e q, (c, e) ∈ outEdges A s → e.target = some q → q ∈ A.states :=
    fun s hs c e q he hq => hcl.2 s hs c e ((mem_outEdges_iff hM).1 he) q hq
  rcases Nat.lt_or_ge A.clockSize 1 with h0 | h0
  · refine ta2za_plainCycles hcl hM hA ⟨fun _ => 0, fun s _ a e he q _ => Or.inr ⟨rfl, ?_⟩⟩
    obtain ⟨c1, c2⟩ := hC s a e he
    constructor
    · exact List.eq_nil_iff_forall_not_mem.2 fun g hg => by have := c1 g hg; omega
    · exact List.eq_nil_iff_forall_not_mem.2 fun g hg => by have := c2 g hg; omega
  · exact ta2za_finite hA fun s hs => zreach_oneClock (by omega) hX (hcl.1 s hs)

end Verif
