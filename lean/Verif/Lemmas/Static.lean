import Verif.Lemmas.Silent

/-!
# The static variable of the branch of `monaa` for silent transitions

A longer `zeroResetTime` gives the same results, since the additional clocks are not used.
-/

set_option linter.unusedSectionVars false

namespace Verif

open IZone

variable {S K σ : Type}

/-! ## Homomorphisms of matchers -/

/-- `f` maps the configurations of `M` which satisfy `P` to those of `M'`. -/
structure HookMap {Q Q' : Type} (M : Hooks S Q K) (M' : Hooks S Q' K) (f : Q → Q') (P : Q → Prop) : Prop where
  state : ∀ c, M'.state (f c) = M.state c
  start : ∀ p t, M'.start p t = (M.start p t).map f
  startP : ∀ p t, ∀ c ∈ M.start p t, P c
  event : ∀ p a t cs, (∀ c ∈ cs, P c) →
    M'.event p a t (cs.map f) = (M.event p a t cs).map fun r => (r.1, r.2.1.map f, r.2.2.map f)
  eventP : ∀ p a t cs r, (∀ c ∈ cs, P c) → M.event p a t cs = .ok r → ∀ c ∈ r.2.2, P c
  final : ∀ p cs, M'.final p (cs.map f) = M.final p cs

theorem runLoop_map {Q Q' : Type} {M : Hooks S Q K} {M' : Hooks S Q' K} {f : Q → Q'} {P : Q → Prop} (h : HookMap M M' f P)
    (C : Cont K σ) (fuel j : Nat) (cs last : List Q) (w : σ) (hcs : ∀ c ∈ cs, P c) :
    runLoop C M' fuel j (cs.map f) (last.map f) w =
      (runLoop C M fuel j cs last w).map fun r => (r.1, r.2.1.map f, r.2.2) := by
  induction fuel generalizing j cs last w with
  | zero => rfl
  | succ fuel ih =>
    unfold runLoop
    have he : (cs.map f).isEmpty = cs.isEmpty := by cases cs <;> rfl
    rw [he]
    by_cases h1 : cs.isEmpty = true
    · simp only [h1, if_true, Except.map]
      cases (C.fetch j w).1 <;> rfl
    · simp only [h1, Bool.false_eq_true, if_false]
      cases hb : (C.fetch j w).1
      · simp only [Bool.false_eq_true, if_false, bind, Except.bind]
        cases hp : prevTime C j (C.fetch j (C.fetch j w).2).2 with
        | error x => rfl
        | ok p => simp only [Except.map, h.final]
      · simp only [if_true, bind, Except.bind]
        cases hg : C.get j (C.fetch j w).2 with
        | error x => rfl
        | ok e =>
          simp only
          cases hp : prevTime C j (C.fetch j w).2 with
          | error x => rfl
          | ok p =>
            simp only [h.event p e.1 e.2 cs hcs]
            cases hev : M.event p e.1 e.2 cs with
            | error x => rfl
            | ok r =>
              simp only [Except.map]
              rw [ih (j + 1) r.2.2 r.2.1 _ (h.eventP p e.1 e.2 cs r hcs hev)]
              cases runLoop C M fuel (j + 1) r.2.2 r.2.1 (C.fetch j w).2 <;> rfl

theorem greatestN_map {Q Q' : Type} {T : Tables S} {st : Q → S} {st' : Q' → S} {f : Q → Q'}
    (h : ∀ c, st' (f c) = st c) (l : List Q) : greatestN T st' (l.map f) = greatestN T st l := by
  unfold greatestN
  rw [List.foldlM_map]
  simp only [h]

theorem matchLoop_map {Q Q' : Type} {M : Hooks S Q K} {M' : Hooks S Q' K} {f : Q → Q'} {P : Q → Prop}
    (h : HookMap M M' f P) (C : Cont K σ) (T : Tables S) (inner fuel i : Nat) (w : σ) :
    matchLoop C M' T inner fuel i w = matchLoop C M T inner fuel i w := by
  induction fuel generalizing i w with
  | zero => rfl
  | succ fuel ih =>
    unfold matchLoop
    have key : ∀ i w p t, runLoop C M' inner i (M'.start p t) [] w =
        (runLoop C M inner i (M.start p t) [] w).map fun r => (r.1, r.2.1.map f, r.2.2) := by
      intro i w p t
      rw [h.start]
      exact runLoop_map h C inner i (M.start p t) [] w (h.startP p t)
    simp only [key, bind, Except.bind]
    split
    · rfl
    · by_cases hm : T.m > 1
      · simp only [hm, if_true]
        generalize hX : (if (C.fetch (i + T.m - 1) (C.fetch (i + T.m - 1) w).2).1 = true then
          sundayLoop C T inner i (C.fetch (i + T.m - 1) (C.fetch (i + T.m - 1) w).2).2
          else .ok (some i, (C.fetch (i + T.m - 1) (C.fetch (i + T.m - 1) w).2).2)) = X
        cases X with
        | error x => rfl
        | ok r =>
          obtain ⟨r, w'⟩ := r
          cases r with
          | none => rfl
          | some k =>
            simp only
            split
            · rfl
            · cases hg : C.get k (C.fetch k w').2 with
              | error x => rfl
              | ok e =>
                simp only
                cases hp : prevTime C k (C.fetch k w').2 with
                | error x => rfl
                | ok p =>
                  simp only
                  cases hr : runLoop C M inner k (M.start p e.2) [] (C.fetch k w').2 with
                  | error x => rfl
                  | ok r => simp only [Except.map, greatestN_map h.state, ih]
      · simp only [hm, if_false]
        split
        · rfl
        · cases hg : C.get i (C.fetch i (C.fetch (i + T.m - 1) w).2).2 with
          | error x => rfl
          | ok e =>
            simp only
            cases hp : prevTime C i (C.fetch i (C.fetch (i + T.m - 1) w).2).2 with
            | error x => rfl
            | ok p =>
              simp only
              cases hr : runLoop C M inner i (M.start p e.2) [] (C.fetch i (C.fetch (i + T.m - 1) w).2).2 with
              | error x => rfl
              | ok r => simp only [Except.map, greatestN_map h.state, ih]

/-! ## Truncation of the reset times -/

variable [Field K] [LinearOrder K] [IsStrictOrderedRing K]

/-- The matrix has a variable 1. -/
def IZone.Big : IZone K → Prop
  | .zone z _ _ => 1 < z.n
  | _ => True

theorem closeColumn_n (z : Zone K) (k : Nat) : (closeColumn z k).n = z.n := by
  unfold closeColumn
  generalize List.range z.n = l
  induction l generalizing z with
  | nil => rfl
  | cons a l ih => rw [List.foldl_cons, ih]; rfl

theorem closeRow_n (z : Zone K) (k : Nat) : (closeRow z k).n = z.n := by
  unfold closeRow
  generalize List.range z.n = l
  induction l generalizing z with
  | nil => rfl
  | cons a l ih =>
    rw [List.foldl_cons, ih]
    generalize List.range z.n = l'
    induction l' generalizing z with
    | nil => rfl
    | cons b l' ih' => rw [List.foldl_cons, ih']; rfl

theorem big_alloc {z : IZone K} (h : z.Big) (u l : Bnd K) : (z.alloc u l).Big := by
  cases z with
  | one lo up => trivial
  | three b =>
    simp only [alloc, Big, closeRow_n, closeColumn_n]
    exact (show 1 < 4 by omega)
  | zone z al n =>
    rw [alloc]
    split
    · simp only [Big, closeRow_n, closeColumn_n]
      exact h
    · simp only [Big, closeRow_n, closeColumn_n]
      exact (show 1 < z.n + 1 from Nat.lt_succ_of_lt h)
  | dead => trivial

theorem big_tighten {z z' : IZone K} (h : z.Big) {x y : Nat} {c : Bnd K} (he : z.tighten x y c = .ok z') : z'.Big := by
  cases z with
  | one lo up =>
    rw [tighten] at he
    split_ifs at he <;> simp only [Except.ok.injEq, reduceCtorEq] at he <;> subst he <;> trivial
  | three b =>
    rw [tighten] at he
    split_ifs at he <;> simp only [Except.ok.injEq] at he <;> subst he <;> trivial
  | zone z l n =>
    rw [tighten] at he
    split at he
    · simp only [Except.ok.injEq] at he
      subst he
      simp only [Big]
      split <;> exact h
    · cases he
  | dead =>
    cases he
    trivial

theorem big_tightenNewest {rt : List (RTime K)} (gs : List Constraint) {z z' : IZone K} (h : z.Big)
    (he : z.tightenNewest rt gs = .ok z') : z'.Big := by
  induction gs generalizing z with
  | nil => cases he; exact h
  | cons g gs ih =>
    rw [tightenNewest] at he
    cases hr : rt[g.x]? with
    | none => simp only [hr, reduceCtorEq] at he
    | some r =>
      cases r with
      | «at» t =>
        simp only [hr] at he
        cases hz : z.tightenAt z.newestClock g t with
        | error x => simp only [hz, reduceCtorEq] at he
        | ok z1 =>
          simp only [hz] at he
          refine ih ?_ he
          unfold tightenAt at hz
          cases ho : g.odr <;> simp only [ho] at hz <;> exact big_tighten h hz
      | var x =>
        simp only [hr] at he
        cases hz : z.tightenVar z.newestClock g x with
        | error x => simp only [hz, reduceCtorEq] at he
        | ok z1 =>
          simp only [hz] at he
          refine ih ?_ he
          unfold tightenVar at hz
          cases ho : g.odr <;> simp only [ho] at hz <;> exact big_tighten h hz

theorem big_tightenInstant {rt : List (RTime K)} {t : K} (gs : List Constraint) {z z' : IZone K} (h : z.Big)
    (he : z.tightenInstant rt t gs = .ok z') : z'.Big := by
  induction gs generalizing z with
  | nil => cases he; exact h
  | cons g gs ih =>
    rw [tightenInstant] at he
    cases hr : rt[g.x]? with
    | none => simp only [hr, reduceCtorEq] at he
    | some r =>
      cases r with
      | «at» t =>
        simp only [hr] at he
        refine ih ?_ he
        split
        · exact h
        · trivial
      | var x =>
        simp only [hr] at he
        cases hz : z.tightenAgo x g t with
        | error x => simp only [hz, reduceCtorEq] at he
        | ok z1 =>
          simp only [hz] at he
          refine ih ?_ he
          unfold tightenAgo at hz
          cases ho : g.odr <;> simp only [ho] at hz <;> exact big_tighten h hz

theorem big_update {rt : List (RTime K)} {z z' : IZone K} (h : z.Big) (he : z.update rt = .ok z') : z'.Big := by
  cases z with
  | zone z l n =>
    obtain ⟨l', -, rfl⟩ := update_zone he
    simp only [Big, keepZone_n]
    exact h
  | one lo up => cases he; trivial
  | three b => cases he; trivial
  | dead => cases he; trivial

/-! ## Truncation -/

theorem tightenNewest_take {rt : List (RTime K)} {m : Nat} (gs : List Constraint) (z : IZone K)
    (hg : ∀ g ∈ gs, g.x < m) : z.tightenNewest (rt.take m) gs = z.tightenNewest rt gs := by
  induction gs generalizing z with
  | nil => rfl
  | cons g gs ih =>
    have h1 : (rt.take m)[g.x]? = rt[g.x]? := List.getElem?_take_of_lt (hg g (by simp))
    simp only [tightenNewest, h1, ih _ fun g hg' => hg g (by simp [hg'])]

theorem tightenInstant_take {rt : List (RTime K)} {m : Nat} {t : K} (gs : List Constraint) (z : IZone K)
    (hg : ∀ g ∈ gs, g.x < m) : z.tightenInstant (rt.take m) t gs = z.tightenInstant rt t gs := by
  induction gs generalizing z with
  | nil => rfl
  | cons g gs ih =>
    have h1 : (rt.take m)[g.x]? = rt[g.x]? := List.getElem?_take_of_lt (hg g (by simp))
    simp only [tightenInstant, h1, ih _ fun g hg' => hg g (by simp [hg'])]

theorem resetSym_take {v : RTime K} {rt : List (RTime K)} {m : Nat} (hm : m ≤ rt.length) (xs : List Nat)
    (hx : ∀ x ∈ xs, x < m) : ∃ rt', resetSym v rt xs = .ok rt' ∧ resetSym v (rt.take m) xs = .ok (rt'.take m) ∧
      rt'.length = rt.length ∧ rt'.drop m = rt.drop m := by
  induction xs generalizing rt with
  | nil => exact ⟨rt, rfl, rfl, rfl, rfl⟩
  | cons a xs ih =>
    have ha := hx a (by simp)
    obtain ⟨rt', h1, h2, h3, h4⟩ := ih (rt := rt.set a v) (by simpa using hm) fun x hx' => hx x (by simp [hx'])
    refine ⟨rt', ?_, ?_, by simpa using h3, ?_⟩
    · rw [resetSym, if_pos (by omega), h1]
    · rw [resetSym, if_pos (by simp; omega), ← List.take_set, h2]
    · rw [h4, List.drop_set_of_lt ha]

theorem set_true_self {l : List Bool} {i : Nat} (h : l.getD i false = true) : l.set i true = l := by
  apply List.ext_getElem?
  intro k
  rw [List.getElem?_set]
  split
  · rename_i e
    subst e
    have : l[i]? = some true := by
      unfold List.getD at h
      cases hl : l[i]? with
      | none => rw [hl] at h; simp at h
      | some b => rw [hl] at h; simp at h; rw [h]
    rw [this]
    split
    · rfl
    · rename_i hlt
      rw [List.getElem?_eq_none (by omega)] at this
      cases this
  · rfl

theorem keepFold_ones {n k : Nat} (hn : 1 < n) {l : List Bool} (hl : l.getD 1 false = true) :
    (List.replicate k (RTime.var 1 : RTime K)).foldlM (fun l r => match r with
      | .at _ => Except.ok l
      | .var x => if x < n then Except.ok (l.set x true) else Except.error Err.ub) l = .ok l := by
  induction k with
  | zero => rfl
  | succ k ih =>
    rw [List.replicate_succ, List.foldlM_cons]
    simp only [if_pos hn, set_true_self hl]
    exact ih

theorem keepOf_take {n newest m k : Nat} {rt : List (RTime K)} (hn : 1 < n)
    (hd : rt.drop m = List.replicate k (.var 1)) : keepOf n newest (rt.take m) = keepOf n newest rt := by
  conv_rhs => rw [← List.take_append_drop m rt, hd]
  unfold keepOf
  rw [List.foldlM_append]
  have h0 : ((((List.replicate n false).set 0 true).set 1 true).set newest true).length = n := by simp
  have h1 : ((((List.replicate n false).set 0 true).set 1 true).set newest true).getD 1 false = true := by
    by_cases h : 1 = newest
    · rw [← h]
      exact getD_set_self (by simpa using hn)
    · rw [getD_set_ne h]
      exact getD_set_self (by simpa using hn)
  generalize ((((List.replicate n false).set 0 true).set 1 true).set newest true) = l0 at h0 h1
  cases hf : (rt.take m).foldlM (fun l r => match r with
      | .at _ => Except.ok l
      | .var x => if x < n then Except.ok (l.set x true) else Except.error Err.ub) l0 with
  | error x => rfl
  | ok l =>
    have h2 : l.getD 1 false = true := ((keepOf_go (rt.take m) l0 l h0 hf).2 1).2 (Or.inl h1)
    exact (keepFold_ones hn h2).symm

theorem update_take {z : IZone K} {m k : Nat} {rt : List (RTime K)} (hz : z.Big)
    (hd : rt.drop m = List.replicate k (.var 1)) : z.update (rt.take m) = z.update rt := by
  cases z with
  | zone z l newest => simp only [update, keepOf_take (show 1 < z.n from hz) hd]
  | one lo up => rfl
  | three b => rfl
  | dead => rfl

/-- A configuration with the reset times of the first `m` clocks only. -/
def SConf.cut (m : Nat) (c : SConf S K) : SConf S K := { c with rt := c.rt.take m }

/-- The reset times of the other clocks are the initial ones. -/
def SConf.Tail (m k : Nat) (c : SConf S K) : Prop :=
  c.rt.length = m + k ∧ c.rt.drop m = List.replicate k (.var 1) ∧ c.z.Big

theorem flatMapE_map {α α' β β' : Type} {l : List α} {f : α → Except Err (List β)} {f' : α' → Except Err (List β')}
    {g : α → α'} {h : β → β'} (H : ∀ a ∈ l, f' (g a) = (f a).map (List.map h)) :
    flatMapE (l.map g) f' = (flatMapE l f).map (List.map h) := by
  induction l with
  | nil => rfl
  | cons a l ih =>
    rw [List.map_cons, flatMapE, flatMapE, H a (by simp), ih fun a ha => H a (by simp [ha])]
    cases f a with
    | error x => rfl
    | ok x =>
      simp only [Except.map]
      cases flatMapE l f with
      | error y => rfl
      | ok y => simp

theorem flatMapE_map' {α β β' : Type} {l : List α} {f : α → Except Err (List β)} {f' : α → Except Err (List β')}
    {h : β → β'} (H : ∀ a ∈ l, f' a = (f a).map (List.map h)) :
    flatMapE l f' = (flatMapE l f).map (List.map h) := by
  have := flatMapE_map (l := l) (g := id) (f := f) (f' := f') (h := h) H
  rwa [List.map_id] at this

section
variable {A : TA S} {m k : Nat} (hm : m = A.clockSize) (hA : A.ClocksDeclared)
include hm hA

theorem silentEdge_cut {prev : Option K} {t : K} {c : SConf S K} (hc : c.Tail m k) {a : Alphabet} {e : Transition S}
    (he : e ∈ A.edges c.s a) :
    silentEdge prev t (c.cut m) e = (silentEdge prev t c e).map (List.map (SConf.cut m)) ∧
      ∀ r, silentEdge prev t c e = .ok r → ∀ c' ∈ r, c'.Tail m k := by
  obtain ⟨h1, h2⟩ := hA c.s a e he
  rw [← hm] at h1 h2
  unfold silentEdge
  cases e.target with
  | none => exact ⟨rfl, by rintro r ⟨⟩ c' ⟨⟩⟩
  | some q =>
    simp only [SConf.cut]
    rw [tightenNewest_take _ _ h1]
    cases hz : (c.z.alloc (.fin t true) (lowerEnd prev)).tightenNewest c.rt e.guard with
    | error x => exact ⟨rfl, by rintro r ⟨⟩⟩
    | ok z =>
      simp only
      have hb := big_tightenNewest _ (big_alloc hc.2.2 _ _) hz
      split
      · obtain ⟨rt', g1, g2, g3, g4⟩ := resetSym_take (v := .var 0) (rt := c.rt) (m := m) (by rw [hc.1]; omega) e.resets h2
        simp only [g1, g2]
        rw [update_take hb (g4.trans hc.2.1)]
        cases hu : z.update rt' with
        | error x => exact ⟨rfl, by rintro r ⟨⟩⟩
        | ok z' =>
          refine ⟨rfl, ?_⟩
          rintro r ⟨⟩ c' hc'
          simp only [List.mem_singleton] at hc'
          subst hc'
          exact ⟨g3.trans hc.1, g4.trans hc.2.1, big_update hb hu⟩
      · exact ⟨rfl, by rintro r ⟨⟩ c' ⟨⟩⟩

theorem stepSym_cut {t : K} {c : SConf S K} (hc : c.Tail m k) {a : Alphabet} {e : Transition S}
    (he : e ∈ A.edges c.s a) :
    stepSym t (c.cut m) e = (stepSym t c e).map (List.map (SConf.cut m)) ∧
      ∀ r, stepSym t c e = .ok r → ∀ c' ∈ r, c'.Tail m k := by
  obtain ⟨h1, h2⟩ := hA c.s a e he
  rw [← hm] at h1 h2
  unfold stepSym
  cases e.target with
  | none => exact ⟨rfl, by rintro r ⟨⟩ c' ⟨⟩⟩
  | some q =>
    simp only [SConf.cut]
    rw [tightenInstant_take _ _ h1]
    cases hz : c.z.tightenInstant c.rt t e.guard with
    | error x => exact ⟨rfl, by rintro r ⟨⟩⟩
    | ok z =>
      simp only
      have hb := big_tightenInstant _ hc.2.2 hz
      split
      · obtain ⟨rt', g1, g2, g3, g4⟩ := resetSym_take (v := .at t) (rt := c.rt) (m := m) (by rw [hc.1]; omega) e.resets h2
        simp only [g1, g2]
        rw [update_take hb (g4.trans hc.2.1)]
        cases hu : z.update rt' with
        | error x => exact ⟨rfl, by rintro r ⟨⟩⟩
        | ok z' =>
          refine ⟨rfl, ?_⟩
          rintro r ⟨⟩ c' hc'
          simp only [List.mem_singleton] at hc'
          subst hc'
          exact ⟨g3.trans hc.1, g4.trans hc.2.1, big_update hb hu⟩
      · exact ⟨rfl, by rintro r ⟨⟩ c' ⟨⟩⟩

theorem acceptSym_cut {prev : Option K} {t : K} {c : SConf S K} {a : Alphabet} {e : Transition S}
    (he : e ∈ A.edges c.s a) : acceptSym A prev t (c.cut m) e = acceptSym A prev t c e := by
  obtain ⟨h1, h2⟩ := hA c.s a e he
  rw [← hm] at h1
  unfold acceptSym
  simp only [SConf.cut]
  simp only [tightenNewest_take _ _ h1]

theorem silentLoop_cut {prev : Option K} {t : K} (fuel : Nat) (cs : List (SConf S K)) (hcs : ∀ c ∈ cs, c.Tail m k) :
    silentLoop A prev t fuel (cs.map (SConf.cut m)) = (silentLoop A prev t fuel cs).map (List.map (SConf.cut m)) ∧
      ∀ r, silentLoop A prev t fuel cs = .ok r → ∀ c' ∈ r, c'.Tail m k := by
  induction fuel generalizing cs with
  | zero => exact ⟨rfl, by rintro r ⟨⟩⟩
  | succ fuel ih =>
    unfold silentLoop
    have he : (cs.map (SConf.cut m)).isEmpty = cs.isEmpty := by cases cs <;> rfl
    rw [he]
    split
    · exact ⟨rfl, by rintro r ⟨⟩ c' ⟨⟩⟩
    · rw [flatMapE_map (f := fun c => flatMapE (A.edges c.s epsilon) (silentEdge prev t c)) (h := SConf.cut m)
        (fun c hc => flatMapE_map' fun e he => (silentEdge_cut hm hA (hcs c hc) he).1)]
      cases hf : flatMapE cs (fun c => flatMapE (A.edges c.s epsilon) (silentEdge prev t c)) with
      | error x => exact ⟨rfl, by rintro r ⟨⟩⟩
      | ok new =>
        have hnew : ∀ c ∈ new, c.Tail m k := by
          intro c' hc'
          obtain ⟨c, hc, x, hx, hcx⟩ := flatMapE_mem hf hc'
          obtain ⟨e, he, y, hy, hcy⟩ := flatMapE_mem hx hcx
          exact (silentEdge_cut hm hA (hcs c hc) he).2 y hy c' hcy
        obtain ⟨i1, i2⟩ := ih new hnew
        simp only [Except.map] at i1 ⊢
        rw [i1]
        cases hr : silentLoop A prev t fuel new with
        | error x => exact ⟨rfl, by rintro r ⟨⟩⟩
        | ok rest =>
          refine ⟨by simp, ?_⟩
          rintro r ⟨⟩ c hc
          rcases List.mem_append.1 hc with hc | hc
          · exact hnew c hc
          · exact i2 rest hr c hc

theorem silentAll_cut {prev : Option K} {t : K} (fuel : Nat) (cs : List (SConf S K)) (hcs : ∀ c ∈ cs, c.Tail m k) :
    silentAll A prev t fuel (cs.map (SConf.cut m)) = (silentAll A prev t fuel cs).map (List.map (SConf.cut m)) ∧
      ∀ r, silentAll A prev t fuel cs = .ok r → ∀ c' ∈ r, c'.Tail m k := by
  unfold silentAll
  have hf : (cs.map (SConf.cut m)).filter (fun c => ((A.st c.s).next.find epsilon).isSome) =
      (cs.filter fun c => ((A.st c.s).next.find epsilon).isSome).map (SConf.cut m) := by
    rw [List.filter_map]
    rfl
  rw [hf]
  obtain ⟨i1, i2⟩ := silentLoop_cut hm hA (prev := prev) (t := t) fuel
    (cs.filter fun c => ((A.st c.s).next.find epsilon).isSome) fun c hc => hcs c (List.mem_filter.1 hc).1
  rw [i1]
  cases hr : silentLoop A prev t fuel (cs.filter fun c => ((A.st c.s).next.find epsilon).isSome) with
  | error x => exact ⟨rfl, by rintro r ⟨⟩⟩
  | ok new =>
    refine ⟨by simp [Except.map], ?_⟩
    rintro r ⟨⟩ c hc
    rcases List.mem_append.1 hc with hc | hc
    · exact hcs c hc
    · exact i2 new hr c hc

theorem silentHooks_cut {efuel : Nat} :
    HookMap (silentHooks (K := K) A (m + k) efuel) (silentHooks A m efuel) (SConf.cut m) (SConf.Tail m k) where
  state := fun _ => rfl
  start := fun p t => by
    simp only [silentHooks, startSym, List.map_map]
    apply List.map_congr_left
    intro s _
    simp [SConf.cut, List.take_replicate]
  startP := fun p t c hc => by
    obtain ⟨s, -, rfl⟩ := mem_startSym hc
    exact ⟨by simp, by simp, trivial⟩
  event := fun p a t cs hcs => by
    simp only [silentHooks, eventSym]
    obtain ⟨i1, i2⟩ := silentAll_cut hm hA (prev := p) (t := t) efuel cs hcs
    rw [i1]
    cases hr : silentAll A p t efuel cs with
    | error x => rfl
    | ok cs1 =>
      have hcs1 := i2 cs1 hr
      simp only [Except.map]
      have e1 : flatMapE (cs1.map (SConf.cut m)) (fun c => flatMapE (A.edges c.s a) (acceptSym A p t c)) =
          flatMapE cs1 (fun c => flatMapE (A.edges c.s a) (acceptSym A p t c)) := by
        rw [flatMapE_map (f := fun c => flatMapE (A.edges c.s a) (acceptSym A p t c)) (h := id)
          (fun c hc => flatMapE_map' fun e he => by
            rw [acceptSym_cut (c := c) hm hA he]
            cases acceptSym A p t c e <;> simp [Except.map])]
        cases flatMapE cs1 (fun c => flatMapE (A.edges c.s a) (acceptSym A p t c)) <;> simp [Except.map]
      rw [e1]
      cases flatMapE cs1 (fun c => flatMapE (A.edges c.s a) (acceptSym A p t c)) with
      | error x => rfl
      | ok zs =>
        simp only
        rw [flatMapE_map (f := fun c => flatMapE (A.edges c.s a) (stepSym t c)) (h := SConf.cut m)
          (fun c hc => flatMapE_map' fun e he => (stepSym_cut hm hA (hcs1 c hc) he).1)]
        cases flatMapE cs1 (fun c => flatMapE (A.edges c.s a) (stepSym t c)) <;> rfl
  eventP := fun p a t cs r hcs hr => by
    obtain ⟨cs1, g1, g2, g3, g4⟩ := eventSym_inv hr
    have hcs1 := (silentAll_cut hm hA (prev := p) (t := t) efuel cs hcs).2 cs1 g1
    intro c' hc'
    obtain ⟨c, hc, x, hx, hcx⟩ := flatMapE_mem g4 hc'
    obtain ⟨e, he, y, hy, hcy⟩ := flatMapE_mem hx hcx
    exact (stepSym_cut hm hA (hcs1 c hc) he).2 y hy c' hcy
  final := fun _ _ => rfl

end

/-- The result of `monaa` does not depend on the size of the static variable, if it is not too small. -/
theorem monaa_static [DecidableEq S] {A : TA S} (hA : A.ClocksDeclared) (fuel steps efuel : Nat) (C : Cont K σ)
    (st : Option Nat) (h : A.NoSilent ∨ ∀ n, st = some n → A.clockSize ≤ n) (w : σ) :
    (monaa fuel steps efuel C st A w).1 = (monaa fuel steps efuel C none A w).1 := by
  unfold monaa
  split
  · rfl
  · rename_i T hT
    split
    · rfl
    · rename_i hns
      simp only
      rcases h with h | h
      · exact absurd (noSilent_iff.2 h) hns
      · cases st with
        | none => rfl
        | some n =>
          have hn := h n rfl
          obtain ⟨k, rfl⟩ := Nat.exists_eq_add_of_le hn
          exact (matchLoop_map (silentHooks_cut rfl hA) C T steps steps 0 w).symm

end Verif
