import Verif.Lemmas.Six

set_option linter.unusedSectionVars false

/-! The matching loop from one start position, on a list of events. -/

namespace Verif

variable {S K : Type} [Field K] [LinearOrder K] [IsStrictOrderedRing K]

open Bnd Zone

/-- The matching may have begun at `t`. -/
def Conf.In (c : Conf S K) (t : K) : Prop := c.up.sat t ∧ c.lo.sat (-t)

/-- `$` always. -/
def endMark : Option Alphabet → Option Alphabet := fun _ => some dollar

/-- The zones reported for the label `l`, if any. -/
def acceptOpt (A : TA S) (l : Option Alphabet) (ue le : Bnd K) (cs : List (Conf S K)) : List (Zone K) :=
  match l with
  | none => []
  | some a => acceptOn A a ue le cs

/-- `runLoop` on the rest of the log. `L` tells the label of the transitions to accepting states, depending on the letter of
the next event (`none` at the end). -/
def runList (L : Option Alphabet → Option Alphabet) (A : TA S) (prev : Option K) :
    TWord K → List (Conf S K) → List (Conf S K) → List (Zone K) × List (Conf S K)
  | [], cs, _ => (acceptOpt A (L none) (.inf true) (lowerEnd prev) cs, cs)
  | e :: w, cs, last =>
    if cs.isEmpty then ([], last)
    else
      let r := runList L A (some e.2) w (stepAll A e.1 e.2 cs) cs
      (acceptOpt A (L (some e.1)) (.fin e.2 true) (lowerEnd prev) cs ++ r.1, r.2)

theorem transGuard_spec {τ t : K} {rt : List K} {gs : List Constraint} {up lo : Bnd K} :
    (∃ up' lo', transGuard τ rt up lo gs = some (up', lo') ∧ up'.sat t ∧ lo'.sat (-t)) ↔
      (up.sat t ∧ lo.sat (-t)) ∧ GuardHolds gs (fun x => τ - rOf rt t x) := by
  induction gs generalizing up lo with
  | nil => simp [transGuard, GuardHolds]
  | cons g gs ih =>
    unfold transGuard
    have hcons : ∀ P : Prop, (P ∧ GuardHolds (g :: gs) (fun x => τ - rOf rt t x)) ↔
        (P ∧ g.Holds (τ - rOf rt t g.x)) ∧ GuardHolds gs (fun x => τ - rOf rt t x) := by
      intro P
      simp [GuardHolds, and_assoc]
    rw [hcons]
    by_cases h0 : rtAt rt g.x = 0
    · have hr : rOf rt t g.x = t := by simp [rOf, h0]
      simp only [h0, ne_eq, not_true_eq_false, if_false, hr]
      split_ifs with ho
      · rw [ih, sat_min]
        have : (Bnd.fin ((g.c : K) - τ) (decide (g.odr = .le))).sat (-t) ↔ g.Holds (τ - t) := by
          rcases g with ⟨x, odr, c⟩
          cases odr <;> simp [Constraint.Holds, sat_t, sat_f] at ho ⊢ <;> constructor <;> intro h <;> linarith
        rw [this]
        tauto
      · rw [ih, sat_min]
        have : (Bnd.fin (τ - (g.c : K)) (decide (g.odr = .ge))).sat t ↔ g.Holds (τ - t) := by
          rcases g with ⟨x, odr, c⟩
          cases odr <;> simp [Constraint.Holds, sat_t, sat_f] at ho ⊢ <;> constructor <;> intro h <;> linarith
        rw [this]
        tauto
    · have hr : rOf rt t g.x = rtAt rt g.x := by simp [rOf, h0]
      simp only [h0, ne_eq, not_false_eq_true, if_true, hr]
      by_cases hs : g.satisfy (τ - rtAt rt g.x) = true
      · simp only [hs, if_true]
        rw [ih]
        have := (Constraint.satisfy_iff g (τ - rtAt rt g.x)).1 hs
        tauto
      · simp only [hs]
        have : ¬ g.Holds (τ - rtAt rt g.x) := fun h => hs ((Constraint.satisfy_iff g _).2 h)
        simp [this]

theorem resetTimes_length (τ : K) (rt : List K) (xs : List Nat) : (resetTimes τ rt xs).length = rt.length := by
  unfold resetTimes
  induction xs generalizing rt with
  | nil => rfl
  | cons x xs ih => simp [ih]

theorem rOf_reset {τ t : K} (hτ : τ ≠ 0) {rt : List K} {xs : List Nat} (hx : ∀ x ∈ xs, x < rt.length) :
    rOf (resetTimes τ rt xs) t = resetAt (rOf rt t) xs τ := by
  have key : ∀ x, rtAt (resetTimes τ rt xs) x = if x ∈ xs then τ else rtAt rt x := by
    intro x
    unfold resetTimes
    induction xs generalizing rt with
    | nil => simp
    | cons y ys ih =>
      have h2 : ∀ x ∈ ys, x < (rt.set y τ).length := by
        intro z hz
        simpa using hx z (by simp [hz])
      rw [List.foldl_cons, ih h2]
      by_cases hxy : x ∈ ys
      · simp [hxy]
      · by_cases he : x = y
        · subst he
          have := hx x (by simp)
          simp [hxy, rtAt, this]
        · simp [hxy, he, rtAt, List.getD_eq_getElem?_getD, List.getElem?_set, Ne.symm he]
  funext x
  simp only [rOf, resetAt, key]
  split_ifs <;> simp_all

theorem valid_of_in {c : Conf S K} {t : K} (h : c.In t) : isValidConstraint c.up c.lo = true := by
  rw [isValid_iff]
  have := sat_add h.1 h.2
  simpa using this

theorem stepAll_reads {A : TA S} (hA : A.ClocksDeclared) {a : Alphabet} {τ t : K} (hτ : τ ≠ 0)
    {cs : List (Conf S K)} (hcs : ∀ c ∈ cs, c.rt.length = A.clockSize) {u : TWord K} {s' : S} :
    (∃ c' ∈ stepAll A a τ cs, c'.In t ∧ A.Reads c'.s (rOf c'.rt t) u s') ↔
      ∃ c ∈ cs, c.In t ∧ A.Reads c.s (rOf c.rt t) ((a, τ) :: u) s' := by
  constructor
  · rintro ⟨c', hc', hin, hr⟩
    simp only [stepAll, List.mem_flatMap] at hc'
    obtain ⟨c, hc, e, he, hc'⟩ := hc'
    unfold stepEdge at hc'
    split at hc'
    · simp at hc'
    · rename_i q hq
      split at hc'
      · simp at hc'
      · rename_i up lo htg
        split_ifs at hc' with hv
        · simp only [List.mem_singleton] at hc'
          subst hc'
          have := (transGuard_spec (τ := τ) (t := t) (rt := c.rt) (gs := e.guard) (up := c.up) (lo := c.lo)).1
            ⟨up, lo, htg, hin.1, hin.2⟩
          refine ⟨c, hc, this.1, e, he, q, hq, this.2, ?_⟩
          rw [← rOf_reset hτ]
          · exact hr
          · intro x hx
            rw [hcs c hc]
            exact (hA _ _ e he).2 x hx
        · simp at hc'
  · rintro ⟨c, hc, hin, e, he, q, hq, hg, hr⟩
    obtain ⟨up, lo, htg, h1, h2⟩ := (transGuard_spec (τ := τ) (t := t) (rt := c.rt) (gs := e.guard)
      (up := c.up) (lo := c.lo)).2 ⟨hin, hg⟩
    have hin' : Conf.In (⟨q, resetTimes τ c.rt e.resets, up, lo⟩ : Conf S K) t := ⟨h1, h2⟩
    refine ⟨⟨q, resetTimes τ c.rt e.resets, up, lo⟩, ?_, hin', ?_⟩
    · simp only [stepAll, List.mem_flatMap]
      refine ⟨c, hc, e, he, ?_⟩
      unfold stepEdge
      rw [hq]
      simp only [htg]
      rw [if_pos (valid_of_in hin')]
      simp
    · simp only
      rw [rOf_reset hτ]
      · exact hr
      · intro x hx
        rw [hcs c hc]
        exact (hA _ _ e he).2 x hx

theorem mem_stepAll {A : TA S} {a : Alphabet} {τ : K} {cs : List (Conf S K)} {c' : Conf S K}
    (h : c' ∈ stepAll A a τ cs) : ∃ c ∈ cs, c'.rt.length = c.rt.length ∧
      isValidConstraint c'.up c'.lo = true ∧ le' c'.up c.up ∧ le' c'.lo c.lo := by
  simp only [stepAll, List.mem_flatMap] at h
  obtain ⟨c, hc, e, he, hc'⟩ := h
  unfold stepEdge at hc'
  split at hc'
  · simp at hc'
  · split at hc'
    · simp at hc'
    · rename_i up lo htg
      split_ifs at hc' with hv
      · simp only [List.mem_singleton] at hc'
        subst hc'
        refine ⟨c, hc, resetTimes_length _ _ _, hv, ?_, ?_⟩
        all_goals
          have mono : ∀ (gs : List Constraint) (u l u' l' : Bnd K), transGuard τ c.rt u l gs = some (u', l') →
              le' u' u ∧ le' l' l := by
            intro gs
            induction gs with
            | nil =>
              intro u l u' l' h
              simp [transGuard] at h
              rw [h.1, h.2]
              exact ⟨le'_refl _, le'_refl _⟩
            | cons g gs ih =>
              intro u l u' l' h
              unfold transGuard at h
              simp only [] at h
              split_ifs at h
              · exact ih _ _ _ _ h
              · have := ih _ _ _ _ h
                exact ⟨this.1, le'_trans this.2 (min_le'_left _ _)⟩
              · have := ih _ _ _ _ h
                exact ⟨le'_trans this.1 (min_le'_left _ _), this.2⟩
          have := mono _ _ _ _ _ htg
          first | exact this.1 | exact this.2
      · simp at hc'

theorem mem_acceptOn {A : TA S} {a : Alphabet} {ue le : Bnd K} {cs : List (Conf S K)} {z : Zone K} :
    z ∈ acceptOn A a ue le cs ↔ ∃ c ∈ cs, ∃ e ∈ A.edges c.s a, ∃ q, e.target = some q ∧
      (A.st q).isMatch = true ∧ sixValid (e.guard.foldl (sixGuard c.rt) (sixInit c ue le)) = true ∧
      z = sixZone (e.guard.foldl (sixGuard c.rt) (sixInit c ue le)) := by
  simp only [acceptOn, List.mem_flatMap]
  refine exists_congr fun c => and_congr_right fun hc => exists_congr fun e => and_congr_right fun he => ?_
  unfold acceptEdge
  cases e.target with
  | none => simp
  | some q =>
    by_cases hm : (A.st q).isMatch = true
    · by_cases hv : sixValid (e.guard.foldl (sixGuard c.rt) (sixInit c ue le)) = true <;> simp [hm, hv]
    · simp [hm]

theorem mem_acceptAll {A : TA S} {l : Option Alphabet} {ue le : Bnd K} {cs : List (Conf S K)} {z : Zone K}
    (h : z ∈ acceptOpt A l ue le cs) : ∃ c ∈ cs, ∃ a, ∃ e ∈ A.edges c.s a, ∃ q, e.target = some q ∧
      (A.st q).isMatch = true ∧ sixValid (e.guard.foldl (sixGuard c.rt) (sixInit c ue le)) = true ∧
      z = sixZone (e.guard.foldl (sixGuard c.rt) (sixInit c ue le)) := by
  cases l with
  | none => simp [acceptOpt] at h
  | some a =>
    obtain ⟨c, hc, e, h⟩ := mem_acceptOn.1 h
    exact ⟨c, hc, a, e, h⟩

theorem acceptOn_spec {A : TA S} {a : Alphabet} {ue le : Bnd K} {cs : List (Conf S K)} {v : Nat → K} :
    (∃ z ∈ acceptOn A a ue le cs, z.Sat v) ↔ ∃ c ∈ cs, c.In (v 0) ∧ ue.sat (v 1) ∧ le.sat (-(v 1)) ∧
      v 0 ≤ v 1 ∧ ∃ s', A.Reads c.s (rOf c.rt (v 0)) [(a, v 1)] s' ∧ (A.st s').isMatch = true := by
  constructor
  · rintro ⟨z, hz, hv⟩
    obtain ⟨c, hc, e, he, q, hq, hm, hval, rfl⟩ := mem_acceptOn.1 hz
    rw [sixZone_Sat, foldl_sixGuard_Sat, sixInit_Sat] at hv
    obtain ⟨⟨h1, h2, h3, h4⟩, h5⟩ := hv
    exact ⟨c, hc, h1, h2, h3, h4, q, ⟨e, he, q, hq, h5, rfl⟩, hm⟩
  · rintro ⟨c, hc, h1, h2, h3, h4, s', ⟨e, he, q, hq, hg, hs⟩, hm⟩
    have hs' : q = s' := hs
    subst hs'
    have hsat : (e.guard.foldl (sixGuard c.rt) (sixInit c ue le)).Sat (v 0) (v 1) := by
      rw [foldl_sixGuard_Sat, sixInit_Sat]
      exact ⟨⟨h1, h2, h3, h4⟩, hg⟩
    refine ⟨_, mem_acceptOn.2 ⟨c, hc, e, he, q, hq, hm, ?_, rfl⟩, sixZone_Sat.2 hsat⟩
    rw [sixValid_iff]
    obtain ⟨g1, g2, g3, g4, g5, g6⟩ := hsat
    refine ⟨?_, ?_, ?_⟩
    · simpa using sat_add g1 g2
    · simpa using sat_add g3 g4
    · simpa using sat_add g5 g6

theorem acceptAll_spec {A : TA S} {l : Option Alphabet} {ue le : Bnd K} {cs : List (Conf S K)} {v : Nat → K} :
    (∃ z ∈ acceptOpt A l ue le cs, z.Sat v) ↔ ∃ c ∈ cs, c.In (v 0) ∧ ue.sat (v 1) ∧ le.sat (-(v 1)) ∧
      v 0 ≤ v 1 ∧ ∃ a, l = some a ∧
        ∃ s', A.Reads c.s (rOf c.rt (v 0)) [(a, v 1)] s' ∧ (A.st s').isMatch = true := by
  cases l with
  | none => simp [acceptOpt]
  | some a =>
    simp only [Option.some.injEq, exists_eq_left']
    exact acceptOn_spec

/-- Where a match reported in the loop ends: after the events `u`, before the events `rest`. -/
def EndsAt (prev : Option K) (u rest : TWord K) (t' : K) : Prop :=
  (∀ e ∈ rest.head?, t' ≤ e.2) ∧
    (lowerEnd (match u.getLast? with | none => prev | some e => some e.2)).sat (-t')

theorem runList_spec {L : Option Alphabet → Option Alphabet} {A : TA S} (hA : A.ClocksDeclared) {v : Nat → K} {w : TWord K}
    (hw : ∀ e ∈ w, e.2 ≠ 0) {prev : Option K} {cs last : List (Conf S K)}
    (hcs : ∀ c ∈ cs, c.rt.length = A.clockSize) :
    (∃ z ∈ (runList L A prev w cs last).1, z.Sat v) ↔
      ∃ u rest, w = u ++ rest ∧ EndsAt prev u rest (v 1) ∧ v 0 ≤ v 1 ∧ ∃ c ∈ cs, c.In (v 0) ∧
        ∃ a, L (rest.head?.map (·.1)) = some a ∧
          ∃ s', A.Reads c.s (rOf c.rt (v 0)) (u ++ [(a, v 1)]) s' ∧ (A.st s').isMatch = true := by
  induction w generalizing prev cs last with
  | nil =>
    unfold runList
    rw [acceptAll_spec]
    constructor
    · rintro ⟨c, hc, h1, -, h3, h4, h5⟩
      exact ⟨[], [], rfl, ⟨by simp, by simpa using h3⟩, h4, c, hc, h1, h5⟩
    · rintro ⟨u, rest, hw, he, h4, c, hc, h1, h5⟩
      obtain ⟨rfl, rfl⟩ := List.nil_eq_append_iff.1 hw
      exact ⟨c, hc, h1, by simp [Bnd.sat], by simpa [EndsAt] using he, h4, by simpa using h5⟩
  | cons e w ih =>
    unfold runList
    split_ifs with hemp
    · simp only [List.isEmpty_iff] at hemp
      subst hemp
      simp
    · have hne : e.2 ≠ 0 := hw e (by simp)
      have hcs' : ∀ c ∈ stepAll A e.1 e.2 cs, c.rt.length = A.clockSize := by
        intro c hc
        obtain ⟨c0, hc0, h, -⟩ := mem_stepAll hc
        rw [h, hcs c0 hc0]
      simp only [List.mem_append, or_and_right, exists_or]
      rw [acceptAll_spec, ih (fun x hx => hw x (by simp [hx])) hcs']
      constructor
      · rintro (⟨c, hc, h1, h2, h3, h4, h5⟩ | ⟨u, rest, rfl, he, h4, hc⟩)
        · exact ⟨[], e :: w, rfl, ⟨by simpa [Bnd.sat] using h2, by simpa using h3⟩, h4, c, hc, h1, h5⟩
        · obtain ⟨c', hc', hin, a, ha, s', hr, hm⟩ := hc
          obtain ⟨c, hc, hin, hr⟩ := (stepAll_reads hA hne hcs).1 ⟨c', hc', hin, hr⟩
          refine ⟨e :: u, rest, rfl, ⟨he.1, ?_⟩, h4, c, hc, hin, a, ha, s', hr, hm⟩
          have := he.2
          cases hl : u.getLast? with
          | none =>
            rw [List.getLast?_eq_none_iff] at hl
            subst hl
            simpa using this
          | some x =>
            rw [hl] at this
            rw [List.getLast?_cons, hl]
            exact this
      · rintro ⟨u, rest, hw', he, h4, c, hc, hin, a, ha, s', hr, hm⟩
        cases u with
        | nil =>
          left
          simp only [List.nil_append] at hw'
          subst hw'
          refine ⟨c, hc, hin, ?_, ?_, h4, a, ha, s', hr, hm⟩
          · have := he.1 e (by simp)
            simpa [Bnd.sat] using this
          · simpa using he.2
        | cons x u =>
          right
          simp only [List.cons_append, List.cons.injEq] at hw'
          obtain ⟨rfl, rfl⟩ := hw'
          obtain ⟨c', hc', hin', hr'⟩ := (stepAll_reads hA hne hcs).2 ⟨c, hc, hin, hr⟩
          refine ⟨u, rest, rfl, ⟨he.1, ?_⟩, h4, c', hc', hin', a, ha, s', hr', hm⟩
          have := he.2
          rw [List.getLast?_cons] at this
          cases hl : u.getLast? with
          | none =>
            rw [hl] at this
            simpa using this
          | some y =>
            rw [hl] at this
            simpa using this

/-! ### the reported zones are closed -/

theorem runList_canon {L : Option Alphabet → Option Alphabet} {A : TA S} {τ₀ : K} {w : TWord K} (hw : w.Pairwise fun a b => a.2 ≤ b.2)
    (h0 : ∀ e ∈ w, τ₀ ≤ e.2) {prev : Option K} {cs last : List (Conf S K)}
    (hup : ∀ c ∈ cs, le' c.up (.fin τ₀ false)) (hlo : ∀ c ∈ cs, le' (lowerEnd prev) c.lo) :
    ∀ z ∈ (runList L A prev w cs last).1, z.Canon := by
  have acc : ∀ l, ∀ ue : Bnd K, le' (.fin τ₀ false) ue → ∀ z ∈ acceptOpt A l ue (lowerEnd prev) cs, z.Canon := by
    intro l ue hue z hz
    obtain ⟨c, hc, a, e, he, q, hq, hm, hval, rfl⟩ := mem_acceptAll hz
    exact sixZone_canon (foldl_sixGuard_tri (fun h => sixInit_tri (le'_trans (hup c hc) hue) (hlo c hc) h) hval)
      hval
  induction w generalizing prev cs last with
  | nil =>
    unfold runList
    exact acc _ _ (by simp [le'])
  | cons e w ih =>
    unfold runList
    split_ifs with hemp
    · simp
    · intro z hz
      rw [List.mem_append] at hz
      have h0e : τ₀ ≤ e.2 := h0 e (by simp)
      rcases hz with hz | hz
      · refine acc _ _ ?_ z hz
        rw [le'_iff]
        intro d hd
        rw [sat_f] at hd
        rw [sat_t]
        linarith
      · have hup' : ∀ c ∈ stepAll A e.1 e.2 cs, le' c.up (.fin τ₀ false) := by
          intro c hc
          obtain ⟨c0, hc0, -, -, h, -⟩ := mem_stepAll hc
          exact le'_trans h (hup c0 hc0)
        have hlo' : ∀ c ∈ stepAll A e.1 e.2 cs, le' (lowerEnd (some e.2)) c.lo := by
          intro c hc
          obtain ⟨c0, hc0, -, hv, -⟩ := mem_stepAll hc
          rw [isValid_iff] at hv
          obtain ⟨x, hx1, hx2⟩ := exists_between hv
          have hx := sat_of_le' (hup' c hc) hx1
          rw [sat_f] at hx
          rw [le'_iff]
          intro d hd
          simp only [lowerEnd, sat_f] at hd
          exact sat_mono_le hx2 (by linarith)
        refine ih (List.pairwise_cons.1 hw).2 (fun x hx => h0 x (by simp [hx])) hup' hlo' ?_ z hz
        intro l ue hue z hz
        obtain ⟨c, hc, a, e', he, q, hq, hm, hval, rfl⟩ := mem_acceptAll hz
        exact sixZone_canon (foldl_sixGuard_tri
          (fun h => sixInit_tri (le'_trans (hup' c hc) hue) (hlo' c hc) h) hval) hval

end Verif
