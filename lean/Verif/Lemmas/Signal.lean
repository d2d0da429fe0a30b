import Verif.Model.Signal
import Verif.Lemmas.Monaa

/-!
# `monaa` without silent transitions, and `monaaNotNecessaryDollar`
-/

set_option linter.unusedSectionVars false

namespace Verif

variable {S K σ : Type} [Field K] [LinearOrder K] [IsStrictOrderedRing K]

open Bnd Zone

/-- Every reported zone is reported from some start position. -/
theorem matchListE_mem {Q : Type} {M : Hooks S Q K} {T : Tables S} {w : TWord K} {inner fuel i : Nat} {zs : List (Zone K)}
    (h : matchListE M T w inner fuel i = .ok zs) {z : Zone K} (hz : z ∈ zs) :
    ∃ (i : Nat) (hi : i < w.length) (r : List (Zone K) × List Q),
      runListE M (prevOf w i) (w.drop i) (M.start (prevOf w i) w[i].2) [] = .ok r ∧ z ∈ r.1 := by
  induction fuel generalizing i zs with
  | zero => simp [matchListE] at h
  | succ fuel ih =>
    have key : ∀ i, (match w[i]? with
        | none => .ok []
        | some (e : Alphabet × K) => match runListE M (prevOf w i) (w.drop i) (M.start (prevOf w i) e.2) [] with
          | .error x => .error x
          | .ok r => match greatestN T M.state r.2 with
            | .error x => .error x
            | .ok n => do
              let rest ← matchListE M T w inner fuel (i + n)
              .ok (r.1 ++ rest)) = Except.ok zs → ∃ (i : Nat) (hi : i < w.length) (r : List (Zone K) × List Q),
      runListE M (prevOf w i) (w.drop i) (M.start (prevOf w i) w[i].2) [] = .ok r ∧ z ∈ r.1 := by
      intro i h
      simp only [bind, Except.bind] at h
      split at h
      · cases h
        simp at hz
      · rename_i e he
        obtain ⟨hi, rfl⟩ := List.getElem?_eq_some_iff.1 he
        split at h
        · cases h
        · rename_i r hr
          split at h
          · cases h
          · split at h
            · cases h
            · rename_i rest hrest
              cases h
              rcases List.mem_append.1 hz with hz | hz
              · exact ⟨i, hi, r, hr, hz⟩
              · exact ih hrest hz
    unfold matchListE at h
    split_ifs at h with h1 h2
    · cases hs : sundayList T w inner i with
      | error x =>
        rw [hs] at h
        simp [bind, Except.bind] at h
      | ok r =>
        rw [hs] at h
        simp only [bind, Except.bind] at h
        cases r with
        | none =>
          cases h
          simp at hz
        | some i' => exact key i' h
    · exact key i h
    · cases h
      simp at hz

theorem runListE_signal (A : TA S) (w : TWord K) (prev : Option K) (cs last : List (Conf S K)) :
    runListE (signalHooks A) prev w cs last = .ok (runList id A prev w cs last) := by
  induction w generalizing prev cs last with
  | nil =>
    unfold runListE runList
    simp [signalHooks, acceptOpt]
  | cons e w ih =>
    unfold runListE runList
    split_ifs with h
    · rfl
    · simp only [signalHooks]
      have := ih (some e.2) (stepAll A e.1 e.2 cs) cs
      simp only [signalHooks] at this
      rw [this]
      rfl

/-! ### `monaaNotNecessaryDollar` -/

/-- `runLoop` of `monaaNotNecessaryDollar` on the rest of the log. -/
def runOpt (A : TA S) (prev : Option K) :
    TWord K → List (Conf S K) → List (Conf S K) → List (Zone K) × List (Conf S K)
  | [], cs, _ => (acceptOn A dollar (.inf true) (lowerEnd prev) cs, cs)
  | e :: w, cs, last =>
    if cs.isEmpty then ([], last)
    else
      let r := runOpt A (some e.2) w (reachAll A e.1 e.2 cs).2 cs
      (acceptOn A dollar (.fin e.2 true) (lowerEnd prev) cs ++ (reachAll A e.1 e.2 cs).1 ++ r.1, r.2)

theorem runListE_optional (A : TA S) (w : TWord K) (prev : Option K) (cs last : List (Conf S K)) :
    runListE (optionalHooks A) prev w cs last = .ok (runOpt A prev w cs last) := by
  induction w generalizing prev cs last with
  | nil =>
    unfold runListE runOpt
    split_ifs with h
    · simp only [List.isEmpty_iff] at h
      subst h
      rfl
    · rfl
  | cons e w ih =>
    unfold runListE runOpt
    split_ifs with h
    · rfl
    · simp only [optionalHooks]
      have := ih (some e.2) (reachAll A e.1 e.2 cs).2 cs
      simp only [optionalHooks] at this
      rw [this]

theorem reachEdge_conf {A : TA S} {t : K} {c c' : Conf S K} {e : Transition S} (h : c' ∈ (reachEdge A t c e).2) :
    c' ∈ stepEdge t c e := by
  unfold reachEdge at h
  unfold stepEdge
  cases htg : e.target with
  | none => simp [htg] at h
  | some q =>
    simp only [htg] at h ⊢
    cases hg : transGuard t c.rt c.up c.lo e.guard with
    | none => simp [hg] at h
    | some p =>
      obtain ⟨up, lo⟩ := p
      simp only [hg] at h ⊢
      split_ifs at h ⊢ <;> first | exact h | simp at h

theorem reachAll_conf {A : TA S} {a : Alphabet} {t : K} {cs : List (Conf S K)} {c' : Conf S K}
    (h : c' ∈ (reachAll A a t cs).2) : c' ∈ stepAll A a t cs := by
  simp only [reachAll, List.mem_flatMap, List.mem_map] at h
  obtain ⟨p, ⟨c, hc, e, he, rfl⟩, h⟩ := h
  simp only [stepAll, List.mem_flatMap]
  exact ⟨c, hc, e, he, reachEdge_conf h⟩

theorem reachAll_zone {A : TA S} {a : Alphabet} {t : K} {cs : List (Conf S K)} {z : Zone K}
    (h : z ∈ (reachAll A a t cs).1) : ∃ c' ∈ stepAll A a t cs, (A.st c'.s).isMatch = true ∧
      z = sixZone (reachSix t c'.up c'.lo) := by
  simp only [reachAll, List.mem_flatMap, List.mem_map] at h
  obtain ⟨p, ⟨c, hc, e, he, rfl⟩, h⟩ := h
  unfold reachEdge at h
  cases htg : e.target with
  | none => simp [htg] at h
  | some q =>
    simp only [htg] at h
    cases hg : transGuard t c.rt c.up c.lo e.guard with
    | none => simp [hg] at h
    | some p =>
      obtain ⟨up, lo⟩ := p
      simp only [hg] at h
      split_ifs at h with h1 h2 h3
      · simp only [List.mem_singleton] at h
        refine ⟨⟨q, resetTimes t c.rt e.resets, up, lo⟩, ?_, h2, h⟩
        simp only [stepAll, List.mem_flatMap]
        refine ⟨c, hc, e, he, ?_⟩
        unfold stepEdge
        simp [htg, hg, h1]
      all_goals simp at h

theorem reachSix_Sat {t : K} {up lo : Bnd K} {x y : K} (ht : 0 ≤ t) :
    (reachSix t up lo).Sat x y ↔ up.sat x ∧ lo.sat (-x) ∧ y ≤ t ∧ -y ≤ t ∧ x ≤ y := by
  unfold reachSix Six.Sat
  simp only [sat_min, Bnd.zeroLe, sat_t]
  constructor
  · rintro ⟨h1, h2, h3, h4, h5, h6, h7⟩
    exact ⟨h1, h2, h3, h4, by linarith⟩
  · rintro ⟨h1, h2, h3, h4, h5⟩
    refine ⟨h1, h2, h3, h4, ?_, ?_, by linarith⟩
    · rw [sub_eq_add_neg]
      exact sat_add ((sat_t).2 h3) h2
    · rw [show x - y = -y + x by ring]
      exact sat_add ((sat_t).2 h4) h1

theorem reachAll_spec {A : TA S} (hA : A.ClocksDeclared) {a : Alphabet} {τ : K} (hτ : 0 < τ) {cs : List (Conf S K)}
    (hcs : ∀ c ∈ cs, c.rt.length = A.clockSize) {z : Zone K} (hz : z ∈ (reachAll A a τ cs).1) {v : Nat → K} (hv : z.Sat v) :
    v 0 ≤ v 1 ∧ v 1 ≤ τ ∧ z.Has (v 0) τ ∧ ∃ c ∈ cs, c.In (v 0) ∧
      ∃ s', A.Reads c.s (rOf c.rt (v 0)) [(a, τ)] s' ∧ (A.st s').isMatch = true := by
  obtain ⟨c', hc', hm, rfl⟩ := reachAll_zone hz
  rw [sixZone_Sat, reachSix_Sat hτ.le] at hv
  obtain ⟨h1, h2, h3, h4, h5⟩ := hv
  refine ⟨h5, h3, ?_, ?_⟩
  · unfold Zone.Has
    rw [sixZone_Sat, reachSix_Sat hτ.le]
    simp only [if_true]
    exact ⟨h1, h2, le_refl _, by simpa using le_trans (neg_nonpos.2 hτ.le) hτ.le, by simpa using le_trans h5 h3⟩
  · obtain ⟨c, hc, hin, hr⟩ := (stepAll_reads hA hτ.ne' hcs (u := []) (s' := c'.s)).1 ⟨c', hc', ⟨h1, h2⟩, rfl⟩
    exact ⟨c, hc, hin, c'.s, hr, hm⟩

theorem runOpt_spec {A : TA S} (hA : A.ClocksDeclared) {v : Nat → K} {w : TWord K}
    (hw : ∀ e ∈ w, 0 < e.2) {prev : Option K} {cs last : List (Conf S K)}
    (hcs : ∀ c ∈ cs, c.rt.length = A.clockSize) {z : Zone K} (hz : z ∈ (runOpt A prev w cs last).1) (hv : z.Sat v) :
    (∃ u rest, w = u ++ rest ∧ EndsAt prev u rest (v 1) ∧ v 0 ≤ v 1 ∧ ∃ c ∈ cs, c.In (v 0) ∧
        ∃ s', A.Reads c.s (rOf c.rt (v 0)) (u ++ [(dollar, v 1)]) s' ∧ (A.st s').isMatch = true) ∨
    ∃ u e rest, w = u ++ e :: rest ∧ v 0 ≤ v 1 ∧ v 1 ≤ e.2 ∧ z.Has (v 0) e.2 ∧ ∃ c ∈ cs, c.In (v 0) ∧
        ∃ s', A.Reads c.s (rOf c.rt (v 0)) (u ++ [e]) s' ∧ (A.st s').isMatch = true := by
  induction w generalizing prev cs last with
  | nil =>
    obtain ⟨c, hc, h1, -, h3, h4, h5⟩ := acceptOn_spec.1 ⟨z, hz, hv⟩
    exact .inl ⟨[], [], rfl, ⟨by simp, by simpa using h3⟩, h4, c, hc, h1, h5⟩
  | cons e w ih =>
    unfold runOpt at hz
    split_ifs at hz with hemp
    · cases hz
    · have hne : 0 < e.2 := hw e (by simp)
      simp only [List.mem_append] at hz
      rcases hz with (hz | hz) | hz
      · obtain ⟨c, hc, h1, h2, h3, h4, h5⟩ := acceptOn_spec.1 ⟨z, hz, hv⟩
        exact .inl ⟨[], e :: w, rfl, ⟨by simpa [Bnd.sat] using h2, by simpa using h3⟩, h4, c, hc, h1, h5⟩
      · obtain ⟨h1, h2, h3, c, hc, h⟩ := reachAll_spec hA hne hcs hz hv
        exact .inr ⟨[], e, w, rfl, h1, h2, h3, c, hc, h⟩
      · have hcs' : ∀ c ∈ (reachAll A e.1 e.2 cs).2, c.rt.length = A.clockSize := by
          intro c hc
          obtain ⟨c0, hc0, h, -⟩ := mem_stepAll (reachAll_conf hc)
          rw [h, hcs c0 hc0]
        rcases ih (fun x hx => hw x (by simp [hx])) hcs' hz with
          ⟨u, rest, rfl, he, h4, c', hc', hin, s', hr, hm⟩ | ⟨u, e', rest, rfl, h1, h2, h3, c', hc', hin, s', hr, hm⟩
        · left
          obtain ⟨c, hc, hin, hr⟩ := (stepAll_reads hA hne.ne' hcs).1 ⟨c', reachAll_conf hc', hin, hr⟩
          refine ⟨e :: u, rest, rfl, ⟨he.1, ?_⟩, h4, c, hc, hin, s', hr, hm⟩
          have := he.2
          cases hl : u.getLast? with
          | none =>
            rw [List.getLast?_eq_none_iff] at hl
            subst hl
            simpa using this
          | some x =>
            rw [hl] at this
            rw [List.getLast?_cons, hl]
            exact this
        · right
          obtain ⟨c, hc, hin, hr⟩ := (stepAll_reads hA hne.ne' hcs).1 ⟨c', reachAll_conf hc', hin, hr⟩
          exact ⟨e :: u, e', rest, rfl, h1, h2, h3, c, hc, hin, s', hr, hm⟩

theorem runOpt_in {A : TA S} {w : TWord K} {prev : Option K} {cs last : List (Conf S K)} {z : Zone K}
    (hz : z ∈ (runOpt A prev w cs last).1) {v : Nat → K} (hv : z.Sat v) : ∃ c ∈ cs, c.In (v 0) := by
  induction w generalizing prev cs last with
  | nil =>
    obtain ⟨c, hc, h, -⟩ := acceptOn_spec.1 ⟨z, hz, hv⟩
    exact ⟨c, hc, h⟩
  | cons e w ih =>
    unfold runOpt at hz
    split_ifs at hz with hemp
    · simp at hz
    · simp only [List.mem_append] at hz
      rcases hz with (hz | hz) | hz
      · obtain ⟨c, hc, h, -⟩ := acceptOn_spec.1 ⟨z, hz, hv⟩
        exact ⟨c, hc, h⟩
      · obtain ⟨c', hc', -, rfl⟩ := reachAll_zone hz
        rw [sixZone_Sat] at hv
        obtain ⟨c, hc, -, -, h1, h2⟩ := mem_stepAll hc'
        exact ⟨c, hc, sat_of_le' h1 hv.1, sat_of_le' h2 hv.2.1⟩
      · obtain ⟨c', hc', hin⟩ := ih hz
        obtain ⟨c, hc, -, -, h1, h2⟩ := mem_stepAll (reachAll_conf hc')
        exact ⟨c, hc, sat_of_le' h1 hin.1, sat_of_le' h2 hin.2⟩

/-- What `monaaNotNecessaryDollar` reports from one start position. -/
theorem runOpt_sound {A : TA S} (hA : A.ClocksDeclared) {w : TWord K} (hw : LogOk w)
    {i : Nat} (hi : i < w.length) {z : Zone K}
    (hz : z ∈ (runOpt A (prevOf w i) (w.drop i) (initConfs A (prevOf w i) w[i].2) []).1) {v : Nat → K}
    (hv : z.Sat v) : A.Match w (v 0) (v 1) ∨
      v 0 ≤ v 1 ∧ ∃ τ, v 1 ≤ τ ∧ z.Has (v 0) τ ∧ A.ReachMatch w (v 0) τ := by
  obtain ⟨c0, hc0, hin0⟩ := runOpt_in hz hv
  have hstart : StartsAt w i (v 0) := (in_initConfs hw hi hc0).1 hin0
  have hpos : ∀ e ∈ w.drop i, 0 < e.2 := fun e he => lt_of_le_of_lt hstart.nonneg (hstart.after e he)
  rcases runOpt_spec hA hpos initConfs_length hz hv with
    ⟨u, rest, hsplit, hend, hle, c, hc, hin, s', hr, hm⟩ | ⟨u, e, rest, hsplit, h1, h2, h3, c, hc, hin, s', hr, hm⟩
  · left
    obtain ⟨hs, hrt, -, -⟩ := mem_initConfs hc
    rw [hrt, rOf_zero] at hr
    obtain ⟨hb, -⟩ := split_facts hw hi hstart hsplit hend hle
    exact ⟨hstart.nonneg, hle, by rw [hb]; exact ⟨c.s, hs, s', hr, hm⟩⟩
  · right
    obtain ⟨hs, hrt, -, -⟩ := mem_initConfs hc
    rw [hrt, rOf_zero] at hr
    refine ⟨h1, e.2, h2, h3, hstart.nonneg, hstart.after e (by rw [hsplit]; simp), ?_⟩
    have e0 : w = (w.take i ++ u) ++ e :: rest := by rw [List.append_assoc, ← hsplit, List.take_append_drop]
    refine ⟨w.take i ++ u, e.1, rest, e0, ?_⟩
    have hf : (w.take i ++ u).filter (fun x => decide (v 0 < x.2)) = u := by
      rw [List.filter_append, List.filter_eq_nil_iff.2, List.filter_eq_self.2]
      · rfl
      · intro x hx
        simpa using hstart.after x (by rw [hsplit]; simp [hx])
      · intro x hx
        simpa using hstart.before x hx
    rw [hf]
    exact ⟨c.s, hs, s', hr, hm⟩

section
variable [DecidableEq S] {C : Cont K σ} {w : TWord K} {Inv : Nat → Nat → σ → Prop} (H : Implements C w Inv)
  {k : Nat} {s : σ} (hI : Inv 0 k s) {addr : S → Nat} {fuel steps efuel : Nat} (hsteps : w.length < steps) {A : TA S}

include H hI hsteps

theorem monaa_inv {st st' : Option Nat} {zs : List (Zone K)} (h : monaa fuel steps efuel C st A s = (.ok zs, st')) :
    ∃ T, makeTables K fuel A = .ok T ∧
      (A.NoSilent ∧ clocksOk A = true ∧ matchListE (signalHooks A) T w steps steps 0 = .ok zs ∨
        ¬ A.NoSilent ∧ matchListE (silentHooks A (st.getD A.clockSize) efuel) T w steps steps 0 = .ok zs) := by
  unfold monaa at h
  split at h
  · simp at h
  · rename_i T hT
    have hm := (sundayTable_shape (makeTables_spec hT).1).1
    refine ⟨T, hT, ?_⟩
    split_ifs at h with h1 h2
    · left
      simp only [Prod.mk.injEq] at h
      refine ⟨noSilent_iff.1 h1, h2, ?_⟩
      rw [← matchLoop_spec H hI hm (by omega) hsteps]
      exact h.1
    · simp at h
    · right
      simp only [Prod.mk.injEq] at h
      refine ⟨fun h => h1 (noSilent_iff.2 h), ?_⟩
      rw [← matchLoop_spec H hI hm (by omega) hsteps]
      exact h.1
    · right
      simp only [Prod.mk.injEq] at h
      refine ⟨fun h => h1 (noSilent_iff.2 h), ?_⟩
      rw [← matchLoop_spec H hI hm (by omega) hsteps]
      exact h.1

theorem optional_inv {zs : List (Zone K)} (h : monaaNotNecessaryDollar addr fuel steps C A s = .ok zs) :
    ∃ Ap T, prepareOpt addr A = .ok Ap ∧ makeTables K fuel Ap = .ok T ∧
      (¬ A.NoSilent ∧ zs = [] ∨
        A.NoSilent ∧ clocksOk A = true ∧ matchListE (optionalHooks A) T w steps steps 0 = .ok zs) := by
  unfold monaaNotNecessaryDollar at h
  simp only [bind, Except.bind] at h
  split at h
  · cases h
  · rename_i Ap hp
    split at h
    · cases h
    · rename_i T hT
      have hm := (sundayTable_shape (makeTables_spec hT).1).1
      refine ⟨Ap, T, hp, hT, ?_⟩
      split_ifs at h with h1 h2
      · refine Or.inr ⟨noSilent_iff.1 h1, h2, ?_⟩
        rw [← matchLoop_spec H hI hm (by omega) hsteps]
        exact h
      · left
        refine ⟨fun h => h1 (noSilent_iff.2 h), ?_⟩
        simp only [Except.ok.injEq] at h
        exact h.symm

end

end Verif
