import Verif.Lemmas.Container
import Verif.Spec.Skip

set_option linter.unusedSectionVars false

/-! Soundness and completeness of the matching loop on a list. -/

namespace Verif

variable {S K : Type} [Field K] [LinearOrder K] [IsStrictOrderedRing K]

open Bnd Zone

/-- `matchLoop` of `monaaDollar` on the list. -/
def matchList (A : TA S) (T : Tables S) (w : TWord K) (inner : Nat) : Nat → Nat → Except Err (List (Zone K))
  | 0, _ => .error .fuel
  | fuel + 1, i =>
    if i + T.m - 1 < w.length then do
      let r ← if T.m > 1 then sundayList T w inner i else .ok (some i)
      match r with
      | none => .ok []
      | some i => match w[i]? with
        | none => .ok []
        | some e =>
          let r := runList endMark A (prevOf w i) (w.drop i) (initConfs A (prevOf w i) e.2) []
          match greatestN T Conf.s r.2 with
          | .error x => .error x
          | .ok n => do
            let rest ← matchList A T w inner fuel (i + n)
            .ok (r.1 ++ rest)
    else .ok []

theorem runListE_dollar (A : TA S) (w : TWord K) (prev : Option K) (cs last : List (Conf S K)) :
    runListE (dollarHooks A) prev w cs last = .ok (runList endMark A prev w cs last) := by
  induction w generalizing prev cs last with
  | nil =>
    unfold runListE runList
    split_ifs with h
    · simp only [List.isEmpty_iff] at h
      subst h
      rfl
    · rfl
  | cons e w ih =>
    unfold runListE runList
    split_ifs with h
    · rfl
    · simp only [dollarHooks]
      have := ih (some e.2) (stepAll A e.1 e.2 cs) cs
      simp only [dollarHooks] at this
      rw [this]
      rfl

theorem matchListE_dollar (A : TA S) (T : Tables S) (w : TWord K) (inner fuel i : Nat) :
    matchListE (dollarHooks A) T w inner fuel i = matchList A T w inner fuel i := by
  induction fuel generalizing i with
  | zero => rfl
  | succ fuel ih =>
    unfold matchListE matchList
    simp only [runListE_dollar, ih]
    rfl

theorem mem_initConfs {A : TA S} {prev : Option K} {τ : K} {c : Conf S K} (h : c ∈ initConfs A prev τ) :
    c.s ∈ A.init ∧ c.rt = List.replicate A.clockSize 0 ∧ c.up = .fin τ false ∧
      c.lo = lowerBegin prev := by
  simp only [initConfs, List.mem_map] at h
  obtain ⟨s, hs, rfl⟩ := h
  exact ⟨hs, rfl, rfl, rfl⟩

theorem rOf_zero (n : Nat) (t : K) : rOf (List.replicate n 0) t = fun _ => t := by
  funext x
  have : rtAt (List.replicate n (0 : K)) x = 0 := by
    simp only [rtAt, List.getD_eq_getElem?_getD, List.getElem?_replicate]
    split_ifs <;> rfl
  simp [rOf, this]

theorem startsAt_iff {w : TWord K} (hw : LogOk w) {i : Nat} (hi : i < w.length) {t : K} :
    StartsAt w i t ↔ t < w[i].2 ∧
      (lowerBegin (prevOf w i)).sat (-t) := by
  have hs := List.pairwise_iff_getElem.1 hw.sorted
  constructor
  · intro h
    refine ⟨h.after _ ?_, ?_⟩
    · rw [List.mem_drop_iff_getElem]
      exact ⟨0, by omega, by simp⟩
    · unfold prevOf lowerBegin
      by_cases h0 : i = 0
      · simp [h0, Bnd.zeroLe, sat_t]
        exact h.nonneg
      · have hi1 : i - 1 < w.length := by omega
        simp only [h0, if_false, List.getElem?_eq_getElem hi1, Option.map_some, sat_t]
        have : w[i - 1] ∈ w.take i := by
          rw [List.mem_take_iff_getElem]
          exact ⟨i - 1, by omega, rfl⟩
        have := h.before _ this
        linarith
  · rintro ⟨h1, h2⟩
    refine ⟨hi, ?_, ?_, ?_⟩
    · unfold prevOf lowerBegin at h2
      by_cases h0 : i = 0
      · simp [h0, Bnd.zeroLe, sat_t] at h2
        exact h2
      · have hi1 : i - 1 < w.length := by omega
        simp only [h0, if_false, List.getElem?_eq_getElem hi1, Option.map_some, sat_t] at h2
        have := hw.nonneg w[i - 1] (List.getElem_mem hi1)
        linarith
    · intro e he
      rw [List.mem_take_iff_getElem] at he
      obtain ⟨k, hk, rfl⟩ := he
      have h0 : i ≠ 0 := by omega
      have hi1 : i - 1 < w.length := by omega
      simp only [prevOf, lowerBegin, h0, if_false, List.getElem?_eq_getElem hi1, Option.map_some, sat_t] at h2
      rcases Nat.lt_or_ge k (i - 1) with hc | hc
      · have := hs k (i - 1) (by omega) hi1 hc
        linarith
      · have : k = i - 1 := by omega
        subst this
        linarith
    · intro e he
      rw [List.mem_drop_iff_getElem] at he
      obtain ⟨k, hk, rfl⟩ := he
      rcases Nat.eq_zero_or_pos k with rfl | hk0
      · simpa using h1
      · have := hs i (i + k) hi (by omega) (by omega)
        linarith

theorem in_initConfs {A : TA S} {w : TWord K} (hw : LogOk w) {i : Nat} (hi : i < w.length) {c : Conf S K}
    (h : c ∈ initConfs A (prevOf w i) w[i].2) {t : K} : c.In t ↔ StartsAt w i t := by
  obtain ⟨-, -, h1, h2⟩ := mem_initConfs h
  rw [startsAt_iff hw hi, Conf.In, h1, h2, sat_f]

theorem between_split {w pre u rest : TWord K} {t t' : K} (hw : w = pre ++ (u ++ rest))
    (h1 : ∀ e ∈ pre, e.2 ≤ t) (h2 : ∀ e ∈ u, t < e.2 ∧ e.2 < t') (h3 : ∀ e ∈ rest, t' ≤ e.2) :
    between w t t' = u := by
  unfold between
  rw [hw, List.filter_append, List.filter_append]
  have e1 : pre.filter (fun e => decide (t < e.2 ∧ e.2 < t')) = [] := by
    rw [List.filter_eq_nil_iff]
    intro e he
    have := h1 e he
    simp only [decide_eq_true_eq, not_and]
    intro h
    linarith
  have e2 : rest.filter (fun e => decide (t < e.2 ∧ e.2 < t')) = [] := by
    rw [List.filter_eq_nil_iff]
    intro e he
    have := h3 e he
    simp only [decide_eq_true_eq, not_and]
    intro h h'
    linarith
  have e3 : u.filter (fun e => decide (t < e.2 ∧ e.2 < t')) = u := by
    rw [List.filter_eq_self]
    intro e he
    simpa using h2 e he
  rw [e1, e2, e3]
  simp

theorem runList_in {L : Option Alphabet → Option Alphabet} {A : TA S} {w : TWord K} {prev : Option K} {cs last : List (Conf S K)} {z : Zone K}
    (hz : z ∈ (runList L A prev w cs last).1) {v : Nat → K} (hv : z.Sat v) : ∃ c ∈ cs, c.In (v 0) := by
  induction w generalizing prev cs last with
  | nil =>
    unfold runList at hz
    obtain ⟨c, hc, h, -⟩ := acceptAll_spec.1 ⟨z, hz, hv⟩
    exact ⟨c, hc, h⟩
  | cons e w ih =>
    unfold runList at hz
    split_ifs at hz with hemp
    · simp at hz
    · rw [List.mem_append] at hz
      rcases hz with hz | hz
      · obtain ⟨c, hc, h, -⟩ := acceptAll_spec.1 ⟨z, hz, hv⟩
        exact ⟨c, hc, h⟩
      · obtain ⟨c', hc', hin⟩ := ih hz
        obtain ⟨c, hc, -, -, h1, h2⟩ := mem_stepAll hc'
        exact ⟨c, hc, sat_of_le' h1 hin.1, sat_of_le' h2 hin.2⟩

theorem StartsAt.ne_zero {w : TWord K} {i : Nat} {t : K} (h : StartsAt w i t) : ∀ e ∈ w.drop i, e.2 ≠ 0 := by
  intro e he
  have h1 := h.after e he
  have h2 := h.nonneg
  intro h3
  rw [h3] at h1
  exact absurd h1 (not_lt.2 h2)

theorem initConfs_length {A : TA S} {prev : Option K} {τ : K} :
    ∀ c ∈ initConfs A prev τ, c.rt.length = A.clockSize := by
  intro c hc
  rw [(mem_initConfs hc).2.1]
  simp

/-- The events of a split of the log at the end of a match. -/
theorem split_facts {w : TWord K} (hw : LogOk w) {i : Nat} (hi : i < w.length) {v : Nat → K} (hstart : StartsAt w i (v 0))
    {u rest : TWord K} (hsplit : w.drop i = u ++ rest) (hend : EndsAt (prevOf w i) u rest (v 1)) (hle : v 0 ≤ v 1) :
    between w (v 0) (v 1) = u ∧ letterAt w (v 1) = rest.head?.map (·.1) := by
  have hws : (u ++ rest).Pairwise fun a b => a.2 ≤ b.2 := hsplit ▸ hw.sorted.sublist (List.drop_sublist i w)
  have hU : ∀ e ∈ u, v 0 < e.2 ∧ e.2 < v 1 := by
    intro e he
    refine ⟨hstart.after e (by rw [hsplit]; simp [he]), ?_⟩
    have h2 := hend.2
    cases hl : u.getLast? with
    | none =>
      rw [List.getLast?_eq_none_iff] at hl
      subst hl
      simp at he
    | some x =>
      rw [hl] at h2
      simp only [lowerEnd, sat_f] at h2
      have hlt : x.2 < v 1 := by linarith
      obtain ⟨u', rfl⟩ := List.getLast?_eq_some_iff.1 hl
      have hu := (List.pairwise_append.1 hws).1
      rw [List.pairwise_append] at hu
      rw [List.mem_append] at he
      rcases he with he | he
      · have := hu.2.2 e he x (by simp)
        linarith
      · simp only [List.mem_singleton] at he
        rw [he]
        exact hlt
  have hR : ∀ e ∈ rest, v 1 ≤ e.2 := by
    intro e he
    cases rest with
    | nil => simp at he
    | cons x rest =>
      have h1 := hend.1 x (by simp)
      rcases List.mem_cons.1 he with rfl | he
      · exact h1
      · have := (List.pairwise_cons.1 (List.pairwise_append.1 hws).2.1).1 e he
        linarith
  have hP : ∀ e ∈ w.take i, e.2 < v 1 := by
    intro e he
    cases u with
    | nil =>
      have h2 := hend.2
      simp only [List.getLast?_nil] at h2
      rw [List.mem_take_iff_getElem] at he
      obtain ⟨j, hj, rfl⟩ := he
      have hi0 : i ≠ 0 := by omega
      have hi1 : i - 1 < w.length := by omega
      simp only [prevOf, if_neg hi0, List.getElem?_eq_getElem hi1, Option.map_some, lowerEnd, sat_f] at h2
      have h3 : w[j].2 ≤ w[i - 1].2 := by
        rcases Nat.lt_or_ge j (i - 1) with hc | hc
        · exact List.pairwise_iff_getElem.1 hw.sorted j (i - 1) (by omega) hi1 hc
        · have : j = i - 1 := by omega
          subst this
          exact le_refl _
      linarith
    | cons x u =>
      have h1 := hU x (by simp)
      have h2 := hstart.before e he
      linarith
  have e0 : w = w.take i ++ (u ++ rest) := by rw [← hsplit, List.take_append_drop]
  refine ⟨between_split e0 hstart.before hU hR, ?_⟩
  have hl : w.filter (fun e => decide (v 1 ≤ e.2)) = rest := by
    rw [e0, List.filter_append, List.filter_append, List.filter_eq_nil_iff.2, List.filter_eq_nil_iff.2,
      List.filter_eq_self.2]
    · rfl
    · intro e he
      simpa using hR e he
    · intro e he
      simpa using (hU e he).2
    · intro e he
      simpa using hP e he
  rw [letterAt, hl]

/-- What is reported from one start position. -/
theorem run_sound_on {L : Option Alphabet → Option Alphabet} {A : TA S} (hA : A.ClocksDeclared) {w : TWord K} (hw : LogOk w)
    {i : Nat} (hi : i < w.length) {z : Zone K}
    (hz : z ∈ (runList L A (prevOf w i) (w.drop i) (initConfs A (prevOf w i) w[i].2) []).1) {v : Nat → K}
    (hv : z.Sat v) : StartsAt w i (v 0) ∧ 0 ≤ v 0 ∧ v 0 ≤ v 1 ∧
      ∃ a, L (letterAt w (v 1)) = some a ∧ A.AcceptsFrom (v 0) (between w (v 0) (v 1) ++ [(a, v 1)]) := by
  obtain ⟨c0, hc0, hin0⟩ := runList_in hz hv
  have hstart : StartsAt w i (v 0) := (in_initConfs hw hi hc0).1 hin0
  refine ⟨hstart, ?_⟩
  obtain ⟨u, rest, hsplit, hend, hle, c, hc, hin, a, ha, s', hr, hm⟩ :=
    (runList_spec hA hstart.ne_zero initConfs_length).1 ⟨z, hz, hv⟩
  obtain ⟨hs, hrt, -, -⟩ := mem_initConfs hc
  rw [hrt, rOf_zero] at hr
  refine ⟨hstart.nonneg, hle, ?_⟩
  obtain ⟨hb, hl⟩ := split_facts hw hi hstart hsplit hend hle
  exact ⟨a, by rw [hl]; exact ha, by rw [hb]; exact ⟨c.s, hs, s', hr, hm⟩⟩

/-- What is reported from one start position. -/
theorem run_sound {A : TA S} (hA : A.ClocksDeclared) {w : TWord K} (hw : LogOk w) {i : Nat}
    (hi : i < w.length) {z : Zone K}
    (hz : z ∈ (runList endMark A (prevOf w i) (w.drop i) (initConfs A (prevOf w i) w[i].2) []).1) {v : Nat → K}
    (hv : z.Sat v) : StartsAt w i (v 0) ∧ A.Match w (v 0) (v 1) := by
  obtain ⟨h1, h2, h3, a, ha, h4⟩ := run_sound_on hA hw hi hz hv
  simp only [endMark, Option.some.injEq] at ha
  subst ha
  exact ⟨h1, h2, h3, h4⟩

/-- Everything that matches from a start position is reported. -/
theorem run_complete {A : TA S} (hA : A.ClocksDeclared) {w : TWord K} (hw : LogOk w) {i : Nat}
    (hi : i < w.length) {v : Nat → K} (hstart : StartsAt w i (v 0)) (hne : between w (v 0) (v 1) ≠ [])
    (hm : A.Match w (v 0) (v 1)) :
    ∃ z ∈ (runList endMark A (prevOf w i) (w.drop i) (initConfs A (prevOf w i) w[i].2) []).1, z.Sat v := by
  obtain ⟨h0, hle, s, hs, s', hr, hacc⟩ := hm
  rw [runList_spec hA hstart.ne_zero initConfs_length]
  have hws : (w.drop i).Pairwise fun a b => a.2 ≤ b.2 := hw.sorted.sublist (List.drop_sublist i w)
  -- split the rest of the log at the end of the match
  have key : ∃ u rest, w.drop i = u ++ rest ∧ (∀ e ∈ u, e.2 < v 1) ∧ ∀ e ∈ rest, v 1 ≤ e.2 := by
    revert hws
    generalize w.drop i = l
    intro hl
    induction l with
    | nil => exact ⟨[], [], rfl, by simp, by simp⟩
    | cons e l ih =>
      rw [List.pairwise_cons] at hl
      by_cases hc : e.2 < v 1
      · obtain ⟨u, rest, rfl, h1, h2⟩ := ih hl.2
        refine ⟨e :: u, rest, rfl, ?_, h2⟩
        intro x hx
        rcases List.mem_cons.1 hx with rfl | hx
        · exact hc
        · exact h1 x hx
      · refine ⟨[], e :: l, rfl, by simp, ?_⟩
        intro x hx
        rcases List.mem_cons.1 hx with rfl | hx
        · exact not_lt.1 hc
        · exact le_trans (not_lt.1 hc) (hl.1 x hx)
  obtain ⟨u, rest, hsplit, h1, h2⟩ := key
  have hb : between w (v 0) (v 1) = u := by
    refine between_split (pre := w.take i) (rest := rest) ?_ hstart.before ?_ h2
    · rw [← hsplit, List.take_append_drop]
    · intro e he
      exact ⟨hstart.after e (by rw [hsplit]; simp [he]), h1 e he⟩
  rw [hb] at hr hne
  have hc : ∃ c ∈ initConfs A (prevOf w i) w[i].2, c.s = s := by
    simp only [initConfs, List.mem_map]
    exact ⟨_, ⟨s, hs, rfl⟩, rfl⟩
  obtain ⟨c, hc, hcs⟩ := hc
  refine ⟨u, rest, hsplit, ⟨?_, ?_⟩, hle, c, hc, (in_initConfs hw hi hc).2 hstart, dollar, rfl, s', ?_, hacc⟩
  · intro e he
    exact h2 e (List.mem_of_mem_head? he)
  · cases hl : u.getLast? with
    | none => exact absurd (List.getLast?_eq_none_iff.1 hl) hne
    | some x =>
      simp only [lowerEnd, sat_f]
      have := h1 x (List.mem_of_getLast? hl)
      linarith
  · rw [(mem_initConfs hc).2.1, rOf_zero, hcs]
    exact hr

/-! ### the whole loop -/

theorem matchList_mem {A : TA S} {T : Tables S} {w : TWord K} {inner fuel i : Nat} {zs : List (Zone K)}
    (h : matchList A T w inner fuel i = .ok zs) {z : Zone K} (hz : z ∈ zs) :
    ∃ (i : Nat) (hi : i < w.length),
      z ∈ (runList endMark A (prevOf w i) (w.drop i) (initConfs A (prevOf w i) w[i].2) []).1 := by
  induction fuel generalizing i zs with
  | zero => simp [matchList] at h
  | succ fuel ih =>
    unfold matchList at h
    split_ifs at h with h1 h2
    all_goals try simp only [bind, Except.bind] at h
    · split at h
      · cases h
      · split at h
        · cases h
          simp at hz
        · split at h
          · cases h
            simp at hz
          · split at h
            · cases h
            · split at h
              · cases h
              · rename_i i' e he _ n hn _ rest hrest
                cases h
                rw [List.mem_append] at hz
                rcases hz with hz | hz
                · obtain ⟨hi, he⟩ := List.getElem?_eq_some_iff.1 he
                  exact ⟨_, hi, by rw [he]; exact hz⟩
                · exact ih hrest hz
    · split at h
      · cases h
        simp at hz
      · split at h
        · cases h
        · split at h
          · cases h
          · rename_i e he _ n hn _ rest hrest
            cases h
            rw [List.mem_append] at hz
            rcases hz with hz | hz
            · obtain ⟨hi, he⟩ := List.getElem?_eq_some_iff.1 he
              exact ⟨_, hi, by rw [he]; exact hz⟩
            · exact ih hrest hz
    · cases h
      simp at hz

theorem greatestN_ge {Q : Type} {st : Q → S} {T : Tables S} {last : List Q} {n : Nat} (h : greatestN T st last = .ok n) :
    1 ≤ n ∧ (n = 1 ∨ ∃ c ∈ last, T.beta (st c) = some n) ∧ ∀ c ∈ last, ∃ b, T.beta (st c) = some b ∧ b ≤ n := by
  have key : ∀ (l : List Q) (k : Nat), l.foldlM (fun n c => match T.beta (st c) with
      | none => Except.error Err.outOfRange
      | some b => Except.ok (max b n)) k = .ok n →
      k ≤ n ∧ (n = k ∨ ∃ c ∈ l, T.beta (st c) = some n) ∧ ∀ c ∈ l, ∃ b, T.beta (st c) = some b ∧ b ≤ n := by
    intro l
    induction l with
    | nil =>
      intro k h
      simp only [List.foldlM_nil, pure, Except.pure, Except.ok.injEq] at h
      subst h
      simp
    | cons c l ih =>
      intro k h
      rw [List.foldlM_cons] at h
      cases hb : T.beta (st c) with
      | none => simp [hb, bind, Except.bind] at h
      | some b =>
        simp only [hb, bind, Except.bind] at h
        obtain ⟨h1, h2, h3⟩ := ih _ h
        refine ⟨by omega, ?_, ?_⟩
        · rcases h2 with h2 | ⟨c', hc', h2⟩
          · by_cases hbk : b ≤ k
            · left
              omega
            · right
              refine ⟨c, by simp, ?_⟩
              rw [hb]
              congr 1
              omega
          · exact Or.inr ⟨c', by simp [hc'], h2⟩
        · intro c' hc'
          rcases List.mem_cons.1 hc' with rfl | hc'
          · exact ⟨b, hb, by omega⟩
          · exact h3 c' hc'
  exact key last 1 h

theorem runList_last {L : Option Alphabet → Option Alphabet} {A : TA S} (hA : A.ClocksDeclared) {w : TWord K} (hw : ∀ e ∈ w, e.2 ≠ 0)
    {prev : Option K} {cs last : List (Conf S K)} (hcs : ∀ c ∈ cs, c.rt.length = A.clockSize)
    (hval : ∀ c ∈ cs, isValidConstraint c.up c.lo = true) {c : Conf S K}
    (hc : c ∈ (runList L A prev w cs last).2) :
    c ∈ last ∨ ∃ n t, ∃ c0 ∈ cs, c0.In t ∧ A.Reads c0.s (rOf c0.rt t) (w.take n) c.s := by
  have base : ∀ (cs : List (Conf S K)), (∀ c ∈ cs, isValidConstraint c.up c.lo = true) → c ∈ cs → ∃ t, c.In t := by
    intro cs hval hc
    have := isValid_iff.1 (hval c hc)
    obtain ⟨t, h1, h2⟩ := exists_between this
    exact ⟨t, h1, h2⟩
  induction w generalizing prev cs last with
  | nil =>
    right
    obtain ⟨t, ht⟩ := base cs hval hc
    exact ⟨0, t, c, hc, ht, rfl⟩
  | cons e w ih =>
    unfold runList at hc
    split_ifs at hc with hemp
    · exact Or.inl hc
    · right
      have hcs' : ∀ c ∈ stepAll A e.1 e.2 cs, c.rt.length = A.clockSize := by
        intro c hc
        obtain ⟨c0, hc0, h, -⟩ := mem_stepAll hc
        rw [h, hcs c0 hc0]
      have hval' : ∀ c ∈ stepAll A e.1 e.2 cs, isValidConstraint c.up c.lo = true := by
        intro c hc
        exact (mem_stepAll hc).choose_spec.2.2.1
      rcases ih (fun x hx => hw x (by simp [hx])) hcs' hval' hc with h | ⟨n, t, c', hc', hin, hr⟩
      · obtain ⟨t, ht⟩ := base cs hval h
        exact ⟨0, t, c, h, ht, rfl⟩
      · obtain ⟨c0, hc0, hin0, hr0⟩ := (stepAll_reads hA (hw e (by simp)) hcs).1 ⟨c', hc', hin, hr⟩
        exact ⟨n + 1, t, c0, hc0, hin0, hr0⟩

/-- The match at `(t, t')` seen as a word fitting the pattern. -/
theorem fits_of_match {A : TA S} {w : TWord K} (hw : LogOk w) (hl : LettersOk w) (hs : LogStrict w) {t t' : K}
    (hne : between w t t' ≠ []) (hm : A.Match w t t') : A.Fits t (between w t t') t' := by
  have hsub : (between w t t').Sublist w := List.filter_sublist
  refine ⟨hne, fun e he => hl e (hsub.subset he), fun e he => hw.noMarker e (hsub.subset he), ⟨hm.1, ?_⟩, hs.2.sublist hsub, ?_, hm.2.2⟩
  · intro e he
    simp only [between, List.mem_filter, decide_eq_true_eq] at he
    exact he.2.1
  · intro e he
    simp only [between, List.mem_filter, decide_eq_true_eq] at he
    exact he.2.2

/-- The log from the start position on, split at the end of the match. -/
theorem between_drop {w : TWord K} (hw : LogOk w) {i : Nat} {t : K} (hstart : StartsAt w i t) (t' : K) :
    ∃ u rest, w.drop i = u ++ rest ∧ between w t t' = u ∧ (∀ e ∈ u, e.2 < t') ∧ ∀ e ∈ rest, t' ≤ e.2 := by
  have hws : (w.drop i).Pairwise fun a b => a.2 ≤ b.2 := hw.sorted.sublist (List.drop_sublist i w)
  have key : ∃ u rest, w.drop i = u ++ rest ∧ (∀ e ∈ u, e.2 < t') ∧ ∀ e ∈ rest, t' ≤ e.2 := by
    revert hws
    generalize w.drop i = l
    intro hl
    induction l with
    | nil => exact ⟨[], [], rfl, by simp, by simp⟩
    | cons e l ih =>
      rw [List.pairwise_cons] at hl
      by_cases hc : e.2 < t'
      · obtain ⟨u, rest, rfl, h1, h2⟩ := ih hl.2
        refine ⟨e :: u, rest, rfl, ?_, h2⟩
        intro x hx
        rcases List.mem_cons.1 hx with rfl | hx
        · exact hc
        · exact h1 x hx
      · refine ⟨[], e :: l, rfl, by simp, ?_⟩
        intro x hx
        rcases List.mem_cons.1 hx with rfl | hx
        · exact not_lt.1 hc
        · exact le_trans (not_lt.1 hc) (hl.1 x hx)
  obtain ⟨u, rest, hsplit, h1, h2⟩ := key
  refine ⟨u, rest, hsplit, between_split (pre := w.take i) (rest := rest) ?_ hstart.before ?_ h2, h1, h2⟩
  · rw [← hsplit, List.take_append_drop]
  · intro e he
    exact ⟨hstart.after e (by rw [hsplit]; simp [he]), h1 e he⟩

theorem between_getElem {w : TWord K} (hw : LogOk w) {i : Nat} {t t' : K} (hstart : StartsAt w i t) :
    ∃ n, between w t t' = (w.drop i).take n := by
  obtain ⟨u, rest, hsplit, hb, -⟩ := between_drop hw hstart t'
  refine ⟨u.length, ?_⟩
  rw [hb, hsplit]
  simp

theorem initConfs_valid {A : TA S} {w : TWord K} (hs : LogStrict w) {k : Nat} (hkw : k < w.length) :
    ∀ c ∈ initConfs A (prevOf w k) w[k].2, isValidConstraint c.up c.lo = true := by
  intro c hc
  obtain ⟨-, -, e1, e2⟩ := mem_initConfs hc
  rw [isValid_iff, e1, e2]
  by_cases h0 : k = 0
  · have := hs.1 w[k] (List.getElem_mem hkw)
    simp [prevOf, h0, lowerBegin, Bnd.zeroLe, sat_f] at this ⊢
    simpa [h0] using this
  · have hk1 : k - 1 < w.length := by omega
    have := List.pairwise_iff_getElem.1 hs.2 (k - 1) k hk1 hkw (by omega)
    simp [prevOf, h0, lowerBegin, sat_f, List.getElem?_eq_getElem hk1]
    exact this

/-- The tables never skip over position `i` of the log. -/
structure Room (T : Tables S) (w : TWord K) (i : Nat) : Prop where
  m : 1 ≤ T.m
  range : ∀ d ∈ T.delta, 1 ≤ d ∧ d ≤ T.m + 1
  room : i + T.m ≤ w.length
  last : ∀ h : i + T.m - 1 < w.length, w[i + T.m - 1].1 ∈ T.endChars
  skip : ∀ p, p < T.m → ∀ h : i + p < w.length, ∀ d, T.delta[w[i + p].1]? = some d → d ≤ T.m - p

theorem sundayList_room {T : Tables S} {w : TWord K} {i : Nat} (hR : Room T w i) {fuel k : Nat} (hk : k ≤ i) {r : Option Nat}
    (h : sundayList T w fuel k = .ok r) : ∃ k', r = some k' ∧ k ≤ k' ∧ k' ≤ i := by
  have h1 := hR.room
  have h2 := hR.last
  have h3 := hR.skip
  have hm1 := hR.m
  induction fuel generalizing k with
  | zero => simp [sundayList] at h
  | succ fuel ih =>
    unfold sundayList at h
    have hlt : k + T.m - 1 < w.length := by omega
    rw [List.getElem?_eq_getElem hlt] at h
    simp only at h
    split_ifs at h with hend
    · cases h
      exact ⟨k, rfl, Nat.le_refl _, hk⟩
    · have hki : k < i := by
        rcases Nat.lt_or_ge k i with hc | hc
        · exact hc
        · have : k = i := by omega
          subst this
          exact absurd (h2 hlt) hend
      have hlt2 : k + T.m < w.length := by omega
      rw [List.getElem?_eq_getElem hlt2] at h
      simp only at h
      split at h
      · cases h
      · rename_i d hd
        have hdi : k + d ≤ i := by
          rcases Nat.lt_or_ge (k + T.m) i with hc | hc
          · have := (hR.range d (List.mem_of_getElem? hd)).2
            omega
          · have e : i + (k + T.m - i) = k + T.m := by omega
            have := h3 (k + T.m - i) (by omega) (by omega) d (by
              have : w[i + (k + T.m - i)]'(by omega) = w[k + T.m] := by congr 1
              rw [this]
              exact hd)
            omega
        split_ifs at h with hc
        · obtain ⟨k', h4, h5, h6⟩ := ih hdi h
          exact ⟨k', h4, by omega, h6⟩
        · omega

section complete
variable {A : TA S} {T : Tables S} {w : TWord K} (hw : LogOk w) (hs : LogStrict w) (hl : LettersOk w)
  (hT : SundaySound K A T) {i : Nat} {t t' : K} (hstart : StartsAt w i t) (hne : between w t t' ≠ [])
  (hm : A.Match w t t')

include hw hs hl hT hstart hne hm

theorem match_room : Room T w i := by
  have hf := fits_of_match hw hl hs hne hm
  obtain ⟨n, hn⟩ := between_getElem (t' := t') hw hstart
  have h1 := hT.length _ _ _ hf
  have hm1 := hT.m
  have hget : ∀ p, p < T.m → ∀ h : i + p < w.length, (between w t t')[p]? = some w[i + p] := by
    intro p hp h
    have hp2 : p < (between w t t').length := by omega
    rw [hn] at hp2 ⊢
    simp only [List.length_take, List.length_drop] at hp2
    rw [List.getElem?_take_of_lt (by omega), List.getElem?_drop, List.getElem?_eq_getElem h]
  have hlen : i + T.m ≤ w.length := by
    rw [hn] at h1
    simp only [List.length_take, List.length_drop] at h1
    omega
  refine ⟨hm1, hT.range, hlen, ?_, ?_⟩
  · intro h
    refine hT.last _ _ _ hf _ ?_
    rw [hget (T.m - 1) (by omega) (by omega)]
    congr 2
    omega
  · intro p hp h d hd
    exact hT.skip _ _ _ hf p _ d hp (hget p hp h) hd

theorem matchList_complete (hA : A.ClocksDeclared) (hK : KMPSound K A T) {inner fuel k : Nat} (hk : k ≤ i)
    {zs : List (Zone K)} (h : matchList A T w inner fuel k = .ok zs) : ∃ z ∈ zs, z.Has t t' := by
  have hR := match_room hw hs hl hT hstart hne hm
  have h1 := hR.room
  have hm1 := hT.m
  induction fuel generalizing k zs with
  | zero => simp [matchList] at h
  | succ fuel ih =>
    unfold matchList at h
    rw [if_pos (by omega)] at h
    -- from the position where the matching is tried
    have rest : ∀ k', k' ≤ i → (match w[k']? with
        | none => Except.ok []
        | some e =>
          match greatestN T Conf.s (runList endMark A (prevOf w k') (w.drop k') (initConfs A (prevOf w k') e.2) []).2 with
          | .error x => .error x
          | .ok n => do
            let rest ← matchList A T w inner fuel (k' + n)
            .ok ((runList endMark A (prevOf w k') (w.drop k') (initConfs A (prevOf w k') e.2) []).1 ++ rest)) = .ok zs →
        ∃ z ∈ zs, z.Has t t' := by
      intro k' hk' h
      have hkw : k' < w.length := by omega
      rw [List.getElem?_eq_getElem hkw] at h
      simp only [bind, Except.bind] at h
      split at h
      · cases h
      · rename_i n hn
        split at h
        · cases h
        · rename_i rest hrest
          cases h
          rcases Nat.lt_or_ge k' i with hc | hc
          · have hkn : k' + n ≤ i := by
              obtain ⟨g1, g2, -⟩ := greatestN_ge hn
              rcases g2 with rfl | ⟨c, hc2, hb⟩
              · omega
              · by_contra hcon
                -- a state from which the skip would be too far
                have hdrop : ∀ e ∈ w.drop k', e.2 ≠ 0 := fun e he => ne_of_gt (hs.1 e (List.mem_of_mem_drop he))
                have hval := initConfs_valid (A := A) hs hkw
                rcases runList_last hA hdrop initConfs_length hval hc2 with hbad | ⟨j, t0, c0, hc0, hin, hr⟩
                · simp at hbad
                · have hst := (in_initConfs hw hkw hc0).1 hin
                  rw [(mem_initConfs hc0).2.1, rOf_zero] at hr
                  have := hK w hw hs hl k' j t0 c.s c0.s hst (mem_initConfs hc0).1 hr n hb (i - k') (by omega)
                    (by omega)
                  rw [Nat.add_sub_cancel' (Nat.le_of_lt hc)] at this
                  exact this ⟨t, t', hstart, hne, hm⟩
            obtain ⟨z, hz, hz2⟩ := ih hkn hrest
            exact ⟨z, by simp [hz], hz2⟩
          · have : k' = i := by omega
            subst this
            obtain ⟨z, hz, hz2⟩ := run_complete hA hw hkw (v := fun i => if i = 0 then t else t')
              (by simpa using hstart) (by simpa using hne) (by simpa using hm)
            exact ⟨z, by simp [hz], hz2⟩
    split_ifs at h with hm2
    · simp only [bind, Except.bind] at h
      split at h
      · cases h
      · rename_i r hr
        obtain ⟨k', rfl, hk1, hk2⟩ := sundayList_room hR hk hr
        exact rest k' hk2 h
    · exact rest k hk h

end complete

/-- A pair of instants with an event in between starts at some position. -/
theorem exists_startsAt_of {w : TWord K} (hw : LogOk w) {t : K} (h0 : 0 ≤ t) (hne : ∃ e ∈ w, t < e.2) :
    ∃ i, StartsAt w i t := by
  have key : ∃ u rest, w = u ++ rest ∧ (∀ e ∈ u, e.2 ≤ t) ∧ ∀ e ∈ rest, t < e.2 := by
    have hws := hw.sorted
    revert hws
    clear hne hw
    intro hl
    induction w with
    | nil => exact ⟨[], [], rfl, by simp, by simp⟩
    | cons e l ih =>
      rw [List.pairwise_cons] at hl
      by_cases hc : e.2 ≤ t
      · obtain ⟨u, rest, rfl, h1, h2⟩ := ih hl.2
        refine ⟨e :: u, rest, rfl, ?_, h2⟩
        intro x hx
        rcases List.mem_cons.1 hx with rfl | hx
        · exact hc
        · exact h1 x hx
      · refine ⟨[], e :: l, rfl, by simp, ?_⟩
        intro x hx
        rcases List.mem_cons.1 hx with rfl | hx
        · exact not_le.1 hc
        · exact lt_of_lt_of_le (not_le.1 hc) (hl.1 x hx)
  obtain ⟨u, rest, hsplit, h1, h2⟩ := key
  refine ⟨u.length, ?_, h0, ?_, ?_⟩
  · by_contra hc
    obtain ⟨e, he, hlt⟩ := hne
    have : rest = [] := by
      rw [hsplit] at hc
      simp at hc
      exact List.eq_nil_of_length_eq_zero (by simpa using hc)
    subst this
    rw [hsplit] at he
    exact absurd hlt (not_lt.2 (h1 e (by simpa using he)))
  · rw [hsplit]
    simpa using h1
  · rw [hsplit]
    simpa using h2

theorem exists_startsAt {w : TWord K} (hw : LogOk w) {t t' : K} (h0 : 0 ≤ t) (hne : between w t t' ≠ []) :
    ∃ i, StartsAt w i t := by
  obtain ⟨e, he⟩ := List.exists_mem_of_ne_nil _ hne
  simp only [between, List.mem_filter, decide_eq_true_eq] at he
  exact exists_startsAt_of hw h0 ⟨e, he.1, he.2.1⟩

/-! ### progress -/

theorem runList_states {L : Option Alphabet → Option Alphabet} {A : TA S} (hA : A.Closed) {w : TWord K} {prev : Option K} {cs last : List (Conf S K)}
    (hcs : ∀ c ∈ cs, c.s ∈ A.states) (hlast : ∀ c ∈ last, c.s ∈ A.states) :
    ∀ c ∈ (runList L A prev w cs last).2, c.s ∈ A.states := by
  induction w generalizing prev cs last with
  | nil => exact hcs
  | cons e w ih =>
    unfold runList
    split_ifs
    · exact hlast
    · refine ih ?_ hcs
      intro c' hc'
      simp only [stepAll, List.mem_flatMap] at hc'
      obtain ⟨c, hc, e', he, hc'⟩ := hc'
      unfold stepEdge at hc'
      split at hc'
      · simp at hc'
      · rename_i q hq
        split at hc'
        · simp at hc'
        · split_ifs at hc'
          · simp only [List.mem_singleton] at hc'
            subst hc'
            exact hA.2 _ (hcs c hc) _ e' he q hq
          · simp at hc'

theorem greatestN_ok {Q : Type} {st : Q → S} {T : Tables S} {last : List Q} (h : ∀ c ∈ last, ∃ b, T.beta (st c) = some b) :
    ∃ n, greatestN T st last = .ok n := by
  have key : ∀ (l : List Q) (k : Nat), (∀ c ∈ l, ∃ b, T.beta (st c) = some b) →
      ∃ n, l.foldlM (fun n c => match T.beta (st c) with
      | none => Except.error Err.outOfRange
      | some b => Except.ok (max b n)) k = .ok n := by
    intro l
    induction l with
    | nil =>
      intro k _
      exact ⟨k, rfl⟩
    | cons c l ih =>
      intro k h
      obtain ⟨b, hb⟩ := h c (by simp)
      obtain ⟨n, hn⟩ := ih (max b k) (fun c hc => h c (by simp [hc]))
      exact ⟨n, by rw [List.foldlM_cons]; simp only [hb, bind, Except.bind]; exact hn⟩
  exact key last 1 h

theorem sundayList_ok {T : Tables S} (hsize : T.delta.length = 127) (hd : ∀ d ∈ T.delta, 1 ≤ d) {w : TWord K}
    (hl : LettersOk w) {fuel i : Nat} (hf : w.length - i < fuel) (hm : 1 ≤ T.m) :
    ∃ r, sundayList T w fuel i = .ok r ∧ ∀ i' ∈ r, i ≤ i' ∧ (i + T.m - 1 < w.length → i' < w.length) := by
  induction fuel generalizing i with
  | zero => omega
  | succ fuel ih =>
    unfold sundayList
    by_cases h1 : i + T.m - 1 < w.length
    · rw [List.getElem?_eq_getElem h1]
      simp only
      split_ifs with he
      · refine ⟨_, rfl, ?_⟩
        intro i' hi'
        simp only [Option.mem_def, Option.some.injEq] at hi'
        omega
      · by_cases h2 : i + T.m < w.length
        · rw [List.getElem?_eq_getElem h2]
          have hlt := (hl _ (List.getElem_mem h2)).2
          have hlt' : w[i + T.m].1 < T.delta.length := by rw [hsize]; exact hlt
          simp only
          rw [List.getElem?_eq_getElem hlt']
          have hd1 := hd _ (List.getElem_mem hlt')
          simp only
          obtain ⟨d, hdd⟩ : ∃ d, d = T.delta[w[i + T.m].1] := ⟨_, rfl⟩
          rw [← hdd] at hd1 ⊢
          split_ifs with h3
          · obtain ⟨r, hr, hr2⟩ := ih (i := i + d) (by omega)
            refine ⟨r, hr, ?_⟩
            intro i' hi'
            have := hr2 i' hi'
            omega
          · exact ⟨none, rfl, by simp⟩
        · rw [List.getElem?_eq_none (by omega)]
          exact ⟨none, rfl, by simp⟩
    · rw [List.getElem?_eq_none (by omega)]
      exact ⟨none, rfl, by simp⟩

theorem matchList_ok {A : TA S} (hA : A.Closed) {T : Tables S} (hsize : T.delta.length = 127)
    (hd : ∀ d ∈ T.delta, 1 ≤ d) (hb : ∀ s ∈ A.states, ∃ b, T.beta s = some b) (hm : 1 ≤ T.m) {w : TWord K}
    (hl : LettersOk w) {inner fuel i : Nat} (hinner : w.length < inner) (hf : w.length - i < fuel) :
    ∃ zs, matchList A T w inner fuel i = .ok zs := by
  induction fuel generalizing i with
  | zero => omega
  | succ fuel ih =>
    unfold matchList
    split_ifs with h1 h2
    · obtain ⟨r, hr, hr2⟩ := sundayList_ok hsize hd hl (i := i) (fuel := inner) (by omega) hm
      rw [hr]
      simp only [bind, Except.bind]
      cases r with
      | none => exact ⟨[], rfl⟩
      | some k =>
        obtain ⟨hk1, hk2⟩ := hr2 k rfl
        have hkw := hk2 h1
        simp only
        rw [List.getElem?_eq_getElem hkw]
        simp only
        obtain ⟨n, hn⟩ := greatestN_ok (T := T) (last := (runList endMark A (prevOf w k) (w.drop k)
          (initConfs A (prevOf w k) w[k].2) []).2) (fun c hc => hb _ (runList_states hA
            (fun c hc => hA.1 _ (mem_initConfs hc).1) (by simp) c hc))
        have := (greatestN_ge hn).1
        rw [hn]
        simp only
        obtain ⟨zs, hzs⟩ := ih (i := k + n) (by omega)
        rw [hzs]
        exact ⟨_, rfl⟩
    · simp only [bind, Except.bind]
      have hkw : i < w.length := by omega
      rw [List.getElem?_eq_getElem hkw]
      simp only
      obtain ⟨n, hn⟩ := greatestN_ok (T := T) (last := (runList endMark A (prevOf w i) (w.drop i)
        (initConfs A (prevOf w i) w[i].2) []).2) (fun c hc => hb _ (runList_states hA
          (fun c hc => hA.1 _ (mem_initConfs hc).1) (by simp) c hc))
      have := (greatestN_ge hn).1
      rw [hn]
      simp only
      obtain ⟨zs, hzs⟩ := ih (i := i + n) (by omega)
      rw [hzs]
      exact ⟨_, rfl⟩
    · exact ⟨[], rfl⟩

end Verif
