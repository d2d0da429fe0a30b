import Verif.Lemmas.Complete

/-!
# Completeness of `monaaNotNecessaryDollar`
-/

set_option linter.unusedSectionVars false

namespace Verif

variable {S K σ : Type} [Field K] [LinearOrder K] [IsStrictOrderedRing K]

open Bnd Zone

theorem sixValid_of_sat {b : Six K} {x y : K} (h : b.Sat x y) : sixValid b = true := by
  obtain ⟨h1, h2, h3, h4, h5, h6⟩ := h
  rw [sixValid_iff]
  refine ⟨?_, ?_, ?_⟩
  · simpa using sat_add h1 h2
  · simpa using sat_add h3 h4
  · have := sat_add h5 h6
    simpa using this

/-- A configuration which has a point before the event is not dropped, and reported if it is accepting. -/
theorem mem_reachAll {A : TA S} {a : Alphabet} {τ t : K} {cs : List (Conf S K)} {c' : Conf S K}
    (h : c' ∈ stepAll A a τ cs) (hin : c'.In t) (ht : t ≤ τ) (hτ : 0 ≤ τ) :
    c' ∈ (reachAll A a τ cs).2 ∧ ((A.st c'.s).isMatch = true → ∃ z ∈ (reachAll A a τ cs).1, z.Has t τ) := by
  simp only [stepAll, List.mem_flatMap] at h
  obtain ⟨c, hc, e, he, h⟩ := h
  have hsix : (reachSix τ c'.up c'.lo).Sat t τ := by
    rw [reachSix_Sat hτ]
    exact ⟨hin.1, hin.2, le_refl _, by linarith, ht⟩
  have key : c' ∈ (reachEdge A τ c e).2 ∧ ((A.st c'.s).isMatch = true → ∃ z ∈ (reachEdge A τ c e).1, z.Has t τ) := by
    unfold stepEdge at h
    unfold reachEdge
    cases htg : e.target with
    | none => simp [htg] at h
    | some q =>
      simp only [htg] at h ⊢
      cases hg : transGuard τ c.rt c.up c.lo e.guard with
      | none => simp [hg] at h
      | some p =>
        obtain ⟨up, lo⟩ := p
        simp only [hg] at h ⊢
        split_ifs at h with hv
        · simp only [List.mem_singleton] at h
          subst h
          simp only at hsix
          rw [if_pos hv]
          by_cases hm : (A.st q).isMatch = true
          · rw [if_pos hm, if_pos (sixValid_of_sat hsix)]
            refine ⟨by simp, fun _ => ⟨sixZone (reachSix τ up lo), by simp, ?_⟩⟩
            unfold Zone.Has
            rw [sixZone_Sat]
            simpa using hsix
          · rw [if_neg hm]
            exact ⟨by simp, fun h => absurd h hm⟩
        · simp at h
  simp only [reachAll, List.mem_flatMap, List.mem_map]
  refine ⟨⟨_, ⟨c, hc, e, he, rfl⟩, key.1⟩, ?_⟩
  intro hm
  obtain ⟨z, hz, hz2⟩ := key.2 hm
  exact ⟨z, ⟨_, ⟨c, hc, e, he, rfl⟩, hz⟩, hz2⟩

theorem reachAll_length {A : TA S} {a : Alphabet} {τ : K} {cs : List (Conf S K)} {n : Nat}
    (hcs : ∀ c ∈ cs, c.rt.length = n) : ∀ c ∈ (reachAll A a τ cs).2, c.rt.length = n := by
  intro c hc
  obtain ⟨c0, hc0, h, -⟩ := mem_stepAll (reachAll_conf hc)
  rw [h, hcs c0 hc0]

/-- Nothing which ends with the marker is lost. -/
theorem runOpt_dollar {A : TA S} (hA : A.ClocksDeclared) {t t' : K} (hle : t ≤ t') {u rest : TWord K}
    (hw : ∀ e ∈ u, 0 < e.2 ∧ t ≤ e.2) {prev : Option K} {cs last : List (Conf S K)}
    (hcs : ∀ c ∈ cs, c.rt.length = A.clockSize) (hend : EndsAt prev u rest t') {c : Conf S K} (hc : c ∈ cs) (hin : c.In t)
    {s' : S} (hr : A.Reads c.s (rOf c.rt t) (u ++ [(dollar, t')]) s') (hm : (A.st s').isMatch = true) :
    ∃ z ∈ (runOpt A prev (u ++ rest) cs last).1, z.Has t t' := by
  induction u generalizing prev cs last c with
  | nil =>
    have hr' : A.Reads c.s (rOf c.rt t) [(dollar, t')] s' := hr
    have hlow : (lowerEnd prev).sat (-t') := hend.2
    cases rest with
    | nil =>
      simp only [List.nil_append, runOpt]
      obtain ⟨z, hz, hv⟩ := (acceptOn_spec (A := A) (a := dollar) (ue := .inf true) (le := lowerEnd prev) (cs := cs)
        (v := fun i => if i = 0 then t else t')).2 ⟨c, hc, hin, by simp [Bnd.sat], hlow, hle, s', hr', hm⟩
      exact ⟨z, hz, hv⟩
    | cons e rest =>
      simp only [List.nil_append, runOpt]
      rw [if_neg (by simp only [List.isEmpty_iff]; rintro rfl; simp at hc)]
      obtain ⟨z, hz, hv⟩ := (acceptOn_spec (A := A) (a := dollar) (ue := .fin e.2 true) (le := lowerEnd prev) (cs := cs)
        (v := fun i => if i = 0 then t else t')).2 ⟨c, hc, hin, by
          have := hend.1 e (by simp)
          rw [sat_t]
          exact this, hlow, hle, s', hr', hm⟩
      exact ⟨z, by simp [hz], hv⟩
  | cons e u ih =>
    simp only [List.cons_append, runOpt]
    rw [if_neg (by simp only [List.isEmpty_iff]; rintro rfl; simp at hc)]
    obtain ⟨h1, h2⟩ := hw e (by simp)
    obtain ⟨c', hc', hin', hr'⟩ := (stepAll_reads hA h1.ne' hcs).2 ⟨c, hc, hin, hr⟩
    obtain ⟨z, hz, hv⟩ := ih (fun x hx => hw x (by simp [hx])) (reachAll_length hcs) (prev := some e.2) (last := cs) (by
      refine ⟨hend.1, ?_⟩
      have := hend.2
      rw [List.getLast?_cons] at this
      cases hl : u.getLast? with
      | none => simpa [hl] using this
      | some x => simpa [hl] using this) (mem_reachAll hc' hin' h2 h1.le).1 hin' hr'
    exact ⟨z, by simp [hz], hv⟩

/-- Nothing which ends at an event is lost. -/
theorem runOpt_reach {A : TA S} (hA : A.ClocksDeclared) {t : K} {u rest : TWord K} {e : Alphabet × K}
    (hw : ∀ e' ∈ u ++ [e], 0 < e'.2 ∧ t ≤ e'.2) {prev : Option K} {cs last : List (Conf S K)}
    (hcs : ∀ c ∈ cs, c.rt.length = A.clockSize) {c : Conf S K} (hc : c ∈ cs) (hin : c.In t)
    {s' : S} (hr : A.Reads c.s (rOf c.rt t) (u ++ [e]) s') (hm : (A.st s').isMatch = true) :
    ∃ z ∈ (runOpt A prev (u ++ e :: rest) cs last).1, z.Has t e.2 := by
  induction u generalizing prev cs last c with
  | nil =>
    simp only [List.nil_append, runOpt]
    rw [if_neg (by simp only [List.isEmpty_iff]; rintro rfl; simp at hc)]
    obtain ⟨h1, h2⟩ := hw e (by simp)
    obtain ⟨c', hc', hin', hr'⟩ := (stepAll_reads hA h1.ne' hcs (u := [])).2 ⟨c, hc, hin, hr⟩
    have hr' : c'.s = s' := hr'
    subst hr'
    obtain ⟨z, hz, hv⟩ := (mem_reachAll hc' hin' h2 h1.le).2 hm
    exact ⟨z, by simp [hz], hv⟩
  | cons x u ih =>
    simp only [List.cons_append, runOpt]
    rw [if_neg (by simp only [List.isEmpty_iff]; rintro rfl; simp at hc)]
    obtain ⟨h1, h2⟩ := hw x (by simp)
    obtain ⟨c', hc', hin', hr'⟩ := (stepAll_reads hA h1.ne' hcs).2 ⟨c, hc, hin, hr⟩
    obtain ⟨z, hz, hv⟩ := ih (fun y hy => hw y (by
      rcases List.mem_append.1 hy with hy | hy
      · simp [hy]
      · simp only [List.mem_singleton] at hy
        simp [hy])) (reachAll_length hcs) (prev := some x.2) (last := cs)
      (mem_reachAll hc' hin' h2 h1.le).1 hin' hr'
    exact ⟨z, by simp [hz], hv⟩

theorem runOpt_last {A : TA S} (hA : A.ClocksDeclared) {w : TWord K} (hw : ∀ e ∈ w, e.2 ≠ 0)
    {prev : Option K} {cs last : List (Conf S K)} (hcs : ∀ c ∈ cs, c.rt.length = A.clockSize)
    (hval : ∀ c ∈ cs, isValidConstraint c.up c.lo = true) {c : Conf S K}
    (hc : c ∈ (runOpt A prev w cs last).2) :
    c ∈ last ∨ ∃ n t, ∃ c0 ∈ cs, c0.In t ∧ A.Reads c0.s (rOf c0.rt t) (w.take n) c.s := by
  have base : ∀ (cs : List (Conf S K)), (∀ c ∈ cs, isValidConstraint c.up c.lo = true) → c ∈ cs → ∃ t, c.In t := by
    intro cs hval hc
    have := isValid_iff.1 (hval c hc)
    obtain ⟨t, h1, h2⟩ := exists_between this
    exact ⟨t, h1, h2⟩
  induction w generalizing prev cs last with
  | nil =>
    right
    obtain ⟨t, ht⟩ := base cs hval hc
    exact ⟨0, t, c, hc, ht, rfl⟩
  | cons e w ih =>
    unfold runOpt at hc
    split_ifs at hc with hemp
    · exact Or.inl hc
    · right
      have hval' : ∀ c ∈ (reachAll A e.1 e.2 cs).2, isValidConstraint c.up c.lo = true := by
        intro c hc
        exact (mem_stepAll (reachAll_conf hc)).choose_spec.2.2.1
      rcases ih (fun x hx => hw x (by simp [hx])) (reachAll_length hcs) hval' hc with h | ⟨n, t, c', hc', hin, hr⟩
      · obtain ⟨t, ht⟩ := base cs hval h
        exact ⟨0, t, c, h, ht, rfl⟩
      · obtain ⟨c0, hc0, hin0, hr0⟩ := (stepAll_reads hA (hw e (by simp)) hcs).1 ⟨c', reachAll_conf hc', hin, hr⟩
        exact ⟨n + 1, t, c0, hc0, hin0, hr0⟩

theorem stepAll_states {A : TA S} (hA : A.Closed) {a : Alphabet} {t : K} {cs : List (Conf S K)}
    (hcs : ∀ c ∈ cs, c.s ∈ A.states) : ∀ c ∈ stepAll A a t cs, c.s ∈ A.states := by
  intro c' hc'
  simp only [stepAll, List.mem_flatMap] at hc'
  obtain ⟨c, hc, e', he, hc'⟩ := hc'
  unfold stepEdge at hc'
  split at hc'
  · simp at hc'
  · rename_i q hq
    split at hc'
    · simp at hc'
    · split_ifs at hc'
      · simp only [List.mem_singleton] at hc'
        subst hc'
        exact hA.2 _ (hcs c hc) _ e' he q hq
      · simp at hc'

theorem runOpt_states {A : TA S} (hA : A.Closed) {w : TWord K} {prev : Option K} {cs last : List (Conf S K)}
    (hcs : ∀ c ∈ cs, c.s ∈ A.states) (hlast : ∀ c ∈ last, c.s ∈ A.states) :
    ∀ c ∈ (runOpt A prev w cs last).2, c.s ∈ A.states := by
  induction w generalizing prev cs last with
  | nil => exact hcs
  | cons e w ih =>
    unfold runOpt
    split_ifs
    · exact hlast
    · exact ih (fun c hc => stepAll_states hA hcs c (reachAll_conf hc)) hcs

/-! ### the tables -/

theorem prepareOpt_spec [DecidableEq S] {addr : S → Nat} {A Ap : TA S} (hT : A.Tidy) (hM : A.MapOk) (hA : A.Closed)
    (h : prepareOpt addr A = .ok Ap) : Prepared A Ap := by
  unfold prepareOpt at h
  split_ifs at h
  cases h
  refine ⟨rfl, rfl, ?_, rfl⟩
  intro s
  have key : ∀ p ∈ (dropDollar (A.st s)).next, ∀ e ∈ p.2, ∀ q, e.target = some q → q ∈ A.states := by
    intro p hp e he q hq
    have hp' : p ∈ (A.st s).next := by
      unfold dropDollar at hp
      split at hp
      · exact hp
      · exact (List.mem_filter.1 hp).1
    by_cases hs : s ∈ A.states
    · exact hA.2 s hs p.1 e ((Next.mem_at'_iff (hM s)).2 ⟨p.2, hp', he⟩) q hq
    · rw [hT s hs] at hp'
      simp at hp'
  have e1 : ((dropDollar (A.st s)).next.map fun p => (p.1, p.2.map fun e => match e.target with
      | none => e
      | some q => if q ∈ A.states then e else { e with target := none })) = (dropDollar (A.st s)).next := by
    conv_rhs => rw [← List.map_id (dropDollar (A.st s)).next]
    refine List.map_congr_left fun p hp => ?_
    have e2 : (p.2.map fun e => match e.target with
        | none => e
        | some q => if q ∈ A.states then e else { e with target := none }) = p.2 := by
      conv_rhs => rw [← List.map_id p.2]
      refine List.map_congr_left fun e he => ?_
      cases ht : e.target with
      | none => rfl
      | some q =>
        simp only [id]
        rw [if_pos (key p hp e he q ht)]
    rw [e2]
    rfl
  exact congrArg (fun n => ({ dropDollar (A.st s) with next := n } : TAState S)) e1

section tables
variable [DecidableEq S] {A Ap : TA S} {T : Tables S} {w : TWord K} (hw : LogOk w) (hs : LogStrict w) (hl : LettersOk w)
  {i : Nat} {t : K} (hstart : StartsAt w i t)

include hw hs hl hstart

/-- Something found from position `i` is in the answer, if the prepared automaton accepts some events from there on. -/
theorem optional_complete {fuel : Nat} (hp : Prepared A Ap) (hT : makeTables K fuel Ap = .ok T) (hM : A.MapOk)
    (hC : A.ClocksDeclared) (hA : A.Closed) (hz : A.NoZeroDuration) (hac : A.LoopsOk) (hU : A.Shiftable)
    (hsz : 2 * A.clockSize ≤ 256) {n : Nat} (hn : 0 < n) (hacc : Ap.AcceptsFrom t ((w.drop i).take n)) {P : Zone K → Prop}
    (hfound : ∀ hi : i < w.length,
      ∃ z ∈ (runOpt A (prevOf w i) (w.drop i) (initConfs A (prevOf w i) w[i].2) []).1, P z)
    {inner fuel' k : Nat} (hk : k ≤ i) {zs : List (Zone K)}
    (h : matchListE (optionalHooks A) T w inner fuel' k = .ok zs) : ∃ z ∈ zs, P z := by
  obtain ⟨ht, beta, hb1, hb2⟩ := makeTables_spec hT
  obtain ⟨s, hs', s', hr2, hacc⟩ := hacc
  obtain ⟨-, hinit, -, hmc⟩ := id hp
  have hcs : Ap.clockSize = A.clockSize := by simp only [TA.clockSize, hmc]
  have hlt := hstart.lt
  have hsub : ((w.drop i).take n).Sublist w := (List.take_sublist _ _).trans (List.drop_sublist _ _)
  obtain ⟨h1, h2, h3, h4⟩ := sundayTable_spec ht (prepare_live hp hA hM hac)
  obtain ⟨g1, g2, g3⟩ := h4 t ((w.drop i).take n) (by
      intro hc
      have := congrArg List.length hc
      simp only [List.length_take, List.length_drop, List.length_nil] at this
      omega) (fun e he => hl e (hsub.subset he)) (fun e he => hstart.after e (List.take_subset _ _ he))
      (hs.2.sublist hsub) s hs' s' hr2 hacc
  have hR : Room T w i := room_of_letters h1 h3 g1 g2 g3 ((List.take_prefix _ _).map _)
  refine matchListE_complete hR ?_ ?_ hk h
  · intro k hki hkw r hr c hc b hbc
    rw [runListE_optional] at hr
    cases hr
    by_contra hcon
    have hdrop : ∀ e ∈ w.drop k, e.2 ≠ 0 := fun e he => ne_of_gt (hs.1 e (List.mem_of_mem_drop he))
    rcases runOpt_last hC hdrop initConfs_length (initConfs_valid hs hkw) hc with hbad | ⟨j, t0, c0, hc0, hin, hr⟩
    · simp at hbad
    · have hst := (in_initConfs hw hkw hc0).1 hin
      rw [(mem_initConfs hc0).2.1, rOf_zero] at hr
      have hr' : Ap.Reads c0.s (fun _ => t0) ((w.drop k).take j) c.s :=
        (prepare_reads hp fun e he => hw.noMarker e (List.drop_subset _ _ (List.take_subset _ _ he))).2 hr
      have hub : (w.drop i).take n = ((w.drop k).drop (i - k)).take n := by
        rw [List.drop_drop, show k + (i - k) = i by omega]
      rw [hub] at hr2 g1
      rw [hb2] at hbc
      refine kmp_core hb1 (prepare_mapOk hp hM) (prepare_clocks hp hC) (prepare_closed hp hA) (prepare_noZero hp hz)
        (prepare_shiftable hp hU) (by rw [hcs]; exact hsz) (W := w.drop k) (fun e he => hl e (List.drop_subset _ _ he))
        (hs.2.sublist (List.drop_sublist k w)) hst.after (s₀ := c0.s) ?_ hr' hbc (k := i - k) (t₂ := t)
        (by omega) (by omega) ?_ ?_ hs' g1 hr2 hacc
      · rw [hinit, List.mem_filter]
        have := (mem_initConfs hc0).1
        exact ⟨hA.1 _ this, by simpa using this⟩
      · rw [List.length_drop]
        omega
      · intro e he
        refine hstart.before e ?_
        rw [show i = k + (i - k) by omega, List.take_add]
        exact List.mem_append_right _ he
  · intro hi r hr
    rw [runListE_optional] at hr
    cases hr
    exact hfound hi

/-- A match which ends with the marker is found. -/
theorem optional_dollar {fuel : Nat} (hp : Prepared A Ap) (hT : makeTables K fuel Ap = .ok T) (hM : A.MapOk)
    (hC : A.ClocksDeclared) (hA : A.Closed) (hz : A.NoZeroDuration) (hac : A.LoopsOk) (hU : A.Shiftable)
    (hsz : 2 * A.clockSize ≤ 256) {t' : K} (hne : between w t t' ≠ []) (hm : A.Match w t t')
    {inner fuel' k : Nat} (hk : k ≤ i) {zs : List (Zone K)}
    (h : matchListE (optionalHooks A) T w inner fuel' k = .ok zs) : ∃ z ∈ zs, z.Has t t' := by
  obtain ⟨u, rest, hsplit, hb, h1, h2⟩ := between_drop hw hstart t'
  have hf := fits_of_match hw hl hs hne hm
  have hacc := prepare_fits hA hp hf.noMarker hf.accepts
  have hu : (w.drop i).take u.length = u := by rw [hsplit, List.take_left' rfl]
  obtain ⟨h0, hle, s, hs', s', hr, hmt⟩ := hm
  rw [hb] at hr hne hacc
  rw [← hu] at hacc
  refine optional_complete hw hs hl hstart hp hT hM hC hA hz hac hU hsz (List.length_pos_iff.2 hne) hacc
    (P := fun z => z.Has t t') ?_ hk h
  intro hi
  have hc : ∃ c ∈ initConfs A (prevOf w i) w[i].2, c.s = s := by
    simp only [initConfs, List.mem_map]
    exact ⟨_, ⟨s, hs', rfl⟩, rfl⟩
  obtain ⟨c, hc, hcs⟩ := hc
  rw [hsplit]
  refine runOpt_dollar hC hle ?_ initConfs_length ⟨fun e he => h2 e (List.mem_of_mem_head? he), ?_⟩ hc
    ((in_initConfs hw hi hc).2 hstart) (s' := s') ?_ hmt
  · intro e he
    have := hstart.after e (by rw [hsplit]; simp [he])
    exact ⟨lt_of_le_of_lt h0 this, this.le⟩
  · cases hl : u.getLast? with
    | none => exact absurd (List.getLast?_eq_none_iff.1 hl) hne
    | some x =>
      simp only [lowerEnd, sat_f]
      have := h1 x (List.mem_of_getLast? hl)
      linarith
  · rw [(mem_initConfs hc).2.1, rOf_zero, hcs]
    exact hr

/-- A match which ends at an event is found. -/
theorem optional_reach {fuel : Nat} (hp : Prepared A Ap) (hT : makeTables K fuel Ap = .ok T) (hM : A.MapOk)
    (hC : A.ClocksDeclared) (hA : A.Closed) (hz : A.NoZeroDuration) (hac : A.LoopsOk) (hU : A.Shiftable)
    (hsz : 2 * A.clockSize ≤ 256) {t' : K} (hm : A.ReachMatch w t t')
    {inner fuel' k : Nat} (hk : k ≤ i) {zs : List (Zone K)}
    (h : matchListE (optionalHooks A) T w inner fuel' k = .ok zs) : ∃ z ∈ zs, z.Has t t' := by
  obtain ⟨h0, hlt, pre, a, post, hsplit, s, hs', s', hr, hmt⟩ := hm
  -- the event is not before position `i`
  have hpi : i ≤ pre.length := by
    by_contra hc
    have : (a, t') ∈ w.take i := by
      rw [hsplit, List.take_append]
      refine List.mem_append_right _ ?_
      rw [show i - pre.length = (i - pre.length - 1) + 1 by omega]
      simp
    exact absurd (hstart.before _ this) (not_le.2 hlt)
  have htk : w.take i = pre.take i := by
    rw [hsplit, List.take_append_of_le_length hpi]
  have hdr : w.drop i = pre.drop i ++ (a, t') :: post := by
    rw [hsplit, List.drop_append_of_le_length hpi]
  have hfil : pre.filter (fun e => decide (t < e.2)) = pre.drop i := by
    conv_lhs => rw [← List.take_append_drop i pre]
    rw [List.filter_append, List.filter_eq_nil_iff.2, List.filter_eq_self.2, List.nil_append]
    · intro e he
      simpa using hstart.after e (by rw [hdr]; simp [he])
    · intro e he
      simpa using hstart.before e (by rw [htk]; exact he)
  rw [hfil] at hr
  have hu : (w.drop i).take ((pre.drop i).length + 1) = pre.drop i ++ [(a, t')] := by
    rw [hdr, show pre.drop i ++ (a, t') :: post = (pre.drop i ++ [(a, t')]) ++ post by simp, List.take_left' (by simp)]
  obtain ⟨-, hinit, hst, -⟩ := id hp
  have hacc : Ap.AcceptsFrom t ((w.drop i).take ((pre.drop i).length + 1)) := by
    refine ⟨s, ?_, s', (prepare_reads hp ?_).2 (by rw [hu]; exact hr), ?_⟩
    · rw [hinit, List.mem_filter]
      exact ⟨hA.1 s hs', by simpa using hs'⟩
    · intro e he
      exact hw.noMarker e (List.drop_subset _ _ (List.take_subset _ _ he))
    · rw [hst]
      unfold dropDollar
      split
      · exact hmt
      · rfl
  refine optional_complete hw hs hl hstart hp hT hM hC hA hz hac hU hsz (Nat.succ_pos _) hacc
    (P := fun z => z.Has t t') ?_ hk h
  intro hi
  have hc : ∃ c ∈ initConfs A (prevOf w i) w[i].2, c.s = s := by
    simp only [initConfs, List.mem_map]
    exact ⟨_, ⟨s, hs', rfl⟩, rfl⟩
  obtain ⟨c, hc, hcs⟩ := hc
  rw [hdr]
  refine runOpt_reach hC (e := (a, t')) ?_ initConfs_length hc ((in_initConfs hw hi hc).2 hstart) (s' := s') ?_ hmt
  · intro e he
    have := hstart.after e (by
      rw [hdr]
      rcases List.mem_append.1 he with he | he
      · simp [he]
      · simp only [List.mem_singleton] at he
        simp [he])
    exact ⟨lt_of_le_of_lt h0 this, this.le⟩
  · rw [(mem_initConfs hc).2.1, rOf_zero, hcs]
    exact hr

end tables

/-! ### progress -/

/-- If every run returns and every state in which it stops has an entry in the table, the search returns. -/
theorem matchListE_ok {Q : Type} {M : Hooks S Q K} {T : Tables S} (hsize : T.delta.length = 127)
    (hd : ∀ d ∈ T.delta, 1 ≤ d) (hm : 1 ≤ T.m) {w : TWord K} (hl : LettersOk w)
    (hrun : ∀ k, ∀ hk : k < w.length, ∃ r, runListE M (prevOf w k) (w.drop k) (M.start (prevOf w k) w[k].2) [] = .ok r ∧
      ∀ c ∈ r.2, ∃ b, T.beta (M.state c) = some b)
    {inner fuel i : Nat} (hinner : w.length < inner) (hf : w.length - i < fuel) :
    ∃ zs, matchListE M T w inner fuel i = .ok zs := by
  induction fuel generalizing i with
  | zero => omega
  | succ fuel ih =>
    have key : ∀ k, i ≤ k → ∀ hk : k < w.length, ∃ r n rest,
        runListE M (prevOf w k) (w.drop k) (M.start (prevOf w k) w[k].2) [] = .ok r ∧
        greatestN T M.state r.2 = .ok n ∧ matchListE M T w inner fuel (k + n) = .ok rest := by
      intro k hik hk
      obtain ⟨r, hr, hb⟩ := hrun k hk
      obtain ⟨n, hn⟩ := greatestN_ok (T := T) (st := M.state) (last := r.2) hb
      have := (greatestN_ge hn).1
      obtain ⟨rest, hrest⟩ := ih (i := k + n) (by omega)
      exact ⟨r, n, rest, hr, hn, hrest⟩
    unfold matchListE
    split_ifs with h1 h2
    · obtain ⟨r, hr, hr2⟩ := sundayList_ok hsize hd hl (i := i) (fuel := inner) (by omega) hm
      rw [hr]
      simp only [bind, Except.bind]
      cases r with
      | none => exact ⟨[], rfl⟩
      | some k =>
        obtain ⟨hk1, hk2⟩ := hr2 k rfl
        have hkw := hk2 h1
        obtain ⟨r, n, rest, e1, e2, e3⟩ := key k (by omega) hkw
        simp only [List.getElem?_eq_getElem hkw, e1, e2, e3]
        exact ⟨_, rfl⟩
    · have hkw : i < w.length := by omega
      obtain ⟨r, n, rest, e1, e2, e3⟩ := key i le_rfl hkw
      simp only [bind, Except.bind, List.getElem?_eq_getElem hkw, e1, e2, e3]
      exact ⟨_, rfl⟩
    · exact ⟨[], rfl⟩


/-! ### the static variable -/

/-- `reachesStart` on the list. -/
def reachesList (T : Tables S) (inner : Nat) (w : TWord K) : Bool :=
  decide (0 + T.m - 1 < w.length) && (if T.m > 1 then
    (match sundayList T w inner 0 with | .ok (some _) => true | _ => false) else true)

theorem reachesStart_spec {C : Cont K σ} {w : TWord K} {Inv : Nat → Nat → σ → Prop} (H : Implements C w Inv) {T : Tables S}
    {inner k : Nat} {s : σ} (h : Inv 0 k s) (hm : 1 ≤ T.m) : reachesStart C T inner s = reachesList T inner w := by
  unfold reachesStart reachesList
  obtain ⟨hb, k1, hk1, hI1, hn1⟩ := H.fetch h (n := 0 + T.m - 1) (by omega)
  simp only [hb]
  by_cases hi : 0 + T.m - 1 < w.length
  swap
  · simp only [hi, decide_false, Bool.not_false, if_true, Bool.false_and]
  simp only [hi, decide_true, Bool.not_true, Bool.false_eq_true, if_false, Bool.true_and]
  by_cases hm1 : T.m > 1
  · simp only [hm1, if_true]
    obtain ⟨hb2, k2, hk2, hI2, hn2⟩ := H.fetch hI1 (n := 0 + T.m - 1) (by omega)
    simp only [hb2, hi, decide_true, if_true]
    rcases sundayLoop_spec H (T := T) (fuel := inner) (i := 0) hI2 hm (by omega) (hn2 hi) hi with
      ⟨x, h1, h2⟩ | ⟨s', h1, h2⟩ | ⟨i', s', f', k', h1, h2, h3, h4, h5, h6⟩
    · rw [h1, h2]
    · rw [h1, h2]
    · rw [h1, h2]
      simp only
      rw [(H.fetch h6 (n := i') (by omega)).1]
      simp
      omega
  · simp only [hm1, if_false]
    rw [(H.fetch hI1 (n := 0) (by omega)).1]
    simp
    omega

end Verif
