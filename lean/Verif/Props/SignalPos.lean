import Verif.Props.SignalMatch

/-!
# C76: no match of an expression is lost in signal mode, if every letter takes some time
-/

namespace Verif.Props

open TMem NTree

variable {K : Type} [Field K] [LinearOrder K] [IsStrictOrderedRing K]

/-- Letters have positive durations. -/
@[reducible] def posDurs : Durs K where
  ok d := 0 < d
  add _ _ := add_pos

theorem posSignals_iff : ∀ (e : TRE K) (x : Sig K), e.PosSignals x ↔ e.SignalsD (D := posDurs) x
  | .atom _, _ => Iff.rfl
  | .epsilon, _ => Iff.rfl
  | .plus e, x => ⟨iter_mono fun y => (posSignals_iff e y).1, iter_mono fun y => (posSignals_iff e y).2⟩
  | .concat e f, x => by simp only [TRE.PosSignals, TRE.SignalsD, posSignals_iff e, posSignals_iff f]
  | .disj e f, x => by simp only [TRE.PosSignals, TRE.SignalsD, posSignals_iff e, posSignals_iff f]
  | .conj e f, x => by simp only [TRE.PosSignals, TRE.SignalsD, posSignals_iff e, posSignals_iff f]
  | .within e I, x => by simp only [TRE.PosSignals, TRE.SignalsD, posSignals_iff e]

theorem posSignals_signals : ∀ (e : TRE K) (x : Sig K), e.PosSignals x → e.Signals x
  | .atom _, _, ⟨d, h, e, _⟩ => ⟨d, h, e⟩
  | .epsilon, _, h => h
  | .plus e, x, h => iter_mono (posSignals_signals e) h
  | .concat e f, x, ⟨y, z, h, h1, h2⟩ => ⟨y, z, h, posSignals_signals e y h1, posSignals_signals f z h2⟩
  | .disj e f, x, h => h.imp (posSignals_signals e x) (posSignals_signals f x)
  | .conj e f, x, h => ⟨posSignals_signals e x h.1, posSignals_signals f x h.2⟩
  | .within e I, x, h => ⟨posSignals_signals e x h.1, h.2⟩

/-! ## Words without repeated letters -/

/-- Neighbours have different letters. -/
def Changes (w : TWord K) : Prop := w.IsChain fun a b => a.1 ≠ b.1

omit [IsStrictOrderedRing K] in
theorem changes_of_acc {A : TA Nat} (hcl : ∀ s ∈ A.states, ∀ a, ∀ e ∈ A.edges s a, ∀ q, e.target = some q → q ∈ A.states) (hn : A.NoRep) :
    ∀ (w : TWord K) (s : Nat) (v : Nat → K), s ∈ A.states → A.Acc s v w → Changes w
  | [], _, _, _, _ => .nil
  | [_], _, _, _, _ => .singleton _
  | (a, t) :: (b, u) :: w, s, v, hs, h => by
    obtain ⟨e, he, r, hr, -, h⟩ := h
    have hr' := hcl s hs a e he r hr
    refine List.isChain_cons_cons.2 ⟨fun hab => ?_, changes_of_acc hcl hn _ r _ hr' h⟩
    obtain ⟨e', he', -⟩ := h
    simp only at hab
    rw [← hab, hn s hs a e he r hr] at he'
    cases he'

theorem app_val_left {x y : Sig K} {u : K} (h : u < x.dur) : (x.app y).val u = x.val u := if_pos h

theorem app_val_right {x y : Sig K} {u : K} (h : 0 ≤ u) : (x.app y).val (x.dur + u) = y.val u := by
  have : ¬ x.dur + u < x.dur := not_lt.2 (le_add_of_nonneg_right h)
  simp only [Sig.app, if_neg this, add_sub_cancel_left]

theorem const_val {c : Alphabet} {d u : K} (h : 0 ≤ d) (h0 : 0 ≤ u) (h1 : u < d) : (Sig.const c d h).val u = c := if_pos ⟨h0, h1⟩

theorem app_cancel {x y y' : Sig K} (h : x.app y = x.app y') : y = y' := by
  have hd : y.dur = y'.dur := by
    have : x.dur + y.dur = x.dur + y'.dur := congrArg Sig.dur h
    exact add_left_cancel this
  ext u
  · exact hd
  · by_cases hu : 0 ≤ u
    · rw [← app_val_right (x := x) hu, h, app_val_right hu]
    · rw [y.out u fun h => hu h.1, y'.out u fun h => hu h.1]

/-- A longer first letter is not possible. -/
theorem step_le {t0 s s' : K} {c : Alphabet} {r : TWord K} {y y' : Sig K} (h0 : t0 ≤ s) (h0' : t0 ≤ s') (hr : Shows s r y)
    (hs : Steps (D := posDurs) s r) (hc : Changes ((c, s) :: r))
    (e : (Sig.const c (s - t0) (sub_nonneg.2 h0)).app y = (Sig.const c (s' - t0) (sub_nonneg.2 h0')).app y') : s' ≤ s := by
  by_contra hlt
  rw [not_le] at hlt
  cases hr with
  | nil =>
    have : s - t0 + 0 = s' - t0 + y'.dur := congrArg Sig.dur e
    have := y'.nonneg
    linarith
  | @cons _ c2 s2 r z h hr =>
    have h1 : ((Sig.const c (s - t0) (sub_nonneg.2 h0)).app ((Sig.const c2 (s2 - s) (sub_nonneg.2 h)).app z)).val (s - t0 + 0) = c2 :=
      (app_val_right (x := Sig.const c (s - t0) (sub_nonneg.2 h0)) (le_refl _)).trans
        ((app_val_left (x := Sig.const c2 (s2 - s) (sub_nonneg.2 h)) hs.1).trans (const_val _ (le_refl _) hs.1))
    rw [e, add_zero] at h1
    have h2 : ((Sig.const c (s' - t0) (sub_nonneg.2 h0')).app y').val (s - t0) = c :=
      (app_val_left (x := Sig.const c (s' - t0) (sub_nonneg.2 h0')) (show s - t0 < s' - t0 by linarith)).trans
        (const_val _ (by linarith) (by linarith))
    exact (List.isChain_cons_cons.1 hc).1 (h2.symm.trans h1)

/-- A signal is shown by one word with positive durations and changing letters. -/
theorem shows_unique : ∀ {v v' : TWord K} {t0 : K} {x : Sig K}, Shows t0 v x → Shows t0 v' x → Steps (D := posDurs) t0 v →
    Steps (D := posDurs) t0 v' → Changes v → Changes v' → v = v'
  | [], [], _, _, _, _, _, _, _, _ => rfl
  | [], (c, s) :: v, t0, x, h, h', _, hs, _, _ => by
    cases h
    generalize hx : (Sig.nil : Sig K) = x at h'
    cases h' with
    | @cons _ _ _ _ y h1 h2 =>
      have e : (0 : K) = s - t0 + y.dur := congrArg Sig.dur hx
      have h3 : 0 < s - t0 := hs.1
      have := y.nonneg
      linarith
  | (c, s) :: v, [], t0, x, h, h', hs, _, _, _ => by
    cases h'
    generalize hx : (Sig.nil : Sig K) = x at h
    cases h with
    | @cons _ _ _ _ y h1 h2 =>
      have e : (0 : K) = s - t0 + y.dur := congrArg Sig.dur hx
      have h3 : 0 < s - t0 := hs.1
      have := y.nonneg
      linarith
  | (c, s) :: v, (c', s') :: v', t0, x, h, h', hs, hs', hc, hc' => by
    cases h with
    | @cons _ _ _ _ y h1 h2 =>
      generalize hx : (Sig.const c (s - t0) (sub_nonneg.2 h1)).app y = x at h'
      cases h' with
      | @cons _ _ _ _ y' h1' h2' =>
        have p : 0 < s - t0 := hs.1
        have p' : 0 < s' - t0 := hs'.1
        have ec : c = c' := by
          have e1 := (app_val_left (x := Sig.const c (s - t0) (sub_nonneg.2 h1)) (y := y) p).trans (const_val _ (le_refl _) p)
          have e2 := (app_val_left (x := Sig.const c' (s' - t0) (sub_nonneg.2 h1')) (y := y') p').trans (const_val _ (le_refl _) p')
          rw [← e1, hx, e2]
        subst ec
        have es : s = s' := le_antisymm (step_le h1' h1 h2' hs'.2 hc' hx.symm) (step_le h1 h1' h2 hs.2 hc hx)
        subst es
        have ey := app_cancel hx
        subst ey
        rw [shows_unique h2 h2' hs.2 hs'.2 hc.tail hc'.tail]

theorem steps_of_strict : ∀ (v : TWord K) (t0 : K), (∀ e ∈ v, t0 < e.2) → v.Pairwise (fun a b => a.2 < b.2) → Steps (D := posDurs) t0 v
  | [], _, _, _ => trivial
  | e :: v, t0, h, hp => by
    obtain ⟨h1, h2⟩ := List.pairwise_cons.1 hp
    exact ⟨sub_pos.2 (h e (by simp)), steps_of_strict v e.2 h1 h2⟩

omit [IsStrictOrderedRing K] in
theorem changes_cut {a : Alphabet} {t t' : K} : ∀ {w : TWord K}, w.Pairwise (fun a b => a.2 ≤ b.2) → Changes w →
    letterAt w t' = some a → t ≤ t' → Changes (between w t t' ++ [(a, t')])
  | [], _, _, h, _ => by simp [letterAt] at h
  | e :: w, hp, hc, h, htt => by
    obtain ⟨hp1, hp2⟩ := List.pairwise_cons.1 hp
    rcases lt_or_ge e.2 t' with h2 | h2
    · have ha : letterAt w t' = some a := by simpa [letterAt, not_le.2 h2] using h
      have ih := changes_cut hp2 hc.tail ha htt
      rcases le_or_gt e.2 t with h1 | h1
      · rw [between, List.filter_cons_of_neg (by simpa using fun h => absurd h (not_lt.2 h1))]
        exact ih
      · rw [between, List.filter_cons_of_pos (by simpa using ⟨h1, h2⟩), List.cons_append]
        cases w with
        | nil => simp [letterAt] at ha
        | cons b w =>
          have hb := hp1 b (by simp)
          have hne := (List.isChain_cons_cons.1 hc).1
          rcases lt_or_ge b.2 t' with h3 | h3
          · rw [between, List.filter_cons_of_pos (by simpa using ⟨lt_of_lt_of_le h1 hb, h3⟩), List.cons_append] at ih
            rw [List.filter_cons_of_pos (by simpa using ⟨lt_of_lt_of_le h1 hb, h3⟩), List.cons_append]
            exact List.isChain_cons_cons.2 ⟨hne, ih⟩
          · have hnil : between (b :: w) t t' = [] := by
              rw [between, List.filter_eq_nil_iff]
              intro d hd
              have : t' ≤ d.2 := by
                rcases List.mem_cons.1 hd with rfl | hd
                · exact h3
                · exact h3.trans ((List.pairwise_cons.1 hp2).1 d hd)
              simpa using fun _ => this
            rw [between] at hnil
            rw [hnil, List.nil_append]
            have : b.1 = a := by simpa [letterAt, h3] using ha
            exact List.isChain_cons_cons.2 ⟨this ▸ hne, .singleton _⟩
    · have hnil : between (e :: w) t t' = [] := by
        rw [between, List.filter_eq_nil_iff]
        intro d hd
        have : t' ≤ d.2 := by
          rcases List.mem_cons.1 hd with rfl | hd
          · exact h2
          · exact h2.trans (hp1 d hd)
        simpa using fun _ => this
      rw [hnil]
      exact .singleton _

variable [FloorRing K]

/-- For signals of the expression in which every letter takes some time, there is an accepted word with positive durations and changing letters. -/
theorem signalTA_pos {alloc : Nat → Nat} (hinj : Function.Injective alloc) {e : TRE K} (he : e.Clean) (hi : e.IntEnds) (hf : e.Flat)
    {fuel : Nat} {A : TA Nat} (hA : e.signalTA alloc fuel = .ok A) :
    A.Acyclic ∧ A.NoZeroDuration ∧
    ∀ x : Sig K, e.PosSignals x → ∃ w, Shows 0 w x ∧ Steps (D := posDurs) 0 w ∧ Changes w ∧ A.Accepts w := by
  have hnf : ∃ r, e.normalForm fuel = .ok r := by
    cases hr : e.normalForm fuel with
    | error x => rw [TRE.signalTA, hr] at hA; cases hA
    | ok r => exact ⟨r, rfl⟩
  obtain ⟨⟨d, m⟩, h⟩ := hnf
  letI : Durs K := posDurs
  haveI : Fact (false = true → ∀ d : K, Durs.ok d) := ⟨fun h => by cases h⟩
  obtain ⟨as, s, F, h1, h2, h3, h4, h5, h6, h7, h8⟩ := normalForm_final (cl := false) he (fun h => by cases h) h
  obtain ⟨f, rfl⟩ := Nat.exists_eq_add_of_le' h7
  obtain ⟨B, k, j1, j2⟩ := signal_alt hinj (fuel := f) as s F h2 h3 (h5 hi) (h6 hf) h4 _ 0 _ (sigOk_none alloc (fun _ => ⟨false, false, []⟩) 0 (L := fun _ => False) fun _ h => h)
  have hB : A = B.owned := by
    rw [TRE.signalTA, h] at hA
    simp only [h1, j1, renameEps_ok j2, Except.map] at hA
    cases hA
    rfl
  subst hB
  refine ⟨?_, ?_, fun x hx => ?_⟩
  · classical
    refine ⟨fun s => if h : ∃ i, i < k ∧ s = alloc i then k - h.choose else k + 1, fun s a e he q hq => ?_⟩
    have hs := mem_of_owned_edges he
    rw [owned_edges hs] at he
    obtain ⟨i, j, hij, rfl, rfl⟩ := j2.up s hs a e he q hq
    have key : ∀ i, alloc i ∈ B.states → (if h : ∃ j, j < k ∧ alloc i = alloc j then k - h.choose else k + 1) = k - i := by
      intro i hi
      obtain ⟨j, -, hj, e⟩ := j2.range _ hi
      have hex : ∃ j, j < k ∧ alloc i = alloc j := ⟨j, hj, e⟩
      rw [dif_pos hex]
      rw [← hinj hex.choose_spec.2]
    have hk : i < k := by
      obtain ⟨j, -, hj, e⟩ := j2.range _ hs
      rw [hinj e]; exact hj
    simp only
    rw [key i hs, key j (j2.wf.closed _ hs a e he _ hq)]
    omega
  · intro s (hs : s ∈ B.states)
    rw [owned_st hs]
    exact j2.zd s hs
  · obtain ⟨w, q1, q2, q3⟩ := j2.complete 0 x (.inr (h8 x ((posSignals_iff e x).1 hx)))
    refine ⟨w, q1, q2, ?_, (owned_accepts j2.wf 0 w).2 q3⟩
    obtain ⟨s, hs, q⟩ := (TA.acceptsFrom_iff _ _ _).1 q3
    exact changes_of_acc j2.wf.closed j2.norep w s _ (j2.wf.init s hs) q

/-- **C76, partial**: in signal mode, no match of an expression is lost in which every letter takes some time: if the part of the log from `t` to `t'`
is such a signal of the expression, a reported zone contains `(t, t')`.  Missing: letters of duration 0 (which need not appear in the log); the
expressions which are not flat or not `Clean` (C66, C68); automata with upper bounds on the first or the last letter (C51); logs in
which neighbouring events have the same letter or time. -/
theorem expression_signal_complete_partial (alloc : Nat → Nat) (hinj : Function.Injective alloc) (e : TRE K) (he : e.Clean) (hi : e.IntEnds)
    (hf : e.Flat) (nfuel : Nat) (A : TA Nat) (hA : e.signalTA alloc nfuel = .ok A) (hU : A.UpperAfterReset) (hF : A.FinalLower)
    (w : TWord K) (hw : LogOk w) (hstr : LogStrict w) (hlet : LettersOk w) (hch : w.IsChain fun a b => a.1 ≠ b.1)
    (fuel steps efuel : Nat) (st : Option Nat) (hs : w.length < steps) (zs : List (Zone K))
    (h : (monaa fuel steps efuel (vectorCont K) st A w).1 = .ok zs ∨
      (monaa fuel steps efuel (lazyCont K) st A (Lazy.mk0 w)).1 = .ok zs)
    (t t' : K) (htt : t ≤ t') (h0 : 0 ≤ t) (hlast : ∃ b ∈ w, t' ≤ b.2) (hlt : t < t') (hm : e.PosSignals (segment w t t' htt)) :
    ∃ z ∈ zs, z.Has t t' := by
  have hnf : ∃ r, e.normalForm nfuel = .ok r := by
    cases hr : e.normalForm nfuel with
    | error x => rw [TRE.signalTA, hr] at hA; cases hA
    | ok r => exact ⟨r, rfl⟩
  obtain ⟨r, hr⟩ := hnf
  obtain ⟨A', h', -, hC, hD, hM, -, hS, h1, -⟩ := signalTA_final_partial alloc hinj e he hi hf hr
  rw [hA] at h'
  cases h'
  obtain ⟨hac, hz, hpos⟩ := signalTA_pos hinj he hi hf hA
  obtain ⟨v, v1, v2, v3, v4⟩ := hpos _ hm
  obtain ⟨a, ha⟩ : ∃ a, letterAt w t' = some a := by
    obtain ⟨b, hb, hb'⟩ := hlast
    have : (w.filter fun e => decide (t' ≤ e.2)) ≠ [] := List.ne_nil_of_mem (List.mem_filter.2 ⟨hb, by simpa using hb'⟩)
    rw [letterAt, List.head?_eq_some_head this]
    exact ⟨_, rfl⟩
  have hsh := shows_segment hw htt ha
  have hmap : (between w t t').map (fun e => (e.1, e.2 - t)) ++ [(a, t' - t)] = (between w t t' ++ [(a, t')]).map (fun e => (e.1, e.2 - t)) := by simp
  have hst : Steps (D := posDurs) 0 ((between w t t').map (fun e => (e.1, e.2 - t)) ++ [(a, t' - t)]) := by
    refine steps_of_strict _ _ ?_ ?_
    · intro b hb
      simp only [List.mem_append, List.mem_map, between, List.mem_filter, List.mem_singleton, decide_eq_true_eq] at hb
      rcases hb with ⟨c, ⟨-, hc, -⟩, rfl⟩ | rfl
      · exact sub_pos.2 hc
      · exact sub_pos.2 hlt
    · rw [List.pairwise_append]
      refine ⟨?_, by simp, ?_⟩
      · rw [List.pairwise_map]
        exact (hstr.2.filter _).imp fun h => sub_lt_sub_right h t
      · intro b hb c hcm
        simp only [List.mem_map, between, List.mem_filter, List.mem_singleton, decide_eq_true_eq] at hb hcm
        obtain ⟨b, ⟨-, -, hb⟩, rfl⟩ := hb
        subst hcm
        exact sub_lt_sub_right hb t
  have hcg : Changes ((between w t t').map (fun e => (e.1, e.2 - t)) ++ [(a, t' - t)]) := by
    rw [hmap]
    exact (List.isChain_map (fun e : Alphabet × K => (e.1, e.2 - t))).2 (changes_cut hw.sorted hch ha htt)
  have hv := shows_unique v1 hsh v2 hst v3 hcg
  refine signal_complete_partial A hD hS hC hM hac.loopsOk hU hF hz (by omega) w hw hstr hlet fuel steps efuel st hs zs h t t' hlt ⟨h0, htt, a, ha, ?_⟩
  rw [hv, hmap] at v4
  refine (acceptsFrom_shift A t _).2 ?_
  simpa using v4

/-- `(aa)%[1,∞) b`. -/
def posPattern : TRE ℚ := .concat (.within (.concat litA litA) ⟨.fin 1 true, .inf false⟩) litB

/-- Its automaton. -/
def posTA : TA Nat :=
  { states := [0, 1, 2, 3], init := [0]
    st := fun s =>
      if s = 0 then ⟨false, false, [(97, [⟨some 1, [], [⟨0, .ge, 1⟩]⟩, ⟨some 2, [], [⟨0, .ge, 1⟩]⟩])]⟩
      else if s = 2 then ⟨false, false, [(98, [⟨some 3, [], []⟩])]⟩
      else if s = 3 then ⟨true, false, []⟩
      else ⟨false, false, []⟩
    maxC := [1] }

theorem pos_signalTA : posPattern.signalTA id 30 = .ok posTA := by
  refine signalTA_eq (by decide +kernel) fun s hs => ?_
  simp only [posTA, List.mem_cons, List.not_mem_nil, or_false, not_or] at hs
  simp [posTA, hs]

/-- The value is a until 3, then b until 5. -/
def posLog : TWord ℚ := [(97, 3), (98, 5)]

theorem pos_run : (monaa 20 20 20 (vectorCont ℚ) none posTA posLog).1.toOption.isSome = true := by decide +kernel

theorem pos_edges : ∀ s a, ∀ e ∈ posTA.edges s a, ∀ g ∈ e.guard, ¬ g.IsUpper := by
  intro s a e he g hg
  by_cases h0 : s = 0
  · subst h0
    simp only [TA.edges, posTA, if_true, Next.at'_cons, Next.at'_nil] at he
    split at he
    · simp only [List.mem_cons, List.not_mem_nil, or_false] at he
      rcases he with rfl | rfl <;>
      · rw [List.mem_singleton.1 hg]
        simp [Constraint.IsUpper]
    · cases he
  · by_cases h2 : s = 2
    · subst h2
      simp only [TA.edges, posTA, OfNat.ofNat_ne_zero, if_false, if_true] at he
      rw [Next.at'_cons, Next.at'_nil] at he
      split at he
      · rw [List.mem_singleton.1 he] at hg
        cases hg
      · cases he
    · by_cases h3 : s = 3
      · subst h3
        simp [TA.edges, posTA, Next.at'_nil] at he
      · simp [TA.edges, posTA, h0, h2, h3, Next.at'_nil] at he

/-- The hypotheses are met for the part from 1/2 to 4: a for 5/2, then b for 1. -/
theorem pos_hypotheses : posPattern.Clean ∧ posPattern.IntEnds ∧ posPattern.Flat ∧ posPattern.signalTA id 30 = .ok posTA ∧ posTA.UpperAfterReset ∧
    posTA.FinalLower ∧ LogOk posLog ∧ LogStrict posLog ∧ LettersOk posLog ∧ (posLog.IsChain fun a b => a.1 ≠ b.1) ∧
    (∃ zs, (monaa 20 20 20 (vectorCont ℚ) none posTA posLog).1 = .ok zs) ∧
    posPattern.PosSignals (segment posLog (1/2) 4 (by norm_num)) := by
  refine ⟨⟨⟨⟨by simp [litA, TRE.Clean], by simp [litA, TRE.Clean], trivial, trivial⟩, fun h => h.1, 1, true, rfl, by norm_num⟩, by simp [litB, TRE.Clean],
      ⟨trivial, trivial⟩, trivial⟩, ⟨⟨⟨trivial, trivial⟩, fun c s h => ⟨1, ?_⟩, fun c s h => ?_⟩, trivial⟩, ⟨⟨97, rfl, rfl⟩, trivial⟩, pos_signalTA,
    ⟨fun _ _ => False, fun _ _ _ h => h, fun s a e he => ⟨fun g hg hu => pos_edges s a e he g hg hu, fun _ _ _ h => h.elim⟩⟩,
    fun s a e he _ _ _ => pos_edges s a e he, ⟨by decide +kernel, by decide +kernel, by decide⟩, ⟨by decide +kernel, by decide +kernel⟩,
    by unfold LettersOk posLog; decide, by decide, ?_, ?_⟩
  · cases h; norm_num
  · cases h
  · obtain ⟨zs, h⟩ := Option.isSome_iff_exists.1 pos_run
    exact ⟨zs, toOption_eq h⟩
  · refine ⟨Sig.const 97 (5/2) (by norm_num), Sig.const 98 1 (by norm_num), ?_, ⟨⟨Sig.const 97 1 (by norm_num), Sig.const 97 (3/2) (by norm_num), ?_,
      ⟨_, _, rfl, by norm_num⟩, ⟨_, _, rfl, by norm_num⟩⟩, ?_⟩, ⟨_, _, rfl, by norm_num⟩⟩
    · ext u
      · norm_num [segment, Sig.const, Sig.app]
      · by_cases h1 : u < 5 / 2
        · rw [app_val_left (x := Sig.const 97 (5/2) _) h1]
          by_cases h0 : 0 ≤ u
          · rw [const_val _ h0 h1]
            simp only [segment]
            rw [if_pos ⟨h0, by linarith⟩, posLog, valueAt_pos _ (show 1 / 2 + u < 3 by linarith)]
          · rw [Sig.out _ u fun h => h0 h.1, Sig.out _ u fun h => h0 h.1]
        · have e : u = (Sig.const 97 (5/2) (by norm_num) : Sig ℚ).dur + (u - 5 / 2) := by simp [Sig.const]
          have e2 : ((Sig.const 97 (5/2) (by norm_num)).app (Sig.const 98 1 (by norm_num)) : Sig ℚ).val u = (Sig.const 98 1 (by norm_num) : Sig ℚ).val (u - 5 / 2) := by
            conv_lhs => rw [e]
            exact app_val_right (by linarith)
          rw [e2]
          by_cases h2 : u < 7 / 2
          · rw [const_val _ (by linarith) (by linarith)]
            simp only [segment]
            rw [if_pos ⟨by linarith, by linarith⟩, posLog, valueAt_neg _ (show ¬ 1 / 2 + u < 3 by linarith), valueAt_pos _ (show 1 / 2 + u < 5 by linarith)]
          · rw [Sig.out _ u fun h => h2 (by have : u < 4 - 1 / 2 := h.2; linarith), Sig.out _ _ fun h => h2 (by have : u - 5 / 2 < 1 := h.2; linarith)]
    · rw [Sig.const_app]
      exact Sig.const_congr _ _ _ (by norm_num)
    · constructor <;> norm_num [Interval.Above, Sig.const, Bnd.sat]

end Verif.Props
