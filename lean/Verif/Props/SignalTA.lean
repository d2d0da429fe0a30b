import Verif.Lemmas.SignalTA
import Verif.Props.NormalFormLang
import Verif.Props.Signal

/-!
# C68 and C69: signal automata of expressions
-/

namespace Verif.Props

open TMem NTree

variable {K : Type} [Field K] [LinearOrder K] [IsStrictOrderedRing K] [FloorRing K]

theorem signalTA_spec {cl : Bool} {alloc : Nat → Nat} (hinj : Function.Injective alloc) {e : TRE K} (he : e.Clean) (hc : cl = true → e.Closed)
    (hi : e.IntEnds) (hf : e.Flat) {fuel d : Nat} {m : TMem K} (h : e.normalForm fuel = .ok (d, m)) :
    ∃ A k, e.signalTA alloc fuel = .ok A.owned ∧ SigOk alloc (fun _ => ⟨false, false, []⟩) 0 k A (Den m (.alt (m.dnf d))) := by
  obtain ⟨as, s, F, h1, h2, h3, h4, h5, h6, h7, -⟩ := normalForm_final he hc h
  obtain ⟨f, rfl⟩ := Nat.exists_eq_add_of_le' h7
  obtain ⟨A, k, j1, j2⟩ := signal_alt hinj (fuel := f) as s F h2 h3 (h5 hi) (h6 hf) h4 _ 0 _ (sigOk_none alloc (fun _ => ⟨false, false, []⟩) 0 (L := fun _ => False) fun _ h => h)
  have j3 := j2.congr (M := Den m (.alt (m.dnf d))) fun x => by
    rw [h1, h2.den.2 x]
    simp
  refine ⟨A, k, ?_, j3⟩
  rw [TRE.signalTA, h]
  simp only [h1, j1, renameEps_ok j3, Except.map]

/-- **C68, structure** (`_partial`: for flat expressions, see `signalTA_lang_partial`).  Initial states and targets are states of the
automaton; accepting states have no transitions; guards and resets use declared clocks; there are no silent transitions, and no
transition leads to a state with transitions of the same letter. -/
theorem signalTA_final_partial (alloc : Nat → Nat) (hinj : Function.Injective alloc) (e : TRE K) (he : e.Clean) (hi : e.IntEnds) (hf : e.Flat)
    {fuel d : Nat} {m : TMem K} (h : e.normalForm fuel = .ok (d, m)) :
    ∃ A, e.signalTA alloc fuel = .ok A ∧ (∀ s ∈ A.states, (A.st s).isMatch = true → (A.st s).next = []) ∧
      A.Closed ∧ A.ClocksDeclared ∧ A.MapOk ∧ A.Tidy ∧ A.NoSilent ∧ A.clockSize ≤ 1 ∧
      ∀ s ∈ A.states, ∀ a, ∀ t ∈ A.edges s a, ∃ q ∈ A.states, t.target = some q ∧ A.edges q a = [] := by
  obtain ⟨A, k, h, hok⟩ := signalTA_spec (cl := false) hinj he (fun h => by cases h) hi hf h
  refine ⟨A.owned, h, ?_, ⟨hok.wf.init, ?_⟩, ?_, ?_, owned_tidy A, ?_, hok.clocks, ?_⟩
  · intro s (hs : s ∈ A.states)
    rw [owned_st hs]
    exact hok.wf.term s hs
  · intro s (hs : s ∈ A.states) a
    rw [owned_edges hs]
    exact hok.wf.closed s hs a
  · intro s a t ht
    have hs := mem_of_owned_edges ht
    rw [owned_edges hs] at ht
    exact ⟨hok.wf.guards s hs a t ht, hok.wf.resets s hs a t ht⟩
  · intro s
    by_cases hs : s ∈ A.states
    · rw [owned_st hs]; exact hok.wf.keys s hs
    · rw [owned_tidy A s hs]; simp
  · intro s (hs : s ∈ A.states)
    rw [owned_st hs]
    cases hf : (A.st s).next.find epsilon with
    | none => rfl
    | some l =>
      exfalso
      have h1 := hok.wf.lab s hs
      rw [TA.edges, Next.at', hf] at h1
      simp only [Option.getD_some] at h1
      subst h1
      rw [Next.find, Option.map_eq_some_iff] at hf
      obtain ⟨p, hp, hp2⟩ := hf
      exact hok.wf.ne s hs p (List.mem_of_find?_eq_some hp) hp2
  · intro s (hs : s ∈ A.states) a t ht
    rw [owned_edges hs] at ht
    cases hq : t.target with
    | none => exact absurd hq (hok.nonnull s hs a t ht)
    | some q =>
      have hqs := hok.wf.closed s hs a t ht q hq
      exact ⟨q, hqs, rfl, by rw [owned_edges hqs]; exact hok.norep s hs a t ht q hq⟩

theorem signalTA_member {cl : Bool} {alloc : Nat → Nat} (hinj : Function.Injective alloc) {e : TRE K} (he : e.Clean) (hc : cl = true → e.Closed)
    (hi : e.IntEnds) (hf : e.Flat) {fuel d : Nat} {m : TMem K} (h : e.normalForm fuel = .ok (d, m)) :
    ∃ A, e.signalTA alloc fuel = .ok A ∧ (∀ w x, Shows 0 w x → A.Accepts w → Den m (.alt (m.dnf d)) x) ∧
      ∀ x, Den m (.alt (m.dnf d)) x → ∃ w, Shows 0 w x ∧ A.isMember w = .ok true := by
  obtain ⟨A, k, h', hok⟩ := signalTA_spec hinj he hc hi hf h
  obtain ⟨A', h'', -, -, hC, -⟩ := signalTA_final_partial alloc hinj e he hi hf h
  rw [h'] at h''
  cases h''
  refine ⟨A.owned, h', fun w x hw ha => hok.sound 0 w x hw (steps_all w 0) ((owned_accepts hok.wf 0 w).1 ha), fun x hx => ?_⟩
  obtain ⟨w, hw, -, ha⟩ := hok.complete 0 x hx
  obtain ⟨b, hb, hbw⟩ := isMember_iff A.owned hC w
  have : b = true := hbw.2 ((owned_accepts hok.wf 0 w).2 ha)
  exact ⟨w, hw, this ▸ hb⟩

/-- **C68, partial** (no signal is lost): for flat expressions, the translation succeeds, and every signal of the expression is shown by some
word which the automaton accepts.  Missing: repetitions and restrictions of more than one letter, for which the translation has undefined
behaviour (`signalTA_wrong`), and the expressions which are not `Clean` (C66). -/
theorem signalTA_complete_partial (alloc : Nat → Nat) (hinj : Function.Injective alloc) (e : TRE K) (he : e.Clean) (hi : e.IntEnds) (hf : e.Flat)
    {fuel : Nat} {r : Nat × TMem K} (h : e.normalForm fuel = .ok r) :
    ∃ A, e.signalTA alloc fuel = .ok A ∧ ∀ x : Sig K, e.Signals x → ∃ w, Shows 0 w x ∧ A.isMember w = .ok true := by
  obtain ⟨A, h1, -, h2⟩ := signalTA_member (cl := false) hinj he (fun h => by cases h) hi hf h
  exact ⟨A, h1, fun x hx => h2 x (normalForm_complete_partial e he h hx)⟩

/-- **C68, partial**: for flat expressions with closed lower ends, the translation succeeds; every word which the automaton accepts shows only
signals of the expression; every signal of the expression is shown by a word which the automaton accepts.  Missing: as for
`signalTA_complete_partial` and `normalForm_lang_partial`. -/
theorem signalTA_lang_partial (alloc : Nat → Nat) (hinj : Function.Injective alloc) (e : TRE K) (he : e.Clean) (hc : e.Closed)
    (hd : e.Distributes) (hi : e.IntEnds) (hf : e.Flat) {fuel : Nat} {r : Nat × TMem K} (h : e.normalForm fuel = .ok r) :
    ∃ A, e.signalTA alloc fuel = .ok A ∧ (∀ w x, Shows 0 w x → A.Accepts w → e.Signals x) ∧
      ∀ x : Sig K, e.Signals x → ∃ w, Shows 0 w x ∧ A.isMember w = .ok true := by
  obtain ⟨A, h1, h2, h3⟩ := signalTA_member (cl := true) hinj he (fun _ => hc) hi hf h
  exact ⟨A, h1, fun w x hw ha => (normalForm_lang_partial e he hc hd h x).1 (h2 w x hw ha), fun x hx =>
    h3 x (normalForm_complete_partial e he h hx)⟩

/-- `(aa)%[2,5] b | (a|aa)+ | ε`. -/
def flatEx : TRE ℚ :=
  .disj (.concat (.within (.concat litA litA) ⟨.fin 2 true, .fin 5 true⟩) litB)
    (.disj (.plus (.disj litA (.concat litA litA))) .epsilon)

theorem flatEx_clean : flatEx.Clean := by
  refine ⟨⟨⟨⟨?_, ?_, trivial, trivial⟩, fun h => h.1, 2, true, rfl, by norm_num⟩, ?_, ⟨trivial, trivial⟩, trivial⟩,
    ⟨⟨?_, ?_, ?_, trivial, trivial⟩, fun h => h.1⟩, trivial⟩ <;> simp [litA, litB, TRE.Clean]

theorem flatEx_closed : flatEx.Closed := by
  refine ⟨⟨⟨⟨trivial, trivial⟩, fun l s h => ?_⟩, trivial⟩, ⟨trivial, trivial, trivial⟩, trivial⟩
  cases h; rfl

theorem flatEx_distributes : flatEx.Distributes :=
  ⟨⟨⟨⟨trivial, trivial, trivial, trivial, fun h => h, fun h => h⟩, fun _ _ _ h => h.elim⟩, trivial, ⟨trivial, trivial⟩, trivial,
    fun h => h, fun h => h⟩, ⟨trivial, trivial, trivial, trivial, trivial, fun h => h, fun h => h⟩, trivial⟩

theorem flatEx_intEnds : flatEx.IntEnds := by
  refine ⟨⟨⟨⟨trivial, trivial⟩, fun c s h => ⟨2, ?_⟩, fun c s h => ⟨5, ?_⟩⟩, trivial⟩, ⟨trivial, trivial, trivial⟩, trivial⟩ <;>
  · cases h; norm_num

theorem flatEx_flat : flatEx.Flat := ⟨⟨⟨97, rfl, rfl⟩, trivial⟩, ⟨97, rfl, rfl, rfl⟩, trivial⟩

theorem flatEx_ok : (flatEx.normalForm 30).isOk := by decide +kernel

/-- The hypotheses are met, and the automaton accepts a word which shows a of duration 3.5, then b of duration 1. -/
example : ∃ r A, flatEx.normalForm 30 = .ok r ∧ flatEx.signalTA down 30 = .ok A ∧
    ∃ w : TWord ℚ, Shows 0 w ((Sig.const 97 (7/2) (by norm_num)).app (Sig.const 98 1 (by norm_num))) ∧ A.isMember w = .ok true := by
  cases h : flatEx.normalForm 30 with
  | error e =>
    have := flatEx_ok
    rw [h] at this
    cases this
  | ok r =>
    obtain ⟨A, h1, -, h2⟩ := signalTA_lang_partial down down_inj flatEx flatEx_clean flatEx_closed flatEx_distributes flatEx_intEnds
      flatEx_flat h
    refine ⟨r, A, rfl, h1, h2 _ (.inl ⟨_, _, rfl, ⟨⟨Sig.const 97 2 (by norm_num), Sig.const 97 (3/2) (by norm_num), ?_, ⟨_, _, rfl⟩, ⟨_, _, rfl⟩⟩, ?_⟩,
      _, _, rfl⟩)⟩
    · rw [Sig.const_app]
      exact Sig.const_congr _ _ _ (by norm_num)
    · constructor <;> norm_num [Interval.Above, Sig.const, Bnd.sat]

/-- **C68 is false**: for `(ab)%(1,2)` and for `(ab)+` the normal form exists, but the translation appends to the vector of transitions over
which it iterates. -/
theorem signalTA_wrong : ∀ e ∈ [TRE.within (.concat litA litB) ⟨.fin 1 false, .fin 2 false⟩, .plus (.concat litA litB)],
    (e.normalForm 20).isOk ∧ e.Clean ∧ ¬ ∃ A, e.signalTA up 20 = .ok A := by
  intro e he
  have key : (e.normalForm 20).isOk ∧ (e.signalTA up 20).isOk = false := by
    revert e
    decide +kernel
  refine ⟨key.1, ?_, fun ⟨A, hA⟩ => ?_⟩
  · simp only [List.mem_cons, List.not_mem_nil, or_false] at he
    rcases he with rfl | rfl
    · exact ⟨⟨by simp [litA, TRE.Clean], by simp [litB, TRE.Clean], trivial, trivial⟩, fun h => h.1, 1, false, rfl, by norm_num⟩
    · exact ⟨⟨by simp [litA, TRE.Clean], by simp [litB, TRE.Clean], trivial, trivial⟩, fun h => h.1⟩
  · rw [hA] at key
    cases key.2

/-! ## C69 -/

omit [Field K] [IsStrictOrderedRing K] [FloorRing K] in
theorem valueAt_pos {e : Alphabet × K} {t : K} (w : TWord K) (h : t < e.2) : valueAt (e :: w) t = e.1 := by
  simp [valueAt, h]

omit [Field K] [IsStrictOrderedRing K] [FloorRing K] in
theorem valueAt_neg {e : Alphabet × K} {t : K} (w : TWord K) (h : ¬ t < e.2) : valueAt (e :: w) t = valueAt w t := by
  simp [valueAt, h]

omit [FloorRing K] in
theorem shows_value {t0 : K} {v : TWord K} {x : Sig K} (h : Shows t0 v x) : ∀ u, 0 ≤ u → u < x.dur → x.val u = valueAt v (t0 + u) := by
  induction h with
  | nil => intro u h0 h1; exact absurd h1 (not_lt.2 h0)
  | @cons t0 c t w x h hw ih =>
    intro u h0 h1
    have h1 : u < t - t0 + x.dur := h1
    by_cases hu : u < t - t0
    · have e1 : ((Sig.const c (t - t0) (sub_nonneg.2 h)).app x).val u = c := by simp [Sig.app, Sig.const, hu, h0]
      rw [e1, valueAt_pos]
      show t0 + u < t
      linarith
    · have e1 : ((Sig.const c (t - t0) (sub_nonneg.2 h)).app x).val u = x.val (u - (t - t0)) := by simp [Sig.app, Sig.const, hu]
      rw [e1, ih _ (by linarith) (by linarith), valueAt_neg w (e := (c, t)) (show ¬ t0 + u < t from fun h => by linarith)]
      congr 1
      linarith

omit [FloorRing K] in
theorem shows_dur {t0 : K} {v : TWord K} {x : Sig K} (h : Shows t0 v x) : ∀ u a t', v = u ++ [(a, t')] → x.dur = t' - t0 := by
  induction h with
  | nil => intro u a t' h; simp at h
  | @cons t0 c t w x h hw ih =>
    intro u a t' e
    cases u with
    | nil =>
      simp only [List.nil_append, List.cons.injEq, Prod.mk.injEq] at e
      obtain ⟨⟨rfl, rfl⟩, rfl⟩ := e
      cases hw
      simp [Sig.app, Sig.const, Sig.nil]
    | cons b u =>
      simp only [List.cons_append, List.cons.injEq] at e
      have := ih u a t' e.2
      simp only [Sig.app, Sig.const, this]
      ring

omit [FloorRing K] in
theorem shows_of_sorted : ∀ (v : TWord K) (t0 : K), (∀ e ∈ v, t0 ≤ e.2) → v.Pairwise (fun a b => a.2 ≤ b.2) → ∃ x, Shows t0 v x
  | [], _, _, _ => ⟨_, .nil⟩
  | (c, t) :: v, t0, h, hp => by
    obtain ⟨hp1, hp2⟩ := List.pairwise_cons.1 hp
    obtain ⟨x, hx⟩ := shows_of_sorted v t hp1 hp2
    exact ⟨_, .cons (h (c, t) (by simp)) hx⟩

omit [IsStrictOrderedRing K] [FloorRing K] in
theorem valueAt_cut {a : Alphabet} {t t' u : K} (htu : t ≤ u) (hut : u < t') : ∀ {w : TWord K}, w.Pairwise (fun a b => a.2 ≤ b.2) →
    letterAt w t' = some a → valueAt (between w t t' ++ [(a, t')]) u = valueAt w u
  | [], _, h => by simp [letterAt] at h
  | e :: w, hp, h => by
    obtain ⟨hp1, hp2⟩ := List.pairwise_cons.1 hp
    rcases le_or_gt e.2 u with h1 | h1
    · have hn : ¬ t' ≤ e.2 := not_le.2 (lt_of_le_of_lt h1 hut)
      have ih := valueAt_cut htu hut hp2 (a := a) (by simpa [letterAt, hn] using h)
      rw [valueAt_neg w (not_lt.2 h1), ← ih, between]
      by_cases hb : t < e.2 ∧ e.2 < t'
      · rw [List.filter_cons_of_pos (by simpa using hb), List.cons_append, valueAt_neg _ (not_lt.2 h1)]
        rfl
      · rw [List.filter_cons_of_neg (by simpa using hb)]
        rfl
    · rcases lt_or_ge e.2 t' with h2 | h2
      · rw [between, List.filter_cons_of_pos (by simpa using ⟨lt_of_le_of_lt htu h1, h2⟩), List.cons_append,
          valueAt_pos _ h1, valueAt_pos _ h1]
      · have hnil : between (e :: w) t t' = [] := by
          rw [between, List.filter_eq_nil_iff]
          intro b hb
          have : t' ≤ b.2 := by
            rcases List.mem_cons.1 hb with rfl | hb
            · exact h2
            · exact h2.trans (hp1 b hb)
          simpa using fun _ => this
        rw [hnil, List.nil_append, valueAt_pos (e := (a, t')) _ hut, valueAt_pos _ h1]
        simp [letterAt, h2] at h
        exact h.symm

omit [FloorRing K] in
/-- The events between `t` and `t'` and the next one, cut off at `t'`, show the part of the log from `t` to `t'`. -/
theorem shows_segment {w : TWord K} (hw : LogOk w) {t t' : K} (h2 : t ≤ t') {a : Alphabet} (ha : letterAt w t' = some a) :
    Shows 0 ((between w t t').map (fun e => (e.1, e.2 - t)) ++ [(a, t' - t)]) (segment w t t' h2) := by
  obtain ⟨x, hx⟩ := shows_of_sorted ((between w t t').map (fun e => (e.1, e.2 - t)) ++ [(a, t' - t)]) 0 (by
      intro b hb
      simp only [List.mem_append, List.mem_map, between, List.mem_filter, List.mem_singleton, decide_eq_true_eq] at hb
      rcases hb with ⟨c, ⟨-, hc, -⟩, rfl⟩ | rfl
      · exact (sub_pos.2 hc).le
      · exact sub_nonneg.2 h2) (by
      rw [List.pairwise_append]
      refine ⟨?_, by simp, ?_⟩
      · rw [List.pairwise_map]
        exact (hw.sorted.filter _).imp fun h => sub_le_sub_right h t
      · intro b hb c hcm
        simp only [List.mem_map, between, List.mem_filter, List.mem_singleton, decide_eq_true_eq] at hb hcm
        obtain ⟨b, ⟨-, -, hb⟩, rfl⟩ := hb
        subst hcm
        exact sub_le_sub_right hb.le t)
  have hxs : x = segment w t t' h2 := by
    have hdur : x.dur = t' - t := by rw [shows_dur hx _ _ _ rfl, sub_zero]
    ext u
    · exact hdur
    · by_cases hu : 0 ≤ u ∧ u < t' - t
      · rw [shows_value hx u hu.1 (hdur ▸ hu.2)]
        simp only [segment, if_pos hu]
        rw [← valueAt_cut (a := a) (t := t) (le_add_of_nonneg_right hu.1) (by linarith [hu.2]) hw.sorted ha]
        have e1 : (between w t t').map (fun e => (e.1, e.2 - t)) ++ [(a, t' - t)] =
            (between w t t' ++ [(a, t')]).map (fun e => (e.1, e.2 - t)) := by simp
        rw [e1, valueAt, valueAt, List.find?_map, Option.map_map]
        congr 2
        congr 1
        ext b
        simp only [Function.comp, zero_add]
        exact decide_eq_decide.2 ⟨fun h => by linarith, fun h => by linarith⟩
      · rw [x.out u (by rwa [hdur])]
        simp only [segment, if_neg hu]
  rw [← hxs]
  exact hx

/-- **C69** (`_partial`: with the restrictions of `signalTA_lang_partial`).  For a pattern given as an expression, in signal mode: every pair
`(t, t')` of a reported zone is such that the part of the log from `t` to `t'`, read as a signal, is a signal of the expression. -/
theorem expression_signal_sound_partial (alloc : Nat → Nat) (hinj : Function.Injective alloc) (e : TRE K) (he : e.Clean) (hc : e.Closed)
    (hd : e.Distributes) (hi : e.IntEnds) (hf : e.Flat) (nfuel : Nat) (A : TA Nat) (hA : e.signalTA alloc nfuel = .ok A)
    (w : TWord K) (hw : LogOk w) (fuel steps efuel : Nat) (st : Option Nat) (hs : w.length < steps) (zs : List (Zone K))
    (h : (monaa fuel steps efuel (vectorCont K) st A w).1 = .ok zs ∨
      (monaa fuel steps efuel (lazyCont K) st A (Lazy.mk0 w)).1 = .ok zs) :
    ∀ z ∈ zs, ∀ t t', z.Has t t' → 0 ≤ t ∧ ∃ htt : t ≤ t', e.Signals (segment w t t' htt) := by
  have hnf : ∃ r, e.normalForm nfuel = .ok r := by
    cases hr : e.normalForm nfuel with
    | error x => rw [TRE.signalTA, hr] at hA; cases hA
    | ok r => exact ⟨r, rfl⟩
  obtain ⟨r, hr⟩ := hnf
  obtain ⟨A', h', -, -, -, -, hT, hS, -⟩ := signalTA_final_partial alloc hinj e he hi hf hr
  rw [hA] at h'
  cases h'
  obtain ⟨A', h', hl, -⟩ := signalTA_lang_partial alloc hinj e he hc hd hi hf hr
  rw [hA] at h'
  cases h'
  intro z hz t t' hzt
  obtain ⟨h1, h2, a, ha, hacc⟩ := signal_sound A hT hS w hw fuel steps efuel st hs zs h z hz t t' hzt
  refine ⟨h1, h2, ?_⟩
  exact hl _ _ (shows_segment hw h2 ha) hacc

/-- `(aa)%[2,5]`. -/
def flatSmall : TRE ℚ := .within (.concat litA litA) ⟨.fin 2 true, .fin 5 true⟩

/-- Its automaton. -/
def flatTA : TA Nat :=
  { states := [20, 19], init := [20]
    st := fun s =>
      if s = 20 then ⟨false, false, [(97, [⟨some 19, [], [⟨0, .ge, 2⟩, ⟨0, .le, 5⟩]⟩])]⟩
      else if s = 19 then ⟨true, false, []⟩
      else ⟨false, false, []⟩
    maxC := [5] }

theorem flatSmall_TA : flatSmall.signalTA down 30 = .ok flatTA := by
  have key : ((flatSmall.signalTA down 30).toOption.map fun A => (A.states, A.init, A.states.map A.st, A.maxC)) =
      some (flatTA.states, flatTA.init, flatTA.states.map flatTA.st, flatTA.maxC) := by decide +kernel
  have out : ∀ A, flatSmall.signalTA down 30 = .ok A → ∀ s, s ∉ A.states → A.st s = ⟨false, false, []⟩ := by
    intro A hA s hs
    unfold TRE.signalTA at hA
    split at hA
    · cases hA
    · split at hA
      · cases hA
      · next B _ _ =>
        cases hB : B.renameEps with
        | error e => rw [hB] at hA; cases hA
        | ok C =>
          rw [hB] at hA
          simp only [Except.map, Except.ok.injEq] at hA
          subst hA
          have : s ∉ C.states := hs
          simp [TA.owned, this]
  cases hA : flatSmall.signalTA down 30 with
  | error e => rw [hA] at key; cases key
  | ok A =>
    have ho := out A hA
    rw [hA] at key
    simp only [Except.toOption, Option.map_some, Option.some.injEq, Prod.mk.injEq] at key
    obtain ⟨k1, k2, k3, k4⟩ := key
    obtain ⟨S, I, f, M⟩ := A
    simp only at k1 k2 k3 k4 ho
    subst k1 k2 k4
    rw [List.map_inj_left] at k3
    have : f = flatTA.st := by
      funext s
      by_cases hs : s ∈ flatTA.states
      · exact k3 s hs
      · rw [ho s hs]
        simp only [flatTA, List.mem_cons, List.not_mem_nil, or_false, not_or] at hs
        simp [flatTA, hs]
    rw [this]

/-- The begin lies in `[0, 1]`, the end in `[2, 3]`, at least 2 later. -/
def flatZone : Zone ℚ := sixZone ⟨.fin 1 true, .fin 0 true, .fin 3 true, .fin (-2) true, .fin 3 true, .fin (-2) true⟩

def flatLog : TWord ℚ := [(97, 3), (98, 4)]

theorem flat_check : okOne flatZone (monaa 20 20 20 (vectorCont ℚ) none flatTA flatLog).1 = true := by decide +kernel

/-- The hypotheses are met, and for the log with a until 3 and b until 4 the zone with the pair `(0.25, 2.75)` is reported. -/
example : flatSmall.Clean ∧ flatSmall.Closed ∧ flatSmall.Distributes ∧ flatSmall.IntEnds ∧ flatSmall.Flat ∧
    LogOk flatLog ∧ ∃ A zs, flatSmall.signalTA down 30 = .ok A ∧
    (monaa 20 20 20 (vectorCont ℚ) none A flatLog).1 = .ok zs ∧ ∃ z ∈ zs, z.Has (1/4) (11/4) := by
  refine ⟨flatEx_clean.1.1, flatEx_closed.1.1, flatEx_distributes.1.1, flatEx_intEnds.1.1, flatEx_flat.1.1, ⟨by decide +kernel, by decide +kernel, by decide⟩,
    flatTA, [flatZone], flatSmall_TA, okOne_eq flat_check, flatZone, by simp, ?_⟩
  refine sixZone_Sat.2 ?_
  simp only [Six.Sat, sat_t, sat_f]
  norm_num

end Verif.Props
