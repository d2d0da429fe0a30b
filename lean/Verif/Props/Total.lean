import Verif.Lemmas.Fuel
import Verif.Lemmas.SilentTotal
import Verif.Lemmas.Total
import Verif.Examples.Loop
import Verif.Examples.Round
import Verif.Examples.Window
import Verif.Props.Matcher
import Verif.Props.Signal

/-!
# C46: a call of a matcher returns
-/

namespace Verif.Props

variable {S K : Type} [Field K] [LinearOrder K] [IsStrictOrderedRing K] [DecidableEq S]

/-- The bounds of the loops in the model (`fuel` for the tables, `steps` for the loops over the log) only decide whether a loop is cut
off: an outcome other than the cut off is the outcome for all larger bounds. -/
theorem dollar_bounds (addr : S → Nat) (A : TA S) (w : TWord K) {fuel fuel' steps steps' : Nat} (hf : fuel ≤ fuel') (hs : steps ≤ steps')
    (h : monaaDollar addr fuel steps (vectorCont K) A w ≠ .error .fuel) :
    monaaDollar addr fuel' steps' (vectorCont K) A w = monaaDollar addr fuel steps (vectorCont K) A w :=
  (monaaDollar_le addr _ A w hf hs).eq h

theorem rank_bound (rank : S → Nat) (l : List S) : ∃ R, ∀ s ∈ l, rank s ≤ R := by
  induction l with
  | nil => exact ⟨0, by simp⟩
  | cons s l ih =>
    obtain ⟨R, h⟩ := ih
    refine ⟨max R (rank s), fun s' hs' => ?_⟩
    rcases List.mem_cons.1 hs' with rfl | hs'
    · omega
    · have := h s' hs'
      omega

theorem silent_edges {A : TA S} (h : A.NoSilent) : ∀ s ∈ A.states, ∀ e, e ∉ A.edges s epsilon := by
  intro s hs e he
  simp [TA.edges, Next.at', h s hs] at he

/-- The tables of a pattern whose cycles are harmless are built, or the construction ends the program with status 10. -/
theorem makeTables_total (A : TA S) (hcl : A.Closed) (hM : A.MapOk) (hC : A.ClocksDeclared) (hL : A.LabelsOk) (hac : A.LoopsOk)
    (hε : (∀ s ∈ A.states, ∀ e, e ∉ A.edges s epsilon) ∨ A.Acyclic) :
    ∃ N, ∀ fuel, N ≤ fuel → ((∃ T, makeTables K fuel A = .ok T) ∨ makeTables K fuel A = .error (.exit 10)) ∧
      ((∃ (t : K) (u : TWord K), u ≠ [] ∧ LettersOk u ∧ (∀ e ∈ u, t < e.2) ∧ u.Pairwise (fun a b => a.2 < b.2) ∧
        ∃ s₀ ∈ A.init, ∃ s, A.Reads s₀ (fun _ => t) u s ∧ (A.st s).isMatch = true) → ∃ T, makeTables K fuel A = .ok T) := by
  have hE : EdgesOk A := by
    rintro s ⟨a, e⟩ hp
    have he := (mem_outEdges_iff hM).1 hp
    exact ⟨hL s a (List.ne_nil_of_mem he), hC s a e he⟩
  obtain ⟨N1, r, h1, h2, h3⟩ : ∃ N r, (∀ fuel, N ≤ fuel → sundayTable K fuel A = r) ∧ ((∃ x, r = .ok x) ∨ r = .error (.exit 10)) ∧
      ((∃ (t : K) (u : TWord K), u ≠ [] ∧ LettersOk u ∧ (∀ e ∈ u, t < e.2) ∧ u.Pairwise (fun a b => a.2 < b.2) ∧
        ∃ s₀ ∈ A.init, ∃ s, A.Reads s₀ (fun _ => t) u s ∧ (A.st s).isMatch = true) → ∃ x, r = .ok x) := by
    rcases hε with hε | ⟨rank', hrank'⟩
    · exact sundayTable_loops hcl hM hE hac hε
    · exact sundayTable_total hE (rank := rank') (fun s c e q he ht => hrank' s c e ((mem_outEdges_iff hM).1 he) q ht)
  rcases hr : r with x | ⟨m, delta, ends⟩
  · rcases h2 with ⟨y, hy⟩ | hx
    · rw [hr] at hy
      cases hy
    · refine ⟨N1, fun fuel hf => ?_⟩
      have : makeTables K fuel A = .error (.exit 10) := by
        unfold makeTables
        rw [h1 fuel hf, hx]
        rfl
      refine ⟨Or.inr this, fun hw => ?_⟩
      obtain ⟨y, hy⟩ := h3 hw
      rw [hr] at hy
      cases hy
  · obtain ⟨N2, hk⟩ := kmpTable_total (K := K) (m := m) hcl hM hC hL hac.plainCycles
    have key : ∀ fuel, max N1 N2 ≤ fuel → ∃ T, makeTables K fuel A = .ok T := by
      intro fuel hf
      obtain ⟨beta, hb⟩ := hk fuel (by omega)
      unfold makeTables
      rw [h1 fuel (by omega), hr]
      simp only [bind, Except.bind]
      rw [hb]
      exact ⟨_, rfl⟩
    exact ⟨max N1 N2, fun fuel hf => ⟨Or.inl (key fuel hf), fun _ => key fuel hf⟩⟩

theorem prepare_silent {A Ap : TA S} (hP : Prepared A Ap) (hε : A.NoSilent ∨ A.Acyclic) :
    (∀ s ∈ Ap.states, ∀ e, e ∉ Ap.edges s epsilon) ∨ Ap.Acyclic := by
  rcases hε with hε | ⟨rank, hrank⟩
  · exact Or.inl fun s hs e he => silent_edges hε s (by rw [← hP.1]; exact hs) e (prepare_edges hP he)
  · exact Or.inr ⟨rank, fun s a e he => hrank s a e (prepare_edges hP he)⟩

/-- **C46** in event mode (`_partial`: for patterns whose cycles are loops at a state, or ordered, without guard and resets; with silent transitions,
for patterns without cycles).  The call has an outcome, the same for all bounds of the loops which
are large enough; it is a list of zones or the end of the program with status 10, and a list of zones if the pattern matches anything. -/
theorem dollar_total_partial (A : TA S) (hA : A.Closed) (hM : A.MapOk) (hC : A.ClocksDeclared) (hL : A.LabelsOk) (hac : A.LoopsOk)
    (hε : A.NoSilent ∨ A.Acyclic) (addr : S → Nat) (Ap : TA S) (hp : prepare addr A = .ok Ap) (w : TWord K) (hl : LettersOk w) :
    ∃ N r, (∀ fuel steps, N ≤ fuel → w.length < steps →
        monaaDollar addr fuel steps (vectorCont K) A w = r ∧ monaaDollar addr fuel steps (lazyCont K) A (Lazy.mk0 w) = r) ∧
      ((∃ zs, r = .ok zs) ∨ r = .error (.exit 10)) ∧ ((∃ (t t' : K) (u : TWord K), A.Fits t u t') → ∃ zs, r = .ok zs) := by
  have hP := prepare_spec hp
  have hac' : Ap.LoopsOk := prepare_loopsOk hP hac
  have hε' := prepare_silent hP hε
  have hL' : Ap.LabelsOk := fun s a hne => by
    obtain ⟨e, he⟩ := List.exists_mem_of_ne_nil _ hne
    exact hL s a (List.ne_nil_of_mem (prepare_edges hP he))
  obtain ⟨N, hN⟩ := makeTables_total (K := K) Ap (prepare_closed hP hA) (prepare_mapOk hP hM) (prepare_clocks hP hC) hL' hac' hε'
  have hstream : ∀ fuel steps, N ≤ fuel → w.length < steps →
      monaaDollar addr fuel steps (lazyCont K) A (Lazy.mk0 w) = monaaDollar addr fuel steps (vectorCont K) A w :=
    fun fuel steps hf hs => matcher_streaming A w addr fuel steps hs
  have hout : ∀ fuel steps, N ≤ fuel → w.length < steps →
      ((∃ zs, monaaDollar addr fuel steps (vectorCont K) A w = .ok zs) ∨
        monaaDollar addr fuel steps (vectorCont K) A w = .error (.exit 10)) ∧
      ((∃ (t t' : K) (u : TWord K), A.Fits t u t') → ∃ zs, monaaDollar addr fuel steps (vectorCont K) A w = .ok zs) := by
    intro fuel steps hf hs
    obtain ⟨h1, h2⟩ := hN fuel hf
    constructor
    · rcases h1 with ⟨T, hT⟩ | hx
      · exact Or.inl (matcher_stops A hA hM hC addr Ap hp fuel T hT w hl steps hs).1
      · right
        unfold monaaDollar
        rw [hp]
        simp only [bind, Except.bind]
        rw [hx]
    · rintro ⟨t, t', u, hfit⟩
      obtain ⟨T, hT⟩ := h2 ⟨t, u, hfit.nonempty, hfit.letters, hfit.start.2, hfit.sorted, prepare_fits hA hP hfit.noMarker hfit.accepts⟩
      exact (matcher_stops A hA hM hC addr Ap hp fuel T hT w hl steps hs).1
  obtain ⟨h1, h2⟩ := hout N (w.length + 1) (le_refl _) (by omega)
  refine ⟨N, _, fun fuel steps hf hs => ?_, h1, h2⟩
  have : monaaDollar addr fuel steps (vectorCont K) A w = monaaDollar addr N (w.length + 1) (vectorCont K) A w :=
    dollar_bounds addr A w hf hs (by rcases h1 with ⟨_, h⟩ | h <;> rw [h] <;> simp)
  exact ⟨this, (hstream fuel steps hf hs).trans this⟩

/-- Once the tables are built, `monaa` returns also for patterns with silent transitions, if these have no cycle and the static variable
is not too small; nothing undefined happens. -/
theorem silent_stops (A : TA S) (hA : A.Closed) (hM : A.MapOk) (hC : A.ClocksDeclared) (rank : S → Nat)
    (hrank : ∀ s, ∀ e ∈ A.edges s epsilon, ∀ q, e.target = some q → rank q < rank s)
    (fuel : Nat) (T : Tables S) (hT : makeTables K fuel A = .ok T) (w : TWord K) (hl : LettersOk w) (st : Option Nat)
    (hst : A.clockSize ≤ st.getD A.clockSize) :
    ∃ E, ∀ steps efuel, w.length < steps → E ≤ efuel → ∃ zs, (monaa fuel steps efuel (vectorCont K) st A w).1 = .ok zs := by
  obtain ⟨R, hR⟩ := rank_bound rank A.states
  refine ⟨R + 2, fun steps efuel hs hE => ?_⟩
  by_cases hε : A.NoSilent
  · obtain ⟨zs, h, -⟩ := signal_stops A hA hM hC hε fuel T hT w hl steps efuel st hs
    exact ⟨zs, by rw [h]⟩
  · obtain ⟨h1, beta, h2, h3⟩ := makeTables_spec hT
    obtain ⟨hm, hsize, hd⟩ := sundayTable_shape h1
    obtain ⟨zs, hzs⟩ := matchListE_ok (M := silentHooks A (st.getD A.clockSize) efuel) hsize (fun d h => (hd d h).1) hm hl (w := w)
      (inner := steps) (fuel := steps) (i := 0) (fun k hk => by
        obtain ⟨r, hr, hc⟩ := runSilent_ok hA hC hst hrank (R := R + 1) (efuel := efuel) (by omega)
          (fun s hs => Nat.lt_succ_of_le (hR s hs)) (prevOf w k) (w.drop k) (cs := startSym A (st.getD A.clockSize) (prevOf w k) w[k].2)
          (last := []) (startSym_ok hA _ _ _) (by simp)
        refine ⟨r, hr, fun c h => ?_⟩
        rw [h3]
        exact (kmpTable_spec h2).2 _ (hc c h).1) hs (by omega)
    refine ⟨zs, ?_⟩
    unfold monaa
    rw [hT]
    simp only
    rw [if_neg fun h => hε (noSilent_iff.1 h)]
    simp only
    rw [matchLoop_spec (vector_implements w) (k := 0) (f := 0) rfl hm (by omega) hs]
    exact hzs

/-- **C46** without `$`, also for patterns with silent transitions (`_partial`: for patterns whose cycles are loops at a state, or ordered, without
guard and resets; with silent transitions, for patterns without cycles, and if the static variable is not too small, e.g. in the first
call). -/
theorem signal_total_partial (A : TA S) (hA : A.Closed) (hM : A.MapOk) (hC : A.ClocksDeclared) (hL : A.LabelsOk) (hac : A.LoopsOk)
    (hε : A.NoSilent ∨ A.Acyclic) (w : TWord K) (hl : LettersOk w) (st : Option Nat) (hst : A.clockSize ≤ st.getD A.clockSize) :
    ∃ N r, (∀ fuel steps efuel, N ≤ fuel → w.length < steps → N ≤ efuel →
        (monaa fuel steps efuel (vectorCont K) st A w).1 = r ∧ (monaa fuel steps efuel (lazyCont K) st A (Lazy.mk0 w)).1 = r) ∧
      ((∃ zs, r = .ok zs) ∨ r = .error (.exit 10)) ∧
      ((∃ (t : K) (u : TWord K), u ≠ [] ∧ LettersOk u ∧ (∀ e ∈ u, t < e.2) ∧ u.Pairwise (fun a b => a.2 < b.2) ∧ A.AcceptsFrom t u) →
        ∃ zs, r = .ok zs) := by
  obtain ⟨N, hN⟩ := makeTables_total (K := K) A hA hM hC hL hac (hε.imp_left silent_edges)
  obtain ⟨h1, h2⟩ := hN N (le_refl _)
  have key : ∃ E, N ≤ E ∧ ((∃ zs, (monaa N (w.length + 1) E (vectorCont K) st A w).1 = .ok zs) ∨
      (monaa N (w.length + 1) E (vectorCont K) st A w).1 = .error (.exit 10)) ∧
      ((∃ (t : K) (u : TWord K), u ≠ [] ∧ LettersOk u ∧ (∀ e ∈ u, t < e.2) ∧ u.Pairwise (fun a b => a.2 < b.2) ∧ A.AcceptsFrom t u) →
        ∃ zs, (monaa N (w.length + 1) E (vectorCont K) st A w).1 = .ok zs) := by
    rcases h1 with ⟨T, hT⟩ | hx
    · obtain ⟨E, hE⟩ : ∃ E, ∀ steps efuel, w.length < steps → E ≤ efuel →
          ∃ zs, (monaa N steps efuel (vectorCont K) st A w).1 = .ok zs := by
        rcases hε with hε | ⟨rank, hrank⟩
        · refine ⟨0, fun steps efuel hs _ => ?_⟩
          obtain ⟨zs, h, -⟩ := signal_stops A hA hM hC hε N T hT w hl steps efuel st hs
          exact ⟨zs, by rw [h]⟩
        · exact silent_stops A hA hM hC rank (fun s e he => hrank s epsilon e he) N T hT w hl st hst
      have := hE (w.length + 1) (max N E) (by omega) (by omega)
      exact ⟨max N E, by omega, Or.inl this, fun _ => this⟩
    · refine ⟨N, le_refl _, Or.inr ?_, fun hu => ?_⟩
      · unfold monaa
        rw [hx]
      · obtain ⟨T, hT⟩ := h2 hu
        rw [hx] at hT
        cases hT
  obtain ⟨E, hNE, k1, k2⟩ := key
  refine ⟨E, _, fun fuel steps efuel hf hs he => ?_, k1, k2⟩
  have : (monaa fuel steps efuel (vectorCont K) st A w).1 = (monaa N (w.length + 1) E (vectorCont K) st A w).1 :=
    (monaa_le _ st A w (by omega) (by omega) he).eq (by rcases k1 with ⟨_, h⟩ | h <;> rw [h] <;> simp)
  exact ⟨this, by rw [signal_streaming _ _ _ _ _ _ hs]; exact this⟩

/-- **C46** with optional `$` (`_partial`: as above). -/
theorem optional_total_partial (A : TA S) (hA : A.Closed) (hM : A.MapOk) (hC : A.ClocksDeclared) (hL : A.LabelsOk) (hTidy : A.Tidy)
    (hac : A.LoopsOk) (hε : A.NoSilent ∨ A.Acyclic) (addr : S → Nat) (Ap : TA S) (hp : prepareOpt addr A = .ok Ap) (w : TWord K) (hl : LettersOk w) :
    ∃ N r, (∀ fuel steps, N ≤ fuel → w.length < steps → monaaNotNecessaryDollar addr fuel steps (vectorCont K) A w = r ∧
        monaaNotNecessaryDollar addr fuel steps (lazyCont K) A (Lazy.mk0 w) = r) ∧
      ((∃ zs, r = .ok zs) ∨ r = .error (.exit 10)) ∧ ((∃ (t t' : K) (u : TWord K), A.Fits t u t') → ∃ zs, r = .ok zs) := by
  have hP := prepareOpt_spec hTidy hM hA hp
  have hac' : Ap.LoopsOk := prepare_loopsOk hP hac
  have hε' := prepare_silent hP hε
  have hL' : Ap.LabelsOk := fun s a hne => by
    obtain ⟨e, he⟩ := List.exists_mem_of_ne_nil _ hne
    exact hL s a (List.ne_nil_of_mem (prepare_edges hP he))
  obtain ⟨N, hN⟩ := makeTables_total (K := K) Ap (prepare_closed hP hA) (prepare_mapOk hP hM) (prepare_clocks hP hC) hL' hac' hε'
  obtain ⟨h1, h2⟩ := hN N (le_refl _)
  have key : ((∃ zs, monaaNotNecessaryDollar addr N (w.length + 1) (vectorCont K) A w = .ok zs) ∨
      monaaNotNecessaryDollar addr N (w.length + 1) (vectorCont K) A w = .error (.exit 10)) ∧
      ((∃ (t t' : K) (u : TWord K), A.Fits t u t') → ∃ zs, monaaNotNecessaryDollar addr N (w.length + 1) (vectorCont K) A w = .ok zs) := by
    rcases h1 with ⟨T, hT⟩ | hx
    · obtain ⟨zs, h, -⟩ := optional_stops A hA hM hC hTidy addr Ap hp N T hT w hl (w.length + 1) (by omega)
      exact ⟨Or.inl ⟨zs, h⟩, fun _ => ⟨zs, h⟩⟩
    · refine ⟨Or.inr ?_, ?_⟩
      · unfold monaaNotNecessaryDollar
        rw [hp]
        simp only [bind, Except.bind]
        rw [hx]
      · rintro ⟨t, t', u, hfit⟩
        obtain ⟨T, hT⟩ := h2 ⟨t, u, hfit.nonempty, hfit.letters, hfit.start.2, hfit.sorted, prepare_fits hA hP hfit.noMarker hfit.accepts⟩
        rw [hx] at hT
        cases hT
  refine ⟨N, _, fun fuel steps hf hs => ?_, key.1, key.2⟩
  have : monaaNotNecessaryDollar addr fuel steps (vectorCont K) A w = monaaNotNecessaryDollar addr N (w.length + 1) (vectorCont K) A w :=
    (monaaNotNecessaryDollar_le addr _ A w hf hs).eq (by rcases key.1 with ⟨_, h⟩ | h <;> rw [h] <;> simp)
  exact ⟨this, by rw [optional_streaming _ _ _ _ _ hs]; exact this⟩

theorem samplePattern_labels : samplePattern.LabelsOk := by
  intro s a hne
  obtain ⟨e, he⟩ := List.exists_mem_of_ne_nil _ hne
  rcases samplePattern_edges s a e he with ⟨_, rfl, _⟩ | ⟨_, rfl, _⟩ | ⟨_, rfl, _⟩ <;> decide

/-- The pattern with a loop meets the hypotheses of the theorems above and matches a word, so that the calls return zones. -/
example : stayPattern.Closed ∧ stayPattern.MapOk ∧ stayPattern.ClocksDeclared ∧ stayPattern.LabelsOk ∧ stayPattern.Tidy ∧
    stayPattern.LoopsOk ∧ stayPattern.NoSilent ∧ (∃ Ap, prepare id stayPattern = .ok Ap) ∧ (∃ Ap, prepareOpt id stayPattern = .ok Ap) ∧
    LettersOk sampleLog ∧ stayPattern.clockSize ≤ (none : Option Nat).getD stayPattern.clockSize ∧
    stayPattern.Fits (1 / 2 : ℚ) [(97, 1), (97, 3), (98, 9 / 2)] 5 := by
  refine ⟨stayPattern_closed, stayPattern_mapOk, stayPattern_declared, stayPattern_labels, stayPattern_tidy,
    stayPattern_loops.loopsOk, stayPattern_noSilent, ?_, ?_, sampleLog_letters, le_refl _, ?_⟩
  · have h : (prepare id stayPattern).toOption.isSome = true := by decide +kernel
    rcases hp : prepare id stayPattern with x | Ap
    · rw [hp] at h
      cases h
    · exact ⟨Ap, rfl⟩
  · have h : (prepareOpt id stayPattern).toOption.isSome = true := by decide +kernel
    rcases hp : prepareOpt id stayPattern with x | Ap
    · rw [hp] at h
      cases h
    · exact ⟨Ap, rfl⟩
  · have := stay_match.2.2
    rw [stay_between] at this
    exact ⟨by decide, by unfold LettersOk; decide, by decide, by decide +kernel, by decide +kernel, by decide +kernel, this⟩

/-- The pattern with a loop meets the hypotheses of `matcher_complete_partial` too: with large enough bounds the call returns a zone with
the match `(1/2, 5)`, which uses the loop. -/
example : ∃ N zs, monaaDollar id N 6 (vectorCont ℚ) stayPattern sampleLog = .ok zs ∧ ∃ z ∈ zs, z.Has (1 / 2) 5 := by
  have h : (prepare id stayPattern).toOption.isSome = true := by decide +kernel
  rcases hp : prepare id stayPattern with x | Ap
  · rw [hp] at h
    cases h
  have hm := stay_match.2.2
  rw [stay_between] at hm
  obtain ⟨N, r, h1, -, h3⟩ := dollar_total_partial stayPattern stayPattern_closed stayPattern_mapOk stayPattern_declared stayPattern_labels
    stayPattern_loops.loopsOk (Or.inl stayPattern_noSilent) id Ap hp sampleLog sampleLog_letters
  obtain ⟨zs, rfl⟩ := h3 ⟨_, _, _, by decide, by unfold LettersOk; decide, by decide, by decide +kernel, by decide +kernel, by decide +kernel, hm⟩
  have h1 := (h1 N 6 (le_refl _) (by decide)).1
  exact ⟨N, zs, h1, matcher_complete_partial stayPattern stayPattern_declared stayPattern_noSilent stayPattern_closed stayPattern_mapOk
    stayPattern_loops.loopsOk (.inl stayPattern_upper) stayPattern_noZero (by decide) sampleLog sampleLog_ok sampleLog_strict sampleLog_letters id N 6 (by decide)
    zs (Or.inl h1) _ _ stay_match (by rw [stay_between]; simp)⟩

/-- The same for a pattern with a restriction of the duration of the whole match: its run has the match `(1/2, 5)`. -/
example : ∃ N zs, monaaDollar id N 6 (vectorCont ℚ) windowPattern sampleLog = .ok zs ∧ ∃ z ∈ zs, z.Has (1 / 2) 5 := by
  have h : (prepare id windowPattern).toOption.isSome = true := by decide +kernel
  rcases hp : prepare id windowPattern with x | Ap
  · rw [hp] at h
    cases h
  have hm := window_match.2.2
  rw [stay_between] at hm
  obtain ⟨N, r, h1, -, h3⟩ := dollar_total_partial windowPattern windowPattern_closed windowPattern_mapOk windowPattern_declared windowPattern_labels
    windowPattern_loops.loopsOk (Or.inl windowPattern_noSilent) id Ap hp sampleLog sampleLog_letters
  obtain ⟨zs, rfl⟩ := h3 ⟨_, _, _, by decide, by unfold LettersOk; decide, by decide, by decide +kernel, by decide +kernel, by decide +kernel, hm⟩
  have h1 := (h1 N 6 (le_refl _) (by decide)).1
  exact ⟨N, zs, h1, matcher_complete_partial windowPattern windowPattern_declared windowPattern_noSilent windowPattern_closed windowPattern_mapOk
    windowPattern_loops.loopsOk (.inr windowPattern_oneWindow) windowPattern_noZero (by decide) sampleLog sampleLog_ok sampleLog_strict sampleLog_letters
    id N 6 (by decide) zs (Or.inl h1) _ _ window_match (by rw [stay_between]; simp)⟩

/-- The pattern with a cycle of two states meets the hypotheses of the theorems above and of `matcher_complete_partial`, `sunday_sound_partial`
and `optional_complete_partial`; its cycle is no loop at a state; it matches a part of a log. -/
example : roundPattern.Closed ∧ roundPattern.MapOk ∧ roundPattern.ClocksDeclared ∧ roundPattern.LabelsOk ∧ roundPattern.Tidy ∧
    roundPattern.LoopsOk ∧ ¬ roundPattern.PlainLoops ∧ roundPattern.NoSilent ∧ roundPattern.Shiftable ∧ roundPattern.NoZeroDuration ∧
    2 * roundPattern.clockSize ≤ 256 ∧ LogOk roundLog ∧ LogStrict roundLog ∧ LettersOk roundLog ∧
    (∃ Ap, prepare id roundPattern = .ok Ap) ∧ (∃ Ap, prepareOpt id roundPattern = .ok Ap) ∧
    roundPattern.Match roundLog (1 / 2) 7 ∧ between roundLog (1 / 2) 7 ≠ [] ∧
    ∃ N zs, (∀ fuel steps, N ≤ fuel → roundLog.length < steps → monaaDollar id fuel steps (vectorCont ℚ) roundPattern roundLog = .ok zs) ∧
      ∃ z ∈ zs, z.Has (1 / 2) 7 := by
  have h1 : ∃ Ap, prepare id roundPattern = .ok Ap := by
    have h : (prepare id roundPattern).toOption.isSome = true := by decide +kernel
    rcases hp : prepare id roundPattern with x | Ap
    · rw [hp] at h
      cases h
    · exact ⟨Ap, rfl⟩
  have h2 : ∃ Ap, prepareOpt id roundPattern = .ok Ap := by
    have h : (prepareOpt id roundPattern).toOption.isSome = true := by decide +kernel
    rcases hp : prepareOpt id roundPattern with x | Ap
    · rw [hp] at h
      cases h
    · exact ⟨Ap, rfl⟩
  refine ⟨roundPattern_closed, roundPattern_mapOk, roundPattern_declared, roundPattern_labels, roundPattern_tidy, .inr roundPattern_ordered,
    roundPattern_not_plain, roundPattern_noSilent, .inl roundPattern_upper, roundPattern_noZero, by decide, round_log.1, round_log.2.1,
    round_log.2.2, h1, h2, round_match, by rw [round_between]; simp, ?_⟩
  obtain ⟨Ap, hp⟩ := h1
  obtain ⟨N, r, k1, -, k3⟩ := dollar_total_partial roundPattern roundPattern_closed roundPattern_mapOk roundPattern_declared
    roundPattern_labels (.inr roundPattern_ordered) (.inl roundPattern_noSilent) id Ap hp roundLog round_log.2.2
  obtain ⟨zs, rfl⟩ := k3 ⟨1 / 2, 7, _, by
    have := round_match.2.2
    rw [round_between] at this
    exact ⟨by decide, by unfold LettersOk; decide, by decide, by decide +kernel, by decide +kernel, by decide +kernel, this⟩⟩
  refine ⟨N, zs, fun fuel steps hf hs => (k1 fuel steps hf hs).1, ?_⟩
  exact matcher_complete_partial roundPattern roundPattern_declared roundPattern_noSilent roundPattern_closed roundPattern_mapOk
    (.inr roundPattern_ordered) (.inl roundPattern_upper) roundPattern_noZero (by decide) roundLog round_log.1 round_log.2.1 round_log.2.2 id
    N 7 (by decide) zs (.inl (k1 N 7 le_rfl (by decide)).1) _ _ round_match (by rw [round_between]; simp)

end Verif.Props
