import Verif.Props.Order
import Verif.Props.Program

/-!
# The order of the printed results (C90 for the whole program)
-/

set_option linter.unusedSectionVars false

namespace Verif.Props

open Bnd

section general

variable {K : Type} [Field K] [LinearOrder K] [IsStrictOrderedRing K] [FloorRing K]

/-- A block of the output is the text of a zone; what follows is the text of the zones which follow. -/
theorem printed_split (zs : List (Zone K)) {pre block post : List (OutLine K)}
    (h : zs.flatMap printBlock = pre ++ block ++ .separator :: post) (hpre : pre = [] ∨ ∃ p, pre = p ++ [.separator])
    (hb : .separator ∉ block) : ∃ l1 z l2, zs = l1 ++ z :: l2 ∧ blockRows z = block ∧ post = l2.flatMap printBlock := by
  induction zs generalizing pre with
  | nil => simp at h
  | cons z zs ih =>
    rw [List.flatMap_cons, printBlock_rows] at h
    rcases hpre with rfl | ⟨p, rfl⟩
    · obtain ⟨h1, h2⟩ := split_sep (sep_notMem z) hb (by simpa using h)
      exact ⟨[], z, zs, rfl, h1, h2.symm⟩
    · by_cases hp : (.separator : OutLine K) ∈ p
      · obtain ⟨p1, p2, h3, h4⟩ := List.eq_append_cons_of_mem hp
        subst h3
        obtain ⟨-, h2⟩ := split_sep (b := zs.flatMap printBlock) (c := p1) (d := p2 ++ .separator :: (block ++ .separator :: post))
          (sep_notMem z) h4 (by simpa using h)
        obtain ⟨l1, z', l2, rfl, k⟩ := ih (pre := p2 ++ [.separator]) (by simpa using h2) (Or.inr ⟨p2, rfl⟩)
        exact ⟨z :: l1, z', l2, rfl, k⟩
      · obtain ⟨-, h2⟩ := split_sep (b := zs.flatMap printBlock) (c := p) (d := block ++ .separator :: post)
          (sep_notMem z) hp (by simpa using h)
        obtain ⟨l1, z', l2, rfl, k⟩ := ih (pre := []) (by simpa using h2) (Or.inl rfl)
        exact ⟨z :: l1, z', l2, rfl, k⟩

theorem printedBefore_iff (zs : List (Zone K)) (t t' u u' : K) :
    PrintedBefore (zs.flatMap printBlock) t t' u u' ↔ ∃ l1 z l2, zs = l1 ++ z :: l2 ∧ (∀ l ∈ printBlock z, l.Holds t t') ∧
      ∃ z' ∈ l2, ∀ l ∈ printBlock z', l.Holds u u' := by
  constructor
  · rintro ⟨pre, block, post, h, hpre, hb, hh, hp⟩
    obtain ⟨l1, z, l2, rfl, rfl, rfl⟩ := printed_split zs h hpre hb
    refine ⟨l1, z, l2, rfl, ?_, (printedPair_iff l2 u u').1 hp⟩
    intro l hl
    rw [printBlock_rows] at hl
    rcases List.mem_append.1 hl with hl | hl
    · exact hh l hl
    · rw [List.mem_singleton.1 hl]
      trivial
  · rintro ⟨l1, z, l2, rfl, h, h'⟩
    refine ⟨l1.flatMap printBlock, blockRows z, l2.flatMap printBlock, ?_, ?_, sep_notMem z, fun l hl => h l ?_,
      (printedPair_iff l2 u u').2 h'⟩
    · simp [printBlock_rows]
    · rcases List.eq_nil_or_concat l1 with rfl | ⟨l, y, rfl⟩
      · exact Or.inl rfl
      · refine Or.inr ⟨l.flatMap printBlock ++ blockRows y, ?_⟩
        simp [printBlock_rows]
    · rw [printBlock_rows]
      exact List.mem_append_left _ hl

/-- A pair which satisfies the lines printed for a zone is in the zone. -/
theorem printBlock_sound {z : Zone K} (hn : z.n = 3) (hne : ∃ t t', z.Has t t') {t t' : K} (h : ∀ l ∈ printBlock z, l.Holds t t') :
    z.Has t t' := by
  have fin : ∀ {b u : Bnd K} {x : K}, between' (negFirst b) x u → ∃ c s, b = .fin c s := by
    intro b u x hb
    cases b with
    | fin c s => exact ⟨c, s, rfl⟩
    | inf s => exact hb.1.elim
  have h1 := (h (.row (negFirst (z.get 0 1)) "t" (z.get 1 0)) (by simp [printBlock])).1 rfl
  have h2 := (h (.row (negFirst (z.get 0 2)) "t'" (z.get 2 0)) (by simp [printBlock])).2.1 rfl
  have h3 := (h (.row (negFirst (z.get 1 2)) "t' - t" (z.get 2 1)) (by simp [printBlock])).2.2 rfl
  refine (printed_block_exact z hn ?_ ⟨fin h1, fin h2, fin h3⟩ t t').1 h
  obtain ⟨a, b, hab⟩ := hne
  intro i hi
  have := hab i i (by omega) (by omega)
  simpa using this

/-- What the program prints is what one of the two matchers reports for the log. -/
theorem run_matched {E : Env K} {o : Options} (hn : o.Named) {w : TWord K} (hlog : E.LogIs (asked o).2 o.binary w)
    (hst : w.length < E.steps) {zs : List (Zone K)} {q : Bool} (h : E.run o = .matched zs q) :
    ∃ A : TA Nat, monaaDollar id E.fuel E.steps (vectorCont K) A w = .ok zs ∨
      (monaa E.fuel E.steps E.efuel (vectorCont K) none A w).1 = .ok zs := by
  obtain ⟨-, -, A, -, -, hr⟩ := (main_matched_iff E.world o hn zs q).1 h
  refine ⟨A, ?_⟩
  cases hsig : o.signal with
  | true =>
    right
    simp only [hsig, if_true] at hr
    rw [← runSignal_eq hlog hst]
    exact hr
  | false =>
    left
    simp only [hsig, Bool.false_eq_true, if_false] at hr
    rw [← runEvent_eq hlog hst]
    exact hr

/-- **C90** for the whole program, for every pattern (text or file), in event and in signal mode.  If `(t, t')` satisfies the lines of a
printed block and `(u, u')` those of a later block, every event of the log at or before `t` is at or before `u`; and if `t` and `u` are
between the same two events, every event before `t'` is before `u'`. -/
theorem program_ordered (E : Env K) (o : Options) (hn : o.Named) (w : TWord K) (hlog : E.LogIs (asked o).2 o.binary w) (hw : LogOk w)
    (hst : w.length < E.steps) (t t' u u' : K) (h : PrintedBefore (E.run o).printed t t' u u') :
    (∀ e ∈ w, e.2 ≤ t → e.2 ≤ u) ∧ ((∀ e ∈ w, e.2 ≤ t ↔ e.2 ≤ u) → ∀ e ∈ w, e.2 < t' → e.2 < u') := by
  have hp : PrintedPair (E.run o).printed t t' := by
    obtain ⟨pre, block, post, h1, h2, h3, h4, -⟩ := h
    exact ⟨pre, block, post, h1, h2, h3, h4⟩
  obtain ⟨zs, hr, -⟩ := printed_of_pair hp
  rw [hr, printed_matched] at h
  simp only [Bool.false_eq_true, if_false] at h
  obtain ⟨l1, z, l2, hzs, hz, z', hz', hh'⟩ := (printedBefore_iff zs t t' u u').1 h
  obtain ⟨A, hA⟩ := run_matched hn hlog hst hr
  have key : (∀ z ∈ zs, z.n = 3 ∧ ∃ t t', z.Has t t') ∧ zs.Pairwise fun z z' => z.BeginsBefore w z' ∧ z.EndsBefore w z' := by
    rcases hA with hA | hA
    · exact ⟨fun z hz => let k := matcher_zones_tight A w hw id E.fuel E.steps hst zs (Or.inl hA) z hz; ⟨k.1, k.2.1⟩,
        matcher_ordered A w hw id E.fuel E.steps hst zs (Or.inl hA)⟩
    · refine ⟨fun z hz => ?_, signal_ordered A w hw E.fuel E.steps E.efuel none hst zs (Or.inl hA)⟩
      by_cases hε : A.NoSilent
      · have k := signal_zones_tight A hε w hw E.fuel E.steps E.efuel none hst zs (Or.inl hA) z hz
        exact ⟨k.1, k.2.1⟩
      · have k := silent_zones_tight A hε w hw E.fuel E.steps E.efuel none hst zs (Or.inl hA) z hz
        exact ⟨k.1, k.2.1⟩
  obtain ⟨k1, k2⟩ := key
  have hmem : z ∈ zs := by simp [hzs]
  have hmem' : z' ∈ zs := by simp [hzs, hz']
  have a := printBlock_sound (k1 z hmem).1 (k1 z hmem).2 hz
  have b := printBlock_sound (k1 z' hmem').1 (k1 z' hmem').2 hh'
  rw [hzs, List.pairwise_append] at k2
  have := (List.pairwise_cons.1 k2.2.1).1 z' hz'
  exact ⟨this.1 t t' u u' a b, this.2 t t' u u' a b⟩

end general

/-- The hypotheses are met: for the automaton file of `Props/Program.lean` the pair `(1/2, 2)` is printed before the pair `(3/2, 4)`. -/
example : fileOptions.Named ∧ sampleEnv.LogIs (asked fileOptions).2 fileOptions.binary twoLog ∧ LogOk twoLog ∧
    twoLog.length < sampleEnv.steps ∧ PrintedBefore (sampleEnv.run fileOptions).printed (1 / 2) 2 (3 / 2) 4 := by
  refine ⟨by simp [Options.Named, fileOptions, toyOptions], ?_, two_log.1, by decide, ?_⟩
  · have : (asked fileOptions).2 = "stdin" := by decide +kernel
    rw [this]
    exact sample_log
  obtain ⟨zs, hr, z, hz, hl⟩ := printed_of_pair file_later
  have h4 := file_run.2
  rw [hr, printed_matched] at h4 ⊢
  simp only [Bool.false_eq_true, if_false] at h4 ⊢
  cases zs with
  | nil => simp at hz
  | cons z0 zs =>
    have hb : printBlock z0 = [.row (.fin 0 true) "t" (.fin 1 false), .row (.fin 1 false) "t'" (.fin 3 true),
        .row (.fin 0 false) "t' - t" (.fin 3 true), .separator] := by
      rw [List.flatMap_cons, List.take_left' (by rfl)] at h4
      exact h4
    refine (printedBefore_iff _ _ _ _ _).2 ⟨[], z0, zs, rfl, ?_, ?_⟩
    · rw [hb]
      intro l hl
      simp only [List.mem_cons, List.not_mem_nil, or_false] at hl
      rcases hl with rfl | rfl | rfl | rfl
      iterate 3
        refine ⟨fun h => ?_, fun h => ?_, fun h => ?_⟩ <;> first
        | exact absurd h (by decide)
        | (unfold between'; norm_num)
      trivial
    · rcases List.mem_cons.1 hz with rfl | hz
      · have := (hl (.row (.fin 0 true) "t" (.fin 1 false)) (by rw [hb]; simp)).1 rfl
        unfold between' at this
        norm_num at this
      · exact ⟨z, hz, hl⟩

end Verif.Props
