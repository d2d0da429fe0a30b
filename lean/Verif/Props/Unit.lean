import Verif.Lemmas.UnitSilent
import Verif.Props.Signal
import Verif.Examples.Silent
import Verif.Spec.Unit

/-!
# The unit of time (C94)

`A.scale k` is the pattern `A` with all constants multiplied by `k`, `scaleLog k w` the log `w` with all times multiplied by `k`
(e.g. seconds replaced by milliseconds, `k = 1000`).
-/

namespace Verif.Props

variable {S K : Type} [DecidableEq S] [Field K] [LinearOrder K] [IsStrictOrderedRing K]

theorem bnd_scale_sat {k : Int} (hk : 0 < k) (b : Bnd K) (x : K) : (b.scale k).sat ((k : K) * x) ↔ b.sat x := by
  have h := cast_pos (K := K) hk
  cases b with
  | inf s => exact Iff.rfl
  | fin c s => cases s <;> simp [Bnd.scale, Bnd.sat, mul_lt_mul_iff_right₀ h, mul_le_mul_iff_right₀ h]

theorem zone_scale_has {k : Int} (hk : 0 < k) (z : Zone K) (t t' : K) :
    (z.scale k).Has ((k : K) * t) ((k : K) * t') ↔ z.Has t t' := by
  unfold Zone.Has Zone.Sat
  have e : ∀ i, Zone.ext (fun i => if i = 0 then (k : K) * t else (k : K) * t') i =
      (k : K) * Zone.ext (fun i => if i = 0 then t else t') i := by
    intro i
    cases i with
    | zero => simp [Zone.ext]
    | succ i =>
      simp only [Zone.ext]
      split_ifs <;> rfl
  simp only [e, ← mul_sub, Zone.scale_get, Zone.scale_n, bnd_scale_sat hk]

theorem unitAgree_map {k : Int} (hk : 0 < k) (r : Except Err (List (Zone K))) : UnitAgree k r (r.map (List.map (Zone.scale k))) := by
  cases r with
  | error x => rfl
  | ok zs =>
    simp only [UnitAgree, Except.map, List.forall₂_map_right_iff]
    exact List.forall₂_same.2 fun z _ t t' => zone_scale_has hk z t t'

/-- **C94.** For every pattern and every log: `monaaDollar` on the pattern and the log in the other unit gives the same error, or
as many zones in the same order, each with the same pairs in the other unit; with both containers. -/
theorem dollar_unit (k : Int) (hk : 0 < k) (A : TA S) (w : TWord K) (addr : S → Nat) (fuel steps : Nat) :
    UnitAgree k (monaaDollar addr fuel steps (vectorCont K) A w)
      (monaaDollar addr fuel steps (vectorCont K) (A.scale k) (scaleLog k w)) ∧
    (w.length < steps → UnitAgree k (monaaDollar addr fuel steps (lazyCont K) A (Lazy.mk0 w))
      (monaaDollar addr fuel steps (lazyCont K) (A.scale k) (Lazy.mk0 (scaleLog k w)))) := by
  have h := unitAgree_map hk (monaaDollar addr fuel steps (vectorCont K) A w)
  rw [← monaaDollar_scale hk] at h
  refine ⟨h, fun hs => ?_⟩
  rw [matcher_streaming A w addr fuel steps hs,
    matcher_streaming (A.scale k) (scaleLog k w) addr fuel steps (by simpa [scaleLog] using hs)]
  exact h

/-- **C94.** The same for `monaa`, also with silent transitions; the static variable becomes the same. -/
theorem signal_unit (k : Int) (hk : 0 < k) (A : TA S) (w : TWord K) (fuel steps efuel : Nat) (st : Option Nat) :
    UnitAgree k (monaa fuel steps efuel (vectorCont K) st A w).1
      (monaa fuel steps efuel (vectorCont K) st (A.scale k) (scaleLog k w)).1 ∧
    (monaa fuel steps efuel (vectorCont K) st (A.scale k) (scaleLog k w)).2 =
      (monaa fuel steps efuel (vectorCont K) st A w).2 ∧
    (w.length < steps → UnitAgree k (monaa fuel steps efuel (lazyCont K) st A (Lazy.mk0 w)).1
      (monaa fuel steps efuel (lazyCont K) st (A.scale k) (Lazy.mk0 (scaleLog k w))).1) := by
  have h := unitAgree_map hk (monaa fuel steps efuel (vectorCont K) st A w).1
  have e := monaa_scale hk fuel steps efuel st A w
  have e1 : (monaa fuel steps efuel (vectorCont K) st (A.scale k) (scaleLog k w)).1 = _ := congrArg Prod.fst e
  have e2 : (monaa fuel steps efuel (vectorCont K) st (A.scale k) (scaleLog k w)).2 = _ := congrArg Prod.snd e
  refine ⟨?_, e2, fun hs => ?_⟩
  · rw [e1]
    exact h
  · rw [signal_streaming A w fuel steps efuel st hs,
      signal_streaming (A.scale k) (scaleLog k w) fuel steps efuel st (by simpa [scaleLog] using hs), e1]
    exact h

/-- **C94.** The same for `monaaNotNecessaryDollar`. -/
theorem optional_unit (k : Int) (hk : 0 < k) (A : TA S) (w : TWord K) (addr : S → Nat) (fuel steps : Nat) :
    UnitAgree k (monaaNotNecessaryDollar addr fuel steps (vectorCont K) A w)
      (monaaNotNecessaryDollar addr fuel steps (vectorCont K) (A.scale k) (scaleLog k w)) ∧
    (w.length < steps → UnitAgree k (monaaNotNecessaryDollar addr fuel steps (lazyCont K) A (Lazy.mk0 w))
      (monaaNotNecessaryDollar addr fuel steps (lazyCont K) (A.scale k) (Lazy.mk0 (scaleLog k w)))) := by
  have h := unitAgree_map hk (monaaNotNecessaryDollar addr fuel steps (vectorCont K) A w)
  rw [← optional_scale hk] at h
  refine ⟨h, fun hs => ?_⟩
  rw [optional_streaming A w addr fuel steps hs,
    optional_streaming (A.scale k) (scaleLog k w) addr fuel steps (by simpa [scaleLog] using hs)]
  exact h

section member
omit [DecidableEq S]

theorem guardAll_scale {k : Int} (hk : 0 < k) (g : List Constraint) (val : List K) :
    TA.guardAll (g.map (Constraint.scale k)) (val.map ((k : K) * ·)) = TA.guardAll g val := by
  induction g with
  | nil => rfl
  | cons c g ih =>
    have hx : (c.scale k).x = c.x := rfl
    simp only [List.map_cons, TA.guardAll, hx, List.getElem?_map]
    cases val[c.x]? with
    | none => rfl
    | some d => simp only [Option.map_some, satisfy_scale hk, ih]

theorem resetAll_scale {k : Int} (xs : List Nat) (val : List K) :
    TA.resetAll xs (val.map ((k : K) * ·)) = (TA.resetAll xs val).map (List.map ((k : K) * ·)) := by
  induction xs generalizing val with
  | nil => rfl
  | cons x xs ih =>
    have h : (val.map ((k : K) * ·)).set x 0 = (val.set x 0).map ((k : K) * ·) := by rw [List.map_set, mul_zero]
    simp only [TA.resetAll, List.length_map, h, ih]
    split_ifs <;> rfl

/-- Configurations of `isMember` with their clocks multiplied. -/
def scaleVals (k : Int) (cs : List (S × List K)) : List (S × List K) := cs.map fun p => (p.1, p.2.map ((k : K) * ·))

theorem memberEdges_scale {k : Int} (hk : 0 < k) (es : List (Transition S)) (val : List K) :
    TA.memberEdges (es.map (Transition.scale k)) (val.map ((k : K) * ·)) = (TA.memberEdges es val).map (scaleVals k) := by
  induction es with
  | nil => rfl
  | cons e es ih =>
    have ht : (e.scale k).target = e.target := rfl
    have hg : (e.scale k).guard = e.guard.map (Constraint.scale k) := rfl
    have hr : (e.scale k).resets = e.resets := rfl
    simp only [List.map_cons, TA.memberEdges, ht, hg, hr, guardAll_scale hk, ih, resetAll_scale]
    cases TA.guardAll e.guard val with
    | error x => rfl
    | ok b =>
      cases b with
      | false =>
        cases TA.memberEdges es val <;> rfl
      | true =>
        cases e.target with
        | none => cases TA.memberEdges es val <;> rfl
        | some q =>
          cases TA.resetAll e.resets val with
          | error x => rfl
          | ok v => cases TA.memberEdges es val <;> rfl

theorem memberStep_scale {k : Int} (hk : 0 < k) (A : TA S) (a : Alphabet) (d : K) (cs : List (S × List K)) :
    (A.scale k).memberStep a ((k : K) * d) (scaleVals k cs) = (A.memberStep a d cs).map (scaleVals k) := by
  induction cs with
  | nil => rfl
  | cons p cs ih =>
    obtain ⟨s, val⟩ := p
    have hc : (A.scale k).memberConfig a ((k : K) * d) s (val.map ((k : K) * ·)) = (A.memberConfig a d s val).map (scaleVals k) := by
      have hn : ((A.scale k).st s).next = Next.scale k (A.st s).next := rfl
      simp only [TA.memberConfig, hn, Next.scale_find]
      cases (A.st s).next.find a with
      | none => rfl
      | some es =>
        have hv : (val.map ((k : K) * ·)).map (· + (k : K) * d) = (val.map (· + d)).map ((k : K) * ·) := by
          simp [Function.comp_def, mul_add]
        simp only [Option.map_some, hv, memberEdges_scale hk]
    have hm : scaleVals k ((s, val) :: cs) = (s, val.map ((k : K) * ·)) :: scaleVals k cs := rfl
    rw [hm]
    simp only [TA.memberStep, hc, ih, bind, Except.bind]
    cases A.memberConfig a d s val with
    | error x => rfl
    | ok here =>
      simp only [Except.map]
      cases A.memberStep a d cs with
      | error x => rfl
      | ok rest => simp [scaleVals, pure, Except.pure]

/-- **C94.** The same for the membership test. -/
theorem member_unit (k : Int) (hk : 0 < k) (A : TA S) (w : TWord K) : (A.scale k).isMember (scaleLog k w) = A.isMember w := by
  have key : ∀ (w : TWord K) (prev : K) (cs : List (S × List K)),
      (A.scale k).memberLoop ((k : K) * prev) (scaleVals k cs) (scaleLog k w) = A.memberLoop prev cs w := by
    intro w
    induction w with
    | nil =>
      intro prev cs
      simp only [scaleLog, List.map_nil, TA.memberLoop, scaleVals, List.any_map]
      rfl
    | cons e w ih =>
      intro prev cs
      have hl : scaleLog k (e :: w) = (e.1, (k : K) * e.2) :: scaleLog k w := rfl
      rw [hl]
      simp only [TA.memberLoop, ← mul_sub, memberStep_scale hk, bind, Except.bind]
      cases A.memberStep e.1 (e.2 - prev) cs with
      | error x => rfl
      | ok cs' => exact ih e.2 cs'
  have h := key w 0 (A.init.map fun s => (s, List.replicate A.clockSize 0))
  rw [mul_zero] at h
  unfold TA.isMember
  rw [← h]
  congr 1
  simp only [scaleVals, List.map_map, TA.scale_clockSize']
  have hi : (A.scale k).init = A.init := rfl
  rw [hi]
  refine List.map_congr_left fun s _ => ?_
  simp

end member

/-- The sample in milliseconds: a zone with the pair `(2000, 5000)` is reported. -/
example : ∃ zs, monaaDollar id 20 20 (vectorCont ℚ) (samplePattern.scale 1000) (scaleLog 1000 sampleLog) = .ok zs ∧
    ∃ z ∈ zs, z.Has 2000 5000 := by
  obtain ⟨zs, h, z, hz, hzt⟩ := sample_has
  have hu := (dollar_unit 1000 (by norm_num) samplePattern sampleLog id 20 20).1
  rw [h] at hu
  cases h' : monaaDollar id 20 20 (vectorCont ℚ) (samplePattern.scale 1000) (scaleLog 1000 sampleLog) with
  | error x => rw [h'] at hu; exact hu.elim
  | ok zs' =>
    rw [h'] at hu
    obtain ⟨i, hi, rfl⟩ := List.getElem_of_mem hz
    have hl : zs.length = zs'.length := List.Forall₂.length_eq hu
    refine ⟨zs', rfl, zs'[i]'(hl ▸ hi), List.getElem_mem _, ?_⟩
    have := (List.forall₂_iff_get.1 hu).2 i hi (hl ▸ hi) 2 5
    simp only [List.get_eq_getElem] at this
    have := this.2 hzt
    norm_num at this
    exact this

/-- Another unit is another pattern and another log: a constant and a time of the samples. -/
example : ((samplePattern.scale 1000).maxC ≠ samplePattern.maxC) ∧ (scaleLog 1000 sampleLog).head? = some (97, 1000) := by
  constructor
  · decide
  · decide +kernel

end Verif.Props
