import Verif.Model.Monaa
import Verif.Lemmas.KMP

/-!
# The whole of `monaaDollar`
-/

set_option linter.unusedSectionVars false

namespace Verif

variable {S K σ : Type} [DecidableEq S] [Field K] [LinearOrder K] [IsStrictOrderedRing K]

theorem at'_mem {m : Next S} {a : Alphabet} {e : Transition S} (h : e ∈ m.at' a) : ∃ p ∈ m, p.1 = a ∧ e ∈ p.2 := by
  unfold Next.at' Next.find at h
  cases hf : m.find? (fun p => p.1 == a) with
  | none => rw [hf] at h; simp at h
  | some p =>
    rw [hf] at h
    have h1 := List.find?_some hf
    exact ⟨p, List.mem_of_find?_eq_some hf, by simpa using h1, by simpa using h⟩

theorem clocksOk_declared {A : TA S} (hA : A.Tidy) (h : clocksOk A = true) : A.ClocksDeclared := by
  intro s a e he
  obtain ⟨p, hp, -, hep⟩ := at'_mem he
  by_cases hs : s ∈ A.states
  · simp only [clocksOk, List.all_eq_true, Bool.and_eq_true, decide_eq_true_eq] at h
    exact h s hs p hp e hep
  · rw [hA s hs] at hp
    cases hp

theorem runList_n {L : Option Alphabet → Option Alphabet} {A : TA S} {w : TWord K} {prev : Option K} {cs last : List (Conf S K)} {z : Zone K}
    (hz : z ∈ (runList L A prev w cs last).1) : z.n = 3 := by
  have acc : ∀ l (ue le : Bnd K) (cs : List (Conf S K)), z ∈ acceptOpt A l ue le cs → z.n = 3 := by
    intro l ue le cs hz
    obtain ⟨c, hc, a, e, he, q, hq, hm, hval, rfl⟩ := mem_acceptAll hz
    rfl
  induction w generalizing prev cs last with
  | nil => exact acc _ _ _ _ hz
  | cons e w ih =>
    unfold runList at hz
    split_ifs at hz
    · cases hz
    · rcases List.mem_append.1 hz with hz | hz
      · exact acc _ _ _ _ hz
      · exact ih hz

theorem declared_clocksOk {A : TA S} (hM : A.MapOk) (h : A.ClocksDeclared) : clocksOk A = true := by
  simp only [clocksOk, List.all_eq_true, Bool.and_eq_true, decide_eq_true_eq]
  intro s hs p hp e he
  refine h s p.1 e ?_
  refine (mem_outEdges_iff hM).1 ?_
  simp only [outEdges, List.mem_flatMap, List.mem_map]
  exact ⟨p, hp, e, he, rfl⟩

theorem sundayTable_shape {A : TA S} {fuel m : Nat} {delta : List Nat} {ends : List Alphabet}
    (h : sundayTable K fuel A = .ok (m, delta, ends)) :
    1 ≤ m ∧ delta.length = 127 ∧ ∀ d ∈ delta, 1 ≤ d ∧ d ≤ m + 1 := by
  unfold sundayTable at h
  simp only [bind, Except.bind] at h
  split at h
  · cases h
  · split at h
    · cases h
    · split at h
      · cases h
      · rename_i sets hsets
        simp only [Except.ok.injEq, Prod.mk.injEq] at h
        obtain ⟨rfl, rfl, rfl⟩ := h
        obtain ⟨d1, d2, d3⟩ := sundayDelta_spec sets
        exact ⟨sundaySets_letters hsets, d1, d2⟩

theorem makeTables_spec {A : TA S} {fuel : Nat} {T : Tables S} (h : makeTables K fuel A = .ok T) :
    sundayTable K fuel A = .ok (T.m, T.delta, T.endChars) ∧
      ∃ beta, kmpTable K fuel A T.m = .ok beta ∧ T.beta = betaAt beta := by
  unfold makeTables at h
  simp only [bind, Except.bind] at h
  split at h
  · cases h
  · rename_i r hr
    split at h
    · cases h
    · rename_i beta hb
      simp only [Except.ok.injEq] at h
      subst h
      exact ⟨hr, beta, hb, rfl⟩

theorem noSilent_iff {A : TA S} :
    (A.states.all fun s => ((A.st s).next.find epsilon).isNone) = true ↔ A.NoSilent := by
  simp [TA.NoSilent, List.all_eq_true]

section
variable {C : Cont K σ} {w : TWord K} {Inv : Nat → Nat → σ → Prop} (H : Implements C w Inv)
  {k : Nat} {s : σ} (hI : Inv 0 k s) {addr : S → Nat} {fuel steps : Nat} (hsteps : w.length < steps) {A : TA S}

include H hI hsteps

theorem monaaDollar_eq {Ap : TA S} (hp : prepare addr A = .ok Ap) {T : Tables S} (hT : makeTables K fuel Ap = .ok T)
    (hε : A.NoSilent) (hc : clocksOk A = true) :
    monaaDollar addr fuel steps C A s = matchList A T w steps steps 0 := by
  unfold monaaDollar
  rw [hp]
  simp only [bind, Except.bind]
  rw [hT]
  simp only
  rw [if_pos (noSilent_iff.2 hε), if_pos hc]
  rw [matchLoop_spec H hI (sundayTable_shape (makeTables_spec hT).1).1 (by omega) hsteps, matchListE_dollar]

theorem monaaDollar_inv {zs : List (Zone K)} (h : monaaDollar addr fuel steps C A s = .ok zs) :
    ∃ Ap T, prepare addr A = .ok Ap ∧ makeTables K fuel Ap = .ok T ∧
      (¬ A.NoSilent ∧ zs = [] ∨ A.NoSilent ∧ clocksOk A = true ∧ matchList A T w steps steps 0 = .ok zs) := by
  have h' := h
  unfold monaaDollar at h
  simp only [bind, Except.bind] at h
  split at h
  · cases h
  · rename_i Ap hp
    split at h
    · cases h
    · rename_i T hT
      refine ⟨Ap, T, hp, hT, ?_⟩
      split_ifs at h with h1 h2
      · have h1 := noSilent_iff.1 h1
        refine Or.inr ⟨h1, h2, ?_⟩
        rw [← monaaDollar_eq H hI hsteps hp hT h1 h2]
        exact h'
      · left
        refine ⟨fun h => h1 (noSilent_iff.2 h), ?_⟩
        simp only [Except.ok.injEq] at h
        exact h.symm

end

end Verif
