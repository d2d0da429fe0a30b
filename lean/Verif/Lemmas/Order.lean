import Verif.Lemmas.SilentTight
import Verif.Lemmas.Signal
import Verif.Spec.Order

/-!
# The order in which the zones are reported
-/

set_option linter.unusedSectionVars false

namespace Verif

variable {S K : Type} [Field K] [LinearOrder K] [IsStrictOrderedRing K]

theorem sundayList_ge {T : Tables S} {w : TWord K} {fuel i i' : Nat} (h : sundayList T w fuel i = .ok (some i')) :
    i ≤ i' := by
  induction fuel generalizing i with
  | zero => simp [sundayList] at h
  | succ fuel ih =>
    unfold sundayList at h
    split at h
    · cases h
    · split_ifs at h with h1
      · cases h
        exact le_refl _
      · split at h
        · cases h
        · split at h
          · cases h
          · split_ifs at h with h2
            · have := ih h
              omega
            · cases h

/-- The zones of one round of the outer loop: the ends are in order. -/
def RoundOk (w : TWord K) (i : Nat) (E : Zone K → Zone K → Prop) (zs : List (Zone K)) : Prop :=
  zs.Pairwise E ∧ ∀ z ∈ zs, ∀ t t', z.Has t t' → StartsAt w i t

/-- If the zones of every round begin at the start position of the round, then they are in order. -/
theorem matchListE_order {Q : Type} {M : Hooks S Q K} {T : Tables S} {w : TWord K} (E : Zone K → Zone K → Prop)
    (hE : ∀ i j z z', i < j → (∀ t t', z.Has t t' → StartsAt w i t) → (∀ t t', z'.Has t t' → StartsAt w j t) → E z z')
    (hrun : ∀ (i : Nat) (hi : i < w.length) (r : List (Zone K) × List Q),
      runListE M (prevOf w i) (w.drop i) (M.start (prevOf w i) w[i].2) [] = .ok r → RoundOk w i E r.1)
    {inner fuel i : Nat} {zs : List (Zone K)} (h : matchListE M T w inner fuel i = .ok zs) :
    zs.Pairwise E ∧ ∀ z ∈ zs, ∃ j, i ≤ j ∧ ∀ t t', z.Has t t' → StartsAt w j t := by
  induction fuel generalizing i zs with
  | zero => simp [matchListE] at h
  | succ fuel ih =>
    have key : ∀ i, (match w[i]? with
        | none => .ok []
        | some (e : Alphabet × K) => match runListE M (prevOf w i) (w.drop i) (M.start (prevOf w i) e.2) [] with
          | .error x => .error x
          | .ok r => match greatestN T M.state r.2 with
            | .error x => .error x
            | .ok n => do
              let rest ← matchListE M T w inner fuel (i + n)
              .ok (r.1 ++ rest)) = Except.ok zs →
        zs.Pairwise E ∧ ∀ z ∈ zs, ∃ j, i ≤ j ∧ ∀ t t', z.Has t t' → StartsAt w j t := by
      intro i h
      simp only [bind, Except.bind] at h
      split at h
      · cases h
        simp
      · rename_i e he
        obtain ⟨hi, rfl⟩ := List.getElem?_eq_some_iff.1 he
        split at h
        · cases h
        · rename_i r hr
          split at h
          · cases h
          · rename_i n hn
            split at h
            · cases h
            · rename_i rest hrest
              cases h
              obtain ⟨h1, h2⟩ := hrun i hi r hr
              obtain ⟨h3, h4⟩ := ih hrest
              have hn1 := (greatestN_ge hn).1
              refine ⟨List.pairwise_append.2 ⟨h1, h3, ?_⟩, ?_⟩
              · intro z hz z' hz'
                obtain ⟨j, hj, hz'⟩ := h4 z' hz'
                exact hE i j z z' (by omega) (h2 z hz) hz'
              · intro z hz
                rcases List.mem_append.1 hz with hz | hz
                · exact ⟨i, le_refl _, h2 z hz⟩
                · obtain ⟨j, hj, hz⟩ := h4 z hz
                  exact ⟨j, by omega, hz⟩
    unfold matchListE at h
    split_ifs at h with h1 h2
    · cases hs : sundayList T w inner i with
      | error x =>
        rw [hs] at h
        simp [bind, Except.bind] at h
      | ok r =>
        rw [hs] at h
        simp only [bind, Except.bind] at h
        cases r with
        | none =>
          cases h
          simp
        | some i' =>
          obtain ⟨k1, k2⟩ := key i' h
          refine ⟨k1, fun z hz => ?_⟩
          obtain ⟨j, hj, hz⟩ := k2 z hz
          exact ⟨j, le_trans (sundayList_ge hs) hj, hz⟩
    · exact key i h
    · cases h
      simp

theorem StartsAt.of_lt {w : TWord K} {i j : Nat} {t u : K} (h : i < j) (h1 : StartsAt w i t) (h2 : StartsAt w j u) :
    (∀ e ∈ w, e.2 ≤ t → e.2 ≤ u) ∧ ∃ e ∈ w, e.2 ≤ u ∧ ¬ e.2 ≤ t := by
  constructor
  · intro e he het
    rw [← List.take_append_drop i w] at he
    rcases List.mem_append.1 he with he | he
    · exact h2.before e ((List.take_prefix_take_left (by omega : i ≤ j)).subset he)
    · exact absurd het (not_le.2 (h1.after e he))
  · have hi := h1.lt
    refine ⟨w[i], List.getElem_mem _, h2.before _ ?_, not_le.2 (h1.after _ ?_)⟩
    · rw [List.mem_take_iff_getElem]
      exact ⟨i, by omega, rfl⟩
    · rw [List.mem_drop_iff_getElem]
      exact ⟨0, by omega, by simp⟩

theorem StartsAt.same {w : TWord K} {i : Nat} {t u : K} (h1 : StartsAt w i t) (h2 : StartsAt w i u) :
    ∀ e ∈ w, e.2 ≤ t → e.2 ≤ u := by
  intro e he het
  rw [← List.take_append_drop i w] at he
  rcases List.mem_append.1 he with he | he
  · exact h2.before e he
  · exact absurd het (not_le.2 (h1.after e he))

/-- The zones of one round end in order, if every zone ends between the last event and the next one. -/
theorem runListE_ends {Q : Type} {M : Hooks S Q K} (t0 : K) (P : Alphabet → Prop) (Z : Zone K → Prop) (I : Option K → K → List Q → Prop)
    (hev : ∀ prev B (e : Alphabet × K) cs r, I prev B cs → P e.1 → B ≤ e.2 → t0 ≤ e.2 → (∀ p, prev = some p → p ≤ e.2) →
      M.event prev e.1 e.2 cs = .ok r →
      (∀ z ∈ r.1, Z z ∧ ∀ v, z.Sat v → v 1 ≤ e.2 ∧ (lowerEnd prev).sat (-v 1)) ∧ I (some e.2) e.2 r.2.2)
    (hfin : ∀ prev cs, ∀ z ∈ M.final prev cs, Z z ∧ ∀ v, z.Sat v → (lowerEnd prev).sat (-v 1))
    {w : TWord K} (hlab : ∀ e ∈ w, P e.1) {prev : Option K} {B : K} {cs last : List Q}
    (hs : w.Pairwise fun a b => a.2 ≤ b.2) (hB : ∀ e ∈ w, B ≤ e.2 ∧ t0 ≤ e.2 ∧ ∀ p, prev = some p → p ≤ e.2)
    (hI : I prev B cs) {r : List (Zone K) × List Q} (hr : runListE M prev w cs last = .ok r) :
    (r.1.Pairwise fun z z' => ∀ v v', z.Sat v → z'.Sat v' → ∀ e ∈ w, e.2 < v 1 → e.2 < v' 1) ∧
      (∀ z ∈ r.1, ∀ v, z.Sat v → ∀ p, prev = some p → p < v 1) ∧ ∀ z ∈ r.1, Z z := by
  induction w generalizing prev B cs last r with
  | nil =>
    simp only [runListE, Except.ok.injEq] at hr
    subst hr
    refine ⟨List.pairwise_of_forall (by simp), ?_, ?_⟩
    · rintro z hz v hv p rfl
      simp only at hz
      split at hz
      · simp at hz
      · have := (hfin _ _ z hz).2 v hv
        simp only [lowerEnd, sat_f] at this
        linarith
    · intro z hz
      simp only at hz
      split at hz
      · simp at hz
      · exact (hfin _ _ z hz).1
  | cons e w ih =>
    rw [runListE] at hr
    split at hr
    · simp only [Except.ok.injEq] at hr
      subst hr
      simp
    cases he : M.event prev e.1 e.2 cs with
    | error x => simp only [he, reduceCtorEq] at hr
    | ok x =>
      simp only [he] at hr
      cases hr' : runListE M (some e.2) w x.2.2 x.2.1 with
      | error y => simp only [hr', reduceCtorEq] at hr
      | ok y =>
        simp only [hr', Except.ok.injEq] at hr
        subst hr
        obtain ⟨hB1, hB2, hB3⟩ := hB e (by simp)
        obtain ⟨h1, h2⟩ := hev prev B e cs x hI (hlab e (by simp)) hB1 hB2 hB3 he
        have hs' := List.pairwise_cons.1 hs
        obtain ⟨h3, h4, h7⟩ := ih (fun e he => hlab e (by simp [he])) hs'.2
          (fun e' he' => ⟨hs'.1 e' he', (hB e' (by simp [he'])).2.1, by
            rintro p hp
            cases hp
            exact hs'.1 e' he'⟩) h2 hr'
        have h5 : ∀ z ∈ x.1, ∀ v, z.Sat v → ∀ e' ∈ e :: w, ¬ e'.2 < v 1 := by
          intro z hz v hv e' he'
          have := ((h1 z hz).2 v hv).1
          rcases List.mem_cons.1 he' with rfl | he'
          · exact not_lt.2 this
          · exact not_lt.2 (le_trans this (hs'.1 e' he'))
        have h6 : ∀ z ∈ y.1, ∀ v, z.Sat v → e.2 < v 1 := by
          intro z hz v hv
          exact h4 z hz v hv _ rfl
        refine ⟨List.pairwise_append.2 ⟨?_, ?_, ?_⟩, ?_, ?_⟩
        · refine List.Pairwise.imp_of_mem (fun {a b} ha _ _ => ?_) (List.pairwise_of_forall (R := fun _ _ => True) (fun _ _ => trivial))
          intro v v' hv _ e' he' hlt
          exact absurd hlt (h5 a ha v hv e' he')
        · refine List.Pairwise.imp_of_mem (fun {a b} ha hb hab => ?_) h3
          intro v v' hv hv' e' he' hlt
          rcases List.mem_cons.1 he' with rfl | he'
          · exact h6 b hb v' hv'
          · exact hab v v' hv hv' e' he' hlt
        · intro z hz z' _ v v' hv _ e' he' hlt
          exact absurd hlt (h5 z hz v hv e' he')
        · rintro z hz v hv p rfl
          rcases List.mem_append.1 hz with hz | hz
          · have := ((h1 z hz).2 v hv).2
            simp only [lowerEnd, sat_f] at this
            linarith
          · exact lt_of_le_of_lt (hB3 p rfl) (h6 z hz v hv)
        · intro z hz
          rcases List.mem_append.1 hz with hz | hz
          · exact (h1 z hz).1
          · exact h7 z hz

/-- From one round to the whole log. -/
theorem round_order {w : TWord K} (hw : LogOk w) {i : Nat} (hi : i < w.length) {zs : List (Zone K)}
    (h1 : zs.Pairwise fun z z' => ∀ v v', z.Sat v → z'.Sat v' → ∀ e ∈ w.drop i, e.2 < v 1 → e.2 < v' 1)
    (h2 : ∀ z ∈ zs, ∀ v, z.Sat v → ∀ p, prevOf w i = some p → p < v 1)
    (h3 : ∀ z ∈ zs, ∀ t t', z.Has t t' → StartsAt w i t) :
    RoundOk w i (fun z z' => z.BeginsBefore w z' ∧ z.EndsBefore w z') zs := by
  refine ⟨List.Pairwise.imp_of_mem (fun {z z'} hz hz' h => ⟨?_, ?_⟩) h1, h3⟩
  · intro t t' u u' ht hu
    exact (h3 z hz t t' ht).same (h3 z' hz' u u' hu)
  · intro t t' u u' ht hu _ e he hlt
    rw [← List.take_append_drop i w] at he
    rcases List.mem_append.1 he with he | he
    · obtain ⟨j, hj, rfl⟩ := List.mem_take_iff_getElem.1 he
      have hi1 : i - 1 < w.length := by omega
      have h4 := h2 z' hz' _ hu w[i - 1].2 (by
        rw [prevOf, if_neg (by omega), List.getElem?_eq_getElem hi1]
        rfl)
      have h5 : w[j].2 ≤ w[i - 1].2 := by
        rcases Nat.lt_or_ge j (i - 1) with hc | hc
        · exact List.pairwise_iff_getElem.1 hw.sorted j (i - 1) (by omega) hi1 hc
        · have : j = i - 1 := by omega
          subst this
          exact le_refl _
      exact lt_of_le_of_lt h5 h4
    · exact h _ _ ht hu e he hlt

theorem rounds_order {w : TWord K} {i j : Nat} {z z' : Zone K} (hij : i < j) (h1 : ∀ t t', z.Has t t' → StartsAt w i t)
    (h2 : ∀ t t', z'.Has t t' → StartsAt w j t) : z.BeginsBefore w z' ∧ z.EndsBefore w z' := by
  constructor
  · intro t t' u u' ht hu
    exact (StartsAt.of_lt hij (h1 t t' ht) (h2 u u' hu)).1
  · intro t t' u u' ht hu hsame
    obtain ⟨e, he, k1, k2⟩ := (StartsAt.of_lt hij (h1 t t' ht) (h2 u u' hu)).2
    exact absurd ((hsame e he).2 k1) k2

theorem acceptOn_ends {A : TA S} {a : Alphabet} {ue le : Bnd K} {cs : List (Conf S K)} {z : Zone K}
    (hz : z ∈ acceptOn A a ue le cs) {v : Nat → K} (hv : z.Sat v) : ue.sat (v 1) ∧ le.sat (-v 1) := by
  obtain ⟨c, -, -, h1, h2, -⟩ := acceptOn_spec.1 ⟨z, hz, hv⟩
  exact ⟨h1, h2⟩

/-- `monaaDollar` and the branch of `monaa` for patterns without silent transitions. -/
theorem plain_order {A : TA S} {L : Option Alphabet → Option Alphabet} {M : Hooks S (Conf S K) K}
    (hev : ∀ prev a t cs, M.event prev a t cs = .ok (acceptOpt A (L (some a)) (.fin t true) (lowerEnd prev) cs, cs, stepAll A a t cs))
    (hfin : ∀ prev cs, ∀ z ∈ M.final prev cs, ∀ v, z.Sat v → (lowerEnd prev).sat (-v 1))
    (hstart : M.start = initConfs A)
    (hrun : ∀ prev w cs last, runListE M prev w cs last = .ok (runList L A prev w cs last))
    {w : TWord K} (hw : LogOk w) {T : Tables S} {inner fuel i : Nat} {zs : List (Zone K)}
    (h : matchListE M T w inner fuel i = .ok zs) : zs.Pairwise fun z z' => z.BeginsBefore w z' ∧ z.EndsBefore w z' := by
  refine (matchListE_order _ (fun i j z z' hij => rounds_order hij) ?_ h).1
  intro i hi r hr
  obtain ⟨hdrop, hprev⟩ := start_facts hw hi
  obtain ⟨k1, k2, -⟩ := runListE_ends (M := M) w[i].2 (fun _ => True) (fun _ => True) (fun _ _ _ => True) (by
      intro prev B e cs r _ _ _ _ _ he
      rw [hev] at he
      cases he
      refine ⟨fun z hz => ⟨trivial, fun v hv => ?_⟩, trivial⟩
      obtain ⟨c, -, -, h1, h2, -⟩ := acceptAll_spec.1 ⟨z, hz, hv⟩
      exact ⟨by simpa [sat_t] using h1, h2⟩) (fun prev cs z hz => ⟨trivial, hfin prev cs z hz⟩) (fun _ _ => trivial)
    (hw.sorted.sublist (List.drop_sublist i w)) (fun e he => ⟨hdrop e he, hdrop e he, fun p hp =>
        le_trans (hprev p hp) (hdrop e he)⟩) trivial hr
  refine round_order hw hi k1 k2 ?_
  intro z hz t t' ht
  rw [hrun, hstart] at hr
  cases hr
  obtain ⟨c, hc, hin⟩ := runList_in hz ht
  exact (in_initConfs hw hi hc).1 hin

theorem dollar_order {A : TA S} {w : TWord K} (hw : LogOk w) {T : Tables S} {inner fuel i : Nat} {zs : List (Zone K)}
    (h : matchListE (dollarHooks A) T w inner fuel i = .ok zs) :
    zs.Pairwise fun z z' => z.BeginsBefore w z' ∧ z.EndsBefore w z' :=
  plain_order (A := A) (L := endMark) (fun _ _ _ _ => rfl) (fun _ _ _ hz _ hv => (acceptOn_ends hz hv).2) rfl
    (fun prev w cs last => runListE_dollar A w prev cs last) hw h

theorem signal_order {A : TA S} {w : TWord K} (hw : LogOk w) {T : Tables S} {inner fuel i : Nat} {zs : List (Zone K)}
    (h : matchListE (signalHooks A) T w inner fuel i = .ok zs) :
    zs.Pairwise fun z z' => z.BeginsBefore w z' ∧ z.EndsBefore w z' :=
  plain_order (A := A) (L := id) (fun _ _ _ _ => rfl) (fun _ _ _ hz => by cases hz) rfl
    (fun prev w cs last => runListE_signal A w prev cs last) hw h

theorem optional_order {A : TA S} {w : TWord K} (hw : LogOk w) {T : Tables S} {inner fuel i : Nat} {zs : List (Zone K)}
    (h : matchListE (optionalHooks A) T w inner fuel i = .ok zs) : zs.Pairwise fun z z' => z.BeginsBefore w z' := by
  refine (matchListE_order _ (fun i j z z' hij h1 h2 => (rounds_order hij h1 h2).1) ?_ h).1
  intro i hi r hr
  rw [runListE_optional] at hr
  cases hr
  have h3 : ∀ z ∈ (runOpt A (prevOf w i) (w.drop i) (initConfs A (prevOf w i) w[i].2) []).1, ∀ t t', z.Has t t' →
      StartsAt w i t := by
    intro z hz t t' ht
    obtain ⟨c, hc, hin⟩ := runOpt_in hz ht
    exact (in_initConfs hw hi hc).1 hin
  refine ⟨List.Pairwise.imp_of_mem (fun {a b} ha hb _ => ?_)
    (List.pairwise_of_forall (R := fun _ _ => True) (fun _ _ => trivial)), h3⟩
  intro t t' u u' ht hu
  exact (h3 a ha t t' ht).same (h3 b hb u u' hu)

theorem silent_order {A : TA S} {n efuel : Nat} {w : TWord K} (hw : LogOk w)
    {T : Tables S} {inner fuel i : Nat} {zs : List (Zone K)}
    (h : matchListE (silentHooks A n efuel) T w inner fuel i = .ok zs) :
    zs.Pairwise fun z z' => z.BeginsBefore w z' ∧ z.EndsBefore w z' := by
  refine (matchListE_order _ (fun i j z z' hij => rounds_order hij) ?_ h).1
  intro i hi r hr
  obtain ⟨hdrop, hprev⟩ := start_facts hw hi
  have hs := hw.sorted.sublist (List.drop_sublist i w)
  have hB : ∀ e ∈ w.drop i, w[i].2 ≤ e.2 ∧ w[i].2 ≤ e.2 ∧ ∀ p, prevOf w i = some p → p ≤ e.2 :=
    fun e he => ⟨hdrop e he, hdrop e he, fun p hp => le_trans (hprev p hp) (hdrop e he)⟩
  obtain ⟨k1, k2, k3⟩ := runListE_ends (M := silentHooks A n efuel) w[i].2 (fun _ => True)
    (fun z => ∀ v, z.Sat v → v 0 < w[i].2 ∧ (lowerBegin (prevOf w i)).sat (-v 0))
    (fun prev B cs => ∀ c ∈ cs, TInv (prevOf w i) w[i].2 prev B c) (by
      intro prev B e cs r hu _ hB1 hB2 hB3 hev
      obtain ⟨cs1, g1, g2, g3, g4⟩ := eventSym_inv hev
      have hcs1 := silentAll_tinv (fun c hc => (hu c hc).mono hB1) g1
      refine ⟨fun z hz => ?_, ?_⟩
      · obtain ⟨c, hc, xs, hx, hzx⟩ := flatMapE_mem g2 hz
        obtain ⟨ed, hed, ys, hy, hzy⟩ := flatMapE_mem hx hzx
        refine ⟨fun v hv => ?_, fun v hv => ?_⟩
        · obtain ⟨q1, q2, -, -⟩ := acceptSym_ends (hcs1 c hc) hy hzy hv
          exact ⟨q1, q2⟩
        · obtain ⟨-, -, q3, q4⟩ := acceptSym_ends (hcs1 c hc) hy hzy hv
          exact ⟨q3, q4⟩
      · intro c' hc'
        obtain ⟨c, hc, xs, hx, hzx⟩ := flatMapE_mem g4 hc'
        obtain ⟨ed, hed, ys, hy, hzy⟩ := flatMapE_mem hx hzx
        exact stepSym_tinv hB2 (hcs1 c hc) hy hzy) (fun _ _ _ hz => by cases hz) (fun _ _ => trivial) hs hB
    (fun c hc => startSym_tinv hc) hr
  refine round_order hw hi k1 k2 ?_
  intro z hz t t' ht
  exact (startsAt_iff hw hi).2 (k3 z hz _ ht)

end Verif
