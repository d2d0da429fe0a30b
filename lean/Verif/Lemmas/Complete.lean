import Verif.Lemmas.Signal
import Verif.Lemmas.LoopsOk

/-!
# Completeness of `monaa` without silent transitions, and of `monaaNotNecessaryDollar`
-/

set_option linter.unusedSectionVars false

namespace Verif

variable {S K σ : Type} [Field K] [LinearOrder K] [IsStrictOrderedRing K]

open Bnd Zone

/-- If the tables do not skip over the position `i`, what is reported from there is in the answer. -/
theorem matchListE_complete {Q : Type} {M : Hooks S Q K} {T : Tables S} {w : TWord K} {i : Nat} (hR : Room T w i)
    {P : Zone K → Prop}
    (hkmp : ∀ k, k < i → ∀ (hk : k < w.length) r,
      runListE M (prevOf w k) (w.drop k) (M.start (prevOf w k) w[k].2) [] = .ok r →
      ∀ c ∈ r.2, ∀ b, T.beta (M.state c) = some b → k + b ≤ i)
    (hfound : ∀ (hi : i < w.length) r,
      runListE M (prevOf w i) (w.drop i) (M.start (prevOf w i) w[i].2) [] = .ok r → ∃ z ∈ r.1, P z)
    {inner fuel k : Nat} (hk : k ≤ i) {zs : List (Zone K)} (h : matchListE M T w inner fuel k = .ok zs) :
    ∃ z ∈ zs, P z := by
  have h1 := hR.room
  have hm1 := hR.m
  induction fuel generalizing k zs with
  | zero => simp [matchListE] at h
  | succ fuel ih =>
    unfold matchListE at h
    rw [if_pos (by omega)] at h
    have rest : ∀ k', k' ≤ i → (match w[k']? with
        | none => .ok []
        | some (e : Alphabet × K) => match runListE M (prevOf w k') (w.drop k') (M.start (prevOf w k') e.2) [] with
          | .error x => .error x
          | .ok r => match greatestN T M.state r.2 with
            | .error x => .error x
            | .ok n => do
              let rest ← matchListE M T w inner fuel (k' + n)
              .ok (r.1 ++ rest)) = Except.ok zs → ∃ z ∈ zs, P z := by
      intro k' hk' h
      have hkw : k' < w.length := by omega
      rw [List.getElem?_eq_getElem hkw] at h
      simp only [bind, Except.bind] at h
      split at h
      · cases h
      · rename_i r hr
        split at h
        · cases h
        · rename_i n hn
          split at h
          · cases h
          · rename_i rest hrest
            cases h
            rcases Nat.lt_or_ge k' i with hc | hc
            · have hkn : k' + n ≤ i := by
                obtain ⟨g1, g2, -⟩ := greatestN_ge hn
                rcases g2 with rfl | ⟨c, hc2, hb⟩
                · omega
                · exact hkmp k' hc hkw r hr c hc2 n hb
              obtain ⟨z, hz, hz2⟩ := ih hkn hrest
              exact ⟨z, by simp [hz], hz2⟩
            · have : k' = i := by omega
              subst this
              obtain ⟨z, hz, hz2⟩ := hfound hkw r hr
              exact ⟨z, by simp [hz], hz2⟩
    split_ifs at h with hm2
    · simp only [bind, Except.bind] at h
      split at h
      · cases h
      · rename_i r hr
        obtain ⟨k', rfl, hk1, hk2⟩ := sundayList_room hR hk hr
        exact rest k' hk2 h
    · exact rest k hk h

/-- The log split at the end of a match of the signal. -/
theorem signal_split {w : TWord K} (hw : LogOk w) {i : Nat} {t t' : K} (hstart : StartsAt w i t) (htt : t < t') {a : Alphabet}
    (ha : letterAt w t' = some a) :
    ∃ u τ rest, w.drop i = u ++ (a, τ) :: rest ∧ between w t t' = u ∧ t' ≤ τ ∧ ∀ e ∈ u, e.2 < t' := by
  have hws : (w.drop i).Pairwise fun a b => a.2 ≤ b.2 := hw.sorted.sublist (List.drop_sublist i w)
  have key : ∃ u rest, w.drop i = u ++ rest ∧ (∀ e ∈ u, e.2 < t') ∧ ∀ e ∈ rest, t' ≤ e.2 := by
    revert hws
    generalize w.drop i = l
    intro hl
    induction l with
    | nil => exact ⟨[], [], rfl, by simp, by simp⟩
    | cons e l ih =>
      rw [List.pairwise_cons] at hl
      by_cases hc : e.2 < t'
      · obtain ⟨u, rest, rfl, h1, h2⟩ := ih hl.2
        refine ⟨e :: u, rest, rfl, ?_, h2⟩
        intro x hx
        rcases List.mem_cons.1 hx with rfl | hx
        · exact hc
        · exact h1 x hx
      · refine ⟨[], e :: l, rfl, by simp, ?_⟩
        intro x hx
        rcases List.mem_cons.1 hx with rfl | hx
        · exact not_lt.1 hc
        · exact le_trans (not_lt.1 hc) (hl.1 x hx)
  obtain ⟨u, rest, hsplit, h1, h2⟩ := key
  have e0 : w = w.take i ++ (u ++ rest) := by rw [← hsplit, List.take_append_drop]
  have hb : between w t t' = u := between_split e0 hstart.before
    (fun e he => ⟨hstart.after e (by rw [hsplit]; simp [he]), h1 e he⟩) h2
  have hl : w.filter (fun e => decide (t' ≤ e.2)) = rest := by
    rw [e0, List.filter_append, List.filter_append, List.filter_eq_nil_iff.2, List.filter_eq_nil_iff.2,
      List.filter_eq_self.2]
    · rfl
    · intro e he
      simpa using h2 e he
    · intro e he
      simpa using h1 e he
    · intro e he
      simpa using lt_of_le_of_lt (hstart.before e he) htt
  rw [letterAt, hl] at ha
  cases rest with
  | nil => simp at ha
  | cons e rest =>
    simp only [List.head?_cons, Option.map_some, Option.some.injEq] at ha
    subst ha
    exact ⟨u, e.2, rest, hsplit, hb, h2 e (by simp), h1⟩

/-- If words with the letters of the log from `i` on satisfy the conditions of the table, position `i` is not skipped. -/
theorem room_of_letters {T : Tables S} {w : TWord K} {i : Nat} (hm : 1 ≤ T.m) (hd : ∀ d ∈ T.delta, 1 ≤ d ∧ d ≤ T.m + 1)
    {u : TWord K} (hu : T.m ≤ u.length) (hlast : ∀ e, u[T.m - 1]? = some e → e.1 ∈ T.endChars)
    (hskip : ∀ p e d, p < T.m → u[p]? = some e → T.delta[e.1]? = some d → d ≤ T.m - p)
    (hlet : u.map (·.1) <+: (w.drop i).map (·.1)) : Room T w i := by
  obtain ⟨r, hr⟩ := hlet
  have hlen : u.length ≤ w.length - i := by
    have := congrArg List.length hr
    simp only [List.length_append, List.length_map, List.length_drop] at this
    omega
  have hget : ∀ p (hp : p < u.length) (h : i + p < w.length), u[p].1 = w[i + p].1 := by
    intro p hp h
    have h1 : ((w.drop i).map (·.1))[p]? = some w[i + p].1 := by
      rw [List.getElem?_map, List.getElem?_drop, List.getElem?_eq_getElem h]
      rfl
    rw [← hr, List.getElem?_append_left (by simpa using hp), List.getElem?_map, List.getElem?_eq_getElem hp] at h1
    simpa using h1
  refine ⟨hm, hd, by omega, ?_, ?_⟩
  · intro h
    have hp : T.m - 1 < u.length := by omega
    have := hlast u[T.m - 1] (List.getElem?_eq_getElem hp)
    rw [hget _ hp (by omega)] at this
    have e : i + (T.m - 1) = i + T.m - 1 := by omega
    simpa only [e] using this
  · intro p hp h d hdd
    have hp' : p < u.length := by omega
    rw [← hget p hp' h] at hdd
    exact hskip p _ d hp (List.getElem?_eq_getElem hp') hdd

/-- A run whose last transition has no upper bounds can take it later. -/
theorem reads_later {A : TA S} (hA : A.FinalLower) {u : TWord K} {a : Alphabet} {t' τ : K} (hle : t' ≤ τ) {s s' : S}
    {r : Nat → K} (h : A.Reads s r (u ++ [(a, t')]) s') (hm : (A.st s').isMatch = true) :
    A.Reads s r (u ++ [(a, τ)]) s' := by
  induction u generalizing s r with
  | nil =>
    obtain ⟨e, he, q, hq, hg, h⟩ := h
    have h : q = s' := h
    subst h
    refine ⟨e, he, q, hq, ?_, rfl⟩
    intro g hgm
    have h1 := hA s a e he q hq hm g hgm
    have h2 := hg g hgm
    rcases g with ⟨x, odr, c⟩
    cases odr <;> simp [Constraint.IsUpper, Constraint.Holds] at h1 h2 ⊢ <;> linarith
  | cons p u ih =>
    obtain ⟨b, x⟩ := p
    obtain ⟨e, he, q, hq, hg, h⟩ := h
    exact ⟨e, he, q, hq, hg, ih h⟩

section signal
variable {A : TA S} {T : Tables S} {w : TWord K} (hw : LogOk w) (hs : LogStrict w) (hl : LettersOk w)
  {i : Nat} {t t' : K} (hstart : StartsAt w i t) (htt : t < t')

include hw hstart htt

theorem signal_found (hA : A.ClocksDeclared) (hm : A.SignalMatch w t t') (hi : i < w.length) :
    ∃ z ∈ (runList id A (prevOf w i) (w.drop i) (initConfs A (prevOf w i) w[i].2) []).1, z.Has t t' := by
  obtain ⟨h0, hle, a, ha, s, hs, s', hr, hacc⟩ := hm
  obtain ⟨u, τ, rest, hsplit, hb, hτ, hu⟩ := signal_split hw hstart htt ha
  rw [hb] at hr
  unfold Zone.Has
  rw [runList_spec hA hstart.ne_zero initConfs_length]
  have hc : ∃ c ∈ initConfs A (prevOf w i) w[i].2, c.s = s := by
    simp only [initConfs, List.mem_map]
    exact ⟨_, ⟨s, hs, rfl⟩, rfl⟩
  obtain ⟨c, hc, hcs⟩ := hc
  refine ⟨u, (a, τ) :: rest, hsplit, ⟨?_, ?_⟩, by simpa using hle, c, hc, (in_initConfs hw hi hc).2 (by simpa using hstart), a, rfl, s', ?_, hacc⟩
  · intro e he
    simp only [List.head?_cons, Option.mem_def, Option.some.injEq] at he
    subst he
    simpa using hτ
  · simp only [Nat.succ_ne_zero, if_false, one_ne_zero]
    cases hlu : u.getLast? with
    | none =>
      simp only
      obtain ⟨-, h2⟩ := (startsAt_iff hw hi).1 hstart
      unfold lowerBegin at h2
      unfold lowerEnd
      cases hp : prevOf w i with
      | none =>
        simp only [Bnd.zeroLe, sat_t]
        linarith
      | some p =>
        rw [hp] at h2
        simp only [sat_t, sat_f] at h2 ⊢
        linarith
    | some x =>
      simp only [lowerEnd, sat_f]
      have := hu x (List.mem_of_getLast? hlu)
      linarith
  · rw [(mem_initConfs hc).2.1, rOf_zero, hcs]
    simpa using hr

include hs hl

theorem signal_room [DecidableEq S] {fuel : Nat} (ht : sundayTable K fuel A = .ok (T.m, T.delta, T.endChars))
    (hlive : ∀ (Z : ZA S K) alive, ta2za fuel A ZA.none = .ok Z → Z.liveStates fuel = .ok alive →
      ∀ i, Z.Reachable i → Z.Live i → i ∈ alive) (hm : A.SignalMatch w t t') :
    Room T w i ∧ ∀ a, letterAt w t' = some a → T.m ≤ (between w t t' ++ [(a, t')]).length := by
  obtain ⟨h1, h2, h3, h4⟩ := sundayTable_spec ht hlive
  have key : ∀ a, letterAt w t' = some a → A.AcceptsFrom t (between w t t' ++ [(a, t')]) → Room T w i ∧
      T.m ≤ (between w t t' ++ [(a, t')]).length := by
    intro a ha hacc
    obtain ⟨s, hs', s', hr, hacc⟩ := hacc
    obtain ⟨u, τ, rest, hsplit, hb, hτ, hu⟩ := signal_split hw hstart htt ha
    have hsub : ∀ e ∈ u, e ∈ w := fun e he => List.drop_subset i w (by rw [hsplit]; simp [he])
    have hal : ∃ e ∈ w, e.1 = a := ⟨(a, τ), List.drop_subset i w (by rw [hsplit]; simp), rfl⟩
    rw [hb] at hr ⊢
    have hsu : u.Pairwise fun a b => a.2 < b.2 := by
      have := hs.2.sublist (List.drop_sublist i w)
      rw [hsplit] at this
      exact (List.pairwise_append.1 this).1
    obtain ⟨g1, g2, g3⟩ := h4 t (u ++ [(a, t')]) (by simp) (by
        intro e he
        rcases List.mem_append.1 he with he | he
        · exact hl e (hsub e he)
        · simp only [List.mem_singleton] at he
          subst he
          obtain ⟨e, hew, rfl⟩ := hal
          exact hl e hew) (by
        intro e he
        rcases List.mem_append.1 he with he | he
        · exact hstart.after e (by rw [hsplit]; simp [he])
        · simp only [List.mem_singleton] at he
          subst he
          exact htt) (by
        rw [List.pairwise_append]
        refine ⟨hsu, by simp, ?_⟩
        intro x hx y hy
        simp only [List.mem_singleton] at hy
        subst hy
        exact hu x hx) s hs' s' hr hacc
    refine ⟨room_of_letters h1 h3 g1 g2 g3 ⟨rest.map (·.1), ?_⟩, g1⟩
    rw [hsplit]
    simp
  obtain ⟨h0, hle, a, ha, hacc⟩ := hm
  refine ⟨(key a ha hacc).1, ?_⟩
  intro a' ha'
  rw [ha] at ha'
  cases ha'
  exact (key a ha hacc).2

/-- No match of the signal is lost. -/
theorem signal_complete [DecidableEq S] {fuel : Nat} (hT : makeTables K fuel A = .ok T) (hM : A.MapOk) (hC : A.ClocksDeclared)
    (hA : A.Closed) (hz : A.NoZeroDuration) (hac : A.LoopsOk) (hU : A.UpperAfterReset) (hF : A.FinalLower)
    (hsz : 2 * A.clockSize ≤ 256) (hm : A.SignalMatch w t t') {inner fuel' k : Nat} (hk : k ≤ i) {zs : List (Zone K)}
    (h : matchListE (signalHooks A) T w inner fuel' k = .ok zs) : ∃ z ∈ zs, z.Has t t' := by
  obtain ⟨ht, beta, hb1, hb2⟩ := makeTables_spec hT
  obtain ⟨hR, hlen⟩ := signal_room hw hs hl hstart htt ht (live_of_loopsOk hA hM hac) hm
  refine matchListE_complete hR (P := fun z => z.Has t t') ?_ ?_ hk h
  · intro k hki hkw r hr c hc b hbc
    rw [runListE_signal] at hr
    cases hr
    by_contra hcon
    have hdrop : ∀ e ∈ w.drop k, e.2 ≠ 0 := fun e he => ne_of_gt (hs.1 e (List.mem_of_mem_drop he))
    rcases runList_last hC hdrop initConfs_length (initConfs_valid hs hkw) hc with hbad | ⟨j, t0, c0, hc0, hin, hr⟩
    · simp at hbad
    · have hst := (in_initConfs hw hkw hc0).1 hin
      rw [(mem_initConfs hc0).2.1, rOf_zero] at hr
      obtain ⟨h0, hle, a, ha, s, hs', s', hr2, hacc⟩ := hm
      obtain ⟨u, τ, rest, hsplit, hbet, hτ, hu⟩ := signal_split hw hstart htt ha
      have hlen := hlen a ha
      rw [hbet] at hr2 hlen
      have hr3 := reads_later hF hτ hr2 hacc
      have hub : u ++ [(a, τ)] = ((w.drop k).drop (i - k)).take (u.length + 1) := by
        rw [List.drop_drop, show k + (i - k) = i by omega, hsplit]
        have : u ++ (a, τ) :: rest = (u ++ [(a, τ)]) ++ rest := by simp
        rw [this, List.take_left' (by simp)]
      rw [hub] at hr3
      rw [hb2] at hbc
      refine kmp_core_upper hb1 hM hC hA hz hU hsz (W := w.drop k) (fun e he => hl e (List.drop_subset _ _ he))
        (hs.2.sublist (List.drop_sublist k w)) hst.after (mem_initConfs hc0).1 hr hbc (k := i - k) (t₂ := t)
        (by omega) (by omega) ?_ ?_ hs' ?_ hr3 hacc
      · have := hstart.lt
        rw [List.length_drop]
        omega
      · intro e he
        refine hstart.before e ?_
        rw [show i = k + (i - k) by omega, List.take_add]
        exact List.mem_append_right _ he
      · rw [← hub]
        simpa using hlen
  · intro hi r hr
    rw [runListE_signal] at hr
    cases hr
    exact signal_found hw hstart htt hC hm hi

end signal

end Verif
