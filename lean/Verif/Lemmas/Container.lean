import Verif.Lemmas.Run

set_option linter.unusedSectionVars false

/-! The matching loop over a container does what it does over the list of the events. -/

namespace Verif

variable {S K σ : Type}

/-- A container which behaves as the log `w`: `Inv f k` says that the events before `f` may have been
dropped and that the ones before `k` are available. -/
structure Implements (C : Cont K σ) (w : TWord K) (Inv : Nat → Nat → σ → Prop) : Prop where
  fetch : ∀ {f k s n}, Inv f k s → f ≤ n →
    (C.fetch n s).1 = decide (n < w.length) ∧ ∃ k', k ≤ k' ∧ Inv f k' (C.fetch n s).2 ∧ (n < w.length → n < k')
  get : ∀ {f k s n}, Inv f k s → f ≤ n → n < k → ∀ h : n < w.length, C.get n s = .ok w[n]
  setFront : ∀ {f k s n}, Inv f k s → f ≤ n → ∃ s' k', C.setFront n s = .ok s' ∧ k ≤ k' ∧ Inv n k' s'

theorem vector_implements (w : TWord K) :
    Implements (vectorCont K) w (fun _ _ s => s = w) where
  fetch := by
    rintro f k s n rfl h
    refine ⟨rfl, max k (n + 1), Nat.le_max_left _ _, rfl, fun _ => by omega⟩
  get := by
    rintro f k s n rfl h1 h2 h
    simp [vectorCont, h]
  setFront := by
    rintro f k s n rfl h
    exact ⟨s, k, rfl, Nat.le_refl _, rfl⟩

/-- `r` events of the log `w` were read, those from `f` on are kept. -/
structure LazyInv (w : TWord K) (f r : Nat) (d : Lazy K) : Prop where
  front : d.front = f
  le : f ≤ r
  deque : d.deque = (w.take r).drop f
  file : d.file = w.drop r
  n : ∀ N ∈ d.N, w.length ≤ N

theorem fetchLoop_spec {w : TWord K} {f r : Nat} {d : Lazy K} (h : LazyInv w f r d) (k : Nat) :
    (d.fetchLoop k).1 = decide (k ≤ w.length - r) ∧
      ∃ r', r ≤ r' ∧ LazyInv w f r' (d.fetchLoop k).2 ∧ (k ≤ w.length - r → r' = r + k) := by
  induction k generalizing d r with
  | zero => exact ⟨by simp [Lazy.fetchLoop], r, Nat.le_refl _, h, fun _ => rfl⟩
  | succ k ih =>
    unfold Lazy.fetchLoop
    cases hf : d.file with
    | nil =>
      have hr : w.length ≤ r := by
        have := h.file
        rw [hf] at this
        simpa using this.symm
      refine ⟨by simp; omega, r, Nat.le_refl _, ⟨h.front, h.le, h.deque, by simpa [hf] using h.file, ?_⟩, ?_⟩
      · intro N hN
        simp only [Option.mem_def, Option.some.injEq] at hN
        rw [h.deque, h.front] at hN
        simp only [List.length_drop, List.length_take] at hN
        omega
      · intro hk
        omega
    | cons e fl =>
      have hfile := h.file
      rw [hf] at hfile
      have hr : r < w.length := by
        by_contra hc
        rw [List.drop_eq_nil_of_le (by omega)] at hfile
        simp at hfile
      rw [List.drop_eq_getElem_cons hr] at hfile
      simp only [List.cons.injEq] at hfile
      have h' : LazyInv w f (r + 1) { d with deque := d.deque ++ [e], file := fl } := by
        refine ⟨h.front, by have := h.le; omega, ?_, hfile.2, h.n⟩
        simp only
        have hl := h.le
        rw [h.deque, hfile.1, List.take_add_one, List.getElem?_eq_getElem hr,
          List.drop_append]
        have : f - (List.take r w).length = 0 := by simp; omega
        rw [this]
        rfl
      obtain ⟨h1, r', h2, h3, h4⟩ := ih h'
      simp only
      refine ⟨?_, r', by omega, h3, fun hk => ?_⟩
      · rw [h1]
        congr 1
        apply propext
        omega
      · rw [h4 (by omega)]
        omega

theorem lazy_implements (w : TWord K) : Implements (lazyCont K) w (LazyInv w) where
  fetch := by
    intro f k s n h hn
    change ((s.fetch n).1 = _ ∧ ∃ k', k ≤ k' ∧ LazyInv w f k' (s.fetch n).2 ∧ _)
    unfold Lazy.fetch
    have hfr : ¬ n < s.front := by rw [h.front]; omega
    have hlen : s.deque.length = min k w.length - f := by rw [h.deque]; simp
    have hle := h.le
    by_cases hb : s.beyond n = true
    · simp only [hb, hfr, decide_false, Bool.false_or, if_true]
      have : w.length ≤ n := by
        unfold Lazy.beyond at hb
        cases hN : s.N with
        | none => simp [hN] at hb
        | some N =>
          simp [hN] at hb
          have := h.n N (by simp [hN])
          omega
      exact ⟨by simp; omega, k, Nat.le_refl _, h, fun hc => by omega⟩
    · simp only [hb, hfr, decide_false, Bool.false_or]
      obtain ⟨h1, r', h2, h3, h4⟩ := fetchLoop_spec h (n - s.front + 1 - s.deque.length)
      rw [hlen, h.front] at *
      refine ⟨?_, r', h2, h3, fun hc => ?_⟩
      · simp only [Bool.false_eq_true, if_false]
        rw [h1]
        congr 1
        apply propext
        omega
      · rw [h4 (by omega)]
        omega
  get := by
    intro f k s n h hn hk hw
    change s.get n = _
    unfold Lazy.get
    have hfr : ¬ n < s.front := by rw [h.front]; omega
    have hb : s.beyond n = false := by
      unfold Lazy.beyond
      cases hN : s.N with
      | none => rfl
      | some N =>
        have := h.n N (by simp [hN])
        simp
        omega
    simp only [hb, hfr, decide_false, Bool.or_false, Bool.false_eq_true, if_false]
    have : s.deque[n - s.front]? = some w[n] := by
      rw [h.deque, h.front, List.getElem?_drop, Nat.add_sub_cancel' hn, List.getElem?_take_of_lt hk,
        List.getElem?_eq_getElem hw]
    rw [this]
  setFront := by
    intro f k s n h hn
    change ∃ s' k', s.setFront n = _ ∧ _
    unfold Lazy.setFront
    have hfr : ¬ n < s.front := by rw [h.front]; omega
    have hlen : s.deque.length = min k w.length - f := by rw [h.deque]; simp
    have hle := h.le
    rw [if_neg hfr]
    refine ⟨_, max k n, rfl, Nat.le_max_left _ _, rfl, Nat.le_max_right _ _, ?_, ?_, h.n⟩
    · simp only
      rw [h.deque, List.drop_drop, h.front]
      have hl2 : (List.drop f (List.take k w)).length = min k w.length - f := by simp
      rw [hl2]
      by_cases hc : n ≤ k
      · rw [Nat.max_eq_left hc]
        by_cases hc2 : n ≤ w.length
        · congr 1
          omega
        · rw [List.drop_eq_nil_of_le, List.drop_eq_nil_of_le] <;> simp <;> omega
      · rw [List.drop_eq_nil_of_le, List.drop_eq_nil_of_le] <;> simp <;> omega
    · simp only
      rw [h.file, List.drop_drop, hlen, h.front]
      by_cases hc : n ≤ w.length ∧ k ≤ w.length
      · congr 1
        omega
      · rw [List.drop_eq_nil_of_le, List.drop_eq_nil_of_le] <;> omega

theorem lazy_mk0 (w : TWord K) : LazyInv w 0 0 (Lazy.mk0 w) :=
  ⟨rfl, Nat.le_refl _, by simp [Lazy.mk0], by simp [Lazy.mk0], by simp [Lazy.mk0]⟩

section refine
variable [Field K] [LinearOrder K] [IsStrictOrderedRing K]

/-- The instant of the event before position `k`. -/
def prevOf (w : TWord K) (k : Nat) : Option K := if k = 0 then none else (w[k - 1]?).map (·.2)

/-- `sundayLoop` on the list. -/
def sundayList (T : Tables S) (w : TWord K) : Nat → Nat → Except Err (Option Nat)
  | 0, _ => .error .fuel
  | fuel + 1, i => match w[i + T.m - 1]? with
    | none => .ok none
    | some e =>
      if e.1 ∈ T.endChars then .ok (some i)
      else match w[i + T.m]? with
        | none => .ok none
        | some e' => match T.delta[e'.1]? with
          | none => .error .ub
          | some d => if i + d + T.m - 1 < w.length then sundayList T w fuel (i + d) else .ok none

/-- `runLoop` on the rest of the log. -/
def runListE {Q : Type} (M : Hooks S Q K) (prev : Option K) :
    TWord K → List Q → List Q → Except Err (List (Zone K) × List Q)
  | [], cs, _ => .ok (if cs.isEmpty then [] else M.final prev cs, cs)
  | e :: w, cs, last =>
    if cs.isEmpty then .ok ([], last)
    else match M.event prev e.1 e.2 cs with
      | .error x => .error x
      | .ok r => match runListE M (some e.2) w r.2.2 r.2.1 with
        | .error x => .error x
        | .ok r' => .ok (r.1 ++ r'.1, r'.2)

/-- `matchLoop` on the list, from the position where the matching is tried. -/
def matchListE {Q : Type} (M : Hooks S Q K) (T : Tables S) (w : TWord K) (inner : Nat) :
    Nat → Nat → Except Err (List (Zone K))
  | 0, _ => .error .fuel
  | fuel + 1, i =>
    if i + T.m - 1 < w.length then do
      let r ← if T.m > 1 then sundayList T w inner i else .ok (some i)
      match r with
      | none => .ok []
      | some i => match w[i]? with
        | none => .ok []
        | some e => match runListE M (prevOf w i) (w.drop i) (M.start (prevOf w i) e.2) [] with
          | .error x => .error x
          | .ok r => match greatestN T M.state r.2 with
            | .error x => .error x
            | .ok n => do
              let rest ← matchListE M T w inner fuel (i + n)
              .ok (r.1 ++ rest)
    else .ok []

variable {C : Cont K σ} {w : TWord K} {Inv : Nat → Nat → σ → Prop}

theorem prevTime_spec (H : Implements C w Inv) {f k : Nat} {s : σ} (h : Inv f k s) {j : Nat} (hf : f ≤ j - 1)
    (hk : j = 0 ∨ j - 1 < k) (hw : j ≤ w.length) : prevTime C j s = .ok (prevOf w j) := by
  unfold prevTime prevOf
  split_ifs with h0
  · rfl
  · have hj : j - 1 < w.length := by omega
    rw [H.get h hf (by omega) hj]
    simp [List.getElem?_eq_getElem hj]

theorem runLoop_spec {Q : Type} (H : Implements C w Inv) {M : Hooks S Q K} {fuel : Nat} {f k j : Nat} {s : σ}
    (h : Inv f k s) {cs last : List Q} (hf : f ≤ j - 1) (hk : j = 0 ∨ j - 1 < k) (hw : j ≤ w.length)
    (hfuel : w.length - j < fuel) :
    (∃ x, runLoop C M fuel j cs last s = .error x ∧ runListE M (prevOf w j) (w.drop j) cs last = .error x) ∨
    ∃ r s' k', runLoop C M fuel j cs last s = .ok (r.1, r.2, s') ∧
      runListE M (prevOf w j) (w.drop j) cs last = .ok r ∧ k ≤ k' ∧ Inv f k' s' := by
  induction fuel generalizing k j s cs last with
  | zero => omega
  | succ fuel ih =>
    unfold runLoop
    obtain ⟨hb, k1, hk1, hI1, hn1⟩ := H.fetch h (n := j) (by omega)
    split_ifs with hemp
    · simp only [List.isEmpty_iff] at hemp
      subst hemp
      simp only [hb]
      right
      by_cases hj : j < w.length
      · refine ⟨([], last), (C.fetch j s).2, k1, by simp [hj], ?_, hk1, hI1⟩
        rw [List.drop_eq_getElem_cons hj]
        simp [runListE]
      · refine ⟨([], []), (C.fetch j s).2, k1, by simp [hj], ?_, hk1, hI1⟩
        rw [List.drop_eq_nil_of_le (by omega)]
        simp [runListE]
    · simp only [hb]
      by_cases hj : j < w.length
      · simp only [hj, decide_true, if_true]
        have hget := H.get hI1 (n := j) (by omega) (hn1 hj) hj
        have hprev := prevTime_spec H hI1 hf (by omega) hw
        have hp' : prevOf w (j + 1) = some w[j].2 := by simp [prevOf, List.getElem?_eq_getElem hj]
        rw [hget]
        simp only [bind, Except.bind]
        rw [hprev]
        simp only
        rw [List.drop_eq_getElem_cons hj, runListE, if_neg hemp]
        cases hev : M.event (prevOf w j) w[j].1 w[j].2 cs with
        | error x => exact Or.inl ⟨x, rfl, rfl⟩
        | ok r =>
          simp only
          rcases ih hI1 (j := j + 1) (cs := r.2.2) (last := r.2.1)
            (by omega) (by have := hn1 hj; omega) (by omega) (by omega) with ⟨x, h1, h2⟩ | ⟨r', s', k', h1, h2, hk', hI'⟩
          · rw [hp'] at h2
            rw [h1, h2]
            exact Or.inl ⟨x, rfl, rfl⟩
          · rw [hp'] at h2
            rw [h1, h2]
            exact Or.inr ⟨(r.1 ++ r'.1, r'.2), s', k', rfl, rfl, by omega, hI'⟩
      · simp only [hj, decide_false, Bool.false_eq_true, if_false]
        obtain ⟨hb2, k2, hk2, hI2, hn2⟩ := H.fetch hI1 (n := j) (by omega)
        right
        refine ⟨(M.final (prevOf w j) cs, cs), (C.fetch j (C.fetch j s).2).2, k2, ?_, ?_, by omega, hI2⟩
        · have hprev := prevTime_spec H hI2 hf (by omega) hw
          rw [hprev]
          simp only [bind, Except.bind]
        · rw [List.drop_eq_nil_of_le (by omega), runListE, if_neg hemp]

theorem sundayLoop_spec (H : Implements C w Inv) {T : Tables S} {fuel : Nat} {f k i : Nat} {s : σ}
    (h : Inv f k s) (hm : 1 ≤ T.m) (hf : f ≤ i - 1) (hk : i + T.m - 1 < k) (hi : i + T.m - 1 < w.length) :
    (∃ x, sundayLoop C T fuel i s = .error x ∧ sundayList T w fuel i = .error x) ∨
    (∃ s', sundayLoop C T fuel i s = .ok (none, s') ∧ sundayList T w fuel i = .ok none) ∨
    ∃ i' s' f' k', sundayLoop C T fuel i s = .ok (some i', s') ∧ sundayList T w fuel i = .ok (some i') ∧
      f' ≤ i' - 1 ∧ i' + T.m - 1 < k' ∧ i' + T.m - 1 < w.length ∧ Inv f' k' s' := by
  induction fuel generalizing f k i s with
  | zero => exact Or.inl ⟨.fuel, rfl, rfl⟩
  | succ fuel ih =>
    unfold sundayLoop sundayList
    rw [H.get h (by omega) hk hi, List.getElem?_eq_getElem hi]
    simp only [bind, Except.bind]
    by_cases he : (w[i + T.m - 1]).1 ∈ T.endChars
    · simp only [he, if_true]
      exact Or.inr (Or.inr ⟨i, s, f, k, rfl, rfl, hf, hk, hi, h⟩)
    · simp only [he, if_false]
      obtain ⟨hb, k1, hk1, hI1, hn1⟩ := H.fetch h (n := i + T.m) (by omega)
      simp only [hb]
      by_cases hj : i + T.m < w.length
      · simp only [hj, decide_true, Bool.not_true, Bool.false_eq_true, if_false]
        rw [H.get hI1 (by omega) (hn1 hj) hj, List.getElem?_eq_getElem hj]
        simp only
        cases hd : T.delta[(w[i + T.m]).1]? with
        | none => exact Or.inl ⟨.ub, rfl, rfl⟩
        | some d =>
          simp only
          obtain ⟨s2, k2, hset, hk2, hI2⟩ := H.setFront hI1 (n := i + d - 1) (by omega)
          rw [hset]
          simp only
          obtain ⟨hb3, k3, hk3, hI3, hn3⟩ := H.fetch hI2 (n := i + d + T.m - 1) (by omega)
          simp only [hb3]
          by_cases hj3 : i + d + T.m - 1 < w.length
          · simp only [hj3, decide_true, Bool.not_true, Bool.false_eq_true, if_false, if_true]
            exact ih hI3 (by omega) (hn3 hj3) hj3
          · simp only [hj3, decide_false, Bool.not_false, if_true, if_false]
            exact Or.inr (Or.inl ⟨_, rfl, trivial⟩)
      · simp only [hj, decide_false, Bool.not_false, if_true]
        rw [List.getElem?_eq_none (by omega)]
        exact Or.inr (Or.inl ⟨_, rfl, rfl⟩)

theorem matchLoop_spec {Q : Type} (H : Implements C w Inv) {M : Hooks S Q K} {T : Tables S} {inner fuel : Nat} {f k i : Nat} {s : σ}
    (h : Inv f k s) (hm : 1 ≤ T.m) (hf : f ≤ i - 1) (hinner : w.length < inner) :
    matchLoop C M T inner fuel i s = matchListE M T w inner fuel i := by
  induction fuel generalizing f k i s with
  | zero => rfl
  | succ fuel ih =>
    unfold matchLoop matchListE
    obtain ⟨hb, k1, hk1, hI1, hn1⟩ := H.fetch h (n := i + T.m - 1) (by omega)
    simp only [hb]
    by_cases hi : i + T.m - 1 < w.length
    swap
    · simp only [hi, decide_false, Bool.not_false, if_true, if_false]
    simp only [hi, decide_true, Bool.not_true, Bool.false_eq_true, if_true, if_false]
    -- the rest, from a position `i'`
    have rest : ∀ {i' f' k' s'}, f' ≤ i' - 1 → i' + T.m - 1 < k' → i' + T.m - 1 < w.length → Inv f' k' s' →
        (if (!(C.fetch i' s').1) = true then Except.ok []
          else do
            let e ← C.get i' (C.fetch i' s').2
            let prev ← prevTime C i' (C.fetch i' s').2
            let (zs, last, w') ← runLoop C M inner i' (M.start prev e.2) [] (C.fetch i' s').2
            let n ← greatestN T M.state last
            let w' ← C.setFront (i' + n - 1) w'
            let rest ← matchLoop C M T inner fuel (i' + n) w'
            .ok (zs ++ rest)) =
        (match w[i']? with
        | none => .ok []
        | some e => match runListE M (prevOf w i') (w.drop i') (M.start (prevOf w i') e.2) [] with
          | .error x => .error x
          | .ok r => match greatestN T M.state r.2 with
            | .error x => .error x
            | .ok n => do
              let rest ← matchListE M T w inner fuel (i' + n)
              .ok (r.1 ++ rest)) := by
      intro i' f' k' s' hf' hk' hi' hI'
      have hiw : i' < w.length := by omega
      obtain ⟨hb2, k2, hk2, hI2, hn2⟩ := H.fetch hI' (n := i') (by omega)
      simp only [hb2, hiw, decide_true, Bool.not_true, Bool.false_eq_true, if_false]
      rw [H.get hI2 (by omega) (hn2 hiw) hiw, List.getElem?_eq_getElem hiw]
      simp only [bind, Except.bind]
      rw [prevTime_spec H hI2 hf' (by omega) (by omega)]
      simp only
      rcases runLoop_spec H hI2 (M := M) (fuel := inner) (j := i')
        (cs := M.start (prevOf w i') w[i'].2) (last := []) hf' (by omega) (by omega) (by omega) with
        ⟨x, h1, h2⟩ | ⟨r, s3, k3, h1, h2, hk3, hI3⟩
      · rw [h1, h2]
      · rw [h1, h2]
        simp only
        cases hg : greatestN T M.state r.2 with
        | error x => rfl
        | ok n =>
          simp only
          obtain ⟨s4, k4, hset, hk4, hI4⟩ := H.setFront hI3 (n := i' + n - 1) (by omega)
          rw [hset]
          simp only
          rw [ih hI4 (Nat.le_refl _)]
    by_cases hm1 : T.m > 1
    · simp only [hm1, if_true]
      obtain ⟨hb2, k2, hk2, hI2, hn2⟩ := H.fetch hI1 (n := i + T.m - 1) (by omega)
      simp only [hb2, hi, decide_true, if_true]
      rcases sundayLoop_spec H hI2 hm hf (hn2 hi) hi (fuel := inner) with
        ⟨x, h1, h2⟩ | ⟨s', h1, h2⟩ | ⟨i', s', f', k', h1, h2, h3, h4, h5, h6⟩
      · rw [h1, h2]
        rfl
      · rw [h1, h2]
        rfl
      · rw [h1, h2]
        exact rest h3 h4 h5 h6
    · simp only [hm1, if_false]
      exact rest hf (hn1 hi) hi hI1

end refine
end Verif
