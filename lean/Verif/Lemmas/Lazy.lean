import Verif.Spec.Container
import Verif.Lemmas.Container

/-!
# All states of the streaming container
-/

namespace Verif

variable {K : Type} {w : TWord K}

theorem discarded_append (a b : List LazyOp) : discarded (a ++ b) = max (discarded a) (discarded b) := by
  induction a with
  | nil => simp [discarded]
  | cons x a ih => cases x <;> simp [discarded, ih, Nat.max_assoc]

theorem lazyAfter_snoc (ops : List LazyOp) (o : LazyOp) :
    lazyAfter w (ops ++ [o]) = o.exec (lazyAfter w ops) := by simp [lazyAfter]

theorem fetch_before {d : Lazy K} {n : Nat} (h : n < d.front) : d.fetch n = (false, d) := by
  simp [Lazy.fetch, h]

theorem setFront_before {d : Lazy K} {n : Nat} (h : n < d.front) : d.setFront n = .error .outOfRange := by
  simp [Lazy.setFront, h]

/-- The invariant with the number of the events read. -/
theorem exec_inv {f r : Nat} {d : Lazy K} (h : LazyInv w f r d) (o : LazyOp) :
    ∃ r', r ≤ r' ∧ LazyInv w (max f (discarded [o])) r' (o.exec d) := by
  cases o with
  | fetch n =>
    simp only [discarded, Nat.max_eq_left (Nat.zero_le f), LazyOp.exec]
    by_cases hn : f ≤ n
    · obtain ⟨-, k, hk, hI, -⟩ := (lazy_implements w).fetch h hn
      exact ⟨k, hk, hI⟩
    · rw [fetch_before (by rw [h.front]; omega)]
      exact ⟨r, Nat.le_refl _, h⟩
  | at' n =>
    simp only [discarded, Nat.max_eq_left (Nat.zero_le f), LazyOp.exec]
    exact ⟨r, Nat.le_refl _, h⟩
  | setFront n =>
    simp only [discarded, Nat.max_eq_left (Nat.zero_le n), LazyOp.exec]
    by_cases hn : f ≤ n
    · obtain ⟨s', k, hs, hk, hI⟩ := (lazy_implements w).setFront h hn
      change d.setFront n = _ at hs
      rw [hs, Nat.max_eq_right hn]
      exact ⟨k, hk, hI⟩
    · rw [setFront_before (by rw [h.front]; omega), Nat.max_eq_left (by omega)]
      exact ⟨r, Nat.le_refl _, h⟩

theorem exec_many {f r : Nat} {d : Lazy K} (h : LazyInv w f r d) (ops : List LazyOp) :
    ∃ r', r ≤ r' ∧ LazyInv w (max f (discarded ops)) r' (ops.foldl LazyOp.exec d) := by
  induction ops generalizing f r d with
  | nil => exact ⟨r, Nat.le_refl _, by simpa [discarded] using h⟩
  | cons o ops ih =>
    obtain ⟨r1, h1, hI⟩ := exec_inv h o
    obtain ⟨r2, h2, hI2⟩ := ih hI
    refine ⟨r2, by omega, ?_⟩
    have := discarded_append [o] ops
    rw [List.singleton_append] at this
    rw [this, ← Nat.max_assoc]
    exact hI2

theorem lazyAfter_inv (ops : List LazyOp) : ∃ r, LazyInv w (discarded ops) r (lazyAfter w ops) := by
  obtain ⟨r, -, h⟩ := exec_many (lazy_mk0 w) ops
  exact ⟨r, by simpa [lazyAfter] using h⟩

/-- What `at` returns is the event of the input. -/
theorem get_eq {f r n : Nat} {d : Lazy K} (h : LazyInv w f r d) {e : Alphabet × K} (hg : d.get n = .ok e) :
    w[n]? = some e := by
  unfold Lazy.get at hg
  split_ifs at hg with h1
  simp only [Bool.or_eq_true, decide_eq_true_eq, not_or] at h1
  have hf : f ≤ n := by
    have := h1.1
    rw [h.front] at this
    omega
  split at hg
  · rename_i e' he
    simp only [Except.ok.injEq] at hg
    subst hg
    rw [h.deque, h.front, List.getElem?_drop, Nat.add_sub_cancel' hf, List.getElem?_take] at he
    split_ifs at he
    exact he
  · cases hg

theorem get_error {d : Lazy K} {n : Nat} {x : Err} (hg : d.get n = .error x) : x = .outOfRange := by
  unfold Lazy.get at hg
  split_ifs at hg
  · simpa using hg.symm
  · split at hg
    · cases hg
    · simpa using hg.symm

/-! ### the size -/

theorem fetchLoop_N {f r : Nat} {d : Lazy K} (h : LazyInv w f r d) (hf : f ≤ w.length) (k : Nat) :
    (d.fetchLoop k).2.N = if k ≤ w.length - r then d.N else some w.length := by
  induction k generalizing d r with
  | zero => simp [Lazy.fetchLoop]
  | succ k ih =>
    unfold Lazy.fetchLoop
    cases hfile : d.file with
    | nil =>
      have hr : w.length ≤ r := by
        have := h.file
        rw [hfile] at this
        simpa using this.symm
      rw [if_neg (by omega)]
      simp only
      rw [h.front, h.deque]
      simp only [List.length_drop, List.length_take, Option.some.injEq]
      omega
    | cons e fl =>
      have h1 := fetchLoop_spec h 1
      simp only [Lazy.fetchLoop, hfile] at h1
      obtain ⟨h1, r', h2, h3, h4⟩ := h1
      have hr : 1 ≤ w.length - r := by simpa using h1
      have hr' := h4 hr
      subst hr'
      simp only
      rw [ih h3]
      simp only
      congr 1
      apply propext
      omega

/-- The size is known exactly after a call of `fetch` at or beyond the end. -/
theorem size_many {f r : Nat} {d : Lazy K} (h : LazyInv w f r d) (hN : d.N = none ∨ d.N = some w.length)
    (ops : List LazyOp) (hf : f ≤ w.length) (hops : discarded ops ≤ w.length) :
    ((∃ n, LazyOp.fetch n ∈ ops ∧ w.length ≤ n) → (ops.foldl LazyOp.exec d).N = some w.length) ∧
    ((¬ ∃ n, LazyOp.fetch n ∈ ops ∧ w.length ≤ n) → (ops.foldl LazyOp.exec d).N = d.N) ∧
    (d.N = some w.length → (ops.foldl LazyOp.exec d).N = some w.length) := by
  classical
  induction ops generalizing f r d with
  | nil => simp
  | cons o ops ih =>
    obtain ⟨r1, h1, hI⟩ := exec_inv h o
    have hd := discarded_append [o] ops
    rw [List.singleton_append] at hd
    have hone : (o.exec d).N = (if (∃ n, LazyOp.fetch n = o ∧ w.length ≤ n) then some w.length else d.N) := by
      cases o with
      | at' n => simp [LazyOp.exec]
      | setFront n =>
        simp only [LazyOp.exec, reduceCtorEq, false_and, exists_false, if_false]
        unfold Lazy.setFront
        split_ifs <;> rfl
      | fetch n =>
        simp only [LazyOp.exec, LazyOp.fetch.injEq, exists_eq_left]
        unfold Lazy.fetch
        have hle := h.le
        have hlen : d.deque.length = min r w.length - f := by rw [h.deque]; simp
        split_ifs with hc hn hn
        · simp only [h.front, Bool.or_eq_true, decide_eq_true_eq] at hc
          rcases hc with hc | hc
          · omega
          · simp only [Lazy.beyond] at hc
            rcases hN with hN | hN
            · simp [hN] at hc
            · exact hN
        · rfl
        · rw [fetchLoop_N h hf, if_neg]
          rw [hlen, h.front]
          omega
        · rw [fetchLoop_N h hf, if_pos]
          simp only [h.front, Bool.or_eq_true, decide_eq_true_eq, not_or] at hc
          rw [hlen, h.front]
          omega
    have hN' : (o.exec d).N = none ∨ (o.exec d).N = some w.length := by
      rw [hone]
      split_ifs
      · exact Or.inr rfl
      · exact hN
    obtain ⟨i1, i2, i3⟩ := ih hI hN' (by omega) (by omega)
    simp only [List.foldl_cons]
    by_cases hfo : ∃ n, LazyOp.fetch n = o ∧ w.length ≤ n
    · rw [if_pos hfo] at hone
      refine ⟨fun _ => i3 hone, fun hc => absurd ?_ hc, fun _ => i3 hone⟩
      obtain ⟨n, hn, hw⟩ := hfo
      exact ⟨n, by simp [hn], hw⟩
    · rw [if_neg hfo] at hone
      refine ⟨?_, ?_, fun hd => i3 (by rw [hone, hd])⟩
      · rintro ⟨n, hn, hw⟩
        rcases List.mem_cons.1 hn with hn | hn
        · exact absurd ⟨n, hn, hw⟩ hfo
        · exact i1 ⟨n, hn, hw⟩
      · intro hc
        rw [i2, hone]
        rintro ⟨n, hn, hw⟩
        exact hc ⟨n, List.mem_cons_of_mem _ hn, hw⟩

end Verif
