import Verif.Lemmas.Lazy
import Mathlib.Data.Rat.Floor

/-!
# Properties of the streaming container (C06, C07)
-/

namespace Verif.Props

variable {K : Type}

/-- **C06.** After any sequence of calls, `fetch(n)` returns true exactly if `n` was not discarded and is before the end
of the input. -/
theorem lazy_fetch_iff (w : TWord K) (ops : List LazyOp) (n : Nat) :
    ((lazyAfter w ops).fetch n).1 = true ↔ discarded ops ≤ n ∧ n < w.length := by
  obtain ⟨r, h⟩ := lazyAfter_inv (w := w) ops
  by_cases hn : discarded ops ≤ n
  · have := ((lazy_implements w).fetch h hn).1
    change ((lazyAfter w ops).fetch n).1 = _ at this
    rw [this]
    simp [hn]
  · rw [fetch_before (by rw [h.front]; omega)]
    simp [hn]

/-- **C06.** After any sequence of calls, `at(n)` returns the `n`-th event of the input or throws
`out_of_range`. -/
theorem lazy_at_event_or_throw (w : TWord K) (ops : List LazyOp) (n : Nat) :
    (∃ e, (lazyAfter w ops).get n = .ok e ∧ w[n]? = some e) ∨ (lazyAfter w ops).get n = .error .outOfRange := by
  obtain ⟨r, h⟩ := lazyAfter_inv (w := w) ops
  cases hg : (lazyAfter w ops).get n with
  | ok e => exact Or.inl ⟨e, rfl, get_eq h hg⟩
  | error x => right; rw [get_error hg]

/-- **C06.** After a successful `fetch(n)`, `at(n)` returns the `n`-th event, whatever calls happen in between, as long as
none of them discards `n`. -/
theorem lazy_at_after_fetch (w : TWord K) (ops ops' : List LazyOp) (n : Nat)
    (hf : ((lazyAfter w ops).fetch n).1 = true) (hd : discarded ops' ≤ n) :
    ∃ e, w[n]? = some e ∧ (lazyAfter w (ops ++ .fetch n :: ops')).get n = .ok e := by
  obtain ⟨h1, h2⟩ := (lazy_fetch_iff w ops n).1 hf
  obtain ⟨r, h⟩ := lazyAfter_inv (w := w) ops
  obtain ⟨-, k, -, hI, hk⟩ := (lazy_implements w).fetch h h1
  change LazyInv w _ k ((lazyAfter w ops).fetch n).2 at hI
  obtain ⟨r', hr', hI'⟩ := exec_many hI ops'
  refine ⟨w[n], List.getElem?_eq_getElem h2, ?_⟩
  have := (lazy_implements w).get hI' (n := n) (by omega) (by have := hk h2; omega) h2
  rw [lazyAfter, List.foldl_append, List.foldl_cons]
  exact this

/-- A history with discarded, available and unread events. -/
example : let w : TWord ℚ := [(97, 1), (98, 2), (99, 3), (97, 4)]
    let ops := [LazyOp.fetch 0, .setFront 1, .fetch 2]
    ((lazyAfter w ops).fetch 2).1 = true ∧ discarded ops = 1 ∧ (lazyAfter w ops).get 2 = .ok (99, 3) ∧
      (lazyAfter w ops).get 0 = .error .outOfRange ∧ (lazyAfter w ops).get 3 = .error .outOfRange ∧
      ((lazyAfter w ops).fetch 4).1 = false := by decide +kernel

/-- **C07 is false**: if everything is discarded and the front set behind the end of the input, `size()` is larger than the
number of events. -/
theorem lazy_size_wrong :
    ¬ ∀ (w : TWord ℚ) (ops : List LazyOp) (n : Nat), w.length ≤ n → discarded ops ≤ n →
      (lazyAfter w (ops ++ [.fetch n])).size = some w.length := by
  intro h
  exact absurd (h [(97, 1)] [.setFront 3] 3 (by decide) (by decide)) (by decide +kernel)

/-- **C07, what holds** (`_partial`: the front must not be set behind the end of the input).  `size()` is the number of
events once an event at or behind the end was asked for, and its initial value (`none`: the maximal value) before. -/
theorem lazy_size_partial (w : TWord K) (ops : List LazyOp) (h : discarded ops ≤ w.length) :
    ((∃ n, LazyOp.fetch n ∈ ops ∧ w.length ≤ n) → (lazyAfter w ops).size = some w.length) ∧
    ((¬ ∃ n, LazyOp.fetch n ∈ ops ∧ w.length ≤ n) → (lazyAfter w ops).size = none) := by
  obtain ⟨h1, h2, -⟩ := size_many (lazy_mk0 w) (Or.inl rfl) ops (Nat.zero_le _) h
  exact ⟨h1, h2⟩

/-- Both cases occur. -/
example : let w : TWord ℚ := [(97, 1), (98, 2), (99, 3)]
    (lazyAfter w [.fetch 1, .setFront 2]).size = none ∧
      (lazyAfter w [.fetch 1, .setFront 2, .fetch 3]).size = some 3 ∧
      (lazyAfter w [.setFront 3, .fetch 5]).size = some 3 := by decide +kernel

end Verif.Props
