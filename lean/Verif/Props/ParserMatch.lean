import Verif.Props.Parser
import Verif.Props.TRE

/-!
# From the text of a pattern to the reported matches (C74)
-/

namespace Verif.Props

variable {K : Type} [Field K] [LinearOrder K] [IsStrictOrderedRing K] [FloorRing K]

theorem plain_of_parts : ∀ (e : TRE K), e.LettersIn (· ≠ epsilon) → e.Intervals (fun I => TRE.IsInt I.lower ∧ TRE.IsInt I.upper) → e.clocks ≤ 256 → e.Plain
  | .atom _, h, _, _ => h
  | .epsilon, _, _, _ => trivial
  | .plus e, h1, h2, h3 => plain_of_parts e h1 h2 h3
  | .concat e f, h1, h2, h3 => ⟨plain_of_parts e h1.1 h2.1 (le_trans (le_max_left _ _) h3), plain_of_parts f h1.2 h2.2 (le_trans (le_max_right _ _) h3)⟩
  | .disj e f, h1, h2, h3 => ⟨plain_of_parts e h1.1 h2.1 (le_trans (le_max_left _ _) h3), plain_of_parts f h1.2 h2.2 (le_trans (le_max_right _ _) h3)⟩
  | .conj e f, h1, h2, h3 => ⟨plain_of_parts e h1.1 h2.1 (le_trans (Nat.le_add_right _ _) h3), plain_of_parts f h1.2 h2.2 (le_trans (Nat.le_add_left _ _) h3), h3⟩
  | .within e _, h1, h2, h3 => ⟨plain_of_parts e h1 h2.1 (le_trans (Nat.le_succ _) h3), h3, h2.2⟩

theorem letter_ne_epsilon {c : Char} (h : LexSt.isLetter c = true) : c.toNat ≠ epsilon := by
  intro h'
  have : c = Char.ofNat epsilon := by rw [← h', Char.ofNat_toNat]
  subst this
  revert h
  decide

/-- **C74**: what the parser guarantees of the expressions it returns: if the text has no `>` and no more than 256 clocks are needed, then the
expression is as the translation assumes; without `*`, it does not use the empty word. -/
theorem parse_plain (s : List Char) (e : TRE K) (h : parsePattern s = .ok e) :
    ('>' ∉ s → e.clocks ≤ 256 → e.Plain) ∧ ('*' ∉ s → e.EpsilonFree) := by
  obtain ⟨us, tail, e', hc, ht⟩ := parseToks_sound h
  have hq : ∀ t ∈ us, TokOf (· ∈ s) t := pattern_of _ (fun _ hc => hc) e'
  refine ⟨fun h1 h2 => plain_of_parts e ?_ ?_ h2, fun h1 => hc.expr.keeps (keeps_epsilonFree h1) hq⟩
  · exact hc.expr.keeps (keeps_letters fun c hc => letter_ne_epsilon hc.1) hq
  · refine hc.expr.keeps (keeps_intervals fun us I _ hI hu => ?_) hq
    have isInt : ∀ (n : Nat) (b : Bool), TRE.IsInt (Bnd.fin (n : K) b) := fun n b => ⟨n, b, by simp⟩
    induction hI with
    | oo => exact ⟨isInt _ _, isInt _ _⟩
    | co => exact ⟨isInt _ _, isInt _ _⟩
    | oc => exact ⟨isInt _ _, isInt _ _⟩
    | cc => exact ⟨isInt _ _, isInt _ _⟩
    | lt => exact ⟨by simpa using isInt 0 true, isInt _ _⟩
    | le => exact ⟨by simpa using isInt 0 true, isInt _ _⟩
    | eq => exact ⟨isInt _ _, isInt _ _⟩
    | ge => exact absurd (hu .ge List.mem_cons_self) h1
    | gt => exact absurd (hu .gt List.mem_cons_self) h1
    | paren h ih => exact ih fun t ht => hu t (by simp [ht])

/-- **C74** (`_partial`: for texts without `*` and `>`, and at most 256 clocks): for a pattern given as a text, in event mode: the translation succeeds,
and every pair `(t, t')` of a reported zone is such that the events strictly between `t` and `t'`, with times counted from `t`, followed by
`$`, match the expression which the grammar gives for the text. -/
theorem pattern_match_sound_partial (s : List Char) (e : TRE K) (hp : parsePattern s = .ok e) (h1 : '*' ∉ s) (h2 : '>' ∉ s) (h3 : e.clocks ≤ 256)
    (alloc : Nat → Nat) (hinj : Function.Injective alloc) :
    (∃ us tail, lexFrom .none (s.takeWhile (· ≠ '\x00')) = us ++ tail ∧ Chain us e ∧ EndEnd tail) ∧
    ∃ A, e.eventTA alloc = .ok A ∧ ∀ (w : TWord K), LogOk w → ∀ (addr : Nat → Nat) (fuel steps : Nat), w.length < steps → ∀ zs : List (Zone K),
      (monaaDollar addr fuel steps (vectorCont K) A w = .ok zs ∨ monaaDollar addr fuel steps (lazyCont K) A (Lazy.mk0 w) = .ok zs) →
      ∀ z ∈ zs, ∀ t t', z.Has t t' → 0 ≤ t ∧ t ≤ t' ∧ e.Lang ((between w t t').map (fun e => (e.1, e.2 - t)) ++ [(dollar, t' - t)]) := by
  obtain ⟨k1, k2⟩ := parse_plain s e hp
  have hpl := k1 h2 h3
  obtain ⟨A, hA, -⟩ := eventTA_final_partial alloc hinj e hpl
  exact ⟨parseToks_sound hp, A, hA, fun w hw addr fuel steps hs zs h =>
    expression_match_sound_partial alloc hinj e hpl (k2 h1).regular A hA w hw addr fuel steps hs zs h⟩

/-- The pattern `(a+)$`; the call of the matcher is shown beside `expression_match_sound_partial`. -/
example : parsePattern (K := ℚ) "(a+)$".toList = .ok closed ∧ '*' ∉ "(a+)$".toList ∧ '>' ∉ "(a+)$".toList ∧ closed.clocks ≤ 256 := ⟨rfl, by decide, by decide, by decide⟩

end Verif.Props
