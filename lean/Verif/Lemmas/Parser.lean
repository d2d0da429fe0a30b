import Verif.Spec.Parser
import Verif.Spec.TRE
import Mathlib.Data.List.Chain

/-!
# Lemmas on the parser
-/

set_option linter.unusedSectionVars false

namespace Verif

variable {K : Type} [Field K]

/-! ## Intervals -/

theorem parseInterval_complete {ts : List Tok} {I : Interval K} (h : IntervalG ts I) : ∀ r, parseInterval (ts ++ r) = .ok (I, r) := by
  induction h with
  | oo => intro r; rfl
  | co => intro r; rfl
  | oc => intro r; rfl
  | cc => intro r; rfl
  | lt => intro r; rfl
  | le => intro r; rfl
  | eq => intro r; rfl
  | ge => intro r; rfl
  | gt => intro r; rfl
  | @paren ts I h ih =>
    intro r
    have h1 : parseInterval (ts ++ (.rp :: r)) = .ok (I, .rp :: r) := ih _
    have h2 : ∀ a l, ts ≠ .int a :: l := by
      intro a l e
      subst e
      cases h
    simp only [List.cons_append, List.append_assoc, List.nil_append]
    match ts, h2, h1 with
    | [], _, h1 => cases h1
    | .int a :: l, h2, _ => exact absurd rfl (h2 a l)
    | .bar :: l, _, h1 | .amp :: l, _, h1 | .star :: l, _, h1 | .plus :: l, _, h1 | .within :: l, _, h1 | .rp :: l, _, h1
    | .rsq :: l, _, h1 | .comma :: l, _, h1 | .atom _ :: l, _, h1 | .stop :: l, _, h1 | .bad _ :: l, _, h1 => cases h1
    | .lp :: l, _, h1 | .lsq :: l, _, h1 | .lt :: l, _, h1 | .le :: l, _, h1 | .eq :: l, _, h1 | .ge :: l, _, h1 | .gt :: l, _, h1 =>
      rw [List.cons_append] at h1 ⊢
      rw [parseInterval]
      · rw [h1]
      · intro a r' e; cases e

theorem expectInt_ok {ts r : List Tok} {n : Nat} (h : expectInt ts = .ok (n, r)) : ts = .int n :: r := by
  unfold expectInt at h
  split at h
  · cases h; rfl
  · cases h

theorem parseUpper_ok {low : Bnd K} {ts r : List Tok} {I : Interval K} (h : parseUpper low ts = .ok (I, r)) :
    ∃ b : Nat, (I = ⟨low, .fin b false⟩ ∧ ts = .comma :: .int b :: .rp :: r) ∨ (I = ⟨low, .fin b true⟩ ∧ ts = .comma :: .int b :: .rsq :: r) := by
  unfold parseUpper at h
  split at h
  · split at h
    · cases h
    · next b r' hb =>
      rw [expectInt_ok hb]
      split at h
      · cases h; exact ⟨b, .inl ⟨rfl, rfl⟩⟩
      · cases h; exact ⟨b, .inr ⟨rfl, rfl⟩⟩
      · cases h
  · cases h

theorem map_ok {ts r : List Tok} {I : Interval K} {f : Nat × List Tok → Interval K × List Tok} (h : (expectInt ts).map f = .ok (I, r)) :
    ∃ n r', ts = .int n :: r' ∧ f (n, r') = (I, r) := by
  cases he : expectInt ts with
  | error x => rw [he] at h; cases h
  | ok p =>
    obtain ⟨n, r'⟩ := p
    rw [he] at h
    exact ⟨n, r', expectInt_ok he, by simpa [Except.map] using h⟩

theorem parseInterval_sound : ∀ (n : Nat) (ts r : List Tok) (I : Interval K), ts.length ≤ n → parseInterval ts = .ok (I, r) →
    ∃ us, ts = us ++ r ∧ IntervalG us I := by
  intro n
  induction n with
  | zero =>
    intro ts r I hn h
    rw [List.length_eq_zero_iff.1 (Nat.le_zero.1 hn)] at h
    cases h
  | succ n ih =>
    intro ts r I hn h
    unfold parseInterval at h
    split at h
    · obtain ⟨b, ⟨rfl, rfl⟩ | ⟨rfl, rfl⟩⟩ := parseUpper_ok h
      · exact ⟨_, rfl, .oo⟩
      · exact ⟨_, rfl, .oc⟩
    · next r' _ =>
      split at h
      · cases h
      · next J r2 hJ =>
        split at h
        · cases h
          obtain ⟨us, e, hu⟩ := ih r' _ _ (by simpa using hn) hJ
          exact ⟨.lp :: (us ++ [.rp]), by simp [e], .paren hu⟩
        · cases h
    · split at h
      · cases h
      · next a r' ha =>
        rw [expectInt_ok ha]
        obtain ⟨b, ⟨rfl, rfl⟩ | ⟨rfl, rfl⟩⟩ := parseUpper_ok h
        · exact ⟨_, rfl, .co⟩
        · exact ⟨_, rfl, .cc⟩
    · obtain ⟨m, r', rfl, e⟩ := map_ok h; cases e; exact ⟨_, rfl, .lt⟩
    · obtain ⟨m, r', rfl, e⟩ := map_ok h; cases e; exact ⟨_, rfl, .le⟩
    · obtain ⟨m, r', rfl, e⟩ := map_ok h; cases e; exact ⟨_, rfl, .eq⟩
    · obtain ⟨m, r', rfl, e⟩ := map_ok h; cases e; exact ⟨_, rfl, .ge⟩
    · obtain ⟨m, r', rfl, e⟩ := map_ok h; cases e; exact ⟨_, rfl, .gt⟩
    · cases h

/-! ## Completeness of the machine -/

/-- The result of the machine, with enough fuel. -/
def Runs (cur : Option (TRE K)) (st : List (Item K)) (ts : List Tok) (res : Except ParseErr (TRE K)) : Prop :=
  ∀ fuel, ts.length < fuel → parseLoop fuel cur st ts = res

/-- The next token cannot be shifted behind an operand, except to close it. -/
def Closes : List Tok → Prop
  | [] => True
  | .rp :: _ => True
  | .stop :: _ => True
  | _ => False

theorem Operand.head {ts : List Tok} {e : TRE K} (h : Operand ts e) : ∃ t r, ts = t :: r ∧ (t = .lp ∨ ∃ c, t = .atom c) := by
  match h with
  | .atom => exact ⟨_, _, rfl, .inr ⟨_, rfl⟩⟩
  | .paren _ => exact ⟨_, _, rfl, .inl rfl⟩
  | .plus h => obtain ⟨t, r, e, ht⟩ := h.head; exact ⟨t, _, by rw [e]; rfl, ht⟩
  | .star h => obtain ⟨t, r, e, ht⟩ := h.head; exact ⟨t, _, by rw [e]; rfl, ht⟩
  | .within h _ => obtain ⟨t, r, e, ht⟩ := h.head; exact ⟨t, _, by rw [e]; rfl, ht⟩

theorem Chain.head {ts : List Tok} {e : TRE K} (h : Chain ts e) : ∃ t r, ts = t :: r ∧ (t = .lp ∨ ∃ c, t = .atom c) := by
  cases h with
  | one h => exact h.head
  | concat h _ => obtain ⟨t, r, e, ht⟩ := h.head; exact ⟨t, _, by rw [e]; rfl, ht⟩
  | disj h _ => obtain ⟨t, r, e, ht⟩ := h.head; exact ⟨t, _, by rw [e]; rfl, ht⟩
  | conj h _ => obtain ⟨t, r, e, ht⟩ := h.head; exact ⟨t, _, by rw [e]; rfl, ht⟩

/-- An operand next to another one. -/
theorem runs_cat {e : TRE K} {st : List (Item K)} {ts : List Tok} {res} (hh : ∃ t r, ts = t :: r ∧ (t = .lp ∨ ∃ c, t = .atom c))
    (h : Runs none (.cat e :: st) ts res) : Runs (some e) st ts res := by
  obtain ⟨t, r, rfl, ht⟩ := hh
  intro fuel hf
  have := h fuel hf
  cases fuel with
  | zero => cases hf
  | succ fuel =>
    rcases ht with rfl | ⟨c, rfl⟩
    · simpa only [parseLoop] using this
    · simpa only [parseLoop] using this

theorem runs_succ {cur cur' : Option (TRE K)} {st st' : List (Item K)} {t : Tok} {ts : List Tok} {res}
    (hs : ∀ fuel, parseLoop (fuel + 1) cur st (t :: ts) = parseLoop fuel cur' st' ts) (h : Runs cur' st' ts res) : Runs cur st (t :: ts) res := by
  intro fuel hf
  cases fuel with
  | zero => cases hf
  | succ fuel => rw [hs]; exact h fuel (by simpa using hf)

mutual

theorem Operand.runs {ts : List Tok} {e : TRE K} (h : Operand ts e) (st : List (Item K)) (rest : List Tok) (res) (hr : Runs (some e) st rest res) :
    Runs none st (ts ++ rest) res := by
  match h with
  | .atom => exact runs_succ (fun _ => by simp only [parseLoop]) hr
  | .paren h =>
    rw [List.cons_append, List.append_assoc]
    refine runs_succ (cur' := none) (st' := .lp :: st) (fun _ => by simp only [parseLoop]) ?_
    refine h.runs _ _ _ trivial fun cur st' hc => ?_
    exact runs_succ (fun fuel => by simp only [parseLoop, hc, collapse]) hr
  | .plus h =>
    rw [List.append_assoc]
    exact h.runs _ _ _ (runs_succ (fun _ => by simp only [parseLoop]) hr)
  | .star h =>
    rw [List.append_assoc]
    exact h.runs _ _ _ (runs_succ (fun _ => by simp only [parseLoop]) hr)
  | .within (us := us) h hI =>
    rw [List.append_assoc]
    refine h.runs _ _ _ ?_
    intro fuel hf
    cases fuel with
    | zero => cases hf
    | succ fuel =>
      simp only [List.cons_append, parseLoop, parseInterval_complete hI]
      refine hr fuel ?_
      simp only [List.cons_append, List.length_cons, List.length_append] at hf
      omega

theorem Chain.runs {ts : List Tok} {e : TRE K} (h : Chain ts e) (st : List (Item K)) (rest : List Tok) (res) (hc : Closes rest)
    (hr : ∀ cur st', collapse cur st' = collapse e st → Runs (some cur) st' rest res) : Runs none st (ts ++ rest) res := by
  match h with
  | .one h => exact h.runs _ _ _ (hr _ _ rfl)
  | .concat h h' =>
    rw [List.append_assoc]
    refine h.runs _ _ _ (runs_cat ?_ (h'.runs _ _ _ hc fun cur st' e => hr cur st' (by rw [e]; rfl)))
    obtain ⟨t, r, e, ht⟩ := h'.head
    exact ⟨t, r ++ rest, by rw [e]; rfl, ht⟩
  | .disj (e := e1) h h' =>
    rw [List.append_assoc]
    exact h.runs _ _ _ (runs_succ (cur' := none) (st' := .bar e1 :: st) (fun _ => by simp only [List.append_eq, parseLoop]) (h'.runs _ _ _ hc fun cur st' e => hr cur st' (by rw [e]; rfl)))
  | .conj (e := e1) h h' =>
    rw [List.append_assoc]
    exact h.runs _ _ _ (runs_succ (cur' := none) (st' := .amp e1 :: st) (fun _ => by simp only [List.append_eq, parseLoop]) (h'.runs _ _ _ hc fun cur st' e => hr cur st' (by rw [e]; rfl)))

end

theorem parseToks_complete {ts tail : List Tok} {e : TRE K} (h : Chain ts e) (ht : EndEnd tail) : parseToks (ts ++ tail) = .ok e := by
  have key : Runs none [] (ts ++ tail) (.ok e) := by
    refine h.runs _ _ _ ?_ fun cur st' hc => ?_
    · rcases ht with rfl | rfl | ⟨r, rfl⟩ <;> trivial
    · intro fuel hf
      cases fuel with
      | zero => cases hf
      | succ fuel => rcases ht with rfl | rfl | ⟨r, rfl⟩ <;> simp [parseLoop, hc, collapse, parseEnd]
  exact key _ (Nat.lt_succ_self _)

/-! ## Soundness of the machine -/

/-- The tokens from which the stack was made. -/
inductive Stk : List (Item K) → List Tok → Prop
  | nil : Stk [] []
  | lp {st ts} (h : Stk st ts) : Stk (.lp :: st) (ts ++ [.lp])
  | cat {st ts us e} (h : Stk st ts) (h' : Operand us e) : Stk (.cat e :: st) (ts ++ us)
  | bar {st ts us e} (h : Stk st ts) (h' : Operand us e) : Stk (.bar e :: st) (ts ++ (us ++ [.bar]))
  | amp {st ts us e} (h : Stk st ts) (h' : Operand us e) : Stk (.amp e :: st) (ts ++ (us ++ [.amp]))

theorem collapse_sound {st : List (Item K)} {ts : List Tok} (h : Stk st ts) : ∀ (us : List Tok) (e : TRE K), Chain us e →
    ∃ ts' us', ts ++ us = ts' ++ us' ∧ Stk (collapse e st).2 ts' ∧ Chain us' (collapse e st).1 ∧
      ((collapse e st).2 = [] ∨ ∃ st', (collapse e st).2 = .lp :: st') := by
  induction h with
  | nil => intro us e hu; exact ⟨[], us, rfl, .nil, hu, .inl rfl⟩
  | lp h _ => intro us e hu; exact ⟨_, us, rfl, .lp h, hu, .inr ⟨_, rfl⟩⟩
  | cat h h' ih =>
    intro us e hu
    obtain ⟨a, b, k1, k2⟩ := ih _ _ (.concat h' hu)
    exact ⟨a, b, by rw [← k1, List.append_assoc], k2⟩
  | bar h h' ih =>
    intro us e hu
    obtain ⟨a, b, k1, k2⟩ := ih _ _ (.disj h' hu)
    exact ⟨a, b, by rw [← k1]; simp, k2⟩
  | amp h h' ih =>
    intro us e hu
    obtain ⟨a, b, k1, k2⟩ := ih _ _ (.conj h' hu)
    exact ⟨a, b, by rw [← k1]; simp, k2⟩

/-- The tokens of the expression on top of the stack. -/
def Cur : Option (TRE K) → List Tok → Prop
  | none, us => us = []
  | some e, us => Operand us e

theorem parseEnd_ok {e e' : TRE K} {ts : List Tok} (h : parseEnd e ts = .ok e') : e' = e ∧ (ts = [] ∨ ∃ r, ts = .stop :: r) := by
  unfold parseEnd at h
  split at h
  · cases h; exact ⟨rfl, .inl rfl⟩
  · cases h; exact ⟨rfl, .inr ⟨_, rfl⟩⟩
  · cases h

theorem stk_nil {ts : List Tok} (h : Stk ([] : List (Item K)) ts) : ts = [] := by cases h; rfl

theorem parseLoop_sound : ∀ (fuel : Nat) (cur : Option (TRE K)) (st : List (Item K)) (ts : List Tok) (e : TRE K), parseLoop fuel cur st ts = .ok e →
    ∀ ps us, Stk st ps → Cur cur us → ∃ vs tail, ps ++ (us ++ ts) = vs ++ tail ∧ Chain vs e ∧ EndEnd tail := by
  intro fuel
  induction fuel with
  | zero => intro cur st ts e h; cases h
  | succ fuel ih =>
    intro cur st ts e h ps us hs hc
    cases cur with
    | none =>
      cases hc
      simp only [parseLoop] at h
      split at h
      · next c r =>
        obtain ⟨vs, tail, k1, k2⟩ := ih _ _ _ _ h ps [.atom c] hs .atom
        exact ⟨vs, tail, by rw [← k1]; rfl, k2⟩
      · next r =>
        obtain ⟨vs, tail, k1, k2⟩ := ih _ _ _ _ h _ [] (.lp hs) rfl
        exact ⟨vs, tail, by rw [← k1]; simp, k2⟩
      · cases h
    | some e0 =>
      simp only [parseLoop] at h
      split at h
      · obtain ⟨vs, tail, k1, k2⟩ := ih _ _ _ _ h ps _ hs (Operand.plus hc)
        exact ⟨vs, tail, by rw [← k1]; simp, k2⟩
      · obtain ⟨vs, tail, k1, k2⟩ := ih _ _ _ _ h ps _ hs (Operand.star hc)
        exact ⟨vs, tail, by rw [← k1]; simp, k2⟩
      · split at h
        · cases h
        · next r _ I r' hI =>
          obtain ⟨ws, rfl, hw⟩ := parseInterval_sound _ _ _ _ (le_refl _) hI
          obtain ⟨vs, tail, k1, k2⟩ := ih _ _ _ _ h ps _ hs (Operand.within hc hw)
          exact ⟨vs, tail, by rw [← k1]; simp, k2⟩
      · next c r =>
        obtain ⟨vs, tail, k1, k2⟩ := ih _ _ _ _ h _ [.atom c] (.cat hs hc) .atom
        exact ⟨vs, tail, by rw [← k1]; simp, k2⟩
      · obtain ⟨vs, tail, k1, k2⟩ := ih _ _ _ _ h _ [] (.lp (.cat hs hc)) rfl
        exact ⟨vs, tail, by rw [← k1]; simp, k2⟩
      · obtain ⟨vs, tail, k1, k2⟩ := ih _ _ _ _ h _ [] (.bar hs hc) rfl
        exact ⟨vs, tail, by rw [← k1]; simp, k2⟩
      · obtain ⟨vs, tail, k1, k2⟩ := ih _ _ _ _ h _ [] (.amp hs hc) rfl
        exact ⟨vs, tail, by rw [← k1]; simp, k2⟩
      · obtain ⟨a, b, j1, j2, j3, -⟩ := collapse_sound hs _ _ (.one hc)
        split at h
        · next r e1 st1 he =>
          rw [he] at j2 j3
          cases j2 with
          | @lp _ a' j2 =>
            obtain ⟨vs, tail, k1, k2⟩ := ih _ _ _ _ h _ _ j2 (Operand.paren j3)
            refine ⟨vs, tail, ?_, k2⟩
            rw [← k1, ← List.append_assoc, j1]
            simp
        · cases h
      · obtain ⟨a, b, j1, j2, j3, -⟩ := collapse_sound hs _ _ (.one hc)
        split at h
        · next r _ e1 he =>
          rw [he] at j2 j3
          rw [stk_nil j2] at j1
          obtain ⟨rfl, hr⟩ := parseEnd_ok h
          refine ⟨b, .stop :: r, by rw [← List.append_assoc, j1]; rfl, j3, ?_⟩
          rcases hr with rfl | ⟨r, rfl⟩
          · exact .inr (.inl rfl)
          · exact .inr (.inr ⟨r, rfl⟩)
        · cases h
      · obtain ⟨a, b, j1, j2, j3, -⟩ := collapse_sound hs _ _ (.one hc)
        split at h
        · next e1 he =>
          rw [he] at j2 j3
          rw [stk_nil j2] at j1
          obtain ⟨rfl, -⟩ := parseEnd_ok h
          exact ⟨b, [], by rw [← List.append_assoc, j1]; rfl, j3, .inl rfl⟩
        · cases h
      · cases h

theorem parseToks_sound {ts : List Tok} {e : TRE K} (h : parseToks ts = .ok e) : ∃ vs tail, ts = vs ++ tail ∧ Chain vs e ∧ EndEnd tail := by
  obtain ⟨vs, tail, k1, k2⟩ := parseLoop_sound _ _ _ _ _ h [] [] .nil rfl
  exact ⟨vs, tail, by rw [← k1]; rfl, k2⟩

/-! ## The grammar -/

mutual

theorem Operand.expr {ts : List Tok} {e : TRE K} (h : Operand ts e) : ExprG ts e := by
  match h with
  | .atom => exact .atom
  | .paren h => exact .paren h.expr
  | .plus h => exact .plus h.expr
  | .star h => exact .star h.expr
  | .within h hI => exact .within h.expr hI

theorem Chain.expr {ts : List Tok} {e : TRE K} (h : Chain ts e) : ExprG ts e := by
  match h with
  | .one h => exact h.expr
  | .concat h h' => exact .concat h.expr h'.expr
  | .disj h h' => exact .disj h.expr h'.expr
  | .conj h h' => exact .conj h.expr h'.expr

end

theorem Chain.extend {tail : List Tok} (ht : ∀ (ts : List Tok) (e : TRE K), Operand ts e → ∃ e' : TRE K, Chain (ts ++ tail) e') {ts : List Tok} {e : TRE K}
    (h : Chain ts e) : ∃ e' : TRE K, Chain (ts ++ tail) e' := by
  match h with
  | .one h => exact ht _ _ h
  | .concat h h' =>
    obtain ⟨f, hf⟩ := h'.extend ht
    exact ⟨_, by rw [List.append_assoc]; exact .concat h hf⟩
  | .disj h h' =>
    obtain ⟨f, hf⟩ := h'.extend ht
    exact ⟨_, by rw [List.append_assoc]; exact .disj h hf⟩
  | .conj h h' =>
    obtain ⟨f, hf⟩ := h'.extend ht
    exact ⟨_, by rw [List.append_assoc]; exact .conj h hf⟩

theorem ExprG.chain {ts : List Tok} {e : TRE K} (h : ExprG ts e) : ∃ e' : TRE K, Chain ts e' := by
  induction h with
  | atom => exact ⟨_, .one .atom⟩
  | paren _ ih => obtain ⟨e, ih⟩ := ih; exact ⟨_, .one (.paren ih)⟩
  | plus _ ih => obtain ⟨e, ih⟩ := ih; exact ih.extend fun ts e h => ⟨_, .one (.plus h)⟩
  | star _ ih => obtain ⟨e, ih⟩ := ih; exact ih.extend fun ts e h => ⟨_, .one (.star h)⟩
  | concat _ _ ih ih' =>
    obtain ⟨e, ih⟩ := ih
    obtain ⟨f, ih'⟩ := ih'
    exact ih.extend fun ts e h => ⟨_, .concat h ih'⟩
  | disj _ _ ih ih' =>
    obtain ⟨e, ih⟩ := ih
    obtain ⟨f, ih'⟩ := ih'
    exact ih.extend fun ts e h => ⟨_, .disj h ih'⟩
  | conj _ _ ih ih' =>
    obtain ⟨e, ih⟩ := ih
    obtain ⟨f, ih'⟩ := ih'
    exact ih.extend fun ts e h => ⟨_, .conj h ih'⟩
  | within _ h' ih =>
    obtain ⟨e, ih⟩ := ih
    exact ih.extend fun ts e h => ⟨_, .one (.within h h')⟩

/-! ## Failures -/

theorem unexpected_scan {ts : List Tok} {x : Err} (h : unexpected ts = .scan x) : .bad x ∈ ts := by
  unfold unexpected at h
  split at h
  · cases h; exact List.mem_cons_self
  · cases h

theorem expectInt_err {ts : List Tok} {x : Err} (h : expectInt ts = .error (.scan x)) : .bad x ∈ ts := by
  unfold expectInt at h
  split at h
  · cases h
  · exact unexpected_scan (by simpa using h)

theorem parseUpper_err {low : Bnd K} {ts : List Tok} {x : Err} (h : parseUpper low ts = .error (.scan x)) : .bad x ∈ ts := by
  unfold parseUpper at h
  split at h
  · split at h
    · next hb => cases h; exact List.mem_cons_of_mem _ (expectInt_err hb)
    · next b r' hb =>
      rw [expectInt_ok hb]
      split at h
      · cases h
      · cases h
      · have := unexpected_scan (by simpa using h)
        simp [this]
  · exact unexpected_scan (by simpa using h)

theorem map_err {α β : Type} {ts : List Tok} {x : Err} {f : Nat × List Tok → α} (h : (expectInt ts).map f = .error (.scan x)) : .bad x ∈ ts := by
  cases he : expectInt ts with
  | ok p => rw [he] at h; cases h
  | error y => rw [he] at h; simp only [Except.map] at h; cases h; exact expectInt_err he

theorem parseInterval_err : ∀ (n : Nat) (ts : List Tok) (x : Err), ts.length ≤ n → parseInterval (K := K) ts = .error (.scan x) → .bad x ∈ ts := by
  intro n
  induction n with
  | zero =>
    intro ts x hn h
    rw [List.length_eq_zero_iff.1 (Nat.le_zero.1 hn)] at h
    cases h
  | succ n ih =>
    intro ts x hn h
    unfold parseInterval at h
    split at h
    · have := parseUpper_err h; simp [this]
    · next r' _ =>
      split at h
      · next hI => cases h; exact List.mem_cons_of_mem _ (ih _ _ (by simpa using hn) hI)
      · next J r2 hJ =>
        obtain ⟨us, e, -⟩ := parseInterval_sound _ _ _ _ (le_refl _) hJ
        split at h
        · cases h
        · have := unexpected_scan (by simpa using h)
          simp [e, this]
    · split at h
      · next ha => cases h; exact List.mem_cons_of_mem _ (expectInt_err ha)
      · next a r' ha =>
        rw [expectInt_ok ha]
        have := parseUpper_err h
        simp [this]
    · exact List.mem_cons_of_mem _ (map_err (β := K) h)
    · exact List.mem_cons_of_mem _ (map_err (β := K) h)
    · exact List.mem_cons_of_mem _ (map_err (β := K) h)
    · exact List.mem_cons_of_mem _ (map_err (β := K) h)
    · exact List.mem_cons_of_mem _ (map_err (β := K) h)
    · exact unexpected_scan (by simpa using h)

theorem parseEnd_err {e : TRE K} {ts : List Tok} {x : Err} (h : parseEnd e ts = .error (.scan x)) : .bad x ∈ ts := by
  unfold parseEnd at h
  split at h
  · cases h
  · cases h
  · exact unexpected_scan (by simpa using h)

theorem parseLoop_err : ∀ (fuel : Nat) (cur : Option (TRE K)) (st : List (Item K)) (ts : List Tok) (x : Err), ts.length < fuel →
    parseLoop fuel cur st ts = .error (.scan x) → .bad x ∈ ts := by
  intro fuel
  induction fuel with
  | zero => intro cur st ts x hl; cases hl
  | succ fuel ih =>
    intro cur st ts x hl h
    cases cur with
    | none =>
      simp only [parseLoop] at h
      split at h
      · exact List.mem_cons_of_mem _ (ih _ _ _ _ (by simpa using hl) h)
      · exact List.mem_cons_of_mem _ (ih _ _ _ _ (by simpa using hl) h)
      · exact unexpected_scan (by simpa using h)
    | some e0 =>
      simp only [parseLoop] at h
      split at h
      · exact List.mem_cons_of_mem _ (ih _ _ _ _ (by simpa using hl) h)
      · exact List.mem_cons_of_mem _ (ih _ _ _ _ (by simpa using hl) h)
      · split at h
        · next hI => cases h; exact List.mem_cons_of_mem _ (parseInterval_err _ _ _ (le_refl _) hI)
        · next r _ I r' hI =>
          obtain ⟨ws, rfl, hw⟩ := parseInterval_sound _ _ _ _ (le_refl _) hI
          have := ih _ _ _ _ (by simp only [List.length_cons, List.length_append] at hl; omega) h
          simp [this]
      · exact List.mem_cons_of_mem _ (ih _ _ _ _ (by simpa using hl) h)
      · exact List.mem_cons_of_mem _ (ih _ _ _ _ (by simpa using hl) h)
      · exact List.mem_cons_of_mem _ (ih _ _ _ _ (by simpa using hl) h)
      · exact List.mem_cons_of_mem _ (ih _ _ _ _ (by simpa using hl) h)
      · split at h
        · exact List.mem_cons_of_mem _ (ih _ _ _ _ (by simpa using hl) h)
        · cases h
      · split at h
        · exact List.mem_cons_of_mem _ (parseEnd_err h)
        · cases h
      · split at h
        · exact parseEnd_err h
        · cases h
      · exact unexpected_scan (by simpa using h)

/-! ## The scanner -/

/-- What is known of a token of a text with characters in `X`. -/
def TokOf (X : Char → Prop) : Tok → Prop
  | .atom c => LexSt.isLetter c = true ∧ X c
  | .star => X '*'
  | .plus => X '+'
  | .within => X '%'
  | .amp => X '&'
  | .gt => X '>'
  | .ge => X '>'
  | .int n => n ≤ 2147483647
  | .bad e => e = .exit 2 ∨ e = .ub
  | _ => True

theorem intTok_of (X : Char → Prop) (n : Nat) : TokOf X (LexSt.intTok n) := by
  unfold LexSt.intTok
  split
  · assumption
  · exact .inr rfl

/-- What is known of the tokens, and of what is read of the next one. -/
def LexOk (X : Char → Prop) (p : List Tok × LexSt) : Prop := (∀ t ∈ p.1, TokOf X t) ∧ (p.2 = .gt → X '>')

theorem lexOk_one {X : Char → Prop} {t : Tok} (h : TokOf X t) : LexOk X ([t], .none) :=
  ⟨fun _ ht => by rw [List.mem_singleton.1 ht]; exact h, fun h => by cases h⟩

theorem lexOk_nil {X : Char → Prop} {s : LexSt} (h : s = .gt → X '>') : LexOk X ([], s) := ⟨fun t ht => (by cases ht), h⟩

theorem lexOk_ite {X : Char → Prop} {P : Prop} [Decidable P] {a b : List Tok × LexSt} (h : P → LexOk X a) (h' : ¬ P → LexOk X b) :
    LexOk X (if P then a else b) := by
  by_cases hp : P
  · rw [if_pos hp]; exact h hp
  · rw [if_neg hp]; exact h' hp

theorem start_of (X : Char → Prop) (c : Char) (hc : X c) : LexOk X (LexSt.start c) := by
  unfold LexSt.start
  repeat' refine lexOk_ite (fun _ => ?_) fun _ => ?_
  all_goals try subst c
  all_goals first | refine lexOk_one ?_ | refine lexOk_nil fun h => ?_
  all_goals first | exact hc | exact trivial | (cases h; done) | exact ⟨by assumption, hc⟩ | exact .inl rfl

theorem next_of (X : Char → Prop) (s : LexSt) (hs : s = .gt → X '>') (c : Char) (hc : X c) :
    LexOk X (s.next c) := by
  obtain ⟨h1, h2⟩ := start_of X c hc
  cases s with
  | none => exact ⟨h1, h2⟩
  | num n =>
    simp only [LexSt.next]
    split
    · exact ⟨fun t ht => (by cases ht), fun h => by cases h⟩
    · refine ⟨fun t ht => ?_, h2⟩
      rcases List.mem_cons.1 ht with rfl | ht
      · exact intTok_of X n
      · exact h1 t ht
  | lt =>
    simp only [LexSt.next]
    split
    · exact ⟨fun t ht => (by rw [List.mem_singleton.1 ht]; exact trivial), fun h => by cases h⟩
    · refine ⟨fun t ht => ?_, h2⟩
      rcases List.mem_cons.1 ht with rfl | ht
      · exact trivial
      · exact h1 t ht
  | gt =>
    simp only [LexSt.next]
    split
    · exact ⟨fun t ht => (by rw [List.mem_singleton.1 ht]; exact hs rfl), fun h => by cases h⟩
    · refine ⟨fun t ht => ?_, h2⟩
      rcases List.mem_cons.1 ht with rfl | ht
      · exact hs rfl
      · exact h1 t ht

theorem lex_of (X : Char → Prop) : ∀ (r : List Char) (s : LexSt), (s = .gt → X '>') → (∀ c ∈ r, X c) → ∀ t ∈ lexFrom s r, TokOf X t := by
  intro r
  induction r with
  | nil =>
    intro s hs _ t ht
    cases s with
    | none => cases ht
    | num n => rw [List.mem_singleton.1 ht]; exact intTok_of X n
    | lt => rw [List.mem_singleton.1 ht]; exact trivial
    | gt => rw [List.mem_singleton.1 ht]; exact hs rfl
  | cons c r ih =>
    intro s hs hr t ht
    obtain ⟨h1, h2⟩ := next_of X s hs c (hr c List.mem_cons_self)
    rcases List.mem_append.1 ht with ht | ht
    · exact h1 t ht
    · exact ih _ h2 (fun c hc => hr c (List.mem_cons_of_mem _ hc)) t ht

theorem pattern_of (X : Char → Prop) {s : List Char} (hs : ∀ c ∈ s, X c) {us tail : List Tok}
    (h : lexFrom .none (s.takeWhile (· ≠ '\x00')) = us ++ tail) : ∀ t ∈ us, TokOf X t := by
  intro t ht
  refine lex_of X (s.takeWhile (· ≠ '\x00')) .none (fun h => by cases h) (fun c hc => hs c ((List.takeWhile_sublist _).subset hc)) t ?_
  rw [h]
  exact List.mem_append_left _ ht

theorem takeWhile_self {α : Type} {p : α → Bool} : ∀ {l : List α}, (∀ a ∈ l, p a = true) → l.takeWhile p = l
  | [], _ => rfl
  | a :: l, h => by
    rw [List.takeWhile_cons, if_pos (h a List.mem_cons_self), takeWhile_self fun b hb => h b (List.mem_cons_of_mem _ hb)]

/-! ## Blanks -/

/-- Is the character skipped by the scanner? -/
def isBlank (c : Char) : Bool := c = ' ' || c = '\t'

/-- Tokens which would be one token if there were no blank between them (a number which is too large is `bad`). -/
def Joins : Tok → Tok → Prop
  | .int _, .int _ => True
  | .int _, .bad _ => True
  | .lt, .eq => True
  | .gt, .eq => True
  | _, _ => False

/-- The token is a failure of the scanner. -/
def IsBad : Tok → Prop
  | .bad _ => True
  | _ => False

/-- Two sequences of tokens are equal up to a failure of the scanner or tokens which could be joined in the first one. -/
inductive TokAgrees : List Tok → List Tok → Prop
  | same {l} : TokAgrees l l
  | bad {t l l'} (h : IsBad t) : TokAgrees (t :: l) l'
  | joins {t u l l'} (h : Joins t u) : TokAgrees (t :: u :: l) l'
  | cons {t l l'} (h : TokAgrees l l') : TokAgrees (t :: l) (t :: l')

theorem TokAgrees.append {l l' : List Tok} (h : TokAgrees l l') : ∀ p, TokAgrees (p ++ l) (p ++ l')
  | [] => h
  | _ :: p => .cons (h.append p)

theorem start_blank {c : Char} (h : isBlank c = true) : LexSt.start c = ([], .none) := by
  simp only [isBlank, Bool.or_eq_true, decide_eq_true_eq] at h
  rcases h with rfl | rfl <;> rfl

theorem next_blank {c : Char} (h : isBlank c = true) (s : LexSt) : s.next c = (s.flush, .none) := by
  have hd : LexSt.isDigit c = false ∧ c ≠ '=' := by
    simp only [isBlank, Bool.or_eq_true, decide_eq_true_eq] at h
    rcases h with rfl | rfl <;> decide
  cases s <;> simp [LexSt.next, start_blank h, hd.1, hd.2, LexSt.flush]

theorem lex_num : ∀ (r : List Char) (n : Nat), ∃ m l, lexFrom (.num n) r = LexSt.intTok m :: l := by
  intro r
  induction r with
  | nil => intro n; exact ⟨n, [], rfl⟩
  | cons c r ih =>
    intro n
    simp only [lexFrom, LexSt.next]
    split
    · obtain ⟨m, l, h⟩ := ih (10 * n + (c.toNat - '0'.toNat))
      exact ⟨m, l, by simpa using h⟩
    · exact ⟨n, _, rfl⟩

theorem intTok_cases (n : Nat) : LexSt.intTok n = .int n ∨ IsBad (LexSt.intTok n) := by
  unfold LexSt.intTok
  split
  · exact .inl rfl
  · exact .inr trivial

theorem start_digit {c : Char} (h : LexSt.isDigit c = true) : LexSt.start c = ([], .num (c.toNat - '0'.toNat)) := by
  have hc : '0' ≤ c ∧ c ≤ '9' := by simpa [LexSt.isDigit] using h
  have h0 : 48 ≤ c.toNat ∧ c.toNat ≤ 57 := hc
  have hne : ∀ d : Char, (d.toNat < 48 ∨ 57 < d.toNat) → c ≠ d := by
    rintro d hd rfl
    omega
  have hl : LexSt.isLetter c = false := by
    have h1 : ¬ 'a' ≤ c := fun h => by have : 97 ≤ c.toNat := h; omega
    have h2 : ¬ 'A' ≤ c := fun h => by have : 65 ≤ c.toNat := h; omega
    simp [LexSt.isLetter, h1, h2, hne '$' (by decide)]
  simp [LexSt.start, h, hl, hne '|' (by decide), hne '&' (by decide), hne '*' (by decide), hne '+' (by decide), hne '%' (by decide),
    hne '(' (by decide), hne ')' (by decide), hne '[' (by decide), hne ']' (by decide), hne '<' (by decide), hne '>' (by decide),
    hne '=' (by decide), hne ',' (by decide)]

theorem lex_agrees : ∀ (r : List Char) (s : LexSt), TokAgrees (lexFrom s r) (lexFrom s (r.filter fun c => !isBlank c)) ∧
    TokAgrees (s.flush ++ lexFrom .none r) (lexFrom s (r.filter fun c => !isBlank c)) := by
  intro r
  induction r with
  | nil => intro s; exact ⟨.same, by simpa [lexFrom, LexSt.flush] using .same⟩
  | cons c r ih =>
    intro s
    by_cases hb : isBlank c = true
    · have hf : (c :: r).filter (fun c => !isBlank c) = r.filter fun c => !isBlank c := by simp [hb]
      rw [hf]
      refine ⟨?_, ?_⟩
      · rw [lexFrom, next_blank hb]; exact (ih s).2
      · rw [lexFrom, next_blank hb]; simpa [LexSt.flush] using (ih s).2
    · have hf : (c :: r).filter (fun c => !isBlank c) = c :: r.filter fun c => !isBlank c := by simp [hb]
      rw [hf]
      refine ⟨(ih _).1.append _, ?_⟩
      simp only [lexFrom]
      have step : s.next c = (s.flush ++ (LexSt.start c).1, (LexSt.start c).2) → TokAgrees (s.flush ++ ((LexSt.none.next c).1 ++ lexFrom (LexSt.none.next c).2 r))
          ((s.next c).1 ++ lexFrom (s.next c).2 (r.filter fun c => !isBlank c)) := by
        intro e
        rw [e, ← List.append_assoc]
        exact (ih _).1.append _
      cases s with
      | none => exact step rfl
      | num n =>
        by_cases hd : LexSt.isDigit c = true
        · simp only [LexSt.next, start_digit hd, LexSt.flush]
          obtain ⟨m, l, e⟩ := lex_num r (c.toNat - '0'.toNat)
          rw [e]
          rcases intTok_cases n with h1 | h1
          · rcases intTok_cases m with h2 | h2
            · rw [h1, h2]; exact .joins trivial
            · rw [h1]
              refine .joins ?_
              revert h2
              cases LexSt.intTok m <;> intro h2 <;> first | trivial | exact h2.elim
          · exact .bad h1
        · exact step (by simp [LexSt.next, hd, LexSt.flush])
      | lt =>
        by_cases hd : c = '='
        · subst hd; exact .joins (t := .lt) (u := .eq) trivial
        · exact step (by simp [LexSt.next, hd, LexSt.flush])
      | gt =>
        by_cases hd : c = '='
        · subst hd; exact .joins (t := .gt) (u := .eq) trivial
        · exact step (by simp [LexSt.next, hd, LexSt.flush])

/-- No failure of the scanner, and no tokens which could be joined. -/
def TokClean (ts : List Tok) : Prop := ts.IsChain (fun a b => ¬ Joins a b) ∧ ∀ t ∈ ts, ¬ IsBad t

/-- Not the second of two tokens which could be joined. -/
def NoSnd (t : Tok) : Prop := ∀ a, ¬ Joins a t

/-- Not the first of two tokens which could be joined. -/
def NoFst (t : Tok) : Prop := ∀ a, ¬ Joins t a

theorem noSnd_stop : NoSnd .stop := by intro a; cases a <;> exact id

theorem TokAgrees.accepted {A B : List Tok} (h : TokAgrees A B) : ∀ us tail, A = us ++ tail → TokClean us → EndEnd tail → ∃ tail', B = us ++ tail' ∧ EndEnd tail' := by
  induction h with
  | same => intro us tail e _ ht; exact ⟨tail, e, ht⟩
  | bad hb =>
    intro us tail e hu ht
    cases us with
    | nil =>
      rw [List.nil_append] at e
      subst e
      rcases ht with ht | ht | ⟨r, ht⟩ <;> cases ht <;> exact hb.elim
    | cons u us => cases e; exact absurd hb (hu.2 _ List.mem_cons_self)
  | joins hj =>
    intro us tail e hu ht
    match us, e, hu with
    | [], e, _ =>
      rw [List.nil_append] at e
      subst e
      rcases ht with ht | ht | ⟨r, ht⟩ <;> cases ht <;> exact hj.elim
    | [t], e, _ =>
      cases e
      rcases ht with ht | ht | ⟨r, ht⟩ <;> cases ht <;> exact (noSnd_stop _ hj).elim
    | t :: u :: us, e, hu =>
      cases e
      exact absurd hj (List.isChain_cons_cons.1 hu.1).1
  | @cons t l l' h ih =>
    intro us tail e hu ht
    cases us with
    | nil =>
      rw [List.nil_append] at e
      subst e
      rcases ht with ht | ht | ⟨r, ht⟩
      · cases ht
      · cases ht
        cases h
        exact ⟨_, rfl, .inr (.inl rfl)⟩
      · cases ht
        cases h with
        | same => exact ⟨_, rfl, .inr (.inr ⟨_, rfl⟩)⟩
        | bad h => exact h.elim
        | joins h => exact h.elim
        | cons h => exact ⟨_, rfl, .inr (.inr ⟨_, rfl⟩)⟩
    | cons u us =>
      cases e
      obtain ⟨tail', e, h'⟩ := ih us tail rfl ⟨hu.1.tail, fun t ht => hu.2 t (List.mem_cons_of_mem _ ht)⟩ ht
      exact ⟨tail', by rw [e]; rfl, h'⟩

theorem TokClean.append {ts us : List Tok} (h : TokClean ts) (h' : TokClean us) (hj : ∀ a ∈ ts.getLast?, ∀ b ∈ us.head?, ¬ Joins a b) : TokClean (ts ++ us) :=
  ⟨List.isChain_append.2 ⟨h.1, h'.1, hj⟩, fun t ht => (List.mem_append.1 ht).elim (h.2 t) (h'.2 t)⟩

theorem TokClean.snoc {ts : List Tok} (h : TokClean ts) {t : Tok} (hs : NoSnd t) (hb : ¬ IsBad t) : TokClean (ts ++ [t]) :=
  h.append ⟨List.IsChain.singleton _, by simpa using hb⟩ (by rintro a - b hb; cases hb; exact hs a)

theorem TokClean.cons {ts : List Tok} (h : TokClean ts) {t : Tok} (hs : NoFst t) (hb : ¬ IsBad t) : TokClean (t :: ts) :=
  TokClean.append (ts := [t]) ⟨List.IsChain.singleton _, by simpa using hb⟩ h (by rintro a ha b -; cases ha; exact hs b)

theorem IntervalG.clean {ts : List Tok} {I : Interval K} (h : IntervalG ts I) : TokClean ts := by
  induction h with
  | paren _ ih => exact (ih.snoc (by intro a; cases a <;> exact id) id).cons (by intro a; cases a <;> exact id) id
  | _ => exact ⟨by simp [Joins], by simp [IsBad]⟩

mutual

theorem Operand.clean {ts : List Tok} {e : TRE K} (h : Operand ts e) : TokClean ts := by
  match h with
  | .atom => exact ⟨by simp, by simp [IsBad]⟩
  | .paren h => exact (h.clean.snoc (by intro a; cases a <;> exact id) id).cons (by intro a; cases a <;> exact id) id
  | .plus h => exact h.clean.snoc (by intro a; cases a <;> exact id) id
  | .star h => exact h.clean.snoc (by intro a; cases a <;> exact id) id
  | .within h hI =>
    refine h.clean.append (hI.clean.cons (by intro a; cases a <;> exact id) id) ?_
    rintro a - b hb
    cases hb
    cases a <;> exact id

theorem Chain.clean {ts : List Tok} {e : TRE K} (h : Chain ts e) : TokClean ts := by
  match h with
  | .one h => exact h.clean
  | .concat h h' =>
    refine h.clean.append h'.clean ?_
    obtain ⟨t, r, rfl, ht⟩ := h'.head
    rintro a - b hb
    cases hb
    rcases ht with rfl | ⟨c, rfl⟩ <;> cases a <;> exact id
  | .disj h h' =>
    refine h.clean.append (h'.clean.cons (by intro a; cases a <;> exact id) id) ?_
    rintro a - b hb
    cases hb
    cases a <;> exact id
  | .conj h h' =>
    refine h.clean.append (h'.clean.cons (by intro a; cases a <;> exact id) id) ?_
    rintro a - b hb
    cases hb
    cases a <;> exact id

end

/-! ## Longest matches -/

theorem start_letter {c : Char} (h : LexSt.isLetter c = true) : LexSt.start c = ([.atom c], .none) := by
  have hne : ∀ d : Char, LexSt.isLetter d = false → c ≠ d := by
    rintro d hd rfl
    rw [h] at hd
    cases hd
  simp [LexSt.start, h, hne '|' (by decide), hne '&' (by decide), hne '*' (by decide), hne '+' (by decide), hne '%' (by decide),
    hne '(' (by decide), hne ')' (by decide), hne '[' (by decide), hne ']' (by decide), hne '<' (by decide), hne '>' (by decide),
    hne '=' (by decide), hne ',' (by decide)]

theorem isLetter_iff (c : Char) : LexSt.isLetter c = true ↔ ('a' ≤ c ∧ c ≤ 'z') ∨ ('A' ≤ c ∧ c ≤ 'Z') ∨ c = '$' := by
  simp [LexSt.isLetter, or_assoc]

theorem isDigit_iff (c : Char) : LexSt.isDigit c = true ↔ '0' ≤ c ∧ c ≤ '9' := by
  simp [LexSt.isDigit]

theorem isBlank_iff (c : Char) : isBlank c = true ↔ c = ' ' ∨ c = '\t' := by
  simp [isBlank]

/-- The patterns which match more than one character. -/
theorem Lexeme.long {q : List Char} {vs : List Tok} (h : Lexeme q vs) : ∃ c r, q = c :: r ∧ (r = [] ∨ ((∀ x ∈ q, LexSt.isDigit x = true)) ∨
    ((∀ x ∈ q, isBlank x = true)) ∨ (c = '<' ∧ r = ['=']) ∨ (c = '>' ∧ r = ['='])) := by
  cases h with
  | int h h' =>
    cases q with
    | nil => exact absurd rfl h
    | cons c r => exact ⟨c, r, rfl, .inr (.inl fun x hx => (isDigit_iff x).2 (h' x hx))⟩
  | blank h h' =>
    cases q with
    | nil => exact absurd rfl h
    | cons c r => exact ⟨c, r, rfl, .inr (.inr (.inl fun x hx => (isBlank_iff x).2 (h' x hx)))⟩
  | le => exact ⟨_, _, rfl, .inr (.inr (.inr (.inl ⟨rfl, rfl⟩)))⟩
  | ge => exact ⟨_, _, rfl, .inr (.inr (.inr (.inr ⟨rfl, rfl⟩)))⟩
  | _ => exact ⟨_, _, rfl, .inl rfl⟩

theorem lex_digits : ∀ (ds : List Char) (n : Nat) (r : List Char), (∀ c ∈ ds, LexSt.isDigit c = true) →
    lexFrom (.num n) (ds ++ r) = lexFrom (.num (ds.foldl (fun n c => 10 * n + (c.toNat - '0'.toNat)) n)) r
  | [], _, _, _ => rfl
  | d :: ds, n, r, h => by
    simp only [List.cons_append, lexFrom, LexSt.next, h d List.mem_cons_self, if_true, List.nil_append, List.foldl_cons]
    exact lex_digits ds _ r fun c hc => h c (List.mem_cons_of_mem _ hc)

theorem lex_blanks : ∀ (bs r : List Char), (∀ c ∈ bs, isBlank c = true) → lexFrom .none (bs ++ r) = lexFrom .none r
  | [], _, _ => rfl
  | b :: bs, r, h => by
    rw [List.cons_append, lexFrom, next_blank (h b List.mem_cons_self)]
    exact lex_blanks bs r fun c hc => h c (List.mem_cons_of_mem _ hc)

theorem lex_num_stop (n : Nat) (r : List Char) (h : ∀ c r', r = c :: r' → LexSt.isDigit c = false) :
    lexFrom (.num n) r = LexSt.intTok n :: lexFrom .none r := by
  cases r with
  | nil => rfl
  | cons c r => simp [lexFrom, LexSt.next, h c r rfl]

theorem lex_lt_stop (r : List Char) (h : ∀ r', r ≠ '=' :: r') : lexFrom .lt r = .lt :: lexFrom .none r := by
  cases r with
  | nil => rfl
  | cons c r =>
    have : c ≠ '=' := fun e => h r (by rw [e])
    simp [lexFrom, LexSt.next, this]

theorem lex_gt_stop (r : List Char) (h : ∀ r', r ≠ '=' :: r') : lexFrom .gt r = .gt :: lexFrom .none r := by
  cases r with
  | nil => rfl
  | cons c r =>
    have : c ≠ '=' := fun e => h r (by rw [e])
    simp [lexFrom, LexSt.next, this]

/-- A longest match is read by the automaton. -/
theorem lex_lexeme {p r : List Char} {ts : List Tok} (h : Lexeme p ts) (hmax : ∀ q vs, q <+: p ++ r → Lexeme q vs → q.length ≤ p.length) :
    lexFrom .none (p ++ r) = ts ++ lexFrom .none r := by
  cases h with
  | letter h => simp only [List.cons_append, List.nil_append, lexFrom, LexSt.next, start_letter ((isLetter_iff _).2 h)]
  | blank h h' => exact lex_blanks _ _ fun c hc => (isBlank_iff c).2 (h' c hc)
  | int h h' =>
    cases p with
    | nil => exact absurd rfl h
    | cons d ds =>
      have hd : ∀ c ∈ d :: ds, LexSt.isDigit c = true := fun c hc => (isDigit_iff c).2 (h' c hc)
      rw [List.cons_append, lexFrom, LexSt.next, start_digit (hd d List.mem_cons_self), List.nil_append,
        lex_digits _ _ _ fun c hc => hd c (List.mem_cons_of_mem _ hc), lex_num_stop]
      · simp only [decimal, List.foldl_cons, Nat.mul_zero, Nat.zero_add]
        rfl
      · intro c r' e
        subst e
        by_contra hc
        rw [Bool.not_eq_false] at hc
        have := hmax (d :: ds ++ [c]) _ ⟨r', by simp⟩ (.int (by simp) fun x hx => by
          rcases List.mem_append.1 hx with hx | hx
          · exact h' x hx
          · rw [List.mem_singleton.1 hx]; exact (isDigit_iff c).1 hc)
        simp at this
  | lt =>
    refine (lex_lt_stop r fun r' e => ?_)
    subst e
    have := hmax ['<', '='] _ ⟨r', rfl⟩ .le
    simp at this
  | gt =>
    refine (lex_gt_stop r fun r' e => ?_)
    subst e
    have := hmax ['>', '='] _ ⟨r', rfl⟩ .ge
    simp at this
  | _ => rfl

/-- What the first character says. -/
theorem start_cases (c : Char) : (∃ t, LexSt.start c = ([t], .none) ∧ Lexeme [c] [t] ∧ LexSt.isDigit c = false ∧ isBlank c = false ∧ c ≠ '<' ∧ c ≠ '>') ∨
    c = '<' ∨ c = '>' ∨ LexSt.isDigit c = true ∨ isBlank c = true ∨
    (LexSt.start c = ([.bad (.exit 2)], .none) ∧ ∀ r vs, ¬ Lexeme (c :: r) vs) := by
  by_cases h1 : c = '|'
  · subst h1; exact .inl ⟨_, rfl, .bar, by decide⟩
  by_cases h2 : c = '&'
  · subst h2; exact .inl ⟨_, rfl, .amp, by decide⟩
  by_cases h3 : c = '*'
  · subst h3; exact .inl ⟨_, rfl, .star, by decide⟩
  by_cases h4 : c = '+'
  · subst h4; exact .inl ⟨_, rfl, .plus, by decide⟩
  by_cases h5 : c = '%'
  · subst h5; exact .inl ⟨_, rfl, .within, by decide⟩
  by_cases h6 : c = '('
  · subst h6; exact .inl ⟨_, rfl, .lp, by decide⟩
  by_cases h7 : c = ')'
  · subst h7; exact .inl ⟨_, rfl, .rp, by decide⟩
  by_cases h8 : c = '['
  · subst h8; exact .inl ⟨_, rfl, .lsq, by decide⟩
  by_cases h9 : c = ']'
  · subst h9; exact .inl ⟨_, rfl, .rsq, by decide⟩
  by_cases h10 : c = '<'
  · exact .inr (.inl h10)
  by_cases h11 : c = '>'
  · exact .inr (.inr (.inl h11))
  by_cases h12 : c = '='
  · subst h12; exact .inl ⟨_, rfl, .eq, by decide⟩
  by_cases h13 : c = ','
  · subst h13; exact .inl ⟨_, rfl, .comma, by decide⟩
  by_cases h15 : LexSt.isDigit c = true
  · exact .inr (.inr (.inr (.inl h15)))
  by_cases h16 : isBlank c = true
  · exact .inr (.inr (.inr (.inr (.inl h16))))
  by_cases h14 : LexSt.isLetter c = true
  · exact .inl ⟨_, start_letter h14, .letter ((isLetter_iff c).1 h14), by simpa using h15, by simpa using h16, h10, h11⟩
  by_cases h17 : c = '\n'
  · subst h17; exact .inl ⟨_, rfl, .newline, by decide⟩
  refine .inr (.inr (.inr (.inr (.inr ⟨?_, ?_⟩))))
  · have hb : ¬ (c = ' ' ∨ c = '\t') := fun h => h16 ((isBlank_iff c).2 h)
    rw [LexSt.start, if_neg h1, if_neg h2, if_neg h3, if_neg h4, if_neg h5, if_neg h6, if_neg h7, if_neg h8, if_neg h9, if_neg h10, if_neg h11,
      if_neg h12, if_neg h13, if_neg h14, if_neg h15, if_neg hb, if_neg h17]
  · intro r vs h
    cases h with
    | letter h => exact h14 ((isLetter_iff c).2 h)
    | int _ h => exact h15 ((isDigit_iff c).2 (h c List.mem_cons_self))
    | blank _ h => exact h16 ((isBlank_iff c).2 (h c List.mem_cons_self))
    | _ => contradiction

theorem lex_scan_unique {s : List Char} {ts : List Tok} (h : LongestScan s ts) : ts = lexFrom .none s := by
  induction h with
  | nil => rfl
  | lexeme h hmax _ ih => rw [lex_lexeme h hmax, ih]
  | @jam c r us h _ ih =>
    rw [lexFrom, LexSt.next]
    rcases start_cases c with ⟨t, -, hl, -⟩ | rfl | rfl | hd | hb | ⟨hs, -⟩
    · exact absurd hl (h [c] [t] ⟨r, rfl⟩)
    · exact absurd .lt (h ['<'] _ ⟨r, rfl⟩)
    · exact absurd .gt (h ['>'] _ ⟨r, rfl⟩)
    · refine absurd (.int (by simp) fun x hx => ?_) (h [c] _ ⟨r, rfl⟩)
      rw [List.mem_singleton.1 hx]
      exact (isDigit_iff c).1 hd
    · refine absurd (.blank (by simp) fun x hx => ?_) (h [c] _ ⟨r, rfl⟩)
      rw [List.mem_singleton.1 hx]
      exact (isBlank_iff c).1 hb
    · rw [hs, ih]
      rfl

theorem prefix_takeWhile {p : Char → Bool} {q s : List Char} (h : q <+: s) (hq : ∀ x ∈ q, p x = true) : q.length ≤ (s.takeWhile p).length := by
  obtain ⟨r, rfl⟩ := h
  rw [List.takeWhile_append_of_pos hq]
  simp

/-- A run of characters of one class is the longest match if no other pattern begins with them. -/
theorem run_max {p : Char → Bool} {c : Char} {r : List Char} (hc : p c = true)
    (hl : ∀ q vs, Lexeme (c :: q) vs → q = [] ∨ ∀ x ∈ c :: q, p x = true) : ∀ q vs, q <+: (c :: r).takeWhile p ++ (c :: r).dropWhile p → Lexeme q vs →
    q.length ≤ ((c :: r).takeWhile p).length := by
  intro q vs hq h
  rw [List.takeWhile_append_dropWhile] at hq
  obtain ⟨d, q', rfl, -⟩ := h.long
  have hd : d = c := (List.cons_prefix_cons.1 hq).1
  subst hd
  rcases hl q' vs h with rfl | h'
  · rw [List.takeWhile_cons, if_pos hc]; simp
  · exact prefix_takeWhile hq h'

theorem digit_ne {c : Char} (hd : LexSt.isDigit c = true) : isBlank c = false ∧ c ≠ '<' ∧ c ≠ '>' := by
  refine ⟨?_, ?_, ?_⟩
  · by_contra h
    rw [Bool.not_eq_false, isBlank_iff] at h
    rcases h with rfl | rfl <;> revert hd <;> decide
  · rintro rfl; revert hd; decide
  · rintro rfl; revert hd; decide

theorem blank_ne {c : Char} (hd : isBlank c = true) : LexSt.isDigit c = false ∧ c ≠ '<' ∧ c ≠ '>' := by
  rw [isBlank_iff] at hd
  rcases hd with rfl | rfl <;> decide

theorem mem_takeWhile_pos {p : Char → Bool} {x : Char} : ∀ {l : List Char}, x ∈ l.takeWhile p → p x = true
  | [], h => by cases h
  | a :: l, h => by
    rw [List.takeWhile_cons] at h
    split at h
    · rcases List.mem_cons.1 h with rfl | h
      · assumption
      · exact mem_takeWhile_pos h
    · cases h

theorem lex_scan : ∀ (n : Nat) (s : List Char), s.length ≤ n → LongestScan s (lexFrom .none s) := by
  intro n
  induction n with
  | zero =>
    intro s h
    rw [List.length_eq_zero_iff.1 (Nat.le_zero.1 h)]
    exact .nil
  | succ n ih =>
    intro s hs
    -- one longest match
    have step : ∀ p r ts, s = p ++ r → p ≠ [] → Lexeme p ts → (∀ q vs, q <+: p ++ r → Lexeme q vs → q.length ≤ p.length) → LongestScan s (lexFrom .none s) := by
      intro p r ts e hp hl hmax
      rw [e, lex_lexeme hl hmax]
      refine .lexeme hl hmax (ih r ?_)
      rw [e, List.length_append] at hs
      have := List.length_pos_iff.2 hp
      omega
    cases s with
    | nil => exact .nil
    | cons c r =>
      rcases start_cases c with ⟨t, -, hl, h1, h2, h3, h4⟩ | rfl | rfl | hd | hb | ⟨hs', hn⟩
      · refine step [c] r [t] rfl (by simp) hl fun q vs hq h => ?_
        obtain ⟨d, q', rfl, h'⟩ := h.long
        have hd : d = c := (List.cons_prefix_cons.1 hq).1
        subst hd
        rcases h' with rfl | h' | h' | h' | h'
        · simp
        · rw [h' d List.mem_cons_self] at h1; cases h1
        · rw [h' d List.mem_cons_self] at h2; cases h2
        · exact absurd h'.1 h3
        · exact absurd h'.1 h4
      · by_cases he : ∃ r', r = '=' :: r'
        · obtain ⟨r', rfl⟩ := he
          refine step ['<', '='] r' _ rfl (by simp) .le fun q vs hq h => ?_
          obtain ⟨d, q', rfl, h'⟩ := h.long
          have hd : d = '<' := (List.cons_prefix_cons.1 hq).1
          subst hd
          rcases h' with rfl | h' | h' | ⟨-, rfl⟩ | ⟨h', -⟩
          · simp
          · exact absurd (h' _ List.mem_cons_self) (by decide)
          · exact absurd (h' _ List.mem_cons_self) (by decide)
          · simp
          · exact absurd h' (by decide)
        · refine step ['<'] r _ rfl (by simp) .lt fun q vs hq h => ?_
          obtain ⟨d, q', rfl, h'⟩ := h.long
          obtain ⟨hd, hq⟩ := List.cons_prefix_cons.1 hq
          subst hd
          rcases h' with rfl | h' | h' | ⟨-, rfl⟩ | ⟨h', -⟩
          · simp
          · exact absurd (h' _ List.mem_cons_self) (by decide)
          · exact absurd (h' _ List.mem_cons_self) (by decide)
          · obtain ⟨r', hr⟩ := hq
            exact absurd ⟨r', (List.cons.inj hr).2.symm⟩ he
          · exact absurd h' (by decide)
      · by_cases he : ∃ r', r = '=' :: r'
        · obtain ⟨r', rfl⟩ := he
          refine step ['>', '='] r' _ rfl (by simp) .ge fun q vs hq h => ?_
          obtain ⟨d, q', rfl, h'⟩ := h.long
          have hd : d = '>' := (List.cons_prefix_cons.1 hq).1
          subst hd
          rcases h' with rfl | h' | h' | ⟨h', -⟩ | ⟨-, rfl⟩
          · simp
          · exact absurd (h' _ List.mem_cons_self) (by decide)
          · exact absurd (h' _ List.mem_cons_self) (by decide)
          · exact absurd h' (by decide)
          · simp
        · refine step ['>'] r _ rfl (by simp) .gt fun q vs hq h => ?_
          obtain ⟨d, q', rfl, h'⟩ := h.long
          obtain ⟨hd, hq⟩ := List.cons_prefix_cons.1 hq
          subst hd
          rcases h' with rfl | h' | h' | ⟨h', -⟩ | ⟨-, rfl⟩
          · simp
          · exact absurd (h' _ List.mem_cons_self) (by decide)
          · exact absurd (h' _ List.mem_cons_self) (by decide)
          · exact absurd h' (by decide)
          · obtain ⟨r', hr⟩ := hq
            exact absurd ⟨r', (List.cons.inj hr).2.symm⟩ he
      · have hne : (c :: r).takeWhile LexSt.isDigit ≠ [] := by rw [List.takeWhile_cons, if_pos hd]; simp
        refine step ((c :: r).takeWhile LexSt.isDigit) ((c :: r).dropWhile LexSt.isDigit) _ List.takeWhile_append_dropWhile.symm hne
          (.int hne fun x hx => (isDigit_iff x).1 (mem_takeWhile_pos hx)) (run_max hd fun q vs h => ?_)
        obtain ⟨d, q', e, h'⟩ := h.long
        cases e
        obtain ⟨k1, k2, k3⟩ := digit_ne hd
        rcases h' with h' | h' | h' | h' | h'
        · exact .inl h'
        · exact .inr h'
        · rw [h' c List.mem_cons_self] at k1; cases k1
        · exact absurd h'.1 k2
        · exact absurd h'.1 k3
      · have hne : (c :: r).takeWhile isBlank ≠ [] := by rw [List.takeWhile_cons, if_pos hb]; simp
        refine step ((c :: r).takeWhile isBlank) ((c :: r).dropWhile isBlank) _ List.takeWhile_append_dropWhile.symm hne
          (.blank hne fun x hx => (isBlank_iff x).1 (mem_takeWhile_pos hx)) (run_max hb fun q vs h => ?_)
        obtain ⟨d, q', e, h'⟩ := h.long
        cases e
        obtain ⟨k1, k2, k3⟩ := blank_ne hb
        rcases h' with h' | h' | h' | h' | h'
        · exact .inl h'
        · rw [h' c List.mem_cons_self] at k1; cases k1
        · exact .inr h'
        · exact absurd h'.1 k2
        · exact absurd h'.1 k3
      · rw [lexFrom, LexSt.next, hs']
        refine .jam (fun q vs hq h => ?_) (ih r (by simpa using hs))
        obtain ⟨d, q', rfl, -⟩ := h.long
        have hd : d = c := (List.cons_prefix_cons.1 hq).1
        subst hd
        exact hn _ _ h

/-! ## What is known of the result -/

namespace TRE

/-- The letters satisfy `P`. -/
def LettersIn (P : Alphabet → Prop) : TRE K → Prop
  | .atom c => P c
  | .epsilon => True
  | .plus e => LettersIn P e
  | .concat e f => LettersIn P e ∧ LettersIn P f
  | .disj e f => LettersIn P e ∧ LettersIn P f
  | .conj e f => LettersIn P e ∧ LettersIn P f
  | .within e _ => LettersIn P e

/-- The intervals satisfy `P`. -/
def Intervals (P : Interval K → Prop) : TRE K → Prop
  | .atom _ => True
  | .epsilon => True
  | .plus e => Intervals P e
  | .concat e f => Intervals P e ∧ Intervals P f
  | .disj e f => Intervals P e ∧ Intervals P f
  | .conj e f => Intervals P e ∧ Intervals P f
  | .within e I => Intervals P e ∧ P I

/-- No repetition directly below a repetition. -/
def NoDouble : TRE K → Prop
  | .atom _ => True
  | .epsilon => True
  | .plus e => NoDouble e ∧ ∀ f, e ≠ .plus f
  | .concat e f => NoDouble e ∧ NoDouble f
  | .disj e f => NoDouble e ∧ NoDouble f
  | .conj e f => NoDouble e ∧ NoDouble f
  | .within e _ => NoDouble e

theorem mkPlus_cases (e : TRE K) : (∃ f, e = .plus f ∧ e.mkPlus = .plus f) ∨ ((∀ f, e ≠ .plus f) ∧ e.mkPlus = .plus e) := by
  cases e with
  | plus f => exact .inl ⟨f, rfl, rfl⟩
  | _ => exact .inr ⟨fun f h => (by cases h), rfl⟩

end TRE

/-- A property of expressions which all rules of the grammar keep, for tokens which satisfy `Q`. -/
structure GramKeeps (Q : Tok → Prop) (P : TRE K → Prop) : Prop where
  atom : ∀ c, Q (.atom c) → P (.atom c.toNat)
  plus : ∀ e, P e → Q .plus → P e.mkPlus
  star : ∀ e, P e → Q .star → P e.star
  concat : ∀ e f, P e → P f → P (.concat e f)
  disj : ∀ e f, P e → P f → P (.disj e f)
  conj : ∀ e f, P e → P f → Q .amp → P (.conj e f)
  within : ∀ e us I, P e → Q .within → IntervalG us I → (∀ t ∈ us, Q t) → P (.within e I)

theorem ExprG.keeps {Q : Tok → Prop} {P : TRE K → Prop} (hk : GramKeeps Q P) {ts : List Tok} {e : TRE K} (h : ExprG ts e) (hq : ∀ t ∈ ts, Q t) : P e := by
  induction h with
  | atom => exact hk.atom _ (hq _ List.mem_cons_self)
  | paren _ ih => exact ih fun t ht => hq t (by simp [ht])
  | plus _ ih => exact hk.plus _ (ih fun t ht => hq t (by simp [ht])) (hq _ (by simp))
  | star _ ih => exact hk.star _ (ih fun t ht => hq t (by simp [ht])) (hq _ (by simp))
  | concat _ _ ih ih' => exact hk.concat _ _ (ih fun t ht => hq t (by simp [ht])) (ih' fun t ht => hq t (by simp [ht]))
  | disj _ _ ih ih' => exact hk.disj _ _ (ih fun t ht => hq t (by simp [ht])) (ih' fun t ht => hq t (by simp [ht]))
  | conj _ _ ih ih' => exact hk.conj _ _ (ih fun t ht => hq t (by simp [ht])) (ih' fun t ht => hq t (by simp [ht])) (hq _ (by simp))
  | within _ h' ih => exact hk.within _ _ _ (ih fun t ht => hq t (by simp [ht])) (hq _ (by simp)) h' fun t ht => hq t (by simp [ht])

theorem keeps_letters {Q : Tok → Prop} {P : Alphabet → Prop} (h : ∀ c, Q (.atom c) → P c.toNat) : GramKeeps (K := K) Q (TRE.LettersIn P) where
  atom := h
  plus e he _ := by
    rcases e.mkPlus_cases with ⟨f, rfl, e'⟩ | ⟨-, e'⟩
    · exact he
    · rw [e']; exact he
  star e he _ := by
    refine ⟨trivial, ?_⟩
    rcases e.mkPlus_cases with ⟨f, rfl, e'⟩ | ⟨-, e'⟩
    · exact he
    · rw [e']; exact he
  concat _ _ h h' := ⟨h, h'⟩
  disj _ _ h h' := ⟨h, h'⟩
  conj _ _ h h' _ := ⟨h, h'⟩
  within _ _ _ h _ _ _ := h

theorem keeps_intervals {Q : Tok → Prop} {P : Interval K → Prop} (h : ∀ us I, Q .within → IntervalG us I → (∀ t ∈ us, Q t) → P I) : GramKeeps Q (TRE.Intervals P) where
  atom _ _ := trivial
  plus e he _ := by
    rcases e.mkPlus_cases with ⟨f, rfl, e'⟩ | ⟨-, e'⟩
    · exact he
    · rw [e']; exact he
  star e he _ := by
    refine ⟨trivial, ?_⟩
    rcases e.mkPlus_cases with ⟨f, rfl, e'⟩ | ⟨-, e'⟩
    · exact he
    · rw [e']; exact he
  concat _ _ h h' := ⟨h, h'⟩
  disj _ _ h h' := ⟨h, h'⟩
  conj _ _ h h' _ := ⟨h, h'⟩
  within e us I he hw hI hq := ⟨he, h us I hw hI hq⟩

theorem keeps_noDouble (Q : Tok → Prop) : GramKeeps (K := K) Q TRE.NoDouble where
  atom _ _ := trivial
  plus e he _ := by
    rcases e.mkPlus_cases with ⟨f, rfl, e'⟩ | ⟨h, e'⟩
    · exact he
    · rw [e']; exact ⟨he, h⟩
  star e he _ := by
    refine ⟨trivial, ?_⟩
    rcases e.mkPlus_cases with ⟨f, rfl, e'⟩ | ⟨h, e'⟩
    · exact he
    · rw [e']; exact ⟨he, h⟩
  concat _ _ h h' := ⟨h, h'⟩
  disj _ _ h h' := ⟨h, h'⟩
  conj _ _ h h' _ := ⟨h, h'⟩
  within _ _ _ h _ _ _ := h

theorem keeps_epsilonFree {Q : Tok → Prop} (h : ¬ Q .star) : GramKeeps (K := K) Q TRE.EpsilonFree where
  atom _ _ := trivial
  plus e he _ := by
    rcases e.mkPlus_cases with ⟨f, rfl, e'⟩ | ⟨-, e'⟩
    · exact he
    · rw [e']; exact he
  star e he hs := absurd hs h
  concat _ _ h h' := ⟨h, h'⟩
  disj _ _ h h' := ⟨h, h'⟩
  conj _ _ h h' _ := ⟨h, h'⟩
  within _ _ _ h _ _ _ := h

/-! ## Printing -/

namespace TRE

/-- The tokens of a printed expression without the empty word and time restrictions. -/
def toks : TRE K → List Tok
  | .atom c => [.atom (Char.ofNat c)]
  | .epsilon => []
  | .plus e => .lp :: ((toks e ++ [.plus]) ++ [.rp])
  | .concat e f => .lp :: ((toks e ++ toks f) ++ [.rp])
  | .disj e f => .lp :: ((toks e ++ .bar :: toks f) ++ [.rp])
  | .conj e f => .lp :: ((toks e ++ .amp :: toks f) ++ [.rp])
  | .within _ _ => []

/-- A letter of the scanner. -/
def IsSym (c : Alphabet) : Prop := ∃ x : Char, LexSt.isLetter x = true ∧ c = x.toNat

theorem lex_print (num : Bnd K → List Char) : ∀ (e : TRE K), e.LettersIn IsSym → e.EpsilonFree → e.Intervals (fun _ => False) → ∀ r,
    lexFrom .none (e.print num ++ r) = e.toks ++ lexFrom .none r
  | .atom c, h, _, _, r => by
    obtain ⟨x, hx, rfl⟩ := h
    simp only [print, toks, Char.ofNat_toNat, List.cons_append, List.nil_append, lexFrom, LexSt.next, start_letter hx]
  | .epsilon, _, h, _, _ => h.elim
  | .within _ _, _, _, h, _ => h.2.elim
  | .plus e, h1, h2, h3, r => by
    have ih := lex_print num e h1 h2 h3
    simp only [print, toks, List.cons_append, List.append_assoc, lexFrom, LexSt.next, List.nil_append]
    rw [show LexSt.start '(' = ([.lp], .none) from rfl, ih, lexFrom, lexFrom]
    rfl
  | .concat e f, h1, h2, h3, r => by
    have ih := lex_print num e h1.1 h2.1 h3.1
    have ih' := lex_print num f h1.2 h2.2 h3.2
    simp only [print, toks, List.cons_append, List.append_assoc, lexFrom, LexSt.next, List.nil_append]
    rw [show LexSt.start '(' = ([.lp], .none) from rfl, ih, ih', lexFrom]
    rfl
  | .disj e f, h1, h2, h3, r => by
    have ih := lex_print num e h1.1 h2.1 h3.1
    have ih' := lex_print num f h1.2 h2.2 h3.2
    simp only [print, toks, List.cons_append, List.append_assoc, lexFrom, LexSt.next, List.nil_append]
    rw [show LexSt.start '(' = ([.lp], .none) from rfl, ih, lexFrom, LexSt.next, show LexSt.start '|' = ([.bar], .none) from rfl, ih', lexFrom]
    rfl
  | .conj e f, h1, h2, h3, r => by
    have ih := lex_print num e h1.1 h2.1 h3.1
    have ih' := lex_print num f h1.2 h2.2 h3.2
    simp only [print, toks, List.cons_append, List.append_assoc, lexFrom, LexSt.next, List.nil_append]
    rw [show LexSt.start '(' = ([.lp], .none) from rfl, ih, lexFrom, LexSt.next, show LexSt.start '&' = ([.amp], .none) from rfl, ih', lexFrom]
    rfl

theorem operand_toks : ∀ (e : TRE K), e.LettersIn IsSym → e.EpsilonFree → e.Intervals (fun _ => False) → e.NoDouble → Operand e.toks e
  | .atom c, h, _, _, _ => by
    obtain ⟨x, hx, rfl⟩ := h
    simp only [toks, Char.ofNat_toNat]
    exact .atom
  | .epsilon, _, h, _, _ => h.elim
  | .within _ _, _, _, h, _ => h.2.elim
  | .plus e, h1, h2, h3, h4 => by
    have ih := operand_toks e h1 h2 h3 h4.1
    rcases e.mkPlus_cases with ⟨f, rfl, e'⟩ | ⟨h, e'⟩
    · exact absurd rfl (h4.2 f)
    · have := Operand.plus ih
      rw [e'] at this
      exact .paren (.one this)
  | .concat e f, h1, h2, h3, h4 =>
    .paren (.concat (operand_toks e h1.1 h2.1 h3.1 h4.1) (.one (operand_toks f h1.2 h2.2 h3.2 h4.2)))
  | .disj e f, h1, h2, h3, h4 =>
    .paren (.disj (operand_toks e h1.1 h2.1 h3.1 h4.1) (.one (operand_toks f h1.2 h2.2 h3.2 h4.2)))
  | .conj e f, h1, h2, h3, h4 =>
    .paren (.conj (operand_toks e h1.1 h2.1 h3.1 h4.1) (.one (operand_toks f h1.2 h2.2 h3.2 h4.2)))

theorem print_chars (num : Bnd K → List Char) : ∀ (e : TRE K), e.LettersIn IsSym → e.EpsilonFree → e.Intervals (fun _ => False) → ∀ c ∈ e.print num, c ≠ '\x00'
  | .atom c, h, _, _, d, hd => by
    obtain ⟨x, hx, rfl⟩ := h
    simp only [print, Char.ofNat_toNat, List.mem_singleton] at hd
    rintro rfl
    subst hd
    revert hx
    decide
  | .epsilon, _, h, _, _, _ => h.elim
  | .within _ _, _, _, h, _, _ => h.2.elim
  | .plus e, h1, h2, h3, c, hc => by
    have ih := print_chars num e h1 h2 h3 c
    simp only [print, List.mem_cons, List.mem_append, List.not_mem_nil, or_false] at hc
    rcases hc with rfl | hc | rfl | rfl
    · decide
    · exact ih hc
    · decide
    · decide
  | .concat e f, h1, h2, h3, c, hc => by
    have ih := print_chars num e h1.1 h2.1 h3.1 c
    have ih' := print_chars num f h1.2 h2.2 h3.2 c
    simp only [print, List.mem_cons, List.mem_append, List.not_mem_nil, or_false] at hc
    rcases hc with rfl | hc | hc | rfl
    · decide
    · exact ih hc
    · exact ih' hc
    · decide
  | .disj e f, h1, h2, h3, c, hc => by
    have ih := print_chars num e h1.1 h2.1 h3.1 c
    have ih' := print_chars num f h1.2 h2.2 h3.2 c
    simp only [print, List.mem_cons, List.mem_append, List.not_mem_nil, or_false] at hc
    rcases hc with rfl | hc | rfl | hc | rfl
    · decide
    · exact ih hc
    · decide
    · exact ih' hc
    · decide
  | .conj e f, h1, h2, h3, c, hc => by
    have ih := print_chars num e h1.1 h2.1 h3.1 c
    have ih' := print_chars num f h1.2 h2.2 h3.2 c
    simp only [print, List.mem_cons, List.mem_append, List.not_mem_nil, or_false] at hc
    rcases hc with rfl | hc | rfl | hc | rfl
    · decide
    · exact ih hc
    · decide
    · exact ih' hc
    · decide

end TRE

end Verif
