import Verif.Lemmas.SNFShared
import Verif.Model.SNF
import Verif.Props.DNF

/-!
# C84: `makeSNF` replaces an expression by one letter with time restrictions
-/

namespace Verif.Props

open TMem

set_option linter.unusedSectionVars false

variable {K : Type} [Field K] [LinearOrder K] [IsStrictOrderedRing K] [FloorRing K]

/-- The result of `makeSNF` against the disjunctive normal form. -/
theorem snf_rel {cl : Bool} {oc : Prop} {e : TRE K} {c : Alphabet} (hf : e.FiniteLower) (hc : cl = true → e.Closed) (ho : oc → e.BuiltFrom c)
    {fuel d : Nat} {m : TMem K} (h : e.snf c fuel = .ok (d, m)) : ∃ l m0, e.toDNF TMem.empty = .ok (l, m0) ∧
      (cl = true → ∀ x, Den m (.alt (m.dnf d)) x → Den m0 (.alt l) x) ∧
      (oc → ∀ t h, Den m0 (.alt l) (Sig.const c t h) → Den m (.alt (m.dnf d)) (Sig.const c t h)) := by
  unfold TRE.snf at h
  split at h
  · cases h
  · next l m0 h0 =>
    split at h
    · cases h
    · next m' hn =>
      cases h
      have p := toDNF_post e _ good_empty l m0 h0
      obtain ⟨ctx, _, hs, out⟩ := toDNF_ctx e TMem.empty (fun _ => []) [] good_empty (allowed_of hf hc ho)
        (fun a ha => absurd ha (by simp [TMem.empty])) l m0 h0
      have g1 : Good (m0.newDnf l) := ⟨wf_newDnf p.good.wf p.good.fresh p.below, fresh_newDnf p.good.fresh l⟩
      have s1 : CtxOk c oc cl (m0.newDnf l) ctx := ctx_ext p.good hs (ext_newDnf m0 l) (fun _ _ => rfl) fun a k1 _ => by
        have : (m0.newDnf l).atom a = .moved := p.good.fresh.atom a k1
        rw [this]
        trivial
      have d1 : (m0.newDnf l).dnf m0.next = l := dnf_newDnf m0 l
      match fuel, hn with
      | fuel + 1, hn =>
      obtain ⟨m1, own1, S, _, _, rfl, _, k2, k3⟩ := snfDnf_sh g1 s1 (snfAtom_sh g1 s1 fuel) (own := fun _ => 0)
        ⟨le_refl _, fun _ _ => rfl, fun a _ => .inl ⟨rfl, fun _ _ => rfl⟩⟩ (Nat.lt_succ_self _) rfl hn
      have e1 : ((m1.newSingleton (c, S)).2.setDnf m0.next [[m1.next + 1]]).dnf m0.next = [[m1.next + 1]] := by simp [setDnf, put]
      have e2 : ((m1.newSingleton (c, S)).2.setDnf m0.next [[m1.next + 1]]).atom (m1.next + 1) = .singleton m1.next := by
        simp [newSingleton, newSing, newAtom, setDnf, put]
      have e3 : ((m1.newSingleton (c, S)).2.setDnf m0.next [[m1.next + 1]]).sing m1.next = (c, S) := by
        simp [newSingleton, newSing, newAtom, setDnf, put]
      have dd : ∀ x, Den (m0.newDnf l) (.alt l) x ↔ Den m0 (.alt l) x := fun x => den_iff (ext_newDnf m0 l) p.good.wf (p := .alt l) p.below
      rw [d1] at k2 k3
      refine ⟨l, m0, h0, fun hcl x hx => ?_, fun h t ht hx => ?_⟩
      · rw [e1, den_alt] at hx
        simp only [List.mem_singleton, exists_eq_left, forall_eq, den_singleton e2, e3] at hx
        obtain ⟨t, ht, rfl, hm⟩ := hx
        exact (dd _).1 (k3 hcl t ht hm)
      · obtain ⟨k, hk, hx⟩ := den_alt.1 ((dd _).2 hx)
        have := k2 h t ht ⟨k, hk, fun a ha => ⟨ht, hx a ha, fun J hJ => by rw [out k hk a ha] at hJ; cases hJ⟩⟩
        rw [e1, den_alt]
        simp only [List.mem_singleton, exists_eq_left, forall_eq, den_singleton e2, e3]
        exact ⟨t, ht, rfl, this⟩

/-- **C84** (shape): what is left is one alternative with one letter, `c`, and its signals are those of this letter whose duration is in one
of the intervals. -/
theorem snf_shape (e : TRE K) (c : Alphabet) {fuel d : Nat} {m : TMem K} (h : e.snf c fuel = .ok (d, m)) :
    ∃ S a v, m.dnf d = [[a]] ∧ m.atom a = .singleton v ∧ m.sing v = (c, S) ∧
      ∀ x, Den m (.alt (m.dnf d)) x ↔ ∃ t h, x = Sig.const c t h ∧ Interval.MemAny S t := by
  unfold TRE.snf at h
  split at h
  · cases h
  · next l m0 h0 =>
    split at h
    · cases h
    · next m' hn =>
      cases h
      match fuel, hn with
      | fuel + 1, hn =>
      rw [snfDnf] at hn
      split at hn
      · cases hn
      · next l' m1 _ =>
        unfold finishSNF at hn
        split at hn
        · cases hn
        · next S _ =>
          cases hn
          have e1 : ((m1.newSingleton (c, S)).2.setDnf m0.next [[m1.next + 1]]).dnf m0.next = [[m1.next + 1]] := by simp [setDnf, put]
          have e2 : ((m1.newSingleton (c, S)).2.setDnf m0.next [[m1.next + 1]]).atom (m1.next + 1) = .singleton m1.next := by
            simp [newSingleton, newSing, newAtom, setDnf, put]
          have e3 : ((m1.newSingleton (c, S)).2.setDnf m0.next [[m1.next + 1]]).sing m1.next = (c, S) := by
            simp [newSingleton, newSing, newAtom, setDnf, put]
          refine ⟨S, m1.next + 1, m1.next, e1, e2, e3, fun x => ?_⟩
          show Den ((m1.newSingleton (c, S)).2.setDnf m0.next [[m1.next + 1]]) (.alt (((m1.newSingleton (c, S)).2.setDnf m0.next [[m1.next + 1]]).dnf m0.next)) x ↔ _
          rw [e1, den_alt]
          simp only [List.mem_singleton, exists_eq_left, forall_eq, den_singleton e2, e3]

/-- The signals of an expression built from one letter are constant. -/
theorem builtFrom_const {c : Alphabet} : ∀ {e : TRE K}, e.BuiltFrom c → ∀ {x : Sig K}, e.Signals x → ∃ t h, x = Sig.const c t h
  | .atom _, h, x, hx => by cases h; exact hx
  | .epsilon, h, _, _ => h.elim
  | .plus e, h, x, hx => by
    have hx : Iter Sig.app e.Signals x := hx
    induction hx with
    | one h1 => exact builtFrom_const (e := e) h h1
    | more h1 h2 ih =>
      obtain ⟨t, ht, rfl⟩ := builtFrom_const (e := e) h h1
      obtain ⟨u, hu, rfl⟩ := ih h2
      exact ⟨_, _, Sig.const_app c t u ht hu⟩
  | .concat _ _, h, x, hx => by
    obtain ⟨y, z, rfl, hy, hz⟩ := hx
    obtain ⟨t, ht, rfl⟩ := builtFrom_const h.1 hy
    obtain ⟨u, hu, rfl⟩ := builtFrom_const h.2 hz
    exact ⟨_, _, Sig.const_app c t u ht hu⟩
  | .disj _ _, h, x, hx => hx.elim (builtFrom_const h.1) (builtFrom_const h.2)
  | .conj _ _, h, x, hx => builtFrom_const h.1 hx.1
  | .within e _, h, x, hx => builtFrom_const (e := e) h hx.1

/-- **C84** (no signal is lost): if `c` is the only letter of the expression, then the result has every signal of the expression. -/
theorem snf_complete (e : TRE K) (hf : e.FiniteLower) (c : Alphabet) (hl : e.BuiltFrom c) {fuel d : Nat} {m : TMem K}
    (h : e.snf c fuel = .ok (d, m)) {x : Sig K} (hx : e.Signals x) : Den m (.alt (m.dnf d)) x := by
  obtain ⟨l, m0, h0, _, hr⟩ := snf_rel (cl := false) (oc := True) hf (fun h => by cases h) (fun _ => hl) h
  obtain ⟨t, ht, rfl⟩ := builtFrom_const hl hx
  exact hr trivial t ht (dnf_complete e h0 hx)

/-- **C84, partial** (no signal is added): whatever other letters the expression has, each signal of the result is a signal of the
expression.  Missing: the expressions for which the claim is false already for C42 (concatenations of conjunctions, open lower ends). -/
theorem snf_sound_partial (e : TRE K) (hf : e.FiniteLower) (hc : e.Closed) (hd : e.Distributes) (c : Alphabet) {fuel d : Nat} {m : TMem K}
    (h : e.snf c fuel = .ok (d, m)) {x : Sig K} (hx : Den m (.alt (m.dnf d)) x) : e.Signals x := by
  obtain ⟨l, m0, h0, hr, _⟩ := snf_rel (cl := true) (oc := False) hf (fun _ => hc) (fun h => h.elim) h
  obtain ⟨l', m', h', hl⟩ := dnf_lang_partial e hd
  rw [h0] at h'
  cases h'
  exact (hl x).1 (hr rfl x hx)

/-- **C84 is false** without these conditions: `((a%[1,1]) & (a%[2,2])) a` has no signals, but a of duration 2 is a signal of the result. -/
theorem snf_sound_wrong : (∀ x, ¬ dnfBad.Signals x) ∧
    ∃ d m, dnfBad.snf 97 30 = .ok (d, m) ∧ Den m (.alt (m.dnf d)) (Sig.const 97 2 (by norm_num)) := by
  obtain ⟨h1, l, m0, h2, h3⟩ := dnf_lang_wrong
  refine ⟨h1, ?_⟩
  cases h : dnfBad.snf 97 30 with
  | error e =>
    have : (dnfBad.snf 97 30).isOk := by decide +kernel
    rw [h] at this
    cases this
  | ok r =>
    obtain ⟨d, m⟩ := r
    obtain ⟨l', m', h4, _, hr⟩ := snf_rel (cl := false) (oc := True) (e := dnfBad) (c := 97)
      ⟨⟨⟨trivial, 1, true, rfl, by norm_num⟩, trivial, 2, true, rfl, by norm_num⟩, trivial⟩ (fun h => by cases h) (fun _ => ⟨⟨rfl, rfl⟩, rfl⟩) h
    rw [h2] at h4
    cases h4
    exact ⟨d, m, rfl, hr trivial _ _ h3⟩

/-- `(((a|aa) & a+)%[1,3) (aa|a+)%[2,5])%[4,6] | (a|aa)+`: one letter only; the atoms of `(aa|a+)%[2,5]` are shared by the alternatives of
the concatenation, those of `a|aa` by the alternatives of the conjunction. -/
def snfEx : TRE ℚ :=
  .disj (.within (.concat (.within (.conj (.disj litA (.concat litA litA)) (.plus litA)) ⟨.fin 1 true, .fin 3 false⟩)
    (.within (.disj (.concat litA litA) (.plus litA)) ⟨.fin 2 true, .fin 5 true⟩)) ⟨.fin 4 true, .fin 6 true⟩) (.plus (.disj litA (.concat litA litA)))

theorem snfEx_finite : snfEx.FiniteLower := by
  refine ⟨⟨⟨⟨⟨⟨trivial, trivial, trivial⟩, trivial⟩, 1, true, rfl, by norm_num⟩, ⟨⟨trivial, trivial⟩, trivial⟩, 2, true, rfl, by norm_num⟩,
    4, true, rfl, by norm_num⟩, trivial, trivial, trivial⟩

theorem snfEx_only : snfEx.BuiltFrom 97 := by simp [snfEx, TRE.BuiltFrom, litA]

theorem snfEx_ok : ∃ d m, snfEx.snf 97 30 = .ok (d, m) := by
  cases h : snfEx.snf 97 30 with
  | error e =>
    have : (snfEx.snf 97 30).isOk := by decide +kernel
    rw [h] at this
    cases this
  | ok r => exact ⟨r.1, r.2, rfl⟩

/-- The hypotheses are met: the result is one letter, and it has the signal a of duration 2.5. -/
example : ∃ d m a v, snfEx.snf 97 30 = .ok (d, m) ∧ m.dnf d = [[a]] ∧ m.atom a = .singleton v ∧ (m.sing v).1 = 97 ∧
    Den m (.alt (m.dnf d)) (Sig.const 97 (5/2) (by norm_num)) := by
  obtain ⟨d, m, h⟩ := snfEx_ok
  obtain ⟨S, a, v, h1, h2, h3, _⟩ := snf_shape _ _ h
  exact ⟨d, m, a, v, h, h1, h2, by rw [h3], snf_complete snfEx snfEx_finite 97 snfEx_only h (.inr (.one (.inl ⟨_, _, rfl⟩)))⟩

/-- `((a|aa)%[1,3] ((a+)%[2,5] | b))%[4,6]`: other letters, and shared atoms. -/
def snfEx2 : TRE ℚ :=
  .within (.concat (.within (.disj litA (.concat litA litA)) ⟨.fin 1 true, .fin 3 true⟩)
    (.disj (.within (.plus litA) ⟨.fin 2 true, .fin 5 true⟩) litB)) ⟨.fin 4 true, .fin 6 true⟩

theorem snfEx2_finite : snfEx2.FiniteLower :=
  ⟨⟨⟨⟨trivial, trivial, trivial⟩, 1, true, rfl, by norm_num⟩, ⟨trivial, 2, true, rfl, by norm_num⟩, trivial⟩, 4, true, rfl, by norm_num⟩

theorem snfEx2_closed : snfEx2.Closed := by
  refine ⟨⟨⟨⟨trivial, trivial, trivial⟩, fun l s h => ?_⟩, ⟨trivial, fun l s h => ?_⟩, trivial⟩, fun l s h => ?_⟩ <;> (cases h; rfl)

theorem snfEx2_distributes : snfEx2.Distributes := by
  refine ⟨⟨⟨⟨trivial, trivial, trivial, trivial, trivial, fun h => h, fun h => h⟩, ?_⟩, ⟨⟨trivial, ?_⟩, trivial⟩, ⟨trivial, trivial, trivial⟩,
    ⟨trivial, trivial⟩, ?_, ?_⟩, ?_⟩
  · rintro c s t (h | h) h'
    · cases h; simp at h'
    · exact h.elim
  · intro c s t h; exact h.elim
  · exact fun h => h
  · rintro (h | h) <;> exact h
  · intro c s t h; exact h.elim

/-- The intervals of the result. -/
def snfView (r : Except Err (Nat × TMem ℚ)) : Option (List (Interval ℚ)) :=
  match r with
  | .error _ => none
  | .ok (d, m) => match m.dnf d with
    | [[a]] => match m.atom a with
      | .singleton v => some (m.sing v).2
      | _ => none
    | _ => none

theorem snfView_den {e : TRE ℚ} {c : Alphabet} {fuel : Nat} {S : List (Interval ℚ)} (hv : snfView (e.snf c fuel) = some S) :
    ∃ d m, e.snf c fuel = .ok (d, m) ∧ ∀ x, Den m (.alt (m.dnf d)) x ↔ ∃ t h, x = Sig.const c t h ∧ Interval.MemAny S t := by
  cases h : e.snf c fuel with
  | error e => rw [h] at hv; cases hv
  | ok r =>
    obtain ⟨d, m⟩ := r
    obtain ⟨S', a, v, h1, h2, h3, h4⟩ := snf_shape e c h
    rw [h] at hv
    simp only [snfView, h1, h2, h3, Option.some.injEq] at hv
    subst hv
    exact ⟨d, m, rfl, h4⟩

/-- The hypotheses are met by an expression with other letters, and the result is not empty: it has the signal a of duration 5. -/
example : ∃ d m, snfEx2.snf 97 30 = .ok (d, m) ∧ Den m (.alt (m.dnf d)) (Sig.const 97 5 (by norm_num)) ∧
    (∀ x, Den m (.alt (m.dnf d)) x → snfEx2.Signals x) := by
  obtain ⟨d, m, h, hd⟩ := snfView_den (e := snfEx2) (c := 97) (fuel := 30)
    (S := [⟨.fin 4 true, .fin 6 true⟩, ⟨.fin 4 true, .fin 6 true⟩]) (by decide +kernel)
  refine ⟨d, m, h, (hd _).2 ⟨5, by norm_num, rfl, _, List.mem_cons_self .., ?_⟩,
    fun x => snf_sound_partial snfEx2 snfEx2_finite snfEx2_closed snfEx2_distributes 97 h⟩
  constructor <;> norm_num [Interval.Above, Bnd.sat]

end Verif.Props
