import Verif.Lemmas.NormalFormInit
import Verif.Props.NormalForm

/-!
# C66: the normal form keeps the meaning of an expression
-/

namespace Verif.Props

open TMem

variable {K : Type} [Field K] [LinearOrder K] [IsStrictOrderedRing K] [FloorRing K]

theorem normalForm_rel {cl : Bool} {e : TRE K} (he : e.Clean) (hc : cl = true → e.Closed) {fuel d : Nat} {m : TMem K}
    (h : e.normalForm fuel = .ok (d, m)) :
    ∃ l m0, e.toDNF TMem.empty = .ok (l, m0) ∧ NTree.Rel cl (Den m0 (.alt l)) (Den m (.alt (m.dnf d))) := by
  unfold TRE.normalForm at h
  split at h
  · cases h
  · next l m0 h0 =>
    split at h
    · cases h
    · next m' hn =>
      cases h
      obtain ⟨k0, as, s, F, rfl, k1, k2, k3, _⟩ := toDNF_init e _ he hc good_empty l m0 h0
      have hb : Below m0 F := fun x hx => (k2 x hx).2
      have p := normDnf_does fuel (m0.newDnf (as.map fun x => [x])) m0.next as s F (dnf_newDnf m0 _) (Nat.lt_succ_self _)
        (fun hx => lt_irrefl _ (hb _ hx)) (k1.ext hb (ext_newDnf m0 _)) (fun x hx => Nat.lt_succ_of_lt (hb x hx)) k3 m hn
      obtain ⟨s', F', r, _, _, _, e1, _⟩ := p.ex
      have d0 := k1.den.2
      have d1 := r.den.2
      refine ⟨_, m0, h0, ?_⟩
      rw [p.dnf, dnf_newDnf]
      exact ⟨fun x hx => (d1 x).2 (e1.alt.1 x ((d0 x).1 hx)), fun h x hx => (d0 x).2 (e1.alt.2 h x ((d1 x).1 hx))⟩

/-- The shape of the normal form. -/
theorem normalForm_final [D : Durs K] {cl : Bool} [hall : Fact (cl = true → ∀ d : K, Durs.ok d)] {e : TRE K} (he : e.Clean) (hc : cl = true → e.Closed) {fuel d : Nat} {m : TMem K}
    (h : e.normalForm fuel = .ok (d, m)) :
    ∃ as s F, m.dnf d = as.map (fun x => [x]) ∧ Rep m (.seq as) s F ∧ NTree.GT cl s ∧ NTree.MergedL s ∧ (e.IntEnds → NTree.Nice s) ∧
      (e.Flat → NTree.EachPlain s) ∧ 2 ≤ fuel ∧ ∀ x, e.SignalsD x → NTree.altL s x := by
  unfold TRE.normalForm at h
  split at h
  · cases h
  · next l m0 h0 =>
    split at h
    · cases h
    · next m' hn =>
      cases h
      obtain ⟨k0, as, s, F, rfl, k1, k2, k3, _, _, _, k4, k5, _, _, k6, k7⟩ := toDNF_init e _ he hc good_empty l m0 h0
      have hb : Below m0 F := fun x hx => (k2 x hx).2
      have p := normDnf_does fuel (m0.newDnf (as.map fun x => [x])) m0.next as s F (dnf_newDnf m0 _) (Nat.lt_succ_self _)
        (fun hx => lt_irrefl _ (hb _ hx)) (k1.ext hb (ext_newDnf m0 _)) (fun x hx => Nat.lt_succ_of_lt (hb x hx)) k3 m hn
      obtain ⟨s', F', r, _, _, g, e1, _⟩ := p.ex
      refine ⟨as, s', F', by rw [p.dnf, dnf_newDnf], r, g, e1.merged, fun h => e1.nice (k5 h), fun h => e1.plain (k6 h), ?_, fun x hx => e1.alt.1 x (k7 x hx)⟩
      match fuel, as, k4, hn with
      | 0, _, _, hn => cases hn
      | 1, a :: as, _, hn =>
        simp only [normDnf, dnf_newDnf, List.map_cons, TMem.forM, normAtom] at hn
        cases hn
      | fuel + 2, _, _, _ => omega

/-- **C66, partial** (no signal is lost): the normal form has every signal of the expression.  Missing: the expressions which are not `Clean`,
in particular those which share parts (see `normalForm_lang_wrong`). -/
theorem normalForm_complete_partial (e : TRE K) (he : e.Clean) {fuel d : Nat} {m : TMem K} (h : e.normalForm fuel = .ok (d, m))
    {x : Sig K} (hx : e.Signals x) : Den m (.alt (m.dnf d)) x := by
  obtain ⟨l, m0, h0, hr⟩ := normalForm_rel (cl := false) he (fun h => by cases h) h
  exact hr.1 x (dnf_complete e h0 hx)

/-- **C66, partial**: the normal form has exactly the signals of the expression, if in addition the time restrictions have closed lower
ends and the disjunctive normal form is right (C42).  Missing: open lower ends, for which the claim is false already for C42. -/
theorem normalForm_lang_partial (e : TRE K) (he : e.Clean) (hc : e.Closed) (hd : e.Distributes) {fuel d : Nat} {m : TMem K}
    (h : e.normalForm fuel = .ok (d, m)) (x : Sig K) : Den m (.alt (m.dnf d)) x ↔ e.Signals x := by
  obtain ⟨l, m0, h0, hr⟩ := normalForm_rel (cl := true) he (fun _ => hc) h
  obtain ⟨l', m', h', hl⟩ := dnf_lang_partial e hd
  rw [h0] at h'
  cases h'
  exact ⟨fun hx => (hl x).1 (hr.2 rfl x hx), fun hx => hr.1 x ((hl x).2 hx)⟩

/-- `((a%[1,3) a+)%[2,5] b)+ | (a|aa)+ | ε`: with merging, restrictions and repetitions of one letter. -/
def nfEx : TRE ℚ :=
  .disj (.plus (.concat (.within (.concat (.within litA ⟨.fin 1 true, .fin 3 false⟩) (.plus litA)) ⟨.fin 2 true, .fin 5 true⟩) litB))
    (.disj (.plus (.disj litA (.concat litA litA))) .epsilon)

theorem nfEx_clean : nfEx.Clean := by
  refine ⟨⟨⟨⟨⟨⟨?_, fun h => h, 1, true, rfl, by norm_num⟩, ⟨?_, fun h => h⟩, trivial, trivial⟩, fun h => h.1, 2, true, rfl, by norm_num⟩, ?_,
    ⟨trivial, trivial⟩, trivial⟩, fun h => h.2⟩, ⟨⟨?_, ?_, ?_, trivial, trivial⟩, fun h => h.1⟩, trivial⟩ <;> simp [litA, litB, TRE.Clean]

theorem nfEx_closed : nfEx.Closed := by
  refine ⟨⟨⟨⟨⟨trivial, fun l s h => ?_⟩, trivial⟩, fun l s h => ?_⟩, trivial⟩, ⟨trivial, trivial, trivial⟩, trivial⟩
  · cases h; rfl
  · cases h; rfl

theorem nfEx_distributes : nfEx.Distributes := by
  refine ⟨⟨⟨⟨⟨trivial, fun c s t h h' => ?_⟩, trivial, trivial, trivial, fun h => h, fun h => h⟩, fun c s t h => h.elim⟩, trivial,
    ⟨trivial, trivial⟩, trivial, fun h => h, fun h => h⟩, ⟨trivial, trivial, trivial, trivial, trivial, fun h => h, fun h => h⟩, trivial⟩
  cases h
  simp at h'

theorem nfEx_ok : (nfEx.normalForm 30).isOk := by decide +kernel

/-- The hypotheses are met, and the normal form has the signal a of duration 2.5, b of duration 1. -/
example : ∃ d m, nfEx.normalForm 30 = .ok (d, m) ∧
    Den m (.alt (m.dnf d)) ((Sig.const 97 (5/2) (by norm_num)).app (Sig.const 98 1 (by norm_num))) := by
  cases h : nfEx.normalForm 30 with
  | error e =>
    have := nfEx_ok
    rw [h] at this
    cases this
  | ok r =>
    obtain ⟨d, m⟩ := r
    refine ⟨d, m, rfl, (normalForm_lang_partial nfEx nfEx_clean nfEx_closed nfEx_distributes h _).2 ?_⟩
    refine .inl (.one ⟨_, _, rfl, ⟨⟨Sig.const 97 (3/2) (by norm_num), Sig.const 97 1 (by norm_num), ?_, ⟨⟨_, _, rfl⟩, ?_⟩, .one ⟨_, _, rfl⟩⟩, ?_⟩, _, _, rfl⟩)
    · rw [Sig.const_app]
      exact Sig.const_congr _ _ _ (by norm_num)
    · constructor <;> norm_num [Interval.Above, Sig.const, Bnd.sat]
    · constructor <;> norm_num [Interval.Above, Sig.const, Bnd.sat]

/-- `a%(1,2) (a%(1,2) | b)`. -/
def nfBad : TRE ℚ :=
  .concat (.within litA ⟨.fin 1 false, .fin 2 false⟩) (.disj (.within litA ⟨.fin 1 false, .fin 2 false⟩) litB)

/-- **C66 is false** (`a%(1,2) (a%(1,2) | b)`): the two alternatives share the letter a, and merging the two letters in the first alternative
changes the second one to `a%(2,4) b`.  The signal a of duration 1.5, b of duration 1 is lost. -/
theorem normalForm_lang_wrong : ∃ x : Sig ℚ, nfBad.Signals x ∧
    ∃ d m, nfBad.normalForm 20 = .ok (d, m) ∧ ¬ Den m (.alt (m.dnf d)) x := by
  refine ⟨(Sig.const 97 (3/2) (by norm_num)).app (Sig.const 98 1 (by norm_num)), ⟨_, _, rfl, ⟨⟨_, _, rfl⟩, ?_⟩, .inr ⟨_, _, rfl⟩⟩, ?_⟩
  · constructor <;> norm_num [Interval.Above, Sig.const, Bnd.sat]
  · have hv : dnfView 13 ((nfBad.normalForm 20).map fun r => (r.2.dnf r.1, r.2)) = .inr ([[10], [11]],
        [(.moved, 97, [⟨.fin 0 true, .inf false⟩]), (.singleton 0, 0, []),
         (.moved, 97, [⟨.fin 2 false, .fin 4 false⟩]), (.singleton 2, 0, []),
         (.moved, 97, [⟨.fin 0 true, .inf false⟩]), (.singleton 4, 0, []),
         (.moved, 97, [⟨.fin 1 false, .fin 2 false⟩]), (.singleton 6, 0, []),
         (.moved, 98, [⟨.fin 0 true, .inf false⟩]), (.singleton 8, 0, []),
         (.singleton 2, 0, []), (.concat [3, 9], 0, []), (.moved, 0, [])]) := by decide +kernel
    obtain ⟨m', h, hv⟩ := dnfView_ok hv
    cases hn : nfBad.normalForm 20 with
    | error e => rw [hn] at h; cases h
    | ok r =>
      obtain ⟨d, m⟩ := r
      rw [hn] at h
      simp only [Except.map, Except.ok.injEq, Prod.mk.injEq] at h
      obtain ⟨hd, rfl⟩ := h
      refine ⟨d, m, rfl, fun hx => ?_⟩
      rw [hd, den_alt] at hx
      obtain ⟨c, hc, hx⟩ := hx
      have low : ∀ t, Den m (.atom 3) t ∨ Den m (.atom 10) t → 2 < t.dur ∧ ∀ u, 0 ≤ u → u < t.dur → t.val u = 97 := by
        intro t ht
        rw [den_singleton (hv 3 _ (by decide) rfl).1, den_singleton (hv 10 _ (by decide) rfl).1, or_self] at ht
        obtain ⟨d, hd, rfl, I, hI, hm⟩ := ht
        rw [(hv 2 _ (by decide) rfl).2] at hI ⊢
        rw [List.mem_singleton.1 hI] at hm
        refine ⟨show (2 : ℚ) < d from hm.1, fun u h0 h1 => ?_⟩
        simp only [Sig.const]
        exact if_pos ⟨h0, h1⟩
      simp only [List.mem_cons, List.not_mem_nil, or_false] at hc
      rcases hc with rfl | rfl
      · have := (low _ (.inr (hx 10 (by simp)))).2 2 (by norm_num) (by norm_num [Sig.app, Sig.const])
        norm_num [Sig.app, Sig.const] at this
      · have h11 := hx 11 (by simp)
        rw [den_concat (hv 11 _ (by decide) rfl).1, den_cons] at h11
        obtain ⟨y, z, e, hy, _⟩ := h11
        obtain ⟨l1, l2⟩ := low y (.inl hy)
        have e' := congrArg (fun s => Sig.val s (7/4)) e
        have e2 : (y.app z).val (7/4) = y.val (7/4) := by
          simp only [Sig.app]
          exact if_pos (by linarith)
        simp only [e2, l2 (7/4) (by norm_num) (by linarith)] at e'
        norm_num [Sig.app, Sig.const] at e'

end Verif.Props
