import Verif.Lemmas.NormalFormTree

/-!
# The normal form of a tree which is stored without sharing
-/

set_option linter.unusedSectionVars false

namespace Verif.TMem

open NTree

variable {K : Type} [Field K] [LinearOrder K] [IsStrictOrderedRing K]

/-- The objects at address `x` are the same. -/
structure Same (m m' : TMem K) (x : Nat) : Prop where
  atom : m'.atom x = m.atom x
  sing : m'.sing x = m.sing x
  adec : m'.adec x = m.adec x
  dnf : m'.dnf x = m.dnf x
  ddec : m'.ddec x = m.ddec x

theorem Same.rfl' (m : TMem K) (x : Nat) : Same m m x := ⟨rfl, rfl, rfl, rfl, rfl⟩

theorem Same.trans {m m' m'' : TMem K} {x : Nat} (h : Same m m' x) (h' : Same m' m'' x) : Same m m'' x :=
  ⟨h'.atom.trans h.atom, h'.sing.trans h.sing, h'.adec.trans h.adec, h'.dnf.trans h.dnf, h'.ddec.trans h.ddec⟩

/-- The objects outside of `F` are unchanged. -/
structure Agree (F : Set Nat) (m m' : TMem K) : Prop where
  next : m.next ≤ m'.next
  same : ∀ x < m.next, x ∉ F → Same m m' x

theorem Agree.rfl' (F : Set Nat) (m : TMem K) : Agree F m m := ⟨le_refl _, fun x _ _ => .rfl' m x⟩

/-- Addresses in `F'` are in `F` or new. -/
def Sub (m : TMem K) (F F' : Set Nat) : Prop := ∀ x ∈ F', x ∈ F ∨ m.next ≤ x

/-- All addresses have been given out. -/
def Below (m : TMem K) (F : Set Nat) : Prop := ∀ x ∈ F, x < m.next

theorem Agree.trans {F G H : Set Nat} {m m' m'' : TMem K} (h : Agree F m m') (h' : Agree G m' m'') (hF : F ⊆ H) (hG : Sub m H G) :
    Agree H m m'' := by
  refine ⟨le_trans h.next h'.next, fun x hx hn => ?_⟩
  refine (h.same x hx fun h => hn (hF h)).trans (h'.same x (lt_of_lt_of_le hx h.next) fun hg => ?_)
  rcases hG x hg with h1 | h1
  · exact hn h1
  · exact absurd hx (not_lt.2 h1)

theorem Agree.mono {F H : Set Nat} {m m' : TMem K} (h : Agree F m m') (hF : F ⊆ H) : Agree H m m' :=
  ⟨h.next, fun x hx hn => h.same x hx fun h => hn (hF h)⟩

/-- The tree `t` is stored at a part `p` of the memory, using only addresses in `F`, without sharing. -/
inductive Rep (m : TMem K) : Part → NTree K → Set Nat → Prop
  | sing {a s F} (h : m.atom a = .singleton s) (ha : a ∈ F) (hs : s ∈ F) : Rep m (.atom a) (.sing (m.sing s).1 (m.sing s).2) F
  | eps {a F} (h : m.atom a = .epsilon) (ha : a ∈ F) : Rep m (.atom a) .eps F
  | cat {a l s F G} (h : m.atom a = .concat l) (ha : a ∈ F) (hG : G ⊆ F) (hn : a ∉ G) (hr : Rep m (.seq l) s G) :
    Rep m (.atom a) (.cat s) F
  | plus {a d l s F G} (h : m.atom a = .plus d) (hd : m.dnf d = l.map fun x => [x]) (ha : a ∈ F) (hdF : d ∈ F) (hG : G ⊆ F) (hn : a ∉ G)
    (hdn : d ∉ G) (had : a ≠ d) (hr : Rep m (.seq l) s G) : Rep m (.atom a) (.plus s) F
  | within {a b I t F G} (h : m.atom a = .within b I) (ha : a ∈ F) (hG : G ⊆ F) (hn : a ∉ G) (hr : Rep m (.atom b) t G) :
    Rep m (.atom a) (.within t I) F
  | nil {F} : Rep m (.seq []) .nil F
  | cons {a l t s F F1 F2} (h1 : F1 ⊆ F) (h2 : F2 ⊆ F) (hd : ∀ x ∈ F1, x ∉ F2) (ht : Rep m (.atom a) t F1) (hs : Rep m (.seq l) s F2) :
    Rep m (.seq (a :: l)) (.cons t s) F

theorem Rep.mono {m : TMem K} {p : Part} {t : NTree K} {F F' : Set Nat} (h : Rep m p t F) (hF : F ⊆ F') : Rep m p t F' := by
  cases h with
  | sing h ha hs => exact .sing h (hF ha) (hF hs)
  | eps h ha => exact .eps h (hF ha)
  | cat h ha hG hn hr => exact .cat h (hF ha) (hG.trans hF) hn hr
  | plus h hd ha hdF hG hn hdn had hr => exact .plus h hd (hF ha) (hF hdF) (hG.trans hF) hn hdn had hr
  | within h ha hG hn hr => exact .within h (hF ha) (hG.trans hF) hn hr
  | nil => exact .nil
  | cons h1 h2 hd ht hs => exact .cons (h1.trans hF) (h2.trans hF) hd ht hs

theorem Rep.frame {m m' : TMem K} {p : Part} {t : NTree K} {F : Set Nat} (h : Rep m p t F) (hs : ∀ x ∈ F, m'.atom x = m.atom x ∧
    m'.sing x = m.sing x ∧ m'.dnf x = m.dnf x) : Rep m' p t F := by
  induction h with
  | sing h ha hs' =>
    rw [← (hs _ hs').2.1]
    exact .sing ((hs _ ha).1.trans h) ha hs'
  | eps h ha => exact .eps ((hs _ ha).1.trans h) ha
  | cat h ha hG hn _ ih => exact .cat ((hs _ ha).1.trans h) ha hG hn (ih fun x hx => hs x (hG hx))
  | plus h hd ha hdF hG hn hdn had _ ih =>
    exact .plus ((hs _ ha).1.trans h) ((hs _ hdF).2.2.trans hd) ha hdF hG hn hdn had (ih fun x hx => hs x (hG hx))
  | within h ha hG hn _ ih => exact .within ((hs _ ha).1.trans h) ha hG hn (ih fun x hx => hs x (hG hx))
  | nil => exact .nil
  | cons h1 h2 hd _ _ ih1 ih2 => exact .cons h1 h2 hd (ih1 fun x hx => hs x (h1 hx)) (ih2 fun x hx => hs x (h2 hx))

theorem Rep.same {m m' : TMem K} {p : Part} {t : NTree K} {F : Set Nat} (h : Rep m p t F) (hs : ∀ x ∈ F, Same m m' x) : Rep m' p t F :=
  h.frame fun x hx => ⟨(hs x hx).atom, (hs x hx).sing, (hs x hx).dnf⟩

theorem Rep.self {m : TMem K} {a : Nat} {t : NTree K} {F : Set Nat} (h : Rep m (.atom a) t F) : a ∈ F := by
  cases h <;> assumption

theorem Rep.sing_inv {m : TMem K} {a : Nat} {c : Alphabet} {S : List (Interval K)} {F : Set Nat} (h : Rep m (.atom a) (.sing c S) F) :
    ∃ s, m.atom a = .singleton s ∧ m.sing s = (c, S) ∧ a ∈ F ∧ s ∈ F := by
  generalize hp : Part.atom a = p at h
  generalize ht : NTree.sing c S = t at h
  cases h with
  | sing h ha hs =>
    cases hp; cases ht
    exact ⟨_, h, rfl, ha, hs⟩
  | _ => cases ht

theorem Rep.not_moved {m : TMem K} {a : Nat} {t : NTree K} {F : Set Nat} (h : Rep m (.atom a) t F) : m.atom a ≠ .moved := by
  cases h <;> simp_all

theorem Rep.eps_iff {m : TMem K} {a : Nat} {t : NTree K} {F : Set Nat} (h : Rep m (.atom a) t F) : m.atom a = .epsilon ↔ t = .eps := by
  cases h <;> simp_all

theorem Rep.sing_of {m : TMem K} {a s : Nat} {t : NTree K} {F : Set Nat} (h : Rep m (.atom a) t F) (hs : m.atom a = .singleton s) :
    t = .sing (m.sing s).1 (m.sing s).2 ∧ s ∈ F := by
  cases h with
  | sing h ha hs' => rw [hs] at h; cases h; exact ⟨rfl, hs'⟩
  | _ => simp_all

/-- The meaning of a stored tree. -/
theorem Rep.den {m : TMem K} {p : Part} {t : NTree K} {F : Set Nat} (h : Rep m p t F) :
    match p with
    | .atom a => ∀ x, Den m (.atom a) x ↔ t.lang x
    | .seq l => (∀ x, Den m (.seq l) x ↔ t.seqL x) ∧ ∀ x, Den m (.alt (l.map fun x => [x])) x ↔ t.altL x
    | _ => True := by
  induction h with
  | sing h ha hs => intro x; rw [den_singleton h]; simp only [lang, okAny_all]
  | eps h ha => intro x; rw [den_epsilon h]; rfl
  | cat h ha hG hn _ ih => intro x; rw [den_concat h]; exact ih.1 x
  | plus h hd ha hdF hG hn hdn had _ ih =>
    intro x
    rw [den_plus h, hd, den_rep]
    exact ⟨iter_congr fun x hx => (ih.2 x).1 hx, iter_congr fun x hx => (ih.2 x).2 hx⟩
  | within h ha hG hn _ ih => intro x; rw [den_within h, ih x]; rfl
  | nil =>
    refine ⟨fun x => den_nil, fun x => ?_⟩
    rw [den_alt]
    simp [altL]
  | cons h1 h2 hd _ _ ih1 ih2 =>
    refine ⟨fun x => ?_, fun x => ?_⟩
    · rw [den_cons]
      simp only [seqL, ih1, ih2.1]
    · simp only [altL, ← ih1, ← ih2.2, List.map_cons, den_alt, List.mem_cons, exists_eq_or_imp, forall_eq, List.not_mem_nil, or_false]

/-! ## Postconditions -/

variable [D : Durs K]

/-- The decision tells the letter of a singleton. -/
structure DecFor (d : Decision) (t : NTree K) : Prop where
  ok : d.Ok
  eps : t = .eps → d.chars = [0]
  one : ∀ c, d.chars = [c] → (c = 0 ∧ t = .eps) ∨ (c ≠ 0 ∧ ∃ S, t = .sing c S)
  sing : ∀ c S, t = .sing c S → d.chars = [c]

/-- The decisions of a list. -/
def Decs (m : TMem K) : List Nat → NTree K → Prop
  | [], .nil => True
  | a :: l, .cons t s => (∃ d, m.adec a = some d ∧ DecFor d t) ∧ Decs m l s
  | _, _ => False

/-- After the normal form of the expression `t` at `a` has been computed. -/
structure APost (cl : Bool) (m : TMem K) (a : Nat) (t : NTree K) (F : Set Nat) (m' : TMem K) : Prop where
  agree : Agree F m m'
  ex : ∃ t' F', Rep m' (.atom a) t' F' ∧ Sub m F F' ∧ Below m' F' ∧ GT cl t' ∧ Rel cl t.lang t'.lang ∧ Keeps t t' ∧
    ∃ d, m'.adec a = some d ∧ DecFor d t'

/-- After the normal forms of the list `s` at `l` have been computed. -/
structure LPost (cl : Bool) (m : TMem K) (l : List Nat) (s : NTree K) (F : Set Nat) (m' : TMem K) : Prop where
  agree : Agree F m m'
  ex : ∃ s' F', Rep m' (.seq l) s' F' ∧ Sub m F F' ∧ Below m' F' ∧ GT cl s' ∧ RelS cl s s' ∧ Decs m' l s'

variable {cl : Bool} [hall : Fact (cl = true → ∀ d : K, Durs.ok d)]

theorem Decs.same {m m' : TMem K} {F : Set Nat} : ∀ {l : List Nat} {s : NTree K}, Rep m (.seq l) s F → (∀ x ∈ F, m'.adec x = m.adec x) →
    Decs m l s → Decs m' l s
  | [], .nil, _, _, _ => trivial
  | a :: l, .cons t s, hr, h, hd => by
    cases hr with
    | cons h1 h2 _ ht hs =>
      refine ⟨?_, Decs.same hs (fun x hx => h x (h2 hx)) hd.2⟩
      obtain ⟨d, e, hf⟩ := hd.1
      exact ⟨d, (h a (h1 ht.self)).trans e, hf⟩

theorem lpost_nil (m : TMem K) (F : Set Nat) : LPost cl m [] .nil F m :=
  ⟨.rfl' F m, .nil, ∅, .nil, fun x hx => hx.elim, fun x hx => hx.elim, trivial, trivial, trivial⟩

theorem lpost_cons {m m1 m2 : TMem K} {a : Nat} {l : List Nat} {t s : NTree K} {F F1 F2 : Set Nat} (h1 : F1 ⊆ F) (h2 : F2 ⊆ F)
    (hd : ∀ x ∈ F1, x ∉ F2) (hb : Below m F) (ha : APost cl m a t F1 m1) (hl : LPost cl m1 l s F2 m2) :
    LPost cl m (a :: l) (.cons t s) F m2 := by
  obtain ⟨t', F1', r1, s1, b1, g1, e1, p1, d, d1, d2⟩ := ha.ex
  obtain ⟨s', F2', r2, s2, b2, g2, e2, p2⟩ := hl.ex
  have dis : ∀ x ∈ F1', x ∉ F2 := fun x hx hx2 => by
    rcases s1 x hx with h | h
    · exact hd x h hx2
    · exact absurd (hb x (h2 hx2)) (not_lt.2 h)
  have same : ∀ x ∈ F1', Same m1 m2 x := fun x hx => hl.agree.same x (b1 x hx) (dis x hx)
  refine ⟨ha.agree.trans hl.agree h1 fun x hx => .inl (h2 hx), .cons t' s', F1' ∪ F2', ?_, ?_, ?_, ⟨g1, g2⟩, ⟨e1, p1, e2⟩, ?_, p2⟩
  · refine .cons Set.subset_union_left Set.subset_union_right (fun x hx hx2 => ?_) (r1.same same) r2
    rcases s2 x hx2 with h | h
    · exact dis x hx h
    · exact absurd (b1 x hx) (not_lt.2 h)
  · rintro x (hx | hx)
    · exact (s1 x hx).imp (fun h => h1 h) id
    · exact (s2 x hx).imp (fun h => h2 h) fun h => le_trans ha.agree.next h
  · rintro x (hx | hx)
    · exact lt_of_lt_of_le (b1 x hx) hl.agree.next
    · exact b2 x hx
  · exact ⟨d, ((same a r1.self).adec).trans d1, d2⟩

/-- What a function on expressions does. -/
def Does (cl : Bool) (f : TMem K → Nat → Except Err (TMem K)) : Prop :=
  ∀ m a t F, Rep m (.atom a) t F → Below m F → GT cl t → ∀ m', f m a = .ok m' → APost cl m a t F m'

theorem forM_does {f : TMem K → Nat → Except Err (TMem K)} (hf : Does cl f) : ∀ (l : List Nat) (s : NTree K) (m : TMem K) (F : Set Nat),
    Rep m (.seq l) s F → Below m F → GT cl s → ∀ m', forM (forM f) m (l.map fun x => [x]) = .ok m' → LPost cl m l s F m'
  | [], s, m, F, hr, _, _, m', h => by
    cases hr
    cases h
    exact lpost_nil m F
  | a :: l, s, m, F, hr, hb, hg, m', h => by
    cases hr with
    | cons h1 h2 hd ht hs =>
      simp only [List.map_cons, forM] at h
      cases hfa : f m a with
      | error e => rw [hfa] at h; cases h
      | ok m1 =>
        rw [hfa] at h
        have ha := hf m a _ _ ht (fun x hx => hb x (h1 hx)) hg.1 m1 hfa
        refine lpost_cons h1 h2 hd hb ha (forM_does hf l _ m1 _ (hs.same fun x hx => ?_) (fun x hx => ?_) hg.2 m' h)
        · exact ha.agree.same x (hb x (h2 hx)) fun hx1 => hd x hx1 hx
        · exact lt_of_lt_of_le (hb x (h2 hx)) ha.agree.next

theorem setInter_one {c e : Nat} {l : List Nat} (hl : l = [] ∨ ∃ x, l = [x]) (h : setInter [c] l = [e]) : c = e ∧ l = [c] := by
  rcases hl with rfl | ⟨x, rfl⟩
  · simp [setInter, interAux] at h
  · simp only [setInter, interAux] at h
    split at h
    · cases h
    · split at h
      · cases h
      · next h1 h2 =>
        have : c = x := le_antisymm (not_lt.1 h2) (not_lt.1 h1)
        cases h
        exact ⟨rfl, by rw [this]⟩

theorem Decision.Ok.chars {d : Decision} (h : d.Ok) : d.chars = [] ∨ ∃ x, d.chars = [x] := by
  rcases h with h | ⟨_, h⟩
  · exact .inl h
  · exact .inr h

/-- The decision of a concatenation of one letter. -/
theorem chars_concat {d i : Decision} {c : Alphabet} (hc : c ≠ 0) (hd : d.chars = [0] ∨ d.chars = [c]) (hi : i.chars = [c]) :
    (d.concat i).chars = [c] := by
  have h0 : i.hasEpsilon = false := by simp [Decision.hasEpsilon, hi, hc]
  rcases hd with hd | hd
  · simp [Decision.concat, Decision.hasEpsilon, hd, hi, hc]
  · have h1 : d.hasEpsilon = false := by simp [Decision.hasEpsilon, hd, hc]
    simp [Decision.concat, h0, h1, hd, hi, setInter, interAux]

/-- The decision of a concatenation is a letter only if all elements have this letter. -/
theorem concat_chars {d i : Decision} {c : Alphabet} (hd : d.Ok) (hi : i.Ok) (h0 : i.chars ≠ [0]) (h : (d.concat i).chars = [c]) :
    c ≠ 0 ∧ i.chars = [c] ∧ (d.chars = [0] ∨ d.chars = [c]) := by
  have hi0 : i.hasEpsilon = false := by
    rcases Decision.Ok.chars hi with h | ⟨x, h⟩
    · simp [Decision.hasEpsilon, h]
    · have : x ≠ 0 := by rintro rfl; exact h0 h
      simp [Decision.hasEpsilon, h, this]
  simp only [Decision.concat, hi0, Bool.false_eq_true, if_false] at h
  rcases Decision.Ok.chars hd with e | ⟨x, e⟩
  · simp [Decision.hasEpsilon, e, setInter] at h
  · by_cases hx : x = 0
    · subst hx
      simp only [Decision.hasEpsilon, e, List.head?_cons, beq_self_eq_true, if_true] at h
      refine ⟨?_, h, .inl e⟩
      rintro rfl; exact h0 h
    · have : (some x == some (0 : Nat)) = false := by simp [hx]
      simp only [Decision.hasEpsilon, e, List.head?_cons, this, Bool.false_eq_true, if_false] at h
      obtain ⟨g1, g2⟩ := setInter_one (Decision.Ok.chars hi) h
      subst g1
      exact ⟨hx, g2, .inr e⟩

theorem concatLoop_does {f : TMem K → Nat → Except Err (TMem K)} (hf : Does cl f) : ∀ (l : List Nat) (s : NTree K) (m : TMem K) (F : Set Nat)
    (dec : Decision), Rep m (.seq l) s F → Below m F → GT cl s → NoEps s → dec.Ok →
    ∀ dec' m', concatLoop f m dec l = .ok (dec', m') → LPost cl m l s F m' ∧ dec'.Ok ∧
      (∀ c s' F', dec'.chars = [c] → Rep m' (.seq l) s' F' → (dec.chars = [0] ∨ dec.chars = [c]) ∧ AllSing c s' ∧ (s' ≠ .nil → c ≠ 0)) ∧
      ∀ c s' F', c ≠ 0 → Rep m' (.seq l) s' F' → AllSing c s' → (dec.chars = [0] ∧ s' ≠ .nil ∨ dec.chars = [c]) → dec'.chars = [c]
  | [], s, m, F, dec, hr, _, _, _, hdec, dec', m', h => by
    cases hr
    cases h
    refine ⟨lpost_nil m F, hdec, fun c s' F' hc hr => ?_, fun c s' F' _ hr _ h => ?_⟩
    · cases hr
      exact ⟨.inr hc, trivial, fun h => absurd rfl h⟩
    · cases hr
      exact h.elim (fun h => absurd rfl h.2) id
  | a :: l, s, m, F, dec, hr, hb, hg, hn, hdec, dec', m', h => by
    cases hr with
    | cons h1 h2 hd ht hs =>
      simp only [concatLoop] at h
      cases hfa : f m a with
      | error e => rw [hfa] at h; cases h
      | ok m1 =>
        rw [hfa] at h
        have ha := hf m a _ _ ht (fun x hx => hb x (h1 hx)) hg.1 m1 hfa
        obtain ⟨t', F1', r1, s1, b1, g1, e1, p1, d, d1, d2⟩ := ha.ex
        simp only [decisionOf, d1] at h
        obtain ⟨k1, k2, k3, k4⟩ := concatLoop_does hf l _ m1 _ (dec.concat d) (hs.same fun x hx => ha.agree.same x (hb x (h2 hx)) fun hx1 => hd x hx1 hx)
          (fun x hx => lt_of_lt_of_le (hb x (h2 hx)) ha.agree.next) hg.2 hn.2 (Decision.ok_concat hdec d2.ok) dec' m' h
        have hne : t' ≠ .eps := fun e => hn.1 (p1.eps.1 e)
        have hd0 : d.chars ≠ [0] := fun e => by
          rcases d2.one 0 e with ⟨_, h⟩ | ⟨h, _⟩
          · exact hne h
          · exact h rfl
        have dis : ∀ x ∈ F1', Same m1 m' x := fun x hx => k1.agree.same x (b1 x hx) fun hx2 => by
          rcases s1 x hx with h | h
          · exact hd x h hx2
          · exact absurd (hb x (h2 hx2)) (not_lt.2 h)
        refine ⟨lpost_cons h1 h2 hd hb ha k1, k2, fun c s' F' hc hr => ?_, fun c s' F' hc hr hal hdc => ?_⟩
        · cases hr with
          | cons _ _ _ ht' hs' =>
            obtain ⟨q1, q2, _⟩ := k3 c _ _ hc hs'
            have hcc : (dec.concat d).chars = [c] := by
              rcases q1 with q | q
              · exact absurd rfl (concat_chars hdec d2.ok hd0 q).1
              · exact q
            obtain ⟨w1, w2, w3⟩ := concat_chars hdec d2.ok hd0 hcc
            refine ⟨w3, ⟨?_, q2⟩, fun _ => w1⟩
            rcases d2.one c w2 with ⟨h, _⟩ | ⟨_, S, rfl⟩
            · exact absurd h w1
            · obtain ⟨s0, a1, a2, a3, a4⟩ := r1.sing_inv
              have := ht'.sing_of ((dis a a3).atom.trans a1)
              rw [(dis s0 a4).sing, a2] at this
              exact ⟨S, this.1⟩
        · cases hr with
          | cons _ _ _ ht' hs' =>
            obtain ⟨⟨S, rfl⟩, hal⟩ := hal
            obtain ⟨s0, a1, a2, _, _⟩ := ht'.sing_inv
            obtain ⟨e, a4⟩ := r1.sing_of ((dis a r1.self).atom.symm.trans a1)
            have hcc : (m1.sing s0).1 = c := by rw [← (dis s0 a4).sing, a2]
            rw [hcc] at e
            exact k4 c _ _ hc hs' hal (.inr (chars_concat hc (hdc.imp And.left id) (d2.sing c _ e)))

/-! ## Merging -/

theorem agree_setSing {F : Set Nat} {m : TMem K} {s : Nat} {v : Alphabet × List (Interval K)} (hs : s ∈ F) : Agree F m (m.setSing s v) := by
  refine ⟨le_refl _, fun x _ hx => ⟨rfl, ?_, rfl, rfl, rfl⟩⟩
  have : x ≠ s := fun e => hx (e ▸ hs)
  simp [setSing, put, this]

theorem merge_does : ∀ (r : List Nat) (pre : Nat) (m : TMem K) (x : Nat) (s : NTree K) (F : Set Nat),
    Rep m (.seq (x :: r)) s F → Below m F → NoEps s → GT cl s → ∀ l m', merge pre m x r = .ok (l, m') →
    l ≠ [] ∧ m'.next = m.next ∧ Agree F m m' ∧ ∃ s', Rep m' (.seq l) s' F ∧ GT cl s' ∧ NoEps s' ∧ s' ≠ .nil ∧ Rel cl s.seqL s'.seqL ∧
      (∀ c, AllSing c s → ∃ S, s' = .cons (.sing c S) .nil) ∧ (∀ c S, s' = .cons (.sing c S) .nil → AllSing c s) ∧
      (Nice s → Nice s') ∧ headL s' = headL s ∧ Alt s' ∧ (MergedL s → MergedL s') ∧ (EachSing s → EachSing s')
  | [], pre, m, x, s, F, hr, hb, hn, hg, l, m', h => by
    have hr' := hr
    cases hr with
    | cons h1 h2 hd ht hs =>
      cases hs
      have : m.atom x ≠ .epsilon := fun e => hn.1 (ht.eps_iff.1 e)
      simp only [merge, this, and_false, if_false, Except.ok.injEq, Prod.mk.injEq] at h
      obtain ⟨rfl, rfl⟩ := h
      exact ⟨by simp, rfl, .rfl' F m, _, hr', hg, hn, by simp, Rel.rfl' _, fun c hc => by
        obtain ⟨⟨S, rfl⟩, _⟩ := hc
        exact ⟨S, rfl⟩, fun c S e => by cases e; exact ⟨⟨S, rfl⟩, trivial⟩, id, rfl, ⟨fun c _ => (by simp [headL]), trivial⟩, id, id⟩
  | y :: r, pre, m, x, s, F, hr, hb, hn, hg, l, m', h => by
    cases hr with
    | @cons _ _ t1 _ _ F1 F2 h1 h2 hd ht hs =>
      have hs0 := hs
      cases hs with
      | @cons _ _ t2 s2 _ F3 F4 h3 h4 hd' ht' hs' =>
        have step : (∀ c, ¬ AllSing c (.cons t1 (.cons t2 s2))) → (∀ c, headL (.cons t1 (.cons t2 s2)) = some c → headL (.cons t2 s2) ≠ some c) → ∀ l1 m1, merge (pre + 1) m y r = .ok (l1, m1) →
            x :: l1 ≠ [] ∧ m1.next = m.next ∧ Agree F m m1 ∧ ∃ s', Rep m1 (.seq (x :: l1)) s' F ∧ GT cl s' ∧ NoEps s' ∧ s' ≠ .nil ∧
              Rel cl (NTree.cons t1 (.cons t2 s2)).seqL s'.seqL ∧ (∀ c, AllSing c (.cons t1 (.cons t2 s2)) → ∃ S, s' = .cons (.sing c S) .nil) ∧
              (∀ c S, s' = .cons (.sing c S) .nil → AllSing c (.cons t1 (.cons t2 s2))) ∧
              (Nice (.cons t1 (.cons t2 s2)) → Nice s') ∧ headL s' = headL (.cons t1 (.cons t2 s2)) ∧ Alt s' ∧
              (MergedL (.cons t1 (.cons t2 s2)) → MergedL s') ∧ (EachSing (.cons t1 (.cons t2 s2)) → EachSing s') := by
          intro hno hal l1 m1 hm
          obtain ⟨i1, i2, i3, s', i4, i5, i6, i7, i8, i9, i10, i11, i12, i13, i14, i15⟩ :=
            merge_does r (pre + 1) m y _ F2 hs0 (fun x hx => hb x (h2 hx)) hn.2 hg.2 l1 m1 hm
          refine ⟨by simp, i2, i3.mono h2, .cons t1 s', ?_, ⟨hg.1, i5⟩, ⟨hn.1, i6⟩, by simp, ?_, fun c hc => absurd hc (hno c),
            fun c S e => (by cases e; exact absurd rfl i7), fun h => ⟨h.1, i11 h.2⟩, by cases t1 <;> rfl, ⟨fun c hc => ?_, i13⟩,
            fun h => ⟨h.1, i14 h.2⟩, fun h => ⟨h.1, i15 h.2⟩⟩
          · exact .cons h1 h2 hd (ht.same fun x hx => i3.same x (hb x (h1 hx)) (hd x hx)) i4
          · refine ⟨fun x hx => ?_, fun hc x hx => ?_⟩
            · rw [seqL] at hx ⊢
              obtain ⟨y, z, rfl, p, q⟩ := hx
              exact ⟨y, z, rfl, p, i8.1 z q⟩
            · rw [seqL] at hx ⊢
              obtain ⟨y, z, rfl, p, q⟩ := hx
              exact ⟨y, z, rfl, p, i8.2 hc z q⟩
          · rw [i12]
            exact hal c ((by cases t1 <;> rfl : headL (.cons t1 (.cons t2 s2)) = headL (.cons t1 s')).trans hc)
        have ne1 : m.atom x ≠ .epsilon := fun e => hn.1 (ht.eps_iff.1 e)
        have nosing1 : (∀ s, m.atom x ≠ .singleton s) → ∀ c, ¬ AllSing c (.cons t1 (.cons t2 s2)) := by
          rintro hno c ⟨⟨S, rfl⟩, _⟩
          obtain ⟨s, hs, _⟩ := ht.sing_inv
          exact hno s hs
        have nosing2 : (∀ s, m.atom y ≠ .singleton s) → ∀ c, ¬ AllSing c (.cons t1 (.cons t2 s2)) := by
          rintro hno c ⟨_, ⟨S, rfl⟩, _⟩
          obtain ⟨s, hs, _⟩ := ht'.sing_inv
          exact hno s hs
        unfold merge at h
        split at h
        · next e => exact absurd e ne1
        · next s0 s1 e0 e1 =>
          obtain ⟨rfl, m0⟩ := ht.sing_of e0
          obtain ⟨rfl, m1'⟩ := ht'.sing_of e1
          split at h
          · next hc =>
            have n4 : s0 ∉ F4 := fun h' => hd s0 m0 (h4 h')
            have := merge_does r pre (m.setSing s0 ((m.sing s0).1, Interval.addAll (m.sing s0).2 (m.sing s1).2)) x
              (.cons (.sing (m.sing s0).1 (Interval.addAll (m.sing s0).2 (m.sing s1).2)) s2) F
              (.cons h1 (h4.trans h2) (fun x hx hx' => hd x hx (h4 hx')) (by
                have := Rep.sing (m := m.setSing s0 ((m.sing s0).1, Interval.addAll (m.sing s0).2 (m.sing s1).2)) e0 ht.self m0
                simpa only [setSing, put, if_true] using this)
                (hs'.frame fun x hx => ⟨rfl, by
                  have : x ≠ s0 := fun e => n4 (e ▸ hx)
                  simp [setSing, put, this], rfl⟩))
              hb ⟨by simp, hn.2.2⟩ ⟨⟨hg.1.1, Interval.iok_addAll hg.1.2 hg.2.1.2⟩, hg.2.2⟩ l m' h
            obtain ⟨i1, i2, i3, s', i4, i5, i6, i7, i8, i9, i10, i11, i12, i13, i14, i15⟩ := this
            refine ⟨i1, i2, (agree_setSing (h1 m0)).trans i3 (Set.Subset.refl F) (fun x hx => .inl hx), s', i4, i5, i6, i7, ?_, ?_, ?_,
              fun h => i11 ⟨Interval.intEnds_addAll h.1 h.2.1, h.2.2⟩, i12, i13, fun h => i14 ⟨trivial, h.2.2⟩, fun h => i15 ⟨⟨_, _, rfl⟩, h.2.2⟩⟩
            · refine Rel.trans ?_ i8
              rw [← hc]
              exact rel_merge s2 hg.1.2 hg.2.1.2
            · rintro c ⟨⟨S, hS⟩, _, hr⟩
              cases hS
              exact i9 _ ⟨⟨_, rfl⟩, hr⟩
            · intro c S e
              obtain ⟨⟨T, hT⟩, hr⟩ := i10 c S e
              simp only [NTree.sing.injEq] at hT
              rw [← hc, hT.1]
              exact ⟨⟨_, rfl⟩, ⟨_, rfl⟩, hr⟩
          · next hc =>
            split at h
            · cases h
            · next l1 m1 hm =>
              cases h
              refine step ?_ ?_ l1 _ hm
              · rintro c ⟨⟨S, hS⟩, ⟨T, hT⟩, _⟩
                simp only [NTree.sing.injEq] at hS hT
                exact hc (hS.1.trans hT.1.symm)
              · intro c h1 h2
                simp only [headL, Option.some.injEq] at h1 h2
                exact hc (h1.trans h2.symm)
        · cases h
        · cases h
        · cases h
        · next n1 n2 n3 n4 n5 =>
          split at h
          · cases h
          · next l1 m1 hm =>
            cases h
            refine step ?_ ?_ l1 _ hm
            · rintro c ⟨⟨S, rfl⟩, ⟨T, rfl⟩, _⟩
              obtain ⟨s0, e0, _⟩ := ht.sing_inv
              obtain ⟨s1, e1, _⟩ := ht'.sing_inv
              exact n2 _ _ e0 e1
            · intro c h1 h2
              cases t1 <;> simp only [headL, Option.some.injEq, reduceCtorEq] at h1
              cases t2 <;> simp only [headL, Option.some.injEq, reduceCtorEq] at h2
              obtain ⟨s0, e0, _⟩ := ht.sing_inv
              obtain ⟨s1, e1, _⟩ := ht'.sing_inv
              exact n2 _ _ e0 e1

/-! ## The cases of the normal form -/

/-- The ends of the cases: the node `a` is written last. -/
theorem apost_concat {m : TMem K} {a : Nat} {l : List Nat} {s : NTree K} {G F : Set Nat} {m1 m' : TMem K} {dec : Decision}
    (hG : G ⊆ F) (haF : a ∈ F) (haG : a ∉ G) (hb : Below m F) (hn : NoEps s) (hne : s ≠ .nil) (hl : LPost cl m l s G m1) (hok : dec.Ok)
    (hdec : ∀ c s' F', dec.chars = [c] → Rep m1 (.seq l) s' F' → AllSing c s' ∧ (s' ≠ .nil → c ≠ 0))
    (hdec' : ∀ c s' F', c ≠ 0 → Rep m1 (.seq l) s' F' → AllSing c s' → s' ≠ .nil → dec.chars = [c])
    (h : m1.finishConcat a l dec = .ok m') : APost cl m a (.cat s) F m' := by
  obtain ⟨s1, G1, r1, u1, b1, g1, e1, p1⟩ := hl.ex
  have haG1 : a ∉ G1 := fun h' => by
    rcases u1 a h' with h | h
    · exact haG h
    · exact absurd (hb a haF) (not_lt.2 h)
  cases l with
  | nil =>
    cases r1
    exact absurd rfl (e1.ne_nil hne)
  | cons x r =>
    simp only [finishConcat] at h
    cases hm : merge 0 m1 x r with
    | error e => rw [hm] at h; cases h
    | ok q =>
      obtain ⟨l2, m2⟩ := q
      rw [hm] at h
      obtain ⟨i1, i2, i3, s2, i4, i5, i6, i7, i8, i9, i10, i11, i12, i13, i14, i15⟩ := merge_does r 0 m1 x s1 G1 r1 b1 (e1.noEps hn) g1 l2 m2 hm
      have hag : Agree F m m2 := hl.agree.trans i3 hG fun x hx => (u1 x hx).imp (fun h => hG h) id
      have rel : Rel cl (NTree.cat s).lang s2.seqL := by
        have := e1.seq.trans i8
        simpa only [NTree.lang] using this
      have ag : ∀ node, Agree F m ((m2.setADec a dec).setAtom a node) := fun node => by
        refine ⟨hag.next, fun x hx hxF => ?_⟩
        have : x ≠ a := fun e => hxF (e ▸ haF)
        have k := hag.same x hx hxF
        exact ⟨by simpa [setAtom, setADec, put, this] using k.atom, k.sing, by simpa [setAtom, setADec, put, this] using k.adec, k.dnf, k.ddec⟩
      have fr : ∀ {p t node}, Rep m2 p t G1 → Rep ((m2.setADec a dec).setAtom a node) p t G1 := fun hr => hr.frame fun x hx => by
        have : x ≠ a := fun e => haG1 (e ▸ hx)
        exact ⟨by simp [setAtom, setADec, put, this], rfl, rfl⟩
      have sb : Sub m F (insert a G1) := by
        rintro x (rfl | hx)
        · exact .inl haF
        · exact (u1 x hx).imp (fun h => hG h) id
      have bl : ∀ node, Below ((m2.setADec a dec).setAtom a node) (insert a G1) := by
        rintro node x (rfl | hx)
        · exact lt_of_lt_of_le (hb _ haF) hag.next
        · show x < m2.next
          rw [i2]
          exact b1 x hx
      have dok : ∀ c, dec.chars = [c] → c ≠ 0 ∧ ∃ S, s2 = .cons (.sing c S) .nil := fun c hc => by
        obtain ⟨k1, k2⟩ := hdec c s1 G1 hc r1
        exact ⟨k2 (e1.ne_nil hne), i9 c k1⟩
      by_cases hone : ∃ y, l2 = [y]
      · obtain ⟨y, rfl⟩ := hone
        cases i4 with
        | @cons _ _ t2 _ _ F3 F4 h1 h2 hd ht hs =>
          cases hs
          have rel2 : Rel cl (NTree.cat s).lang t2.lang :=
            rel.trans ⟨fun x hx => (seqL_one _ _).1 hx, fun _ x hx => (seqL_one _ _).2 hx⟩
          have dec2 : DecFor dec t2 := ⟨hok, fun e => absurd e i6.1, fun c hc => by
            obtain ⟨k1, S, k2⟩ := dok c hc
            cases k2
            exact .inr ⟨k1, S, rfl⟩, fun c S e => by
            subst e
            exact hdec' c s1 G1 i5.1.1 r1 (i10 c S rfl) (e1.ne_nil hne)⟩
          have kp : Keeps (.cat s) t2 := ⟨(i14 e1.merged).1, ⟨fun e => absurd e i6.1, fun e => (by cases e)⟩, fun h => (i11 (e1.nice h)).1, fun c h => by
            obtain ⟨S, k2⟩ := i9 c (e1.only h)
            cases k2
            exact ⟨S, rfl⟩, fun s' e h => by
            cases e
            exact .inr (.inl (i15 (e1.each h)).1)⟩
          have fin : ∀ node, Rep ((m2.setADec a dec).setAtom a node) (.atom a) t2 (insert a G1) →
              APost cl m a (.cat s) F ((m2.setADec a dec).setAtom a node) := fun node hr =>
            ⟨ag node, t2, insert a G1, hr, sb, bl node, i5.1, rel2, kp, dec,
              by simp [setAtom, setADec, put], dec2⟩
          have ins : F3 ⊆ insert a G1 := h1.trans (Set.subset_insert _ _)
          simp only [shorten] at h
          cases ht with
          | @sing _ s0 _ e ha hs =>
            rw [e] at h
            cases h
            refine fin _ ?_
            exact Rep.sing (m := (m2.setADec a dec).setAtom a (.singleton s0)) (by simp [setAtom, setADec, put]) (Set.mem_insert _ _) (ins hs)
          | eps e ha => exact absurd rfl i6.1
          | @cat _ l3 s3 _ G3 e ha hG3 hn3 hr3 =>
            rw [e] at h
            simp only at h
            split at h
            · cases h
            · cases h
            · cases h
              exact fin _ (.cat (by simp [setAtom, setADec, put]) (Set.mem_insert _ _) (Set.subset_insert _ _) haG1
                ((fr (hr3.mono (hG3.trans h1)))))
          | @plus _ d l3 s3 _ G3 e hd ha hdF hG3 hn3 hdn had hr3 =>
            rw [e] at h
            cases h
            exact fin _ (.plus (by simp [setAtom, setADec, put]) hd (Set.mem_insert _ _) (ins hdF) (hG3.trans ins)
              (fun h' => haG1 (h1 (hG3 h'))) hdn (fun e => haG1 (e ▸ h1 hdF)) (Rep.frame hr3 fun x hx => by
                have : x ≠ a := fun e => haG1 (e ▸ h1 (hG3 hx))
                exact ⟨by simp [setAtom, setADec, put, this], rfl, rfl⟩))
          | @within _ b I t3 _ G3 e ha hG3 hn3 hr3 =>
            rw [e] at h
            cases h
            exact fin _ (.within (by simp [setAtom, setADec, put]) (Set.mem_insert _ _) (Set.subset_insert _ _) haG1
                ((fr (hr3.mono (hG3.trans h1)))))
      · have hsh : m2.shorten l2 = .concat l2 := by
          match l2, hone with
          | [], _ => rfl
          | [y], h => exact absurd ⟨y, rfl⟩ h
          | _ :: _ :: _, _ => rfl
        simp only [hsh] at h
        split at h
        · cases h
        · cases h
        · cases h
          refine ⟨ag _, .cat s2, insert a G1, .cat (by simp [setAtom, setADec, put]) (Set.mem_insert _ _) (Set.subset_insert _ _) haG1 (fr i4),
            sb, bl _, ⟨i5, i6, i7⟩, by simpa only [NTree.lang] using rel, ⟨i13, ⟨fun e => (by cases e), fun e => (by cases e)⟩,
              fun h => i11 (e1.nice h), fun c h => ?_, fun s' e h => (by cases e; exact .inr (.inr ⟨_, rfl, i15 (e1.each h)⟩))⟩, dec,
            by simp [setAtom, setADec, put], ⟨hok, fun e => (by cases e), fun c hc => ?_, fun c S e => (by cases e)⟩⟩
          · obtain ⟨S, rfl⟩ := i9 c (e1.only h)
            cases i4 with
            | cons _ _ _ _ hs =>
              cases hs
              exact absurd ⟨_, rfl⟩ hone
          · obtain ⟨_, S, rfl⟩ := dok c hc
            cases i4 with
            | cons _ _ _ _ hs =>
              cases hs
              exact absurd ⟨_, rfl⟩ hone

variable [FloorRing K]

theorem apost_within {m : TMem K} {a b : Nat} {I : Interval K} {t : NTree K} {G F : Set Nat} {m1 m' : TMem K}
    (hG : G ⊆ F) (haF : a ∈ F) (haG : a ∉ G) (hb : Below m F) (he : t ≠ .eps) (hI : Interval.LowOk cl I) (hat : m.atom a = .within b I)
    (hl : APost cl m b t G m1) (h : m1.finishWithin a b I = .ok m') : APost cl m a (.within t I) F m' := by
  obtain ⟨t1, G1, r1, u1, b1, g1, e1, q1, d, d1, d2⟩ := hl.ex
  have haG1 : a ∉ G1 := fun h' => by
    rcases u1 a h' with h | h
    · exact haG h
    · exact absurd (hb a haF) (not_lt.2 h)
  have hat1 : m1.atom a = .within b I := ((hl.agree.same a (hb a haF) haG).atom).trans hat
  have hba : b ≠ a := fun e => haG1 (e ▸ r1.self)
  have he1 : t1 ≠ .eps := fun e => he (q1.eps.1 e)
  have rel : Rel cl (NTree.within t I).lang (NTree.within t1 I).lang := by
    refine ⟨fun x hx => ?_, fun hc x hx => ?_⟩
    · rw [NTree.lang] at hx ⊢
      exact ⟨e1.1 x hx.1, hx.2⟩
    · rw [NTree.lang] at hx ⊢
      exact ⟨e1.2 hc x hx.1, hx.2⟩
  have sb : Sub m F (insert a G1) := by
    rintro x (rfl | hx)
    · exact .inl haF
    · exact (u1 x hx).imp (fun h => hG h) id
  have bl : Below m1 (insert a G1) := by
    rintro x (rfl | hx)
    · exact lt_of_lt_of_le (hb _ haF) hl.agree.next
    · exact b1 x hx
  have stay : (∀ c S, t1 ≠ .sing c S) → APost cl m a (.within t I) F (m1.setADec a d) := fun hno => by
    refine ⟨⟨hl.agree.next, fun x hx hxF => ?_⟩, .within t1 I, insert a G1, .within hat1 (Set.mem_insert _ _) (Set.subset_insert _ _) haG1
      (r1.frame fun x hx => ⟨rfl, rfl, rfl⟩), sb, bl, ⟨g1, he1, hI⟩, rel, ⟨trivial, ⟨fun e => (by cases e), fun e => (by cases e)⟩,
        fun h => ⟨q1.nice h.1, h.2⟩, fun c h => ?_, fun s' e => (by cases e)⟩, d,
      by simp [setADec, put], d2.ok, fun e => (by cases e), fun c hc => ?_, fun c S e => (by cases e)⟩
    · have : x ≠ a := fun e => hxF (e ▸ haF)
      have k := hl.agree.same x hx fun h => hxF (hG h)
      exact ⟨k.atom, k.sing, by simpa [setADec, put, this] using k.adec, k.dnf, k.ddec⟩
    · obtain ⟨S, e⟩ := q1.only c h
      exact absurd e (hno c S)
    · rcases d2.one c hc with ⟨_, h⟩ | ⟨_, S, h⟩
      · exact absurd h he1
      · exact absurd h (hno c S)
  simp only [finishWithin, d1] at h
  cases r1 with
  | @sing _ s0 _ e ha hs =>
    simp only [setADec, e, Except.ok.injEq] at h
    subst h
    have hs0 : s0 ∈ F ∨ m.next ≤ s0 := (u1 s0 hs).imp (fun h => hG h) id
    have hb0 : b ∈ F ∨ m.next ≤ b := (u1 b ha).imp (fun h => hG h) id
    refine ⟨⟨hl.agree.next, fun x hx hxF => ?_⟩, .sing (m1.sing s0).1 (Interval.land1 (m1.sing s0).2 I), {a, s0}, ?_, ?_, ?_,
      ⟨g1.1, Interval.iok_land1 (fun J hJ => (g1.2 J hJ).low) hI⟩, rel.trans (rel_within g1.2 hI), ⟨trivial, ⟨fun e => (by cases e), fun e => (by cases e)⟩,
        fun h => Interval.intEnds_land1 (q1.nice h.1) h.2, fun c h => ?_, fun s' e => (by cases e)⟩, d,
      by simp [setAtom, setSing, put], d2.ok, fun e => (by cases e), fun c hc => ?_, fun c S e => ?_⟩
    · have k := hl.agree.same x hx fun h => hxF (hG h)
      have n1 : x ≠ a := fun e => hxF (e ▸ haF)
      have n2 : x ≠ s0 := by
        rintro rfl
        exact hs0.elim hxF fun h => absurd hx (not_lt.2 h)
      have n3 : x ≠ b := by
        rintro rfl
        exact hb0.elim hxF fun h => absurd hx (not_lt.2 h)
      exact ⟨by simpa [setAtom, setSing, put, n1, n2, n3] using k.atom, by simpa [setAtom, setSing, put, n1, n2, n3] using k.sing,
        by simpa [setAtom, setSing, put, n1, n2, n3] using k.adec, k.dnf, k.ddec⟩
    · have h1 : ∀ m2 : TMem K, m2.atom a = .singleton s0 → m2.sing s0 = ((m1.sing s0).1, Interval.land1 (m1.sing s0).2 I) →
          Rep m2 (.atom a) (.sing (m1.sing s0).1 (Interval.land1 (m1.sing s0).2 I)) {a, s0} := fun m2 k1 k2 => by
        have := Rep.sing (F := {a, s0}) k1 (by simp) (by simp)
        rwa [k2] at this
      exact h1 _ (by simp [setAtom, setSing, put]) (by simp [setAtom, setSing, put])
    · rintro x (rfl | rfl)
      · exact .inl haF
      · exact hs0
    · rintro x (rfl | rfl)
      · exact bl x (Set.mem_insert _ _)
      · exact bl x (Set.mem_insert_of_mem _ hs)
    · obtain ⟨S, e⟩ := q1.only c h
      simp only [NTree.sing.injEq] at e
      exact ⟨_, by rw [e.1]⟩
    · rcases d2.one c hc with ⟨_, h⟩ | ⟨h, S, hS⟩
      · cases h
      · cases hS
        exact .inr ⟨h, _, rfl⟩
    · simp only [NTree.sing.injEq] at e
      exact d2.sing c _ (by rw [e.1])
  | eps e ha => exact absurd rfl he1
  | cat e =>
    simp only [setADec, e, Except.ok.injEq] at h
    subst h
    exact stay fun c S e => by cases e
  | plus e =>
    simp only [setADec, e] at h
    split at h
    · cases h
    · cases h
      exact stay fun c S e => by cases e
  | within e =>
    simp only [setADec, e, Except.ok.injEq] at h
    subst h
    exact stay fun c S e => by cases e

/-! ## Disjunctions and repetitions -/

/-- The decision of a disjunction is a letter only if all operands have this letter. -/
theorem disj_chars : ∀ {ds : List Decision} {d v : Decision}, d.Ok → (∀ i ∈ ds, i.Ok) →
    ds.foldl (fun d i => ({ constant := d.constant && i.constant, chars := setInter d.chars i.chars } : Decision)) d = v →
    ∀ c, v.chars = [c] → ∀ i ∈ d :: ds, i.chars = [c]
  | [], d, v, _, _, h, c, hc, i, hi => by
    cases h
    simp only [List.mem_singleton] at hi
    rwa [hi]
  | e :: ds, d, v, hd, hds, h, c, hc, i, hi => by
    have he := hds e (List.mem_cons_self ..)
    have ih := disj_chars (Decision.ok_inter hd he) (fun i hi => hds i (List.mem_cons_of_mem _ hi)) h c hc
    have h0 := ih _ (List.mem_cons_self ..)
    simp only at h0
    have hde : d.chars = [c] ∧ e.chars = [c] := by
      rcases Decision.Ok.chars hd with k | ⟨x, k⟩
      · rw [k] at h0
        simp [setInter] at h0
      · rw [k] at h0
        obtain ⟨rfl, k2⟩ := setInter_one (Decision.Ok.chars he) h0
        exact ⟨k, k2⟩
    simp only [List.mem_cons] at hi
    rcases hi with rfl | rfl | hi
    · exact hde.1
    · exact hde.2
    · exact ih i (List.mem_cons_of_mem _ hi)

/-- The decisions of the operands. -/
theorem conjDecisions_of {fuel : Nat} {m : TMem K} : ∀ {l : List Nat} {s : NTree K} {ds : List Decision}, Decs m l s →
    m.conjDecisions fuel (l.map fun x => [x]) = .ok ds → (∀ d ∈ ds, d.Ok) ∧
      (∀ c, (∀ d ∈ ds, d.chars = [c]) → (c = 0 → AllEps s) ∧ (c ≠ 0 → AllSing c s)) ∧ ∀ c, AllSing c s → ∀ d ∈ ds, d.chars = [c]
  | [], .nil, ds, _, h => by
    cases h
    exact ⟨fun d hd => (by simp at hd), fun c _ => ⟨fun _ => trivial, fun _ => trivial⟩, fun c _ d hd => (by simp at hd)⟩
  | a :: l, .cons t s, ds, hd, h => by
    obtain ⟨⟨d, d1, d2⟩, hl⟩ := hd
    simp only [List.map_cons, conjDecisions, conjDecision, decisionOf, d1] at h
    cases hc : m.conjDecisions fuel (l.map fun x => [x]) with
    | error e => rw [hc] at h; cases h
    | ok ds' =>
      rw [hc] at h
      cases h
      obtain ⟨i1, i2, i3⟩ := conjDecisions_of hl hc
      refine ⟨fun d' h' => ?_, fun c hcc => ?_, fun c hal d' h' => ?_⟩
      · rcases List.mem_cons.1 h' with rfl | h'
        · exact d2.ok
        · exact i1 d' h'
      · obtain ⟨j1, j2⟩ := i2 c fun d' h' => hcc d' (List.mem_cons_of_mem _ h')
        rcases d2.one c (hcc d (List.mem_cons_self ..)) with ⟨h0, h1⟩ | ⟨h0, h1⟩
        · exact ⟨fun h => ⟨h1, j1 h⟩, fun h => absurd h0 h⟩
        · exact ⟨fun h => absurd h h0, fun h => ⟨h1, j2 h⟩⟩
      · obtain ⟨⟨S, e⟩, hal⟩ := hal
        rcases List.mem_cons.1 h' with rfl | h'
        · exact d2.sing c S e
        · exact i3 c hal d' h'

/-- The decision of a disjunction of one letter. -/
theorem chars_disj {c : Alphabet} : ∀ {ds : List Decision} {d v : Decision}, d.chars = [c] → (∀ i ∈ ds, i.chars = [c]) →
    ds.foldl (fun d i => ({ constant := d.constant && i.constant, chars := setInter d.chars i.chars } : Decision)) d = v → v.chars = [c]
  | [], d, v, hd, _, h => by
    cases h
    exact hd
  | e :: ds, d, v, hd, hds, h => by
    refine chars_disj (d := { constant := d.constant && e.constant, chars := setInter d.chars e.chars }) ?_ (fun i hi => hds i (List.mem_cons_of_mem _ hi)) h
    simp [hd, hds e (List.mem_cons_self ..), setInter, interAux]

/-- After the normal form of a disjunction. -/
structure DPost (cl : Bool) (m : TMem K) (d : Nat) (l : List Nat) (s : NTree K) (F : Set Nat) (m' : TMem K) : Prop where
  agree : Agree (insert d F) m m'
  dnf : m'.dnf d = m.dnf d
  ex : ∃ s' F', Rep m' (.seq l) s' F' ∧ Sub m F F' ∧ Below m' F' ∧ GT cl s' ∧ RelS cl s s' ∧
    ∃ v, m'.ddec d = some v ∧ v.Ok ∧ (∀ c, v.chars = [c] → (c = 0 → AllEps s') ∧ (c ≠ 0 → AllSing c s')) ∧ ∀ c, AllSing c s' → v.chars = [c]

theorem dpost_of {fuel : Nat} {m m1 m' : TMem K} {d : Nat} {l : List Nat} {s : NTree K} {F : Set Nat} (hd : m.dnf d = l.map fun x => [x])
    (hdn : d < m.next) (hdF : d ∉ F) (hl : LPost cl m l s F m1) (h : m1.finishDnf fuel d = .ok m') : DPost cl m d l s F m' := by
  obtain ⟨s1, F1, r1, u1, b1, g1, e1, p1⟩ := hl.ex
  have hdd : m1.dnf d = m.dnf d := (hl.agree.same d hdn hdF).dnf
  simp only [finishDnf, hdd, hd] at h
  split at h
  · cases h
  · cases h
  · split at h
    · cases h
    · next ds hds =>
      split at h
      · cases h
      · next v hv =>
        cases h
        obtain ⟨k1, k2, k3⟩ := conjDecisions_of p1 hds
        cases ds with
        | nil => cases hv
        | cons d0 ds =>
          simp only [disjDecision, Except.ok.injEq] at hv
          have ok0 := k1 d0 (List.mem_cons_self ..)
          have okd : ∀ i ∈ ds, i.Ok := fun i hi => k1 i (List.mem_cons_of_mem _ hi)
          refine ⟨⟨hl.agree.next, fun x hx hn => ?_⟩, hdd, s1, F1, r1.frame fun x _ => ⟨rfl, rfl, rfl⟩, u1, b1, g1, e1, v, by simp [setDDec, put], ?_,
            fun c hc => k2 c (disj_chars ok0 okd hv c hc),
            fun c hc => chars_disj (k3 c hc d0 (List.mem_cons_self ..)) (fun i hi => k3 c hc i (List.mem_cons_of_mem _ hi)) hv⟩
          · have k := hl.agree.same x hx fun h => hn (Set.mem_insert_of_mem _ h)
            have n1 : x ≠ d := fun e => hn (e ▸ Set.mem_insert _ _)
            exact ⟨k.atom, k.sing, k.adec, k.dnf, by simpa [setDDec, put, n1] using k.ddec⟩
          · rw [← hv]
            exact ok_foldl ds d0 ok0 okd

/-- The test of singletons of one letter changes nothing. -/
theorem filterM_sing {c : Alphabet} {fuel : Nat} {m : TMem K} : ∀ {l : List Nat} {s : NTree K} {F : Set Nat}, Rep m (.seq l) s F → AllSing c s →
    ∀ r m', filterM (allM (snfAtom c fuel)) m (l.map fun x => [x]) = .ok (r, m') → r = l.map (fun x => [x]) ∧ m' = m
  | [], s, F, hr, _, r, m', h => by
    cases h
    exact ⟨rfl, rfl⟩
  | a :: l, s, F, hr, hs, r, m', h => by
    cases hr with
    | cons h1 h2 hd ht hs' =>
      obtain ⟨⟨S, rfl⟩, hs⟩ := hs
      obtain ⟨s0, e0, e1, _⟩ := ht.sing_inv
      cases fuel with
      | zero => simp [filterM, allM, snfAtom] at h
      | succ fuel =>
        have ha : snfAtom c (fuel + 1) m a = .ok (true, m) := by
          rw [snfAtom, e0]
          simp [e1]
        simp only [List.map_cons, filterM, allM, ha, if_true] at h
        cases hf : filterM (allM (snfAtom c (fuel + 1))) m (l.map fun x => [x]) with
        | error e => rw [hf] at h; cases h
        | ok q =>
          obtain ⟨r', m''⟩ := q
          rw [hf] at h
          cases h
          obtain ⟨rfl, rfl⟩ := filterM_sing hs' hs _ _ hf
          exact ⟨rfl, rfl⟩

theorem unionIntervals_sing {c : Alphabet} {m : TMem K} : ∀ {l : List Nat} {s : NTree K} {F : Set Nat}, Rep m (.seq l) s F → AllSing c s →
    m.unionIntervals (l.map fun x => [x]) = .ok (landIntervals s)
  | [], s, F, hr, _ => by
    cases hr
    rfl
  | a :: l, s, F, hr, hs => by
    cases hr with
    | cons h1 h2 hd ht hs' =>
      obtain ⟨⟨S, rfl⟩, hs⟩ := hs
      obtain ⟨s0, e0, e1, _⟩ := ht.sing_inv
      simp only [List.map_cons, unionIntervals, conjIntervals, intervalsOf, e0, e1, unionIntervals_sing hs' hs]
      rfl

theorem apost_plus {fuel : Nat} {m m1 m' : TMem K} {a d : Nat} {l : List Nat} {s : NTree K} {G F : Set Nat}
    (hG : G ⊆ F) (haF : a ∈ F) (hdF : d ∈ F) (haG : a ∉ G) (hdG : d ∉ G) (had : a ≠ d) (hb : Below m F) (hne : ¬ AllEps s)
    (hat : m.atom a = .plus d) (hd : m.dnf d = l.map fun x => [x]) (hl : DPost cl m d l s G m1) (h : m1.finishPlus fuel a d = .ok m') :
    APost cl m a (.plus s) F m' := by
  obtain ⟨s1, G1, r1, u1, b1, g1, e1, v, v1, v2, v3, v4⟩ := hl.ex
  have new : ∀ x, x ∈ F → x ∉ G → x ∉ G1 := fun x hx hn h' => by
    rcases u1 x h' with h | h
    · exact hn h
    · exact absurd (hb x hx) (not_lt.2 h)
  have haG1 := new a haF haG
  have hdG1 := new d hdF hdG
  have hne1 : ¬ AllEps s1 := fun h => hne (e1.allEps h)
  have hat1 : m1.atom a = .plus d := ((hl.agree.same a (hb a haF) (by
    rintro (h | h)
    · exact had h
    · exact haG h)).atom).trans hat
  have ag : Agree F m m1 := hl.agree.mono (by
    rintro x (rfl | h)
    · exact hdF
    · exact hG h)
  have rel : Rel cl (NTree.plus s).lang (NTree.plus s1).lang := by
    have := e1.alt.iter
    simpa only [NTree.lang] using this
  have sb : Sub m F (insert a (insert d G1)) := by
    rintro x (rfl | rfl | hx)
    · exact .inl haF
    · exact .inl hdF
    · exact (u1 x hx).imp (fun h => hG h) id
  have bl : Below m1 (insert a (insert d G1)) := by
    rintro x (rfl | rfl | hx)
    · exact lt_of_lt_of_le (hb _ haF) ag.next
    · exact lt_of_lt_of_le (hb _ hdF) ag.next
    · exact b1 x hx
  simp only [finishPlus, v1] at h
  generalize hdec : ({ chars := v.chars, constant := v.constant && (v.chars.length == 1 || (v.chars.length == 2 && v.hasEpsilon)) } : Decision) = dec at h
  have hch : dec.chars = v.chars := by rw [← hdec]
  have hok : dec.Ok := by rw [← hdec]; exact plusDec_ok v2
  split at h
  · cases h
  · split at h
    · next c hc =>
      have hcv : v.chars = [c] := by
        rw [← hch]
        unfold Decision.isConstant at hc
        split at hc
        · next e => cases hc; exact e
        · cases hc
      obtain ⟨w1, w2⟩ := v3 c hcv
      have hc0 : c ≠ 0 := fun e => hne1 (w1 e)
      have hal := w2 hc0
      split at h
      · cases h
      · next b m4 hs =>
        cases h
        cases fuel with
        | zero => cases hs
        | succ fuel =>
        have r2 : Rep (m1.setADec a dec) (.seq l) s1 G1 := r1.frame fun x _ => ⟨rfl, rfl, rfl⟩
        have hd1 : (m1.setADec a dec).dnf d = l.map fun x => [x] := hl.dnf.trans hd
        rw [snfAtom] at hs
        simp only [show (m1.setADec a dec).atom a = .plus d from hat1] at hs
        split at hs
        · cases hs
        · next m3 h3 =>
          cases fuel with
          | zero => cases h3
          | succ fuel =>
          rw [snfDnf, hd1] at h3
          split at h3
          · cases h3
          · next l' m3' hf =>
            obtain ⟨rfl, rfl⟩ := filterM_sing r2 hal _ _ hf
            simp only [finishSNF, unionIntervals_sing r2 hal, Except.ok.injEq] at h3
            subst h3
            have hn : (m1.setADec a dec).next = m1.next := rfl
            simp only [finishPlusSNF, newSingleton, newSing, newAtom, setDnf, put, if_true, hn] at hs
            split at hs
            · cases hs
            · next P hP =>
              simp only [Except.ok.injEq, Prod.mk.injEq] at hs
              obtain ⟨_, rfl⟩ := hs
              have ob := Interval.iok_plusAll (cl := cl) (iok_landIntervals hal g1) hP
              refine ⟨⟨by simp only [setAtom, setSing, setADec]; exact le_trans ag.next (by omega), fun x hx hxF => ?_⟩, .sing c P, {a, m1.next}, ?_, ?_, ?_,
                ⟨hc0, ob.1⟩, rel.trans (rel_plus hal g1 hP), ⟨trivial, ⟨fun e => (by cases e), fun e => (by cases e)⟩,
                  fun h => Interval.intEnds_plusAll (intEnds_landIntervals hal (e1.nice h)) hP, fun c' h => ?_, fun s' e => (by cases e)⟩, dec,
                by simp [setADec, setAtom, setSing, put], hok, fun e => (by cases e), fun c' hcc => ?_, fun c' S e => ?_⟩
              · have k := ag.same x hx hxF
                have n1 : x ≠ a := fun e => hxF (e ▸ haF)
                have n2 : x ≠ d := fun e => hxF (e ▸ hdF)
                have n3 : x ≠ m1.next := fun e => by have := ag.next; omega
                have n4 : x ≠ m1.next + 1 := fun e => by have := ag.next; omega
                exact ⟨by simpa [setADec, setAtom, setSing, put, n1, n2, n3, n4] using k.atom, by simpa [setADec, setAtom, setSing, put, n1, n2, n3, n4] using k.sing,
                  by simpa [setADec, setAtom, setSing, put, n1, n2, n3, n4] using k.adec, by simpa [setADec, setAtom, setSing, put, n1, n2, n3, n4] using k.dnf,
                  by simpa [setADec, setAtom, setSing, put, n1, n2, n3, n4] using k.ddec⟩
              · have h1 : ∀ m2 : TMem K, m2.atom a = .singleton m1.next → m2.sing m1.next = (c, P) → Rep m2 (.atom a) (.sing c P) {a, m1.next} := fun m2 k1 k2 => by
                  have := Rep.sing (F := {a, m1.next}) k1 (by simp) (by simp)
                  rwa [k2] at this
                exact h1 _ (by simp [setAtom, setSing, put]) (by simp [setAtom, setSing, put])
              · rintro x (rfl | rfl)
                · exact .inl haF
                · exact .inr ag.next
              · rintro x (rfl | rfl)
                · have := bl x (Set.mem_insert _ _)
                  simp only [setAtom, setSing, setADec]
                  omega
                · simp only [setAtom, setSing, setADec]
                  omega
              · have := v4 c' (e1.only h)
                rw [hcv] at this
                cases this
                exact ⟨P, rfl⟩
              · rw [hch, hcv] at hcc
                cases hcc
                exact .inr ⟨hc0, P, rfl⟩
              · cases e
                rw [hch, hcv]
    · next hc =>
      cases h
      refine ⟨⟨ag.next, fun x hx hxF => ?_⟩, .plus s1, insert a (insert d G1), .plus hat1 (hl.dnf.trans hd) (by simp) (by simp)
        (fun x hx => by simp [hx]) haG1 hdG1 had (r1.frame fun x hx => ⟨rfl, rfl, rfl⟩), sb, bl, ⟨g1, hne1⟩, rel,
        ⟨trivial, ⟨fun e => (by cases e), fun e => (by cases e)⟩, fun h => e1.nice h, fun c h => ?_, fun s' e => (by cases e)⟩, dec, by simp [setADec, put], hok,
        fun e => (by cases e), fun c hcc => ?_, fun c S e => (by cases e)⟩
      · have : x ≠ a := fun e => hxF (e ▸ haF)
        have k := ag.same x hx hxF
        exact ⟨k.atom, k.sing, by simpa [setADec, put, this] using k.adec, k.dnf, k.ddec⟩
      · have := v4 c (e1.only h)
        rw [← hch] at this
        rw [Decision.isConstant, this] at hc
        cases hc
      · rw [Decision.isConstant, hcc] at hc
        cases hc

/-! ## The normal form -/

theorem okDec (c : Alphabet) : (⟨true, [c]⟩ : Decision).Ok := .inr ⟨rfl, c, rfl⟩

mutual

theorem normAtom_does : ∀ (fuel : Nat), Does cl (normAtom (K := K) fuel)
  | 0 => fun _ _ _ _ _ _ _ _ h => by rw [normAtom] at h; cases h
  | fuel + 1 => fun m a t F hr hb hg m' h => by
    rw [normAtom] at h
    have keep : ∀ d : Decision, DecFor d t → Keeps t t → APost cl m a t F (m.setADec a d) := fun d hd hk => by
      refine ⟨⟨le_refl _, fun x _ hxF => ?_⟩, t, F, hr.frame fun x _ => ⟨rfl, rfl, rfl⟩, fun x hx => .inl hx, hb, hg, Rel.rfl' _, hk, d,
        by simp [setADec, put], hd⟩
      have : x ≠ a := fun e => hxF (e ▸ hr.self)
      exact ⟨rfl, rfl, by simp [setADec, put, this], rfl, rfl⟩
    cases hr with
    | sing e ha hs =>
      rw [e] at h
      cases h
      refine keep _ ⟨okDec _, fun e => (by cases e), fun c hc => ?_, fun c S e => by cases e; rfl⟩
        ⟨trivial, Iff.rfl, id, fun c h => ⟨_, by rw [show (m.sing _).1 = c from h]⟩, fun s' e => (by cases e)⟩
      cases hc
      exact .inr ⟨hg.1, _, rfl⟩
    | eps e ha =>
      rw [e] at h
      cases h
      refine keep _ ⟨okDec _, fun _ => rfl, fun c hc => ?_, fun c S e => (by cases e)⟩ ⟨trivial, Iff.rfl, id, fun c h => h.elim, fun s' e => (by cases e)⟩
      cases hc
      exact .inl ⟨rfl, rfl⟩
    | @cat _ l s _ G e ha hG hn hr =>
      simp only [e] at h
      cases hc : concatLoop (normAtom fuel) m ⟨true, [0]⟩ l with
      | error e => rw [hc] at h; cases h
      | ok q =>
        obtain ⟨dec, m1⟩ := q
        rw [hc] at h
        obtain ⟨k1, k2, k3, k4⟩ := concatLoop_does (normAtom_does fuel) l s m G ⟨true, [0]⟩ hr (fun x hx => hb x (hG hx)) hg.1 hg.2.1 (okDec 0) dec m1 hc
        exact apost_concat hG ha hn hb hg.2.1 hg.2.2 k1 k2 (fun c s' F' h1 h2 => (k3 c s' F' h1 h2).2)
          (fun c s' F' h1 h2 h3 h4 => k4 c s' F' h1 h2 h3 (.inl ⟨rfl, h4⟩)) h
    | @plus _ d l s _ G e hd ha hdF hG hn hdn had hr =>
      simp only [e] at h
      cases hc : normDnf fuel m d with
      | error e => rw [hc] at h; cases h
      | ok m1 =>
        rw [hc] at h
        have k := normDnf_does fuel m d l s G hd (hb d hdF) hdn hr (fun x hx => hb x (hG hx)) hg.1 m1 hc
        exact apost_plus hG ha hdF hn hdn had hb hg.2 e hd k h
    | @within _ b I t _ G e ha hG hn hr =>
      simp only [e] at h
      cases hc : normAtom fuel m b with
      | error e => rw [hc] at h; cases h
      | ok m1 =>
        rw [hc] at h
        exact apost_within hG ha hn hb hg.2.1 hg.2.2 e (normAtom_does fuel m b t G hr (fun x hx => hb x (hG hx)) hg.1 m1 hc) h

theorem normDnf_does : ∀ (fuel : Nat) (m : TMem K) (d : Nat) (l : List Nat) (s : NTree K) (F : Set Nat), m.dnf d = l.map (fun x => [x]) →
    d < m.next → d ∉ F → Rep m (.seq l) s F → Below m F → GT cl s → ∀ m', normDnf fuel m d = .ok m' → DPost cl m d l s F m'
  | 0, _, _, _, _, _, _, _, _, _, _, _, _, h => by rw [normDnf] at h; cases h
  | fuel + 1, m, d, l, s, F, hd, hdn, hdF, hr, hb, hg, m', h => by
    rw [normDnf, hd] at h
    cases hc : forM (forM (normAtom fuel)) m (l.map fun x => [x]) with
    | error e => rw [hc] at h; cases h
    | ok m1 =>
      rw [hc] at h
      exact dpost_of hd hdn hdF (forM_does (normAtom_does fuel) l s m F hr hb hg m1 hc) h

end

end Verif.TMem
