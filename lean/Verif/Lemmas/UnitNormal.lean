import Verif.Lemmas.UnitTRE
import Verif.Model.SignalTA

/-!
# The translation to signal automata in another unit of time
-/

namespace Verif

/-- The same error, or related values. -/
def RelE {α β : Type} (P : α → β → Prop) : Except Err α → Except Err β → Prop
  | .error x, r => r = .error x
  | .ok a, .ok b => P a b
  | .ok _, .error _ => False

theorem RelE.cases {α β : Type} {P : α → β → Prop} {x : Except Err α} {y : Except Err β} (h : RelE P x y) :
    (∃ e, x = .error e ∧ y = .error e) ∨ ∃ a b, x = .ok a ∧ y = .ok b ∧ P a b := by
  cases x with
  | error e => exact .inl ⟨e, rfl, h⟩
  | ok a =>
    cases y with
    | error e => exact h.elim
    | ok b => exact .inr ⟨a, b, rfl, rfl, h⟩

section
variable {K : Type} [Field K] [LinearOrder K] [IsStrictOrderedRing K] {k : Int}

/-- `J` is `I` in the other unit, and the ends are whole. -/
def RI (k : Int) (I J : Interval K) : Prop := J = I.inUnit k ∧ I.IntEnds

/-- The bound is a whole number or infinite. -/
def Bnd.Whole (b : Bnd K) : Prop := ∀ c s, b = .fin c s → ∃ n : Int, c = n

theorem whole_int (n : Int) (s : Bool) : (Bnd.fin (n : K) s).Whole := by
  intro c s h
  simp only [Bnd.fin.injEq] at h
  exact ⟨n, h.1.symm⟩

theorem whole_inf (s : Bool) : (Bnd.inf s : Bnd K).Whole := by
  intro c s h
  cases h

theorem whole_zero (s : Bool) : (Bnd.fin 0 s : Bnd K).Whole := by simpa using whole_int (K := K) 0 s

theorem whole_add {a b : Bnd K} (ha : a.Whole) (hb : b.Whole) : (a + b).Whole := by
  cases a with
  | inf s => cases b <;> exact whole_inf _
  | fin c s =>
    cases b with
    | inf t => exact whole_inf _
    | fin d t =>
      obtain ⟨n, rfl⟩ := ha _ _ rfl
      obtain ⟨m, rfl⟩ := hb _ _ rfl
      have : (Bnd.fin (n : K) s + Bnd.fin (m : K) t) = .fin ((n + m : Int) : K) (s && t) := by
        rw [Int.cast_add]
        rfl
      rw [this]
      exact whole_int _ _

theorem Bnd.scale_max (hk : 0 < k) (a b : Bnd K) : (Bnd.max a b).scale k = Bnd.max (a.scale k) (b.scale k) := by
  simp only [Bnd.max, Bnd.scale_blt hk]
  split_ifs <;> rfl

theorem whole_max {a b : Bnd K} (ha : a.Whole) (hb : b.Whole) : (Bnd.max a b).Whole := by
  unfold Bnd.max
  split_ifs <;> assumption

theorem whole_min {a b : Bnd K} (ha : a.Whole) (hb : b.Whole) : (Bnd.min a b).Whole := by
  unfold Bnd.min
  split_ifs <;> assumption

theorem RI.inter (hk : 0 < k) {I J I' J' : Interval K} (h : RI k I I') (h' : RI k J J') : RI k (Interval.inter I J) (Interval.inter I' J') := by
  obtain ⟨rfl, hI⟩ := h
  obtain ⟨rfl, hJ⟩ := h'
  refine ⟨?_, whole_max hI.1 hJ.1, whole_min hI.2 hJ.2⟩
  simp only [Interval.inter, Interval.inUnit, Bnd.scale_max hk, Bnd.scale_min hk]

theorem RI.add {I J I' J' : Interval K} (h : RI k I I') (h' : RI k J J') : RI k (Interval.add I J) (Interval.add I' J') := by
  obtain ⟨rfl, hI⟩ := h
  obtain ⟨rfl, hJ⟩ := h'
  refine ⟨?_, whole_add hI.1 hJ.1, whole_add hI.2 hJ.2⟩
  simp only [Interval.add, Interval.inUnit, Bnd.scale_add]

/-- Lists of intervals in two units. -/
abbrev RL (k : Int) : List (Interval K) → List (Interval K) → Prop := List.Forall₂ (RI k)

theorem RL.land1 (hk : 0 < k) {l l' : List (Interval K)} (h : RL k l l') {J J' : Interval K} (hJ : RI k J J') :
    RL k (Interval.land1 l J) (Interval.land1 l' J') := by
  induction h with
  | nil => exact .nil
  | @cons I I' l l' hI _ ih =>
    have hi := hI.inter hk hJ
    have hb : Bnd.blt (Interval.inter I' J').upper (Interval.inter I' J').lower = Bnd.blt (Interval.inter I J).upper (Interval.inter I J).lower := by
      rw [hi.1]
      exact Bnd.scale_blt hk _ _
    simp only [Interval.land1, List.map_cons, List.filter_cons, hb] at ih ⊢
    split_ifs
    · exact .cons hi ih
    · exact ih

theorem RL.append {a a' b b' : List (Interval K)} (h : RL k a a') (h' : RL k b b') : RL k (a ++ b) (a' ++ b') := by
  induction h with
  | nil => exact h'
  | cons hI _ ih => exact .cons hI ih

theorem RL.land (hk : 0 < k) {l l' r r' : List (Interval K)} (h : RL k l l') (h' : RL k r r') :
    RL k (Interval.land l r) (Interval.land l' r') := by
  induction h' with
  | nil => exact .nil
  | cons hJ _ ih => exact RL.append (h.land1 hk hJ) ih

theorem RL.addAll {l l' r r' : List (Interval K)} (h : RL k l l') (h' : RL k r r') :
    RL k (Interval.addAll l r) (Interval.addAll l' r') := by
  induction h with
  | nil => exact .nil
  | @cons I I' l l' hI _ ih =>
    refine RL.append ?_ ih
    clear ih
    induction h' with
    | nil => exact .nil
    | cons hJ _ ih' => exact .cons (hI.add hJ) ih'

theorem RI.zero : RI k (⟨.fin 0 true, .fin 0 true⟩ : Interval K) ⟨.fin 0 true, .fin 0 true⟩ :=
  ⟨by simp [Interval.inUnit, Bnd.scale_zero], whole_zero _, whole_zero _⟩

theorem RI.default : RI k (Interval.default : Interval K) Interval.default :=
  ⟨by simp [Interval.inUnit, Interval.default, Bnd.scale_zero, Bnd.scale_inf], whole_zero _, whole_inf _⟩

theorem scale_times (b : Bnd K) (i : Int) : Interval.scale (b.scale k) i = (Interval.scale b i).scale k := by
  cases b with
  | inf s => rfl
  | fin c s => simp only [Interval.scale, Bnd.scale, mul_assoc]

theorem whole_times {b : Bnd K} (h : b.Whole) (i : Int) : (Interval.scale b i).Whole := by
  cases b with
  | inf s => exact whole_inf _
  | fin c s =>
    obtain ⟨n, rfl⟩ := h _ _ rfl
    have : Interval.scale (Bnd.fin (n : K) s) i = .fin ((n * i : Int) : K) s := by simp [Interval.scale]
    rw [this]
    exact whole_int _ _

variable [FloorRing K]

theorem RI.plus (hk : 0 < k) {I I' : Interval K} (h : RI k I I') : RelE (RL k) I.plus I'.plus := by
  obtain ⟨rfl, hI⟩ := h
  have hp := cast_pos (K := K) hk
  obtain ⟨lo, up⟩ := I
  cases up with
  | inf s => exact List.Forall₂.cons ⟨rfl, hI⟩ .nil
  | fin u s =>
    cases lo with
    | inf t => exact rfl
    | fin l t =>
      have e0 : (k : K) * u - (k : K) * l = 0 ↔ u - l = 0 := by
        rw [← mul_sub]
        simp [hp.ne']
      have e1 : (k : K) * l / ((k : K) * u - (k : K) * l) = l / (u - l) := by
        rw [← mul_sub, mul_div_mul_left _ _ hp.ne']
      simp only [Interval.plus, Interval.inUnit, Bnd.scale, e0, e1]
      by_cases h0 : u - l = 0
      · rw [if_pos h0, if_pos h0]
        exact rfl
      · rw [if_neg h0, if_neg h0]
        split_ifs
        · exact rfl
        · refine RL.append ?_ (.cons ⟨?_, whole_times hI.1 _, whole_inf _⟩ .nil)
          · unfold RL
            rw [List.forall₂_map_left_iff, List.forall₂_map_right_iff]
            refine List.forall₂_same.2 fun i _ => ⟨?_, whole_times hI.1 _, whole_times hI.2 _⟩
            simp only [Interval.inUnit, Interval.scale, Bnd.scale, mul_assoc]
          · simp only [Interval.inUnit, Interval.scale, Bnd.scale, mul_assoc]

theorem RI.plusMember (hk : 0 < k) {I I' : Interval K} (h : RI k I I') : RelE (RL k) (Interval.plusMember I) (Interval.plusMember I') := by
  have hp := h.plus hk
  obtain ⟨rfl, hI⟩ := h
  obtain ⟨lo, up⟩ := I
  cases up with
  | inf s => exact List.Forall₂.cons ⟨rfl, hI⟩ .nil
  | fin u s => exact hp

theorem relE_mapM {α β γ δ : Type} {P : α → β → Prop} {Q : γ → δ → Prop} {f : α → Except Err γ} {g : β → Except Err δ}
    (h : ∀ a b, P a b → RelE Q (f a) (g b)) {l : List α} {l' : List β} (hl : List.Forall₂ P l l') :
    RelE (List.Forall₂ Q) (l.mapM f) (l'.mapM g) := by
  induction hl with
  | nil => exact List.Forall₂.nil
  | @cons a b l l' hab _ ih =>
    rw [List.mapM_cons, List.mapM_cons]
    rcases (h a b hab).cases with ⟨e, h1, h2⟩ | ⟨c, d, h1, h2, hP⟩
    · rw [h1, h2]
      exact rfl
    · rw [h1, h2]
      rcases ih.cases with ⟨e, h3, h4⟩ | ⟨c', d', h3, h4, hP'⟩
      · rw [h3, h4]
        exact rfl
      · rw [h3, h4]
        exact List.Forall₂.cons hP hP'

theorem forall₂_select {α β : Type} {P : α → β → Prop} {l : List α} {l' : List β} (h : List.Forall₂ P l l') (i : Nat) :
    List.Forall₂ P (Interval.select i l) (Interval.select i l') := by
  induction h generalizing i with
  | nil => exact .nil
  | cons hab _ ih =>
    simp only [Interval.select]
    split_ifs
    · exact .cons hab (ih _)
    · exact ih _

theorem RL.foldl {l l' : List (List (Interval K))} (h : List.Forall₂ (RL k) l l') {a a' : List (Interval K)} (ha : RL k a a') :
    RL k (l.foldl Interval.addAll a) (l'.foldl Interval.addAll a') := by
  induction h generalizing a a' with
  | nil => exact ha
  | cons hab _ ih => exact ih (ha.addAll hab)

theorem RL.flatMap {α : Type} {f g : α → List (Interval K)} (h : ∀ x, RL k (f x) (g x)) (l : List α) : RL k (l.flatMap f) (l.flatMap g) := by
  induction l with
  | nil => exact .nil
  | cons x l ih => exact RL.append (h x) ih

theorem RL.plusAll (hk : 0 < k) {S S' : List (Interval K)} (h : RL k S S') : RelE (RL k) (Interval.plusAll S) (Interval.plusAll S') := by
  have hl := h.length_eq
  unfold Interval.plusAll
  rw [← hl]
  split_ifs
  · exact rfl
  · rcases (relE_mapM (fun _ _ hI => hI.plusMember hk) h).cases with ⟨e, h1, h2⟩ | ⟨P, P', h1, h2, hP⟩
    · rw [h1, h2]
      exact rfl
    · rw [h1, h2]
      have gen : RL k (((List.range (2 ^ S.length)).drop 1).flatMap fun i => (Interval.select i P).foldl Interval.addAll [⟨.fin 0 true, .fin 0 true⟩])
          (((List.range (2 ^ S.length)).drop 1).flatMap fun i => (Interval.select i P').foldl Interval.addAll [⟨.fin 0 true, .fin 0 true⟩]) :=
        RL.flatMap (fun i => RL.foldl (forall₂_select hP i) (.cons RI.zero .nil)) _
      cases hP with
      | nil => exact gen
      | cons hp ht =>
        cases ht with
        | nil => exact hp
        | cons hp' ht' => exact gen


/-! ## Memories -/

omit [FloorRing K]

/-- Atoms in two units. -/
inductive NR (k : Int) : ANode K → ANode K → Prop
  | singleton (s : Nat) : NR k (.singleton s) (.singleton s)
  | epsilon : NR k .epsilon .epsilon
  | concat (l : List Nat) : NR k (.concat l) (.concat l)
  | plus (d : Nat) : NR k (.plus d) (.plus d)
  | within (a : Nat) {I J : Interval K} (h : RI k I J) : NR k (.within a I) (.within a J)
  | moved : NR k .moved .moved

/-- Singletons in two units. -/
def SR (k : Int) (v v' : Alphabet × List (Interval K)) : Prop := v'.1 = v.1 ∧ RL k v.2 v'.2

/-- Memories in two units. -/
structure MR (k : Int) (m m' : TMem K) : Prop where
  next : m'.next = m.next
  sing : ∀ a, SR k (m.sing a) (m'.sing a)
  atom : ∀ a, NR k (m.atom a) (m'.atom a)
  adec : m'.adec = m.adec
  dnf : m'.dnf = m.dnf
  ddec : m'.ddec = m.ddec

/-- The same value and memories in two units. -/
def PR {α : Type} (k : Int) (p p' : α × TMem K) : Prop := p'.1 = p.1 ∧ MR k p.2 p'.2

namespace TMem

variable {m m' : TMem K}

theorem mr_empty : MR k (empty : TMem K) empty :=
  ⟨rfl, fun _ => ⟨rfl, .nil⟩, fun _ => .moved, rfl, rfl, rfl⟩

theorem mr_setSing (h : MR k m m') (s : Nat) {v v' : Alphabet × List (Interval K)} (hv : SR k v v') : MR k (m.setSing s v) (m'.setSing s v') := by
  refine ⟨h.next, fun a => ?_, h.atom, h.adec, h.dnf, h.ddec⟩
  simp only [setSing, put]
  split_ifs
  · exact hv
  · exact h.sing a

theorem mr_setAtom (h : MR k m m') (a : Nat) {n n' : ANode K} (hn : NR k n n') : MR k (m.setAtom a n) (m'.setAtom a n') := by
  refine ⟨h.next, h.sing, fun b => ?_, h.adec, h.dnf, h.ddec⟩
  simp only [setAtom, put]
  split_ifs
  · exact hn
  · exact h.atom b

theorem mr_setADec (h : MR k m m') (a : Nat) (d : Decision) : MR k (m.setADec a d) (m'.setADec a d) :=
  ⟨h.next, h.sing, h.atom, by simp only [setADec, h.adec], h.dnf, h.ddec⟩

theorem mr_setDnf (h : MR k m m') (d : Nat) (l : List (List Nat)) : MR k (m.setDnf d l) (m'.setDnf d l) :=
  ⟨h.next, h.sing, h.atom, h.adec, by simp only [setDnf, h.dnf], h.ddec⟩

theorem mr_setDDec (h : MR k m m') (d : Nat) (v : Decision) : MR k (m.setDDec d v) (m'.setDDec d v) :=
  ⟨h.next, h.sing, h.atom, h.adec, h.dnf, by simp only [setDDec, h.ddec]⟩

theorem mr_newSing (h : MR k m m') {v v' : Alphabet × List (Interval K)} (hv : SR k v v') : MR k (m.newSing v) (m'.newSing v') := by
  refine ⟨by simp only [newSing, h.next], fun a => ?_, h.atom, h.adec, h.dnf, h.ddec⟩
  simp only [newSing, put, h.next]
  split_ifs
  · exact hv
  · exact h.sing a

theorem mr_newAtom (h : MR k m m') {n n' : ANode K} (hn : NR k n n') : MR k (m.newAtom n) (m'.newAtom n') := by
  refine ⟨by simp only [newAtom, h.next], h.sing, fun a => ?_, h.adec, h.dnf, h.ddec⟩
  simp only [newAtom, put, h.next]
  split_ifs
  · exact hn
  · exact h.atom a

theorem mr_newDnf (h : MR k m m') (l : List (List Nat)) : MR k (m.newDnf l) (m'.newDnf l) :=
  ⟨by simp only [newDnf, h.next], h.sing, h.atom, h.adec, by simp only [newDnf, h.dnf, h.next], h.ddec⟩

theorem mr_newSingleton (h : MR k m m') {v v' : Alphabet × List (Interval K)} (hv : SR k v v') :
    PR k (m.newSingleton v) (m'.newSingleton v') := by
  have h1 := mr_newSing h hv
  refine ⟨h1.next, ?_⟩
  simp only [newSingleton, h.next]
  exact mr_newAtom h1 (.singleton _)

theorem mr_parts (h : MR k m m') (a : Nat) : m'.parts a = m.parts a := by
  unfold parts
  have := h.atom a
  generalize m.atom a = n, m'.atom a = n' at this
  cases this <;> rfl

theorem mr_mkConcat (h : MR k m m') (a b : Nat) : RelE (PR k) (m.mkConcat a b) (m'.mkConcat a b) := by
  unfold mkConcat
  rw [mr_parts h, mr_parts h, h.next]
  rcases m.parts a ++ m.parts b with _ | ⟨x, _ | ⟨y, l⟩⟩
  · exact ⟨rfl, mr_newAtom h .epsilon⟩
  · exact rfl
  · exact ⟨rfl, mr_newAtom h (.concat _)⟩

theorem mr_mkWithin (hk : 0 < k) (h : MR k m m') (a : Nat) {I I' : Interval K} (hI : RI k I I') : RelE (PR k) (m.mkWithin a I) (m'.mkWithin a I') := by
  unfold mkWithin
  have ha := h.atom a
  generalize m.atom a = n, m'.atom a = n' at ha
  rw [h.next]
  cases ha with
  | singleton s =>
    have hs := h.sing s
    exact mr_newSingleton h ⟨hs.1, hs.2.land1 hk hI⟩
  | moved => exact rfl
  | _ => exact ⟨rfl, mr_newAtom h (.within a hI)⟩

theorem mr_mapM {α β : Type} {f f' : TMem K → α → Except Err (β × TMem K)}
    (hf : ∀ m m' x, MR k m m' → RelE (PR k) (f m x) (f' m' x)) (l : List α) (h : MR k m m') :
    RelE (PR k) (mapM f m l) (mapM f' m' l) := by
  induction l generalizing m m' with
  | nil => exact ⟨rfl, h⟩
  | cons x l ih =>
    simp only [mapM]
    rcases (hf m m' x h).cases with ⟨e, h1, h2⟩ | ⟨⟨c, m1⟩, ⟨c', m1'⟩, h1, h2, hc, hm⟩
    · rw [h1, h2]
      exact rfl
    · rw [h1, h2]
      simp only
      rcases (ih hm).cases with ⟨e, h3, h4⟩ | ⟨⟨d, m2⟩, ⟨d', m2'⟩, h3, h4, hd, hm'⟩
      · rw [h3, h4]
        exact rfl
      · rw [h3, h4]
        simp only at hc hd
        subst hc hd
        exact ⟨rfl, hm'⟩

theorem mr_toDNF (hk : 0 < k) (e : TRE K) (he : e.IntEnds) (h : MR k m m') : RelE (PR k) (e.toDNF m) ((e.scale k).toDNF m') := by
  induction e generalizing m m' with
  | atom c =>
    obtain ⟨h1, h2⟩ := mr_newSingleton h (v := (c, [Interval.default])) (v' := (c, [Interval.default])) ⟨rfl, .cons RI.default .nil⟩
    exact ⟨congrArg (fun a => [[a]]) h1, h2⟩
  | epsilon => exact ⟨by simp only [h.next], mr_newAtom h .epsilon⟩
  | plus e ih =>
    simp only [TRE.scale, TRE.toDNF]
    rcases (ih he h).cases with ⟨x, h1, h2⟩ | ⟨⟨c, m1⟩, ⟨c', m1'⟩, h1, h2, hc, hm⟩
    · rw [h1, h2]
      exact rfl
    · rw [h1, h2]
      simp only at hc
      subst hc
      have hd := mr_newDnf hm c'
      exact ⟨by simp only [hd.next], mr_newAtom hd (by rw [hm.next]; exact .plus _)⟩
  | concat e f ihe ihf =>
    simp only [TRE.scale, TRE.toDNF]
    rcases (ihe he.1 h).cases with ⟨x, h1, h2⟩ | ⟨⟨c, m1⟩, ⟨c', m1'⟩, h1, h2, hc, hm⟩
    · rw [h1, h2]
      exact rfl
    · rw [h1, h2]
      simp only [bind, Except.bind]
      simp only at hc
      subst hc
      rcases (ihf he.2 hm).cases with ⟨x, h1, h2⟩ | ⟨⟨d, m2⟩, ⟨d', m2'⟩, h1, h2, hc, hm'⟩
      · rw [h1, h2]
        exact rfl
      · rw [h1, h2]
        simp only at hc
        subst hc
        simp only
        have := mr_mapM (k := k) (f := fun m p => m.mapM (fun m q => m.mkConcat q.1 q.2) (pairs p.1 p.2))
          (f' := fun m p => m.mapM (fun m q => m.mkConcat q.1 q.2) (pairs p.1 p.2))
          (fun m m' p hm => mr_mapM (fun m m' q hm => mr_mkConcat hm q.1 q.2) (pairs p.1 p.2) hm) (pairs c' d') hm'
        rcases this.cases with ⟨x, h1, h2⟩ | ⟨⟨d, m2⟩, ⟨d', m2'⟩, h1, h2, hc, hm'⟩
        · rw [h1, h2]
          exact rfl
        · rw [h1, h2]
          simp only at hc
          subst hc
          exact ⟨rfl, hm'⟩
  | disj e f ihe ihf =>
    simp only [TRE.scale, TRE.toDNF]
    rcases (ihe he.1 h).cases with ⟨x, h1, h2⟩ | ⟨⟨c, m1⟩, ⟨c', m1'⟩, h1, h2, hc, hm⟩
    · rw [h1, h2]
      exact rfl
    · rw [h1, h2]
      simp only [bind, Except.bind]
      simp only at hc
      subst hc
      rcases (ihf he.2 hm).cases with ⟨x, h1, h2⟩ | ⟨⟨d, m2⟩, ⟨d', m2'⟩, h1, h2, hc, hm'⟩
      · rw [h1, h2]
        exact rfl
      · rw [h1, h2]
        simp only at hc
        subst hc
        exact ⟨rfl, hm'⟩
  | conj e f ihe ihf =>
    simp only [TRE.scale, TRE.toDNF]
    rcases (ihe he.1 h).cases with ⟨x, h1, h2⟩ | ⟨⟨c, m1⟩, ⟨c', m1'⟩, h1, h2, hc, hm⟩
    · rw [h1, h2]
      exact rfl
    · rw [h1, h2]
      simp only [bind, Except.bind]
      simp only at hc
      subst hc
      rcases (ihf he.2 hm).cases with ⟨x, h1, h2⟩ | ⟨⟨d, m2⟩, ⟨d', m2'⟩, h1, h2, hc, hm'⟩
      · rw [h1, h2]
        exact rfl
      · rw [h1, h2]
        simp only at hc
        subst hc
        exact ⟨rfl, hm'⟩
  | within e I ih =>
    simp only [TRE.scale, TRE.toDNF]
    rcases (ih he.1 h).cases with ⟨x, h1, h2⟩ | ⟨⟨c, m1⟩, ⟨c', m1'⟩, h1, h2, hc, hm⟩
    · rw [h1, h2]
      exact rfl
    · rw [h1, h2]
      simp only [bind, Except.bind]
      simp only at hc
      subst hc
      exact mr_mapM (fun m m' c hm => mr_mapM (fun m m' a hm => mr_mkWithin hk hm a ⟨rfl, he.2⟩) c hm) c' hm


/-! ## Normal forms -/

theorem mr_forM {α : Type} {f f' : TMem K → α → Except Err (TMem K)} (hf : ∀ m m' x, MR k m m' → RelE (MR k) (f m x) (f' m' x))
    (l : List α) (h : MR k m m') : RelE (MR k) (forM f m l) (forM f' m' l) := by
  induction l generalizing m m' with
  | nil => exact h
  | cons x l ih =>
    simp only [forM]
    rcases (hf m m' x h).cases with ⟨e, h1, h2⟩ | ⟨m1, m1', h1, h2, hm⟩
    · rw [h1, h2]
      exact rfl
    · rw [h1, h2]
      exact ih hm

theorem mr_allM {α : Type} {f f' : TMem K → α → Except Err (Bool × TMem K)} (hf : ∀ m m' x, MR k m m' → RelE (PR k) (f m x) (f' m' x))
    (l : List α) (h : MR k m m') : RelE (PR k) (allM f m l) (allM f' m' l) := by
  induction l generalizing m m' with
  | nil => exact ⟨rfl, h⟩
  | cons x l ih =>
    simp only [allM]
    rcases (hf m m' x h).cases with ⟨e, h1, h2⟩ | ⟨⟨b, m1⟩, ⟨b', m1'⟩, h1, h2, hb, hm⟩
    · rw [h1, h2]
      exact rfl
    · rw [h1, h2]
      simp only at hb
      subst hb
      cases b' with
      | true => exact ih hm
      | false => exact ⟨rfl, hm⟩

theorem mr_filterM {α : Type} {f f' : TMem K → α → Except Err (Bool × TMem K)} (hf : ∀ m m' x, MR k m m' → RelE (PR k) (f m x) (f' m' x))
    (l : List α) (h : MR k m m') : RelE (PR k) (filterM f m l) (filterM f' m' l) := by
  induction l generalizing m m' with
  | nil => exact ⟨rfl, h⟩
  | cons x l ih =>
    simp only [filterM]
    rcases (hf m m' x h).cases with ⟨e, h1, h2⟩ | ⟨⟨b, m1⟩, ⟨b', m1'⟩, h1, h2, hb, hm⟩
    · rw [h1, h2]
      exact rfl
    · rw [h1, h2]
      simp only at hb
      subst hb
      simp only
      rcases (ih hm).cases with ⟨e, h3, h4⟩ | ⟨⟨d, m2⟩, ⟨d', m2'⟩, h3, h4, hd, hm'⟩
      · rw [h3, h4]
        exact rfl
      · rw [h3, h4]
        simp only at hd
        subst hd
        exact ⟨rfl, hm'⟩

theorem mr_merge (l : List Nat) (pre x : Nat) (h : MR k m m') : RelE (PR k) (merge pre m x l) (merge pre m' x l) := by
  induction l generalizing m m' pre x with
  | nil =>
    have hx : m'.atom x = .epsilon ↔ m.atom x = .epsilon := by
      have := h.atom x
      generalize m.atom x = n, m'.atom x = n' at this
      cases this <;> simp
    simp only [merge, hx]
    exact ⟨rfl, h⟩
  | cons y r ih =>
    have step : RelE (PR k)
        (match merge (pre + 1) m y r with
          | .error e => .error e
          | .ok (l, m) => .ok (x :: l, m))
        (match merge (pre + 1) m' y r with
          | .error e => .error e
          | .ok (l, m) => .ok (x :: l, m)) := by
      rcases (ih (pre + 1) y h).cases with ⟨e, h1, h2⟩ | ⟨⟨b, m1⟩, ⟨b', m1'⟩, h1, h2, hb, hm⟩
      · rw [h1, h2]
        exact rfl
      · rw [h1, h2]
        simp only at hb
        subst hb
        exact ⟨rfl, hm⟩
    simp only [merge]
    have hx := h.atom x
    have hy := h.atom y
    generalize m.atom x = n, m'.atom x = n' at hx
    generalize m.atom y = p, m'.atom y = p' at hy
    cases hx with
    | epsilon => exact ih pre y h
    | singleton s =>
      cases hy with
      | singleton t =>
        obtain ⟨a1, a2⟩ := h.sing s
        obtain ⟨b1, b2⟩ := h.sing t
        simp only [a1, b1]
        by_cases he : (m.sing s).1 = (m.sing t).1
        · rw [if_pos he, if_pos he]
          exact ih pre x (mr_setSing h s ⟨rfl, a2.addAll b2⟩)
        · rw [if_neg he, if_neg he]
          exact step
      | moved => exact rfl
      | _ => exact step
    | moved =>
      cases hy with
      | singleton t => exact rfl
      | moved => exact rfl
      | _ => exact step
    | concat l => cases hy <;> exact step
    | plus l => cases hy <;> exact step
    | within a hI => cases hy <;> exact step

theorem mr_plusMixed (h : MR k m m') (a : Nat) : m'.plusMixed a = m.plusMixed a := by
  unfold plusMixed
  have := h.atom a
  generalize m.atom a = n, m'.atom a = n' at this
  rw [h.ddec]
  cases this <;> rfl

theorem mr_shorten (h : MR k m m') (l : List Nat) : NR k (m.shorten l) (m'.shorten l) := by
  rcases l with _ | ⟨y, _ | ⟨z, l⟩⟩
  · exact .concat _
  · exact h.atom y
  · exact .concat _

theorem mr_finishConcat (h : MR k m m') (a : Nat) (l : List Nat) (dec : Decision) :
    RelE (MR k) (m.finishConcat a l dec) (m'.finishConcat a l dec) := by
  cases l with
  | nil => exact mr_setAtom (mr_setADec h a dec) a (.concat [])
  | cons x r =>
    simp only [finishConcat]
    rcases (mr_merge r 0 x h).cases with ⟨e, h1, h2⟩ | ⟨⟨b, m1⟩, ⟨b', m1'⟩, h1, h2, hb, hm⟩
    · rw [h1, h2]
      exact rfl
    · rw [h1, h2]
      simp only at hb
      subst hb
      simp only
      have hs := mr_shorten hm b'
      have hp : m1'.plusMixed = m1.plusMixed := funext fun a => mr_plusMixed hm a
      generalize m1.shorten b' = n, m1'.shorten b' = n' at hs
      have hd := mr_setADec hm a dec
      cases hs with
      | concat l =>
        simp only [hp]
        cases anyM m1.plusMixed l with
        | error e => exact rfl
        | ok b =>
          cases b with
          | true => exact rfl
          | false => exact mr_setAtom hd a (.concat _)
      | singleton s => exact mr_setAtom hd a (.singleton _)
      | epsilon => exact mr_setAtom hd a .epsilon
      | plus d => exact mr_setAtom hd a (.plus _)
      | within b hI => exact mr_setAtom hd a (.within b hI)
      | moved => exact mr_setAtom hd a .moved

theorem mr_intervalsOf (h : MR k m m') (a : Nat) : RelE (RL k) (m.intervalsOf a) (m'.intervalsOf a) := by
  unfold intervalsOf
  have := h.atom a
  generalize m.atom a = n, m'.atom a = n' at this
  cases this with
  | singleton s => exact (h.sing s).2
  | _ => exact rfl

theorem mr_conjIntervals (hk : 0 < k) (h : MR k m m') (l : List Nat) {acc acc' : List (Interval K)} (ha : RL k acc acc') :
    RelE (RL k) (m.conjIntervals acc l) (m'.conjIntervals acc' l) := by
  induction l generalizing acc acc' with
  | nil => exact ha
  | cons a l ih =>
    simp only [conjIntervals]
    rcases (mr_intervalsOf h a).cases with ⟨e, h1, h2⟩ | ⟨I, J, h1, h2, hI⟩
    · rw [h1, h2]
      exact rfl
    · rw [h1, h2]
      exact ih (ha.land hk hI)

theorem mr_sumIntervals (h : MR k m m') (l : List Nat) {acc acc' : List (Interval K)} (ha : RL k acc acc') :
    RelE (RL k) (m.sumIntervals acc l) (m'.sumIntervals acc' l) := by
  induction l generalizing acc acc' with
  | nil => exact ha
  | cons a l ih =>
    simp only [sumIntervals]
    rcases (mr_intervalsOf h a).cases with ⟨e, h1, h2⟩ | ⟨I, J, h1, h2, hI⟩
    · rw [h1, h2]
      exact rfl
    · rw [h1, h2]
      exact ih (ha.addAll hI)

theorem mr_unionIntervals (hk : 0 < k) (h : MR k m m') (l : List (List Nat)) : RelE (RL k) (m.unionIntervals l) (m'.unionIntervals l) := by
  induction l with
  | nil => exact List.Forall₂.nil
  | cons c l ih =>
    simp only [unionIntervals]
    rcases (mr_conjIntervals hk h c (.cons RI.default .nil)).cases with ⟨e, h1, h2⟩ | ⟨I, J, h1, h2, hI⟩
    · rw [h1, h2]
      exact rfl
    · rw [h1, h2]
      rcases ih.cases with ⟨e, h1, h2⟩ | ⟨I, J, h1, h2, hJ⟩
      · rw [h1, h2]
        exact rfl
      · rw [h1, h2]
        exact RL.append hI hJ

theorem mr_finishSNF (hk : 0 < k) (h : MR k m m') (c : Alphabet) (d : Nat) (l : List (List Nat)) :
    RelE (MR k) (m.finishSNF c d l) (m'.finishSNF c d l) := by
  unfold finishSNF
  rcases (mr_unionIntervals hk h l).cases with ⟨e, h1, h2⟩ | ⟨I, J, h1, h2, hI⟩
  · rw [h1, h2]
    exact rfl
  · rw [h1, h2]
    obtain ⟨h3, h4⟩ := mr_newSingleton h (v := (c, I)) (v' := (c, J)) ⟨rfl, hI⟩
    have := mr_setDnf h4 d [[(m.newSingleton (c, I)).1]]
    show MR k _ ((m'.newSingleton (c, J)).2.setDnf d [[(m'.newSingleton (c, J)).1]])
    rw [h3]
    exact this

variable [FloorRing K]

theorem mr_finishPlusSNF (hk : 0 < k) (h : MR k m m') (a d : Nat) : RelE (PR k) (m.finishPlusSNF a d) (m'.finishPlusSNF a d) := by
  unfold finishPlusSNF
  rw [h.dnf]
  rcases m.dnf d with _ | ⟨_ | ⟨b, r⟩, l⟩
  · exact rfl
  · exact rfl
  · simp only
    have hb := h.atom b
    generalize m.atom b = n, m'.atom b = n' at hb
    cases hb with
    | singleton s =>
      obtain ⟨h1, h2⟩ := h.sing s
      simp only
      rcases (h2.plusAll hk).cases with ⟨e, h3, h4⟩ | ⟨I, J, h3, h4, hI⟩
      · rw [h3, h4]
        exact rfl
      · rw [h3, h4]
        exact ⟨rfl, mr_setSing (mr_setAtom h a (.singleton s)) s ⟨h1, hI⟩⟩
    | _ => exact rfl

omit [FloorRing K] in
theorem mr_finishWithinSNF (hk : 0 < k) (h : MR k m m') (a b : Nat) {I I' : Interval K} (hI : RI k I I') :
    RelE (PR k) (m.finishWithinSNF a b I) (m'.finishWithinSNF a b I') := by
  unfold finishWithinSNF
  have hb := h.atom b
  generalize m.atom b = n, m'.atom b = n' at hb
  cases hb with
  | singleton s =>
    obtain ⟨h1, h2⟩ := h.sing s
    exact ⟨rfl, mr_setSing (mr_setAtom h a (.singleton s)) s ⟨h1, h2.land1 hk hI⟩⟩
  | _ => exact rfl

theorem mr_snf (hk : 0 < k) (c : Alphabet) (fuel : Nat) :
    (∀ (m m' : TMem K) a, MR k m m' → RelE (PR k) (m.snfAtom c fuel a) (m'.snfAtom c fuel a)) ∧
    ∀ (m m' : TMem K) d, MR k m m' → RelE (MR k) (m.snfDnf c fuel d) (m'.snfDnf c fuel d) := by
  induction fuel with
  | zero =>
    constructor
    · intro m m' a _
      simp only [snfAtom]
      exact rfl
    · intro m m' a _
      simp only [snfDnf]
      exact rfl
  | succ fuel ih =>
    obtain ⟨iha, ihd⟩ := ih
    constructor
    · intro m m' a h
      simp only [snfAtom]
      have ha := h.atom a
      generalize m.atom a = n, m'.atom a = n' at ha
      cases ha with
      | moved => exact rfl
      | singleton s => exact ⟨by simp only [(h.sing s).1], h⟩
      | epsilon => exact ⟨rfl, h⟩
      | concat l =>
        simp only
        rcases (mr_allM iha l h).cases with ⟨e, h1, h2⟩ | ⟨⟨b, m1⟩, ⟨b', m1'⟩, h1, h2, hb, hm⟩
        · rw [h1, h2]
          exact rfl
        · rw [h1, h2]
          simp only at hb
          subst hb
          cases b' with
          | false => exact ⟨rfl, hm⟩
          | true =>
            simp only
            rcases (mr_sumIntervals hm l (.cons RI.zero .nil)).cases with ⟨e, h1, h2⟩ | ⟨I, J, h1, h2, hI⟩
            · rw [h1, h2]
              exact rfl
            · rw [h1, h2]
              refine ⟨rfl, mr_setAtom (mr_newSing hm (v := (c, I)) (v' := (c, J)) ⟨rfl, hI⟩) a ?_⟩
              rw [hm.next]
              exact .singleton _
      | plus d =>
        simp only
        rcases (ihd m m' d h).cases with ⟨e, h1, h2⟩ | ⟨m1, m1', h1, h2, hm⟩
        · rw [h1, h2]
          exact rfl
        · rw [h1, h2]
          exact mr_finishPlusSNF hk hm a d
      | within b hI =>
        simp only
        rcases (iha m m' b h).cases with ⟨e, h1, h2⟩ | ⟨⟨c, m1⟩, ⟨c', m1'⟩, h1, h2, hb, hm⟩
        · rw [h1, h2]
          exact rfl
        · rw [h1, h2]
          simp only at hb
          subst hb
          cases c' with
          | false => exact ⟨rfl, hm⟩
          | true => exact mr_finishWithinSNF hk hm a b hI
    · intro m m' d h
      simp only [snfDnf]
      rw [h.dnf]
      rcases (mr_filterM (fun m m' l hm => mr_allM iha l hm) (m.dnf d) h).cases with ⟨e, h1, h2⟩ | ⟨⟨c, m1⟩, ⟨c', m1'⟩, h1, h2, hb, hm⟩
      · rw [h1, h2]
        exact rfl
      · rw [h1, h2]
        simp only at hb
        subst hb
        exact mr_finishSNF hk hm c d c'

omit [FloorRing K] in
theorem mr_atomMixed (h : MR k m m') (a : Nat) : m'.atomMixed a = m.atomMixed a := by
  unfold atomMixed
  have := h.atom a
  generalize m.atom a = n, m'.atom a = n' at this
  rw [h.adec]
  cases this <;> rfl

omit [FloorRing K] in
theorem mr_decisionOf (h : MR k m m') (a : Nat) : m'.decisionOf a = m.decisionOf a := by
  unfold decisionOf
  rw [h.adec]

omit [FloorRing K] in
theorem mr_conjLoop (h : MR k m m') (y fuel : Nat) (d : Decision) : m'.conjLoop y fuel d = m.conjLoop y fuel d := by
  induction fuel generalizing d with
  | zero => rfl
  | succ fuel ih => simp only [conjLoop, mr_decisionOf h, ih]

omit [FloorRing K] in
theorem mr_conjDecision (h : MR k m m') (fuel : Nat) (l : List Nat) : m'.conjDecision fuel l = m.conjDecision fuel l := by
  rcases l with _ | ⟨y, _ | ⟨z, l⟩⟩
  · rfl
  · exact mr_decisionOf h y
  · simp only [conjDecision, mr_decisionOf h, mr_conjLoop h]

omit [FloorRing K] in
theorem mr_conjDecisions (h : MR k m m') (fuel : Nat) (l : List (List Nat)) : m'.conjDecisions fuel l = m.conjDecisions fuel l := by
  induction l with
  | nil => rfl
  | cons c l ih => simp only [conjDecisions, mr_conjDecision h, ih]

omit [FloorRing K] in
theorem mr_finishDnf (h : MR k m m') (fuel d : Nat) : RelE (MR k) (finishDnf fuel m d) (finishDnf fuel m' d) := by
  unfold finishDnf
  have h1 : m'.atomMixed = m.atomMixed := funext fun a => mr_atomMixed h a
  rw [h.dnf, h1]
  cases anyM (anyM m.atomMixed) (m.dnf d) with
  | error e => exact rfl
  | ok b =>
    cases b with
    | true => exact rfl
    | false =>
      simp only [mr_conjDecisions h]
      cases m.conjDecisions fuel (m.dnf d) with
      | error e => exact rfl
      | ok ds =>
        simp only
        cases disjDecision ds with
        | error e => exact rfl
        | ok v => exact mr_setDDec h d v

theorem mr_finishPlus (hk : 0 < k) (h : MR k m m') (fuel a d : Nat) : RelE (MR k) (finishPlus fuel m a d) (finishPlus fuel m' a d) := by
  unfold finishPlus
  rw [h.ddec]
  cases m.ddec d with
  | none => exact rfl
  | some v =>
    simp only
    generalize ({ chars := v.chars, constant := v.constant && (v.chars.length == 1 || (v.chars.length == 2 && v.hasEpsilon)) } : Decision) = dec
    have hd := mr_setADec h a dec
    split_ifs
    · exact rfl
    · cases dec.isConstant with
      | none => exact hd
      | some c =>
        simp only
        rcases ((mr_snf hk c fuel).1 _ _ a hd).cases with ⟨e, h1, h2⟩ | ⟨⟨c, m1⟩, ⟨c', m1'⟩, h1, h2, hb, hm⟩
        · rw [h1, h2]
          exact rfl
        · rw [h1, h2]
          exact hm

omit [FloorRing K] in
theorem mr_finishWithin (hk : 0 < k) (h : MR k m m') (a b : Nat) {I I' : Interval K} (hI : RI k I I') :
    RelE (MR k) (m.finishWithin a b I) (m'.finishWithin a b I') := by
  unfold finishWithin
  rw [h.adec]
  cases m.adec b with
  | none => exact rfl
  | some v =>
    simp only
    have hd := mr_setADec h a v
    generalize m.setADec a v = m1, m'.setADec a v = m1' at hd
    have hb := hd.atom b
    generalize m1.atom b = n, m1'.atom b = n' at hb
    cases hb with
    | singleton s =>
      obtain ⟨h1, h2⟩ := hd.sing s
      exact mr_setAtom (mr_setAtom (mr_setSing hd s (v := ((m1.sing s).1, Interval.land1 (m1.sing s).2 I))
        (v' := ((m1'.sing s).1, Interval.land1 (m1'.sing s).2 I')) ⟨h1, h2.land1 hk hI⟩) b .moved) a (.singleton s)
    | moved => exact rfl
    | epsilon => exact mr_setAtom hd a .epsilon
    | plus d =>
      simp only
      split_ifs
      · exact rfl
      · exact hd
    | concat l => exact hd
    | within b hI => exact hd

omit [FloorRing K] in
theorem mr_concatLoop {f f' : TMem K → Nat → Except Err (TMem K)} (hf : ∀ m m' x, MR k m m' → RelE (MR k) (f m x) (f' m' x))
    (l : List Nat) (dec : Decision) (h : MR k m m') : RelE (PR k) (concatLoop f m dec l) (concatLoop f' m' dec l) := by
  induction l generalizing m m' dec with
  | nil => exact ⟨rfl, h⟩
  | cons x l ih =>
    simp only [concatLoop]
    rcases (hf m m' x h).cases with ⟨e, h1, h2⟩ | ⟨m1, m1', h1, h2, hm⟩
    · rw [h1, h2]
      exact rfl
    · rw [h1, h2]
      simp only [mr_decisionOf hm]
      cases m1.decisionOf x with
      | error e => exact rfl
      | ok i => exact ih _ hm

theorem mr_norm (hk : 0 < k) (fuel : Nat) :
    (∀ (m m' : TMem K) a, MR k m m' → RelE (MR k) (m.normAtom fuel a) (m'.normAtom fuel a)) ∧
    ∀ (m m' : TMem K) d, MR k m m' → RelE (MR k) (m.normDnf fuel d) (m'.normDnf fuel d) := by
  induction fuel with
  | zero =>
    constructor
    · intro m m' a _
      simp only [normAtom]
      exact rfl
    · intro m m' a _
      simp only [normDnf]
      exact rfl
  | succ fuel ih =>
    obtain ⟨iha, ihd⟩ := ih
    constructor
    · intro m m' a h
      simp only [normAtom]
      have ha := h.atom a
      generalize m.atom a = n, m'.atom a = n' at ha
      cases ha with
      | moved => exact rfl
      | singleton s =>
        simp only [(h.sing s).1]
        exact mr_setADec h a _
      | epsilon => exact mr_setADec h a _
      | concat l =>
        simp only
        rcases (mr_concatLoop iha l ⟨true, [0]⟩ h).cases with ⟨e, h1, h2⟩ | ⟨⟨b, m1⟩, ⟨b', m1'⟩, h1, h2, hb, hm⟩
        · rw [h1, h2]
          exact rfl
        · rw [h1, h2]
          simp only at hb
          subst hb
          exact mr_finishConcat hm a l b'
      | plus d =>
        simp only
        rcases (ihd m m' d h).cases with ⟨e, h1, h2⟩ | ⟨m1, m1', h1, h2, hm⟩
        · rw [h1, h2]
          exact rfl
        · rw [h1, h2]
          exact mr_finishPlus hk hm fuel a d
      | within b hI =>
        simp only
        rcases (iha m m' b h).cases with ⟨e, h1, h2⟩ | ⟨m1, m1', h1, h2, hm⟩
        · rw [h1, h2]
          exact rfl
        · rw [h1, h2]
          exact mr_finishWithin hk hm a b hI
    · intro m m' d h
      simp only [normDnf]
      rw [h.dnf]
      rcases (mr_forM (fun m m' l hm => mr_forM iha l hm) (m.dnf d) h).cases with ⟨e, h1, h2⟩ | ⟨m1, m1', h1, h2, hm⟩
      · rw [h1, h2]
        exact rfl
      · rw [h1, h2]
        exact mr_finishDnf hm fuel d

end TMem

theorem TRE.normalForm_scale [FloorRing K] (hk : 0 < k) (fuel : Nat) (e : TRE K) (he : e.IntEnds) :
    RelE (PR k) (e.normalForm fuel) ((e.scale k).normalForm fuel) := by
  unfold TRE.normalForm
  rcases (TMem.mr_toDNF hk e he TMem.mr_empty).cases with ⟨x, h1, h2⟩ | ⟨⟨b, m1⟩, ⟨b', m1'⟩, h1, h2, hb, hm⟩
  · rw [h1, h2]
    exact rfl
  · rw [h1, h2]
    simp only at hb hm
    subst hb
    simp only [hm.next]
    rcases ((TMem.mr_norm hk fuel).2 _ _ m1.next (TMem.mr_newDnf hm b')).cases with ⟨x, h1, h2⟩ | ⟨m1, m1', h1, h2, hm⟩
    · rw [h1, h2]
      exact rfl
    · rw [h1, h2]
      exact ⟨rfl, hm⟩

end
end Verif
