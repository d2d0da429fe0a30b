import Verif.Lemmas.SignalDead
import Verif.Lemmas.IntersectionSignal
import Verif.Spec.Upper
import Verif.Spec.Skip

/-!
# Expressions without upper ends have signal automata without upper bounds
-/

set_option linter.unusedSectionVars false

namespace Verif

open TMem TA

variable {K : Type} [Field K] [LinearOrder K] [IsStrictOrderedRing K] [FloorRing K]

namespace TMem

/-- A condition for nodes. -/
def NodeOpen : ANode K → Prop
  | .within _ I => I.NoUpper
  | .concat l => l ≠ []
  | _ => True

/-- No interval in the memory has a finite upper end, and no concatenation is empty. -/
structure Open (m : TMem K) : Prop where
  sing : ∀ s, ∀ I ∈ (m.sing s).2, I.NoUpper
  atom : ∀ a, NodeOpen (m.atom a)

theorem open_empty : Open (TMem.empty : TMem K) := ⟨by simp [TMem.empty], fun _ => trivial⟩

theorem Open.setSing {m : TMem K} (h : Open m) {s : Nat} {v : Alphabet × List (Interval K)} (hv : ∀ I ∈ v.2, I.NoUpper) :
    Open (m.setSing s v) := by
  refine ⟨fun s' => ?_, h.atom⟩
  simp only [TMem.setSing, put]
  split
  · exact hv
  · exact h.sing s'

theorem Open.setAtom {m : TMem K} (h : Open m) {a : Nat} {n : ANode K} (hn : NodeOpen n) : Open (m.setAtom a n) := by
  refine ⟨h.sing, fun a' => ?_⟩
  simp only [TMem.setAtom, put]
  split
  · exact hn
  · exact h.atom a'

theorem Open.setADec {m : TMem K} (h : Open m) (a : Nat) (d : Decision) : Open (m.setADec a d) := ⟨h.sing, h.atom⟩
theorem Open.setDnf {m : TMem K} (h : Open m) (a : Nat) (l : List (List Nat)) : Open (m.setDnf a l) := ⟨h.sing, h.atom⟩
theorem Open.setDDec {m : TMem K} (h : Open m) (a : Nat) (d : Decision) : Open (m.setDDec a d) := ⟨h.sing, h.atom⟩
theorem Open.newDnf {m : TMem K} (h : Open m) (l : List (List Nat)) : Open (m.newDnf l) := ⟨h.sing, h.atom⟩

theorem Open.newSing {m : TMem K} (h : Open m) {v : Alphabet × List (Interval K)} (hv : ∀ I ∈ v.2, I.NoUpper) : Open (m.newSing v) := by
  have := h.setSing (s := m.next) hv
  exact ⟨this.sing, this.atom⟩

theorem Open.newAtom {m : TMem K} (h : Open m) {n : ANode K} (hn : NodeOpen n) : Open (m.newAtom n) := by
  have := h.setAtom (a := m.next) hn
  exact ⟨this.sing, this.atom⟩

theorem Open.newSingleton {m : TMem K} (h : Open m) {v : Alphabet × List (Interval K)} (hv : ∀ I ∈ v.2, I.NoUpper) :
    Open (m.newSingleton v).2 := (h.newSing hv).newAtom trivial

end TMem

namespace Interval

theorem noUpper_default : (Interval.default : Interval K).NoUpper := ⟨_, rfl⟩

theorem noUpper_inter {I J : Interval K} (h1 : I.NoUpper) (h2 : J.NoUpper) : (inter I J).NoUpper := by
  obtain ⟨s, hs⟩ := h1
  obtain ⟨t, ht⟩ := h2
  simp only [NoUpper, inter, hs, ht, Bnd.min]
  split <;> exact ⟨_, rfl⟩

theorem noUpper_land1 {S : List (Interval K)} {J : Interval K} (hS : ∀ I ∈ S, I.NoUpper) (hJ : J.NoUpper) : ∀ I ∈ land1 S J, I.NoUpper := by
  intro I hI
  obtain ⟨I', hI', rfl⟩ := List.mem_map.1 (List.mem_of_mem_filter hI)
  exact noUpper_inter (hS I' hI') hJ

theorem noUpper_land {S T : List (Interval K)} (hS : ∀ I ∈ S, I.NoUpper) (hT : ∀ I ∈ T, I.NoUpper) : ∀ I ∈ land S T, I.NoUpper := by
  intro I hI
  obtain ⟨J, hJ, hI⟩ := List.mem_flatMap.1 hI
  exact noUpper_land1 hS (hT J hJ) I hI

theorem noUpper_add {I J : Interval K} (h : J.NoUpper) : (add I J).NoUpper := by
  obtain ⟨t, ht⟩ := h
  obtain ⟨l, u⟩ := I
  cases u with
  | fin c s => exact ⟨_, by simp only [add, ht]; rfl⟩
  | inf s => exact ⟨_, by simp only [add, ht]; rfl⟩

theorem noUpper_addAll {S T : List (Interval K)} (hT : ∀ I ∈ T, I.NoUpper) : ∀ I ∈ addAll S T, I.NoUpper := by
  intro I hI
  obtain ⟨I', _, hI⟩ := List.mem_flatMap.1 hI
  obtain ⟨J, hJ, rfl⟩ := List.mem_map.1 hI
  exact noUpper_add (hT J hJ)

theorem noUpper_plusMember {I : Interval K} (hI : I.NoUpper) {P : List (Interval K)} (h : plusMember I = .ok P) : ∀ J ∈ P, J.NoUpper := by
  obtain ⟨s, hs⟩ := hI
  rw [plusMember, hs] at h
  cases h
  intro J hJ
  rw [List.mem_singleton.1 hJ]
  exact ⟨s, hs⟩

theorem noUpper_foldl : ∀ (P : List (List (Interval K))) (acc : List (Interval K)), (P = [] → ∀ I ∈ acc, I.NoUpper) → (∀ p ∈ P, ∀ I ∈ p, I.NoUpper) →
    ∀ I ∈ P.foldl addAll acc, I.NoUpper
  | [], _, h, _ => h rfl
  | p :: P, acc, _, h => noUpper_foldl P _ (fun _ => noUpper_addAll (h p (List.mem_cons_self ..))) fun q hq => h q (List.mem_cons_of_mem _ hq)

end Interval

open Interval

theorem select_nil {α : Type} : ∀ (l : List α) (i : Nat), i < 2 ^ l.length → select i l = [] → i = 0
  | [], i, h, _ => by simpa using h
  | a :: l, i, h, h' => by
    unfold select at h'
    split at h'
    · cases h'
    · have := select_nil l (i / 2) (by rw [List.length_cons, pow_succ] at h; omega) h'
      omega

theorem noUpper_plusAll {S P : List (Interval K)} (hS : ∀ I ∈ S, I.NoUpper) (h : plusAll S = .ok P) : ∀ I ∈ P, I.NoUpper := by
  unfold plusAll at h
  split at h
  · cases h
  · cases hm : S.mapM plusMember with
    | error e => rw [hm] at h; cases h
    | ok Q =>
      rw [hm] at h
      have hf := mapM_ok (R := fun I p => plusMember I = .ok p) (fun _ _ h => h) S Q hm
      have hQ : ∀ p ∈ Q, ∀ J ∈ p, J.NoUpper := fun p hp => by
        obtain ⟨I, hI, hi⟩ := (mem_forall₂ hf).2 p hp
        exact noUpper_plusMember (hS I hI) hi
      have hlen : Q.length = S.length := hf.length_eq.symm
      simp only [Except.bind, bind] at h
      split at h
      · cases h; exact hQ _ (List.mem_singleton.2 rfl)
      · cases h
        intro I hI
        obtain ⟨i, hi, hI⟩ := List.mem_flatMap.1 hI
        refine noUpper_foldl _ _ (fun h => ?_) (fun p hp => hQ p (mem_of_mem_select hp)) I hI
        exfalso
        have h2 : i < 2 ^ S.length := List.mem_range.1 (List.mem_of_mem_drop hi)
        have h0 := select_nil Q i (by rw [hlen]; exact h2) h
        subst h0
        have hr : List.range (2 ^ S.length) = 0 :: (List.range (2 ^ S.length - 1)).map (· + 1) := by
          have : 2 ^ S.length = (2 ^ S.length - 1) + 1 := by have := Nat.one_le_two_pow (n := S.length); omega
          rw [this, List.range_succ_eq_map]
          rfl
        rw [hr] at hi
        simp at hi

namespace TMem

/-! ## The list of alternatives -/

theorem mapM_open {α β : Type} {f : TMem K → α → Except Err (β × TMem K)} (hf : ∀ m x y m', Open m → f m x = .ok (y, m') → Open m') :
    ∀ (l : List α) (m : TMem K) ys m', Open m → mapM f m l = .ok (ys, m') → Open m'
  | [], m, ys, m', h, h' => by cases h'; exact h
  | x :: l, m, ys, m', h, h' => by
    unfold mapM at h'
    split at h'
    · cases h'
    · next y m1 h1 =>
      split at h'
      · cases h'
      · next l' m2 h2 => cases h'; exact mapM_open hf l m1 _ _ (hf m x y m1 h h1) h2

theorem parts_ne {m : TMem K} {a b : Nat} {m' : TMem K} {y : Nat} (h : Open m) (h' : m.mkConcat a b = .ok (y, m')) : Open m' := by
  unfold mkConcat at h'
  split at h'
  · cases h'; exact h.newAtom trivial
  · cases h'
  · next l h1 h2 => cases h'; exact h.newAtom h1

theorem mkWithin_open {m : TMem K} {a : Nat} {I : Interval K} (hI : I.NoUpper) {m' : TMem K} {y : Nat} (h : Open m)
    (h' : m.mkWithin a I = .ok (y, m')) : Open m' := by
  unfold mkWithin at h'
  split at h'
  · next s hs => cases h'; exact h.newSingleton (noUpper_land1 (h.sing s) hI)
  · cases h'
  · cases h'; exact h.newAtom hI

theorem toDNF_open : ∀ (e : TRE K) (m : TMem K) l m', e.NoUpper → Open m → e.toDNF m = .ok (l, m') → Open m'
  | .atom c, m, l, m', _, h, h' => by
    cases h'
    exact h.newSingleton fun I hI => by rw [List.mem_singleton.1 hI]; exact noUpper_default
  | .epsilon, m, l, m', _, h, h' => by cases h'; exact h.newAtom trivial
  | .plus e, m, l, m', hu, h, h' => by
    simp only [TRE.toDNF] at h'
    cases h1 : e.toDNF m with
    | error x => rw [h1] at h'; cases h'
    | ok r =>
      rw [h1] at h'
      cases h'
      exact ((toDNF_open e m _ _ hu h h1).newDnf _).newAtom trivial
  | .concat e f, m, l, m', hu, h, h' => by
    simp only [TRE.toDNF] at h'
    cases h1 : e.toDNF m with
    | error x => rw [h1] at h'; cases h'
    | ok r =>
      rw [h1] at h'
      simp only [bind, Except.bind] at h'
      have g1 := toDNF_open e m _ _ hu.1 h h1
      cases h2 : f.toDNF r.2 with
      | error x => rw [h2] at h'; cases h'
      | ok r2 =>
        rw [h2] at h'
        simp only at h'
        have g2 := toDNF_open f _ _ _ hu.2 g1 h2
        split at h'
        · cases h'
        · next x h3 =>
          cases h'
          exact mapM_open (fun m p y m' h h' => mapM_open (fun m q y m' h h' => parts_ne h h') _ _ _ _ h h') _ _ _ _ g2 h3
  | .disj e f, m, l, m', hu, h, h' => by
    simp only [TRE.toDNF] at h'
    cases h1 : e.toDNF m with
    | error x => rw [h1] at h'; cases h'
    | ok r =>
      rw [h1] at h'
      simp only [bind, Except.bind] at h'
      have g1 := toDNF_open e m _ _ hu.1 h h1
      cases h2 : f.toDNF r.2 with
      | error x => rw [h2] at h'; cases h'
      | ok r2 =>
        rw [h2] at h'
        cases h'
        exact toDNF_open f _ _ _ hu.2 g1 h2
  | .conj e f, m, l, m', hu, h, h' => by
    simp only [TRE.toDNF] at h'
    cases h1 : e.toDNF m with
    | error x => rw [h1] at h'; cases h'
    | ok r =>
      rw [h1] at h'
      simp only [bind, Except.bind] at h'
      have g1 := toDNF_open e m _ _ hu.1 h h1
      cases h2 : f.toDNF r.2 with
      | error x => rw [h2] at h'; cases h'
      | ok r2 =>
        rw [h2] at h'
        cases h'
        exact toDNF_open f _ _ _ hu.2 g1 h2
  | .within e I, m, l, m', hu, h, h' => by
    simp only [TRE.toDNF] at h'
    cases h1 : e.toDNF m with
    | error x => rw [h1] at h'; cases h'
    | ok r =>
      rw [h1] at h'
      simp only [bind, Except.bind] at h'
      exact mapM_open (fun m p y m' h h' => mapM_open (fun m q y m' h h' => mkWithin_open hu.2 h h') _ _ _ _ h h') _ _ _ _
        (toDNF_open e m _ _ hu.1 h h1) h'

/-! ## The normal form -/

theorem merge_open : ∀ (r : List Nat) (pre : Nat) (m : TMem K) (x : Nat) l m', Open m → merge pre m x r = .ok (l, m') →
    Open m' ∧ (pre = 0 → l ≠ [])
  | [], pre, m, x, l, m', h, h' => by
    cases h'
    refine ⟨h, fun h0 => ?_⟩
    rw [if_neg (fun hh => hh.1 h0)]
    simp
  | y :: r, pre, m, x, l, m', h, h' => by
    unfold merge at h'
    split at h'
    · exact merge_open r pre m y l m' h h'
    · next s t hs ht =>
      split at h'
      · exact merge_open r pre _ x l m' (h.setSing (noUpper_addAll (h.sing t))) h'
      · split at h'
        · cases h'
        · next l1 m1 h1 => cases h'; exact ⟨(merge_open r _ m y _ _ h h1).1, fun _ => by simp⟩
    · cases h'
    · cases h'
    · cases h'
    · split at h'
      · cases h'
      · next l1 m1 h1 => cases h'; exact ⟨(merge_open r _ m y _ _ h h1).1, fun _ => by simp⟩

theorem finishConcat_open {m m' : TMem K} {a : Nat} {l : List Nat} {dec : Decision} (h : Open m) (hl : l ≠ [])
    (h' : m.finishConcat a l dec = .ok m') : Open m' := by
  unfold finishConcat at h'
  split at h'
  · exact absurd rfl hl
  · split at h'
    · cases h'
    · next l1 m1 h1 =>
      obtain ⟨g, hne⟩ := merge_open _ _ _ _ _ _ h h1
      have hn : NodeOpen (m1.shorten l1) := by
        unfold shorten
        split
        · exact g.atom _
        · exact hne rfl
      split at h'
      · next l2 h2 =>
        rw [h2] at hn
        split at h'
        · cases h'
        · cases h'
        · cases h'; exact (g.setADec _ _).setAtom hn
      · cases h'; exact (g.setADec _ _).setAtom hn

theorem intervalsOf_open {m : TMem K} {a : Nat} {S : List (Interval K)} (h : Open m) (h' : m.intervalsOf a = .ok S) : ∀ I ∈ S, I.NoUpper := by
  unfold intervalsOf at h'
  split at h'
  · cases h'; exact h.sing _
  · cases h'

theorem conjIntervals_open {m : TMem K} (h : Open m) : ∀ (l : List Nat) (acc S : List (Interval K)), (∀ I ∈ acc, I.NoUpper) →
    m.conjIntervals acc l = .ok S → ∀ I ∈ S, I.NoUpper
  | [], acc, S, ha, h' => by cases h'; exact ha
  | a :: l, acc, S, ha, h' => by
    unfold conjIntervals at h'
    split at h'
    · cases h'
    · next I hI => exact conjIntervals_open h l _ S (noUpper_land ha (intervalsOf_open h hI)) h'

theorem unionIntervals_open {m : TMem K} (h : Open m) : ∀ (l : List (List Nat)) (S : List (Interval K)),
    m.unionIntervals l = .ok S → ∀ I ∈ S, I.NoUpper
  | [], S, h' => by cases h'; simp
  | c :: l, S, h' => by
    unfold unionIntervals at h'
    split at h'
    · cases h'
    · next I hI =>
      split at h'
      · cases h'
      · next J hJ =>
        cases h'
        intro L hL
        rcases List.mem_append.1 hL with hL | hL
        · exact conjIntervals_open h c _ _ (fun I hI => by rw [List.mem_singleton.1 hI]; exact noUpper_default) hI L hL
        · exact unionIntervals_open h l _ hJ L hL

theorem sumIntervals_open {m : TMem K} (h : Open m) : ∀ (l : List Nat) (acc S : List (Interval K)), (l = [] → ∀ I ∈ acc, I.NoUpper) →
    m.sumIntervals acc l = .ok S → ∀ I ∈ S, I.NoUpper
  | [], acc, S, ha, h' => by cases h'; exact ha rfl
  | a :: l, acc, S, ha, h' => by
    unfold sumIntervals at h'
    split at h'
    · cases h'
    · next I hI => exact sumIntervals_open h l _ S (fun _ => noUpper_addAll (intervalsOf_open h hI)) h'

theorem allM_open {α : Type} {f : TMem K → α → Except Err (Bool × TMem K)} (hf : ∀ m x b m', Open m → f m x = .ok (b, m') → Open m') :
    ∀ (l : List α) (m : TMem K) b m', Open m → allM f m l = .ok (b, m') → Open m'
  | [], m, b, m', h, h' => by cases h'; exact h
  | x :: l, m, b, m', h, h' => by
    unfold allM at h'
    split at h'
    · cases h'
    · next m1 h1 => cases h'; exact hf m x _ _ h h1
    · next m1 h1 => exact allM_open hf l m1 b m' (hf m x _ _ h h1) h'

theorem filterM_open {α : Type} {f : TMem K → α → Except Err (Bool × TMem K)} (hf : ∀ m x b m', Open m → f m x = .ok (b, m') → Open m') :
    ∀ (l : List α) (m : TMem K) r m', Open m → filterM f m l = .ok (r, m') → Open m'
  | [], m, b, m', h, h' => by cases h'; exact h
  | x :: l, m, b, m', h, h' => by
    unfold filterM at h'
    split at h'
    · cases h'
    · next b1 m1 h1 =>
      split at h'
      · cases h'
      · next l1 m2 h2 => cases h'; exact filterM_open hf l m1 _ _ (hf m x _ _ h h1) h2

mutual

theorem snfAtom_open (c : Alphabet) : ∀ (fuel : Nat) (m : TMem K) (a : Nat) b m', Open m → snfAtom c fuel m a = .ok (b, m') → Open m'
  | 0, _, _, _, _, _, h' => by cases h'
  | fuel + 1, m, a, b, m', h, h' => by
    have ha := h.atom a
    unfold snfAtom at h'
    split at h'
    · cases h'
    · cases h'; exact h
    · cases h'; exact h
    · next l hl =>
      rw [hl] at ha
      split at h'
      · cases h'
      · next m1 h1 => cases h'; exact allM_open (snfAtom_open c fuel) l m _ _ h h1
      · next m1 h1 =>
        have g := allM_open (snfAtom_open c fuel) l m _ _ h h1
        split at h'
        · cases h'
        · next S hS =>
          cases h'
          exact (g.newSing (sumIntervals_open g l _ S (fun h => absurd h ha) hS)).setAtom trivial
    · next d hd =>
      split at h'
      · cases h'
      · next m1 h1 =>
        have g := snfDnf_open c fuel m d m1 h h1
        unfold finishPlusSNF at h'
        split at h'
        · split at h'
          · split at h'
            · cases h'
            · next S hS => cases h'; exact (g.setAtom (n := .singleton _) trivial).setSing (noUpper_plusAll (g.sing _) hS)
          · cases h'
        · cases h'
    · next d I hd =>
      rw [hd] at ha
      split at h'
      · cases h'
      · next m1 h1 => cases h'; exact snfAtom_open c fuel m _ _ _ h h1
      · next m1 h1 =>
        have g := snfAtom_open c fuel m _ _ _ h h1
        unfold finishWithinSNF at h'
        split at h'
        · cases h'; exact (g.setAtom (n := .singleton _) trivial).setSing (noUpper_land1 (g.sing _) ha)
        · cases h'

theorem snfDnf_open (c : Alphabet) : ∀ (fuel : Nat) (m : TMem K) (d : Nat) m', Open m → snfDnf c fuel m d = .ok m' → Open m'
  | 0, _, _, _, _, h' => by cases h'
  | fuel + 1, m, d, m', h, h' => by
    unfold snfDnf at h'
    split at h'
    · cases h'
    · next l m1 h1 =>
      have g := filterM_open (fun m x b m' h h' => allM_open (snfAtom_open c fuel) x m b m' h h') _ _ _ _ h h1
      unfold finishSNF at h'
      split at h'
      · cases h'
      · next S hS => cases h'; exact (g.newSingleton (unionIntervals_open g _ _ hS)).setDnf _ _

end

theorem forM_open {α : Type} {f : TMem K → α → Except Err (TMem K)} (hf : ∀ m x m', Open m → f m x = .ok m' → Open m') :
    ∀ (l : List α) (m : TMem K) m', Open m → forM f m l = .ok m' → Open m'
  | [], m, m', h, h' => by cases h'; exact h
  | x :: l, m, m', h, h' => by
    unfold forM at h'
    split at h'
    · cases h'
    · next m1 h1 => exact forM_open hf l m1 m' (hf m x m1 h h1) h'

theorem concatLoop_open {f : TMem K → Nat → Except Err (TMem K)} (hf : ∀ m x m', Open m → f m x = .ok m' → Open m') :
    ∀ (l : List Nat) (m : TMem K) dec dec' m', Open m → concatLoop f m dec l = .ok (dec', m') → Open m'
  | [], m, dec, dec', m', h, h' => by cases h'; exact h
  | x :: l, m, dec, dec', m', h, h' => by
    unfold concatLoop at h'
    split at h'
    · cases h'
    · next m1 h1 =>
      split at h'
      · cases h'
      · exact concatLoop_open hf l m1 _ dec' m' (hf m x m1 h h1) h'

mutual

theorem normAtom_open : ∀ (fuel : Nat) (m : TMem K) (a : Nat) m', Open m → normAtom fuel m a = .ok m' → Open m'
  | 0, _, _, _, _, h' => by cases h'
  | fuel + 1, m, a, m', h, h' => by
    have ha := h.atom a
    unfold normAtom at h'
    split at h'
    · cases h'
    · cases h'; exact h.setADec _ _
    · cases h'; exact h.setADec _ _
    · next l hl =>
      rw [hl] at ha
      split at h'
      · cases h'
      · next dec m1 h1 => exact finishConcat_open (concatLoop_open (normAtom_open fuel) l m _ _ _ h h1) ha h'
    · next d hd =>
      split at h'
      · cases h'
      · next m1 h1 =>
        have g := normDnf_open fuel m d m1 h h1
        unfold finishPlus at h'
        split at h'
        · cases h'
        · simp only at h'
          split at h'
          · cases h'
          · split at h'
            · split at h'
              · cases h'
              · next h2 => cases h'; exact snfAtom_open _ _ _ _ _ _ (g.setADec _ _) h2
            · cases h'; exact g.setADec _ _
    · next b I hb =>
      rw [hb] at ha
      split at h'
      · cases h'
      · next m1 h1 =>
        have g := normAtom_open fuel m b m1 h h1
        unfold finishWithin at h'
        split at h'
        · cases h'
        · have g2 := fun v => g.setADec a v
          simp only at h'
          split at h'
          · cases h'
            exact (((g2 _).setSing (noUpper_land1 ((g2 _).sing _) ha)).setAtom (n := .moved) trivial).setAtom (n := .singleton _) trivial
          · cases h'
          · cases h'; exact (g2 _).setAtom trivial
          · split at h'
            · cases h'
            · cases h'; exact g2 _
          · cases h'; exact g2 _

theorem normDnf_open : ∀ (fuel : Nat) (m : TMem K) (d : Nat) m', Open m → normDnf fuel m d = .ok m' → Open m'
  | 0, _, _, _, _, h' => by cases h'
  | fuel + 1, m, d, m', h, h' => by
    unfold normDnf at h'
    split at h'
    · cases h'
    · next m1 h1 =>
      have g := forM_open (fun m x m' h h' => forM_open (normAtom_open fuel) x m m' h h') _ _ _ h h1
      unfold finishDnf at h'
      split at h'
      · cases h'
      · cases h'
      · split at h'
        · cases h'
        · split at h'
          · cases h'
          · cases h'; exact g.setDDec _ _

end

end TMem

theorem normalForm_open {e : TRE K} (he : e.NoUpper) {fuel d : Nat} {m : TMem K} (h : e.normalForm fuel = .ok (d, m)) : TMem.Open m := by
  unfold TRE.normalForm at h
  split at h
  · cases h
  · next l m0 h0 =>
    split at h
    · cases h
    · next m' hn =>
      cases h
      exact TMem.normDnf_open _ _ _ _ ((TMem.toDNF_open e _ _ _ he TMem.open_empty h0).newDnf l) hn

/-! ## The automaton -/

/-- No guard on the heap is an upper bound. -/
def HeapLower (heap : Nat → TAState Nat) : Prop := ∀ a, ∀ p ∈ (heap a).next, ∀ t ∈ p.2, ∀ g ∈ t.guard, ¬ g.IsUpper

/-- No guard of the entries is an upper bound. -/
def NextLower (n : Next Nat) : Prop := ∀ p ∈ n, ∀ t ∈ p.2, ∀ g ∈ t.guard, ¬ g.IsUpper

theorem NextLower.push {n : Next Nat} (h : NextLower n) {c : Alphabet} {t : Transition Nat} (ht : ∀ g ∈ t.guard, ¬ g.IsUpper) :
    NextLower (n.push c t) := by
  induction n with
  | nil =>
    intro p hp t' ht'
    simp only [Next.push, List.mem_singleton] at hp
    subst hp
    rw [List.mem_singleton.1 ht']
    exact ht
  | cons q n ih =>
    obtain ⟨d, l⟩ := q
    have hn : NextLower n := fun p hp => h p (List.mem_cons_of_mem _ hp)
    have hl := h (d, l) (List.mem_cons_self ..)
    intro p hp
    simp only [Next.push] at hp
    split at hp
    · rcases List.mem_cons.1 hp with rfl | hp
      · intro t' ht'
        rcases List.mem_append.1 ht' with ht' | ht'
        · exact hl t' ht'
        · rw [List.mem_singleton.1 ht']; exact ht
      · exact hn p hp
    · rcases List.mem_cons.1 hp with rfl | hp
      · exact hl
      · exact ih hn p hp

theorem NextLower.pushes {α : Type} (f : α → Alphabet × Transition Nat) (l : List α) :
    ∀ {n : Next Nat}, NextLower n → (∀ a ∈ l, ∀ g ∈ (f a).2.guard, ¬ g.IsUpper) → NextLower (l.foldl (fun m a => m.push (f a).1 (f a).2) n) := by
  induction l with
  | nil => intro n h _; exact h
  | cons a l ih =>
    intro n h hl
    exact ih (h.push (hl a (List.mem_cons_self ..))) fun b hb => hl b (List.mem_cons_of_mem _ hb)

theorem guardsOf_lower : ∀ {S : List (Interval K)} {gs : List (List Constraint)}, (∀ I ∈ S, I.NoUpper) → guardsOf S = .ok gs →
    ∀ g ∈ gs, ∀ c ∈ g, ¬ c.IsUpper
  | [], gs, _, h => by cases h; simp
  | I :: S, gs, hS, h => by
    unfold guardsOf at h
    split at h
    · next g gs' h1 h2 =>
      cases h
      intro g' hg'
      rcases List.mem_cons.1 hg' with rfl | hg'
      · obtain ⟨s, hs⟩ := hS I (List.mem_cons_self ..)
        unfold intervalGuard at h1
        rw [hs] at h1
        cases hl : I.lower with
        | inf => rw [hl] at h1; cases h1
        | fin c s' =>
          rw [hl] at h1
          simp only [lowerGuard, upperGuard, Bnd.toInt] at h1
          by_cases hc : c = 0 ∧ s' = true
          · rw [if_pos hc] at h1
            cases h1
            simp
          · rw [if_neg hc] at h1
            cases h1
            intro c' hc'
            simp only [List.append_nil, List.mem_singleton] at hc'
            subst hc'
            cases s' <;> simp [Constraint.IsUpper]
      · exact guardsOf_lower (fun I hI => hS I (List.mem_cons_of_mem _ hI)) h2 g' hg'
    · cases h
    · cases h

theorem singTA_lower {alloc : Nat → Nat} {heap : Nat → TAState Nat} (h : HeapLower heap) {k k' : Nat} {c : Alphabet} {S : List (Interval K)}
    (hS : ∀ I ∈ S, I.NoUpper) {A : TA Nat} (h' : singTA alloc heap k c S = .ok (A, k')) : HeapLower A.st := by
  unfold singTA at h'
  split at h'
  · cases h'; exact h
  · split at h'
    · cases h'
    · next gs hgs =>
      cases h'
      intro a
      simp only [edgeTA]
      split_ifs
      · intro p hp t ht
        rw [List.mem_singleton.1 hp] at ht
        obtain ⟨g, hg, rfl⟩ := List.mem_map.1 ht
        exact guardsOf_lower hS hgs g hg
      · simp
      · exact h a

theorem heapLower_concat2 {A B : TA Nat} (h : HeapLower B.st) : HeapLower (A.concat2 B).st := by
  intro a
  have hnext : ((A.concat2 B).st a).next = (B.st a).next ∨ ((A.concat2 B).st a).next =
      (B.st a).next.map fun p => (p.1, ({ A with st := B.st } : TA Nat).concatEdges B.init B.clockSize p.2) := by
    by_cases ha : a ∈ A.states
    · right
      simp only [concat2, mapSt]
      split_ifs <;> (simp only [mapSt, TAState.mapEdges]; first | rfl | (split_ifs <;> rfl))
    · left
      simp only [concat2, mapSt]
      split_ifs <;> (simp only [mapSt, TAState.mapEdges]; first | rfl | (split_ifs <;> rfl))
  rcases hnext with e | e
  · rw [e]; exact h a
  · rw [e]
    intro p hp t ht g hg
    obtain ⟨q, hq, rfl⟩ := List.mem_map.1 hp
    have ht : t ∈ q.2 ++ _ := ht
    rcases List.mem_append.1 ht with ht | ht
    · exact h a q hq t ht g hg
    · obtain ⟨e, he, ht⟩ := List.mem_flatMap.1 ht
      split at ht
      · obtain ⟨i, _, rfl⟩ := List.mem_map.1 ht
        exact h a q hq e he g hg
      · cases ht

theorem heapLower_within {alloc : Nat → Nat} {k k' : Nat} {A B : TA Nat} {I : Interval K} (h : HeapLower A.st)
    (hB : A.withinSignalTA alloc k I = .ok (B, k')) : HeapLower B.st := by
  unfold withinSignalTA at hB
  split at hB
  · cases hB
  · split at hB
    · cases hB
    · cases hB
      intro a
      simp only
      split_ifs
      · refine NextLower.pushes id _ (by simp [NextLower]) ?_
        intro x hx
        obtain ⟨i, hi, hx⟩ := List.mem_flatMap.1 hx
        obtain ⟨p, hp, hx⟩ := List.mem_flatMap.1 hx
        obtain ⟨e, he, rfl⟩ := List.mem_map.1 hx
        exact h i p hp e he
      · simp
      · exact h a
      · exact h a

theorem concatSignal_lower {f : (Nat → TAState Nat) → Nat → Nat → Except Err (TA Nat × Nat)}
    (hf : ∀ heap k a A k', HeapLower heap → f heap k a = .ok (A, k') → HeapLower A.st) :
    ∀ (l : List Nat) (A : TA Nat) (k : Nat) B k', HeapLower A.st → concatSignal f A k l = .ok (B, k') → HeapLower B.st
  | [], A, k, B, k', h, h' => by cases h'; exact h
  | a :: l, A, k, B, k', h, h' => by
    unfold concatSignal at h'
    split at h'
    · cases h'
    · next C k1 hC => exact concatSignal_lower hf l _ _ B k' (heapLower_concat2 (hf _ _ _ _ _ h hC)) h'

theorem altSignal_lower {f : (Nat → TAState Nat) → Nat → Nat → Except Err (TA Nat × Nat)}
    (hf : ∀ heap k a A k', HeapLower heap → f heap k a = .ok (A, k') → HeapLower A.st) :
    ∀ (l : List (List Nat)) (A : TA Nat) (k : Nat) B k', HeapLower A.st → altSignal f A k l = .ok (B, k') → HeapLower B.st
  | [], A, k, B, k', h, h' => by cases h'; exact h
  | [] :: _, _, _, _, _, _, h' => by cases h'
  | [a] :: l, A, k, B, k', h, h' => by
    unfold altSignal at h'
    split at h'
    · cases h'
    · next C k1 hC =>
      have h1 : HeapLower C.st := hf _ _ _ _ _ h hC
      exact altSignal_lower hf l (A.disjTA C) _ B k' h1 h'
  | (_ :: _ :: _) :: _, _, _, _, _, _, h' => by cases h'

theorem signalAtom_lower {m : TMem K} (hm : m.Open) (alloc : Nat → Nat) :
    ∀ (fuel : Nat) (heap : Nat → TAState Nat) (k a : Nat) (A : TA Nat) (k' : Nat), HeapLower heap →
      m.signalAtom alloc fuel heap k a = .ok (A, k') → HeapLower A.st
  | 0, _, _, _, _, _, _, h => by cases h
  | fuel + 1, heap, k, a, A, k', hh, h => by
    unfold signalAtom at h
    split at h
    · exact singTA_lower hh (hm.sing _) h
    · cases h
      intro a'
      simp only [epsTA]
      split_ifs
      · simp
      · exact hh a'
    · split at h
      · cases h
      · next d hd C k1 hC =>
        have h1 := altSignal_lower (signalAtom_lower hm alloc fuel) _ _ _ _ _ (by exact hh) hC
        unfold plusSignalTA at h
        split at h
        · cases h
        · cases h; exact h1
    · cases h
    · split at h
      · cases h
      · next C k1 hC =>
        exact concatSignal_lower (signalAtom_lower hm alloc fuel) _ _ _ _ _ (signalAtom_lower hm alloc fuel _ _ _ _ _ hh hC) h
    · split at h
      · cases h
      · next C k1 hC => exact heapLower_within (signalAtom_lower hm alloc fuel _ _ _ _ _ hh hC) h
    · cases h

theorem signalTA_lower {alloc : Nat → Nat} {fuel : Nat} {e : TRE K} (he : e.NoUpper) {A : TA Nat} (h : e.signalTA alloc fuel = .ok A) :
    ∀ s a, ∀ t ∈ A.edges s a, ∀ g ∈ t.guard, ¬ g.IsUpper := by
  unfold TRE.signalTA at h
  split at h
  · cases h
  · next d m hd =>
    split at h
    · cases h
    · next C k hC =>
      have h1 := altSignal_lower (signalAtom_lower (normalForm_open he hd) alloc fuel) _ _ _ _ _ (by intro a; simp [noneTA]) hC
      unfold renameEps at h
      split at h
      · cases h
      · cases h
        intro s a t ht
        have hm := TA.entry_of_edge ht
        refine (?_ : HeapLower _) s _ hm t ht
        intro a
        simp only [owned, mapSt]
        split_ifs
        · refine NextLower.pushes (fun e => (epsilon, e)) _ ?_ ?_
          · intro p hp t ht
            obtain ⟨q, hq, rfl⟩ := List.mem_map.1 hp
            exact h1 a q hq t (List.mem_of_mem_filter ht)
          · intro e he
            obtain ⟨p, hp, he⟩ := List.mem_flatMap.1 he
            exact h1 a p hp e (List.mem_of_mem_filter he)
        · simp

end Verif
