import Verif.Model.Signal

/-!
# The bounds of the loops only decide whether a loop is cut off
-/

namespace Verif

/-- The first outcome is that of a loop which was cut off, or the two are the same. -/
def FuelLe {α : Type} (x y : Except Err α) : Prop := x = .error .fuel ∨ x = y

namespace FuelLe
variable {α β : Type} {x y : Except Err α}

theorem rfl' (x : Except Err α) : FuelLe x x := Or.inr rfl

theorem bind (h : FuelLe x y) {f g : α → Except Err β} (hf : ∀ a, FuelLe (f a) (g a)) : FuelLe (x >>= f) (y >>= g) := by
  rcases h with h | h
  · left
    rw [h]
    rfl
  · rw [h]
    cases y with
    | error e => exact Or.inr rfl
    | ok a => exact hf a

theorem ite {c : Prop} [Decidable c] {x' y' : Except Err α} (h : FuelLe x y) (h' : FuelLe x' y') :
    FuelLe (if c then x else x') (if c then y else y') := by
  split_ifs
  · exact h
  · exact h'

theorem eq (h : FuelLe x y) (hx : x ≠ .error .fuel) : y = x := (h.resolve_left hx).symm

theorem ok (h : FuelLe x y) {a : α} (hx : x = .ok a) : y = .ok a := by
  rcases h with h | h
  · rw [h] at hx
    cases hx
  · rw [← h, hx]

end FuelLe

variable {S K σ : Type} [Field K] [LinearOrder K] [DecidableEq S]

theorem expandAll_le (A : TA S) {f f' : Nat} (hf : f ≤ f') (N : List (ZNode S K)) (c : List Nat) :
    FuelLe (expandAll A f N c) (expandAll A f' N c) := by
  induction f generalizing f' N c with
  | zero => exact Or.inl rfl
  | succ f ih =>
    obtain ⟨f', rfl⟩ := Nat.exists_eq_succ_of_ne_zero (by omega : f' ≠ 0)
    unfold expandAll
    exact (FuelLe.rfl' _).ite ((FuelLe.rfl' _).bind fun a => ih (by omega) _ _)

theorem ta2za_le (A : TA S) {f f' : Nat} (hf : f ≤ f') (Z : ZA S K) : FuelLe (ta2za f A Z) (ta2za f' A Z) := by
  unfold ta2za
  exact (FuelLe.rfl' _).ite ((expandAll_le A hf _ _).bind fun a => FuelLe.rfl' _)

theorem deadLoop_le (Z : ZA S K) {f f' : Nat} (hf : f ≤ f') (stack : List (Nat × List Nat)) (reach : List Nat) :
    FuelLe (Z.deadLoop f stack reach) (Z.deadLoop f' stack reach) := by
  induction f generalizing f' stack reach with
  | zero => exact Or.inl rfl
  | succ f ih =>
    obtain ⟨f', rfl⟩ := Nat.exists_eq_succ_of_ne_zero (by omega : f' ≠ 0)
    rcases stack with _ | ⟨⟨i, P⟩, stack⟩
    · exact Or.inr rfl
    · unfold ZA.deadLoop
      exact ih (by omega) _ _

theorem sundaySets_le (Z : ZA S K) (alive : List Nat) {f f' : Nat} (hf : f ≤ f') (cs : List Nat) :
    FuelLe (sundaySets Z alive f cs) (sundaySets Z alive f' cs) := by
  induction f generalizing f' cs with
  | zero => exact Or.inl rfl
  | succ f ih =>
    obtain ⟨f', rfl⟩ := Nat.exists_eq_succ_of_ne_zero (by omega : f' ≠ 0)
    unfold sundaySets
    exact (FuelLe.rfl' _).ite ((FuelLe.rfl' _).ite ((ih (by omega) _).bind fun a => FuelLe.rfl' _))

theorem sundayTable_le (A : TA S) {f f' : Nat} (hf : f ≤ f') : FuelLe (sundayTable K f A) (sundayTable K f' A) := by
  unfold sundayTable
  exact (ta2za_le A hf _).bind fun Z => (deadLoop_le Z hf _ _).bind fun alive => (sundaySets_le Z alive hf _).bind fun _ => FuelLe.rfl' _

theorem kmpSearch_le (A : TA S) (m : Nat) (o : S) {f f' : Nat} (hf : f ≤ f') (k n : Nat) (Z : ZA (KState S × DState S) K) :
    FuelLe (kmpSearch f A m o k n Z) (kmpSearch f' A m o k n Z) := by
  induction k generalizing n Z with
  | zero => exact Or.inr rfl
  | succ k ih =>
    unfold kmpSearch
    exact (ta2za_le _ hf _).bind fun Z => (ih _ _).ite (FuelLe.rfl' _)

theorem kmpLoop_le (A : TA S) (m : Nat) {f f' : Nat} (hf : f ≤ f') (os : List S) (beta : List (S × Nat)) (Z : ZA (KState S × DState S) K) :
    FuelLe (kmpLoop f A m os beta Z) (kmpLoop f' A m os beta Z) := by
  induction os generalizing beta Z with
  | nil => exact Or.inr rfl
  | cons o os ih =>
    unfold kmpLoop
    exact (kmpSearch_le A m o hf _ _ _).bind fun a => ih _ _

theorem kmpTable_le (A : TA S) (m : Nat) {f f' : Nat} (hf : f ≤ f') : FuelLe (kmpTable K f A m) (kmpTable K f' A m) :=
  kmpLoop_le A m hf _ _ _

theorem makeTables_le (A : TA S) {f f' : Nat} (hf : f ≤ f') : FuelLe (makeTables K f A) (makeTables K f' A) := by
  unfold makeTables
  exact (sundayTable_le A hf).bind fun a => (kmpTable_le A _ hf).bind fun _ => FuelLe.rfl' _

omit [Field K] [LinearOrder K] [DecidableEq S] in
theorem sundayLoop_le (C : Cont K σ) (T : Tables S) {f f' : Nat} (hf : f ≤ f') (i : Nat) (w : σ) :
    FuelLe (sundayLoop C T f i w) (sundayLoop C T f' i w) := by
  induction f generalizing f' i w with
  | zero => exact Or.inl rfl
  | succ f ih =>
    obtain ⟨f', rfl⟩ := Nat.exists_eq_succ_of_ne_zero (by omega : f' ≠ 0)
    unfold sundayLoop
    refine (FuelLe.rfl' _).bind fun e => (FuelLe.rfl' _).ite (FuelLe.ite (FuelLe.rfl' _) ((FuelLe.rfl' _).bind fun e' => ?_))
    split
    · exact FuelLe.rfl' _
    · exact (FuelLe.rfl' _).bind fun w => (FuelLe.rfl' _).ite (ih (by omega) _ _)

omit [Field K] [LinearOrder K] [DecidableEq S] in
theorem runLoop_le {Q : Type} (C : Cont K σ) {M M' : Hooks S Q K} (hfin : M.final = M'.final)
    (hev : ∀ p a t cs, FuelLe (M.event p a t cs) (M'.event p a t cs)) {f f' : Nat} (hf : f ≤ f')
    (j : Nat) (cs last : List Q) (w : σ) : FuelLe (runLoop C M f j cs last w) (runLoop C M' f' j cs last w) := by
  induction f generalizing f' j cs last w with
  | zero => exact Or.inl rfl
  | succ f ih =>
    obtain ⟨f', rfl⟩ := Nat.exists_eq_succ_of_ne_zero (by omega : f' ≠ 0)
    unfold runLoop
    rw [hfin]
    exact (FuelLe.rfl' _).ite (FuelLe.ite ((FuelLe.rfl' _).bind fun e => (FuelLe.rfl' _).bind fun p => (hev _ _ _ _).bind fun x =>
      (ih (by omega) _ _ _ _).bind fun y => FuelLe.rfl' _) (FuelLe.rfl' _))

omit [Field K] [LinearOrder K] [DecidableEq S] in
theorem matchLoop_le {Q : Type} (C : Cont K σ) {M M' : Hooks S Q K} (hs : M.start = M'.start) (hst : M.state = M'.state)
    (hfin : M.final = M'.final) (hev : ∀ p a t cs, FuelLe (M.event p a t cs) (M'.event p a t cs)) (T : Tables S)
    {n n' : Nat} (hn : n ≤ n') {f f' : Nat} (hf : f ≤ f') (i : Nat) (w : σ) :
    FuelLe (matchLoop C M T n f i w) (matchLoop C M' T n' f' i w) := by
  induction f generalizing f' i w with
  | zero => exact Or.inl rfl
  | succ f ih =>
    obtain ⟨f', rfl⟩ := Nat.exists_eq_succ_of_ne_zero (by omega : f' ≠ 0)
    unfold matchLoop
    rw [hs, hst]
    have key : ∀ r : Option Nat × σ, FuelLe
        (match r with
          | (none, _) => .ok []
          | (some i, w) =>
            if (!(C.fetch i w).1) = true then .ok []
            else do
              let e ← C.get i (C.fetch i w).2
              let prev ← prevTime C i (C.fetch i w).2
              let x ← runLoop C M n i (M'.start prev e.2) [] (C.fetch i w).2
              let k ← greatestN T M'.state x.2.1
              let w ← C.setFront (i + k - 1) x.2.2
              let rest ← matchLoop C M T n f (i + k) w
              .ok (x.1 ++ rest))
        (match r with
          | (none, _) => .ok []
          | (some i, w) =>
            if (!(C.fetch i w).1) = true then .ok []
            else do
              let e ← C.get i (C.fetch i w).2
              let prev ← prevTime C i (C.fetch i w).2
              let x ← runLoop C M' n' i (M'.start prev e.2) [] (C.fetch i w).2
              let k ← greatestN T M'.state x.2.1
              let w ← C.setFront (i + k - 1) x.2.2
              let rest ← matchLoop C M' T n' f' (i + k) w
              .ok (x.1 ++ rest)) := by
      intro r
      rcases r with ⟨_ | i, w⟩
      · exact FuelLe.rfl' _
      · exact (FuelLe.rfl' _).ite ((FuelLe.rfl' _).bind fun e => (FuelLe.rfl' _).bind fun p => (runLoop_le C hfin hev hn _ _ _ _).bind fun x =>
          (FuelLe.rfl' _).bind fun k => (FuelLe.rfl' _).bind fun w => (ih (by omega) _ _).bind fun _ => FuelLe.rfl' _)
    refine (FuelLe.rfl' _).ite (FuelLe.ite (FuelLe.bind (FuelLe.ite (sundayLoop_le C T hn _ _) (FuelLe.rfl' _)) fun r => ?_)
      (FuelLe.bind (FuelLe.rfl' _) fun r => ?_))
    · have := key r
      rcases r with ⟨_ | i, w⟩ <;> exact this
    · have := key r
      rcases r with ⟨_ | i, w⟩ <;> exact this

omit [DecidableEq S] in
theorem silentLoop_le (A : TA S) (p : Option K) (t : K) {f f' : Nat} (hf : f ≤ f') (cs : List (SConf S K)) :
    FuelLe (silentLoop A p t f cs) (silentLoop A p t f' cs) := by
  induction f generalizing f' cs with
  | zero => exact Or.inl rfl
  | succ f ih =>
    obtain ⟨f', rfl⟩ := Nat.exists_eq_succ_of_ne_zero (by omega : f' ≠ 0)
    unfold silentLoop
    refine (FuelLe.rfl' _).ite ?_
    split
    · exact FuelLe.rfl' _
    · rename_i new _
      rcases ih (by omega : f ≤ f') new with h | h
      · rw [h]
        exact Or.inl rfl
      · rw [h]
        exact FuelLe.rfl' _

omit [DecidableEq S] in
theorem eventSym_le (A : TA S) (p : Option K) (a : Alphabet) (t : K) {f f' : Nat} (hf : f ≤ f') (cs : List (SConf S K)) :
    FuelLe (eventSym A f p a t cs) (eventSym A f' p a t cs) := by
  unfold eventSym silentAll
  rcases silentLoop_le A p t hf (cs.filter fun c => ((A.st c.s).next.find epsilon).isSome) with h | h
  · rw [h]
    exact Or.inl rfl
  · rw [h]
    exact FuelLe.rfl' _

theorem monaaDollar_le (addr : S → Nat) (C : Cont K σ) (A : TA S) (w : σ) {f f' n n' : Nat} (hf : f ≤ f') (hn : n ≤ n') :
    FuelLe (monaaDollar addr f n C A w) (monaaDollar addr f' n' C A w) := by
  unfold monaaDollar
  exact (FuelLe.rfl' _).bind fun Ap => (makeTables_le Ap hf).bind fun T => FuelLe.ite (FuelLe.ite
    (matchLoop_le C rfl rfl rfl (fun _ _ _ _ => FuelLe.rfl' _) T hn hn 0 w) (FuelLe.rfl' _)) (FuelLe.rfl' _)

theorem monaaNotNecessaryDollar_le (addr : S → Nat) (C : Cont K σ) (A : TA S) (w : σ) {f f' n n' : Nat} (hf : f ≤ f') (hn : n ≤ n') :
    FuelLe (monaaNotNecessaryDollar addr f n C A w) (monaaNotNecessaryDollar addr f' n' C A w) := by
  unfold monaaNotNecessaryDollar
  exact (FuelLe.rfl' _).bind fun Ap => (makeTables_le Ap hf).bind fun T => FuelLe.ite (FuelLe.ite
    (matchLoop_le C rfl rfl rfl (fun _ _ _ _ => FuelLe.rfl' _) T hn hn 0 w) (FuelLe.rfl' _)) (FuelLe.rfl' _)

theorem monaa_le (C : Cont K σ) (st : Option Nat) (A : TA S) (w : σ) {f f' n n' e e' : Nat} (hf : f ≤ f') (hn : n ≤ n') (he : e ≤ e') :
    FuelLe (monaa f n e C st A w).1 (monaa f' n' e' C st A w).1 := by
  unfold monaa
  rcases makeTables_le (K := K) A hf with h | h
  · rw [h]
    exact Or.inl rfl
  · rw [h]
    split
    · exact FuelLe.rfl' _
    · rename_i T _
      have h2 : FuelLe (matchLoop C (silentHooks A (st.getD A.clockSize) e) T n n 0 w)
          (matchLoop C (silentHooks A (st.getD A.clockSize) e') T n' n' 0 w) :=
        matchLoop_le C (M := silentHooks A _ e) (M' := silentHooks A _ e') rfl rfl rfl (fun p a t cs => eventSym_le A p a t he cs) _ hn hn 0 w
      by_cases h1 : (A.states.all fun s => ((A.st s).next.find epsilon).isNone) = true
      · simp only [h1, if_true]
        exact FuelLe.ite (matchLoop_le C rfl rfl rfl (fun _ _ _ _ => FuelLe.rfl' _) _ hn hn 0 w) (FuelLe.rfl' _)
      · rw [if_neg h1, if_neg h1]
        exact h2

end Verif
