import Verif.Spec.ZA
import Mathlib.Data.List.Perm.Subperm

/-! The graph algorithms on zone automata. -/

namespace Verif.ZA

variable {S K : Type} {Z : ZA S K}

theorem mem_insertLabel {p q : Alphabet × Nat} : ∀ {l : List (Alphabet × Nat)}, q ∈ insertLabel p l ↔ q = p ∨ q ∈ l
  | [] => by simp [insertLabel]
  | r :: l => by
    rw [insertLabel]
    split
    · simp
    · simp only [List.mem_cons, mem_insertLabel (l := l)]
      tauto

theorem mem_foldr_insertLabel {q : Alphabet × Nat} : ∀ {l : List (Alphabet × Nat)}, q ∈ l.foldr insertLabel [] ↔ q ∈ l
  | [] => by simp
  | r :: l => by rw [List.foldr_cons, mem_insertLabel, mem_foldr_insertLabel, List.mem_cons]

theorem mem_succs {i j : Nat} : j ∈ Z.succs i ↔ ∃ c, c < 127 ∧ Z.Edge i c j := by
  unfold succs Edge
  rcases h : Z.nodes[i]? with _ | n
  · simp
  · simp only [List.mem_map, mem_foldr_insertLabel, List.mem_filter, decide_eq_true_eq, Option.some.injEq, exists_eq_left']
    constructor
    · rintro ⟨p, ⟨hp, hc⟩, rfl⟩
      exact ⟨p.1, hc, hp⟩
    · rintro ⟨c, hc, hp⟩
      exact ⟨(c, j), ⟨hp, hc⟩, rfl⟩

theorem mem_succsOf {i j : Nat} {c : Alphabet} : j ∈ Z.succsOf i c ↔ Z.Edge i c j := by
  unfold succsOf Edge
  rcases h : Z.nodes[i]? with _ | n
  · simp
  · simp only [List.mem_map, List.mem_filter, beq_iff_eq, Option.some.injEq, exists_eq_left']
    constructor
    · rintro ⟨p, ⟨hp, rfl⟩, rfl⟩
      exact hp
    · intro hp
      exact ⟨(c, j), ⟨hp, rfl⟩, rfl⟩

theorem isMatch_iff {i : Nat} : Z.isMatch i = true ↔ ∃ n, Z.nodes[i]? = some n ∧ n.isMatch = true := by
  unfold isMatch
  rcases h : Z.nodes[i]? with _ | n <;> simp

theorem Path.append {i j k : Nat} {l l' : List Alphabet} (h : Z.Path i l j) (h' : Z.Path j l' k) :
    Z.Path i (l ++ l') k := by
  induction h with
  | nil => exact h'
  | cons e p ih => exact .cons e (ih h')

theorem live_of_isMatch {i : Nat} (h : Z.isMatch i = true) : Z.Live i := by
  obtain ⟨n, hn, hm⟩ := isMatch_iff.1 h
  exact ⟨[], i, n, .nil i, hn, hm⟩

theorem live_of_path {i j : Nat} {l : List Alphabet} (p : Z.Path i l j) (h : Z.Live j) : Z.Live i := by
  obtain ⟨l', k, n, hp, hn⟩ := h
  exact ⟨l ++ l', k, n, p.append hp, hn⟩

theorem live_of_edge {i j : Nat} {c : Alphabet} (e : Z.Edge i c j) (h : Z.Live j) : Z.Live i :=
  live_of_path (.cons e (.nil j)) h

theorem WellFormed.edge (hw : Z.WellFormed) {i j : Nat} {c : Alphabet} (h : Z.Edge i c j) :
    c < 127 ∧ j < Z.nodes.length := by
  obtain ⟨n, hn, hp⟩ := h
  exact hw.2 i n hn _ hp

theorem succs_of_edge (hw : Z.WellFormed) {i j : Nat} {c : Alphabet} (h : Z.Edge i c j) : j ∈ Z.succs i :=
  mem_succs.2 ⟨c, (hw.edge h).1, h⟩

/-! ### reachability: `empty` -/

theorem visitSuccs_spec (js next visited : List Nat) :
    (∀ x, x ∈ (visitSuccs js next visited).2 ↔ x ∈ visited ∨ x ∈ js) ∧
      (∀ x, x ∈ (visitSuccs js next visited).1 ↔ x ∈ next ∨ (x ∈ js ∧ x ∉ visited)) := by
  induction js generalizing next visited with
  | nil => simp [visitSuccs]
  | cons j js ih =>
    unfold visitSuccs
    split_ifs with h
    · obtain ⟨h1, h2⟩ := ih next visited
      refine ⟨fun x => ?_, fun x => ?_⟩
      · rw [h1, List.mem_cons]
        constructor
        · rintro (h | h)
          · exact Or.inl h
          · exact Or.inr (Or.inr h)
        · rintro (h' | rfl | h')
          · exact Or.inl h'
          · exact Or.inl h
          · exact Or.inr h'
      · rw [h2, List.mem_cons]
        constructor
        · rintro (h | h)
          · exact Or.inl h
          · exact Or.inr ⟨Or.inr h.1, h.2⟩
        · rintro (h' | ⟨rfl | h', h''⟩)
          · exact Or.inl h'
          · exact absurd h h''
          · exact Or.inr ⟨h', h''⟩
    · obtain ⟨h1, h2⟩ := ih (next ++ [j]) (visited ++ [j])
      refine ⟨fun x => ?_, fun x => ?_⟩
      · rw [h1, List.mem_cons, List.mem_append, List.mem_singleton]
        tauto
      · rw [h2, List.mem_cons, List.mem_append, List.mem_append, List.mem_singleton]
        by_cases hx : x = j
        · subst hx
          simp [h]
        · simp [hx]

theorem emptyRound_spec (cur next visited : List Nat) :
    match emptyRound Z cur next visited with
    | .none => ∃ i ∈ cur, Z.isMatch i = true
    | some (next', visited') => (∀ i ∈ cur, Z.isMatch i = false) ∧
        (∀ x, x ∈ visited' ↔ x ∈ visited ∨ ∃ i ∈ cur, x ∈ Z.succs i) ∧
        (∀ x, x ∈ next' ↔ x ∈ next ∨ (x ∉ visited ∧ ∃ i ∈ cur, x ∈ Z.succs i)) := by
  induction cur generalizing next visited with
  | nil => simp [emptyRound]
  | cons i is ih =>
    unfold emptyRound
    by_cases h : Z.isMatch i = true
    · rw [if_pos h]
      exact ⟨i, by simp, h⟩
    · rw [if_neg h]
      obtain ⟨v1, v2⟩ := visitSuccs_spec (Z.succs i) next visited
      have := ih (visitSuccs (Z.succs i) next visited).1 (visitSuccs (Z.succs i) next visited).2
      simp only
      rcases hr : emptyRound Z is (visitSuccs (Z.succs i) next visited).1 (visitSuccs (Z.succs i) next visited).2
        with _ | ⟨next', visited'⟩
      · rw [hr] at this
        obtain ⟨k, hk, hk'⟩ := this
        exact ⟨k, by simp [hk], hk'⟩
      · rw [hr] at this
        obtain ⟨a1, a2, a3⟩ := this
        refine ⟨?_, ?_, ?_⟩
        · intro k hk
          rcases List.mem_cons.1 hk with rfl | hk
          · simpa using h
          · exact a1 k hk
        · intro x
          rw [a2, v1]
          simp only [List.mem_cons, exists_eq_or_imp]
          tauto
        · intro x
          rw [a3, v1, v2]
          simp only [List.mem_cons, exists_eq_or_imp]
          tauto

/-- The states not yet visited. -/
def unvisited (Z : ZA S K) (visited : List Nat) : Nat :=
  ((List.range Z.nodes.length).filter fun i => decide (i ∉ visited)).length

theorem filter_length_lt {l : List Nat} {p q : Nat → Bool} (h : ∀ x ∈ l, p x = true → q x = true) {y : Nat}
    (hy : y ∈ l) (h1 : q y = true) (h2 : p y = false) : (l.filter p).length < (l.filter q).length := by
  induction l with
  | nil => simp at hy
  | cons a l ih =>
    have hle : (l.filter p).length ≤ (l.filter q).length := by
      have : ∀ (l : List Nat), (∀ x ∈ l, p x = true → q x = true) → (l.filter p).length ≤ (l.filter q).length := by
        intro l
        induction l with
        | nil => simp
        | cons b l ih =>
          intro h
          have ih' := ih fun x hx => h x (by simp [hx])
          rw [List.filter_cons, List.filter_cons]
          by_cases hb : p b = true
          · rw [if_pos hb, if_pos (h b (by simp) hb)]
            simpa using ih'
          · rw [if_neg hb]
            split_ifs
            · simp only [List.length_cons]
              omega
            · exact ih'
      exact this l fun x hx => h x (by simp [hx])
    rw [List.filter_cons, List.filter_cons]
    rcases List.mem_cons.1 hy with rfl | hy
    · rw [if_neg (by simp [h2]), if_pos h1]
      simp only [List.length_cons]
      omega
    · have ih' := ih (fun x hx => h x (by simp [hx])) hy
      by_cases hb : p a = true
      · rw [if_pos hb, if_pos (h a (by simp) hb)]
        simpa using ih'
      · rw [if_neg hb]
        split_ifs
        · simp only [List.length_cons]
          omega
        · exact ih'

theorem emptyLoop_spec (hw : Z.WellFormed) {fuel : Nat} {cur visited : List Nat}
    (hcur : ∀ i ∈ cur, i ∈ visited)
    (hvis : ∀ i ∈ visited, i ∈ cur ∨ (Z.isMatch i = false ∧ ∀ j ∈ Z.succs i, j ∈ visited))
    (hlen : cur ≠ [] → ∀ i ∈ visited, i < Z.nodes.length) (hfuel : (if cur = [] then 1 else unvisited Z visited + 2) ≤ fuel) :
    emptyLoop Z fuel cur visited = true ↔ ∀ i ∈ visited, ¬ Z.Live i := by
  induction fuel generalizing cur visited with
  | zero => split_ifs at hfuel <;> omega
  | succ fuel ih =>
    unfold emptyLoop
    by_cases hc : cur = []
    · subst hc
      simp only [List.isEmpty_nil, if_true, true_iff]
      intro i hi ⟨l, j, n, hp, hn, hm⟩
      have hclosed : ∀ {i j l}, Z.Path i l j → i ∈ visited → j ∈ visited := by
        intro i j l hp
        induction hp with
        | nil => exact id
        | cons e p ih' =>
          intro hi
          rcases hvis _ hi with h | h
          · simp at h
          · exact ih' (h.2 _ (succs_of_edge hw e))
      rcases hvis j (hclosed hp hi) with h | h
      · simp at h
      · rw [isMatch_iff.2 ⟨n, hn, hm⟩] at h
        simp at h
    · rw [if_neg hc] at hfuel
      rw [if_neg (by simpa using hc)]
      have hr := emptyRound_spec (Z := Z) cur [] visited
      rcases h : emptyRound Z cur [] visited with _ | ⟨next, visited'⟩
      · rw [h] at hr
        obtain ⟨i, hi, hm⟩ := hr
        simp only [Bool.false_eq_true, false_iff, not_forall]
        exact ⟨i, hcur i hi, not_not.2 (live_of_isMatch hm)⟩
      · rw [h] at hr
        obtain ⟨a1, a2, a3⟩ := hr
        simp only [List.not_mem_nil, false_or] at a3
        simp only
        have hlen' : ∀ i ∈ visited', i < Z.nodes.length := by
          intro i hi
          rcases (a2 i).1 hi with hi | ⟨k, hk, hi⟩
          · exact hlen hc i hi
          · obtain ⟨c, -, e⟩ := mem_succs.1 hi
            exact (hw.edge e).2
        rw [ih]
        · constructor
          · intro h i hi
            exact h i ((a2 i).2 (Or.inl hi))
          · intro h i hi hl
            rcases (a2 i).1 hi with hi | ⟨k, hk, hi⟩
            · exact h i hi hl
            · obtain ⟨c, -, e⟩ := mem_succs.1 hi
              exact h k (hcur k hk) (live_of_edge e hl)
        · intro i hi
          obtain ⟨-, k, hk, h⟩ := (a3 i).1 hi
          exact (a2 i).2 (Or.inr ⟨k, hk, h⟩)
        · intro i hi
          rcases (a2 i).1 hi with hi' | ⟨k, hk, hi'⟩
          · right
            rcases hvis i hi' with h | h
            · exact ⟨a1 i h, fun j hj => (a2 j).2 (Or.inr ⟨i, h, hj⟩)⟩
            · exact ⟨h.1, fun j hj => (a2 j).2 (Or.inl (h.2 j hj))⟩
          · by_cases hv : i ∈ visited
            · right
              rcases hvis i hv with h | h
              · exact ⟨a1 i h, fun j hj => (a2 j).2 (Or.inr ⟨i, h, hj⟩)⟩
              · exact ⟨h.1, fun j hj => (a2 j).2 (Or.inl (h.2 j hj))⟩
            · exact Or.inl ((a3 i).2 ⟨hv, k, hk, hi'⟩)
        · exact fun _ => hlen'
        · split_ifs with hn
          · omega
          · obtain ⟨y, hy⟩ := List.exists_mem_of_ne_nil _ hn
            obtain ⟨hy1, hy2⟩ := (a3 y).1 hy
            have hy3 := (a2 y).2 (Or.inr hy2)
            have : unvisited Z visited' < unvisited Z visited := by
              refine filter_length_lt (y := y) ?_ (List.mem_range.2 (hlen' y hy3)) (by simpa using hy1)
                (by simpa using hy3)
              intro x hx hp
              simp only [decide_not, Bool.not_eq_eq_eq_not, Bool.not_true, decide_eq_false_iff_not] at hp ⊢
              exact fun hc => hp ((a2 x).2 (Or.inl hc))
            omega

theorem empty_iff (hw : Z.WellFormed) : Z.empty = true ↔ ∀ i ∈ Z.init, ¬ Z.Live i := by
  unfold empty
  refine emptyLoop_spec hw (fun i hi => hi) (fun i hi => Or.inl hi) (fun _ i hi => hw.1 i hi) ?_
  split_ifs
  · omega
  · have : unvisited Z Z.init ≤ Z.nodes.length := by
      unfold unvisited
      refine (List.length_filter_le _ _).trans ?_
      simp
    omega

/-! ### `removeDeadStates` -/

theorem deadEdges_skip {i : Nat} {P : List Nat} (hi : i ∈ P) (js reach : List Nat) (stack : List (Nat × List Nat)) :
    deadEdges i P js reach stack = (reach, stack) := by
  induction js with
  | nil => rfl
  | cons j js ih => rw [deadEdges, if_pos hi, ih]

theorem deadEdges_spec {i : Nat} {P : List Nat} (hi : i ∉ P) (js reach : List Nat)
    (stack : List (Nat × List Nat)) :
    (∀ x ∈ reach, x ∈ (deadEdges i P js reach stack).1) ∧
    (∀ x ∈ stack, x ∈ (deadEdges i P js reach stack).2) ∧
    (∀ x ∈ (deadEdges i P js reach stack).1, x ∈ reach ∨
      (x ∈ i :: P ∧ ∃ j ∈ js, j ∈ reach ∨ j ∈ i :: P)) ∧
    (∀ x ∈ (deadEdges i P js reach stack).2, x ∈ stack ∨ ∃ j ∈ js, x = (j, i :: P)) ∧
    (∀ j ∈ js, (j, i :: P) ∈ (deadEdges i P js reach stack).2 ∨
      (j ∈ (deadEdges i P js reach stack).1 ∧ ∀ x ∈ i :: P, x ∈ (deadEdges i P js reach stack).1)) := by
  induction js generalizing reach stack with
  | nil => simp [deadEdges]
  | cons j js ih =>
    rw [deadEdges, if_neg hi]
    split_ifs with hj
    · obtain ⟨h1, h2, h3, h4, h5⟩ := ih (reach ++ i :: P) stack
      refine ⟨fun x hx => h1 x (by simp [hx]), h2, ?_, ?_, ?_⟩
      · intro x hx
        rcases h3 x hx with h | ⟨h, h'⟩
        · rcases List.mem_append.1 h with h | h
          · exact Or.inl h
          · exact Or.inr ⟨h, j, by simp, Or.inl hj⟩
        · obtain ⟨j', hj', h''⟩ := h'
          exact Or.inr ⟨h, j, by simp, Or.inl hj⟩
      · intro x hx
        rcases h4 x hx with h | ⟨j', hj', h⟩
        · exact Or.inl h
        · exact Or.inr ⟨j', by simp [hj'], h⟩
      · intro j' hj'
        rcases List.mem_cons.1 hj' with rfl | hj'
        · exact Or.inr ⟨h1 _ (by simp [hj]), fun x hx => h1 x (List.mem_append_right _ hx)⟩
        · exact h5 j' hj'
    · obtain ⟨h1, h2, h3, h4, h5⟩ := ih reach ((j, i :: P) :: stack)
      refine ⟨h1, fun x hx => h2 x (by simp [hx]), ?_, ?_, ?_⟩
      · intro x hx
        rcases h3 x hx with h | ⟨h, j', hj', h'⟩
        · exact Or.inl h
        · exact Or.inr ⟨h, j', by simp [hj'], h'⟩
      · intro x hx
        rcases h4 x hx with h | ⟨j', hj', h⟩
        · rcases List.mem_cons.1 h with h | h
          · exact Or.inr ⟨j, by simp, h⟩
          · exact Or.inl h
        · exact Or.inr ⟨j', by simp [hj'], h⟩
      · intro j' hj'
        rcases List.mem_cons.1 hj' with rfl | hj'
        · exact Or.inl (h2 _ (by simp))
        · exact h5 j' hj'

/-- What is in the set after the test for acceptance. -/
def markMatch (Z : ZA S K) (i : Nat) (P reach : List Nat) : List Nat :=
  if Z.isMatch i then reach ++ i :: P else reach

theorem deadLoop_cons (fuel i : Nat) (P : List Nat) (stack : List (Nat × List Nat)) (reach : List Nat) :
    deadLoop Z (fuel + 1) ((i, P) :: stack) reach =
      deadLoop Z fuel (deadEdges i P (Z.succs i) (markMatch Z i P reach) stack).2
        (deadEdges i P (Z.succs i) (markMatch Z i P reach) stack).1 := rfl

/-- Only live states are kept. -/
theorem deadLoop_sound {fuel : Nat} {stack : List (Nat × List Nat)} {reach out : List Nat}
    (hs : ∀ x ∈ stack, ∀ p ∈ x.2, ∃ l, Z.Path p l x.1) (hr : ∀ i ∈ reach, Z.Live i)
    (h : deadLoop Z fuel stack reach = .ok out) : ∀ i ∈ out, Z.Live i := by
  induction fuel generalizing stack reach with
  | zero => simp [deadLoop] at h
  | succ fuel ih =>
    rcases stack with _ | ⟨⟨i, P⟩, stack⟩
    · simp only [deadLoop, Except.ok.injEq] at h
      subst h
      exact hr
    · rw [deadLoop_cons] at h
      have hP : ∀ x ∈ i :: P, ∃ l, Z.Path x l i := by
        intro x hx
        rcases List.mem_cons.1 hx with rfl | hx
        · exact ⟨[], .nil _⟩
        · exact hs (i, P) (by simp) x hx
      have hr' : ∀ k ∈ markMatch Z i P reach, Z.Live k := by
        intro k hk
        unfold markMatch at hk
        split_ifs at hk with hm
        · rcases List.mem_append.1 hk with hk | hk
          · exact hr k hk
          · obtain ⟨l, hp⟩ := hP k hk
            exact live_of_path hp (live_of_isMatch hm)
        · exact hr k hk
      by_cases hi : i ∈ P
      · rw [deadEdges_skip hi] at h
        exact ih (fun x hx => hs x (by simp [hx])) hr' h
      · have hlive : ∀ js reach stack, (∀ j ∈ js, j ∈ Z.succs i) → (∀ k ∈ reach, Z.Live k) →
            ∀ k ∈ (deadEdges i P js reach stack).1, Z.Live k := by
          intro js
          induction js with
          | nil => intro reach stack _ hr k hk; exact hr k hk
          | cons j js ihj =>
            intro reach stack hj hr k hk
            rw [deadEdges, if_neg hi] at hk
            split_ifs at hk with hjr
            · refine ihj _ _ (fun j' hj' => hj j' (by simp [hj'])) ?_ k hk
              intro x hx
              rcases List.mem_append.1 hx with hx | hx
              · exact hr x hx
              · obtain ⟨l, hp⟩ := hP x hx
                obtain ⟨c, -, e⟩ := mem_succs.1 (hj j (by simp))
                exact live_of_path hp (live_of_edge e (hr j hjr))
            · exact ihj _ _ (fun j' hj' => hj j' (by simp [hj'])) hr k hk
        refine ih ?_ (hlive _ _ _ (fun _ h => h) hr') h
        intro x hx p hp
        rcases (deadEdges_spec hi _ _ _).2.2.2.1 x hx with hx | ⟨j, hj, rfl⟩
        · exact hs x (by simp [hx]) p hp
        · obtain ⟨l, hp'⟩ := hP p hp
          obtain ⟨c, -, e⟩ := mem_succs.1 hj
          exact ⟨l ++ [c], hp'.append (.cons e (.nil j))⟩

/-- A live state which is not accepting has another live successor. -/
theorem live_step {i : Nat} (h : Z.Live i) : Z.isMatch i = true ∨ ∃ c j, j ≠ i ∧ Z.Edge i c j ∧ Z.Live j := by
  obtain ⟨l, k, n, hp, hn, hm⟩ := h
  induction hp with
  | nil i => exact Or.inl (isMatch_iff.2 ⟨n, hn, hm⟩)
  | @cons i c j l k e p ih =>
    by_cases hj : j = i
    · subst hj
      exact ih hn
    · exact Or.inr ⟨c, j, hj, e, l, k, n, p, hn, hm⟩

/-- The invariant of the search: `D` are the states taken from the stack so far. -/
structure DeadInv (Z : ZA S K) (rank : Nat → Nat) (stack : List (Nat × List Nat)) (reach D : List Nat) : Prop where
  closed : ∀ i ∈ D, ∀ j ∈ Z.succs i, j ∈ D ∨ ∃ Q, (j, Q) ∈ stack
  live : ∀ i ∈ D, Z.Live i → i ∈ reach ∨ ∃ x ∈ stack, Z.Live x.1 ∧ x.1 ∉ x.2 ∧ i ∈ x.2
  reach : ∀ i ∈ reach, i ∈ D
  parents : ∀ x ∈ stack, ∀ p ∈ x.2, p ∈ D
  rank : ∀ x ∈ stack, ∀ p ∈ x.2, p = x.1 ∨ rank x.1 < rank p
  init : ∀ i ∈ Z.init, i ∈ D ∨ ∃ Q, (i, Q) ∈ stack

theorem deadLoop_complete (hw : Z.WellFormed) {rank : Nat → Nat}
    (hrank : ∀ i c j, Z.Edge i c j → j = i ∨ rank j < rank i) {fuel : Nat} {stack : List (Nat × List Nat)}
    {reach out D : List Nat} (inv : DeadInv Z rank stack reach D) (h : deadLoop Z fuel stack reach = .ok out) :
    ∃ D, DeadInv Z rank [] out D := by
  induction fuel generalizing stack reach D with
  | zero => simp [deadLoop] at h
  | succ fuel ih =>
    rcases stack with _ | ⟨⟨i, P⟩, stack⟩
    · simp only [deadLoop, Except.ok.injEq] at h
      subst h
      exact ⟨D, inv⟩
    · rw [deadLoop_cons] at h
      have hPD : ∀ x ∈ P, x ∈ D := inv.parents (i, P) (by simp)
      have hsub : ∀ k ∈ reach, k ∈ markMatch Z i P reach := by
        intro k hk
        unfold markMatch
        split_ifs <;> simp [hk]
      have hreachD : ∀ k ∈ markMatch Z i P reach, k ∈ i :: D := by
        intro k hk
        unfold markMatch at hk
        split_ifs at hk
        · rcases List.mem_append.1 hk with hk | hk
          · simp [inv.reach k hk]
          · rcases List.mem_cons.1 hk with rfl | hk
            · simp
            · simp [hPD k hk]
        · simp [inv.reach k hk]
      by_cases hi : i ∈ P
      · rw [deadEdges_skip hi] at h
        refine ih (D := D) ⟨?_, ?_, ?_, ?_, ?_, ?_⟩ h
        · intro k hk j hj
          rcases inv.closed k hk j hj with h | ⟨Q, h⟩
          · exact Or.inl h
          · rcases List.mem_cons.1 h with h | h
            · cases h
              exact Or.inl (hPD i hi)
            · exact Or.inr ⟨Q, h⟩
        · intro k hk hl
          rcases inv.live k hk hl with h | ⟨x, hx, h1, h2, h3⟩
          · exact Or.inl (hsub k h)
          · rcases List.mem_cons.1 hx with rfl | hx
            · exact absurd hi h2
            · exact Or.inr ⟨x, hx, h1, h2, h3⟩
        · intro k hk
          rcases List.mem_cons.1 (hreachD k hk) with rfl | h
          · exact hPD _ hi
          · exact h
        · exact fun x hx => inv.parents x (by simp [hx])
        · exact fun x hx => inv.rank x (by simp [hx])
        · intro k hk
          rcases inv.init k hk with h | ⟨Q, h⟩
          · exact Or.inl h
          · rcases List.mem_cons.1 h with h | h
            · cases h
              exact Or.inl (hPD i hi)
            · exact Or.inr ⟨Q, h⟩
      · obtain ⟨s1, s2, s3, s4, s5⟩ := deadEdges_spec hi (Z.succs i) (markMatch Z i P reach) stack
        refine ih (D := i :: D) ⟨?_, ?_, ?_, ?_, ?_, ?_⟩ h
        · intro k hk j hj
          rcases List.mem_cons.1 hk with rfl | hk
          · rcases s5 j hj with h | ⟨h, -⟩
            · exact Or.inr ⟨_, h⟩
            · rcases s3 j h with h | ⟨h, -⟩
              · exact Or.inl (hreachD j h)
              · rcases List.mem_cons.1 h with rfl | h
                · simp
                · simp [hPD j h]
          · rcases inv.closed k hk j hj with h | ⟨Q, h⟩
            · simp [h]
            · rcases List.mem_cons.1 h with h | h
              · cases h
                simp
              · exact Or.inr ⟨Q, s2 _ h⟩
        · -- the states waiting for `i`
          have key : Z.Live i → ∀ k ∈ i :: P,
              k ∈ (deadEdges i P (Z.succs i) (markMatch Z i P reach) stack).1 ∨
              ∃ x ∈ (deadEdges i P (Z.succs i) (markMatch Z i P reach) stack).2,
                Z.Live x.1 ∧ x.1 ∉ x.2 ∧ k ∈ x.2 := by
            intro hl k hk
            rcases live_step hl with hm | ⟨c, j, hji, e, hlj⟩
            · left
              refine s1 k ?_
              unfold markMatch
              rw [if_pos hm]
              exact List.mem_append_right _ hk
            · rcases s5 j (succs_of_edge hw e) with h | ⟨-, h⟩
              · refine Or.inr ⟨_, h, hlj, ?_, hk⟩
                intro hc
                rcases List.mem_cons.1 hc with hc | hc
                · exact hji hc
                · have h1 : rank j < rank i := (hrank i c j e).resolve_left hji
                  rcases inv.rank (i, P) (by simp) j hc with h2 | h2
                  · exact hji h2
                  · simp only at h2
                    omega
              · exact Or.inl (h k hk)
          intro k hk hl
          rcases List.mem_cons.1 hk with rfl | hk
          · exact key hl _ (by simp)
          · rcases inv.live k hk hl with h | ⟨x, hx, h1, h2, h3⟩
            · exact Or.inl (s1 k (hsub k h))
            · rcases List.mem_cons.1 hx with rfl | hx
              · exact key h1 k (by simp [h3])
              · exact Or.inr ⟨x, s2 x hx, h1, h2, h3⟩
        · intro k hk
          rcases s3 k hk with h | ⟨h, -⟩
          · exact hreachD k h
          · rcases List.mem_cons.1 h with rfl | h
            · simp
            · simp [hPD k h]
        · intro x hx p hp
          rcases s4 x hx with hx | ⟨j, -, rfl⟩
          · simp [inv.parents x (by simp [hx]) p hp]
          · rcases List.mem_cons.1 hp with rfl | hp
            · simp
            · simp [hPD p hp]
        · intro x hx p hp
          rcases s4 x hx with hx | ⟨j, hj, rfl⟩
          · exact inv.rank x (by simp [hx]) p hp
          · obtain ⟨c, -, e⟩ := mem_succs.1 hj
            have h1 := hrank i c j e
            rcases List.mem_cons.1 hp with rfl | hp'
            · rcases h1 with h1 | h1
              · exact Or.inl h1.symm
              · exact Or.inr h1
            · rcases inv.rank (i, P) (by simp) p hp' with h2 | h2
              · subst h2
                exact absurd hp' hi
              · rcases h1 with rfl | h1
                · exact Or.inr h2
                · exact Or.inr (lt_trans h1 h2)
        · intro k hk
          rcases inv.init k hk with h | ⟨Q, h⟩
          · simp [h]
          · rcases List.mem_cons.1 h with h | h
            · cases h
              simp
            · exact Or.inr ⟨Q, s2 _ h⟩

theorem liveStates_sound {fuel : Nat} {out : List Nat} (h : Z.liveStates fuel = .ok out) :
    ∀ i ∈ out, Z.Live i := by
  refine deadLoop_sound ?_ (by simp) h
  intro x hx p hp
  obtain ⟨i, -, rfl⟩ := List.mem_map.1 hx
  simp at hp

theorem deadLoop_reachable {fuel : Nat} {stack : List (Nat × List Nat)} {reach out : List Nat}
    (hs : ∀ x ∈ stack, ∀ p ∈ x.1 :: x.2, Z.Reachable p) (hr : ∀ i ∈ reach, Z.Reachable i)
    (h : deadLoop Z fuel stack reach = .ok out) : ∀ i ∈ out, Z.Reachable i := by
  induction fuel generalizing stack reach with
  | zero => simp [deadLoop] at h
  | succ fuel ih =>
    rcases stack with _ | ⟨⟨i, P⟩, stack⟩
    · simp only [deadLoop, Except.ok.injEq] at h
      subst h
      exact hr
    · rw [deadLoop_cons] at h
      have hP : ∀ x ∈ i :: P, Z.Reachable x := hs (i, P) (by simp)
      have hr' : ∀ k ∈ markMatch Z i P reach, Z.Reachable k := by
        intro k hk
        unfold markMatch at hk
        split_ifs at hk with hm
        · rcases List.mem_append.1 hk with hk | hk
          · exact hr k hk
          · exact hP k hk
        · exact hr k hk
      by_cases hi : i ∈ P
      · rw [deadEdges_skip hi] at h
        exact ih (fun x hx => hs x (by simp [hx])) hr' h
      · obtain ⟨-, -, s3, s4, -⟩ := deadEdges_spec hi (Z.succs i) (markMatch Z i P reach) stack
        refine ih ?_ ?_ h
        · intro x hx
          rcases s4 x hx with hx | ⟨j, hj, rfl⟩
          · exact hs x (by simp [hx])
          · intro p hp
            rcases List.mem_cons.1 hp with rfl | hp
            · obtain ⟨c, -, e⟩ := mem_succs.1 hj
              obtain ⟨i₀, h0, l, hl⟩ := hP i (by simp)
              exact ⟨i₀, h0, l ++ [c], hl.append (.cons e (.nil _))⟩
            · exact hP p hp
        · intro k hk
          rcases s3 k hk with hk | ⟨hk, -⟩
          · exact hr' k hk
          · exact hP k hk

theorem liveStates_reachable {fuel : Nat} {out : List Nat} (h : Z.liveStates fuel = .ok out) :
    ∀ i ∈ out, Z.Reachable i := by
  refine deadLoop_reachable ?_ (by simp) h
  intro x hx p hp
  obtain ⟨i, hi, rfl⟩ := List.mem_map.1 hx
  simp only [List.mem_singleton] at hp
  subst hp
  exact ⟨p, by simpa using hi, [], .nil _⟩

theorem liveStates_complete (hw : Z.WellFormed) {rank : Nat → Nat}
    (hrank : ∀ i c j, Z.Edge i c j → j = i ∨ rank j < rank i) {fuel : Nat} {out : List Nat}
    (h : Z.liveStates fuel = .ok out) {i : Nat} (hi : Z.Reachable i) (hl : Z.Live i) : i ∈ out := by
  obtain ⟨D, inv⟩ := deadLoop_complete hw hrank (D := []) ⟨by simp, by simp, by simp, by
      intro x hx p hp
      obtain ⟨i, -, rfl⟩ := List.mem_map.1 hx
      simp at hp, by
      intro x hx p hp
      obtain ⟨i, -, rfl⟩ := List.mem_map.1 hx
      simp at hp, by
      intro i hi
      exact Or.inr ⟨[], List.mem_map.2 ⟨i, by simpa using hi, rfl⟩⟩⟩ h
  obtain ⟨i₀, hi₀, l, hp⟩ := hi
  have hD : i ∈ D := by
    have h0 : i₀ ∈ D := by
      rcases inv.init i₀ hi₀ with h | ⟨Q, h⟩
      · exact h
      · simp at h
    clear hi₀ hl
    induction hp with
    | nil => exact h0
    | cons e p ih =>
      refine ih ?_
      rcases inv.closed _ h0 _ (succs_of_edge hw e) with h | ⟨Q, h⟩
      · exact h
      · simp at h
  rcases inv.live i hD hl with h | ⟨x, hx, -⟩
  · exact h
  · simp at hx

/-! ### termination of `removeDeadStates` -/

theorem nodup_length_le {P : List Nat} {n : Nat} (hP : P.Nodup) (hn : ∀ p ∈ P, p < n) : P.length ≤ n := by
  have : P.Subperm (List.range n) := hP.subperm fun p hp => List.mem_range.2 (hn p hp)
  simpa using this.length_le

theorem deadLoop_push (hw : Z.WellFormed) {i : Nat} {P : List Nat} (hi : i ∉ P) :
    ∀ (js : List Nat), (∀ j ∈ js, j ∈ Z.succs i) → ∀ (reach : List Nat) (stack : List (Nat × List Nat)),
      (∀ j ∈ js, ∀ stack : List (Nat × List Nat), (∀ reach, ∃ fuel out, deadLoop Z fuel stack reach = .ok out) →
        ∀ reach, ∃ fuel out, deadLoop Z fuel ((j, i :: P) :: stack) reach = .ok out) →
      (∀ reach, ∃ fuel out, deadLoop Z fuel stack reach = .ok out) →
      ∀ reach', ∃ fuel out, deadLoop Z fuel (deadEdges i P js reach stack).2 reach' = .ok out := by
  intro js
  induction js with
  | nil => intro _ reach stack _ h; exact h
  | cons j js ih =>
    intro hsub reach stack hj hst
    rw [deadEdges, if_neg hi]
    split_ifs
    · exact ih (fun j' hj' => hsub j' (by simp [hj'])) _ _ (fun j' hj' => hj j' (by simp [hj'])) hst
    · exact ih (fun j' hj' => hsub j' (by simp [hj'])) _ _ (fun j' hj' => hj j' (by simp [hj']))
        (hj j (by simp) stack hst)

theorem deadLoop_terminates_cons (hw : Z.WellFormed) : ∀ (k : Nat) (i : Nat) (P : List Nat), i < Z.nodes.length →
    P.Nodup → (∀ p ∈ P, p < Z.nodes.length) → Z.nodes.length + 1 ≤ P.length + k →
    ∀ stack : List (Nat × List Nat), (∀ reach, ∃ fuel out, deadLoop Z fuel stack reach = .ok out) →
    ∀ reach, ∃ fuel out, deadLoop Z fuel ((i, P) :: stack) reach = .ok out := by
  intro k
  induction k with
  | zero =>
    intro i P hi hP hlt hk
    have := nodup_length_le hP hlt
    omega
  | succ k ih =>
    intro i P hi hP hlt hk stack hst reach
    by_cases hiP : i ∈ P
    · obtain ⟨fuel, out, h⟩ := hst (markMatch Z i P reach)
      exact ⟨fuel + 1, out, by rw [deadLoop_cons, deadEdges_skip hiP]; exact h⟩
    · obtain ⟨fuel, out, h⟩ := deadLoop_push hw hiP (Z.succs i) (fun _ h => h) (markMatch Z i P reach) stack
        (by
          intro j hj
          obtain ⟨c, -, e⟩ := mem_succs.1 hj
          refine ih j (i :: P) (hw.edge e).2 (List.nodup_cons.2 ⟨hiP, hP⟩) ?_ ?_
          · intro p hp
            rcases List.mem_cons.1 hp with rfl | hp
            · exact hi
            · exact hlt p hp
          · simp only [List.length_cons]
            omega) hst (deadEdges i P (Z.succs i) (markMatch Z i P reach) stack).1
      exact ⟨fuel + 1, out, by rw [deadLoop_cons]; exact h⟩

theorem liveStates_terminates (hw : Z.WellFormed) : ∃ fuel out, Z.liveStates fuel = .ok out := by
  have : ∀ (l : List Nat), (∀ i ∈ l, i < Z.nodes.length) → ∀ reach, ∃ fuel out,
      deadLoop Z fuel (l.map fun i => (i, [])) reach = .ok out := by
    intro l
    induction l with
    | nil => intro _ reach; exact ⟨1, reach, rfl⟩
    | cons i l ih =>
      intro hl
      exact deadLoop_terminates_cons hw (Z.nodes.length + 1) i [] (hl i (by simp)) List.nodup_nil (by simp)
        (by simp) _ (ih fun i hi => hl i (by simp [hi]))
  exact this _ (fun i hi => hw.1 i (by simpa using hi)) []

end Verif.ZA
