import Verif.Spec.Dot
import Verif.Lemmas.TREBase
import Verif.Spec.Match

/-! Printing and loading automata. -/

set_option linter.unusedSectionVars false

namespace Verif

/-- The rest of the stream does not begin with a digit. -/
def NoDigit (s : List Char) : Prop := ∀ c ∈ s.head?, c.isDigit = false

theorem takeWhile_noDigit {s : List Char} (h : NoDigit s) : s.takeWhile Char.isDigit = [] := by
  cases s with
  | nil => rfl
  | cons c s => simp [h c (by simp)]

theorem dropWhile_noDigit {s : List Char} (h : NoDigit s) : s.dropWhile Char.isDigit = s := by
  cases s with
  | nil => rfl
  | cons c s => simp [h c (by simp)]

theorem digits_digit (n : Nat) : ∀ c ∈ Nat.toDigits 10 n, c.isDigit = true := fun _ h =>
  Nat.isDigit_of_mem_toDigits (by decide) (by decide) h

theorem digits_cons (n : Nat) : ∃ c l, Nat.toDigits 10 n = c :: l ∧ c ≠ '-' ∧ c ≠ '+' := by
  cases h : Nat.toDigits 10 n with
  | nil => exact absurd h Nat.toDigits_ne_nil
  | cons c l =>
    have hc := digits_digit n c (by rw [h]; simp)
    refine ⟨c, l, rfl, ?_, ?_⟩ <;> rintro rfl <;> exact absurd hc (by decide)

theorem scanInt_digits (neg : Bool) (n : Nat) {s : List Char} (h : NoDigit s) :
    (Nat.toDigits 10 n ++ s).takeWhile Char.isDigit = Nat.toDigits 10 n ∧ (Nat.toDigits 10 n ++ s).dropWhile Char.isDigit = s := by
  rw [List.takeWhile_append_of_pos (digits_digit n), List.dropWhile_append_of_pos (digits_digit n), takeWhile_noDigit h,
    dropWhile_noDigit h, List.append_nil]
  exact ⟨rfl, rfl⟩

theorem scanInt_show {n : Int} (hn : FitsInt n) {s : List Char} (h : NoDigit s) : scanInt (showInt n ++ s) = some (n, s) := by
  obtain ⟨c, l, hc, h1, h2⟩ := digits_cons n.natAbs
  have hof : Nat.ofDigitChars 10 (c :: l) 0 = n.natAbs := by rw [← hc]; exact Nat.ofDigitChars_ten_toDigits
  obtain ⟨ht, hd⟩ := scanInt_digits true n.natAbs h
  have key : ∀ b : Bool, (if b then -(n.natAbs : Int) else n.natAbs) = n → scanSign (showInt n ++ s) = (b, Nat.toDigits 10 n.natAbs ++ s) →
      scanInt (showInt n ++ s) = some (n, s) := by
    intro b hb hs
    simp only [scanInt, hs]
    rw [ht, hd, hc]
    simp only [hof, hb]
    exact if_pos hn
  by_cases hneg : n < 0
  · refine key true (by simp only [if_true]; omega) ?_
    simp [showInt, hneg, scanSign]
  · refine key false (by simp only [Bool.false_eq_true, if_false]; omega) ?_
    simp only [showInt, hneg, if_false]
    rw [hc, List.cons_append, scanSign]
    · intro l' h'; simp only [List.cons.injEq] at h'; exact h1 h'.1
    · intro l' h'; simp only [List.cons.injEq] at h'; exact h2 h'.1

theorem scanOrd_show (o : Ord) (s : List Char) : scanOrd (o.show ++ ' ' :: s) = .ok (some (o, s)) := by
  cases o <;> simp [Ord.show, scanOrd, expect]

theorem fits_byte {x : Nat} (h : x < 256) : FitsInt x := by unfold FitsInt; omega

theorem byte_cast {x : Nat} (h : x < 256) : (((x : Int) % 256).toNat) = x := by omega

theorem noDigit_cons {c : Char} {s : List Char} (h : c.isDigit = false) : NoDigit (c :: s) := by
  intro d hd
  simp at hd
  rw [← hd]
  exact h

theorem scanConstraint_show {g : Constraint} (hx : g.x < 256) (hc : FitsInt g.c) {s : List Char} (h : NoDigit s) :
    scanConstraint (g.show ++ s) = .ok (some (g, s)) := by
  have e1 : g.show ++ s = 'x' :: (showInt g.x ++ ' ' :: (g.odr.show ++ ' ' :: (showInt g.c ++ s))) := by
    simp [Constraint.show]
  rw [e1]
  simp only [scanConstraint, expect, if_true]
  rw [scanInt_show (fits_byte hx) (noDigit_cons rfl)]
  simp only [expect, if_true, scanOrd_show]
  rw [scanInt_show hc h]
  simp only [byte_cast hx]

theorem scanClock_show {x : Nat} (hx : x < 256) {s : List Char} (h : NoDigit s) :
    scanClock (showInt x ++ s) = .ok (some (x, s)) := by
  rw [scanClock, scanInt_show (fits_byte hx) h]
  simp only [Option.map_some, byte_cast hx]

theorem scanItems_show {α : Type} {item : List Char → Scan α} {sh : α → List Char} {l : List α} (hl : l ≠ [])
    (hi : ∀ x ∈ l, ∀ s, NoDigit s → item (sh x ++ s) = .ok (some (x, s))) (s : List Char) {fuel : Nat} (hf : l.length ≤ fuel) :
    scanItems item fuel (showItems (l.map sh) ++ '}' :: s) = .ok (some (l, s)) := by
  induction l generalizing fuel with
  | nil => exact absurd rfl hl
  | cons x l ih =>
    cases fuel with
    | zero => simp at hf
    | succ fuel =>
      cases l with
      | nil =>
        simp only [List.map_cons, List.map_nil, showItems, scanItems]
        rw [hi x (by simp) _ (noDigit_cons rfl)]
        rfl
      | cons y l =>
        have e1 : showItems ((x :: y :: l).map sh) ++ '}' :: s = sh x ++ ',' :: ' ' :: (showItems ((y :: l).map sh) ++ '}' :: s) := by
          simp [showItems]
        rw [e1, scanItems, hi x (by simp) _ (noDigit_cons rfl)]
        simp only [expect, if_true]
        rw [ih (by simp) (fun x hx => hi x (List.mem_cons_of_mem _ hx)) (by simp at hf ⊢; omega)]

theorem showItems_length {l : List (List Char)} (h : ∀ x ∈ l, x ≠ []) : l.length ≤ (showItems l).length := by
  induction l with
  | nil => simp
  | cons x l ih =>
    have hx : 1 ≤ x.length := List.length_pos_iff.2 (h x (by simp))
    cases l with
    | nil => simpa [showItems] using hx
    | cons y l =>
      have := ih fun x hx => h x (List.mem_cons_of_mem _ hx)
      simp only [showItems, List.length_append, List.length_cons] at this ⊢
      omega

theorem readAttr_show {α : Type} {item : List Char → Scan α} {sh : α → List Char} {l : List α} (hl : l ≠ [])
    (hne : ∀ x ∈ l, sh x ≠ [])
    (hi : ∀ x ∈ l, ∀ s, NoDigit s → item (sh x ++ s) = .ok (some (x, s))) :
    readAttr item (showList (l.map sh)) = .ok l := by
  have hlen : l.length ≤ (showItems (l.map sh)).length := by
    have := showItems_length (l := l.map sh) (by
      intro x hx
      obtain ⟨y, hy, rfl⟩ := List.mem_map.1 hx
      exact hne y hy)
    simpa using this
  simp only [showList, List.cons_append, readAttr, scanList, expect, if_true]
  rw [scanItems_show hl hi [] (by simp; omega)]

theorem readGuard_show {g : List Constraint} (hg : g ≠ []) (h : GuardFits g) : readGuard (showGuard g) = .ok g :=
  readAttr_show hg (fun _ _ => by simp [Constraint.show]) fun c hc _ hs => scanConstraint_show (h c hc).1 (h c hc).2 hs

theorem showInt_ne (n : Int) : showInt n ≠ [] := by
  unfold showInt
  split
  · simp
  · exact Nat.toDigits_ne_nil

theorem readResets_show {xs : List Nat} (hx : xs ≠ []) (h : ResetsFit xs) : readResets (showResets xs) = .ok xs :=
  readAttr_show hx (fun _ _ => showInt_ne _) fun x hx _ hs => scanClock_show (h x hx) hs

/-! ### Loading -/

theorem addConst_length (m : List Int) (g : Constraint) : (addConst m g).length = max m.length (g.x + 1) := by
  simp only [addConst, List.length_set, List.length_append, List.length_replicate]; omega

theorem addConst_getD (m : List Int) (g : Constraint) (x : Nat) :
    (addConst m g).getD x 0 = if x = g.x then max (m.getD x 0) g.c else m.getD x 0 := by
  have hpad : ∀ y, (m ++ List.replicate (g.x + 1 - m.length) 0).getD y 0 = m.getD y 0 := by
    intro y
    simp only [List.getD_eq_getElem?_getD]
    by_cases hy : y < m.length
    · rw [List.getElem?_append_left hy]
    · rw [List.getElem?_append_right (by omega), List.getElem?_eq_none (by omega : m.length ≤ y), List.getElem?_replicate]
      split <;> rfl
  simp only [addConst]
  simp only [List.getD_eq_getElem?_getD, List.getElem?_set] at hpad ⊢
  by_cases hx : g.x = x
  · subst hx
    have hlt : g.x < (m ++ List.replicate (g.x + 1 - m.length) 0).length := by simp; omega
    simp only [if_true, hlt, Option.getD_some, hpad]
  · rw [if_neg hx, if_neg (Ne.symm hx), hpad]

theorem foldl_addConst_length (gs : List Constraint) (m : List Int) :
    m.length ≤ (gs.foldl addConst m).length ∧ ∀ g ∈ gs, g.x < (gs.foldl addConst m).length := by
  induction gs generalizing m with
  | nil => simp
  | cons g gs ih =>
    obtain ⟨h1, h2⟩ := ih (addConst m g)
    rw [addConst_length] at h1
    refine ⟨by rw [List.foldl_cons]; omega, ?_⟩
    intro g' hg'
    rw [List.foldl_cons]
    rcases List.mem_cons.1 hg' with rfl | hg'
    · omega
    · exact h2 g' hg'

theorem foldl_addConst_min (gs : List Constraint) (m : List Int) {n : Nat} (hm : m.length ≤ n) (h : ∀ g ∈ gs, g.x < n) :
    (gs.foldl addConst m).length ≤ n := by
  induction gs generalizing m with
  | nil => exact hm
  | cons g gs ih =>
    rw [List.foldl_cons]
    refine ih _ ?_ fun g hg => h g (List.mem_cons_of_mem _ hg)
    rw [addConst_length]
    have := h g (by simp)
    omega

theorem foldl_addConst_ge (gs : List Constraint) (m : List Int) (x : Nat) :
    m.getD x 0 ≤ (gs.foldl addConst m).getD x 0 ∧ ∀ g ∈ gs, g.x = x → g.c ≤ (gs.foldl addConst m).getD x 0 := by
  induction gs generalizing m with
  | nil => simp
  | cons g gs ih =>
    obtain ⟨h1, h2⟩ := ih (addConst m g)
    rw [addConst_getD] at h1
    rw [List.foldl_cons]
    refine ⟨?_, ?_⟩
    · split at h1
      · exact le_trans (le_max_left _ _) h1
      · exact h1
    · intro g' hg' hx
      rcases List.mem_cons.1 hg' with rfl | hg'
      · rw [if_pos hx.symm] at h1
        exact le_trans (le_max_right _ _) h1
      · exact h2 g' hg' hx

/-- The constant is 0 or occurs. -/
theorem foldl_addConst_attained (gs : List Constraint) (m : List Int) (x : Nat) :
    (gs.foldl addConst m).getD x 0 = m.getD x 0 ∨ ∃ g ∈ gs, g.x = x ∧ g.c = (gs.foldl addConst m).getD x 0 := by
  induction gs generalizing m with
  | nil => simp
  | cons g gs ih =>
    rw [List.foldl_cons]
    rcases ih (addConst m g) with h | ⟨g', h1, h2, h3⟩
    · rw [h, addConst_getD]
      split
      · rename_i hx
        rcases max_choice (m.getD x 0) g.c with hm | hm
        · exact .inl hm
        · exact .inr ⟨g, by simp, hx.symm, hm.symm⟩
      · exact .inl rfl
    · exact .inr ⟨g', List.mem_cons_of_mem _ h1, h2, h3⟩


section conv

variable {alloc : Nat → Nat}

/-- The transition of an edge. -/
def DotEdge.trans (alloc : Nat → Nat) (e : DotEdge) : Transition Nat := ⟨some (alloc e.target), e.resets, e.guard⟩

theorem foldl_convEdge (es : List DotEdge) (A : TA Nat) :
    let B := es.foldl (convEdge alloc) A
    B.states = A.states ∧ B.init = A.init ∧ B.maxC = (es.flatMap (·.guard)).foldl addConst A.maxC ∧
    (∀ b, (B.st b).isMatch = (A.st b).isMatch ∧ (B.st b).zeroDuration = (A.st b).zeroDuration) ∧
    (∀ b a, B.edges b a = A.edges b a ++ ((es.filter fun e => decide (alloc e.source = b ∧ e.label = a)).map (DotEdge.trans alloc))) ∧
    (∀ b, ((A.st b).next.map (·.1)).Nodup → ((B.st b).next.map (·.1)).Nodup) ∧
    (∀ b, (∀ p ∈ (A.st b).next, p.2 ≠ []) → ∀ p ∈ (B.st b).next, p.2 ≠ []) := by
  induction es generalizing A with
  | nil => simp
  | cons e es ih =>
    obtain ⟨h1, h2, h3, h4, h5, h6, h7⟩ := ih (convEdge alloc A e)
    simp only [List.foldl_cons]
    refine ⟨h1, h2, ?_, ?_, ?_, ?_, ?_⟩
    · rw [h3, List.flatMap_cons, List.foldl_append]; rfl
    · intro b
      rw [(h4 b).1, (h4 b).2]
      simp only [convEdge]
      split <;> exact ⟨rfl, rfl⟩
    · intro b a
      rw [h5]
      have : (convEdge alloc A e).edges b a =
          A.edges b a ++ if alloc e.source = b ∧ e.label = a then [e.trans alloc] else [] := by
        simp only [convEdge, TA.edges]
        by_cases hb : b = alloc e.source
        · subst hb
          simp only [if_true, true_and, Next.at'_push, DotEdge.trans]
          split <;> simp
        · simp [hb, Ne.symm hb]
      rw [this, List.append_assoc]
      congr 1
      rw [List.filter_cons]
      by_cases hc : alloc e.source = b ∧ e.label = a
      · simp [hc]
      · simp [hc]
    · intro b hb
      refine h6 b ?_
      simp only [convEdge]
      split
      · exact Next.push_nodup hb _ _
      · exact hb
    · intro b hb
      refine h7 b ?_
      simp only [convEdge]
      split
      · exact Next.push_ne hb _ _
      · exact hb

variable {G : DotGraph}

/-- The edges in the order of the loop. -/
def DotGraph.sorted (G : DotGraph) : List DotEdge :=
  (List.range G.vertices.length).flatMap fun v => G.edges.filter fun e => e.source == v

theorem DotGraph.mem_sorted (hG : G.Ok) {e : DotEdge} : e ∈ G.sorted ↔ e ∈ G.edges := by
  simp only [sorted, List.mem_flatMap, List.mem_range, List.mem_filter, beq_iff_eq]
  exact ⟨fun ⟨_, _, h, _⟩ => h, fun h => ⟨e.source, (hG e h).1, h, rfl⟩⟩

theorem convBoostTA_eq (alloc : Nat → Nat) (G : DotGraph) : convBoostTA alloc G = G.sorted.foldl (convEdge alloc) (convStates alloc G) := rfl

theorem convStates_next (b : Nat) : ((convStates alloc G).st b).next = [] := by
  simp only [convStates]
  split <;> rfl

theorem conv_edges (hG : G.Ok) (b : Nat) (a : Alphabet) (t : Transition Nat) :
    t ∈ (convBoostTA alloc G).edges b a ↔ ∃ e ∈ G.edges, alloc e.source = b ∧ e.label = a ∧ t = e.trans alloc := by
  rw [convBoostTA_eq, (foldl_convEdge G.sorted _).2.2.2.2.1, TA.edges, convStates_next, Next.at'_nil, List.nil_append]
  simp only [List.mem_map, List.mem_filter, decide_eq_true_eq, DotGraph.mem_sorted hG]
  constructor
  · rintro ⟨e, ⟨h1, h2, h3⟩, rfl⟩; exact ⟨e, h1, h2, h3, rfl⟩
  · rintro ⟨e, h1, h2, h3, rfl⟩; exact ⟨e, ⟨h1, h2, h3⟩, rfl⟩

theorem conv_states : (convBoostTA alloc G).states = (List.range G.vertices.length).map alloc := by
  rw [convBoostTA_eq, (foldl_convEdge G.sorted _).1]; rfl

theorem conv_init {b : Nat} : b ∈ (convBoostTA alloc G).init ↔ ∃ v m, G.vertices[v]? = some (true, m) ∧ alloc v = b := by
  rw [convBoostTA_eq, (foldl_convEdge G.sorted _).2.1]
  simp only [convStates, List.mem_map, List.mem_filter, List.mem_range]
  constructor
  · rintro ⟨v, ⟨hv, h⟩, rfl⟩
    refine ⟨v, (G.vertices[v]).2, ?_, rfl⟩
    rw [List.getD_eq_getElem?_getD, List.getElem?_eq_getElem hv, Option.getD_some] at h
    rw [List.getElem?_eq_getElem hv, ← h]
  · rintro ⟨v, m, h, rfl⟩
    obtain ⟨hv, h'⟩ := List.getElem?_eq_some_iff.1 h
    refine ⟨v, ⟨hv, ?_⟩, rfl⟩
    rw [List.getD_eq_getElem?_getD, h]; rfl

theorem find_alloc (hinj : Function.Injective alloc) {n v : Nat} (hv : v < n) :
    ((List.range n).find? fun u => alloc u == alloc v) = some v := by
  have : (fun u => alloc u == alloc v) = fun u => u == v := by
    funext u
    rw [Bool.eq_iff_iff, beq_iff_eq, beq_iff_eq]
    exact hinj.eq_iff
  rw [this]
  have hs : ((List.range n).find? fun u => u == v).isSome := by
    rw [List.find?_isSome]
    exact ⟨v, List.mem_range.2 hv, by simp⟩
  obtain ⟨u, hu⟩ := Option.isSome_iff_exists.1 hs
  have := List.find?_some hu
  rw [beq_iff_eq] at this
  rw [hu, this]

theorem conv_match (hinj : Function.Injective alloc) {v : Nat} (hv : v < G.vertices.length) :
    ((convBoostTA alloc G).st (alloc v)).isMatch = G.vertices[v].2 := by
  rw [convBoostTA_eq, ((foldl_convEdge G.sorted _).2.2.2.1 _).1]
  simp only [convStates, find_alloc hinj hv]
  rw [List.getD_eq_getElem?_getD, List.getElem?_eq_getElem hv, Option.getD_some]

theorem conv_flag (b : Nat) : ((convBoostTA alloc G).st b).zeroDuration = false := by
  rw [convBoostTA_eq, ((foldl_convEdge G.sorted _).2.2.2.1 _).2]
  simp only [convStates]
  split <;> rfl

theorem conv_maxC : (convBoostTA alloc G).maxC = (G.sorted.flatMap (·.guard)).foldl addConst [] := by
  rw [convBoostTA_eq, (foldl_convEdge G.sorted _).2.2.1]; rfl

theorem conv_mapOk : (convBoostTA alloc G).MapOk := by
  intro b
  rw [convBoostTA_eq]
  exact (foldl_convEdge G.sorted _).2.2.2.2.2.1 b (by rw [convStates_next]; simp)

theorem conv_ne (b : Nat) : ∀ p ∈ ((convBoostTA alloc G).st b).next, p.2 ≠ [] := by
  rw [convBoostTA_eq]
  exact (foldl_convEdge G.sorted _).2.2.2.2.2.2 b (by rw [convStates_next]; simp)

theorem conv_closed (hG : G.Ok) : (convBoostTA alloc G).Closed := by
  constructor
  · intro b hb
    obtain ⟨v, m, hv, rfl⟩ := conv_init.1 hb
    rw [conv_states]
    exact List.mem_map.2 ⟨v, List.mem_range.2 (List.getElem?_eq_some_iff.1 hv).1, rfl⟩
  · intro b _ a t ht q hq
    obtain ⟨e, he, -, -, rfl⟩ := (conv_edges hG b a t).1 ht
    simp only [DotEdge.trans, Option.some.injEq] at hq
    subst hq
    rw [conv_states]
    exact List.mem_map.2 ⟨_, List.mem_range.2 (hG e he).2, rfl⟩

theorem conv_tidy (hG : G.Ok) : (convBoostTA alloc G).Tidy := by
  intro b hb
  refine Next.eq_nil (conv_mapOk b) (conv_ne b) fun a => ?_
  rw [List.eq_nil_iff_forall_not_mem]
  intro t ht
  obtain ⟨e, he, h, -, -⟩ := (conv_edges hG b a t).1 ht
  refine hb ?_
  rw [conv_states, ← h]
  exact List.mem_map.2 ⟨_, List.mem_range.2 (hG e he).1, rfl⟩

variable {K : Type} [Field K] [LinearOrder K]

theorem conv_reads (hinj : Function.Injective alloc) (hG : G.Ok) (v : Nat) (r : Nat → K) (w : TWord K) (b : Nat) :
    (convBoostTA alloc G).Reads (alloc v) r w b ↔ ∃ v', alloc v' = b ∧ G.Reads v r w v' := by
  induction w generalizing v r with
  | nil => exact ⟨fun h => ⟨v, h, rfl⟩, fun ⟨v', h, (h' : v = v')⟩ => by rw [← h, h']; rfl⟩
  | cons x w ih =>
    obtain ⟨a, t⟩ := x
    simp only [TA.Reads, DotGraph.Reads]
    constructor
    · rintro ⟨t', ht', q, hq, hg, hr⟩
      obtain ⟨e, he, hs, hl, rfl⟩ := (conv_edges hG _ _ _).1 ht'
      simp only [DotEdge.trans, Option.some.injEq] at hq
      subst hq
      obtain ⟨v', hv', hr'⟩ := (ih _ _).1 hr
      exact ⟨v', hv', e, he, hinj hs, hl, hg, hr'⟩
    · rintro ⟨v', hv', e, he, hs, hl, hg, hr⟩
      exact ⟨_, (conv_edges hG _ _ _).2 ⟨e, he, by rw [hs], hl, rfl⟩, _, rfl, hg, (ih _ _).2 ⟨v', hv', hr⟩⟩

theorem DotGraph.reads_lt (hG : G.Ok) {v v' : Nat} {r : Nat → K} {w : TWord K} (hv : v < G.vertices.length) (h : G.Reads v r w v') :
    v' < G.vertices.length := by
  induction w generalizing v r with
  | nil => exact (show v = v' from h) ▸ hv
  | cons x w ih =>
    obtain ⟨e, he, -, -, -, h⟩ := h
    exact ih (hG e he).2 h

theorem conv_accepts (hinj : Function.Injective alloc) (hG : G.Ok) (t0 : K) (w : TWord K) :
    (convBoostTA alloc G).AcceptsFrom t0 w ↔ G.AcceptsFrom t0 w := by
  constructor
  · rintro ⟨b, hb, b', hr, hm⟩
    obtain ⟨v, m, hv, rfl⟩ := conv_init.1 hb
    obtain ⟨v', rfl, hr'⟩ := (conv_reads hinj hG v _ w b').1 hr
    have hv' := DotGraph.reads_lt hG (List.getElem?_eq_some_iff.1 hv).1 hr'
    rw [conv_match hinj hv'] at hm
    exact ⟨v, m, hv, v', G.vertices[v'].1, hr', by rw [List.getElem?_eq_getElem hv', ← hm]⟩
  · rintro ⟨v, m, hv, v', i, hr, hv'⟩
    refine ⟨alloc v, conv_init.2 ⟨v, m, hv, rfl⟩, alloc v', (conv_reads hinj hG v _ w _).2 ⟨v', rfl, hr⟩, ?_⟩
    obtain ⟨hlt, h⟩ := List.getElem?_eq_some_iff.1 hv'
    rw [conv_match hinj hlt, h]

end conv

/-! ### Printing and loading -/

theorem mapM_ok {α β : Type} {f : α → Except Err β} {g : α → β} {l : List α} (h : ∀ x ∈ l, f x = .ok (g x)) :
    l.mapM f = .ok (l.map g) := by
  induction l with
  | nil => rfl
  | cons x l ih =>
    rw [List.mapM_cons, h x (by simp), ih fun y hy => h y (List.mem_cons_of_mem _ hy)]
    rfl

section roundtrip

variable {A : TA Nat}

/-- The transitions in the order in which they are printed. -/
def TA.printed (A : TA Nat) : List (Nat × Alphabet × Transition Nat) :=
  A.states.flatMap fun s => (A.st s).next.flatMap fun p => p.2.map fun e => (s, p.1, e)

theorem TA.mem_printed (h : A.Printable) {s : Nat} {a : Alphabet} {e : Transition Nat} :
    (s, a, e) ∈ A.printed ↔ s ∈ A.states ∧ e ∈ A.edges s a := by
  simp only [printed, List.mem_flatMap, List.mem_map, Prod.mk.injEq]
  constructor
  · rintro ⟨s', hs', p, hp, e', he', rfl, rfl, rfl⟩
    refine ⟨hs', ?_⟩
    rw [TA.edges, Next.at'_of_mem (h.keys _ hs') (c := p.1) (l := p.2) hp]
    exact he'
  · rintro ⟨hs, he⟩
    rw [TA.edges, Next.at', Next.find] at he
    cases hf : (A.st s).next.find? fun p => p.1 == a with
    | none => rw [hf] at he; simp at he
    | some p =>
      rw [hf] at he
      have := List.find?_some hf
      rw [beq_iff_eq] at this
      exact ⟨s, hs, p, List.mem_of_find?_eq_some hf, e, by simpa using he, rfl, this, rfl⟩

/-- The statement of a printed transition. -/
def TA.edgeStmt (A : TA Nat) (x : Nat × Alphabet × Transition Nat) : DotStmt :=
  .edge (A.states.idxOf x.1 + 1) (A.states.idxOf (x.2.2.target.getD 0) + 1) x.2.1
    (if x.2.2.guard.isEmpty then [] else showGuard x.2.2.guard) (if x.2.2.resets.isEmpty then [] else showResets x.2.2.resets)

def TA.nodeStmts (A : TA Nat) : List DotStmt := A.states.map fun s =>
  DotStmt.node (A.states.idxOf s + 1) (decide (s ∈ A.init)) (A.st s).isMatch (A.st s).zeroDuration

theorem showTA_ok (h : A.Printable) : showTA A = .ok (A.nodeStmts ++ A.printed.map A.edgeStmt) := by
  unfold showTA
  have : A.printed.mapM (fun x => showEdge A x.1 x.2.1 x.2.2) = .ok (A.printed.map A.edgeStmt) := by
    apply mapM_ok
    rintro ⟨s, a, e⟩ hx
    obtain ⟨hs, he⟩ := (TA.mem_printed h).1 hx
    obtain ⟨q, hq, ht⟩ := h.target s hs a e he
    simp [showEdge, stateNumber, hs, ht, hq, TA.edgeStmt, bind, Except.bind, pure, Except.pure]
  unfold TA.printed at this
  rw [this]
  rfl

variable {l : List DotStmt}

theorem readAttr_nil {α : Type} (item : List Char → Scan α) : readAttr item [] = .ok [] := rfl

theorem readEdges_nodes (names : List Nat) (ss : List Nat) (f : Nat → DotStmt) (hf : ∀ s, ∃ n i m z, f s = .node n i m z) (l : List DotStmt) :
    readEdges names (ss.map f ++ l) = readEdges names l := by
  induction ss with
  | nil => rfl
  | cons s ss ih =>
    obtain ⟨n, i, m, z, h⟩ := hf s
    rw [List.map_cons, List.cons_append, h, readEdges, ih]

/-- The edge of the graph for a transition. -/
def TA.dotEdge (A : TA Nat) (names : List Nat) (x : Nat × Alphabet × Transition Nat) : DotEdge :=
  ⟨names.idxOf (A.states.idxOf x.1 + 1), names.idxOf (A.states.idxOf (x.2.2.target.getD 0) + 1), x.2.1, x.2.2.resets, x.2.2.guard⟩

theorem readEdges_edges (names : List Nat) {xs : List (Nat × Alphabet × Transition Nat)}
    (h : ∀ x ∈ xs, GuardFits x.2.2.guard ∧ ResetsFit x.2.2.resets) :
    readEdges names (xs.map A.edgeStmt) = .ok (xs.map (A.dotEdge names)) := by
  induction xs with
  | nil => rfl
  | cons x xs ih =>
    obtain ⟨hg, hr⟩ := h x (by simp)
    have h1 : readGuard (if x.2.2.guard.isEmpty then [] else showGuard x.2.2.guard) = .ok x.2.2.guard := by
      by_cases hn : x.2.2.guard = []
      · rw [hn]; rfl
      · rw [if_neg (by simpa using hn)]; exact readGuard_show hn hg
    have h2 : readResets (if x.2.2.resets.isEmpty then [] else showResets x.2.2.resets) = .ok x.2.2.resets := by
      by_cases hn : x.2.2.resets = []
      · rw [hn]; rfl
      · rw [if_neg (by simpa using hn)]; exact readResets_show hn hr
    rw [List.map_cons, TA.edgeStmt, readEdges, h1, h2, ih fun y hy => h y (List.mem_cons_of_mem _ hy)]
    rfl

/-- The names of the printed file. -/
def TA.names (A : TA Nat) : List Nat := fileNames (A.nodeStmts ++ A.printed.map A.edgeStmt)

theorem TA.names_nodup (A : TA Nat) : A.names.Nodup :=
  (List.perm_insertionSort _ _).nodup_iff.2 (List.nodup_dedup _)

theorem TA.mem_names (h : A.Printable) {n : Nat} : n ∈ A.names ↔ ∃ s ∈ A.states, n = A.states.idxOf s + 1 := by
  rw [names, fileNames, (List.perm_insertionSort _ _).mem_iff, List.mem_dedup, List.mem_flatMap]
  constructor
  · rintro ⟨x, hx, hn⟩
    rcases List.mem_append.1 hx with hx | hx
    · obtain ⟨s, hs, rfl⟩ := List.mem_map.1 hx
      simp only [DotStmt.names, List.mem_singleton] at hn
      exact ⟨s, hs, hn⟩
    · obtain ⟨⟨s, a, e⟩, hx', rfl⟩ := List.mem_map.1 hx
      obtain ⟨hs, he⟩ := (TA.mem_printed h).1 hx'
      obtain ⟨q, hq, ht⟩ := h.target s hs a e he
      simp only [TA.edgeStmt, DotStmt.names, ht, Option.getD_some, List.mem_cons, List.not_mem_nil, or_false] at hn
      rcases hn with rfl | rfl
      · exact ⟨s, hs, rfl⟩
      · exact ⟨q, hq, rfl⟩
  · rintro ⟨s, hs, rfl⟩
    exact ⟨_, List.mem_append_left _ (List.mem_map.2 ⟨s, hs, rfl⟩), by simp [DotStmt.names]⟩

/-- The vertex of a state. -/
def TA.vertex (A : TA Nat) (s : Nat) : Nat := A.names.idxOf (A.states.idxOf s + 1)

theorem TA.vertex_lt (h : A.Printable) {s : Nat} (hs : s ∈ A.states) : A.vertex s < A.names.length :=
  List.idxOf_lt_length_iff.2 ((mem_names h).2 ⟨s, hs, rfl⟩)

theorem TA.vertex_inj (h : A.Printable) {s s' : Nat} (hs : s ∈ A.states) (hs' : s' ∈ A.states) (he : A.vertex s = A.vertex s') : s = s' := by
  have h1 := List.idxOf_inj ((mem_names h).2 ⟨s, hs, rfl⟩) |>.1 he
  have h2 : A.states.idxOf s = A.states.idxOf s' := by omega
  exact (List.idxOf_inj hs).1 h2

theorem TA.vertex_surj (h : A.Printable) {v : Nat} (hv : v < A.names.length) : ∃ s ∈ A.states, A.vertex s = v := by
  obtain ⟨s, hs, hn⟩ := (mem_names h).1 (List.getElem_mem hv)
  refine ⟨s, hs, ?_⟩
  rw [vertex, ← hn]
  exact A.names_nodup.idxOf_getElem v hv

theorem filterMap_edges (xs : List (Nat × Alphabet × Transition Nat)) (n : Nat) :
    (xs.map A.edgeStmt).filterMap (DotStmt.attrs n) = [] := by
  induction xs with
  | nil => rfl
  | cons x xs ih => simp only [List.map_cons, List.filterMap_cons, ih]; rfl

theorem filterMap_nodes (f : Nat → Nat) (g : Nat → Bool × Bool) (z : Nat → Bool) {ss : List Nat} (hn : ss.Nodup) (hf : ∀ s ∈ ss, ∀ s' ∈ ss, f s = f s' → s = s')
    {s : Nat} (hs : s ∈ ss) :
    (ss.map fun s => DotStmt.node (f s) (g s).1 (g s).2 (z s)).filterMap (DotStmt.attrs (f s)) = [g s] := by
  induction ss with
  | nil => cases hs
  | cons x ss ih =>
    rw [List.nodup_cons] at hn
    simp only [List.map_cons, List.filterMap_cons, DotStmt.attrs]
    rcases List.mem_cons.1 hs with rfl | hs'
    · simp only [if_true, List.cons.injEq, true_and]
      rw [List.filterMap_eq_nil_iff]
      rintro y hy
      obtain ⟨u, hu, rfl⟩ := List.mem_map.1 hy
      have : f u ≠ f s := fun he => hn.1 (hf u (List.mem_cons_of_mem _ hu) s (by simp) he ▸ hu)
      simp [this, DotStmt.attrs]
    · have : f x ≠ f s := fun he => hn.1 (hf x (by simp) s (List.mem_cons_of_mem _ hs') he ▸ hs')
      simp only [this, if_false]
      exact ih hn.2 (fun s hs s' hs' => hf s (List.mem_cons_of_mem _ hs) s' (List.mem_cons_of_mem _ hs')) hs'

theorem nodeAttrs_show (h : A.Printable) {s : Nat} (hs : s ∈ A.states) :
    nodeAttrs (A.nodeStmts ++ A.printed.map A.edgeStmt) (A.states.idxOf s + 1) = (decide (s ∈ A.init), (A.st s).isMatch) := by
  rw [nodeAttrs, List.filterMap_append, filterMap_edges, List.append_nil]
  have := filterMap_nodes (fun s => A.states.idxOf s + 1) (fun s => (decide (s ∈ A.init), (A.st s).isMatch))
    (fun s => (A.st s).zeroDuration) h.nodup (fun s hs s' _ he => (List.idxOf_inj hs).1 (by simpa using he)) hs
  rw [TA.nodeStmts, this]
  rfl

/-- The graph of the printed file. -/
def TA.graph (A : TA Nat) : DotGraph :=
  ⟨A.names.map (nodeAttrs (A.nodeStmts ++ A.printed.map A.edgeStmt)), A.printed.map (A.dotEdge A.names)⟩

theorem parse_show (h : A.Printable) : parseBoostTA (A.nodeStmts ++ A.printed.map A.edgeStmt) = .ok A.graph := by
  have h1 : readEdges A.names (A.nodeStmts ++ A.printed.map A.edgeStmt) = .ok (A.printed.map (A.dotEdge A.names)) := by
    rw [TA.nodeStmts, readEdges_nodes _ _ _ fun s => ⟨_, _, _, _, rfl⟩]
    apply readEdges_edges
    rintro ⟨s, a, e⟩ hx
    obtain ⟨hs, he⟩ := (TA.mem_printed h).1 hx
    exact ⟨h.guards s hs a e he, h.resets s hs a e he⟩
  unfold TA.names at h1
  simp only [parseBoostTA, h1]
  rfl

theorem graph_vertex (h : A.Printable) {s : Nat} (hs : s ∈ A.states) :
    A.graph.vertices[A.vertex s]? = some (decide (s ∈ A.init), (A.st s).isMatch) := by
  have hlt := TA.vertex_lt h hs
  rw [TA.graph, List.getElem?_map, List.getElem?_eq_getElem hlt, Option.map_some]
  have : A.names[A.vertex s] = A.states.idxOf s + 1 := List.getElem_idxOf hlt
  rw [this, nodeAttrs_show h hs]

theorem graph_length : A.graph.vertices.length = A.names.length := by simp [TA.graph]

theorem graph_edges (h : A.Printable) {e : DotEdge} :
    e ∈ A.graph.edges ↔ ∃ s ∈ A.states, ∃ a, ∃ t ∈ A.edges s a, ∃ q ∈ A.states, t.target = some q ∧
      e = ⟨A.vertex s, A.vertex q, a, t.resets, t.guard⟩ := by
  simp only [TA.graph, List.mem_map]
  constructor
  · rintro ⟨⟨s, a, t⟩, hx, rfl⟩
    obtain ⟨hs, he⟩ := (TA.mem_printed h).1 hx
    obtain ⟨q, hq, ht⟩ := h.target s hs a t he
    refine ⟨s, hs, a, t, he, q, hq, ht, ?_⟩
    simp [TA.dotEdge, ht, TA.vertex]
  · rintro ⟨s, hs, a, t, he, q, hq, ht, rfl⟩
    refine ⟨(s, a, t), (TA.mem_printed h).2 ⟨hs, he⟩, ?_⟩
    simp [TA.dotEdge, ht, TA.vertex]

theorem graph_ok (h : A.Printable) : A.graph.Ok := by
  intro e he
  obtain ⟨s, hs, a, t, -, q, hq, -, rfl⟩ := (graph_edges h).1 he
  rw [graph_length]
  exact ⟨TA.vertex_lt h hs, TA.vertex_lt h hq⟩

variable {K : Type} [Field K] [LinearOrder K]

theorem graph_reads (h : A.Printable) {s : Nat} (hs : s ∈ A.states) (r : Nat → K) (w : TWord K) (v' : Nat) :
    A.graph.Reads (A.vertex s) r w v' ↔ ∃ s' ∈ A.states, A.vertex s' = v' ∧ A.Reads s r w s' := by
  induction w generalizing s r with
  | nil =>
    constructor
    · intro (e : A.vertex s = v'); exact ⟨s, hs, e, rfl⟩
    · rintro ⟨s', -, e, (e' : s = s')⟩; show A.vertex s = v'; rw [← e, e']
  | cons x w ih =>
    obtain ⟨a, t⟩ := x
    simp only [TA.Reads, DotGraph.Reads]
    constructor
    · rintro ⟨e, he, hsrc, hl, hg, hr⟩
      obtain ⟨s1, hs1, a1, t1, ht1, q, hq, htq, rfl⟩ := (graph_edges h).1 he
      have := TA.vertex_inj h hs1 hs hsrc
      subst this
      simp only at hl
      subst hl
      obtain ⟨s', hs', hv, hr'⟩ := (ih hq _).1 hr
      exact ⟨s', hs', hv, t1, ht1, q, htq, hg, hr'⟩
    · rintro ⟨s', hs', hv, t1, ht1, q, htq, hg, hr⟩
      obtain ⟨q', hq', htq'⟩ := h.target s hs a t1 ht1
      rw [htq] at htq'
      cases htq'
      exact ⟨_, (graph_edges h).2 ⟨s, hs, a, t1, ht1, q, hq', htq, rfl⟩, rfl, rfl, hg, (ih hq' _).2 ⟨s', hs', hv, hr⟩⟩

theorem graph_accepts (h : A.Printable) (t0 : K) (w : TWord K) : A.graph.AcceptsFrom t0 w ↔ A.AcceptsFrom t0 w := by
  constructor
  · rintro ⟨v, m, hv, v', i, hr, hv'⟩
    have hlt := (List.getElem?_eq_some_iff.1 hv).1
    rw [graph_length] at hlt
    obtain ⟨s, hs, rfl⟩ := TA.vertex_surj h hlt
    rw [graph_vertex h hs] at hv
    obtain ⟨s', hs', rfl, hr'⟩ := (graph_reads h hs _ _ _).1 hr
    rw [graph_vertex h hs'] at hv'
    simp only [Option.some.injEq, Prod.mk.injEq, decide_eq_true_eq] at hv hv'
    exact ⟨s, hv.1, s', hr', hv'.2⟩
  · rintro ⟨s, hs, s', hr, hm⟩
    have hst := h.init s hs
    have hs' : s' ∈ A.states := by
      clear hm hs
      generalize (fun _ => t0 : Nat → K) = r at hr
      induction w generalizing s r with
      | nil => exact (show s = s' from hr) ▸ hst
      | cons x w ih =>
        obtain ⟨t1, ht1, q, hq, -, hr⟩ := hr
        obtain ⟨q', hq', htq'⟩ := h.target s hst _ t1 ht1
        rw [hq] at htq'
        cases htq'
        exact ih q hq' _ hr
    refine ⟨A.vertex s, (A.st s).isMatch, ?_, A.vertex s', decide (s' ∈ A.init), (graph_reads h hst _ _ _).2 ⟨s', hs', rfl, hr⟩, ?_⟩
    · rw [graph_vertex h hst]; simp [hs]
    · rw [graph_vertex h hs', hm]

end roundtrip

end Verif
