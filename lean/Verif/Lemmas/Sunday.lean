import Verif.Model.Monaa
import Verif.Spec.Skip
import Verif.Lemmas.ZA
import Verif.Lemmas.ZAGraph

set_option linter.unusedSectionVars false

/-! The quick search table is right if `removeDeadStates` keeps the live states. -/

namespace Verif

variable {S K : Type}

theorem mem_letters {c : Nat} : c ∈ letters ↔ 1 ≤ c ∧ c < 127 := by
  unfold letters
  simp only [List.mem_map, List.mem_range]
  constructor
  · rintro ⟨a, h, rfl⟩
    exact ⟨Nat.le_add_left 1 a, Nat.add_lt_add_right h 1⟩
  · rintro ⟨h1, h2⟩
    exact ⟨c - 1, by omega, Nat.sub_add_cancel h1⟩

/-! ### the table from the sets -/

theorem foldl_set_length (cs : List Alphabet) (v : Nat) (d : List Nat) :
    (cs.foldl (fun d c => d.set c v) d).length = d.length := by
  induction cs generalizing d with
  | nil => rfl
  | cons c cs ih => rw [List.foldl_cons, ih, List.length_set]

theorem foldl_set_get (cs : List Alphabet) (v : Nat) (d : List Nat) (a : Nat) (ha : a < d.length) :
    (cs.foldl (fun d c => d.set c v) d)[a]? = if a ∈ cs then some v else d[a]? := by
  induction cs generalizing d with
  | nil => simp
  | cons c cs ih =>
    rw [List.foldl_cons, ih _ (by simpa using ha)]
    by_cases h1 : a ∈ cs
    · simp [h1]
    · by_cases h2 : a = c
      · subst h2
        simp [ha]
      · simp [h1, h2, List.getElem?_set, Ne.symm h2]

theorem sundayDelta_spec (sets : List (List Alphabet)) :
    (sundayDelta sets).length = 127 ∧ (∀ d ∈ sundayDelta sets, 1 ≤ d ∧ d ≤ sets.length + 1) ∧
      ∀ (p c d : Nat), c < 127 → p < sets.length → c ∈ sets.getD p [] → (sundayDelta sets)[c]? = some d →
        d ≤ sets.length - p := by
  set m := sets.length with hm
  have key : ∀ k, k ≤ m →
      let D := (List.range k).foldl (fun d i => (sets.getD i []).foldl (fun d c => d.set c (m - i)) d)
        (List.replicate 127 (m + 1))
      D.length = 127 ∧ (∀ (c : Nat) d, D[c]? = some d → 1 ≤ d ∧ d ≤ m + 1) ∧
        ∀ (p c d : Nat), c < 127 → p < k → c ∈ sets.getD p [] → D[c]? = some d → d ≤ m - p := by
    intro k
    induction k with
    | zero =>
      intro _
      refine ⟨by simp, ?_, ?_⟩
      · intro c d h
        have := List.mem_of_getElem? h
        simp only [List.range_zero, List.foldl_nil, List.mem_replicate] at this
        omega
      · intro p c d _ h
        omega
    | succ k ih =>
      intro hk
      obtain ⟨h1, h2, h3⟩ := ih (by omega)
      simp only at h1 h2 h3 ⊢
      rw [List.range_succ, List.foldl_append, List.foldl_cons, List.foldl_nil]
      refine ⟨by rw [foldl_set_length, h1], ?_, ?_⟩
      · intro c d h
        have hc : c < 127 := by
          obtain ⟨h', -⟩ := List.getElem?_eq_some_iff.1 h
          rw [foldl_set_length, h1] at h'
          exact h'
        rw [foldl_set_get _ _ _ _ (by rw [h1]; exact hc)] at h
        split_ifs at h
        · simp only [Option.some.injEq] at h
          omega
        · exact h2 c d h
      · intro p c d hc hp hmem h
        rw [foldl_set_get _ _ _ _ (by rw [h1]; exact hc)] at h
        split_ifs at h with hin
        · simp only [Option.some.injEq] at h
          omega
        · rcases Nat.lt_succ_iff_lt_or_eq.1 hp with hp | rfl
          · exact h3 p c d hc hp hmem h
          · exact absurd hmem hin
  obtain ⟨h1, h2, h3⟩ := key m (Nat.le_refl _)
  refine ⟨h1, ?_, h3⟩
  intro d hd
  obtain ⟨c, hc⟩ := List.mem_iff_getElem?.1 hd
  exact h2 c d hc

/-! ### the sets -/

theorem closureLoop_sub {Z : ZA S K} {alive : List Nat} {fuel : Nat} {waiting closure : List Nat} :
    ∀ i ∈ closure, i ∈ Z.closureLoop alive fuel waiting closure := by
  induction fuel generalizing waiting closure with
  | zero => intro i hi; exact hi
  | succ fuel ih =>
    rcases waiting with _ | ⟨k, waiting⟩
    · intro i hi
      exact hi
    · intro i hi
      unfold ZA.closureLoop
      refine ih i ?_
      exact ((ZA.visitSuccs_spec _ _ _).1 i).2 (Or.inl hi)

theorem self_mem_closure {Z : ZA S K} {alive : List Nat} {i : Nat} : i ∈ Z.epsilonClosure alive i :=
  closureLoop_sub i (by simp)

theorem mem_sundayStep {Z : ZA S K} {alive cs : List Nat} {i j : Nat} {c : Alphabet} (hi : i ∈ cs)
    (hc : 1 ≤ c ∧ c < 127) (he : Z.Edge i c j) (hj : j ∈ alive) : (c, j) ∈ sundayStep Z alive cs := by
  unfold sundayStep
  simp only [List.mem_flatMap, List.mem_map, List.mem_filter, decide_eq_true_eq]
  exact ⟨i, hi, i, self_mem_closure, c, mem_letters.2 hc, j, ⟨ZA.mem_succsOf.2 he, hj⟩, rfl⟩

theorem sundaySets_letters {Z : ZA S K} {alive cs : List Nat} {fuel : Nat} {sets : List (List Alphabet)}
    (h : sundaySets Z alive fuel cs = .ok sets) : 1 ≤ sets.length := by
  cases fuel with
  | zero => simp [sundaySets] at h
  | succ fuel =>
    unfold sundaySets at h
    split_ifs at h with h1 h2
    simp only at h
    split at h
    · cases h
      simp
    · simp only [bind, Except.bind] at h
      split at h
      · cases h
      · cases h
        simp

/-- Accepting paths through kept states use the letters of the sets. -/
theorem sundaySets_path {Z : ZA S K} {alive : List Nat} {fuel : Nat} {cs : List Nat}
    {sets : List (List Alphabet)} (h : sundaySets Z alive fuel cs = .ok sets) {i j : Nat} {l : List Alphabet}
    (hi : i ∈ cs) (hp : Z.Path i l j) (hm : Z.isMatch j = true) (hl : l ≠ [])
    (hlet : ∀ c ∈ l, 1 ≤ c ∧ c < 127) (hal : ∀ l₁ l₂ k, l = l₁ ++ l₂ → Z.Path i l₁ k → Z.Path k l₂ j → k ∈ alive) :
    sets.length ≤ l.length ∧ ∀ p c, p < sets.length → l[p]? = some c → c ∈ sets.getD p [] := by
  induction fuel generalizing cs sets i l with
  | zero => simp [sundaySets] at h
  | succ fuel ih =>
    cases hp with
    | nil => exact absurd rfl hl
    | @cons _ c k l _ e p =>
      unfold sundaySets at h
      split_ifs at h with h1
      simp only at h
      have hk : k ∈ alive := hal [c] l k rfl (.cons e (.nil k)) p
      have hmem := mem_sundayStep (alive := alive) hi (hlet c (by simp)) e hk
      split at h
      · cases h
        refine ⟨by simp, ?_⟩
        intro q c' hq hc'
        have : q = 0 := by simpa using hq
        subst this
        simp only [List.getElem?_cons_zero, Option.some.injEq] at hc'
        subst hc'
        simp only [List.getD_cons_zero]
        exact List.mem_map.2 ⟨_, hmem, rfl⟩
      · rename_i hany
        simp only [bind, Except.bind] at h
        split at h
        · cases h
        · rename_i rest hrest
          cases h
          have hl' : l ≠ [] := by
            rintro rfl
            cases p
            apply hany
            rw [List.any_eq_true]
            exact ⟨_, hmem, hm⟩
          obtain ⟨a1, a2⟩ := ih hrest (List.mem_map.2 ⟨_, hmem, rfl⟩) p hl'
            (fun c' hc' => hlet c' (by simp [hc'])) (by
              intro l₁ l₂ x hx p1 p2
              exact hal (c :: l₁) l₂ x (by simp [hx]) (.cons e p1) p2)
          refine ⟨by simpa using a1, ?_⟩
          intro q c' hq hc'
          cases q with
          | zero =>
            simp only [List.getElem?_cons_zero, Option.some.injEq] at hc'
            subst hc'
            simp only [List.getD_cons_zero]
            exact List.mem_map.2 ⟨_, hmem, rfl⟩
          | succ q =>
            simp only [List.getElem?_cons_succ] at hc'
            simp only [List.getD_cons_succ]
            exact a2 q c' (by simpa using hq) hc'

variable [Field K] [LinearOrder K] [IsStrictOrderedRing K] [DecidableEq S]

theorem complete_wellFormed {A : TA S} {fuel : Nat} {Z : ZA S K} (h : ta2za fuel A ZA.none = .ok Z) :
    Z.WellFormed := by
  obtain ⟨h1, -, -⟩ := ta2za_spec (complete_nil A) h
  refine ⟨?_, ?_⟩
  · unfold ta2za at h
    simp only at h
    split_ifs at h with hemp
    · cases h
      simp [ZA.none]
    · simp only [bind, Except.bind] at h
      split at h
      · cases h
      · rename_i N' hN'
        cases h
        have hle : (ZA.none (S := S) (K := K)).nodes.length = 0 := rfl
        intro i hi
        simp only [ZA.none, List.nil_append, List.length_nil, Nat.zero_add, List.map_id', List.mem_range] at hi hN' ⊢
        obtain ⟨hle, -⟩ := expandAll_spec (by
          intro i hi
          left
          simp only [List.length_map] at hi
          simpa using hi) hN'
        have := hle.length
        simp only [List.length_map] at this
        omega
  · intro i n hn p hp
    obtain ⟨hc, nj, hj, -⟩ := (h1.ok n (List.mem_of_getElem? hn)).edges p hp
    obtain ⟨hlt, -⟩ := List.getElem?_eq_some_iff.1 hj
    exact ⟨hc, hlt⟩

/-- The table is right if the live states of the zone automaton are kept. -/
theorem sundayTable_spec {A : TA S} {fuel m : Nat} {delta : List Nat} {ends : List Alphabet}
    (h : sundayTable K fuel A = .ok (m, delta, ends))
    (hlive : ∀ (Z : ZA S K) alive, ta2za fuel A ZA.none = .ok Z → Z.liveStates fuel = .ok alive →
      ∀ i, Z.Reachable i → Z.Live i → i ∈ alive) :
    1 ≤ m ∧ delta.length = 127 ∧ (∀ d ∈ delta, 1 ≤ d ∧ d ≤ m + 1) ∧
      ∀ (t : K) (u : TWord K), u ≠ [] → LettersOk u → (∀ e ∈ u, t < e.2) →
        u.Pairwise (fun a b => a.2 < b.2) → ∀ s₀ ∈ A.init, ∀ s, A.Reads s₀ (fun _ => t) u s →
        (A.st s).isMatch = true → m ≤ u.length ∧ (∀ e, u[m - 1]? = some e → e.1 ∈ ends) ∧
          ∀ p e d, p < m → u[p]? = some e → delta[e.1]? = some d → d ≤ m - p := by
  unfold sundayTable at h
  simp only [bind, Except.bind] at h
  split at h
  · cases h
  · rename_i Z hZ
    split at h
    · cases h
    · rename_i alive halive
      split at h
      · cases h
      · rename_i sets hsets
        simp only [Except.ok.injEq, Prod.mk.injEq] at h
        obtain ⟨rfl, rfl, rfl⟩ := h
        obtain ⟨d1, d2, d3⟩ := sundayDelta_spec sets
        have hlen := sundaySets_letters hsets
        refine ⟨hlen, d1, d2, ?_⟩
        intro t u hne hlet ht hsort s₀ hs₀ s hr hmatch
        obtain ⟨hC, hinit, hmatchN⟩ := ta2za_spec (complete_nil A) hZ
        obtain ⟨i, n, hi, hs, hv, hii⟩ := hinit s₀ hs₀
        obtain ⟨j, nj, hp, hnj, hsj⟩ := complete_reads hC ht hsort hi hs (now := t) (r := fun _ => t)
          (by simpa using hv) hr
        have hmj : Z.isMatch j = true := by
          refine ZA.isMatch_iff.2 ⟨nj, hnj, ?_⟩
          rw [hmatchN rfl nj (List.mem_of_getElem? hnj), hsj]
          exact hmatch
        have hii' := hii rfl
        have hal : ∀ l₁ l₂ k, u.map (·.1) = l₁ ++ l₂ → Z.Path i l₁ k → Z.Path k l₂ j → k ∈ alive :=
          fun l₁ l₂ k _ p1 p2 => hlive Z alive hZ halive k ⟨i, hii', l₁, p1⟩
            (ZA.live_of_path p2 (ZA.live_of_isMatch hmj))
        obtain ⟨a1, a2⟩ := sundaySets_path hsets (i := i) (by
            rw [List.mem_filter]
            exact ⟨hii', decide_eq_true (hal [] _ i rfl (.nil i) hp)⟩) hp hmj (by simpa using hne) (by
            intro c hc
            obtain ⟨e, he, rfl⟩ := List.mem_map.1 hc
            exact hlet e he) hal
        have a2' : ∀ p e, p < sets.length → u[p]? = some e → e.1 ∈ sets.getD p [] := by
          intro p e hp he
          exact a2 p e.1 hp (by rw [List.getElem?_map, he]; rfl)
        refine ⟨by simpa using a1, ?_, ?_⟩
        · intro e he
          exact a2' _ e (by omega) he
        · intro p e d hp he hd
          exact d3 p e.1 d (hlet e (List.mem_of_getElem? he)).2 hp (a2' p e hp he) hd

/-! ### removing the end marker -/

theorem find_filter_ne {m : Next S} {a b : Alphabet} (h : a ≠ b) :
    Next.find (m.filter fun p => p.1 != b) a = Next.find m a := by
  unfold Next.find
  induction m with
  | nil => rfl
  | cons p m ih =>
    rw [List.filter_cons]
    by_cases h1 : p.1 = b
    · rw [if_neg (by simp [h1]), ih, List.find?_cons]
      have : (p.1 == a) = false := by
        rw [h1]
        simpa using Ne.symm h
      rw [this]
    · rw [if_pos (by simpa using h1), List.find?_cons, List.find?_cons]
      by_cases h2 : p.1 == a
      · rw [h2]
      · simp only [Bool.not_eq_true] at h2
        rw [h2]
        exact ih

theorem dropDollar_at (s : TAState S) {a : Alphabet} (ha : a ≠ dollar) :
    (dropDollar s).next.at' a = s.next.at' a := by
  unfold dropDollar
  split
  · rfl
  · unfold Next.at'
    simp only
    rw [find_filter_ne ha]

theorem dropDollar_isMatch {s : TAState S} {e : Transition S} (h : e ∈ s.next.at' dollar) :
    (dropDollar s).isMatch = true := by
  unfold dropDollar
  split
  · rename_i hn
    unfold Next.at' at h
    rw [hn] at h
    simp at h
  · rfl

/-- What the preparation does to an automaton. -/
def Prepared (A Ap : TA S) : Prop :=
  Ap.states = A.states ∧ Ap.init = A.states.filter (fun s => decide (s ∈ A.init)) ∧
    (∀ s, Ap.st s = dropDollar (A.st s)) ∧ Ap.maxC = A.maxC

theorem prepare_spec {addr : S → Nat} {A Ap : TA S} (h : prepare addr A = .ok Ap) : Prepared A Ap := by
  unfold prepare at h
  simp only at h
  split_ifs at h
  cases h
  exact ⟨rfl, rfl, fun _ => rfl, rfl⟩

theorem prepare_reads {A Ap : TA S} (h : Prepared A Ap) {u : TWord K}
    (hu : ∀ e ∈ u, e.1 ≠ dollar) {s s' : S} {r : Nat → K} : Ap.Reads s r u s' ↔ A.Reads s r u s' := by
  obtain ⟨-, -, hst, -⟩ := id h
  induction u generalizing s r with
  | nil => rfl
  | cons p u ih =>
    obtain ⟨a, t⟩ := p
    have he : Ap.edges s a = A.edges s a := by
      unfold TA.edges
      rw [hst]
      exact dropDollar_at _ (hu (a, t) (by simp))
    unfold TA.Reads
    rw [he]
    simp only [ih fun e he => hu e (by simp [he])]

theorem reads_append {A : TA S} {u v : TWord K} {s s' : S} {r : Nat → K} (h : A.Reads s r (u ++ v) s') :
    ∃ q r', A.Reads s r u q ∧ A.Reads q r' v s' := by
  induction u generalizing s r with
  | nil => exact ⟨s, r, rfl, h⟩
  | cons p u ih =>
    obtain ⟨a, t⟩ := p
    obtain ⟨e, he, q, hq, hg, h⟩ := h
    obtain ⟨q', r', h1, h2⟩ := ih h
    exact ⟨q', r', ⟨e, he, q, hq, hg, h1⟩, h2⟩

/-- What accepts with the end marker has a run of the prepared automaton to an accepting state. -/
theorem prepare_fits {A Ap : TA S} (hA : A.Closed) (h : Prepared A Ap) {u : TWord K}
    (hu : ∀ e ∈ u, e.1 ≠ dollar) {t t' : K} (hacc : A.AcceptsFrom t (u ++ [(dollar, t')])) :
    ∃ s₀ ∈ Ap.init, ∃ s, Ap.Reads s₀ (fun _ => t) u s ∧ (Ap.st s).isMatch = true := by
  obtain ⟨s₀, hs₀, s', hr, -⟩ := hacc
  obtain ⟨q, r', h1, h2⟩ := reads_append hr
  obtain ⟨e, he, -⟩ := h2
  obtain ⟨-, hinit, hst, -⟩ := id h
  refine ⟨s₀, ?_, q, (prepare_reads h hu).2 h1, ?_⟩
  · rw [hinit, List.mem_filter]
    exact ⟨hA.1 s₀ hs₀, by simpa using hs₀⟩
  · rw [hst]
    exact dropDollar_isMatch he

theorem sunday_sound {A Ap : TA S} (hA : A.Closed) (h : Prepared A Ap) {fuel : Nat}
    {T : Tables S} (ht : sundayTable K fuel Ap = .ok (T.m, T.delta, T.endChars))
    (hlive : ∀ (Z : ZA S K) alive, ta2za fuel Ap ZA.none = .ok Z → Z.liveStates fuel = .ok alive →
      ∀ i, Z.Reachable i → Z.Live i → i ∈ alive) : SundaySound K A T := by
  obtain ⟨h1, h2, h3, h4⟩ := sundayTable_spec ht hlive
  have key : ∀ (t : K) u t', A.Fits t u t' → T.m ≤ u.length ∧ (∀ e, u[T.m - 1]? = some e → e.1 ∈ T.endChars) ∧
      ∀ p e d, p < T.m → u[p]? = some e → T.delta[e.1]? = some d → d ≤ T.m - p := by
    intro t u t' hf
    obtain ⟨s₀, hs₀, s, hr, hm⟩ := prepare_fits hA h hf.noMarker hf.accepts
    exact h4 t u hf.nonempty hf.letters hf.start.2 hf.sorted s₀ hs₀ s hr hm
  exact ⟨h1, h2, h3, fun t u t' hf => (key t u t' hf).1, fun t u t' hf => (key t u t' hf).2.1,
    fun t u t' hf => (key t u t' hf).2.2⟩

/-! ### patterns without cycles -/

theorem mem_outEdges_iff {A : TA S} (hA : A.MapOk) {s : S} {a : Alphabet} {e : Transition S} :
    (a, e) ∈ outEdges A s ↔ e ∈ A.edges s a := by
  refine ⟨fun h => ?_, mem_outEdges⟩
  unfold outEdges at h
  simp only [List.mem_flatMap, List.mem_map, Prod.mk.injEq] at h
  obtain ⟨p, hp, e', he', rfl, rfl⟩ := h
  exact (Next.mem_at'_iff (hA s)).2 ⟨p.2, hp, he'⟩

theorem live_of_acyclic {A : TA S} {fuel : Nat} {rank : S → Nat}
    (hrank : ∀ s c e q, (c, e) ∈ outEdges A s → e.target = some q → rank q < rank s) :
    ∀ (Z : ZA S K) alive, ta2za fuel A ZA.none = .ok Z → Z.liveStates fuel = .ok alive →
      ∀ i, Z.Reachable i → Z.Live i → i ∈ alive := by
  intro Z alive hZ halive i hr hl
  obtain ⟨hC, -, -⟩ := ta2za_spec (complete_nil A) hZ
  refine ZA.liveStates_complete (complete_wellFormed hZ)
    (rank := fun i => match Z.nodes[i]? with | none => 0 | some n => rank n.s) ?_ halive hr hl
  rintro i c j ⟨n, hn, hp⟩
  obtain ⟨-, nj, hj, e, he, ht⟩ := (hC.ok n (List.mem_of_getElem? hn)).edges _ hp
  right
  simp only at hj
  simp only [hn, hj]
  exact hrank _ _ _ _ he ht

end Verif
