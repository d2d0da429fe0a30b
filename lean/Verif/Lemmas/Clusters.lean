import Verif.Lemmas.Dead
import Verif.Lemmas.ZARow
import Verif.Spec.Loops
import Mathlib.Data.Prod.Lex

set_option linter.unusedSectionVars false

/-! Automata with cycles of several states, without guards and resets: no live state is removed from the zone automaton. -/

namespace Verif

variable {S K : Type} [Field K] [LinearOrder K] [IsStrictOrderedRing K] [DecidableEq S]

open Bnd Zone

theorem elapse_eq {a b : Zone K} (h : a.beq b = true) (hM : a.M = b.M) : a.elapse = b.elapse := by
  simp only [Zone.beq, Bool.and_eq_true, decide_eq_true_eq, List.all_eq_true, List.mem_range, Bool.or_eq_true] at h
  obtain ⟨h1, h2⟩ := h
  have key : (Zone.build a.n a.M fun i j => if j = 0 then .inf false else a.get i j) =
      (Zone.build b.n b.M fun i j => if j = 0 then .inf false else b.get i j) := by
    rw [← h1, ← hM]
    unfold Zone.build
    congr 1
    refine List.map_congr_left fun i hi => List.map_congr_left fun j hj => ?_
    rw [List.mem_range] at hi hj
    simp only
    split_ifs with hj0
    · rfl
    · rcases h2 i hi j hj with h | h
      · exact absurd h.2 hj0
      · exact h
  unfold Zone.elapse
  simp only [key]

theorem pass_congr {a b : Zone K} (h : a.elapse = b.elapse) : a.pass = b.pass := by
  unfold Zone.pass
  rw [h]

/-- A transition without guard and resets can always be taken. -/
theorem zoneSucc_free {n : Nat} {z : Zone K} (hz : z.Canon) {e : Transition S} (hg : e.guard = []) (hr : e.resets = []) :
    zoneSucc n z.elapse e = .ok (some z.pass) := by
  obtain ⟨v, hv⟩ := canon_nonempty hz
  have hs : z.elapse.isSatisfiable.1 = true := isSatisfiable_iff'.2 ⟨_, sat_elapse hv zero_lt_one⟩
  unfold zoneSucc
  rw [hg, hr]
  simp only [zoneGuard, zoneReset, bind, Except.bind, isSatisfiable_snd]
  rw [if_pos hs]
  rfl

/-- The order of the successors is the order of the edges if there is one label only. -/
theorem succs_single {Z : ZA S K} {i : Nat} {n : ZNode S K} (hn : Z.nodes[i]? = some n) {c : Alphabet} (hc : c < 127)
    (h : ∀ p ∈ n.next, p.1 = c) : Z.succs i = n.next.map (·.2) := by
  unfold ZA.succs
  rw [hn]
  simp only
  congr 1
  generalize n.next = l at h
  induction l with
  | nil => rfl
  | cons p l ih =>
    have hp : p.1 = c := h p (by simp)
    have ih' := ih fun x hx => h x (by simp [hx])
    rw [List.filter_cons_of_pos (by simp [hp, hc]), List.foldr_cons, ih']
    rcases l with _ | ⟨q, l⟩
    · rfl
    · rw [ZA.insertLabel, if_pos (by rw [hp, h q (by simp)])]

theorem Row.label {A : TA S} {N : List (ZNode S K)} {zone : Zone K} {c : Alphabet} {es : List (Transition S)} {nx : List (Alphabet × Nat)}
    (h : Row A N zone (es.map fun e => (c, e)) nx) : ∀ p ∈ nx, p.1 = c := by
  generalize hl : es.map (fun e => (c, e)) = l at h
  induction h generalizing es with
  | nil => simp
  | skip h r ih =>
    rcases es with _ | ⟨e, es⟩
    · simp at hl
    · simp only [List.map_cons, List.cons.injEq] at hl
      exact ih hl.2
  | take hq hz hj r ih =>
    rcases es with _ | ⟨e, es⟩
    · simp at hl
    · simp only [List.map_cons, List.cons.injEq, Prod.mk.injEq] at hl
      intro p hp
      rcases List.mem_cons.1 hp with rfl | hp
      · exact hl.1.1.symm
      · exact ih hl.2 p hp

theorem exists_last {α : Type} {p : α → Prop} : ∀ {l : List α}, (∃ x ∈ l, p x) →
    ∃ pre x post, l = pre ++ x :: post ∧ p x ∧ ∀ y ∈ post, ¬ p y
  | [], h => by simp at h
  | a :: l, h => by
    by_cases hl : ∃ x ∈ l, p x
    · obtain ⟨pre, x, post, rfl, h1, h2⟩ := exists_last hl
      exact ⟨a :: pre, x, post, rfl, h1, h2⟩
    · obtain ⟨x, hx, hp⟩ := h
      rcases List.mem_cons.1 hx with rfl | hx
      · exact ⟨[], x, l, rfl, hp, fun y hy hc => hl ⟨y, hy, hc⟩⟩
      · exact absurd ⟨x, hx, hp⟩ hl

theorem expandAll_states {A : TA S} (hA : A.Closed) (hM : A.MapOk) {fuel : Nat} {N N' : List (ZNode S K)} {conf : List Nat}
    (hN : ∀ n ∈ N, n.s ∈ A.states) (h : expandAll A fuel N conf = .ok N') : ∀ n ∈ N', n.s ∈ A.states := by
  have hpush : ∀ (N : List (ZNode S K)) (i : Nat) (c : Alphabet) (j : Nat), (∀ n ∈ N, n.s ∈ A.states) → ∀ n ∈ pushEdge N i c j, n.s ∈ A.states := by
    intro N i c j hN n hn
    obtain ⟨k, hk⟩ := List.mem_iff_getElem?.1 hn
    obtain ⟨n0, hk0, e, -⟩ := pushEdge_get hk
    rw [e]
    exact hN n0 (List.mem_of_getElem? hk0)
  refine expandAll_inv (fun N => ∀ n ∈ N, n.s ∈ A.states) ?_ ?_ hN h
  · intro N i c e q z j n hN hi he ht hz hc hj
    exact hpush _ _ _ _ hN
  · intro N i c e q z n hN hi he ht hz hc hj
    refine hpush _ _ _ _ fun n' hn' => ?_
    rcases List.mem_append.1 hn' with h1 | h1
    · exact hN n' h1
    · simp only [List.mem_singleton] at h1
      subst h1
      exact hA.2 n.s (hN n (List.mem_of_getElem? hi)) c e ((mem_outEdges_iff hM).1 he) q ht

theorem ta2za_states {A : TA S} (hA : A.Closed) (hM : A.MapOk) {fuel : Nat} {Z : ZA S K} (h : ta2za fuel A ZA.none = .ok Z) :
    ∀ n ∈ Z.nodes, n.s ∈ A.states := by
  unfold ta2za at h
  simp only at h
  split_ifs at h with hemp
  · cases h
    intro n hn
    simp [ZA.none] at hn
  · simp only [bind, Except.bind] at h
    split at h
    · cases h
    · rename_i N' hN'
      simp only [Except.ok.injEq] at h
      subst h
      refine expandAll_states hA hM ?_ hN'
      intro n hn
      rcases List.mem_append.1 hn with hn | hn
      · simp [ZA.none] at hn
      · obtain ⟨s, hs, rfl⟩ := List.mem_map.1 hn
        exact hA.1 s (List.mem_filter.1 hs).1

section cluster
variable {A : TA S} {level dist : S → Nat}
  (hA : ∀ s ∈ A.states, ((A.st s).next = [] ∧ level s = 0) ∨
    ((A.st s).isMatch = false ∧ 0 < level s ∧ ∃ c es, (A.st s).next = [(c, es)] ∧
      (∀ e ∈ es, ∀ q, e.target = some q → level q < level s ∨ (level q = level s ∧ e.guard = [] ∧ e.resets = [])) ∧
      (es.Pairwise fun e f => TA.Leaves level (level s) e → TA.Leaves level (level s) f) ∧
      ((∃ e ∈ es, TA.Leaves level (level s) e) ∨
        ∃ es' e q, es = es' ++ [e] ∧ e.target = some q ∧ level q = level s ∧ dist q < dist s) ∧
      ∀ t ∈ A.states, ∀ c' fs, level t = level s → (A.st t).next = [(c', fs)] →
        ((∃ f ∈ fs, TA.Leaves level (level s) f) → ∀ e ∈ es, TA.Leaves level (level s) e → e ∈ fs) ∧ (c = dollar → c' = dollar)))
  {fuel : Nat} {Z : ZA S K} (hZ : ta2za fuel A ZA.none = .ok Z) (hS : ∀ n ∈ Z.nodes, n.s ∈ A.states)

include hA hZ hS

theorem outEdges_single {s : S} {c : Alphabet} {es : List (Transition S)} (h : (A.st s).next = [(c, es)]) :
    outEdges A s = es.map fun e => (c, e) := by
  simp [outEdges, h]

/-- A transition of the level which can be taken in a zone, to a live state of the zone automaton. -/
def Exit (A : TA S) (level : S → Nat) (Z : ZA S K) (L : Nat) (now : Zone K) (e : Transition S) (k : Nat) : Prop :=
  (∃ u ∈ A.states, ∃ c es, level u = L ∧ (A.st u).next = [(c, es)] ∧ e ∈ es) ∧ TA.Leaves level L e ∧
    ∃ q z, e.target = some q ∧ zoneSucc A.clockSize now e = .ok (some z) ∧ findNode Z.nodes q z = some k ∧ Z.Live k

/-- A live state whose zone does not change leaves its level with this zone. -/
theorem exit_of_live {i : Nat} {n : ZNode S K} (hn : Z.nodes[i]? = some n) (hl : Z.Live i) (hp : Passed n.zone) (hL : 0 < level n.s) :
    ∃ e k, Exit A level Z (level n.s) n.zone.elapse e k := by
  have hC := ta2za_zonesCanon (Z := (ZA.none : ZA S K)) (fun n hn => by simp [ZA.none] at hn) hZ
  have hm := (ta2za_spec (complete_nil A) hZ).2.2 rfl
  obtain ⟨l, j, nj, hpath, hj, hmj⟩ := hl
  induction hpath generalizing n with
  | nil i =>
    rw [hn] at hj
    simp only [Option.some.injEq] at hj
    rw [← hj] at hmj
    rcases hA n.s (hS n (List.mem_of_getElem? hn)) with ⟨-, h0⟩ | ⟨h0, -⟩
    · omega
    · rw [hm n (List.mem_of_getElem? hn), h0] at hmj
      cases hmj
  | @cons i c k l j e p ih =>
    have hlk : Z.Live k := ⟨l, j, nj, p, hj, hmj⟩
    obtain ⟨n', hn', hck⟩ := e
    rw [hn] at hn'
    cases hn'
    have hrow := ta2za_row hZ i n hn
    rcases hA n.s (hS n (List.mem_of_getElem? hn)) with ⟨-, h0⟩ | ⟨-, -, c', es, hnext, hlev, -⟩
    · omega
    · rw [outEdges_single hA hZ hS hnext] at hrow
      obtain ⟨pre, post, hsplit⟩ := List.append_of_mem hck
      rw [hsplit] at hrow
      obtain ⟨es1, e, es2, q, z, he, hq, hz, hf, -, -⟩ := hrow.split
      have hmem : e ∈ es := by
        have : (c, e) ∈ es.map fun e => (c', e) := by simp [he]
        simp only [List.mem_map, Prod.mk.injEq] at this
        obtain ⟨e', h1, -, rfl⟩ := this
        exact h1
      rcases hlev e hmem q hq with hlt | ⟨heq, hg, hr⟩
      · exact ⟨e, k, ⟨n.s, hS n (List.mem_of_getElem? hn), c', es, rfl, hnext, hmem⟩, ⟨q, hq, hlt⟩, q, z, hq, hz, hf, hlk⟩
      · have hz' := zoneSucc_plain hg hr hz
        subst hz'
        obtain ⟨nk, hk, hks, hkb⟩ := findNode_some hf
        obtain ⟨-, c2, c3⟩ := hC n (List.mem_of_getElem? hn)
        obtain ⟨-, d2, d3⟩ := hC nk (List.mem_of_getElem? hk)
        have hpk : Passed nk.zone := passed_of_beq c2 c3 d3 hkb
        have hel : nk.zone.elapse = n.zone.elapse :=
          (elapse_eq hkb (by rw [d3, pass_M, c3])).trans (elapse_eq hp (by rw [pass_M]))
        have := ih hk hpk (by rw [hks, heq]; exact hL) hj
        rw [hks, heq, hel] at this
        exact this

/-- All the states of the level with the same zone are live. -/
theorem live_of_exit {L : Nat} {now : Zone K} {e : Transition S} {k : Nat} (hL : 0 < L) (hx : Exit A level Z L now e k) :
    ∀ (d x : Nat) (nx : ZNode S K), Z.nodes[x]? = some nx → dist nx.s = d → level nx.s = L → nx.zone.elapse = now → Passed nx.zone →
      Z.Live x := by
  have hC := ta2za_zonesCanon (Z := (ZA.none : ZA S K)) (fun n hn => by simp [ZA.none] at hn) hZ
  obtain ⟨⟨u, huS, cu, eu, hu, hun, heu⟩, hle, q, z, hq, hz, hf, hk⟩ := hx
  intro d
  induction d using Nat.strong_induction_on with
  | _ d ih =>
    intro x nx hnx hd hlev hel hp
    have hrow := ta2za_row hZ x nx hnx
    rcases hA nx.s (hS nx (List.mem_of_getElem? hnx)) with ⟨-, h0⟩ | ⟨-, -, c', es, hnext, hl, -, hor, -⟩
    · omega
    · rw [outEdges_single hA hZ hS hnext] at hrow
      rcases hor with hex | ⟨es', e', q', hes, hq', hlq, hdq⟩
      · have hsame : e ∈ es := by
          rcases hA u huS with ⟨h0, -⟩ | ⟨-, -, c1, es1, hn1, -, -, -, huni⟩
          · rw [h0] at hun
            cases hun
          · rw [hun] at hn1
            simp only [List.cons.injEq, Prod.mk.injEq, and_true] at hn1
            obtain ⟨rfl, rfl⟩ := hn1
            rw [hu] at huni
            exact (huni nx.s (hS nx (List.mem_of_getElem? hnx)) c' es hlev hnext).1 (by rw [← hlev]; exact hex) e heu hle
        obtain ⟨j, hj, hfj⟩ := hrow.of_mem (List.mem_map.2 ⟨e, hsame, rfl⟩) hq (by rw [hel]; exact hz)
        rw [hf] at hfj
        cases hfj
        exact ZA.live_of_edge ⟨nx, hnx, hj⟩ hk
      · have he' : e' ∈ es := by simp [hes]
        obtain ⟨hg, hr⟩ : e'.guard = [] ∧ e'.resets = [] := by
          rcases hl e' he' q' hq' with h | h
          · omega
          · exact h.2
        obtain ⟨-, c2, c3⟩ := hC nx (List.mem_of_getElem? hnx)
        obtain ⟨y, hy, hfy⟩ := hrow.of_mem (List.mem_map.2 ⟨e', he', rfl⟩) hq' (zoneSucc_free c2 hg hr)
        obtain ⟨ny, hny, hys, hyb⟩ := findNode_some hfy
        obtain ⟨-, d2, d3⟩ := hC ny (List.mem_of_getElem? hny)
        have hely : ny.zone.elapse = now := by
          rw [← hel]
          exact (elapse_eq hyb (by rw [d3, pass_M, c3])).trans (elapse_eq hp (by rw [pass_M]))
        exact ZA.live_of_edge ⟨nx, hnx, hy⟩
          (ih (dist q') (by omega) y ny hny (by rw [hys]) (by rw [hys, hlq, hlev]) hely (passed_of_beq c2 c3 d3 hyb))

open Classical in
/-- The rank of a state of the zone automaton. -/
noncomputable def clusterRank (level dist : S → Nat) (Z : ZA S K) (i : Nat) : ℕ ×ₗ (ℕ ×ₗ ℕ) :=
  match Z.nodes[i]? with
  | none => toLex (0, toLex (0, 0))
  | some n => toLex (level n.s, toLex (if Passed n.zone then 0 else 1, dist n.s))

theorem lastLower_of_clusters : ZA.LastLower Z (clusterRank level dist Z) := by
  have hC := ta2za_zonesCanon (Z := (ZA.none : ZA S K)) (fun n hn => by simp [ZA.none] at hn) hZ
  have hw := complete_wellFormed hZ
  intro i hl
  by_cases hm : Z.isMatch i = true
  · exact Or.inl hm
  right
  obtain ⟨c0, j0, hj0, ⟨n, hn, hp0⟩, hlj0⟩ := (ZA.live_step hl).resolve_left hm
  have hrow := ta2za_row hZ i n hn
  rcases hA n.s (hS n (List.mem_of_getElem? hn)) with ⟨h0, -⟩ | ⟨-, hpos, c, es, hnext, hlev, hpw, hor, huni⟩
  · exfalso
    have : outEdges A n.s = [] := by simp [outEdges, h0]
    rw [this] at hrow
    generalize n.next = nx at hrow hp0
    cases hrow
    simp at hp0
  rw [outEdges_single hA hZ hS hnext] at hrow
  have hlab := hrow.label
  have hc0 : c0 = c := hlab _ hp0
  subst hc0
  have hc127 : c0 < 127 := (hw.2 i n hn _ hp0).1
  obtain ⟨pre, ⟨c1, l⟩, post, hsplit, ⟨hli, hll⟩, hpost⟩ := exists_last (p := fun p : Alphabet × Nat => p.2 ≠ i ∧ Z.Live p.2)
    ⟨_, hp0, hj0, hlj0⟩
  have hc1 : c1 = c0 := hlab (c1, l) (by simp [hsplit])
  subst hc1
  refine ⟨pre.map (·.2), l, post.map (·.2), by rw [succs_single hn hc127 hlab, hsplit]; simp, hll, ?_, ?_⟩
  swap
  · intro j hj
    obtain ⟨p, hp, rfl⟩ := List.mem_map.1 hj
    have := hpost p hp
    tauto
  rw [hsplit] at hrow
  obtain ⟨es1, e, es2, q, z, he, hq, hz, hf, -, hr2⟩ := hrow.split
  -- the transitions before and after
  obtain ⟨f1, f2', hfs, hf1, hf2⟩ := List.map_eq_append_iff.1 he
  obtain ⟨e', f2, hf2', hee, hf2''⟩ := List.map_eq_cons_iff.1 hf2
  simp only [Prod.mk.injEq, true_and] at hee
  subst hee hf2'
  rw [← hf2''] at hr2
  have hmem : e' ∈ es := by simp [hfs]
  obtain ⟨nl, hnl, hls, hlb⟩ := findNode_some hf
  obtain ⟨-, a2, a3⟩ := hC n (List.mem_of_getElem? hn)
  obtain ⟨-, b2, b3⟩ := hC nl (List.mem_of_getElem? hnl)
  unfold clusterRank
  rw [hn, hnl]
  simp only
  rw [Prod.Lex.toLex_lt_toLex]
  rcases hlev e' hmem q hq with hlt | ⟨heq, hg, hr⟩
  · left
    rw [hls]
    exact hlt
  right
  refine ⟨by rw [hls, heq], ?_⟩
  have hz' := zoneSucc_plain hg hr hz
  subst hz'
  have hpl : Passed nl.zone := passed_of_beq a2 a3 b3 hlb
  rw [if_pos hpl]
  by_cases hpn : Passed n.zone
  swap
  · rw [if_neg hpn, Prod.Lex.toLex_lt_toLex]
    exact Or.inl Nat.one_pos
  rw [if_pos hpn, Prod.Lex.toLex_lt_toLex]
  refine Or.inr ⟨rfl, ?_⟩
  rw [hls]
  obtain ⟨e0, k, hex⟩ := exit_of_live hA hZ hS hn hl hpn hpos
  have hex' := hex
  obtain ⟨⟨u, huS, cu, eu, hu, hun, heu⟩, hle, q0, z0, hq0, hz0, hf0, hk⟩ := hex'
  have hne' : ¬ TA.Leaves level (level n.s) e' := by
    rintro ⟨q1, h1, h2⟩
    rw [hq] at h1
    cases h1
    omega
  by_cases hs : ∃ f ∈ es, TA.Leaves level (level n.s) f
  · exfalso
    have he0 : e0 ∈ es := by
      rcases hA u huS with ⟨h0, -⟩ | ⟨-, -, c1, eu', hn1, -, -, -, huni'⟩
      · rw [h0] at hun
        cases hun
      · rw [hun] at hn1
        simp only [List.cons.injEq, Prod.mk.injEq, and_true] at hn1
        obtain ⟨rfl, rfl⟩ := hn1
        rw [hu] at huni'
        exact (huni' n.s (hS n (List.mem_of_getElem? hn)) c1 es rfl hnext).1 hs e0 heu hle
    have he2 : e0 ∈ f2 := by
      rw [hfs] at he0 hpw
      rcases List.mem_append.1 he0 with h | h
      · rw [List.pairwise_append] at hpw
        exact absurd (hpw.2.2 e0 h e' (by simp) hle) hne'
      · rcases List.mem_cons.1 h with rfl | h
        · exact absurd hle hne'
        · exact h
    obtain ⟨k', hk', hfk⟩ := hr2.of_mem (List.mem_map.2 ⟨e0, he2, rfl⟩) hq0 hz0
    rw [hf0] at hfk
    cases hfk
    have := hpost _ hk'
    simp only [not_and, ne_eq] at this
    by_cases hki : k = i
    · subst hki
      obtain ⟨nk, hnk, hks, -⟩ := findNode_some hf0
      rw [hn] at hnk
      cases hnk
      obtain ⟨q1, h1, h2⟩ := hle
      rw [hq0] at h1
      cases h1
      rw [hks] at h2
      omega
    · exact this hki hk
  · obtain ⟨es', e1, q1, hes, hq1, hlq1, hdq1⟩ := hor.resolve_left hs
    rcases List.eq_nil_or_concat f2 with rfl | ⟨f3, e2, rfl⟩
    · have : e' = e1 := by
        rw [hfs] at hes
        have := congrArg List.getLast? hes
        simpa using this
      subst this
      rw [hq] at hq1
      cases hq1
      exact hdq1
    · exfalso
      have : e2 = e1 := by
        rw [hfs, List.concat_eq_append, ← List.cons_append, ← List.append_assoc] at hes
        have := congrArg List.getLast? hes
        rw [List.getLast?_concat, List.getLast?_concat] at this
        simpa using this
      subst this
      have hmem1 : e2 ∈ es := by simp [hes]
      obtain ⟨hg1, hr1⟩ : e2.guard = [] ∧ e2.resets = [] := by
        rcases hlev e2 hmem1 q1 hq1 with h | h
        · omega
        · exact h.2
      obtain ⟨y, hy, hfy⟩ := hr2.of_mem (e := e2) (c := c1) (List.mem_map.2 ⟨e2, by simp, rfl⟩) hq1 (zoneSucc_free a2 hg1 hr1)
      obtain ⟨ny, hny, hys, hyb⟩ := findNode_some hfy
      obtain ⟨-, d2, d3⟩ := hC ny (List.mem_of_getElem? hny)
      have hely : ny.zone.elapse = n.zone.elapse :=
        (elapse_eq hyb (by rw [d3, pass_M, a3])).trans (elapse_eq hpn (by rw [pass_M]))
      have hly : Z.Live y := live_of_exit hA hZ hS hpos hex _ y ny hny rfl (by rw [hys, hlq1]) hely (passed_of_beq a2 a3 d3 hyb)
      have := hpost _ hy
      simp only [not_and, ne_eq] at this
      by_cases hyi : y = i
      · subst hyi
        rw [hn] at hny
        cases hny
        rw [hys] at hdq1
        omega
      · exact this hyi hly

end cluster

theorem live_of_clusters {A : TA S} {fuel : Nat} (hcl : A.Closed) (hM : A.MapOk) (h : A.OrderedLoops) :
    ∀ (Z : ZA S K) alive, ta2za fuel A ZA.none = .ok Z → Z.liveStates fuel = .ok alive →
      ∀ i, Z.Reachable i → Z.Live i → i ∈ alive := by
  obtain ⟨level, dist, hA⟩ := h
  intro Z alive hZ halive i hr hl
  exact ZA.liveStates_last (complete_wellFormed hZ) (lastLower_of_clusters hA hZ (ta2za_states hcl hM hZ)) halive hr hl

end Verif
