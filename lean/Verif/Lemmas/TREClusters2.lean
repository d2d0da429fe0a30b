import Verif.Lemmas.TREClusters

/-!
# Ordered loops: concatenation, choice, time restrictions
-/

namespace Verif

namespace TA

section two
variable {L R : TA Nat} (hst : L.st = R.st) (hL : L.Wf) (hR : R.Wf) (hd : ∀ s ∈ L.states, s ∉ R.states)
include hst hL hR hd

theorem LoopTA.concat (h1 : L.LoopTA) (h2 : R.LoopTA) (hnl : ∀ s ∈ L.init, (L.st s).isMatch = false)
    (hnull : ∀ s ∈ R.init, (R.st s).isMatch = false) : (L.concat2 R).removeStuckStates.LoopTA := by
  have o1 := h1.oneLetter
  have o2 := h2.oneLetter
  obtain ⟨h10, l1, d1, h1⟩ := h1
  obtain ⟨h20, l2, d2, h2⟩ := h2
  have hle : ∀ s ∈ R.states, l2 s ≤ (R.states.map l2).sum := fun s hs => List.single_le_sum (by simp) _ (List.mem_map.2 ⟨s, hs, rfl⟩)
  generalize hM : (R.states.map l2).sum = M at hle
  classical
  obtain ⟨level, hlev⟩ : ∃ level : Nat → Nat, level = fun s => if s ∈ L.states then l1 s + M else l2 s := ⟨_, rfl⟩
  obtain ⟨dist, hdist⟩ : ∃ dist : Nat → Nat, dist = fun s => if s ∈ L.states then d1 s else d2 s := ⟨_, rfl⟩
  have lL : ∀ s ∈ L.states, level s = l1 s + M := fun s hs => by rw [hlev]; exact if_pos hs
  have lR : ∀ s ∈ R.states, level s = l2 s := fun s hs => by rw [hlev]; exact if_neg fun h => hd s h hs
  have dL : ∀ s ∈ L.states, dist s = d1 s := fun s hs => by rw [hdist]; exact if_pos hs
  have dR : ∀ s ∈ R.states, dist s = d2 s := fun s hs => by rw [hdist]; exact if_neg fun h => hd s h hs
  -- transitions of the first automaton
  have clL : ∀ s ∈ L.states, ∀ c es, (L.st s).next = [(c, es)] → ∀ e ∈ es, ∀ q, e.target = some q → q ∈ L.states :=
    fun s hs c es hn e he q hq => hL.closed s hs c e (edge_mem hn he) q hq
  have clR : ∀ s ∈ R.states, ∀ c es, (R.st s).next = [(c, es)] → ∀ e ∈ es, ∀ q, e.target = some q → q ∈ R.states :=
    fun s hs c es hn e he q hq => hR.closed s hs c e (edge_mem hn he) q hq
  have leL : ∀ s ∈ L.states, ∀ e q, e.target = some q → q ∈ L.states → (Leaves level (level s) e ↔ Leaves l1 (l1 s) e) :=
    fun s hs e q hq hqL => leaves_congr hq hq (by rw [lL s hs, lL q hqL]; omega)
  have leR : ∀ s ∈ R.states, ∀ e q, e.target = some q → q ∈ R.states → (Leaves level (level s) e ↔ Leaves l2 (l2 s) e) :=
    fun s hs e q hq hqR => leaves_congr hq hq (by rw [lR s hs, lR q hqR])
  have leX : ∀ s ∈ L.states, 0 < l1 s → ∀ es, ∀ e ∈ L.exits R.init R.clockSize es, Leaves level (level s) e := by
    intro s hs hpos es e he
    obtain ⟨e', -, -, i, hi, rfl⟩ := mem_exits.1 he
    refine ⟨i, rfl, ?_⟩
    rw [lL s hs, lR i (hR.init i hi)]
    have := hle i (hR.init i hi)
    omega
  have accOf : ∀ s ∈ L.states, ∀ c es, (L.st s).next = [(c, es)] → ∀ e ∈ es, L.isAcc e = true → 0 < l1 s → Leaves l1 (l1 s) e := by
    intro s hs c es hn e he ha hpos
    obtain ⟨q, hq, hm⟩ := isAcc_iff.1 ha
    refine ⟨q, hq, ?_⟩
    rcases h1 q (clL s hs c es hn e he q hq) with h | h
    · omega
    · rw [hm] at h
      cases h.1
  refine ⟨concat_final_init hst hL hR hd o1 o2 hnl, level, dist, fun s hs => ?_⟩
  rw [concat_final_isMatch hst hL hR hd]
  rcases (concat_final_states hst hL hR hd o1 o2).1 hs with ⟨hsL, hm⟩ | hsR
  · right
    rw [if_pos hsL]
    rcases h1 s hsL with h | ⟨-, hpos, c, es, hn, ⟨ht, hc⟩, hsh⟩
    · rw [hm] at h
      cases h.1
    have ht' : ∀ e ∈ es, ∃ q, e.target = some q := fun e he => (ht e he).imp fun _ h => h.1
    refine ⟨rfl, by rw [lL s hsL]; omega, c, _, concat_final_left hst hL hR hd o1 o2 hsL hn ht', ⟨fun e he => ?_, .inr ?_⟩,
      fun t htt c' fs hlt hnt => ?_⟩
    · rcases List.mem_append.1 he with he | he
      · obtain ⟨q, hq, h⟩ := ht e (List.mem_filter.1 he).1
        refine ⟨q, hq, ?_⟩
        rw [lL s hsL, lL q (clL s hsL c es hn e (List.mem_filter.1 he).1 q hq)]
        rcases h with h | ⟨h, h'⟩
        · exact .inl (by omega)
        · exact .inr ⟨by omega, h'⟩
      · obtain ⟨q, hq, h⟩ := leX s hsL hpos es e he
        exact ⟨q, hq, .inl h⟩
    · refine ⟨fun e he => concat_isAcc_left hst hL hR hd hnull hsL hn he, ?_⟩
      rcases hc with ⟨⟨e, he, ha⟩, hrest⟩ | ⟨hno, hp, hq⟩
      · refine ⟨?_, .inl ?_⟩
        · rw [List.pairwise_append]
          refine ⟨?_, ?_, fun a _ b hb _ => leX s hsL hpos es b hb⟩
          · refine List.pairwise_of_forall_mem_list fun a ha' b _ hlv => ?_
            obtain ⟨ha1, ha2⟩ := List.mem_filter.1 ha'
            obtain ⟨q, hq⟩ := ht' a ha1
            rw [leL s hsL a q hq (clL s hsL c es hn a ha1 q hq)] at hlv
            rcases hrest a ha1 with h | h
            · rw [h] at ha2
              cases ha2
            · exact absurd hlv h
          · exact List.pairwise_of_forall_mem_list fun a _ b hb _ => leX s hsL hpos es b hb
        · obtain ⟨i, hi⟩ := List.exists_mem_of_ne_nil _ h20
          have : ({ e with target := some i, resets := allClocks R.clockSize } : Transition Nat) ∈ L.exits R.init R.clockSize es :=
            mem_exits.2 ⟨e, he, ha, i, hi, rfl⟩
          exact ⟨_, List.mem_append.2 (.inr this), leX s hsL hpos es _ this⟩
      · have hx : L.exits R.init R.clockSize es = [] := by
          rw [List.eq_nil_iff_forall_not_mem]
          intro x hx
          obtain ⟨e', he', h', -⟩ := mem_exits.1 hx
          rw [hno e' he'] at h'
          cases h'
        have hf : es.filter (fun e => !L.isAcc e) = es := by
          rw [List.filter_eq_self]
          intro e he
          rw [hno e he]
          rfl
        have hl : ∀ e ∈ es, (Leaves level (level s) e ↔ Leaves l1 (l1 s) e) := fun e he => by
          obtain ⟨q, hq⟩ := ht' e he
          exact leL s hsL e q hq (clL s hsL c es hn e he q hq)
        rw [hx, hf, List.append_nil]
        refine ⟨hp.imp_of_mem fun ha hb hab => by rw [hl _ ha, hl _ hb]; exact hab, ?_⟩
        rcases hq with ⟨e, he, hlv⟩ | ⟨es', e, q, rfl, hq, hlq, hlt⟩
        · exact .inl ⟨e, he, (hl e he).2 hlv⟩
        · have hqL := clL s hsL c _ hn e (by simp) q hq
          refine .inr ⟨es', e, q, rfl, hq, ?_, ?_⟩
          · rw [lL s hsL, lL q hqL, hlq]
          · rw [dL s hsL, dL q hqL]
            exact hlt
    · -- states of the same level
      rcases (concat_final_states hst hL hR hd o1 o2).1 htt with ⟨htL, hmt⟩ | htR
      · rcases h1 t htL with h | ⟨-, hpost, ct, gs, hgt, ⟨htg, hct⟩, hsht⟩
        · rw [hmt] at h
          cases h.1
        have htg' : ∀ e ∈ gs, ∃ q, e.target = some q := fun e he => (htg e he).imp fun _ h => h.1
        have h3 := concat_final_left hst hL hR hd o1 o2 htL hgt htg'
        rw [hnt] at h3
        simp only [List.cons.injEq, Prod.mk.injEq, and_true] at h3
        obtain ⟨rfl, rfl⟩ := h3
        have hl1 : l1 t = l1 s := by
          rw [lL t htL, lL s hsL] at hlt
          omega
        obtain ⟨g1, g2⟩ := hsh t htL c' gs hl1 hgt
        refine ⟨?_, g2⟩
        rintro ⟨f, hf, hlf⟩ e he hle'
        -- some transition of `t` leaves the level in `L`
        have hex : ∃ f ∈ gs, Leaves l1 (l1 s) f := by
          rcases List.mem_append.1 hf with hf | hf
          · have hf' := (List.mem_filter.1 hf).1
            obtain ⟨q, hq⟩ := htg' f hf'
            exact ⟨f, hf', (leL s hsL f q hq (clL t htL c' gs hgt f hf' q hq)).1 hlf⟩
          · obtain ⟨f', hf', ha, -⟩ := mem_exits.1 hf
            exact ⟨f', hf', hl1 ▸ accOf t htL c' gs hgt f' hf' ha hpost⟩
        rcases List.mem_append.1 he with he | he
        · have he' := List.mem_filter.1 he
          obtain ⟨q, hq⟩ := ht' e he'.1
          rw [leL s hsL e q hq (clL s hsL c es hn e he'.1 q hq)] at hle'
          exact List.mem_append.2 (.inl (List.mem_filter.2 ⟨g1 hex e he'.1 hle', he'.2⟩))
        · obtain ⟨e', he', ha, i, hi, rfl⟩ := mem_exits.1 he
          exact List.mem_append.2 (.inr (mem_exits.2 ⟨e', g1 hex e' he' (accOf s hsL c es hn e' he' ha hpos), ha, i, hi, rfl⟩))
      · rw [lR t htR, lL s hsL] at hlt
        have := hle t htR
        omega
  · have hsL : s ∉ L.states := fun h => hd s h hsR
    rw [if_neg hsL, lR s hsR]
    refine (h2 s hsR).imp id ?_
    rintro ⟨hm, hpos, c, es, hn, ⟨ht, hc⟩, hsh⟩
    have ht' : ∀ e ∈ es, ∃ q, e.target = some q := fun e he => (ht e he).imp fun _ h => h.1
    have hl : ∀ e ∈ es, (Leaves level (level s) e ↔ Leaves l2 (l2 s) e) := fun e he => by
      obtain ⟨q, hq⟩ := ht' e he
      exact leR s hsR e q hq (clR s hsR c es hn e he q hq)
    have hacc : ∀ e ∈ es, (L.concat2 R).removeStuckStates.isAcc e = R.isAcc e := fun e he => concat_isAcc_right hst hL hR hd hsR hn he
    refine ⟨hm, hpos, c, es, by rw [concat_final_right hst hL hR hd o1 o2 hsR, hn], ⟨fun e he => ?_, ?_⟩, fun t htt c' fs hlt hnt => ?_⟩
    · obtain ⟨q, hq, h⟩ := ht e he
      refine ⟨q, hq, ?_⟩
      rw [lR s hsR, lR q (clR s hsR c es hn e he q hq)]
      exact h
    · rcases hc with ⟨⟨e, he, ha⟩, hrest⟩ | ⟨hno, hp, hq⟩
      · refine .inl ⟨⟨e, he, by rw [hacc e he]; exact ha⟩, fun x hx => ?_⟩
        rw [hacc x hx, hl x hx]
        exact hrest x hx
      · refine .inr ⟨fun x hx => by rw [hacc x hx]; exact hno x hx, hp.imp_of_mem fun ha hb hab => by rw [hl _ ha, hl _ hb]; exact hab, ?_⟩
        rcases hq with ⟨e, he, hlv⟩ | ⟨es', e, q, rfl, hq, hlq, hlt⟩
        · exact .inl ⟨e, he, (hl e he).2 hlv⟩
        · have hqR := clR s hsR c _ hn e (by simp) q hq
          refine .inr ⟨es', e, q, rfl, hq, ?_, ?_⟩
          · rw [lR s hsR, lR q hqR, hlq]
          · rw [dR s hsR, dR q hqR]
            exact hlt
    · rcases (concat_final_states hst hL hR hd o1 o2).1 htt with ⟨htL, hmt⟩ | htR
      · rcases h1 t htL with h | ⟨-, hpost, -⟩
        · rw [hmt] at h
          cases h.1
        rw [lL t htL, lR s hsR] at hlt
        have := hle s hsR
        omega
      · rw [concat_final_right hst hL hR hd o1 o2 htR] at hnt
        obtain ⟨g1, g2⟩ := hsh t htR c' fs (by rw [← lR t htR, ← lR s hsR]; exact hlt) hnt
        refine ⟨?_, g2⟩
        rintro ⟨f, hf, hlf⟩ e he hle'
        refine g1 ⟨f, hf, ?_⟩ e he ((hl e he).1 hle')
        rcases h2 t htR with h | ⟨-, -, ct, gs, hgt, ⟨htg, -⟩, -⟩
        · rw [hR.term t htR h.1] at hnt
          cases hnt
        · rw [hnt] at hgt
          simp only [List.cons.injEq, Prod.mk.injEq, and_true] at hgt
          obtain ⟨rfl, rfl⟩ := hgt
          obtain ⟨q, hq, -⟩ := htg f hf
          exact (leR s hsR f q hq (clR t htR _ _ hnt f hf q hq)).1 hlf

theorem EndTA.concat (o1 : L.SingleLetter) (o2 : R.SingleLetter) (hnull : ∀ s ∈ R.init, (R.st s).isMatch = false) (h2 : R.EndTA) :
    (L.concat2 R).removeStuckStates.EndTA := by
  intro s hs c es hn ⟨e, he, ha⟩ x hx
  rcases (concat_final_states hst hL hR hd o1 o2).1 hs with ⟨hsL, hm⟩ | hsR
  · rcases o1.2 s hsL with h | ⟨-, c', fs, hn', ht⟩
    · rw [hm] at h
      cases h
    · have h3 := concat_final_left hst hL hR hd o1 o2 hsL hn' ht
      rw [hn] at h3
      simp only [List.cons.injEq, Prod.mk.injEq, and_true] at h3
      obtain ⟨rfl, rfl⟩ := h3
      rw [concat_isAcc_left hst hL hR hd hnull hsL hn' he] at ha
      cases ha
  · rw [concat_final_right hst hL hR hd o1 o2 hsR] at hn
    rw [concat_isAcc_right hst hL hR hd hsR hn he] at ha
    rw [concat_isAcc_right hst hL hR hd hsR hn hx]
    exact h2 s hsR c es hn ⟨e, he, ha⟩ x hx

theorem LoopTA.disj (h1 : L.LoopTA) (h2 : R.LoopTA) : (L.disjTA R).LoopTA := by
  obtain ⟨h10, l1, d1, h1⟩ := h1
  obtain ⟨h20, l2, d2, h2⟩ := h2
  have hle : ∀ s ∈ R.states, l2 s ≤ (R.states.map l2).sum := fun s hs => List.single_le_sum (by simp) _ (List.mem_map.2 ⟨s, hs, rfl⟩)
  generalize hM : (R.states.map l2).sum = M at hle
  classical
  obtain ⟨level, hlev⟩ : ∃ level : Nat → Nat, level = fun s => if s ∈ L.states then (if l1 s = 0 then 0 else l1 s + M) else l2 s := ⟨_, rfl⟩
  obtain ⟨dist, hdist⟩ : ∃ dist : Nat → Nat, dist = fun s => if s ∈ L.states then d1 s else d2 s := ⟨_, rfl⟩
  have lL : ∀ s ∈ L.states, level s = if l1 s = 0 then 0 else l1 s + M := fun s hs => by rw [hlev]; exact if_pos hs
  have lR : ∀ s ∈ R.states, level s = l2 s := fun s hs => by rw [hlev]; exact if_neg fun h => hd s h hs
  have dL : ∀ s ∈ L.states, dist s = d1 s := fun s hs => by rw [hdist]; exact if_pos hs
  have dR : ∀ s ∈ R.states, dist s = d2 s := fun s hs => by rw [hdist]; exact if_neg fun h => hd s h hs
  have lt : ∀ s ∈ L.states, ∀ q ∈ L.states, (level q < level s ↔ l1 q < l1 s) ∧ (level q = level s ↔ l1 q = l1 s) := fun s hs q hq => by
    rw [lL s hs, lL q hq]
    constructor <;> split <;> split <;> omega
  have clL : ∀ s ∈ L.states, ∀ c es, (L.st s).next = [(c, es)] → ∀ e ∈ es, ∀ q, e.target = some q → q ∈ L.states :=
    fun s hs c es hn e he q hq => hL.closed s hs c e (edge_mem hn he) q hq
  have clR : ∀ s ∈ R.states, ∀ c es, (R.st s).next = [(c, es)] → ∀ e ∈ es, ∀ q, e.target = some q → q ∈ R.states :=
    fun s hs c es hn e he q hq => hR.closed s hs c e (edge_mem hn he) q hq
  have leL : ∀ s ∈ L.states, ∀ e q, e.target = some q → q ∈ L.states → (Leaves level (level s) e ↔ Leaves l1 (l1 s) e) :=
    fun s hs e q hq hqL => leaves_congr hq hq (lt s hs q hqL).1
  have leR : ∀ s ∈ R.states, ∀ e q, e.target = some q → q ∈ R.states → (Leaves level (level s) e ↔ Leaves l2 (l2 s) e) :=
    fun s hs e q hq hqR => leaves_congr hq hq (by rw [lR s hs, lR q hqR])
  have heqL : (L.disjTA R).st = L.st := hst.symm
  have heqR : (L.disjTA R).st = R.st := rfl
  have haccL : ∀ e, (L.disjTA R).isAcc e = L.isAcc e := fun e => by unfold TA.isAcc; rw [heqL]
  have haccR : ∀ e, (L.disjTA R).isAcc e = R.isAcc e := fun e => rfl
  refine ⟨fun h => h10 (List.append_eq_nil_iff.1 h).1, level, dist, fun s hs => ?_⟩
  by_cases hsL : s ∈ L.states
  · rw [heqL]
    rcases h1 s hsL with ⟨hm, hz⟩ | ⟨hm, hpos, c, es, hn, ⟨ht, hc⟩, hsh⟩
    · exact .inl ⟨hm, by rw [lL s hsL, if_pos hz]⟩
    have ht' : ∀ e ∈ es, ∃ q, e.target = some q := fun e he => (ht e he).imp fun _ h => h.1
    have hls : level s = l1 s + M := by rw [lL s hsL, if_neg (by omega)]
    have hl : ∀ e ∈ es, (Leaves level (level s) e ↔ Leaves l1 (l1 s) e) := fun e he => by
      obtain ⟨q, hq⟩ := ht' e he
      exact leL s hsL e q hq (clL s hsL c es hn e he q hq)
    refine .inr ⟨hm, by omega, c, es, hn, ⟨fun e he => ?_, ?_⟩, fun t htt c' fs hlt hnt => ?_⟩
    · obtain ⟨q, hq, h⟩ := ht e he
      refine ⟨q, hq, ?_⟩
      obtain ⟨k1, k2⟩ := lt s hsL q (clL s hsL c es hn e he q hq)
      rw [k1, k2]
      exact h
    · simp only [haccL]
      rcases hc with ⟨h, hrest⟩ | ⟨hno, hp, hq⟩
      · exact .inl ⟨h, fun x hx => by rw [hl x hx]; exact hrest x hx⟩
      · refine .inr ⟨hno, hp.imp_of_mem fun ha hb hab => by rw [hl _ ha, hl _ hb]; exact hab, ?_⟩
        rcases hq with ⟨e, he, hlv⟩ | ⟨es', e, q, rfl, hq, hlq, hlt⟩
        · exact .inl ⟨e, he, (hl e he).2 hlv⟩
        · have hqL := clL s hsL c _ hn e (by simp) q hq
          exact .inr ⟨es', e, q, rfl, hq, (lt s hsL q hqL).2.2 hlq, by rw [dL s hsL, dL q hqL]; exact hlt⟩
    · by_cases htL : t ∈ L.states
      · rw [heqL] at hnt
        obtain ⟨g1, g2⟩ := hsh t htL c' fs ((lt s hsL t htL).2.1 hlt) hnt
        refine ⟨?_, g2⟩
        rintro ⟨f, hf, hlf⟩ e he hle'
        refine g1 ⟨f, hf, ?_⟩ e he ((hl e he).1 hle')
        have hlf' := hlf
        obtain ⟨q, hq, -⟩ := hlf'
        exact (leL s hsL f q hq (clL t htL c' fs hnt f hf q hq)).1 hlf
      · have htR : t ∈ R.states := (List.mem_append.1 htt).resolve_left htL
        rw [lR t htR] at hlt
        have := hle t htR
        omega
  · have hsR : s ∈ R.states := (List.mem_append.1 hs).resolve_left hsL
    rw [heqR, lR s hsR]
    refine (h2 s hsR).imp id ?_
    rintro ⟨hm, hpos, c, es, hn, ⟨ht, hc⟩, hsh⟩
    have ht' : ∀ e ∈ es, ∃ q, e.target = some q := fun e he => (ht e he).imp fun _ h => h.1
    have hl : ∀ e ∈ es, (Leaves level (level s) e ↔ Leaves l2 (l2 s) e) := fun e he => by
      obtain ⟨q, hq⟩ := ht' e he
      exact leR s hsR e q hq (clR s hsR c es hn e he q hq)
    refine ⟨hm, hpos, c, es, hn, ⟨fun e he => ?_, ?_⟩, fun t htt c' fs hlt hnt => ?_⟩
    · obtain ⟨q, hq, h⟩ := ht e he
      refine ⟨q, hq, ?_⟩
      rw [lR s hsR, lR q (clR s hsR c es hn e he q hq)]
      exact h
    · simp only [haccR]
      rcases hc with ⟨h, hrest⟩ | ⟨hno, hp, hq⟩
      · exact .inl ⟨h, fun x hx => by rw [hl x hx]; exact hrest x hx⟩
      · refine .inr ⟨hno, hp.imp_of_mem fun ha hb hab => by rw [hl _ ha, hl _ hb]; exact hab, ?_⟩
        rcases hq with ⟨e, he, hlv⟩ | ⟨es', e, q, rfl, hq, hlq, hlt⟩
        · exact .inl ⟨e, he, (hl e he).2 hlv⟩
        · have hqR := clR s hsR c _ hn e (by simp) q hq
          exact .inr ⟨es', e, q, rfl, hq, by rw [lR s hsR, lR q hqR, hlq], by rw [dR s hsR, dR q hqR]; exact hlt⟩
    · by_cases htL : t ∈ L.states
      · rw [lL t htL, lR s hsR] at hlt
        have := hle s hsR
        split at hlt <;> omega
      · have htR : t ∈ R.states := (List.mem_append.1 htt).resolve_left htL
        obtain ⟨g1, g2⟩ := hsh t htR c' fs (by rw [← lR t htR, ← lR s hsR]; exact hlt) hnt
        refine ⟨?_, g2⟩
        rintro ⟨f, hf, hlf⟩ e he hle'
        refine g1 ⟨f, hf, ?_⟩ e he ((hl e he).1 hle')
        have hlf' := hlf
        obtain ⟨q, hq, -⟩ := hlf'
        exact (leR s hsR f q hq (clR t htR c' fs hnt f hf q hq)).1 hlf

omit hL hR hd in
theorem EndTA.disj (h1 : L.EndTA) (h2 : R.EndTA) : (L.disjTA R).EndTA := by
  intro s hs c es hn
  rcases List.mem_append.1 hs with hs | hs
  · have heq : (L.disjTA R).st = L.st := hst.symm
    have hacc : ∀ e, (L.disjTA R).isAcc e = L.isAcc e := fun e => by unfold TA.isAcc; rw [heq]
    rw [heq] at hn
    simp only [hacc]
    exact h1 s hs c es hn
  · exact h2 s hs c es hn

end two

theorem restrict_isMatch (A : TA Nat) (g : List Constraint) (u : Int) (s : Nat) : ((A.restrictTA g u).st s).isMatch = (A.st s).isMatch := by
  simp only [restrictTA]
  split <;> rfl

theorem restrict_isAcc (A : TA Nat) (g : List Constraint) (u : Int) (e : Transition Nat) : (A.restrictTA g u).isAcc e = A.isAcc e := by
  unfold TA.isAcc
  cases e.target with
  | none => rfl
  | some q => exact restrict_isMatch A g u q

theorem LoopTA.restrict {A : TA Nat} (hw : A.Wf) (h : A.LoopTA) (hz : ∀ s ∈ A.states, (A.st s).zeroDuration = false) (g : List Constraint)
    (u : Int) : (A.restrictTA g u).LoopTA := by
  have htarget : ∀ e : Transition Nat, (if A.isAcc e then { e with guard := e.guard ++ g } else e : Transition Nat).target = e.target :=
    fun e => by split <;> rfl
  refine h.map (fun e => if A.isAcc e then { e with guard := e.guard ++ g } else e) (fun s hs => hs) (fun h0 => ?_)
    (fun s _ => restrict_isMatch A g u s) (fun s (hs : s ∈ A.states) => by rw [restrict_st g hs]) (fun s _ c es _ e _ => ?_)
    (fun s _ c es _ e _ q hq => ⟨q, by rw [htarget]; exact hq, .inl rfl⟩) (fun s _ c es _ e _ ha => by simp [ha])
    fun s hs c es hn e he q hq => hw.closed s hs c e (edge_mem hn he) q hq
  · obtain ⟨i, hi⟩ := List.exists_mem_of_ne_nil _ h0
    exact List.ne_nil_of_mem (List.mem_filter.2 ⟨hi, by rw [hz i (hw.init i hi)]; rfl⟩)
  · rw [restrict_isAcc]
    unfold TA.isAcc
    have := htarget e
    unfold TA.isAcc at this
    rw [this]

theorem EndTA.restrict {A : TA Nat} (h : A.EndTA) (hO : A.SingleLetter) (hw : A.Wf) (g : List Constraint) (u : Int) : (A.restrictTA g u).EndTA := by
  intro s (hs : s ∈ A.states) c es hn ⟨e, he, ha⟩ x hx
  rw [restrict_st g hs] at hn
  have htarget : ∀ e : Transition Nat, A.isAcc (if A.isAcc e then { e with guard := e.guard ++ g } else e : Transition Nat) = A.isAcc e :=
    fun e => by split <;> [rfl; rfl]
  rcases hO.2 s hs with hm | ⟨-, c', fs, hn', -⟩
  · rw [hw.term s hs hm] at hn
    cases hn
  · rw [hn'] at hn
    simp only [List.map_cons, List.map_nil, List.cons.injEq, Prod.mk.injEq, and_true] at hn
    obtain ⟨rfl, rfl⟩ := hn
    rw [List.mem_map] at he hx
    obtain ⟨e, he, rfl⟩ := he
    obtain ⟨x, hx, rfl⟩ := hx
    rw [restrict_isAcc, htarget] at ha ⊢
    exact h s hs c' fs hn' ⟨e, he, ha⟩ x hx

theorem EndTA.congr {A : TA Nat} (hw : A.Wf) (h : A.EndTA) {st : Nat → TAState Nat} (hst : ∀ s ∈ A.states, st s = A.st s) :
    ({ A with st := st } : TA Nat).EndTA := by
  intro s hs c es hn ⟨e, he, ha⟩ x hx
  have hn' : (A.st s).next = [(c, es)] := by rw [← hst s hs]; exact hn
  rw [isAcc_congr hw hst hs hn' he] at ha
  rw [isAcc_congr hw hst hs hn' hx]
  exact h s hs c es hn' ⟨e, he, ha⟩ x hx

theorem LoopTA.atom {alloc : Nat → Nat} (hinj : Function.Injective alloc) (heap : Nat → TAState Nat) (k : Nat) (c : Alphabet) :
    (atomTA alloc k heap c).LoopTA ∧ (atomTA alloc k heap c).EndTA := by
  have hne : alloc (k + 1) ≠ alloc k := fun h => by have := hinj h; omega
  have hacc : (atomTA alloc k heap c).isAcc ⟨some (alloc (k + 1)), [], []⟩ = true := by simp [TA.isAcc, atomTA, hne]
  have h0 : ((atomTA alloc k heap c).st (alloc k)).next = [(c, [⟨some (alloc (k + 1)), [], []⟩])] := by simp [atomTA]
  have h1 : ((atomTA alloc k heap c).st (alloc (k + 1))).next = [] := by simp [atomTA, hne]
  constructor
  · refine ⟨by simp [atomTA], fun s => if s = alloc k then 1 else 0, fun _ => 0, fun s hs => ?_⟩
    simp only [atomTA, List.mem_cons, List.not_mem_nil, or_false] at hs
    rcases hs with rfl | rfl
    · refine .inr ⟨by simp [atomTA], by simp, c, _, h0, ⟨?_, .inl ⟨⟨_, List.mem_singleton.2 rfl, hacc⟩, ?_⟩⟩, fun t htt c' fs hlt hnt => ?_⟩
      · intro e he
        rw [List.mem_singleton] at he
        exact ⟨alloc (k + 1), by rw [he], .inl (by simp [hne])⟩
      · intro e he
        rw [List.mem_singleton] at he
        exact .inl (by rw [he]; exact hacc)
      · have : t = alloc k := by
          by_contra h
          simp [h] at hlt
        subst this
        rw [h0] at hnt
        simp only [List.cons.injEq, Prod.mk.injEq, and_true] at hnt
        obtain ⟨rfl, rfl⟩ := hnt
        exact ⟨fun _ e he _ => he, id⟩
    · exact .inl ⟨by simp [atomTA, hne], by simp [hne]⟩
  · intro s hs c' es hn _ x hx
    simp only [atomTA, List.mem_cons, List.not_mem_nil, or_false] at hs
    rcases hs with rfl | rfl
    · rw [h0] at hn
      simp only [List.cons.injEq, Prod.mk.injEq, and_true] at hn
      obtain ⟨rfl, rfl⟩ := hn
      rw [List.mem_singleton] at hx
      rw [hx]
      exact hacc
    · rw [h1] at hn
      cases hn

theorem LoopTA.finish {A : TA Nat} (hw : A.Wf) (h : A.LoopTA) : A.finish.LoopTA :=
  h.fin (fin_of_live hw h.oneLetter.live) hw

theorem EndTA.finish {A : TA Nat} (hw : A.Wf) (ho : A.SingleLetter) (h : A.EndTA) (hB : A.finish.Wf) : A.finish.EndTA :=
  h.fin (fin_of_live hw ho.live) ho hB

end TA

variable {K : Type} [Field K] [LinearOrder K] [IsStrictOrderedRing K] [FloorRing K]

omit [IsStrictOrderedRing K] [FloorRing K] in
theorem TRE.Untimed.free {e : TRE K} (h : e.Untimed) : e.EpsilonFree ∧ e.clocks = 0 := by
  induction e with
  | atom c => exact ⟨trivial, rfl⟩
  | plus e ih => exact ih h
  | concat e f ih1 ih2 => exact ⟨⟨(ih1 h.1).1, (ih2 h.2).1⟩, by simp only [TRE.clocks, (ih1 h.1).2, (ih2 h.2).2]; rfl⟩
  | disj e f ih1 ih2 => exact ⟨⟨(ih1 h.1).1, (ih2 h.2).1⟩, by simp only [TRE.clocks, (ih1 h.1).2, (ih2 h.2).2]; rfl⟩
  | _ => exact h.elim

theorem TRE.toEventTA_untimed {alloc : Nat → Nat} (hinj : Function.Injective alloc) (e : TRE K) (he : e.Plain) (hu : e.Untimed)
    (heap : Nat → TAState Nat) (k : Nat) :
    ∃ A k', e.toEventTA alloc heap k = .ok (A, k') ∧ TransOk alloc heap k k' e A ∧ A.UTA := by
  induction e generalizing heap k with
  | atom c =>
    have h := TA.UTA.atom hinj heap k hu
    exact ⟨_, _, rfl, TransOk.atom (K := K) hinj heap k he, h.fin (TA.fin_of_live (TA.atomTA_wf hinj heap k he) h.oneLetter.live)⟩
  | plus e ih =>
    obtain ⟨A, k', h, hA, hU⟩ := ih he hu heap k
    have hc : A.clockSize = 0 := hA.clocks.trans (TRE.Untimed.free hu).2
    have hw := TA.plus_wf hA.wf (by omega)
    exact ⟨_, _, by simp only [toEventTA, h]; rfl, hA.plus he, hU.plus.fin (TA.fin_of_live hw hU.plus.oneLetter.live)⟩
  | concat e f ih1 ih2 =>
    obtain ⟨A, k1, h1, hA, uA⟩ := ih1 he.1 hu.1 heap k
    obtain ⟨B, k2, h2, hB, uB⟩ := ih2 he.2 hu.2 A.st k1
    have hkeep := two_keep hinj hA hB
    have hd := two_disjoint hinj hA hB
    have hw := two_wf hinj hA hB
    have hss : ({ A with st := B.st } : TA Nat).st = B.st := rfl
    have heq : A.concat2 B = ({ A with st := B.st } : TA Nat).concat2 B := rfl
    have hn : B.clockSize ≤ 256 := by rw [hB.clocks]; exact he.2.clocks
    have uA' := uA.congr hA.wf hkeep
    refine ⟨_, _, by simp only [toEventTA, h1, bind, Except.bind, h2]; rfl, TransOk.concat hinj hA hB he.1 he.2, ?_⟩
    rw [heq]
    refine (TA.UTA.concat hss hw hB.wf hd uA' uB (fun s hs => ?_) (hB.init_noMatch (TRE.Untimed.free hu.2).1)).fin
      (TA.concat_fin hss hw hB.wf hd uA'.oneLetter uB.oneLetter hn)
    show (B.st s).isMatch = false
    rw [hkeep s (hA.wf.init s hs)]
    exact hA.init_noMatch (TRE.Untimed.free hu.1).1 s hs
  | disj e f ih1 ih2 =>
    obtain ⟨A, k1, h1, hA, uA⟩ := ih1 he.1 hu.1 heap k
    obtain ⟨B, k2, h2, hB, uB⟩ := ih2 he.2 hu.2 A.st k1
    have hkeep := two_keep hinj hA hB
    have hd := two_disjoint hinj hA hB
    have hw := two_wf hinj hA hB
    have hss : ({ A with st := B.st } : TA Nat).st = B.st := rfl
    have heq : A.disjTA B = ({ A with st := B.st } : TA Nat).disjTA B := rfl
    refine ⟨_, _, by simp only [toEventTA, h1, bind, Except.bind, h2]; rfl, TransOk.disj hinj hA hB, ?_⟩
    rw [heq]
    have h := TA.UTA.disj hss hw hB.wf hd (uA.congr hA.wf hkeep) uB
    exact h.fin (TA.fin_of_live (TA.disj_wf hss hw hB.wf hd) h.oneLetter.live)
  | _ => exact hu.elim

theorem TRE.toEventTA_ordered {alloc : Nat → Nat} (hinj : Function.Injective alloc) (e : TRE K) (he : e.Plain) (hε : e.EpsilonFree)
    (hp : e.UntimedLoops) (heap : Nat → TAState Nat) (k : Nat) :
    ∃ A k', e.toEventTA alloc heap k = .ok (A, k') ∧ TransOk alloc heap k k' e A ∧ A.LoopTA ∧ (e.EndsPlain → A.EndTA) ∧
      (e.Late → A.LateTA) := by
  induction e generalizing heap k with
  | atom c =>
    obtain ⟨h1, h2⟩ := TA.LoopTA.atom hinj heap k c
    have hw := TA.atomTA_wf hinj heap k he
    have hok := TransOk.atom (K := K) hinj heap k he
    refine ⟨_, _, rfl, hok, h1.finish hw, fun _ => h2.finish hw h1.oneLetter hok.wf, fun _ => ?_⟩
    refine ⟨fun _ _ => False, fun _ _ _ h => h, fun s hs a t ht => ⟨fun g hg => ?_, fun _ _ _ h => h.elim⟩⟩
    rw [(hok.wf.noClocks hok.clocks hs ht).1] at hg
    cases hg
  | epsilon => exact hε.elim
  | plus e ih =>
    obtain ⟨A, k', h, hA, hU⟩ := TRE.toEventTA_untimed hinj (.plus e) he hp heap k
    have hc : A.clockSize = 0 := hA.clocks.trans (TRE.Untimed.free (e := .plus e) hp).2
    refine ⟨A, k', h, hA, hU.loop hA.wf hc hA.one, fun h => h.elim, fun _ => ?_⟩
    refine ⟨fun _ _ => False, fun _ _ _ h => h, fun s hs a t ht => ⟨fun g hg => ?_, fun _ _ _ h => h.elim⟩⟩
    rw [(hA.wf.noClocks hc hs ht).1] at hg
    cases hg
  | concat e f ih1 ih2 =>
    obtain ⟨A, k1, h1, hA, uA, -, lA⟩ := ih1 he.1 hε.1 hp.1 heap k
    obtain ⟨B, k2, h2, hB, uB, eB, -⟩ := ih2 he.2 hε.2 hp.2 A.st k1
    have hkeep := two_keep hinj hA hB
    have hd := two_disjoint hinj hA hB
    have hw := two_wf hinj hA hB
    have hss : ({ A with st := B.st } : TA Nat).st = B.st := rfl
    have heq : A.concat2 B = ({ A with st := B.st } : TA Nat).concat2 B := rfl
    have hn : B.clockSize ≤ 256 := by rw [hB.clocks]; exact he.2.clocks
    have uA' := uA.congr hA.wf hkeep
    have hnA : ∀ s ∈ ({ A with st := B.st } : TA Nat).init, (({ A with st := B.st } : TA Nat).st s).isMatch = false := fun s hs => by
      show (B.st s).isMatch = false
      rw [hkeep s (hA.wf.init s hs)]
      exact hA.init_noMatch hε.1 s hs
    have hnB := hB.init_noMatch hε.2
    have hok := TransOk.concat hinj hA hB he.1 he.2
    have hcw := TA.concat2_wf hss hw hB.wf hd hn
    have hfin := TA.concat_fin hss hw hB.wf hd uA'.oneLetter uB.oneLetter hn
    have hl := TA.LoopTA.concat hss hw hB.wf hd uA' uB hnA hnB
    refine ⟨_, _, by simp only [toEventTA, h1, bind, Except.bind, h2]; rfl, hok, ?_, fun hend => ?_, fun hlate => ?_⟩
    · rw [heq]
      exact hl.fin hfin hcw.removeStuck
    · have hokw := hok.wf
      rw [heq] at hokw ⊢
      exact (TA.EndTA.concat hss hw hB.wf hd uA'.oneLetter uB.oneLetter hnB (eB hend)).fin hfin hl.oneLetter hokw
    · rw [heq]
      exact TA.LateTA.finish hcw (TA.LateTA.concat hss hw hB.wf hd hn ((lA hlate).congr hkeep) hnA)
  | disj e f ih1 ih2 =>
    obtain ⟨A, k1, h1, hA, uA, eA, lA⟩ := ih1 he.1 hε.1 hp.1 heap k
    obtain ⟨B, k2, h2, hB, uB, eB, lB⟩ := ih2 he.2 hε.2 hp.2 A.st k1
    have hkeep := two_keep hinj hA hB
    have hd := two_disjoint hinj hA hB
    have hw := two_wf hinj hA hB
    have hss : ({ A with st := B.st } : TA Nat).st = B.st := rfl
    have heq : A.disjTA B = ({ A with st := B.st } : TA Nat).disjTA B := rfl
    have hok := TransOk.disj hinj hA hB
    have hdw := TA.disj_wf hss hw hB.wf hd
    have hl := TA.LoopTA.disj hss hw hB.wf hd (uA.congr hA.wf hkeep) uB
    refine ⟨_, _, by simp only [toEventTA, h1, bind, Except.bind, h2]; rfl, hok, ?_, fun hend => ?_, fun hlate => ?_⟩
    · rw [heq]
      exact hl.finish hdw
    · have hokw := hok.wf
      rw [heq] at hokw ⊢
      exact (TA.EndTA.disj hss ((eA hend.1).congr hA.wf hkeep) (eB hend.2)).finish hdw hl.oneLetter hokw
    · rw [heq]
      exact TA.LateTA.finish hdw (TA.LateTA.disj hss hw hB.wf hd ((lA hlate.1).congr hkeep) (lB hlate.2))
  | conj e f ih1 ih2 => exact hp.elim
  | within e I ih =>
    obtain ⟨A, k1, h1, hA, uA, eA, -⟩ := ih he.1 hε hp heap k
    obtain ⟨B, h2, hB⟩ := hA.within he
    refine ⟨_, _, by simp only [toEventTA, h1, bind, Except.bind, h2]; rfl, hB, ?_⟩
    obtain ⟨_, hn, ⟨l, ls, hl⟩, ⟨u, us, hu⟩⟩ := he
    have hn' : A.clockSize < 256 := by rw [hA.clocks]; exact hn
    have := TA.within_eq hA.wf hl hu
    rw [h2] at this
    cases this
    have hz := hA.nozero (TRE.EpsilonFree.regular (e := e) hε) (TRE.not_nullable (e := e) hε)
    have hrw := TA.restrict_wf hA.wf (TA.withinGuard A.clockSize u l us ls) (u := u) (by
      intro c hc
      simp only [TA.withinGuard, List.mem_cons, List.not_mem_nil, or_false] at hc
      rcases hc with rfl | rfl <;> simp [Nat.mod_eq_of_lt hn'])
    have hlp := uA.restrict hA.wf hz (TA.withinGuard A.clockSize u l us ls) u
    exact ⟨hlp.finish hrw, fun hend => ((eA hend).restrict uA.oneLetter hA.wf _ u).finish hrw hlp.oneLetter hB.wf, fun hlate => hlate.elim⟩

end Verif
