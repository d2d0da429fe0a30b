import Verif.Lemmas.ZAGraph
import Mathlib.Order.Basic
import Mathlib.Data.List.Basic

set_option linter.unusedSectionVars false

/-! The search of `removeDeadStates` in the presence of cycles: it is enough that the last live successor of a state has a smaller
rank, since the last successor is visited first. -/

namespace Verif.ZA

variable {S K : Type} {Z : ZA S K} {α : Type} [Preorder α] {rank : Nat → α}

theorem deadEdges_shape {i : Nat} {P : List Nat} (hi : i ∉ P) (js reach : List Nat) (stack : List (Nat × List Nat)) :
    ∃ cs : List Nat, (deadEdges i P js reach stack).2 = cs.map (fun j => (j, i :: P)) ++ stack ∧ (∀ c ∈ cs, c ∈ js) ∧
      (∀ j ∈ js, j ∈ cs ∨ j ∈ (deadEdges i P js reach stack).1) ∧
      (∀ x ∈ reach, x ∈ (deadEdges i P js reach stack).1) ∧
      (∀ x ∈ (deadEdges i P js reach stack).1, x ∈ reach ∨ x ∈ i :: P) ∧
      ((∀ x ∈ i :: P, x ∈ (deadEdges i P js reach stack).1) ∨ (cs = js.reverse ∧ ∀ j ∈ js, j ∉ reach)) := by
  induction js generalizing reach stack with
  | nil => exact ⟨[], by simp [deadEdges], by simp, by simp, by simp [deadEdges], fun x hx => Or.inl hx, Or.inr (by simp)⟩
  | cons j js ih =>
    rw [deadEdges, if_neg hi]
    split_ifs with hj
    · obtain ⟨cs, h1, h2, h3, h4, h5, h6⟩ := ih (reach ++ i :: P) stack
      refine ⟨cs, h1, fun c hc => by simp [h2 c hc], ?_, fun x hx => h4 x (by simp [hx]), ?_, ?_⟩
      · intro j' hj'
        rcases List.mem_cons.1 hj' with rfl | hj'
        · exact Or.inr (h4 _ (by simp [hj]))
        · exact h3 j' hj'
      · intro x hx
        rcases h5 x hx with h | h
        · exact List.mem_append.1 h
        · exact Or.inr h
      · exact Or.inl fun x hx => h4 x (List.mem_append_right _ hx)
    · obtain ⟨cs, h1, h2, h3, h4, h5, h6⟩ := ih reach ((j, i :: P) :: stack)
      refine ⟨cs ++ [j], by simpa using h1, ?_, ?_, h4, h5, ?_⟩
      · intro c hc
        rcases List.mem_append.1 hc with hc | hc
        · simp [h2 c hc]
        · simp only [List.mem_singleton] at hc
          simp [hc]
      · intro j' hj'
        rcases List.mem_cons.1 hj' with rfl | hj'
        · simp
        · rcases h3 j' hj' with h | h
          · simp [h]
          · exact Or.inr h
      · rcases h6 with h6 | ⟨h6, h7⟩
        · exact Or.inl h6
        · refine Or.inr ⟨by simp [h6], ?_⟩
          intro j' hj'
          rcases List.mem_cons.1 hj' with rfl | hj'
          · exact hj
          · exact h7 j' hj'

/-- In the list of the successors of a live state, a live state of smaller rank comes after all other live states, the state itself
left aside. -/
def LastLower (Z : ZA S K) (rank : Nat → α) : Prop :=
  ∀ i, Z.Live i → Z.isMatch i = true ∨ ∃ pre l post, Z.succs i = pre ++ l :: post ∧ Z.Live l ∧ rank l < rank i ∧
    ∀ j ∈ post, j = i ∨ ¬ Z.Live j

/-- The ancestors are already marked or of larger rank. -/
def Ahead (rank : Nat → α) (c : Nat) (Q R : List Nat) : Prop := ∀ x ∈ Q, x ∈ R ∨ rank c < rank x

/-- The states `D` were visited, those of `P` are being visited, those of `R` are marked. -/
structure Visited (Z : ZA S K) (P R D : List Nat) : Prop where
  par : ∀ x ∈ P, x ∈ D
  marked : ∀ x ∈ R, x ∈ D
  closed : ∀ d ∈ D, d ∉ P → ∀ j ∈ Z.succs d, j ∈ D
  live : ∀ d ∈ D, d ∉ P → Z.Live d → d ∈ R

theorem dead_big (hlast : LastLower Z rank) (fuel : Nat) : ∀ (i : Nat) (P : List Nat) (rest : List (Nat × List Nat)) (R D out : List Nat),
    deadLoop Z fuel ((i, P) :: rest) R = .ok out → Visited Z P R D → (Z.Live i → i ∉ P → Ahead rank i P R) →
    ∃ fuel' R' D', fuel' < fuel ∧ deadLoop Z fuel' rest R' = .ok out ∧ Visited Z P R' D' ∧ (∀ x ∈ D, x ∈ D') ∧ i ∈ D' ∧
      (∀ x ∈ R, x ∈ R') ∧ (Z.Live i → i ∉ P → ∀ x ∈ i :: P, x ∈ R') := by
  induction fuel using Nat.strong_induction_on with
  | _ fuel ih =>
    intro i P rest R D out h hv hg
    rcases fuel with _ | fuel
    · simp [deadLoop] at h
    rw [deadLoop_cons] at h
    have hmark : ∀ x ∈ markMatch Z i P R, x ∈ R ∨ x ∈ i :: P := by
      intro x hx
      unfold markMatch at hx
      split_ifs at hx
      · exact List.mem_append.1 hx
      · exact Or.inl hx
    have hmark' : ∀ x ∈ R, x ∈ markMatch Z i P R := by
      intro x hx
      unfold markMatch
      split_ifs
      · simp [hx]
      · exact hx
    by_cases hi : i ∈ P
    · rw [deadEdges_skip hi] at h
      refine ⟨fuel, markMatch Z i P R, D, by omega, h, ?_, fun _ hx => hx, hv.par i hi, hmark', fun _ hc => absurd hi hc⟩
      refine ⟨hv.par, ?_, hv.closed, fun d hd hp hl => hmark' d (hv.live d hd hp hl)⟩
      intro x hx
      rcases hmark x hx with hx | hx
      · exact hv.marked x hx
      · rcases List.mem_cons.1 hx with rfl | hx
        · exact hv.par _ hi
        · exact hv.par x hx
    · -- the children, one after the other
      have hseq : ∀ (cs : List Nat) (Q : List Nat) (f : Nat) (R1 D1 : List Nat), f ≤ fuel →
          deadLoop Z f (cs.map (fun j => (j, Q)) ++ rest) R1 = .ok out → Visited Z Q R1 D1 →
          (∀ a c b, cs = a ++ c :: b → ∀ R2, (∀ x ∈ R1, x ∈ R2) → ((∃ x ∈ a, Z.Live x ∧ x ∉ Q) → ∀ x ∈ Q, x ∈ R2) →
            Z.Live c → c ∉ Q → Ahead rank c Q R2) →
          ∃ f' R' D', f' ≤ f ∧ deadLoop Z f' rest R' = .ok out ∧ Visited Z Q R' D' ∧ (∀ x ∈ D1, x ∈ D') ∧ (∀ c ∈ cs, c ∈ D') ∧
            (∀ x ∈ R1, x ∈ R') ∧ ((∃ c ∈ cs, Z.Live c ∧ c ∉ Q) → ∀ x ∈ Q, x ∈ R') := by
        intro cs Q
        induction cs with
        | nil =>
          intro f R1 D1 _ h hv _
          exact ⟨f, R1, D1, le_rfl, h, hv, fun _ hx => hx, by simp, fun _ hx => hx, by simp⟩
        | cons c cs ihc =>
          intro f R1 D1 hf h hv hgood
          obtain ⟨f2, R2, D2, hf2, h2, hv2, hD2, hc2, hR2, hl2⟩ := ih f (by omega) c Q _ R1 D1 out h hv
            (fun hl hc => hgood [] c cs rfl R1 (fun _ hx => hx) (by simp) hl hc)
          obtain ⟨f3, R3, D3, hf3, h3, hv3, hD3, hc3, hR3, hl3⟩ := ihc f2 R2 D2 (by omega) h2 hv2 (by
            intro a c' b hcs R' hR' ha hl hc
            refine hgood (c :: a) c' b (by simp [hcs]) R' (fun x hx => hR' x (hR2 x hx)) ?_ hl hc
            rintro ⟨x, hx, hxl, hxq⟩
            rcases List.mem_cons.1 hx with rfl | hx
            · exact fun y hy => hR' y (hl2 hxl hxq y (by simp [hy]))
            · exact ha ⟨x, hx, hxl, hxq⟩)
          refine ⟨f3, R3, D3, by omega, h3, hv3, fun x hx => hD3 x (hD2 x hx), ?_, fun x hx => hR3 x (hR2 x hx), ?_⟩
          · intro x hx
            rcases List.mem_cons.1 hx with rfl | hx
            · exact hD3 _ hc2
            · exact hc3 x hx
          · rintro ⟨x, hx, hxl, hxq⟩
            rcases List.mem_cons.1 hx with rfl | hx
            · exact fun y hy => hR3 y (hl2 hxl hxq y (by simp [hy]))
            · exact hl3 ⟨x, hx, hxl, hxq⟩
      obtain ⟨cs, e1, e2, e3, e4, e5, e6⟩ := deadEdges_shape hi (Z.succs i) (markMatch Z i P R) rest
      generalize (deadEdges i P (Z.succs i) (markMatch Z i P R) rest).1 = R1 at h e3 e4 e5 e6
      rw [e1] at h
      have hv1 : Visited Z (i :: P) R1 (i :: D) := by
        refine ⟨?_, ?_, ?_, ?_⟩
        · intro x hx
          rcases List.mem_cons.1 hx with rfl | hx
          · simp
          · simp [hv.par x hx]
        · intro x hx
          have : x ∈ R ∨ x ∈ i :: P := by
            rcases e5 x hx with h | h
            · exact hmark x h
            · exact Or.inr h
          rcases this with h | h
          · simp [hv.marked x h]
          · rcases List.mem_cons.1 h with rfl | h
            · simp
            · simp [hv.par x h]
        · intro d hd hp j hj
          simp only [List.mem_cons, not_or] at hp
          rcases List.mem_cons.1 hd with rfl | hd
          · exact absurd rfl hp.1
          · simp [hv.closed d hd hp.2 j hj]
        · intro d hd hp hl
          simp only [List.mem_cons, not_or] at hp
          rcases List.mem_cons.1 hd with rfl | hd
          · exact absurd rfl hp.1
          · exact e4 d (hmark' d (hv.live d hd hp.2 hl))
      -- either everything is marked, or the last live successor does it
      have hgood : (∀ x ∈ i :: P, x ∈ R1) ∨ (Z.Live i → ∃ a l b, cs = a ++ l :: b ∧ Z.Live l ∧ l ∉ i :: P ∧ (∀ j ∈ a, j = i ∨ ¬ Z.Live j) ∧
          ∀ R2, (∀ x ∈ R1, x ∈ R2) → Ahead rank l (i :: P) R2) := by
        by_cases hm : Z.isMatch i = true
        · left
          intro x hx
          refine e4 x ?_
          unfold markMatch
          rw [if_pos hm]
          exact List.mem_append_right _ hx
        rcases e6 with e6 | ⟨e6, e7⟩
        · exact Or.inl e6
        · right
          intro hl
          obtain ⟨pre, l, post, hs, hll, hlr, hpost⟩ := (hlast i hl).resolve_left hm
          have hlR : l ∉ R := fun hc => e7 l (by simp [hs]) (hmark' l hc)
          have hah := hg hl hi
          refine ⟨post.reverse, l, pre.reverse, by simp [e6, hs], hll, ?_, ?_, ?_⟩
          · intro hc
            rcases List.mem_cons.1 hc with rfl | hc
            · exact lt_irrefl _ hlr
            · rcases hah l hc with h | h
              · exact hlR h
              · exact lt_asymm hlr h
          · intro j hj
            exact hpost j (by simpa using hj)
          · intro R2 hR2 x hx
            rcases List.mem_cons.1 hx with rfl | hx
            · exact Or.inr hlr
            · rcases hah x hx with h | h
              · exact Or.inl (hR2 x (e4 x (hmark' x h)))
              · exact Or.inr (hlr.trans h)
      obtain ⟨f', R', D', hf', h', hv', hD', hcs', hR', hl'⟩ := hseq cs (i :: P) fuel R1 (i :: D) le_rfl h hv1 (by
        intro a c b hcs R2 hR2 ha hlc hcQ
        rcases hgood with hgood | hgood
        · exact fun x hx => Or.inl (hR2 x (hgood x hx))
        · have hli : Z.Live i := by
            obtain ⟨c', -, e⟩ := mem_succs.1 (e2 c (by simp [hcs]))
            exact live_of_edge e hlc
          obtain ⟨a', l, b', hcs', hll, hlQ, ha', hah⟩ := hgood hli
          rw [hcs'] at hcs
          rcases List.append_eq_append_iff.1 hcs with ⟨t, rfl, ht⟩ | ⟨t, rfl, ht⟩
          · rcases t with _ | ⟨y, t⟩
            · simp only [List.nil_append, List.cons.injEq] at ht
              obtain ⟨rfl, -⟩ := ht
              exact hah R2 hR2
            · simp only [List.cons_append, List.cons.injEq] at ht
              obtain ⟨rfl, -⟩ := ht
              exact fun x hx => Or.inl (ha ⟨l, by simp, hll, hlQ⟩ x hx)
          · rcases t with _ | ⟨y, t⟩
            · simp only [List.nil_append, List.cons.injEq] at ht
              obtain ⟨rfl, -⟩ := ht
              exact hah R2 hR2
            · simp only [List.cons_append, List.cons.injEq] at ht
              obtain ⟨rfl, -⟩ := ht
              rcases ha' c (by simp) with rfl | h
              · exact absurd (by simp) hcQ
              · exact absurd hlc h)
      have hlive : Z.Live i → ∀ x ∈ i :: P, x ∈ R' := by
        intro hl
        rcases hgood with hgood | hgood
        · exact fun x hx => hR' x (hgood x hx)
        · obtain ⟨a', l, b', hcs, hll, hlQ, -, -⟩ := hgood hl
          exact hl' ⟨l, by simp [hcs], hll, hlQ⟩
      refine ⟨f', R', D', by omega, h', ?_, fun x hx => hD' x (by simp [hx]), hD' i (by simp), fun x hx => hR' x (e4 x (hmark' x hx)),
        fun hl _ => hlive hl⟩
      refine ⟨fun x hx => hD' x (by simp [hv.par x hx]), hv'.marked, ?_, ?_⟩
      · intro d hd hp j hj
        by_cases hdi : d = i
        · subst hdi
          rcases e3 j hj with h | h
          · exact hcs' j h
          · exact hv'.marked j (hR' j h)
        · exact hv'.closed d hd (by simp [hdi, hp]) j hj
      · intro d hd hp hl
        by_cases hdi : d = i
        · subst hdi
          exact hlive hl d (by simp)
        · exact hv'.live d hd (by simp [hdi, hp]) hl

/-- All live states are kept if the last live successors have smaller ranks. -/
theorem liveStates_last (hw : Z.WellFormed) (hlast : LastLower Z rank) {fuel : Nat} {alive : List Nat}
    (h : Z.liveStates fuel = .ok alive) {i : Nat} (hr : Z.Reachable i) (hl : Z.Live i) : i ∈ alive := by
  have hseq : ∀ (cs : List Nat) (f : Nat) (R D : List Nat), deadLoop Z f (cs.map (fun j => (j, []))) R = .ok alive →
      Visited Z [] R D → ∃ D', Visited Z [] alive D' ∧ (∀ x ∈ D, x ∈ D') ∧ ∀ c ∈ cs, c ∈ D' := by
    intro cs
    induction cs with
    | nil =>
      intro f R D h hv
      rcases f with _ | f
      · simp [deadLoop] at h
      · simp only [List.map_nil, deadLoop, Except.ok.injEq] at h
        subst h
        exact ⟨D, hv, fun _ hx => hx, by simp⟩
    | cons c cs ih =>
      intro f R D h hv
      obtain ⟨f', R', D', -, h', hv', hD', hc', -, -⟩ := dead_big hlast f c [] _ R D alive h hv (fun _ _ x hx => by simp at hx)
      obtain ⟨D2, hv2, hD2, hc2⟩ := ih f' R' D' h' hv'
      refine ⟨D2, hv2, fun x hx => hD2 x (hD' x hx), ?_⟩
      intro x hx
      rcases List.mem_cons.1 hx with rfl | hx
      · exact hD2 _ hc'
      · exact hc2 x hx
  obtain ⟨D, hv, -, hD⟩ := hseq Z.init.reverse fuel [] [] h ⟨by simp, by simp, by simp, by simp⟩
  obtain ⟨i₀, hi₀, l, hp⟩ := hr
  have : i ∈ D := by
    have h0 : i₀ ∈ D := hD i₀ (by simpa using hi₀)
    clear hi₀ hl
    induction hp with
    | nil => exact h0
    | cons e p ih => exact ih (hv.closed _ h0 (by simp) _ (succs_of_edge hw e))
  exact hv.live i this (by simp) hl

end Verif.ZA
