import Verif.Lemmas.NormalFormConj
import Verif.Lemmas.SignalTA

/-!
# Parts of the translation to signal automata which are never reached
-/

set_option linter.unusedSectionVars false

namespace Verif

open TMem TA

variable {K : Type} [Field K] [LinearOrder K] [IsStrictOrderedRing K] [FloorRing K]

/-- Accepting states on the heap have no transitions. -/
def HeapFinal (heap : Nat → TAState Nat) : Prop := ∀ a, (heap a).isMatch = true → (heap a).next = []

theorem heapFinal_edgeTA {alloc : Nat → Nat} {heap : Nat → TAState Nat} (h : HeapFinal heap) (k : Nat) (c : Alphabet) (gs) :
    HeapFinal (edgeTA alloc heap k c gs).st := by
  intro a ha
  simp only [edgeTA] at ha ⊢
  split_ifs at ha ⊢
  · rfl
  · exact h a ha

theorem heapFinal_epsTA {alloc : Nat → Nat} {heap : Nat → TAState Nat} (h : HeapFinal heap) (k : Nat) : HeapFinal (epsTA alloc heap k).st := by
  intro a ha
  simp only [epsTA] at ha ⊢
  split_ifs at ha ⊢
  · rfl
  · exact h a ha

theorem heapFinal_concat2 {A B : TA Nat} (h : HeapFinal B.st) : HeapFinal (A.concat2 B).st := by
  intro a ha
  simp only [concat2, mapSt] at ha ⊢
  split_ifs at ha ⊢ <;> first | exact h a ha | (simp only [mapSt] at ha ⊢; split_ifs at ha ⊢ <;> exact h a ha)

theorem heapFinal_within {alloc : Nat → Nat} {k k' : Nat} {A B : TA Nat} {I : Interval K} (h : HeapFinal A.st)
    (hB : A.withinSignalTA alloc k I = .ok (B, k')) : HeapFinal B.st := by
  unfold withinSignalTA at hB
  split at hB
  · cases hB
  · split at hB
    · cases hB
    · cases hB
      intro a ha
      simp only at ha ⊢
      split_ifs at ha ⊢
      · rfl
      · exact h a ha

theorem toInt_known (b : Bnd K) : Yields Known (fun _ => True) b.toInt := by
  cases b <;> simp [Bnd.toInt, Yields]

theorem lowerGuard_known (b : Bnd K) : Yields Known (fun _ => True) (lowerGuard b) := by
  cases b with
  | inf => simp [lowerGuard, Yields]
  | fin c s =>
    simp only [lowerGuard, Bnd.toInt]
    by_cases h : c = 0 ∧ s = true
    · rw [if_pos h]; trivial
    · rw [if_neg h]; trivial

theorem upperGuard_known (b : Bnd K) : Yields Known (fun _ => True) (upperGuard b) := by
  cases b <;> simp [upperGuard, Bnd.toInt, Yields]

theorem intervalGuard_known (I : Interval K) : Yields Known (fun _ => True) (intervalGuard I) := by
  have h1 := lowerGuard_known I.lower
  have h2 := upperGuard_known I.upper
  unfold intervalGuard
  cases e1 : lowerGuard I.lower with
  | error e => rw [e1] at h1; exact h1
  | ok l =>
    cases e2 : upperGuard I.upper with
    | error e => rw [e2] at h2; exact h2
    | ok u => trivial

theorem guardsOf_known : ∀ (S : List (Interval K)), Yields Known (fun _ => True) (guardsOf S)
  | [] => trivial
  | I :: S => by
    have h1 := intervalGuard_known I
    have h2 := guardsOf_known S
    unfold guardsOf
    cases e1 : intervalGuard I with
    | error e => rw [e1] at h1; exact h1
    | ok l =>
      cases e2 : guardsOf S with
      | error e => rw [e2] at h2; exact h2
      | ok u => trivial

theorem singTA_known {alloc : Nat → Nat} {heap : Nat → TAState Nat} (h : HeapFinal heap) (k : Nat) (c : Alphabet) (S : List (Interval K)) :
    Yields Known (fun r => HeapFinal r.1.st) (singTA alloc heap k c S) := by
  unfold singTA
  split
  · exact h
  · next S' _ =>
    have h1 := guardsOf_known S
    split
    · next e he => rw [he] at h1; exact h1
    · exact heapFinal_edgeTA h k c _

theorem concatSignal_known {f : (Nat → TAState Nat) → Nat → Nat → Except Err (TA Nat × Nat)} :
    ∀ (l : List Nat) (A : TA Nat) (k : Nat), (∀ a ∈ l, ∀ heap k, HeapFinal heap → Yields Known (fun r => HeapFinal r.1.st) (f heap k a)) →
    HeapFinal A.st → Yields Known (fun r => HeapFinal r.1.st) (concatSignal f A k l)
  | [], A, k, _, h => h
  | a :: l, A, k, hf, h => by
    have h1 := hf a (List.mem_cons_self ..) A.st k h
    unfold concatSignal
    split
    · next e he => rw [he] at h1; exact h1
    · next B k' he =>
      rw [he] at h1
      exact concatSignal_known l _ _ (fun a ha => hf a (List.mem_cons_of_mem _ ha)) (heapFinal_concat2 h1)

theorem altSignal_known {f : (Nat → TAState Nat) → Nat → Nat → Except Err (TA Nat × Nat)} :
    ∀ (l : List (List Nat)) (A : TA Nat) (k : Nat),
    (∀ c ∈ l, c.length < 2 ∧ ∀ a ∈ c, ∀ heap k, HeapFinal heap → Yields Known (fun r => HeapFinal r.1.st) (f heap k a)) →
    HeapFinal A.st → Yields Known (fun r => HeapFinal r.1.st) (altSignal f A k l)
  | [], A, k, _, h => h
  | [] :: l, A, k, hf, h => by simp [altSignal, Yields]
  | [a] :: l, A, k, hf, h => by
    have h1 := (hf [a] (List.mem_cons_self ..)).2 a (List.mem_singleton.2 rfl) A.st k h
    unfold altSignal
    split
    · next e he => rw [he] at h1; exact h1
    · next B k' he =>
      rw [he] at h1
      exact altSignal_known l _ _ (fun a ha => hf a (List.mem_cons_of_mem _ ha)) h1
  | (a :: b :: c) :: l, A, k, hf, h => by
    have := (hf (a :: b :: c) (List.mem_cons_self ..)).1
    simp only [List.length_cons] at this
    omega

theorem signalAtom_known {B : Bool → Nat → Prop} {L : Nat → List (List Nat)} {m : TMem K} (hm : BadInv B L m) (alloc : Nat → Nat) :
    ∀ (fuel : Nat) (heap : Nat → TAState Nat) (k a : Nat), ¬ B true a → HeapFinal heap →
    Yields Known (fun r => HeapFinal r.1.st) (m.signalAtom alloc fuel heap k a)
  | 0, heap, k, a, _, _ => by simp [signalAtom, Yields]
  | fuel + 1, heap, k, a, ha, h => by
    have hn := (hm.atom a).not.1 ha
    unfold signalAtom
    split
    · exact singTA_known h k _ _
    · exact heapFinal_epsTA h k
    · next d hd =>
      rw [hd] at hn
      have hl := (hm.dnf d).not.1 hn
      have h1 := altSignal_known (f := m.signalAtom alloc fuel) (m.dnf d) (noneTA heap) k (fun c hc =>
        ⟨by by_contra h'; exact hl ⟨c, hc, .inl (not_lt.1 h')⟩, fun a ha heap k hh =>
          signalAtom_known hm alloc fuel heap k a (fun hb => hl ⟨c, hc, .inr ⟨a, ha, hb⟩⟩) hh⟩) h
      split
      · next e he => rw [he] at h1; exact h1
      · next A k' he =>
        rw [he] at h1
        unfold plusSignalTA
        split
        · simp [Except.map, Yields]
        · exact h1
    · simp [Yields]
    · next b l hl =>
      rw [hl] at hn
      have h1 := signalAtom_known hm alloc fuel heap k b (fun hb => hn ⟨b, List.mem_cons_self .., hb⟩) h
      split
      · next e he => rw [he] at h1; exact h1
      · next A k' he =>
        rw [he] at h1
        exact concatSignal_known l A k' (fun a ha heap k hh => signalAtom_known hm alloc fuel heap k a
          (fun hb => hn ⟨a, List.mem_cons_of_mem _ ha, hb⟩) hh) h1
    · next b I hb =>
      rw [hb] at hn
      have h1 := signalAtom_known hm alloc fuel heap k b hn h
      split
      · next e he => rw [he] at h1; exact h1
      · next A k' he =>
        rw [he] at h1
        cases hw : A.withinSignalTA alloc k' I with
        | ok r => exact heapFinal_within h1 hw
        | error e =>
          unfold withinSignalTA at hw
          have h2 := toInt_known I.upper
          split at hw
          · cases hw; simp [Yields]
          · split at hw
            · next e' he' => cases hw; rw [he'] at h2; exact h2
            · cases hw
    · simp [Yields]

theorem repeatsAcc_false {A : TA Nat} (h : HeapFinal A.st) : A.repeatsAcc = false := by
  rw [repeatsAcc, List.any_eq_false]
  intro s hs h'
  obtain ⟨p, hp, h'⟩ := List.any_eq_true.1 h'
  obtain ⟨e, he, h'⟩ := List.any_eq_true.1 h'
  rw [Bool.and_eq_true] at h'
  obtain ⟨h1, h2⟩ := h'
  unfold repeats at h1
  unfold isAcc at h2
  split at h1
  · cases h1
  · next q hq =>
    rw [hq] at h2
    rw [h q h2] at h1
    simp [Next.find] at h1

theorem normalForm_inv {e : TRE K} {fuel d : Nat} {m : TMem K} (h : e.normalForm fuel = .ok (d, m)) : ∃ B L, BadInv B L m ∧ ¬ B false d := by
  unfold TRE.normalForm at h
  cases hd : e.toDNF TMem.empty with
  | error x => rw [hd] at h; cases h
  | ok s =>
    obtain ⟨l, m0⟩ := s
    obtain ⟨k1, -, k3⟩ := toDNF_bad e _ l m0 fresh_empty hd
    have hf := fresh_newDnf k1 l
    have inv : BadInv (Bad (m0.newDnf l)) (m0.newDnf l).dnf (m0.newDnf l) :=
      ⟨fun _ => Bad.node, fun _ => Bad.list, fun _ ha => ha.lt_next hf, fun _ _ => rfl⟩
    have hn := normDnf_bad fuel _ m0.next inv
    rw [hd] at h
    simp only at h
    cases hm : normDnf fuel (m0.newDnf l) m0.next with
    | error x => rw [hm] at h; cases h
    | ok m' =>
      rw [hm] at h hn
      cases h
      exact ⟨_, _, hn⟩

theorem signalTA_known (alloc : Nat → Nat) (fuel : Nat) (e : TRE K) : Yields Known (fun A => HeapFinal (TA.st A)) (e.signalTA alloc fuel) := by
  unfold TRE.signalTA
  cases hn : e.normalForm fuel with
  | error x => have := normalForm_known e fuel; rw [hn] at this; exact this
  | ok r =>
    obtain ⟨d, m⟩ := r
    obtain ⟨B, L, inv, hd⟩ := normalForm_inv hn
    have hl := (inv.dnf d).not.1 hd
    have h1 := altSignal_known (f := m.signalAtom alloc fuel) (m.dnf d) (noneTA fun _ => ⟨false, false, []⟩) 0 (fun c hc =>
        ⟨by by_contra h'; exact hl ⟨c, hc, .inl (not_lt.1 h')⟩, fun a ha heap k hh =>
          signalAtom_known inv alloc fuel heap k a (fun hb => hl ⟨c, hc, .inr ⟨a, ha, hb⟩⟩) hh⟩) (fun a ha => by simp [noneTA])
    simp only
    split
    · next e he => rw [he] at h1; exact h1
    · next A k he =>
      rw [he] at h1
      have h1 : HeapFinal A.st := h1
      rw [renameEps, repeatsAcc_false h1]
      intro a ha
      simp only [TA.owned, mapSt] at ha ⊢
      split_ifs at ha ⊢ with hs
      · rw [h1 a ha]
        rfl
      

end Verif
