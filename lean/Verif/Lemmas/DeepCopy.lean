import Verif.Model.DeepCopy
import Verif.Spec.TA
import Mathlib.Tactic.SplitIfs
import Mathlib.Data.List.Nodup

/-! The copy of an automaton. -/

namespace Verif

theorem update_self {V : Type} (m : Nat → V) (k : Nat) (v : V) : update m k v k = v := by simp [update]

theorem update_ne {V : Type} (m : Nat → V) {k a : Nat} (v : V) (h : a ≠ k) : update m k v a = m a := by
  simp [update, h]

/-- After the copies of `done` were made. -/
structure CopyInv (alloc : Nat → Nat) (st : Nat → TAState Nat) (done : List Nat) (c : CopyState) : Prop where
  states : c.states = (List.range done.length).map alloc
  copied : ∀ s ∈ done, ∃ i < done.length, c.old2new s = some (alloc i) ∧ c.heap (alloc i) = st s
  other : ∀ s, s ∉ done → c.old2new s = none
  old : ∀ a, (∀ i < done.length, a ≠ alloc i) → c.heap a = st a
  new : ∀ i < done.length, ∃ s ∈ done, c.heap (alloc i) = st s

theorem copyLoop_inv {alloc : Nat → Nat} (hinj : Function.Injective alloc) {st : Nat → TAState Nat} (l done : List Nat)
    (hfresh : ∀ s ∈ done ++ l, ∀ i, s ≠ alloc i) (c : CopyState) (h : CopyInv alloc st done c) :
    CopyInv alloc st (done ++ l) (copyLoop alloc c l done.length) := by
  induction l generalizing done c with
  | nil => simpa [copyLoop] using h
  | cons s l ih =>
    have hlen : (done ++ [s]).length = done.length + 1 := by simp
    have := ih (done ++ [s]) (by simpa using hfresh)
      { heap := update c.heap (alloc done.length) (c.heap s)
        old2new := update c.old2new s (some (alloc done.length))
        states := c.states ++ [alloc done.length] } ?_
    · rw [hlen] at this
      simpa [copyLoop] using this
    have hs : c.heap s = st s := h.old s fun i _ => hfresh s (by simp) i
    have hne : ∀ i < done.length, alloc i ≠ alloc done.length := fun i hi he => by
      have := hinj he
      omega
    refine ⟨?_, ?_, ?_, ?_, ?_⟩
    · simp [h.states, List.range_succ]
    · intro x hx
      by_cases hxs : x = s
      · subst hxs
        exact ⟨done.length, by simp, by simp [update_self], by simp [update_self, hs]⟩
      · have hx' : x ∈ done := by simpa [hxs] using hx
        obtain ⟨i, hi, h1, h2⟩ := h.copied x hx'
        refine ⟨i, by simp; omega, ?_, ?_⟩
        · simp only
          rw [update_ne _ _ hxs, h1]
        · simp only
          rw [update_ne _ _ (hne i hi), h2]
    · intro x hx
      simp only [List.mem_append, List.mem_singleton, not_or] at hx
      simp only
      rw [update_ne _ _ hx.2]
      exact h.other x hx.1
    · intro a ha
      simp only
      rw [update_ne _ _ (ha done.length (by simp))]
      exact h.old a fun i hi => ha i (by simp; omega)
    · intro i hi
      by_cases hid : i = done.length
      · subst hid
        exact ⟨s, by simp, by simp [update_self, hs]⟩
      · obtain ⟨x, hx, hxe⟩ := h.new i (by simp at hi; omega)
        refine ⟨x, by simp [hx], ?_⟩
        simp only
        rw [update_ne _ _ (hne i (by simp at hi; omega)), hxe]

theorem retarget_fold (m : Nat → Option Nat) (l : List Nat) (hl : l.Nodup) (heap : Nat → TAState Nat) (a : Nat) :
    l.foldl (retargetState m) heap a =
      if a ∈ l then { heap a with next := (heap a).next.map fun p => (p.1, p.2.map (retarget m)) } else heap a := by
  induction l generalizing heap with
  | nil => simp
  | cons b l ih =>
    rw [List.foldl_cons, ih (List.nodup_cons.1 hl).2]
    have hb := (List.nodup_cons.1 hl).1
    by_cases hab : a = b
    · subst hab
      simp [hb, retargetState, update_self]
    · simp [hab, retargetState, update_ne _ _ hab]

/-- What the copy is made of. -/
structure CopyOf (A B : TA Nat) (m : Nat → Option Nat) : Prop where
  maxC : B.maxC = A.maxC
  init : A.init.mapM m = some B.init
  dom : ∀ s, (m s).isSome ↔ s ∈ A.states
  mem : ∀ s b, m s = some b → b ∈ B.states
  cover : ∀ b ∈ B.states, ∃ s ∈ A.states, (B.st b).isMatch = (A.st s).isMatch ∧
    (B.st b).zeroDuration = (A.st s).zeroDuration ∧
    (B.st b).next = (A.st s).next.map fun p => (p.1, p.2.map (retarget m))
  state : ∀ s b, m s = some b → (B.st b).isMatch = (A.st s).isMatch ∧
    (B.st b).zeroDuration = (A.st s).zeroDuration ∧
    (B.st b).next = (A.st s).next.map fun p => (p.1, p.2.map (retarget m))
  keeps : ∀ a, a ∉ B.states → B.st a = A.st a
  disjoint : ∀ b ∈ B.states, b ∉ A.states

theorem mapM_some_of {α β : Type} {f : α → Option β} {l : List α} (h : ∀ a ∈ l, (f a).isSome) :
    ∃ l', l.mapM f = some l' := by
  induction l with
  | nil => exact ⟨[], rfl⟩
  | cons a l ih =>
    obtain ⟨l', hl'⟩ := ih fun x hx => h x (by simp [hx])
    obtain ⟨b, hb⟩ := Option.isSome_iff_exists.1 (h a (by simp))
    exact ⟨b :: l', by simp [hb, hl']⟩

theorem mem_mapM_iff {α β : Type} {f : α → Option β} {l : List α} {l' : List β} (h : l.mapM f = some l') (b : β) :
    b ∈ l' ↔ ∃ a ∈ l, f a = some b := by
  induction l generalizing l' with
  | nil =>
    simp at h
    subst h
    simp
  | cons a l ih =>
    cases ha : f a with
    | none => simp [ha] at h
    | some c =>
      cases hl : l.mapM f with
      | none => simp [ha, hl] at h
      | some l'' =>
        simp [ha, hl] at h
        subst h
        simp [ih hl, ha, eq_comm]

theorem deepCopy_spec {alloc : Nat → Nat} (hinj : Function.Injective alloc) {A : TA Nat}
    (hfresh : ∀ s ∈ A.states, ∀ i, s ≠ alloc i) (hinit : ∀ s ∈ A.init, s ∈ A.states) :
    ∃ B m, deepCopy alloc A = .ok (B, m) ∧ CopyOf A B m ∧
      B.states = (List.range A.states.length).map alloc := by
  have hc := copyLoop_inv hinj (st := A.st) A.states [] (by simpa using hfresh) ⟨A.st, fun _ => none, []⟩
    ⟨rfl, by simp, by simp, by simp, by simp⟩
  simp only [List.nil_append, List.length_nil] at hc
  generalize hcc : copyLoop alloc ⟨A.st, fun _ => none, []⟩ A.states 0 = c at hc
  have hdom : ∀ s, (c.old2new s).isSome ↔ s ∈ A.states := by
    intro s
    constructor
    · intro h
      by_contra hs
      rw [hc.other s hs] at h
      simp at h
    · intro h
      obtain ⟨i, -, h1, -⟩ := hc.copied s h
      simp [h1]
  obtain ⟨init, hi⟩ := mapM_some_of (f := c.old2new) (l := A.init) fun s hs => (hdom s).2 (hinit s hs)
  refine ⟨⟨c.states, init, c.states.foldl (retargetState c.old2new) c.heap, A.maxC⟩, c.old2new, ?_, ?_, hc.states⟩
  · unfold deepCopy
    simp only [hcc, hi]
  have hnd : c.states.Nodup := by
    rw [hc.states]
    exact (List.nodup_range).map hinj
  have hstate : ∀ i < A.states.length, ∀ s, c.heap (alloc i) = A.st s →
      (c.states.foldl (retargetState c.old2new) c.heap) (alloc i)
        = { A.st s with next := (A.st s).next.map fun p => (p.1, p.2.map (retarget c.old2new)) } := by
    intro i hi s hs
    rw [retarget_fold _ _ hnd, if_pos (by rw [hc.states]; exact List.mem_map.2 ⟨i, by simpa using hi, rfl⟩), hs]
  refine ⟨rfl, hi, hdom, ?_, ?_, ?_, ?_, ?_⟩
  · intro s b hb
    have hs : s ∈ A.states := (hdom s).1 (by simp [hb])
    obtain ⟨i, h0, h1, -⟩ := hc.copied s hs
    rw [hb] at h1
    cases h1
    simp only
    rw [hc.states]
    exact List.mem_map.2 ⟨i, by simpa using h0, rfl⟩
  · intro b hb
    simp only [hc.states] at hb
    obtain ⟨i, hi', rfl⟩ := List.mem_map.1 hb
    obtain ⟨s, hs, h2⟩ := hc.new i (by simpa using hi')
    refine ⟨s, hs, ?_⟩
    simp only
    rw [hstate i (by simpa using hi') s h2]
    exact ⟨rfl, rfl, rfl⟩
  · intro s b hb
    have hs : s ∈ A.states := (hdom s).1 (by simp [hb])
    obtain ⟨i, h0, h1, h2⟩ := hc.copied s hs
    rw [hb] at h1
    cases h1
    simp only
    rw [hstate i h0 s h2]
    exact ⟨rfl, rfl, rfl⟩
  · intro a ha
    simp only at ha ⊢
    rw [retarget_fold _ _ hnd, if_neg ha]
    refine hc.old a fun i hi' he => ha ?_
    rw [hc.states, he]
    exact List.mem_map.2 ⟨i, by simpa using hi', rfl⟩
  · intro b hb hA
    simp only [hc.states] at hb
    obtain ⟨i, -, rfl⟩ := List.mem_map.1 hb
    exact hfresh _ hA i rfl

theorem edges_copy {A B : TA Nat} {m : Nat → Option Nat} (h : CopyOf A B m) {s b : Nat} (hb : m s = some b) (a : Alphabet) :
    B.edges b a = (A.edges s a).map (retarget m) := by
  unfold TA.edges Next.at' Next.find
  rw [(h.state s b hb).2.2, List.find?_map]
  have : ((fun p : Alphabet × List (Transition Nat) => p.1 == a) ∘
      fun p : Alphabet × List (Transition Nat) => (p.1, p.2.map (retarget m))) = fun p => p.1 == a := rfl
  rw [this]
  cases ((A.st s).next.find? fun p => p.1 == a) <;> simp

section reads
variable {K : Type} [Field K] [LinearOrder K]

theorem reads_copy {A B : TA Nat} {m : Nat → Option Nat} (h : CopyOf A B m) (hA : A.Closed) {s b : Nat}
    (hb : m s = some b) (r : Nat → K) (w : TWord K) (b' : Nat) :
    B.Reads b r w b' ↔ ∃ s', A.Reads s r w s' ∧ m s' = some b' := by
  induction w generalizing s b r with
  | nil =>
    simp only [TA.Reads]
    constructor
    · rintro rfl
      exact ⟨s, rfl, hb⟩
    · rintro ⟨s', rfl, h'⟩
      rw [hb] at h'
      simpa using h'
  | cons e w ih =>
    obtain ⟨a, t⟩ := e
    have hs : s ∈ A.states := (h.dom s).1 (by simp [hb])
    simp only [TA.Reads, edges_copy h hb, List.mem_map, exists_exists_and_eq_and]
    constructor
    · rintro ⟨e, he, q, hq, hg, hr⟩
      simp only [retarget] at hq hg hr
      cases het : e.target with
      | none => simp [het] at hq
      | some p =>
        rw [het] at hq
        simp only [Option.bind_some] at hq
        obtain ⟨s', h1, h2⟩ := (ih hq _).1 hr
        exact ⟨s', ⟨e, he, p, het, hg, h1⟩, h2⟩
    · rintro ⟨s', ⟨e, he, p, hp, hg, h1⟩, h2⟩
      have hp' : p ∈ A.states := hA.2 s hs a e he p hp
      obtain ⟨q, hq⟩ := Option.isSome_iff_exists.1 ((h.dom p).2 hp')
      refine ⟨e, he, q, by simp [retarget, hp, hq], hg, ?_⟩
      exact (ih hq _).2 ⟨s', h1, h2⟩

theorem accepts_copy {A B : TA Nat} {m : Nat → Option Nat} (h : CopyOf A B m) (hA : A.Closed) (t0 : K) (w : TWord K) :
    B.AcceptsFrom t0 w ↔ A.AcceptsFrom t0 w := by
  unfold TA.AcceptsFrom
  constructor
  · rintro ⟨b, hb, b', hr, hm⟩
    obtain ⟨s, hs, hsb⟩ := (mem_mapM_iff h.init b).1 hb
    obtain ⟨s', h1, h2⟩ := (reads_copy h hA hsb _ w b').1 hr
    exact ⟨s, hs, s', h1, by rw [← (h.state s' b' h2).1]; exact hm⟩
  · rintro ⟨s, hs, s', hr, hm⟩
    obtain ⟨b, hb⟩ := Option.isSome_iff_exists.1 ((h.dom s).2 (hA.1 s hs))
    have hs' : s' ∈ A.states := by
      have : ∀ (w : TWord K) (s : Nat) (r : Nat → K), s ∈ A.states → A.Reads s r w s' → s' ∈ A.states := by
        intro w
        induction w with
        | nil => rintro s r hs rfl; exact hs
        | cons e w ih =>
          rintro s r hs ⟨e', he, q, hq, -, hr⟩
          exact ih q _ (hA.2 s hs _ e' he q hq) hr
      exact this w s _ (hA.1 s hs) hr
    obtain ⟨b', hb'⟩ := Option.isSome_iff_exists.1 ((h.dom s').2 hs')
    refine ⟨b, (mem_mapM_iff h.init b).2 ⟨s, hs, hb⟩, b', (reads_copy h hA hb _ w b').2 ⟨s', hr, hb'⟩, ?_⟩
    rw [(h.state s' b' hb').1]
    exact hm

end reads

end Verif
