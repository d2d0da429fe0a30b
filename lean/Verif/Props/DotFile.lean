import Verif.Spec.DotFile
import Verif.Props.Dot

/-!
# C85: files of automata
-/

set_option linter.unusedSectionVars false

namespace Verif.Props

open Verif

variable {K : Type} [Field K] [LinearOrder K]

theorem mem_fileNames {l : List DotStmt} {n : Nat} : n ∈ fileNames l ↔ ∃ x ∈ l, n ∈ x.names := by
  simp [fileNames, List.mem_insertionSort]

theorem fileNames_nodup (l : List DotStmt) : (fileNames l).Nodup := by
  unfold fileNames
  exact (List.perm_insertionSort _ _).nodup_iff.2 (List.nodup_dedup _)

/-- What the file says of a node is what the loader reads. -/
theorem fileDeclares_iff {l : List DotStmt} {n : Nat} {i f : Bool} :
    FileDeclares l n i f ↔ (l.filterMap (DotStmt.attrs n)).getLast? = some (i, f) := by
  induction l using List.reverseRecOn with
  | nil => simp [FileDeclares]
  | append_singleton l x ih =>
    have hskip : DotStmt.attrs n x = none → (FileDeclares (l ++ [x]) n i f ↔ FileDeclares l n i f) := by
      intro hx
      have hx' : ∀ i' f' z', x ≠ .node n i' f' z' := by
        rintro i' f' z' rfl
        simp [DotStmt.attrs] at hx
      constructor
      · rintro ⟨l1, z, l2, he, hl2⟩
        rcases List.eq_nil_or_concat l2 with rfl | ⟨l3, y, rfl⟩
        · have := (List.append_inj' he rfl).2
          simp only [List.cons.injEq, and_true] at this
          exact absurd this (hx' _ _ _)
        · rw [List.concat_eq_append, ← List.cons_append, ← List.append_assoc] at he
          refine ⟨l1, z, l3, (List.append_inj' he rfl).1, fun i' f' z' hm => hl2 i' f' z' ?_⟩
          simp [hm]
      · rintro ⟨l1, z, l2, rfl, hl2⟩
        refine ⟨l1, z, l2 ++ [x], by simp, fun i' f' z' hm => ?_⟩
        rcases List.mem_append.1 hm with hm | hm
        · exact hl2 _ _ _ hm
        · exact hx' _ _ _ (List.mem_singleton.1 hm).symm
    rw [List.filterMap_append]
    cases hx : DotStmt.attrs n x with
    | none => rw [hskip hx, ih]; simp [hx]
    | some p =>
      simp only [List.filterMap_cons, hx, List.filterMap_nil, List.getLast?_append, List.getLast?_singleton,
        Option.some_or, Option.some.injEq]
      obtain ⟨m, i0, f0, z0⟩ | _ := x
      swap
      · simp [DotStmt.attrs] at hx
      simp only [DotStmt.attrs] at hx
      split at hx
      swap
      · cases hx
      rename_i hmn
      subst hmn
      simp only [Option.some.injEq] at hx
      subst hx
      constructor
      · rintro ⟨l1, z, l2, he, hl2⟩
        rcases List.eq_nil_or_concat l2 with rfl | ⟨l3, y, rfl⟩
        · have := (List.append_inj' he rfl).2
          simp only [List.cons.injEq, and_true, DotStmt.node.injEq] at this
          rw [this.2.1, this.2.2.1]
        · rw [List.concat_eq_append, ← List.cons_append, ← List.append_assoc] at he
          have := (List.append_inj' he rfl).2
          simp only [List.cons.injEq, and_true] at this
          exact absurd (by simp [← this]) (hl2 i0 f0 z0)
      · intro he
        cases he
        exact ⟨l, z0, [], rfl, by simp⟩

theorem readEdges_mem_iff {names : List Nat} {l : List DotStmt} {es : List DotEdge} (h : readEdges names l = .ok es) {e : DotEdge} :
    e ∈ es ↔ ∃ s t a gs rs g xs, .edge s t a gs rs ∈ l ∧ readGuard gs = .ok g ∧ readResets rs = .ok xs ∧
      e = ⟨names.idxOf s, names.idxOf t, a, xs, g⟩ := by
  induction l generalizing es with
  | nil =>
    simp only [readEdges, Except.ok.injEq] at h
    subst h
    simp
  | cons x l ih =>
    obtain _ | ⟨s, t, a, gs, rs⟩ := x
    · simp only [readEdges] at h
      rw [ih h]
      simp
    · simp only [readEdges, bind, Except.bind] at h
      split at h
      · cases h
      rename_i g hg
      split at h
      · cases h
      rename_i xs hxs
      split at h
      · cases h
      rename_i es' hes
      simp only [pure, Except.pure, Except.ok.injEq] at h
      subst h
      rw [List.mem_cons, ih hes]
      constructor
      · rintro (rfl | ⟨s', t', a', gs', rs', g', xs', hm, h1, h2, rfl⟩)
        · exact ⟨s, t, a, gs, rs, g, xs, by simp, hg, hxs, rfl⟩
        · exact ⟨s', t', a', gs', rs', g', xs', List.mem_cons_of_mem _ hm, h1, h2, rfl⟩
      · rintro ⟨s', t', a', gs', rs', g', xs', hm, h1, h2, rfl⟩
        rcases List.mem_cons.1 hm with hm | hm
        · cases hm
          rw [hg] at h1
          rw [hxs] at h2
          cases h1
          cases h2
          exact .inl rfl
        · exact .inr ⟨s', t', a', gs', rs', g', xs', hm, h1, h2, rfl⟩

theorem readEdges_ok_iff {names : List Nat} {l : List DotStmt} :
    (∃ es, readEdges names l = .ok es) ↔
      ∀ s t a gs rs, .edge s t a gs rs ∈ l → (∃ g, readGuard gs = .ok g) ∧ ∃ xs, readResets rs = .ok xs := by
  induction l with
  | nil => simp [readEdges]
  | cons x l ih =>
    obtain _ | ⟨s, t, a, gs, rs⟩ := x
    · simp only [readEdges, ih, List.mem_cons, reduceCtorEq, false_or]
    · constructor
      · rintro ⟨es, h⟩ s' t' a' gs' rs' hm
        simp only [readEdges, bind, Except.bind] at h
        split at h
        · cases h
        rename_i g hg
        split at h
        · cases h
        rename_i xs hxs
        split at h
        · cases h
        rename_i es' hes
        rcases List.mem_cons.1 hm with hm | hm
        · cases hm
          exact ⟨⟨g, hg⟩, xs, hxs⟩
        · exact ih.1 ⟨es', hes⟩ s' t' a' gs' rs' hm
      · intro h
        obtain ⟨⟨g, hg⟩, xs, hxs⟩ := h s t a gs rs (by simp)
        obtain ⟨es, hes⟩ := ih.2 fun s' t' a' gs' rs' hm => h s' t' a' gs' rs' (List.mem_cons_of_mem _ hm)
        exact ⟨_, by simp only [readEdges, hg, hxs, hes, bind, Except.bind, pure, Except.pure]; rfl⟩

section
variable {l : List DotStmt} {es : List DotEdge}

theorem file_ok (h : readEdges (fileNames l) l = .ok es) : DotGraph.Ok ⟨(fileNames l).map (nodeAttrs l), es⟩ := by
  intro e he
  obtain ⟨s, t, a, gs, rs, g, xs, hm, -, -, rfl⟩ := (readEdges_mem_iff h).1 he
  simp only [List.length_map]
  exact ⟨List.idxOf_lt_length_iff.2 (mem_fileNames.2 ⟨_, hm, by simp [DotStmt.names]⟩),
    List.idxOf_lt_length_iff.2 (mem_fileNames.2 ⟨_, hm, by simp [DotStmt.names]⟩)⟩

theorem file_reads (h : readEdges (fileNames l) l = .ok es) {n : Nat} (hn : n ∈ fileNames l) (r : Nat → K) (w : TWord K) (v' : Nat) :
    DotGraph.Reads ⟨(fileNames l).map (nodeAttrs l), es⟩ ((fileNames l).idxOf n) r w v' ↔
      ∃ n' ∈ fileNames l, (fileNames l).idxOf n' = v' ∧ FileReads l n r w n' := by
  induction w generalizing n r with
  | nil =>
    constructor
    · intro (e : _ = v'); exact ⟨n, hn, e, rfl⟩
    · rintro ⟨n', -, e, (e' : n = n')⟩; show _ = v'; rw [← e, e']
  | cons x w ih =>
    obtain ⟨a, t⟩ := x
    simp only [FileReads, DotGraph.Reads]
    constructor
    · rintro ⟨e, he, hsrc, hl, hg, hr⟩
      obtain ⟨s1, m, a1, gs, rs, g, xs, hm, h1, h2, rfl⟩ := (readEdges_mem_iff h).1 he
      have := (List.idxOf_inj (mem_fileNames.2 ⟨_, hm, by simp [DotStmt.names]⟩)).1 hsrc
      subst this
      simp only at hl
      subst hl
      obtain ⟨n', hn', hv, hr'⟩ := (ih (mem_fileNames.2 ⟨_, hm, by simp [DotStmt.names]⟩) _).1 hr
      exact ⟨n', hn', hv, m, gs, rs, g, xs, hm, h1, h2, hg, hr'⟩
    · rintro ⟨n', hn', hv, m, gs, rs, g, xs, hm, h1, h2, hg, hr⟩
      exact ⟨_, (readEdges_mem_iff h).2 ⟨n, m, a, gs, rs, g, xs, hm, h1, h2, rfl⟩, rfl, rfl, hg,
        (ih (mem_fileNames.2 ⟨_, hm, by simp [DotStmt.names]⟩) _).2 ⟨n', hn', hv, hr⟩⟩

theorem file_vertex {n : Nat} (hn : n ∈ fileNames l) :
    ((fileNames l).map (nodeAttrs l))[(fileNames l).idxOf n]? = some (nodeAttrs l n) := by
  have hlt := List.idxOf_lt_length_iff.2 hn
  rw [List.getElem?_map, List.getElem?_eq_getElem hlt, Option.map_some, List.getElem_idxOf]

theorem file_vertex_surj {v : Nat} {p : Bool × Bool} (h : ((fileNames l).map (nodeAttrs l))[v]? = some p) :
    ∃ n ∈ fileNames l, (fileNames l).idxOf n = v ∧ nodeAttrs l n = p := by
  rw [List.getElem?_map, Option.map_eq_some_iff] at h
  obtain ⟨n, hn, hp⟩ := h
  obtain ⟨hlt, rfl⟩ := List.getElem?_eq_some_iff.1 hn
  exact ⟨_, List.getElem_mem hlt, (fileNames_nodup l).idxOf_getElem _ hlt, hp⟩

theorem declared_name {n : Nat} {i f : Bool} (h : FileDeclares l n i f) : n ∈ fileNames l := by
  obtain ⟨l1, z, l2, rfl, -⟩ := h
  exact mem_fileNames.2 ⟨.node n i f z, by simp, by simp [DotStmt.names]⟩

theorem nodeAttrs_declared {n : Nat} {i f : Bool} (h : FileDeclares l n i f) : nodeAttrs l n = (i, f) := by
  rw [nodeAttrs, fileDeclares_iff.1 h]; rfl

theorem nodeAttrs_init {n : Nat} {f : Bool} (h : nodeAttrs l n = (true, f)) : FileDeclares l n true f := by
  rw [fileDeclares_iff]
  unfold nodeAttrs at h
  cases hc : (l.filterMap (DotStmt.attrs n)).getLast? with
  | none => rw [hc] at h; simp at h
  | some p => rw [hc] at h; simpa using h

theorem nodeAttrs_match {n : Nat} {i : Bool} (h : nodeAttrs l n = (i, true)) : FileDeclares l n i true := by
  rw [fileDeclares_iff]
  unfold nodeAttrs at h
  cases hc : (l.filterMap (DotStmt.attrs n)).getLast? with
  | none => rw [hc] at h; simp at h
  | some p => rw [hc] at h; simpa using h

theorem file_accepts (h : readEdges (fileNames l) l = .ok es) (t0 : K) (w : TWord K) :
    DotGraph.AcceptsFrom ⟨(fileNames l).map (nodeAttrs l), es⟩ t0 w ↔ FileAccepts l t0 w := by
  constructor
  · rintro ⟨v, m, hv, v', i, hr, hv'⟩
    obtain ⟨n, hn, rfl, hp⟩ := file_vertex_surj hv
    obtain ⟨n', hn', rfl, hr'⟩ := (file_reads h hn _ _ _).1 hr
    rw [file_vertex hn', Option.some.injEq] at hv'
    exact ⟨n, m, nodeAttrs_init hp, n', i, hr', nodeAttrs_match hv'⟩
  · rintro ⟨n, f, hd, n', i, hr, hd'⟩
    have hn := declared_name hd
    have hn' := declared_name hd'
    refine ⟨(fileNames l).idxOf n, f, by rw [← nodeAttrs_declared hd]; exact file_vertex hn, (fileNames l).idxOf n', i,
      (file_reads h hn _ _ _).2 ⟨n', hn', rfl, hr⟩, by rw [← nodeAttrs_declared hd']; exact file_vertex hn'⟩

end

/-- **C85.**  A file can be loaded iff the guards and resets of its transitions can be read, and then, wherever the states are
allocated, the automaton accepts exactly the words on the paths written in the file, from a node declared (last) with `init=1` to
a node declared (last) with `match=1`. -/
theorem file_lang (alloc : Nat → Nat) (hinj : Function.Injective alloc) (l : List DotStmt) :
    ((∃ A, loadTA alloc l = .ok A) ↔
      ∀ s t a gs rs, .edge s t a gs rs ∈ l → (∃ g, readGuard gs = .ok g) ∧ ∃ xs, readResets rs = .ok xs) ∧
    ∀ A, loadTA alloc l = .ok A → ∀ (t0 : K) (w : TWord K), A.AcceptsFrom t0 w ↔ FileAccepts l t0 w := by
  rw [← readEdges_ok_iff (names := fileNames l)]
  constructor
  · constructor
    · rintro ⟨A, h⟩
      simp only [loadTA, parseBoostTA, bind, Except.bind] at h
      cases hes : readEdges (fileNames l) l with
      | error e => rw [hes] at h; cases h
      | ok es => exact ⟨es, rfl⟩
    · rintro ⟨es, h⟩
      exact ⟨_, by simp only [loadTA, parseBoostTA, h, bind, Except.bind, pure, Except.pure]; rfl⟩
  · intro A h t0 w
    simp only [loadTA, parseBoostTA, bind, Except.bind] at h
    cases hes : readEdges (fileNames l) l with
    | error e => rw [hes] at h; cases h
    | ok es =>
      rw [hes] at h
      simp only [pure, Except.pure, Except.ok.injEq] at h
      subst h
      exact (conv_accepts hinj (file_ok hes) t0 w).trans (file_accepts hes t0 w)

/-- A file with a node which is declared twice (first accepting, then not) and a node which is never declared. -/
def twiceFile : List DotStmt :=
  [.node 1 true true false, .node 2 false true false, .edge 1 2 97 "{x0 < 5}".toList [], .edge 1 3 98 [] "{0}".toList,
    .node 1 true false false]

/-- The file is loaded and accepts `a` at time 1, but neither the empty word nor `b`. -/
example : Function.Injective down ∧ (∃ A, loadTA down twiceFile = .ok A) ∧ FileAccepts twiceFile (0 : ℚ) [(97, 1)] ∧
    ¬ FileAccepts twiceFile (0 : ℚ) [] ∧ ¬ FileAccepts twiceFile (0 : ℚ) [(98, 1)] := by
  have hd : ∀ {n i f}, FileDeclares twiceFile n i f → (n = 1 ∧ i = true ∧ f = false) ∨ (n = 2 ∧ i = false ∧ f = true) := by
    intro n i f h
    have h' := nodeAttrs_declared h
    have hn := declared_name h
    have : fileNames twiceFile = [1, 2, 3] := by decide +kernel
    rw [this] at hn
    simp only [List.mem_cons, List.not_mem_nil, or_false] at hn
    rcases hn with rfl | rfl | rfl
    · rw [show nodeAttrs twiceFile 1 = (true, false) by decide +kernel] at h'
      cases h'; exact .inl ⟨rfl, rfl, rfl⟩
    · rw [show nodeAttrs twiceFile 2 = (false, true) by decide +kernel] at h'
      cases h'; exact .inr ⟨rfl, rfl, rfl⟩
    · rw [fileDeclares_iff, show (twiceFile.filterMap (DotStmt.attrs 3)).getLast? = none by decide +kernel] at h
      cases h
  have h1 : readGuard "{x0 < 5}".toList = .ok [⟨0, .lt, 5⟩] := by decide +kernel
  refine ⟨down_inj, ?_, ?_, ?_, ?_⟩
  · refine ((file_lang (K := ℚ) down down_inj twiceFile).1).2 ?_
    intro s t a gs rs hm
    simp only [twiceFile, List.mem_cons, List.not_mem_nil, reduceCtorEq, DotStmt.edge.injEq, false_or, or_false] at hm
    rcases hm with ⟨rfl, rfl, rfl, rfl, rfl⟩ | ⟨rfl, rfl, rfl, rfl, rfl⟩
    · exact ⟨⟨_, h1⟩, [], rfl⟩
    · exact ⟨⟨[], rfl⟩, [0], by decide +kernel⟩
  · refine ⟨1, false, ?_, 2, false, ⟨2, "{x0 < 5}".toList, [], [⟨0, .lt, 5⟩], [], by simp [twiceFile], h1, rfl, ?_, rfl⟩, ?_⟩
    · rw [fileDeclares_iff]; decide +kernel
    · intro c hc
      simp only [List.mem_singleton] at hc
      subst hc
      simp only [Constraint.Holds]
      norm_num
      decide
    · rw [fileDeclares_iff]; decide +kernel
  · rintro ⟨n, f, h, n', i, (rfl : n = n'), h'⟩
    rcases hd h with ⟨rfl, -, -⟩ | ⟨-, h2, -⟩
    · rcases hd h' with ⟨-, -, h3⟩ | ⟨h3, -⟩
      · cases h3
      · cases h3
    · cases h2
  · rintro ⟨n, f, h, n', i, ⟨m, gs, rs, g, xs, hm, -, -, -, (rfl : m = n')⟩, h'⟩
    simp only [twiceFile, List.mem_cons, List.not_mem_nil, reduceCtorEq, DotStmt.edge.injEq, false_or, or_false] at hm
    rcases hm with ⟨-, -, h3, -⟩ | ⟨-, rfl, -⟩
    · revert h3; decide
    · rcases hd h' with ⟨h3, -⟩ | ⟨h3, -⟩ <;> cases h3

end Verif.Props
