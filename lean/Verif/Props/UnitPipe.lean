import Verif.Props.UnitRun
import Verif.Props.Tre2ta
import Verif.Props.SameRuns

/-!
# The unit of time for tre2ta and the pipeline with monaa (C94)
-/

namespace Verif

theorem printed_scale (k : Int) (A : TA Nat) : (A.scale k).printed = A.printed.map fun x => (x.1, x.2.1, x.2.2.scale k) := by
  simp only [TA.printed, List.map_flatMap, List.map_map]
  show A.states.flatMap (fun s => (Next.scale k (A.st s).next).flatMap _) = _
  simp only [Next.scale, List.flatMap_map, List.map_map]
  rfl

theorem names_scale (k : Int) (A : TA Nat) : (A.scale k).names = A.names := by
  have : ((A.scale k).nodeStmts ++ (A.scale k).printed.map (A.scale k).edgeStmt).flatMap DotStmt.names =
      (A.nodeStmts ++ A.printed.map A.edgeStmt).flatMap DotStmt.names := by
    rw [List.flatMap_append, List.flatMap_append, printed_scale, List.flatMap_map, List.flatMap_map, List.flatMap_map]
    rfl
  unfold TA.names fileNames
  rw [this]

theorem attrs_scale (k : Int) (A : TA Nat) (n : Nat) : nodeAttrs ((A.scale k).nodeStmts ++ (A.scale k).printed.map (A.scale k).edgeStmt) n =
    nodeAttrs (A.nodeStmts ++ A.printed.map A.edgeStmt) n := by
  unfold nodeAttrs
  rw [List.filterMap_append, List.filterMap_append, filterMap_edges, filterMap_edges]
  rfl

theorem graph_scale (k : Int) (A : TA Nat) : (A.scale k).graph = A.graph.scale k := by
  unfold TA.graph DotGraph.scale
  congr 1
  · rw [names_scale]
    exact List.map_congr_left fun n _ => attrs_scale k A n
  · rw [names_scale, printed_scale, List.map_map, List.map_map]
    rfl

namespace Props

variable {K : Type} [Field K] [LinearOrder K] [IsStrictOrderedRing K] [FloorRing K]

theorem showEdge_scale (k : Int) (A : TA Nat) (s : Nat) (c : Alphabet) (e : Transition Nat) :
    (∀ d, showEdge A s c e = .ok d → ∃ d', showEdge (A.scale k) s c (e.scale k) = .ok d') ∧
    ∀ x, showEdge A s c e = .error x → showEdge (A.scale k) s c (e.scale k) = .error x := by
  have h : ∀ p, stateNumber (A.scale k) p = stateNumber A p := fun p => rfl
  unfold showEdge
  simp only [h]
  have ht : (e.scale k).target = e.target := rfl
  rw [ht]
  cases stateNumber A (some s) with
  | error x => exact ⟨fun d hd => (nomatch hd), fun y hy => hy⟩
  | ok n =>
    cases stateNumber A e.target with
    | error x => exact ⟨fun d hd => (nomatch hd), fun y hy => hy⟩
    | ok m => exact ⟨fun d hd => ⟨_, rfl⟩, fun y hy => (nomatch hy)⟩

theorem mapM_agree {α β : Type} (f g : α → Except Err β)
    (h : ∀ a, (∀ d, f a = .ok d → ∃ d', g a = .ok d') ∧ ∀ x, f a = .error x → g a = .error x) (l : List α) :
    (∀ d, l.mapM f = .ok d → ∃ d', l.mapM g = .ok d') ∧ ∀ x, l.mapM f = .error x → l.mapM g = .error x := by
  induction l with
  | nil => exact ⟨fun d _ => ⟨[], rfl⟩, fun x hx => (nomatch hx)⟩
  | cons a l ih =>
    rw [List.mapM_cons, List.mapM_cons]
    cases hf : f a with
    | error x =>
      rw [(h a).2 x hf]
      exact ⟨fun d hd => (nomatch hd), fun y hy => hy⟩
    | ok b =>
      obtain ⟨b', hb'⟩ := (h a).1 b hf
      rw [hb']
      cases hl : l.mapM f with
      | error x =>
        have := ih.2 x hl
        refine ⟨fun d hd => ?_, fun y hy => ?_⟩
        · simp [bind, Except.bind, hl] at hd
        · simp only [bind, Except.bind, hl, this] at hy ⊢
          exact hy
      | ok bs =>
        obtain ⟨bs', hbs'⟩ := ih.1 bs hl
        refine ⟨fun d _ => ⟨b' :: bs', ?_⟩, fun y hy => ?_⟩
        · simp [bind, Except.bind, hbs', pure, Except.pure]
        · simp [bind, Except.bind, hl, pure, Except.pure] at hy

theorem showTA_scale (k : Int) (A : TA Nat) : (∀ l, showTA A = .ok l → ∃ l', showTA (A.scale k) = .ok l') ∧
    ∀ x, showTA A = .error x → showTA (A.scale k) = .error x := by
  have key := mapM_agree (fun x : Nat × Alphabet × Transition Nat => showEdge A x.1 x.2.1 x.2.2)
    (fun x => showEdge (A.scale k) x.1 x.2.1 (x.2.2.scale k)) (fun x => showEdge_scale k A _ _ _) A.printed
  have e1 : showTA A = (A.printed.mapM fun x => showEdge A x.1 x.2.1 x.2.2) >>= fun es => pure (A.nodeStmts ++ es) := rfl
  have e2 : showTA (A.scale k) = (A.printed.mapM fun x => showEdge (A.scale k) x.1 x.2.1 (x.2.2.scale k)) >>= fun es => pure (A.nodeStmts ++ es) := by
    have : showTA (A.scale k) = ((A.scale k).printed.mapM fun x => showEdge (A.scale k) x.1 x.2.1 x.2.2) >>=
      fun es => pure ((A.scale k).nodeStmts ++ es) := rfl
    rw [this, printed_scale, List.mapM_map]
    rfl
  rw [e1, e2]
  cases h : (A.printed.mapM fun x => showEdge A x.1 x.2.1 x.2.2) with
  | error x =>
    rw [key.2 x h]
    exact ⟨fun l hl => (nomatch hl), fun y hy => hy⟩
  | ok es =>
    obtain ⟨es', h'⟩ := key.1 es h
    rw [h']
    exact ⟨fun l _ => ⟨_, rfl⟩, fun y hy => (nomatch hy)⟩

theorem tre2taMain_eq (alloc : Nat → Nat) {p : Tre2taOptions} (hv : p.version = false) (hh : p.help = false) {e : TRE K}
    (hp : parsePattern p.pattern.toList = .ok e) : tre2taMain K alloc p = (match e.eventTA alloc with
      | .error x => .died x
      | .ok A => match showTA A with
        | .error x => .died x
        | .ok l => .wrote p.output l) := by
  have hne : p.pattern.isEmpty = false := by
    cases hb : p.pattern.isEmpty with
    | false => rfl
    | true =>
      rw [String.isEmpty_iff] at hb
      rw [hb] at hp
      cases hp
  unfold tre2taMain parseOutcome
  rw [hv, hh, hne, hp]
  rfl

theorem clocks_scale (k : Int) (e : TRE K) : (e.scale k).clocks = e.clocks := by
  induction e with
  | atom => rfl
  | epsilon => rfl
  | plus e ih => exact ih
  | concat e f ih ih' => simp only [TRE.scale, TRE.clocks, ih, ih']
  | disj e f ih ih' => simp only [TRE.scale, TRE.clocks, ih, ih']
  | conj e f ih ih' => simp only [TRE.scale, TRE.clocks, ih, ih']
  | within e _ ih => simp only [TRE.scale, TRE.clocks, ih]

/-- **C94** for `tre2ta`: for a pattern and the pattern in the other unit, `tre2ta` writes a file in both cases, or ends with the same
error in both. -/
theorem tre2ta_unit (k : Int) (hk : 0 < k) (alloc : Nat → Nat) (p p' : Tre2taOptions) (hv : p.version = false) (hh : p.help = false)
    (hv' : p'.version = false) (hh' : p'.help = false) (e : TRE K) (hp : parsePattern p.pattern.toList = .ok e)
    (hp' : parsePattern p'.pattern.toList = .ok (e.scale k)) :
    ((∃ l, tre2taMain K alloc p = .wrote p.output l) ↔ ∃ l, tre2taMain K alloc p' = .wrote p'.output l) ∧
    ∀ x, tre2taMain K alloc p = .died x ↔ tre2taMain K alloc p' = .died x := by
  have ht := TRE.eventTA_scale hk alloc e (parse_intEnds _ _ hp)
  rw [tre2taMain_eq alloc hv hh hp, tre2taMain_eq alloc hv' hh' hp', ht]
  cases hA : e.eventTA alloc with
  | error x => simp [Except.map]
  | ok A =>
    have hs := showTA_scale k A
    cases hl : showTA A with
    | error x => simp [Except.map, hl, hs.2 x hl]
    | ok l =>
      obtain ⟨l', hl'⟩ := hs.1 l hl
      simp [Except.map, hl, hl']

/-- **C94** for the files written by `tre2ta` (`_partial`: for texts without `*` and `>` and at most 256 clocks).  Both files are read, and
the graph of the second is that of the first in the other unit.  So, if Boost reads from the files the statements which were written,
`monaa -f` with the second file prints for the log in the other unit what it prints with the first file for the log, in the other
unit. -/
theorem pipeline_unit_partial (k : Int) (hk : 0 < k) (alloc : Nat → Nat) (hinj : Function.Injective alloc) (p p' : Tre2taOptions)
    (hv : p.version = false) (hh : p.help = false) (hv' : p'.version = false) (hh' : p'.help = false)
    (h1 : '*' ∉ p.pattern.toList) (h2 : '>' ∉ p.pattern.toList) (h1' : '*' ∉ p'.pattern.toList) (h2' : '>' ∉ p'.pattern.toList)
    (e : TRE K) (hp : parsePattern p.pattern.toList = .ok e) (hp' : parsePattern p'.pattern.toList = .ok (e.scale k))
    (h3 : e.clocks ≤ 256) :
    ∃ l l' G, tre2taMain K alloc p = .wrote p.output l ∧ tre2taMain K alloc p' = .wrote p'.output l' ∧
      parseBoostTA l = .ok G ∧ parseBoostTA l' = .ok (G.scale k) ∧
      ∀ (E E' : Env K), E'.alloc = E.alloc → E'.fuel = E.fuel → E'.steps = E.steps → E'.efuel = E.efuel → E'.nfuel = E.nfuel →
        ∀ (o o' : Options), o.Named → o'.Named → o.Consistent → o'.Consistent → o'.signal = o.signal → o'.quiet = o.quiet →
        (asked o).1 = .file p.output → (asked o').1 = .file p'.output →
        E.dot ((E.file p.output).getD []) = .ok l → E'.dot ((E'.file p'.output).getD []) = .ok l' →
        ∀ (w : TWord K), E.LogIs (asked o).2 o.binary w → E'.LogIs (asked o').2 o'.binary (scaleLog k w) → w.length < E.steps →
          (E'.run o').status = (E.run o).status ∧ (E'.run o').printed = (E.run o).printed.map (OutLine.scale k) := by
  obtain ⟨k1, k2⟩ := parse_plain _ e hp
  obtain ⟨k1', k2'⟩ := parse_plain _ _ hp'
  obtain ⟨A, hA, hP⟩ := eventTA_printable alloc hinj e (k1 h2 h3) (k2 h1).regular (parse_consts _ e hp)
  obtain ⟨A', hA', hP'⟩ := eventTA_printable alloc hinj (e.scale k) (k1' h2' (by rwa [clocks_scale])) (k2' h1').regular (parse_consts _ _ hp')
  have ht := TRE.eventTA_scale hk alloc e (parse_intEnds _ _ hp)
  rw [hA, hA'] at ht
  obtain rfl : A' = A.scale k := by simpa [Except.map] using ht
  have g1 := parse_show hP
  have g2 := parse_show hP'
  rw [graph_scale] at g2
  refine ⟨_, _, A.graph, ?_, ?_, g1, g2, ?_⟩
  · rw [tre2taMain_eq alloc hv hh hp]
    simp only [hA, showTA_ok hP]
  · rw [tre2taMain_eq alloc hv' hh' hp']
    simp only [hA', showTA_ok hP']
  · intro E E' a1 a2 a3 a4 a5 o o' hn hn' hc hc' hs hq hf hf' hl hl' w hw hw' hst
    have := program_unit k hk E E' a1 ⟨a5, a2, a3, a4⟩ o o' hn hn' hc hc' (.file hf hl g1 hf' hl' g2) hs hq w hw hw' hst
    exact ⟨this.1, this.2.1⟩

/-- What `tre2ta` writes for a text; empty if it writes nothing. -/
def written (s : String) : List DotStmt :=
  match tre2taMain ℚ down (graphOptions "a.dot" s) with
  | .wrote _ l => l
  | _ => []

/-- The command line `monaa -b -f a.dot log`. -/
def halfFile : Options := { toyOptions with binary := true, automaton := "a.dot", positional := ["log"] }

/-- The hypotheses are met by `(a+)((a%(1,3))$)` and `(a+)((a%(2,6))$)`: the two files are different and not empty, and `monaa -b -f` prints
with the second file and the log in the other unit the lines which `monaa -f` prints with the first file, in the other unit. -/
example : written "(a+)((a%(1,3))$)" ≠ written "(a+)((a%(2,6))$)" ∧ (written "(a+)((a%(1,3))$)").length = 8 ∧
    (Env.run { halfEnv with dot := fun _ => .ok (written "(a+)((a%(2,6))$)") } halfFile).printed =
      (Env.run { sampleEnv with dot := fun _ => .ok (written "(a+)((a%(1,3))$)") } fileOptions).printed.map (OutLine.scale 2) := by
  obtain ⟨l, l', G, h1, h2, -, -, h⟩ := pipeline_unit_partial 2 (by norm_num) down down_inj (graphOptions "a.dot" "(a+)((a%(1,3))$)")
    (graphOptions "a.dot" "(a+)((a%(2,6))$)") rfl rfl rfl rfl (by decide) (by decide) (by decide) (by decide) laterE rfl half_parse (by decide)
  have e1 : written "(a+)((a%(1,3))$)" = l := by simp only [written, h1]
  have e2 : written "(a+)((a%(2,6))$)" = l' := by simp only [written, h2]
  refine ⟨by decide +kernel, by decide +kernel, ?_⟩
  rw [e1, e2]
  have a1 : asked halfFile = (.file "a.dot", "log") := by decide +kernel
  refine (h { sampleEnv with dot := fun _ => .ok l } { halfEnv with dot := fun _ => .ok l' } rfl rfl rfl rfl rfl fileOptions halfFile
    (by simp [Options.Named, fileOptions, toyOptions]) (by simp [Options.Named, halfFile, toyOptions])
    ⟨rfl, rfl, by simp [Options.Conflict, fileOptions, toyOptions], Or.inr ⟨⟨_, file_asked.1⟩, rfl⟩⟩
    ⟨rfl, rfl, by simp [Options.Conflict, halfFile, toyOptions], Or.inr ⟨⟨"a.dot", by rw [a1]⟩, rfl⟩⟩ rfl rfl file_asked.1 (by rw [a1]; rfl) rfl rfl
    twoLog (by rw [file_asked.2]; exact sample_log) (by rw [a1]; exact half_log) (show 4 < 30 by decide)).2

end Props
end Verif
