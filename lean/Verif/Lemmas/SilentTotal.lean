import Verif.Lemmas.Silent
import Verif.Lemmas.Optional

/-!
# Matching with silent transitions is defined and stops
-/

namespace Verif

variable {S K : Type} [Field K] [LinearOrder K]

namespace IZone

/-- The sizes agree: the variables 0 and 1 and the newest variable exist. -/
def Size : IZone K → Prop
  | zone z l k => 2 ≤ z.n ∧ k < z.n ∧ l.length = z.n
  | _ => True

/-- The variable may be used. -/
def Usable (x : Nat) : IZone K → Prop
  | one _ _ => x < 2
  | zone z _ _ => x < z.n
  | _ => True

omit [Field K] [LinearOrder K] in
theorem foldl_n {α : Type} (f : Zone K → α → Zone K) (hf : ∀ z a, (f z a).n = z.n) (l : List α) (z : Zone K) :
    (l.foldl f z).n = z.n := by
  induction l generalizing z with
  | nil => rfl
  | cons a l ih => rw [List.foldl_cons, ih, hf]

theorem closeColumn_n (z : Zone K) (k : Nat) : (closeColumn z k).n = z.n := by
  unfold closeColumn
  refine foldl_n _ (fun _ _ => ?_) _ _
  rfl

theorem closeRow_n (z : Zone K) (k : Nat) : (closeRow z k).n = z.n := by
  unfold closeRow
  refine foldl_n _ (fun z _ => ?_) _ _
  refine foldl_n _ (fun _ _ => ?_) _ _
  rfl

theorem enter_n (z : Zone K) (k newest : Nat) (u l : Bnd K) : (enter z k newest u l).n = z.n := rfl

theorem alloc_size {z : IZone K} (h : z.Size) (u l : Bnd K) :
    (z.alloc u l).Size ∧ (z.alloc u l).Usable 0 ∧ (z.alloc u l).Usable 1 ∧ (z.alloc u l).Usable (z.alloc u l).newestClock := by
  rcases z with _ | _ | ⟨z, al, k⟩ | _
  · simp [alloc, Size, Usable]
  · simp [alloc, Size, Usable, newestClock, closeRow_n, closeColumn_n, convert, Zone.build]
  · obtain ⟨h1, h2, h3⟩ := h
    unfold alloc
    simp only
    split
    · rename_i x hx
      have := List.findIdx?_eq_some_iff_getElem.1 hx
      obtain ⟨hx, -⟩ := this
      simp only [Size, Usable, newestClock, closeRow_n, closeColumn_n, enter_n, List.length_set]
      omega
    · simp only [Size, Usable, newestClock, closeRow_n, closeColumn_n, enter_n, List.length_append, List.length_singleton, grow, Zone.build]
      omega
  · simp [alloc, Size, Usable]

theorem size_usable {z : IZone K} (h : z.Size) {x : Nat} (hx : x < 2) : z.Usable x := by
  rcases z with _ | _ | ⟨z, al, k⟩ | _
  · exact hx
  · trivial
  · exact lt_of_lt_of_le hx h.1
  · trivial

/-- After an operation the sizes still agree and the same variables may be used. -/
def Keeps (z z' : IZone K) : Prop := (z.Size → z'.Size) ∧ z'.newestClock = z.newestClock ∧ ∀ x, z.Usable x → z'.Usable x

theorem Keeps.refl (z : IZone K) : Keeps z z := ⟨id, rfl, fun _ => id⟩

theorem Keeps.trans {a b c : IZone K} (h : Keeps a b) (h' : Keeps b c) : Keeps a c :=
  ⟨fun x => h'.1 (h.1 x), h'.2.1.trans h.2.1, fun x hx => h'.2.2 x (h.2.2 x hx)⟩

theorem tighten_ok_of {z : IZone K} {x y : Nat} (hx : z.Usable x) (hy : z.Usable y) (c : Bnd K) :
    ∃ z', z.tighten x y c = .ok z' ∧ Keeps z z' := by
  rcases z with ⟨lo, up⟩ | b | ⟨z, al, k⟩ | _
  · simp only [Usable] at hx hy
    unfold tighten
    simp only
    split_ifs
    · exact ⟨_, rfl, Keeps.refl _⟩
    · exact ⟨_, rfl, Keeps.refl _⟩
    · omega
    · exact ⟨_, rfl, Keeps.refl _⟩
  · unfold tighten
    simp only
    split_ifs <;> exact ⟨_, rfl, Keeps.refl _⟩
  · simp only [Usable] at hx hy
    unfold tighten
    simp only
    rw [if_pos ⟨hx, hy⟩]
    refine ⟨_, rfl, ?_, rfl, fun x => ?_⟩ <;> split_ifs <;> exact fun h => h
  · exact ⟨_, rfl, Keeps.refl _⟩

theorem tightenVar_ok_of {z : IZone K} {x r : Nat} (hx : z.Usable x) (hy : z.Usable r) (g : Constraint) :
    ∃ z', z.tightenVar x g r = .ok z' ∧ Keeps z z' := by
  unfold tightenVar
  split <;> first | exact tighten_ok_of hx hy _ | exact tighten_ok_of hy hx _

theorem tightenAt_ok_of {z : IZone K} {x : Nat} (hx : z.Usable x) (hy : z.Usable 0) (g : Constraint) (t : K) :
    ∃ z', z.tightenAt x g t = .ok z' ∧ Keeps z z' := by
  unfold tightenAt
  split <;> first | exact tighten_ok_of hx hy _ | exact tighten_ok_of hy hx _

theorem tightenAgo_ok_of {z : IZone K} {x : Nat} (hx : z.Usable x) (hy : z.Usable 0) (g : Constraint) (t : K) :
    ∃ z', z.tightenAgo x g t = .ok z' ∧ Keeps z z' := by
  unfold tightenAgo
  split <;> first | exact tighten_ok_of hx hy _ | exact tighten_ok_of hy hx _

/-- The clocks were reset at known instants, at 0 or at the beginning of the match. -/
def RtOk (n : Nat) (rt : List (RTime K)) : Prop := n ≤ rt.length ∧ ∀ x, RTime.var x ∈ rt → x < 2

theorem tightenNewest_ok {n : Nat} {rt : List (RTime K)} (hrt : RtOk n rt) {gs : List Constraint} (hg : ∀ g ∈ gs, g.x < n) {z : IZone K}
    (hs : z.Size) (hn : z.Usable z.newestClock) : ∃ z', z.tightenNewest rt gs = .ok z' ∧ Keeps z z' := by
  induction gs generalizing z with
  | nil => exact ⟨z, rfl, Keeps.refl z⟩
  | cons g gs ih =>
    have hlt : g.x < rt.length := lt_of_lt_of_le (hg g (by simp)) hrt.1
    have hget : rt[g.x]? = some rt[g.x] := List.getElem?_eq_getElem hlt
    unfold tightenNewest
    rw [hget]
    cases hr : rt[g.x] with
    | «at» t =>
      obtain ⟨z', h1, h2⟩ := tightenAt_ok_of hn (size_usable hs (by omega)) g t
      simp only
      rw [h1]
      obtain ⟨z'', h3, h4⟩ := ih (fun g' hg' => hg g' (by simp [hg'])) (h2.1 hs) (by rw [h2.2.1]; exact h2.2.2 _ hn)
      exact ⟨z'', h3, h2.trans h4⟩
    | var x =>
      obtain ⟨z', h1, h2⟩ := tightenVar_ok_of hn (size_usable hs (hrt.2 x (hr ▸ List.getElem_mem hlt))) g
      simp only
      rw [h1]
      obtain ⟨z'', h3, h4⟩ := ih (fun g' hg' => hg g' (by simp [hg'])) (h2.1 hs) (by rw [h2.2.1]; exact h2.2.2 _ hn)
      exact ⟨z'', h3, h2.trans h4⟩

theorem tightenInstant_ok {n : Nat} {rt : List (RTime K)} (hrt : RtOk n rt) {gs : List Constraint} (hg : ∀ g ∈ gs, g.x < n) {z : IZone K}
    (hs : z.Size) (t : K) : ∃ z', z.tightenInstant rt t gs = .ok z' ∧ z'.Size := by
  induction gs generalizing z with
  | nil => exact ⟨z, rfl, hs⟩
  | cons g gs ih =>
    have hlt : g.x < rt.length := lt_of_lt_of_le (hg g (by simp)) hrt.1
    have hget : rt[g.x]? = some rt[g.x] := List.getElem?_eq_getElem hlt
    unfold tightenInstant
    rw [hget]
    cases hr : rt[g.x] with
    | «at» r =>
      simp only
      refine ih (fun g' hg' => hg g' (by simp [hg'])) ?_
      split_ifs
      · exact hs
      · trivial
    | var x =>
      obtain ⟨z', h1, h2⟩ := tightenAgo_ok_of (size_usable hs (hrt.2 x (hr ▸ List.getElem_mem hlt))) (size_usable hs (by omega)) g t
      simp only
      rw [h1]
      exact ih (fun g' hg' => hg g' (by simp [hg'])) (h2.1 hs)

theorem keepOf_ok {n newest : Nat} {rt : List (RTime K)} (hrt : ∀ x, RTime.var x ∈ rt → x < n) :
    ∃ l, keepOf n newest rt = .ok l ∧ l.length = n := by
  unfold keepOf
  have key : ∀ l : List Bool, l.length = n → ∃ l', List.foldlM (m := Except Err) (fun l (r : RTime K) => match r with
      | .at _ => .ok l
      | .var x => if x < n then .ok (l.set x true) else .error .ub) l rt = .ok l' ∧ l'.length = n := by
    induction rt with
    | nil => exact fun l hl => ⟨l, rfl, hl⟩
    | cons r rt ih =>
      intro l hl
      rw [List.foldlM_cons]
      have ih' := ih fun x hx => hrt x (by simp [hx])
      cases r with
      | «at» t => exact ih' l hl
      | var x =>
        simp only [if_pos (hrt x (by simp)), bind, Except.bind]
        exact ih' _ (by rw [List.length_set]; exact hl)
  exact key _ (by simp)

theorem update_ok_of {rt : List (RTime K)} (hrt : ∀ x, RTime.var x ∈ rt → x < 2) {z : IZone K} (hs : z.Size) :
    ∃ z', z.update rt = .ok z' ∧ z'.Size := by
  rcases z with ⟨lo, up⟩ | b | ⟨z, al, k⟩ | _
  · exact ⟨_, rfl, trivial⟩
  · exact ⟨_, rfl, trivial⟩
  · obtain ⟨h1, h2, h3⟩ := hs
    obtain ⟨l, hl, hlen⟩ := keepOf_ok (newest := k) (rt := rt) (n := z.n) fun x hx => lt_of_lt_of_le (hrt x hx) h1
    unfold update
    simp only [bind]
    rw [hl]
    refine ⟨_, rfl, ?_⟩
    have hn : ((List.range z.n).foldl (fun z x => if 1 ≤ x ∧ l.getD x false = false then deallocate z x else z) z).n = z.n :=
      foldl_n _ (fun z x => by split_ifs <;> rfl) _ _
    exact ⟨by rw [hn]; exact h1, by rw [hn]; exact h2, by rw [hn]; exact hlen⟩
  · exact ⟨_, rfl, trivial⟩

theorem resetSym_ok {v : RTime K} {n : Nat} {rt : List (RTime K)} (hrt : RtOk n rt) (hv : ∀ x, v = .var x → x < 2) {xs : List Nat}
    (hx : ∀ x ∈ xs, x < n) : ∃ rt', resetSym v rt xs = .ok rt' ∧ RtOk n rt' := by
  induction xs generalizing rt with
  | nil => exact ⟨rt, rfl, hrt⟩
  | cons x xs ih =>
    unfold resetSym
    rw [if_pos (lt_of_lt_of_le (hx x (by simp)) hrt.1)]
    refine ih ⟨by rw [List.length_set]; exact hrt.1, fun y hy => ?_⟩ fun y hy => hx y (by simp [hy])
    rcases List.mem_or_eq_of_mem_set hy with h | h
    · exact hrt.2 y h
    · exact hv y h.symm

end IZone

open IZone

/-- A configuration of the matching with silent transitions. -/
def SConf.Ok (A : TA S) (n : Nat) (c : SConf S K) : Prop := c.s ∈ A.states ∧ RtOk n c.rt ∧ c.z.Size

theorem flatMapE_ok {α β : Type} {l : List α} {f : α → Except Err (List β)} {P : β → Prop}
    (h : ∀ a ∈ l, ∃ r, f a = .ok r ∧ ∀ b ∈ r, P b) : ∃ r, flatMapE l f = .ok r ∧ ∀ b ∈ r, P b := by
  induction l with
  | nil => exact ⟨[], rfl, by simp⟩
  | cons a l ih =>
    obtain ⟨r, h1, h2⟩ := h a (by simp)
    obtain ⟨r', h3, h4⟩ := ih fun a ha => h a (by simp [ha])
    unfold flatMapE
    rw [h1, h3]
    refine ⟨_, rfl, fun b hb => ?_⟩
    rcases List.mem_append.1 hb with hb | hb
    · exact h2 b hb
    · exact h4 b hb

section
variable {A : TA S} {n : Nat} (hA : A.Closed) (hC : A.ClocksDeclared) (hn : A.clockSize ≤ n)
include hA hC hn

theorem silentEdge_ok {prev : Option K} {t : K} {c : SConf S K} (hc : c.Ok A n) {e : Transition S} (he : e ∈ A.edges c.s epsilon) :
    ∃ r, silentEdge prev t c e = .ok r ∧ ∀ c' ∈ r, c'.Ok A n ∧ ∃ e ∈ A.edges c.s epsilon, e.target = some c'.s := by
  unfold silentEdge
  rcases ht : e.target with _ | q
  · exact ⟨[], rfl, by simp⟩
  · obtain ⟨hg, hr⟩ := hC c.s epsilon e he
    obtain ⟨a1, a2, a3, a4⟩ := alloc_size hc.2.2 (.fin t true) (lowerEnd prev)
    obtain ⟨z, h1, h2⟩ := tightenNewest_ok hc.2.1 (fun g h => lt_of_lt_of_le (hg g h) hn) a1 a4
    simp only
    rw [h1]
    simp only
    split_ifs
    · obtain ⟨rt, h3, h4⟩ := resetSym_ok (v := .var 0) hc.2.1 (by rintro x ⟨⟩; omega) fun x h => lt_of_lt_of_le (hr x h) hn
      rw [h3]
      obtain ⟨z', h5, h6⟩ := update_ok_of h4.2 (h2.1 a1)
      simp only
      rw [h5]
      refine ⟨_, rfl, fun c' hc' => ?_⟩
      rw [List.mem_singleton] at hc'
      subst hc'
      exact ⟨⟨hA.2 c.s hc.1 epsilon e he q ht, h4, h6⟩, e, he, ht⟩
    · exact ⟨[], rfl, by simp⟩

theorem stepSym_ok {t : K} {c : SConf S K} (hc : c.Ok A n) {a : Alphabet} {e : Transition S} (he : e ∈ A.edges c.s a) :
    ∃ r, stepSym t c e = .ok r ∧ ∀ c' ∈ r, c'.Ok A n := by
  unfold stepSym
  rcases ht : e.target with _ | q
  · exact ⟨[], rfl, by simp⟩
  · obtain ⟨hg, hr⟩ := hC c.s a e he
    obtain ⟨z, h1, h2⟩ := tightenInstant_ok hc.2.1 (fun g h => lt_of_lt_of_le (hg g h) hn) hc.2.2 t
    simp only
    rw [h1]
    simp only
    split_ifs
    · obtain ⟨rt, h3, h4⟩ := resetSym_ok (v := .at t) hc.2.1 (by rintro x ⟨⟩) fun x h => lt_of_lt_of_le (hr x h) hn
      rw [h3]
      obtain ⟨z', h5, h6⟩ := update_ok_of h4.2 h2
      simp only
      rw [h5]
      refine ⟨_, rfl, fun c' hc' => ?_⟩
      rw [List.mem_singleton] at hc'
      subst hc'
      exact ⟨hA.2 c.s hc.1 a e he q ht, h4, h6⟩
    · exact ⟨[], rfl, by simp⟩

omit hA in
theorem acceptSym_ok {prev : Option K} {t : K} {c : SConf S K} (hc : c.Ok A n) {a : Alphabet} {e : Transition S} (he : e ∈ A.edges c.s a) :
    ∃ r, acceptSym A prev t c e = .ok r := by
  unfold acceptSym
  rcases ht : e.target with _ | q
  · exact ⟨[], rfl⟩
  · obtain ⟨hg, hr⟩ := hC c.s a e he
    obtain ⟨a1, a2, a3, a4⟩ := alloc_size hc.2.2 (.fin t true) (lowerEnd prev)
    obtain ⟨z, h1, h2⟩ := tightenNewest_ok hc.2.1 (fun g h => lt_of_lt_of_le (hg g h) hn) a1 a4
    simp only
    split_ifs
    · exact ⟨[], rfl⟩
    · rw [h1]
      simp only
      split_ifs
      · exact ⟨_, rfl⟩
      · exact ⟨_, rfl⟩

/-- If the silent transitions have no cycle, they are followed to the end. -/
theorem silentLoop_ok {rank : S → Nat} (hrank : ∀ s, ∀ e ∈ A.edges s epsilon, ∀ q, e.target = some q → rank q < rank s)
    {prev : Option K} {t : K} {R fuel : Nat} (hf : R < fuel) {cs : List (SConf S K)} (hcs : ∀ c ∈ cs, c.Ok A n ∧ rank c.s < R) :
    ∃ r, silentLoop A prev t fuel cs = .ok r ∧ ∀ c ∈ r, c.Ok A n := by
  induction R generalizing fuel cs with
  | zero =>
    obtain ⟨fuel, rfl⟩ := Nat.exists_eq_succ_of_ne_zero (by omega : fuel ≠ 0)
    cases cs with
    | nil => exact ⟨[], rfl, by simp⟩
    | cons c cs => exact absurd (hcs c (by simp)).2 (by omega)
  | succ R ih =>
    obtain ⟨fuel, rfl⟩ := Nat.exists_eq_succ_of_ne_zero (by omega : fuel ≠ 0)
    unfold silentLoop
    split_ifs
    · exact ⟨[], rfl, by simp⟩
    · obtain ⟨new, h1, h2⟩ := flatMapE_ok (l := cs) (f := fun c => flatMapE (A.edges c.s epsilon) (silentEdge prev t c))
        (P := fun c' => c'.Ok A n ∧ rank c'.s < R) (fun c hc => flatMapE_ok fun e he => by
          obtain ⟨r, h1, h2⟩ := silentEdge_ok hA hC hn (prev := prev) (t := t) (hcs c hc).1 he
          refine ⟨r, h1, fun c' hc' => ⟨(h2 c' hc').1, ?_⟩⟩
          obtain ⟨e', he', ht⟩ := (h2 c' hc').2
          have := hrank _ e' he' _ ht
          have := (hcs c hc).2
          omega)
      rw [h1]
      obtain ⟨rest, h3, h4⟩ := ih (fuel := fuel) (by omega) h2
      simp only
      rw [h3]
      refine ⟨_, rfl, fun c hc => ?_⟩
      rcases List.mem_append.1 hc with hc | hc
      · exact (h2 c hc).1
      · exact h4 c hc

theorem eventSym_ok {rank : S → Nat} (hrank : ∀ s, ∀ e ∈ A.edges s epsilon, ∀ q, e.target = some q → rank q < rank s)
    {R efuel : Nat} (hf : R < efuel) (hR : ∀ s ∈ A.states, rank s < R)
    {prev : Option K} {a : Alphabet} {t : K} {cs : List (SConf S K)} (hcs : ∀ c ∈ cs, c.Ok A n) :
    ∃ r, eventSym A efuel prev a t cs = .ok r ∧ (∀ c ∈ r.2.1, c.Ok A n) ∧ ∀ c ∈ r.2.2, c.Ok A n := by
  obtain ⟨new, h1, h2⟩ := silentLoop_ok hA hC hn hrank (prev := prev) (t := t) hf
    (cs := cs.filter fun c => ((A.st c.s).next.find epsilon).isSome) (fun c hc => by
      have := hcs c (List.mem_filter.1 hc).1
      exact ⟨this, hR _ this.1⟩)
  have hall : ∀ c ∈ cs ++ new, c.Ok A n := by
    intro c hc
    rcases List.mem_append.1 hc with hc | hc
    · exact hcs c hc
    · exact h2 c hc
  obtain ⟨zs, h3, -⟩ := flatMapE_ok (l := cs ++ new) (f := fun c => flatMapE (A.edges c.s a) (acceptSym A prev t c))
    (P := fun _ => True) (fun c hc => flatMapE_ok fun e he => by
      obtain ⟨r, h⟩ := acceptSym_ok hC hn (prev := prev) (t := t) (hall c hc) he
      exact ⟨r, h, fun _ _ => trivial⟩)
  obtain ⟨cs', h4, h5⟩ := flatMapE_ok (l := cs ++ new) (f := fun c => flatMapE (A.edges c.s a) (stepSym t c))
    (P := fun c' => c'.Ok A n) (fun c hc => flatMapE_ok fun e he => stepSym_ok hA hC hn (hall c hc) he)
  refine ⟨(zs, cs ++ new, cs'), ?_, hall, h5⟩
  unfold eventSym silentAll
  rw [h1]
  simp only
  rw [h3]
  simp only
  rw [h4]

theorem runSilent_ok {rank : S → Nat} (hrank : ∀ s, ∀ e ∈ A.edges s epsilon, ∀ q, e.target = some q → rank q < rank s)
    {R efuel : Nat} (hf : R < efuel) (hR : ∀ s ∈ A.states, rank s < R) (prev : Option K) (w : TWord K) {cs last : List (SConf S K)}
    (hcs : ∀ c ∈ cs, c.Ok A n) (hl : ∀ c ∈ last, c.Ok A n) :
    ∃ r, runListE (silentHooks A n efuel) prev w cs last = .ok r ∧ ∀ c ∈ r.2, c.Ok A n := by
  induction w generalizing prev cs last with
  | nil => exact ⟨_, rfl, hcs⟩
  | cons e w ih =>
    unfold runListE
    split_ifs
    · exact ⟨_, rfl, hl⟩
    · obtain ⟨r, h1, h2, h3⟩ := eventSym_ok hA hC hn hrank hf hR (prev := prev) (a := e.1) (t := e.2) hcs
      have h1' : (silentHooks A n efuel).event prev e.1 e.2 cs = .ok r := h1
      rw [h1']
      obtain ⟨r', h4, h5⟩ := ih (some e.2) h3 h2
      simp only
      rw [h4]
      exact ⟨_, rfl, h5⟩

end

omit [LinearOrder K] in
theorem startSym_ok {A : TA S} (hA : A.Closed) (n : Nat) (prev : Option K) (t : K) :
    ∀ c ∈ startSym A n prev t, c.Ok A n := by
  intro c hc
  obtain ⟨s, hs, rfl⟩ := List.mem_map.1 hc
  refine ⟨hA.1 s hs, ⟨by simp, fun x hx => ?_⟩, ?_⟩
  · have := List.eq_of_mem_replicate hx
    cases this
    omega
  · rcases prev with _ | p <;> trivial

end Verif
