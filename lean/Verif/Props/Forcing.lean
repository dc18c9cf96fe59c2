import Verif.Props.Edits
/-
C03 (reuse of clean results), C11 (early cutoff), C12 (dependencies follow the last run), C13 (force_map), C20, C21 (cycles).
All for every engine state.
-/
set_option linter.unusedSectionVars false
set_option linter.unusedVariables false
set_option linter.unusedSimpArgs false
namespace Adapton
variable {V : Type} [UEq V]

/-! ### C03 -/

theorem cleanLoop_allClean (R : Rec V) (ty : Ty) (res : V) (l : Loc) (s : St V) (nd : CompNode V)
    (hl : s.table.get l = some (.comp nd)) (hc : ∀ e ∈ nd.succs, e.dirty = false) (es : List (Succ V))
    (hes : ∀ e ∈ es, e ∈ nd.succs) : cleanLoop R ty res l es s = .ok none s := by
  induction es with
  | nil => rfl
  | cons e es ih =>
    unfold cleanLoop
    obtain ⟨e', he'⟩ := find_of_mem (hes e (List.mem_cons_self ..))
    have hd : e'.dirty = false := hc e' (List.mem_of_find?_eq_some he')
    rw [M.bind_ok (succDirty_ok hl he'), hd]
    simp only [Bool.false_eq_true, if_false]
    exact ih fun e he => hes e (List.mem_cons_of_mem _ he)

/-- **C03.** If a thunk has a cached result, none of its recorded dependencies is dirty, and it is not being evaluated, then
`force` returns the cached result, runs nothing, and leaves the graph unchanged. -/
theorem C03_clean_reuse (env : Env V) (n : Nat) (s : St V) (l : Loc) (nd : CompNode V) (v : V) (cyc : Option V)
    (hl : s.table.get l = some (.comp nd)) (hv : nd.res = some v) (hc : ∀ e ∈ nd.succs, e.dirty = false)
    (hs : ∀ fr ∈ s.stack, fr.loc ≠ l) :
    ∃ s', exec env (n + 1) (.force nd.ty l cyc .ret) s = .ok v s' ∧ NoChange s s' := by
  have key : ∃ s', opForce (recN env (n + 1)) nd.ty l cyc s = .ok v s' ∧ NoChange s s' := by
    unfold opForce
    rw [M.bind_ok (M.get_def s), M.bind_ok (resNode_ok (ty := nd.ty) hl rfl)]
    simp only []
    have hcy : (s.stack.any fun fr => decide (fr.loc = l)) = false := by
      rw [List.any_eq_false]; intro fr hfr; simpa using hs fr hfr
    rw [hcy]
    simp only [Bool.false_eq_true, if_false, hv]
    rw [M.bind_ok (m := evBegin _ _ _) rfl]
    have hcf : ∀ s1 : St V, s1.table = s.table → ∃ b, (recN env (n + 1)).cleanForce nd.ty v l s1 = .ok b s1 := by
      intro s1 h1
      refine ⟨decide (¬ v ≈ᵤ v), ?_⟩
      show cleanForceBody (recN env n) nd.ty v l s1 = _
      unfold cleanForceBody
      rw [M.bind_ok (resNode_ok (ty := nd.ty) (n := .comp nd) (by rw [h1]; exact hl) rfl)]
      simp only [hv]
      rw [M.bind_ok (cleanLoop_allClean _ _ _ _ s1 nd (by rw [h1]; exact hl) hc nd.succs fun _ h => h)]
      rfl
    obtain ⟨b, hcf⟩ := hcf { s with log := .begin (.force .compCacheHit) (topLoc s) l :: s.log } rfl
    rw [M.bind_ok hcf, M.bind_ok (m := evEnd) rfl,
      M.bind_ok (resNode_ok (ty := nd.ty) (n := .comp nd)
        (s := { s with log := .end_ :: .begin (.force .compCacheHit) (topLoc s) l :: s.log }) hl rfl)]
    simp only [hv]
    obtain ⟨s', h1, h2⟩ := fin_noChange (match l.id with
      | .structural _ => decide (nd.succs.length = 0) && s.purity
      | .nominal _ => false) (dupOf s l) l nd.ty v
      { s with log := .end_ :: .begin (.force .compCacheHit) (topLoc s) l :: s.log }
    exact ⟨s', h1, (NoChange.log _ _).trans h2⟩
  obtain ⟨s', h1, h2⟩ := key
  exact ⟨s', exec_force _ _ _ _ _ _ _ _ h1, h2⟩

/-! ### C11 -/

/-- The dependency `d` on location `l` still holds in the graph `t`: a cell has a value (or mapped value) equal to the one that was
observed; a thunk has a value cached equal to the one that was observed, and each of its dependencies that is marked dirty (or shares effect and
target with one that is) still holds. -/
inductive Holds (t : Table V) : Dep V → Loc → Prop
  | struct (l : Loc) : Holds t .allocStruct l
  | cell {l : Loc} {nd : MutNode V} {r : V} : t.get l = some (.mut nd) → nd.val ≈ᵤ r → Holds t (.force nd.ty r) l
  | value {l : Loc} {nd : PureNode V} : t.get l = some (.pure nd) → Holds t (.force nd.ty nd.val) l
  | map {l : Loc} {nd : MutNode V} {r : V} (f : V → V) : t.get l = some (.mut nd) → r ≈ᵤ f nd.val → Holds t (.forceMap nd.ty f r) l
  | thunk {l : Loc} {nd : CompNode V} {r c : V} : t.get l = some (.comp nd) → nd.res = some c → r ≈ᵤ c →
      (∀ e ∈ nd.succs, (∃ e' ∈ nd.succs, e'.effect = e.effect ∧ e'.loc = e.loc ∧ e'.dirty = true) → Holds t e.dep e.loc) →
      Holds t (.force nd.ty r) l

/-- Nothing has changed but dirty bits, and only from dirty to clean. -/
structure OnlyCleaned (s s' : St V) : Prop where
  nodes : ∀ x, NodeUp (s'.table.get x) (s.table.get x)
  stack : s'.stack = s.stack
  path : s'.path = s.path
  modes : s'.purity = s.purity ∧ s'.ignoreNominal = s.ignoreNominal
  noRun : s'.runs = s.runs

theorem OnlyCleaned.refl (s : St V) : OnlyCleaned s s := ⟨fun _ => NodeUp.refl _, rfl, rfl, ⟨rfl, rfl⟩, rfl⟩
theorem OnlyCleaned.trans {a b c : St V} (h1 : OnlyCleaned a b) (h2 : OnlyCleaned b c) : OnlyCleaned a c :=
  ⟨fun x => (h2.nodes x).trans (h1.nodes x), h2.stack.trans h1.stack, h2.path.trans h1.path,
    ⟨h2.modes.1.trans h1.modes.1, h2.modes.2.trans h1.modes.2⟩, h2.noRun.trans h1.noRun⟩
theorem OnlyCleaned.log (s : St V) (lg : List Ev) : OnlyCleaned s { s with log := lg } :=
  ⟨fun _ => NodeUp.refl _, rfl, rfl, ⟨rfl, rfl⟩, rfl⟩

theorem setFirst_down (eff : Effect) (x : Loc) (es : List (Succ V)) : SuccsUp (setFirst eff x false es) es := by
  induction es with
  | nil => exact .nil
  | cons e es ih =>
    simp only [setFirst]
    split
    · exact .cons rfl (by simp) (SuccsUp.refl _)
    · exact .cons rfl (fun h => h) ih

theorem OnlyCleaned.set {s : St V} {p : Loc} {nd : CompNode V} (h : s.table.get p = some (.comp nd)) (eff : Effect) (x : Loc) :
    OnlyCleaned s { s with table := s.table.put p (.comp { nd with succs := setFirst eff x false nd.succs }) } := by
  refine ⟨fun y => ?_, rfl, rfl, ⟨rfl, rfl⟩, rfl⟩
  simp only [Table.get_put]
  split
  · rename_i hy
    rw [hy, h]
    exact ⟨_, rfl, setFirst_down _ _ _⟩
  · exact NodeUp.refl _

theorem NodeUp.pure_right {nd' : PureNode V} {o : Option (Node V)} (h : NodeUp o (some (.pure nd'))) :
    o = some (.pure nd') := by
  match o with
  | some (.comp nd) => obtain ⟨es', h1, h2⟩ := h; cases h1
  | some (.mut nd) => exact h.symm
  | some (.pure nd) => exact h.symm
  | none => cases h

/-- Edges of a cleaned node. -/
theorem SuccsUp.mem_dirty {a b : List (Succ V)} (h : SuccsUp a b) {e' : Succ V} (he : e' ∈ a) (hd : e'.dirty = true) :
    ∃ e ∈ b, e.effect = e'.effect ∧ e.loc = e'.loc ∧ e.dirty = true := by
  induction h with
  | nil => cases he
  | @cons x y xs ys hxy hd' _ ih =>
    rcases List.mem_cons.1 he with rfl | he
    · refine ⟨y, List.mem_cons_self .., ?_, ?_, hd' hd⟩
      · exact (congrArg Edge.effect hxy).symm
      · exact (congrArg Edge.loc hxy).symm
    · obtain ⟨e, h1, h2⟩ := ih he
      exact ⟨e, List.mem_cons_of_mem _ h1, h2⟩

/-- Cleaning does what it should: if a dependency holds, checking it reports no change, runs nothing and only cleans. -/
theorem cleanDep_holds (env : Env V) (t : Table V) (d : Dep V) (l : Loc) (h : Holds t d l) :
    ∀ s : St V, (∀ x, NodeUp (s.table.get x) (t.get x)) →
      ∃ s', Runs env (fun R => cleanDep R d l) s false s' ∧ OnlyCleaned s s' := by
  induction h with
  | struct l => intro s _; exact ⟨s, Runs.const rfl, OnlyCleaned.refl s⟩
  | @cell l nd r hl hrv =>
    intro s hs
    have := hs l
    rw [hl] at this
    have hg := this.mut_right
    refine ⟨s, ?_, OnlyCleaned.refl s⟩
    refine Runs.cleanForce (Runs.ofEq fun R => ?_)
    unfold cleanForceBody
    rw [M.bind_ok (resNode_ok (ty := nd.ty) hg rfl)]
    simp only [hrv, not_true_eq_false, decide_false]; rfl
  | @value l nd hl =>
    intro s hs
    have := hs l
    rw [hl] at this
    have hg := this.pure_right
    refine ⟨s, ?_, OnlyCleaned.refl s⟩
    refine Runs.cleanForce (Runs.ofEq fun R => ?_)
    unfold cleanForceBody
    rw [M.bind_ok (resNode_ok (ty := nd.ty) hg rfl)]
    rfl
  | @map l nd r f hl hrv =>
    intro s hs
    have := hs l
    rw [hl] at this
    have hg := this.mut_right
    refine ⟨s, Runs.const ?_, OnlyCleaned.refl s⟩
    show checkForceMapDep nd.ty f r l s = _
    unfold checkForceMapDep
    rw [M.bind_ok (resNode_ok (ty := nd.ty) hg rfl)]
    simp only [hrv, not_true_eq_false, decide_false]; rfl
  | @thunk l nd r c hl hr hrv hdeps ih =>
    intro s hs
    -- the loop over the edges
    have loop : ∀ (es : List (Succ V)), (∀ e ∈ es, ∃ e0 ∈ nd.succs, e.edge = e0.edge) → ∀ (s : St V),
        (∀ x, NodeUp (s.table.get x) (t.get x)) →
        ∃ s', Runs env (fun R => cleanLoop R nd.ty r l es) s none s' ∧ OnlyCleaned s s' := by
      intro es
      induction es with
      | nil => intro _ s _; exact ⟨s, Runs.const rfl, OnlyCleaned.refl s⟩
      | cons e es ihes =>
        intro hes s hs
        obtain ⟨e0, he0, hee⟩ := hes e (List.mem_cons_self ..)
        have heff : e.effect = e0.effect := congrArg Edge.effect hee
        have hloc : e.loc = e0.loc := congrArg Edge.loc hee
        have hdep : e.dep = e0.dep := congrArg Edge.dep hee
        have hsl := hs l
        rw [hl] at hsl
        obtain ⟨cur, hcur, hup⟩ := hsl.comp_right
        -- the engine looks at the first edge for this key
        have hex : ∃ e1, cur.find? (Succ.matches e.effect e.loc) = some e1 := by
          obtain ⟨e2, h2, h3⟩ := hup.mem_right he0
          have := find_of_mem h2
          obtain ⟨e1, h1⟩ := this
          have k1 : e2.effect = e.effect := by rw [heff]; exact congrArg Edge.effect h3
          have k2 : e2.loc = e.loc := by rw [hloc]; exact congrArg Edge.loc h3
          rw [k1, k2] at h1
          exact ⟨e1, h1⟩
        obtain ⟨e1, he1⟩ := hex
        have hrest := ihes (fun e he => hes e (List.mem_cons_of_mem _ he))
        cases hd : e1.dirty
        · obtain ⟨s', h1, h2⟩ := hrest s hs
          refine ⟨s', ?_, h2⟩
          refine Runs.bind (f := fun _ => succDirty l e.effect e.loc)
            (g := fun R d => if d = true then _ else cleanLoop R nd.ty r l es) (Runs.const (succDirty_ok hcur he1)) ?_
          simp only [hd, Bool.false_eq_true, if_false]
          exact h1
        · -- the edge is dirty: the dependency holds
          have hm1 : e1 ∈ cur := List.mem_of_find?_eq_some he1
          have hmt := Succ.matches_iff.1 (List.find?_some he1)
          obtain ⟨e3, h3, k1, k2, k3⟩ := hup.mem_dirty hm1 hd
          have hi := ih e0 he0 ⟨e3, h3, by rw [k1, hmt.1, heff], by rw [k2, hmt.2, hloc], k3⟩
          rw [← hdep, ← hloc] at hi
          obtain ⟨s2, r2, c2⟩ := hi { s with log := .begin .cleanRec (some l) e.loc :: s.log } hs
          have hs2 : ∀ x, NodeUp (s2.table.get x) (t.get x) := fun x => (c2.nodes x).trans (hs x)
          have hsl2 := c2.nodes l
          rw [show ({ s with log := Ev.begin .cleanRec (some l) e.loc :: s.log } : St V).table.get l = _ from hcur] at hsl2
          obtain ⟨cur2, hcur2, hup2⟩ := hsl2.comp_right
          have hex2 : ∃ e4, cur2.find? (Succ.matches e.effect e.loc) = some e4 := by
            obtain ⟨e5, h5, h6⟩ := hup2.mem_right hm1
            obtain ⟨e4, h4⟩ := find_of_mem h5
            have k1 : e5.effect = e.effect := by rw [← hmt.1]; exact congrArg Edge.effect h6
            have k2 : e5.loc = e.loc := by rw [← hmt.2]; exact congrArg Edge.loc h6
            rw [k1, k2] at h4
            exact ⟨e4, h4⟩
          obtain ⟨e4, he4⟩ := hex2
          have c3 := OnlyCleaned.set hcur2 e.effect e.loc
          generalize hs3 : ({ s2 with table := s2.table.put l (.comp { nd with succs := setFirst e.effect e.loc false cur2 }) } : St V) = s3 at c3
          have hset : setSuccDirty l e.effect e.loc false s2 = .ok () s3 := by
            rw [setSuccDirty_ok false hcur2 he4, ← hs3]
          obtain ⟨s', h1, h2⟩ := hrest { s3 with log := .end_ :: .eff .cleanEdge (some l) e.loc :: s3.log }
            (fun x => (c3.nodes x).trans (hs2 x))
          refine ⟨s', ?_, (((OnlyCleaned.log _ _).trans c2).trans c3).trans ((OnlyCleaned.log s3 _).trans h2)⟩
          refine Runs.bind (f := fun _ => succDirty l e.effect e.loc)
            (g := fun R d => if d = true then _ else cleanLoop R nd.ty r l es) (Runs.const (succDirty_ok hcur he1)) ?_
          simp only [hd, if_true]
          refine Runs.bind (f := fun _ => evBegin .cleanRec (some l) e.loc) (Runs.const rfl) ?_
          refine Runs.bind r2 ?_
          simp only [Bool.false_eq_true, if_false]
          refine Runs.bind (f := fun _ => setSuccDirty l e.effect e.loc false) (Runs.const hset) ?_
          refine Runs.bind (f := fun _ => evEff .cleanEdge (some l) e.loc) (Runs.const rfl) ?_
          exact Runs.bind (f := fun _ => evEnd) (Runs.const rfl) h1
    have hsl := hs l
    rw [hl] at hsl
    obtain ⟨cur, hcur, hup⟩ := hsl.comp_right
    obtain ⟨s', h1, h2⟩ := loop cur (fun e he => by
      obtain ⟨e0, h0, h1⟩ := hup.mem_left he
      exact ⟨e0, h0, h1.symm⟩) s hs
    refine ⟨s', ?_, h2⟩
    refine Runs.cleanForce ?_
    unfold cleanForceBody
    refine Runs.bind (f := fun _ => resNode nd.ty l) (Runs.const (resNode_ok (ty := nd.ty) hcur rfl)) ?_
    simp only [hr]
    refine Runs.bind h1 ?_
    simp only [hrv, not_true_eq_false, decide_false]
    exact Runs.pure


theorem NoChange.cleaned {s s' : St V} (h : NoChange s s') (hs : s'.stack = s.stack) : OnlyCleaned s s' :=
  ⟨fun x => by rw [h.graph]; exact NodeUp.refl _, hs, h.path, h.modes, h.noRun⟩

/-- What forcing may do while nothing needs to run: clear dirty bits, write to the trace, record an edge on the running
frame. -/
structure OnlyRechecked (s s' : St V) : Prop where
  nodes : ∀ x, NodeUp (s'.table.get x) (s.table.get x)
  path : s'.path = s.path
  modes : s'.purity = s.purity ∧ s'.ignoreNominal = s.ignoreNominal
  noRun : s'.runs = s.runs
  editor : s.stack = [] → s'.stack = []

theorem OnlyCleaned.rechecked {a b c : St V} (h1 : OnlyCleaned a b) (h2 : NoChange b c) : OnlyRechecked a c :=
  ⟨fun x => by rw [h2.graph]; exact h1.nodes x, h2.path.trans h1.path,
    ⟨h2.modes.1.trans h1.modes.1, h2.modes.2.trans h1.modes.2⟩, h2.noRun.trans h1.noRun,
    fun h => h2.editor (h1.stack.trans h)⟩

/-- **C11**, early cutoff.  A thunk with a cached result, whose dirty dependencies still hold (see `Holds`), returns the
cached result when forced; neither it nor anything else runs, and nothing changes but dirty bits, which are cleared. -/
theorem C11_early_cutoff (env : Env V) (s : St V) (l : Loc) (nd : CompNode V) (v : V) (cyc : Option V)
    (hl : s.table.get l = some (.comp nd)) (hv : nd.res = some v) (hc : Holds s.table (.force nd.ty v) l)
    (hs : ∀ fr ∈ s.stack, fr.loc ≠ l) :
    ∃ s', OnlyRechecked s s' ∧ ∃ N, ∀ n, N ≤ n → exec env n (.force nd.ty l cyc .ret) s = .ok v s' := by
  obtain ⟨s2, r2, c2⟩ := cleanDep_holds env s.table _ l hc
    { s with log := .begin (.force .compCacheHit) (topLoc s) l :: s.log } (fun x => NodeUp.refl _)
  have hl2 := c2.nodes l
  rw [show ({ s with log := Ev.begin (.force .compCacheHit) (topLoc s) l :: s.log } : St V).table.get l = _ from hl] at hl2
  obtain ⟨cur, hcur, hup⟩ := hl2.comp_right
  obtain ⟨s', h1, h2⟩ := fin_noChange (match l.id with
      | .structural _ => decide (nd.succs.length = 0) && s.purity
      | .nominal _ => false) (dupOf s l) l nd.ty v { s2 with log := .end_ :: s2.log }
  refine ⟨s', (((OnlyCleaned.log _ _).trans c2).trans (OnlyCleaned.log s2 _)).rechecked h2, ?_⟩
  obtain ⟨N, hN⟩ := r2
  refine ⟨N, fun n hn => exec_force _ _ _ _ _ _ _ _ ?_⟩
  unfold opForce
  rw [M.bind_ok (M.get_def s), M.bind_ok (resNode_ok (ty := nd.ty) hl rfl)]
  simp only []
  have hcy : (s.stack.any fun fr => decide (fr.loc = l)) = false := by
    rw [List.any_eq_false]; intro fr hfr; simpa using hs fr hfr
  rw [hcy]
  simp only [Bool.false_eq_true, if_false, hv]
  rw [M.bind_ok (m := evBegin _ _ _) rfl]
  have hcl : (recN env n).cleanForce nd.ty v l { s with log := .begin (.force .compCacheHit) (topLoc s) l :: s.log } = .ok false s2 :=
    hN n hn
  rw [M.bind_ok hcl, M.bind_ok (m := evEnd) rfl,
    M.bind_ok (resNode_ok (ty := nd.ty) (n := .comp { nd with succs := cur })
      (s := { s2 with log := .end_ :: s2.log }) hcur rfl)]
  simp only [hv]
  exact h1

/-! ### C13 -/

/-- **C13.** `force_map(l,f)` returns `f` of what `force(l)` returns in the same state, and leaves the same graph, runs and
modes: one returns normally just when the other does.  (What it records on the running frame differs: see C14.) -/
theorem C13_force_map_is_map (env : Env V) (n : Nat) (s : St V) (ty : Ty) (l : Loc) (f : V → V) :
    (∀ v s1, exec env n (.force ty l none .ret) s = .ok v s1 →
      ∃ s2, exec env n (.forceMap ty l f .ret) s = .ok (f v) s2 ∧
        s2.table = s1.table ∧ s2.runs = s1.runs ∧ s2.path = s1.path ∧ s2.log = s1.log) ∧
    (∀ w s2, exec env n (.forceMap ty l f .ret) s = .ok w s2 →
      ∃ v s1, exec env n (.force ty l none .ret) s = .ok v s1 ∧ w = f v) ∧
    (∀ e s2, exec env n (.forceMap ty l f .ret) s = .panic e s2 ↔ exec env n (.force ty l none .ret) s = .panic e s2) := by
  have hF : exec env n (.force ty l none .ret) s = opForce (recN env n) ty l none s := by
    unfold exec runProg
    rw [M.bind_def]
    rcases opForce (recN env n) ty l none s with _ | _ | _ <;> rfl
  have hM : exec env n (.forceMap ty l f .ret) s = opForceMap (recN env n) ty l f s := by
    unfold exec runProg
    rw [M.bind_def]
    rcases opForceMap (recN env n) ty l f s with _ | _ | _ <;> rfl
  rw [hF, hM]
  have other : (∀ nd, s.table.get l ≠ some (.mut nd)) →
      opForceMap (recN env n) ty l f s = (do let v ← opForce (recN env n) ty l none; Pure.pure (f v)) s := by
    intro hn
    unfold opForceMap
    rw [M.bind_ok (M.get_def s)]
    rcases hr : resNode ty l s with ⟨nd, s1⟩ | ⟨e, s1⟩ | _
    · obtain ⟨rfl, g1, g2⟩ := resNode_inv hr
      rw [M.bind_ok hr]
      match nd with
      | .comp nd => rfl
      | .pure nd => rfl
      | .mut nd => exact absurd g1 (hn nd)
    · rw [M.bind_def, hr, M.bind_def]
      unfold opForce
      rw [M.bind_ok (M.get_def s), M.bind_def, hr]
    · rw [M.bind_def, hr, M.bind_def]
      unfold opForce
      rw [M.bind_ok (M.get_def s), M.bind_def, hr]
  by_cases hm : ∃ nd, s.table.get l = some (.mut nd)
  · obtain ⟨nd, hnd⟩ := hm
    by_cases ht : nd.ty = ty
    · subst ht
      obtain ⟨s1, h1, h2⟩ := forceCell (recN env n) l none s nd hnd
      have hlog : s1.log = .eff (.force .refGet) (topLoc s) l :: s.log := by
        unfold opForce at h1
        rw [M.bind_ok (M.get_def s), M.bind_ok (resNode_ok (ty := nd.ty) hnd rfl)] at h1
        simp only [] at h1
        rw [M.bind_ok (m := evEff _ _ _) rfl] at h1
        change (if dupOf s l then (Pure.pure nd.val : M V V) else do
          recordEdge ⟨false, l, .observe, .force nd.ty nd.val⟩ none; Pure.pure nd.val)
            { s with log := .eff (.force .refGet) (topLoc s) l :: s.log } = _ at h1
        rcases hd : dupOf s l with _ | _ <;> rw [hd] at h1
        · simp only [Bool.false_eq_true, if_false] at h1
          obtain ⟨_, s3, h3, h1⟩ := M.bind_inv h1
          cases h1
          unfold recordEdge at h3
          rw [M.modify_def] at h3
          rcases hs : s.stack with _ | ⟨fr, K⟩ <;> simp only [hs] at h3 <;> cases h3 <;> rfl
        · simp only [if_true] at h1
          cases h1; rfl
      have hmap : ∃ s2, opForceMap (recN env n) nd.ty l f s = .ok (f nd.val) s2 ∧ NoChange s s2 ∧
          s2.log = .eff (.force .refGet) (topLoc s) l :: s.log := by
        unfold opForceMap
        rw [M.bind_ok (M.get_def s), M.bind_ok (resNode_ok (ty := nd.ty) hnd rfl)]
        simp only []
        rw [M.bind_ok (m := evEff _ _ _) rfl]
        obtain ⟨s2, k1, k2⟩ := recordEdge_noChange (⟨false, l, .observe, .forceMap nd.ty f (f nd.val)⟩ : Succ V)
          (some (.forceMap nd.ty f (f nd.val))) { s with log := .eff (.force .refGet) (topLoc s) l :: s.log }
        refine ⟨s2, by rw [M.bind_ok k1]; rfl, (NoChange.log _ _).trans k2, ?_⟩
        unfold recordEdge at k1
        rw [M.modify_def] at k1
        rcases hs : s.stack with _ | ⟨fr, K⟩ <;> simp only [hs] at k1 <;> cases k1 <;> rfl
      obtain ⟨s2, h3, h4, h5⟩ := hmap
      rw [h1, h3]
      refine ⟨?_, ?_, ?_⟩
      · intro v s1' he
        cases he
        exact ⟨s2, rfl, h4.graph.trans h2.graph.symm, h4.noRun.trans h2.noRun.symm, h4.path.trans h2.path.symm, h5.trans hlog.symm⟩
      · intro w s2' he
        cases he
        exact ⟨_, s1, rfl, rfl⟩
      · intro e s3
        constructor <;> intro h <;> cases h
    · have hr := resNode_panic (ty := ty) hnd ht
      have h1 : opForce (recN env n) ty l none s = .panic .typeError s := by
        unfold opForce
        rw [M.bind_ok (M.get_def s), M.bind_def, hr]
      have h2 : opForceMap (recN env n) ty l f s = .panic .typeError s := by
        unfold opForceMap
        rw [M.bind_ok (M.get_def s), M.bind_def, hr]
      rw [h1, h2]
      refine ⟨fun v s1 h => (by cases h), fun v s1 h => (by cases h), fun e s3 => Iff.rfl⟩
  · rw [other fun nd h => hm ⟨nd, h⟩, M.bind_def]
    rcases ho : opForce (recN env n) ty l none s with ⟨v, s1⟩ | ⟨e, s1⟩ | _
    · refine ⟨?_, ?_, ?_⟩
      · intro v' s1' he; cases he; exact ⟨s1, rfl, rfl, rfl, rfl, rfl⟩
      · intro w s2' he; cases he; exact ⟨v, s1, rfl, rfl⟩
      · intro e s3; constructor <;> intro h <;> cases h
    · refine ⟨fun v s1 h => (by cases h), fun v s1 h => (by cases h), fun e s3 => Iff.rfl⟩
    · refine ⟨fun v s1 h => (by cases h), fun v s1 h => (by cases h), fun e s3 => Iff.rfl⟩

/-! ### C20, C21 -/

/-- **C20.** Forcing a thunk that is being evaluated, without saying what a cycle means, is reported as a cycle, whatever the
state; the same for `force_map` and `force_abs`.  Nothing runs and nothing changes. -/
theorem C20_unexpected_cycle (env : Env V) (n : Nat) (s : St V) (l : Loc) (nd : CompNode V) (k : V → Prog V) (f : V → V)
    (hl : s.table.get l = some (.comp nd)) (fr : Frame V) (hfr : fr ∈ s.stack) (he : fr.loc = l) :
    exec env n (.force nd.ty l none k) s = .panic .unexpectedCycle s ∧
    exec env n (.forceMap nd.ty l f k) s = .panic .unexpectedCycle s ∧
    exec env n (.forceAbs nd.ty l f k) s = .panic .unexpectedCycle s := by
  have hcy : (s.stack.any fun fr => decide (fr.loc = l)) = true := by
    rw [List.any_eq_true]; exact ⟨fr, hfr, by simpa using he⟩
  have h1 : opForce (recN env n) nd.ty l none s = .panic .unexpectedCycle s := by
    unfold opForce
    rw [M.bind_ok (M.get_def s), M.bind_ok (resNode_ok (ty := nd.ty) hl rfl)]
    simp only [hcy, if_true]
    rfl
  refine ⟨?_, ?_, ?_⟩
  · unfold exec runProg
    rw [M.bind_def, h1]
  · unfold exec runProg opForceMap
    rw [M.bind_def, M.bind_ok (M.get_def s), M.bind_ok (resNode_ok (ty := nd.ty) hl rfl)]
    simp only []
    rw [M.bind_def, h1]
  · unfold exec runProg opForceAbs
    rw [M.bind_def, M.bind_ok (M.get_def s), M.bind_ok (resNode_ok (ty := nd.ty) hl rfl)]
    simp only []
    rw [M.bind_def, h1]

/-- **C21.** Forcing a thunk that is being evaluated with `force_cycle(l, Some(v))` returns `v`, runs nothing and changes
nothing but the running frame and the trace. -/
theorem C21_expected_cycle (env : Env V) (n : Nat) (s : St V) (l : Loc) (nd : CompNode V) (v : V)
    (hl : s.table.get l = some (.comp nd)) (fr : Frame V) (hfr : fr ∈ s.stack) (he : fr.loc = l) :
    ∃ s', exec env n (.force nd.ty l (some v) .ret) s = .ok v s' ∧ NoChange s s' := by
  have hcy : (s.stack.any fun fr => decide (fr.loc = l)) = true := by
    rw [List.any_eq_true]; exact ⟨fr, hfr, by simpa using he⟩
  obtain ⟨s', h1, h2⟩ := fin_noChange (match l.id with
      | .structural _ => decide (nd.succs.length = 0) && s.purity
      | .nominal _ => false) (dupOf s l) l nd.ty v
      { s with log := .end_ :: .begin (.force .compCacheHit) (topLoc s) l :: s.log }
  refine ⟨s', exec_force _ _ _ _ _ _ _ _ ?_, (NoChange.log _ _).trans h2⟩
  unfold opForce
  rw [M.bind_ok (M.get_def s), M.bind_ok (resNode_ok (ty := nd.ty) hl rfl)]
  simp only [hcy, if_true]
  rw [M.bind_ok (m := evBegin _ _ _) rfl, M.bind_ok (m := evEnd) rfl]
  exact h1

/-- **C21.** When the location is not being evaluated, or holds a cell or a value, the cycle value plays no role. -/
theorem C21_no_cycle (env : Env V) (n : Nat) (s : St V) (ty : Ty) (l : Loc) (v : V) (k : V → Prog V)
    (h : (∀ fr ∈ s.stack, fr.loc ≠ l) ∨ ∀ nd, s.table.get l ≠ some (.comp nd)) :
    exec env n (.force ty l (some v) k) s = exec env n (.force ty l none k) s := by
  have h1 : opForce (recN env n) ty l (some v) s = opForce (recN env n) ty l none s := by
    unfold opForce
    rw [M.bind_ok (M.get_def s), M.bind_ok (M.get_def s), M.bind_def, M.bind_def]
    rcases hr : resNode ty l s with ⟨nd, s1⟩ | ⟨e, s1⟩ | _
    · obtain ⟨rfl, g1, g2⟩ := resNode_inv hr
      match nd with
      | .mut nd => rfl
      | .pure nd => rfl
      | .comp nd =>
        rcases h with h | h
        · have hcy : (s1.stack.any fun fr => decide (fr.loc = l)) = false := by
            rw [List.any_eq_false]; intro fr hfr; simpa using h fr hfr
          simp only [hcy, Bool.false_eq_true, if_false]
        · exact absurd g1 (h nd)
    · rfl
    · rfl
  unfold exec runProg
  rw [M.bind_def, M.bind_def, h1]

end Adapton
