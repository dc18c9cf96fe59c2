import Verif.Props.Rerun
/-
C74: what is still current is not run again.  If everything that a thunk has observed, directly or through other thunks, still has the value that it has
seen, then a demand returns the cached result and runs no code, however many dependencies have been flagged in between; in particular edits that are
undone cost nothing (lib.rs:355-366, 396-423: "division is reused").
-/
set_option linter.unusedSectionVars false
set_option linter.unusedVariables false
namespace Adapton
open Ref (Sig Kind Means Store Ext ES)
variable {V : Type} [DecidableEq V]

/-! ### Specification -/

/-- The recorded observation of a cell still holds: the cell has the value that was seen (`force`), or a value with the same image (`force_map`). -/
def CellSame (s : St V) (e : Succ V) : Prop :=
  ∃ m, s.table.get e.loc = some (.mut m) ∧
    match e.dep with
    | .force ty w => m.ty = ty ∧ w = m.val
    | .forceMap ty f r => m.ty = ty ∧ r = f m.val
    | _ => False

/-- The edge is an observation of a thunk. -/
def ThunkDep (s : St V) (e : Succ V) : Prop := ∃ ty w nd, e.dep = .force ty w ∧ s.table.get e.loc = some (.comp nd) ∧ nd.ty = ty

/-- The cached result `v` of the thunk `l` is current: for each dependency of its last run that is flagged, the observed cell still holds what was seen,
or the observed thunk's cached result is what was seen and is itself current. -/
inductive StillCurrent (s : St V) : Loc → V → Prop
  | mk {l : Loc} {nd : CompNode V} {v : V} (hl : s.table.get l = some (.comp nd)) (hv : nd.res = some v)
      (hc : ∀ e ∈ nd.succs, KeyClean nd.succs e.effect e.loc ∨ e.dep = .allocStruct ∨ CellSame s e ∨ ThunkDep s e)
      (hr : ∀ e ∈ nd.succs, ∀ ty w nd', ¬ KeyClean nd.succs e.effect e.loc → e.dep = .force ty w → s.table.get e.loc = some (.comp nd') → StillCurrent s e.loc w) :
      StillCurrent s l v

/-- The thunk or cell is `l` or was observed by it, directly or through other thunks. -/
inductive Below (t : Table V) (l : Loc) : Loc → Prop
  | self : Below t l l
  | step {p : Loc} {nd : CompNode V} {e : Succ V} (h : Below t l p) (hp : t.get p = some (.comp nd)) (he : e ∈ nd.succs) (ho : e.effect = .observe) :
      Below t l e.loc

/-! ### Cleaning without running -/

/-- From `s` to `t` only flags were lowered. -/
structure Down (s t : St V) : Prop where
  stack : t.stack = s.stack
  path : t.path = s.path
  purity : t.purity = s.purity
  ign : t.ignoreNominal = s.ignoreNominal
  runs : t.runs = s.runs
  tbl : ∀ x, NodeUp (t.table.get x) (s.table.get x)

theorem Down.refl (s : St V) : Down s s := ⟨rfl, rfl, rfl, rfl, rfl, fun _ => NodeUp.refl _⟩
theorem Down.trans {a b c : St V} (h1 : Down a b) (h2 : Down b c) : Down a c :=
  ⟨h2.stack.trans h1.stack, h2.path.trans h1.path, h2.purity.trans h1.purity, h2.ign.trans h1.ign, h2.runs.trans h1.runs,
    fun x => (h2.tbl x).trans (h1.tbl x)⟩
theorem Down.log (s : St V) (lg : List Ev) : Down s { s with log := lg } := ⟨rfl, rfl, rfl, rfl, rfl, fun _ => NodeUp.refl _⟩

theorem Down.comp {s t : St V} (h : Down s t) {l : Loc} {nd : CompNode V} (hl : s.table.get l = some (.comp nd)) :
    ∃ es, t.table.get l = some (.comp { nd with succs := es }) ∧ SuccsUp es nd.succs := by
  have := h.tbl l
  rw [hl] at this
  exact this.comp_right

theorem Down.mut {s t : St V} (h : Down s t) {l : Loc} {m : MutNode V} (hl : s.table.get l = some (.mut m)) : t.table.get l = some (.mut m) := by
  have := h.tbl l
  rw [hl] at this
  exact this.mut_right

theorem Down.set {t : St V} {l : Loc} {nd : CompNode V} (hl : t.table.get l = some (.comp nd)) (eff : Effect) (x : Loc) :
    Down t { t with table := t.table.put l (.comp { nd with succs := setFirst eff x false nd.succs }) } := by
  refine ⟨rfl, rfl, rfl, rfl, rfl, fun y => ?_⟩
  simp only [Table.get_put]
  by_cases hy : y = l
  · rw [if_pos hy, hy, hl]
    exact ⟨_, rfl, setFirst_down _ _ _⟩
  · rw [if_neg hy]
    exact NodeUp.refl _

section
variable {env : Env V}

/-- Going through dependencies that are still current: nothing is run. -/
theorem cleanLoop_current {s : St V} {l : Loc} {nd : CompNode V} (hl : s.table.get l = some (.comp nd))
    (hc : ∀ e ∈ nd.succs, KeyClean nd.succs e.effect e.loc ∨ e.dep = .allocStruct ∨ CellSame s e ∨ ThunkDep s e)
    (hr : ∀ e ∈ nd.succs, ∀ ty w nd', ¬ KeyClean nd.succs e.effect e.loc → e.dep = .force ty w → s.table.get e.loc = some (.comp nd') → nd'.ty = ty →
      ∀ t, Down s t → ∃ t', Runs env (fun R => cleanForceBody R ty w e.loc) t false t' ∧ Down t t')
    (ty : Ty) (res : V) : ∀ (es : List (Succ V)), (∀ e ∈ es, ∃ e0 ∈ nd.succs, e0.edge = e.edge) → ∀ t, Down s t →
      ∃ t', Runs env (fun R => cleanLoop R ty res l es) t none t' ∧ Down t t' ∧
        ∀ e ∈ es, ∀ nd', t'.table.get l = some (.comp nd') → KeyClean nd'.succs e.effect e.loc := by
  intro es
  induction es with
  | nil => intro _ t _; exact ⟨t, Runs.pure, Down.refl t, fun e he => by cases he⟩
  | cons e es ih =>
    intro hes t ht
    obtain ⟨e0, he0, hee⟩ := hes e (List.mem_cons_self ..)
    have hes' : ∀ e ∈ es, ∃ e0 ∈ nd.succs, e0.edge = e.edge := fun e he => hes e (List.mem_cons_of_mem _ he)
    have eqf : e0.effect = e.effect := congrArg Edge.effect hee
    have eql : e0.loc = e.loc := congrArg Edge.loc hee
    have eqd : e0.dep = e.dep := congrArg Edge.dep hee
    obtain ⟨es1, hl1, hu1⟩ := ht.comp hl
    obtain ⟨e1, he1, hee1⟩ : ∃ e1 ∈ es1, e1.edge = e0.edge := by
      have := hu1.edges
      have hm : e0.edge ∈ nd.succs.map Succ.edge := List.mem_map.2 ⟨e0, he0, rfl⟩
      rw [this] at hm
      obtain ⟨e1, h1, h2⟩ := List.mem_map.1 hm
      exact ⟨e1, h1, h2⟩
    have eqf1 : e1.effect = e.effect := (congrArg Edge.effect hee1).trans eqf
    have eql1 : e1.loc = e.loc := (congrArg Edge.loc hee1).trans eql
    -- what the rest of the loop does
    have rest : ∀ t1, Down t t1 → (∀ nd', t1.table.get l = some (.comp nd') → KeyClean nd'.succs e.effect e.loc) →
        ∃ t', Runs env (fun R => cleanLoop R ty res l es) t1 none t' ∧ Down t1 t' ∧
          ∀ e' ∈ e :: es, ∀ nd', t'.table.get l = some (.comp nd') → KeyClean nd'.succs e'.effect e'.loc := by
      intro t1 h1 hk
      obtain ⟨t', r1, r2, r3⟩ := ih hes' t1 (ht.trans h1)
      refine ⟨t', r1, r2, fun e' he' nd' hn => ?_⟩
      rcases List.mem_cons.1 he' with rfl | he'
      · have := r2.tbl l
        rw [hn] at this
        obtain ⟨es2, k1, k2⟩ := this.comp_left
        exact k2.keyClean (hk _ k1)
      · exact r3 e' he' nd' hn
    rcases key_cases he1 with hk | hk
    · -- not flagged
      rw [eqf1, eql1] at hk
      obtain ⟨e2, g1, g2⟩ := hk
      obtain ⟨t', r1, r2, r3⟩ := rest t (Down.refl t) (fun nd' hn => by rw [hl1] at hn; cases hn; exact ⟨e2, g1, g2⟩)
      refine ⟨t', ?_, r2, r3⟩
      unfold cleanLoop
      refine Runs.bind (Runs.const (succDirty_ok hl1 g1)) ?_
      simp only [g2, Bool.false_eq_true, if_false]
      exact r1
    · -- flagged: the dependency is checked and found to be the same
      rw [eqf1, eql1] at hk
      have hnk : ¬ KeyClean nd.succs e0.effect e0.loc := by
        intro hcl
        rw [eqf, eql] at hcl
        exact not_clean_of_dirty hk (hu1.keyClean hcl)
      obtain ⟨e2, g1, g2⟩ := hk
      generalize hta : ({ t with log := .begin .cleanRec (some l) e.loc :: t.log } : St V) = ta
      have hda : Down t ta := by rw [← hta]; exact Down.log _ _
      have hdep : ∃ tb, Runs env (fun R => cleanDep R e.dep e.loc) ta false tb ∧ Down ta tb := by
        rcases hc e0 he0 with h | h | h | h
        · exact absurd h hnk
        · rw [eqd] at h
          exact ⟨ta, Runs.ofEq (fun R => by unfold cleanDep; rw [h]; rfl), Down.refl _⟩
        · obtain ⟨m, h1, h2⟩ := h
          rw [eql] at h1
          rw [eqd] at h2
          have h3 : ta.table.get e.loc = some (.mut m) := (ht.trans hda).mut h1
          refine ⟨ta, ?_, Down.refl _⟩
          cases hd : e.dep with
          | force ty' w =>
            rw [hd] at h2
            refine Runs.cleanForce (Runs.ofEq (fun R => ?_))
            unfold cleanForceBody
            rw [M.bind_ok (resNode_ok h3 h2.1), h2.2]
            simp [M.pure_def, ueq_eq]
          | forceMap ty' f r =>
            rw [hd] at h2
            refine Runs.ofEq (fun R => ?_)
            show checkForceMapDep ty' f r e.loc ta = _
            unfold checkForceMapDep
            rw [M.bind_ok (resNode_ok h3 h2.1), h2.2]
            simp [M.pure_def, ueq_eq]
          | allocStruct => rw [hd] at h2; cases h2
          | allocNom _ => rw [hd] at h2; cases h2
          | allocCell _ => rw [hd] at h2; cases h2
          | forceAbs => rw [hd] at h2; cases h2
        · obtain ⟨ty', w, nd', h1, h2, h3⟩ := h
          obtain ⟨tb, k1, k2⟩ := hr e0 he0 ty' w nd' hnk h1 h2 h3 ta (ht.trans hda)
          refine ⟨tb, ?_, k2⟩
          rw [eqd] at h1
          rw [h1]
          rw [eql] at k1
          exact Runs.cleanForce k1
      obtain ⟨tb, hb1, hb2⟩ := hdep
      have htb := (ht.trans hda).trans hb2
      have hdb : Down t tb := hda.trans hb2
      obtain ⟨es3, hl3, hu3⟩ := hdb.comp hl1
      have hf3 : ∃ e3, es3.find? (Succ.matches e.effect e.loc) = some e3 := by
        have := hu3.edges
        have hm : e1.edge ∈ es1.map Succ.edge := List.mem_map.2 ⟨e1, he1, rfl⟩
        rw [this] at hm
        obtain ⟨e3, h1, h2⟩ := List.mem_map.1 hm
        have h3 : e3.effect = e.effect := (congrArg Edge.effect h2).trans eqf1
        have h4 : e3.loc = e.loc := (congrArg Edge.loc h2).trans eql1
        rw [← h3, ← h4]
        exact find_of_mem h1
      obtain ⟨e3, hf3⟩ := hf3
      generalize htc : ({ tb with table := tb.table.put l (.comp { nd with succs := setFirst e.effect e.loc false es3 }) } : St V) = tc
      have hdc : Down tb tc := by rw [← htc]; exact Down.set hl3 e.effect e.loc
      have hlc : tc.table.get l = some (.comp { nd with succs := setFirst e.effect e.loc false es3 }) := by
        rw [← htc]; exact Table.get_put_self _ _ _
      generalize htd : ({ tc with log := .end_ :: .eff .cleanEdge (some l) e.loc :: tc.log } : St V) = td
      have hdd : Down tc td := by rw [← htd]; exact Down.log _ _
      obtain ⟨t', r1, r2, r3⟩ := rest td ((hdb.trans hdc).trans hdd) (fun nd' hn => by
        have : td.table.get l = tc.table.get l := by rw [← htd]
        rw [this, hlc] at hn
        cases hn
        exact ⟨_, setFirst_find _ _ _ _ hf3, rfl⟩)
      refine ⟨t', ?_, ((hdb.trans hdc).trans hdd).trans r2, r3⟩
      unfold cleanLoop
      refine Runs.bind (Runs.const (succDirty_ok hl1 g1)) ?_
      simp only [g2, if_true]
      refine Runs.bind (Runs.const (m := evBegin _ _ _) (s' := ta) (by rw [← hta]; rfl)) ?_
      refine Runs.bind hb1 ?_
      simp only [Bool.false_eq_true, if_false]
      refine Runs.bind (Runs.const (s' := tc) (by rw [← htc]; exact setSuccDirty_ok false hl3 hf3)) ?_
      refine Runs.bind (Runs.const (m := evEff _ _ _) rfl) ?_
      refine Runs.bind (Runs.const (m := evEnd) (s' := td) (by rw [← htd]; rfl)) ?_
      exact r1

/-- Cleaning a thunk whose result is current: nothing is run, and no dependency of it stays flagged. -/
theorem cleanForce_current {s : St V} {l : Loc} {v : V} (h : StillCurrent s l v) : ∀ t, Down s t → ∀ nd, s.table.get l = some (.comp nd) → ∀ res,
    ∃ t', Runs env (fun R => cleanForceBody R nd.ty res l) t (decide (res ≠ v)) t' ∧ Down t t' ∧
      ∃ es, t'.table.get l = some (.comp { nd with succs := es }) ∧ AllClean es := by
  induction h with
  | @mk l nd v hl hv hc hr ih =>
    intro t ht nd0 hl0 res
    rw [hl] at hl0
    cases hl0
    obtain ⟨es1, hl1, hu1⟩ := ht.comp hl
    have hes : ∀ e ∈ es1, ∃ e0 ∈ nd.succs, e0.edge = e.edge := by
      intro e he
      have hm : e.edge ∈ es1.map Succ.edge := List.mem_map.2 ⟨e, he, rfl⟩
      rw [← hu1.edges] at hm
      obtain ⟨e0, h1, h2⟩ := List.mem_map.1 hm
      exact ⟨e0, h1, h2⟩
    obtain ⟨t', r1, r2, r3⟩ := cleanLoop_current (env := env) hl hc (fun e he ty w nd' hk hd hn hty t ht => by
      obtain ⟨t', k1, k2, _⟩ := ih e he ty w nd' hk hd hn t ht nd' hn w
      rw [hty] at k1
      exact ⟨t', by simpa using k1, k2⟩) nd.ty res es1 hes t ht
    refine ⟨t', ?_, r2, ?_⟩
    · unfold cleanForceBody
      refine Runs.bind (Runs.const (resNode_ok (ty := nd.ty) hl1 rfl)) ?_
      simp only [hv]
      refine Runs.bind r1 ?_
      exact Runs.const rfl
    · obtain ⟨es2, hl2, hu2⟩ := (ht.trans r2).comp hl
      refine ⟨es2, hl2, fun e he => ?_⟩
      have hm : e.edge ∈ es2.map Succ.edge := List.mem_map.2 ⟨e, he, rfl⟩
      rw [← hu2.edges, hu1.edges] at hm
      obtain ⟨e1, h1, h2⟩ := List.mem_map.1 hm
      have h3 : e1.effect = e.effect := congrArg Edge.effect h2
      have h4 : e1.loc = e.loc := congrArg Edge.loc h2
      rw [← h3, ← h4]
      exact r3 e1 h1 _ hl2

/-- **C74.** In every state: if the cached result `v` of the thunk `l` is current, then a demand by the editor returns `v` and runs no code; all contents and
cached values stay as they are, and no dependency of `l` stays flagged. -/
theorem C74_current_is_not_run (env : Env V) (s : St V) (hst : s.stack = []) (l : Loc) (nd : CompNode V) (v : V) (hl : s.table.get l = some (.comp nd))
    (h : StillCurrent s l v) (cyc : Option V) :
    ∃ N s', (∀ n ≥ N, exec env n (.force nd.ty l cyc .ret) s = .ok v s') ∧ s'.runs = s.runs ∧
      (∀ x, s'.contentAt x = s.contentAt x ∧ s'.value x = s.value x) ∧ ∃ nd', s'.table.get l = some (.comp nd') ∧ AllClean nd'.succs := by
  have hv : nd.res = some v := by
    cases h with
    | mk hl' hv _ _ => rw [hl] at hl'; cases hl'; exact hv
  generalize hs0 : ({ s with log := .begin (.force .compCacheHit) (topLoc s) l :: s.log } : St V) = s0
  have h0 : Down s s0 := by rw [← hs0]; exact Down.log _ _
  obtain ⟨t, r1, r2, es, hlt, hcl⟩ := cleanForce_current (env := env) h s0 h0 nd hl v
  generalize hs1 : ({ t with log := .end_ :: t.log } : St V) = s1
  have h1 : Down t s1 := by rw [← hs1]; exact Down.log _ _
  have hl1 : s1.table.get l = some (.comp { nd with succs := es }) := by rw [← hs1]; exact hlt
  have hst1 : s1.stack = [] := by rw [((h0.trans r2).trans h1).stack, hst]
  obtain ⟨s', k1, k2⟩ := fin_noChange (match l.id with
      | .structural _ => decide (nd.succs.length = 0) && s.purity
      | .nominal _ => false) (dupOf s l) l nd.ty v s1
  have hforce : Runs env (fun R => opForce R nd.ty l cyc) s v s' := by
    unfold opForce
    refine Runs.bind (Runs.const (M.get_def s)) ?_
    refine Runs.bind (Runs.const (resNode_ok (ty := nd.ty) hl rfl)) ?_
    have hcy : (s.stack.any fun fr => decide (fr.loc = l)) = false := by rw [hst]; rfl
    simp only [hcy, Bool.false_eq_true, if_false, hv]
    refine Runs.bind (Runs.const (m := evBegin _ _ _) (s' := s0) (by rw [← hs0]; rfl)) ?_
    refine Runs.bind (Runs.cleanForce r1) ?_
    refine Runs.bind (Runs.const (m := evEnd) (s' := s1) (by rw [← hs1]; rfl)) ?_
    refine Runs.bind (Runs.const (resNode_ok (ty := nd.ty) hl1 rfl)) ?_
    simp only [hv]
    exact Runs.const k1
  obtain ⟨N, hN⟩ := hforce
  have hd := (h0.trans r2).trans h1
  refine ⟨N, s', fun n hn => exec_force _ _ _ _ _ _ _ _ (hN n hn), k2.noRun.trans hd.runs, fun x => ?_, ?_⟩
  · have hx := hd.tbl x
    unfold St.contentAt St.value
    rw [k2.graph]
    rcases hg : s.table.get x with _ | n
    · rw [hg] at hx
      rcases hg' : s1.table.get x with _ | n'
      · simp
      · rw [hg'] at hx; obtain ⟨_, hh⟩ := hx.some_left; cases hh
    · rw [hg] at hx
      match n with
      | .comp c =>
        obtain ⟨es', e1, _⟩ := hx.comp_right
        rw [e1]; exact ⟨rfl, rfl⟩
      | .mut m => rw [hx.mut_right]; exact ⟨rfl, rfl⟩
      | .pure m =>
        rcases hg' : s1.table.get x with _ | n'
        · rw [hg'] at hx; cases hx
        · rw [hg'] at hx
          match n' with
          | .comp c => obtain ⟨_, hh, _⟩ := hx; cases hh
          | .mut m' => cases hx
          | .pure m' => cases hx; exact ⟨rfl, rfl⟩
  · rw [k2.graph]; exact ⟨_, hl1, hcl⟩

/-! ### Edits -/

/-- Same node up to raised flags and, for a cell, another value. -/
def NodeEd (o o' : Option (Node V)) : Prop :=
  match o with
  | some (.mut nd) => ∃ v, o' = some (.mut { nd with val := v })
  | o => NodeUp o o'

/-- From `s` to `s'` cells were given other values, and dependencies were flagged, but no allocation. -/
structure Edited (s s' : St V) : Prop where
  stack : s'.stack = s.stack
  purity : s'.purity = s.purity
  ign : s'.ignoreNominal = s.ignoreNominal
  path : s'.path = s.path
  runs : s'.runs = s.runs
  tbl : ∀ x, NodeEd (s.table.get x) (s'.table.get x)
  keep : Keep (fun e _ => e = .allocate) s s'

theorem NodeEd.up {o o' : Option (Node V)} (h : NodeUp o o') : NodeEd o o' := by
  match o with
  | some (.comp nd) => exact h
  | some (.mut nd) => exact ⟨nd.val, h⟩
  | some (.pure nd) => exact h
  | none => exact h

theorem NodeEd.trans {a b c : Option (Node V)} (h1 : NodeEd a b) (h2 : NodeEd b c) : NodeEd a c := by
  match a with
  | some (.comp nd) =>
    obtain ⟨es1, rfl, u1⟩ := h1
    obtain ⟨es2, rfl, u2⟩ := h2
    exact ⟨es2, rfl, u1.trans u2⟩
  | some (.mut nd) =>
    obtain ⟨v, rfl⟩ := h1
    obtain ⟨w, rfl⟩ := h2
    exact ⟨w, rfl⟩
  | some (.pure nd) => cases h1; exact h2
  | none => cases h1; exact h2

theorem NodeEd.comp {o : Option (Node V)} {nd : CompNode V} (h : NodeEd (some (.comp nd)) o) :
    ∃ es, o = some (.comp { nd with succs := es }) ∧ SuccsUp nd.succs es := h

theorem NodeEd.mut {o : Option (Node V)} {nd : MutNode V} (h : NodeEd (some (.mut nd)) o) : ∃ v, o = some (.mut { nd with val := v }) := h

theorem Edited.refl (s : St V) : Edited s s := ⟨rfl, rfl, rfl, rfl, rfl, fun _ => NodeEd.up (NodeUp.refl _), Keep.refl _ _⟩

theorem Edited.trans {a b c : St V} (h1 : Edited a b) (h2 : Edited b c) : Edited a c := by
  refine ⟨h2.stack.trans h1.stack, h2.purity.trans h1.purity, h2.ign.trans h1.ign, h2.path.trans h1.path, h2.runs.trans h1.runs,
    fun x => (h1.tbl x).trans (h2.tbl x), ?_⟩
  intro p nd nd' eff x hP ha hc hk
  have hp := h1.tbl p
  rw [ha] at hp
  obtain ⟨es', hb, _⟩ := hp.comp
  exact h2.keep p _ nd' eff x hP hb hc (h1.keep p nd _ eff x hP ha hb hk)

theorem Edited.up {s s' : St V} (h : Up s s') (hk : Keep (fun e _ => e = .allocate) s s') : Edited s s' :=
  ⟨h.stack, h.purity, h.ign, h.path, h.runs, fun x => NodeEd.up (h.tbl x), hk⟩

/-- What dirtying the observers of a location does. -/
def UpK (s s' : St V) : Prop := Up s s' ∧ Keep (fun e _ => e = .allocate) s s'

theorem UpK.refl (s : St V) : UpK s s := ⟨Up.refl s, Keep.refl _ s⟩
theorem UpK.trans {a b c : St V} (h1 : UpK a b) (h2 : UpK b c) : UpK a c := ⟨h1.1.trans h2.1, Keep.trans h1.1.tbl h1.2 h2.2⟩
theorem UpK.log (s : St V) (lg : List Ev) : UpK s { s with log := lg } := ⟨Up.log (fun _ => lg), fun p nd nd' eff x _ h1 h2 hk => by
  have h2 : s.table.get p = _ := h2
  rw [h1] at h2; cases h2; exact hk⟩

theorem dirtyLoop_keep (rec : Loc → M V Unit) (k : Nat)
    (hrec : ∀ p s, tableClean s.table < k → (rec p s).Sat (UpK s)) (l : Loc) (ps : List (Loc × Option (Dep V))) :
    ∀ s, tableClean s.table < k + 1 → (dirtyLoop rec l ps s).Sat (UpK s) := by
  induction ps with
  | nil => intro s _; exact UpK.refl s
  | cons hd tl ih =>
    obtain ⟨p, d⟩ := hd
    intro s hs
    unfold dirtyLoop
    refine Sat.bind (Q := UpK s) ?_ (fun _ h => h)
      (fun _ s2 _ hu => (ih s2 (Nat.lt_of_le_of_lt hu.1.measure hs)).mono (fun _ => hu.trans))
    unfold dirtyObserver
    refine Sat.bind (dirtyStop_sat d l s) (fun _ h => h ▸ UpK.refl _) ?_
    rintro b s' _ rfl
    cases b
    case true => exact UpK.refl _
    case false =>
      refine Sat.bind (succDirty_sat p .observe l s') (fun _ h => h ▸ UpK.refl _) ?_
      rintro b s2 hd rfl
      obtain ⟨-, nd, e, hg, hf, hb⟩ := succDirty_inv hd
      cases b
      case true => exact UpK.refl _
      case false =>
        by_cases hpl : p = l
        · simp only [hpl]; exact UpK.refl _
        · simp only [hpl, if_false, Bool.false_eq_true]
          refine Sat.bind (Q := UpK s2) (UpK.log _ _) (fun _ h => h) ?_
          intro _ s3 h3 u3
          cases h3
          dsimp only
          rw [M.bind_ok (setSuccDirty_ok true (s := { s2 with log := Ev.begin TEff.dirty (some p) l :: s2.log }) hg hf)]
          have hu : UpK s2 { s2 with
              log := Ev.begin TEff.dirty (some p) l :: s2.log
              table := s2.table.put p (.comp { nd with succs := setFirst .observe l true nd.succs }) } :=
            ⟨(Up.log (s := s2) (fun lg => Ev.begin TEff.dirty (some p) l :: lg)).trans
              (Up.set (s := { s2 with log := Ev.begin TEff.dirty (some p) l :: s2.log }) hg .observe l),
              Keep.set hg _ (by intro h; cases h)⟩
          have hlt : tableClean (s2.table.put p (.comp { nd with succs := setFirst .observe l true nd.succs })) < k := by
            have h1 := tableClean_put s2.table p _ (.comp { nd with succs := setFirst .observe l true nd.succs }) hg
            have h2 := setFirst_count .observe l nd.succs hf hb
            simp only [Node.succsList] at h1
            omega
          refine Sat.bind (Q := UpK s2) ((hrec p _ hlt).mono (fun _ => hu.trans)) (fun _ h => h) ?_
          intro _ s4 _ u4
          exact u4.trans (UpK.log _ _)

theorem dirtyPreds_keep : ∀ (k : Nat) (l : Loc) (s : St V), tableClean s.table < k → (dirtyPreds k l s).Sat (UpK s) := by
  intro k
  induction k with
  | zero => intro l s h; omega
  | succ k ih =>
    intro l s h
    unfold dirtyPreds
    refine Sat.bind (lookupAbs_sat l s) (fun _ h => h ▸ UpK.refl _) ?_
    rintro n s' _ rfl
    rcases hp : n.predsObs with _ | ps
    · exact UpK.refl _
    · exact dirtyLoop_keep (dirtyPreds k) k ih l _ s' h

/-- An edit, by the editor, of a cell that no thunk has allocated. -/
theorem opSet_edited {s s' : St V} {ty : Ty} {l : Loc} {v : V} (h : opSet ty l v s = .ok () s')
    (hn : ∀ n, s.table.get l = some n → n.predsAlloc = some []) : Edited s s' := by
  unfold opSet at h
  rw [M.bind_ok (M.get_def s)] at h
  cases hst : s.stack.isEmpty
  · rw [hst] at h; cases h
  rw [hst] at h
  simp only [if_true] at h
  unfold setCell at h
  obtain ⟨n, s1, h1, h⟩ := M.bind_inv h
  obtain ⟨rfl, g1, g2⟩ := resNode_inv h1
  match n with
  | .comp _ => cases h
  | .pure _ => cases h
  | .mut nd =>
    simp only [] at h
    by_cases hv : nd.val ≈ᵤ v
    · rw [if_pos hv] at h; cases h; exact Edited.refl _
    · rw [if_neg hv, M.bind_ok (m := putNode _ _) rfl] at h
      have h : dirtyAlloc l ({ s1 with table := s1.table.put l (.mut { nd with val := v }) } : St V) = .ok () s' := h
      generalize hs2 : ({ s1 with table := s1.table.put l (.mut { nd with val := v }) } : St V) = s2 at h
      have h2 : Edited s1 s2 := by
        rw [← hs2]
        refine ⟨rfl, rfl, rfl, rfl, rfl, fun x => ?_, ?_⟩
        · simp only [Table.get_put]
          by_cases hx : x = l
          · rw [if_pos hx, hx, g1]; exact ⟨v, rfl⟩
          · rw [if_neg hx]; exact NodeEd.up (NodeUp.refl _)
        · intro p c c' eff x _ e1 e2 hk
          simp only [Table.get_put] at e2
          by_cases hx : p = l
          · rw [if_pos hx] at e2; cases e2
          · rw [if_neg hx, e1] at e2; cases e2; exact hk
      unfold dirtyAlloc at h
      obtain ⟨_, s3, h3, h⟩ := M.bind_inv h
      have h4 : UpK s2 s3 := by
        have := dirtyPreds_keep (tableClean s2.table + 1) l s2 (by omega)
        have h3 : dirtyPreds (tableClean s2.table + 1) l s2 = _ := h3
        rw [h3] at this
        exact this
      obtain ⟨n, s4, h5, h⟩ := M.bind_inv h
      obtain ⟨rfl, h5⟩ := lookupAbs_inv h5
      have hl2 : s2.table.get l = some (.mut { nd with val := v }) := by rw [← hs2]; exact Table.get_put_self _ _ _
      have h6 := h4.1.tbl l
      rw [hl2, h5] at h6
      cases h6
      have h7 := hn _ g1
      simp only [Node.predsAlloc] at h7 h
      cases h7' : (nd.preds.filterMap fun p => if p.effect = .allocate then some p.loc else none) with
      | cons a b => rw [h7'] at h7; cases h7
      | nil =>
        rw [h7'] at h
        cases h
        exact h2.trans (Edited.up h4.1 h4.2)


theorem NodeEd.comp_right {o : Option (Node V)} {nd : CompNode V} (h : NodeEd o (some (.comp nd))) :
    ∃ es, o = some (.comp { nd with succs := es }) ∧ SuccsUp es nd.succs := by
  match o with
  | some (.comp c) => exact NodeUp.comp_right h
  | some (.mut m) => obtain ⟨v, hv⟩ := h; cases hv
  | some (.pure m) => cases h
  | none => cases h

/-- After edits, a settled thunk is current if the cells below it still hold what was seen. -/
theorem current_after {sig : Sig} {s t : St V} {σ : Store V} {D : Loc → Prop} (hI : Inv sig env s σ D) (hed : Edited s t) (A : Loc → Prop)
    (hA : ∀ p nd e, s.table.get p = some (.comp nd) → A p → e ∈ nd.succs → e.effect = .observe → A e.loc)
    (hc : ∀ p nd e m, s.table.get p = some (.comp nd) → A p → D p → e ∈ nd.succs → e.effect = .observe → t.table.get e.loc = some (.mut m) →
      e.dep.okVal m.val) : ∀ x, D x → A x → ∀ nd v, s.table.get x = some (.comp nd) → nd.res = some v → StillCurrent t x v := by
  intro x
  induction hI.acyc x with
  | intro x _ ih =>
    intro hD hAx nd v hx hv
    obtain ⟨nd0, k1, k2, k3, k4, k5, k6⟩ := hI.settled x hD
    rw [hx] at k1; cases k1
    have h1 := hed.tbl x
    rw [hx] at h1
    obtain ⟨es, hx', hup⟩ := h1.comp
    have hmem : ∀ e ∈ es, ∃ e0 ∈ nd.succs, e0.edge = e.edge := fun e he => by
      obtain ⟨e0, h1, h2⟩ := hup.mem_right he
      exact ⟨e0, h1, h2⟩
    refine .mk hx' hv (fun e he => ?_) (fun e he ty w nd' hk hd hn => ?_)
    · obtain ⟨e0, he0, hee⟩ := hmem e he
      have eqf : e0.effect = e.effect := congrArg Edge.effect hee
      have eql : e0.loc = e.loc := congrArg Edge.loc hee
      have eqd : e0.dep = e.dep := congrArg Edge.dep hee
      cases hf : e.effect with
      | allocate =>
        left
        have := hed.keep x nd _ .allocate e.loc rfl hx hx' (by rw [← eql, ← hf, ← eqf]; exact k5 e0 he0)
        exact this
      | observe =>
        right; right
        obtain ⟨n, j1, _⟩ := hI.graph.fwd x nd e0 hx he0
        have jw := hI.graph.wf _ _ j1
        obtain ⟨_, jv, je⟩ := hI.graph.edge x nd e0 hx he0
        have jv : Vis sig e0.loc := jv
        have je : (match e0.effect, sig e0.loc with
          | .observe, .cell ty => (∃ w, e0.dep = .force ty w) ∨ ∃ f r, e0.dep = .forceMap ty f r
          | .observe, .thunk ty _ _ => ∃ w, e0.dep = .force ty w
          | .allocate, .cell _ => ∃ v, e0.dep = .allocCell v
          | .allocate, .thunk _ _ _ => if e0.loc.isStruct then e0.dep = .allocStruct else ∃ a, e0.dep = .allocNom a) := je
        rw [eqf, hf] at je
        have h2 := hed.tbl e0.loc
        rw [j1] at h2
        match n with
        | .pure m => exact (jw.pure_vis jv).elim
        | .mut m =>
          left
          obtain ⟨w, h3⟩ := h2.mut
          rw [jw.1] at je
          have h4 := hc x nd e0 _ hx hAx hD he0 (eqf.trans hf) h3
          refine ⟨_, by rw [← eql]; exact h3, ?_⟩
          rw [← eqd]
          rcases je with ⟨w', hd⟩ | ⟨f, r, hd⟩
          · rw [hd] at h4 ⊢; exact ⟨rfl, h4⟩
          · rw [hd] at h4 ⊢; exact ⟨rfl, h4⟩
        | .comp c =>
          right
          obtain ⟨es2, h3, _⟩ := h2.comp
          have jw : sig e0.loc = _ := jw
          rw [jw] at je
          obtain ⟨w, hd⟩ := je
          exact ⟨c.ty, w, { c with succs := es2 }, by rw [← eqd]; exact hd, by rw [← eql]; exact h3, rfl⟩
    · obtain ⟨e0, he0, hee⟩ := hmem e he
      have eqf : e0.effect = e.effect := congrArg Edge.effect hee
      have eql : e0.loc = e.loc := congrArg Edge.loc hee
      have eqd : e0.dep = e.dep := congrArg Edge.dep hee
      have hf : e0.effect = .observe := by
        cases hf : e0.effect with
        | observe => rfl
        | allocate =>
          exfalso
          refine hk ?_
          have := hed.keep x nd _ .allocate e.loc rfl hx hx' (by rw [← eql, ← hf]; exact k5 e0 he0)
          rw [← eqf, hf]
          exact this
      have h2 := hed.tbl e.loc
      rw [hn] at h2
      obtain ⟨es2, h3, _⟩ := h2.comp_right
      have hsig := hI.thunkKind h3
      obtain ⟨c, g1, g2⟩ := k6 e0 he0
      have g2 : (match e0.effect with
        | .observe =>
          match sig e0.loc with
          | .cell _ => e0.dep.okVal c
          | .thunk _ _ _ => D e0.loc ∧ ∃ nd w, s.table.get e0.loc = some (.comp nd) ∧ nd.res = some w ∧ e0.dep.okVal w
        | .allocate => e0.dep.allocOk c) := g2
      rw [hf, eql, hsig] at g2
      obtain ⟨g3, c2, w2, g4, g5, g6⟩ := g2
      rw [eqd, hd] at g6
      cases g6
      exact ih e.loc ⟨nd, e0, hx, he0, hf, eql⟩ g3 (by rw [← eql]; exact hA x nd e0 hx hAx he0 hf) c2 w g4 g5

/-- Edits by the editor of cells that no thunk has allocated. -/
theorem edits_edited {sig : Sig} (u : V) (edits : List (Ty × Loc × V)) : ∀ (k : Nat) (s t : St V) (ws : List V), Graph sig s.table →
    (∀ x ∈ edits, ∀ p nd d, s.table.get p = some (.comp nd) → d ∈ nd.succs → d.effect = .allocate → d.loc ≠ x.2.1) →
    runSession env k (edits.map fun x => .set x.1 x.2.1 x.2.2 (.ret u)) s = .ok ws t → Edited s t := by
  suffices H : ∀ (k : Nat) (s t : St V) (ws : List V), (∀ x ∈ edits, ∀ n, s.table.get x.2.1 = some n → (∃ m, n = .mut m) → n.predsAlloc = some []) →
      runSession env k (edits.map fun x => .set x.1 x.2.1 x.2.2 (.ret u)) s = .ok ws t → Edited s t by
    intro k s t ws hg hin hr
    refine H k s t ws (fun x hx n hn hm => ?_) hr
    obtain ⟨m, rfl⟩ := hm
    simp only [Node.predsAlloc]
    congr 1
    rw [List.filterMap_eq_nil_iff]
    intro q hq
    by_cases hqe : q.effect = .allocate
    · obtain ⟨nd, h1, d, h2, h3, h4, _⟩ := hg.bwd _ _ q hn hq
      exact absurd h3 (hin x hx _ nd d h1 h2 (h4.trans hqe))
    · rw [if_neg hqe]
  induction edits with
  | nil =>
    intro k s t ws _ hr
    cases hr
    exact Edited.refl _
  | cons x edits ih =>
    intro k s t ws hin hr
    simp only [List.map_cons, runSession] at hr
    obtain ⟨v, s1, h1, hr⟩ := M.bind_inv hr
    obtain ⟨vs, s2, h2, hr⟩ := M.bind_inv hr
    cases hr
    have h3 : opSet x.1 x.2.1 x.2.2 s = .ok () s1 := by
      have h1 : (opSet x.1 x.2.1 x.2.2 >>= fun _ => runProg env (recN env k) (.ret u)) s = .ok v s1 := h1
      obtain ⟨_, s3, h3, h4⟩ := M.bind_inv h1
      cases h4
      exact h3
    have h4 : ∃ m, s.table.get x.2.1 = some (.mut m) := by
      unfold opSet at h3
      rw [M.bind_ok (M.get_def s)] at h3
      cases hst : s.stack.isEmpty
      · rw [hst] at h3; cases h3
      rw [hst] at h3
      simp only [if_true] at h3
      unfold setCell at h3
      obtain ⟨n, s1, h1, h3⟩ := M.bind_inv h3
      obtain ⟨rfl, g1, g2⟩ := resNode_inv h1
      match n with
      | .comp _ => cases h3
      | .pure _ => cases h3
      | .mut nd => exact ⟨nd, g1⟩
    have h5 := opSet_edited h3 (fun n hn => hin x (List.mem_cons_self ..) n hn (by
      obtain ⟨m, h4⟩ := h4
      rw [hn] at h4; cases h4; exact ⟨m, rfl⟩))
    refine h5.trans (ih k s1 t vs (fun y hy n hn hm => ?_) h2)
    obtain ⟨m, rfl⟩ := hm
    have h6 := h5.tbl y.2.1
    rw [hn] at h6
    rcases hg : s.table.get y.2.1 with _ | n0
    · rw [hg] at h6; cases h6
    · rw [hg] at h6
      match n0 with
      | .comp c => obtain ⟨_, h7, _⟩ := h6; cases h7
      | .pure c => cases h6
      | .mut c =>
        obtain ⟨w, h7⟩ := h6
        cases h7
        have h8 := hin y (List.mem_cons_of_mem _ hy) (.mut c) hg ⟨c, rfl⟩
        exact h8

/-- **C74.** Let a session `ps` followed by a demand of the thunk `l`, with value `v`, have a meaning.  Let the editor then edit, any number of times, cells
that no thunk has allocated, so that in the end each observation of a cell recorded by `l`, or by a thunk observed by it, directly
or through other thunks, is what it was.  Then the next
demand of `l` returns `v` and runs no code. -/
theorem C74_unseen_edits_run_nothing (sig : Sig) (env : Env V) (ps : List (Prog V)) (ty : Ty) (l : Loc) (cyc : Option V) (us : List V)
    (h : Means sig env (ps ++ [.force ty l cyc .ret]) us) (purity : Bool) (hp : purity = true → sig.pu = true)
    (n m : Nat) (vs : List V) (v : V) (s s1 : St V)
    (hr : runSession env n ps (initSt purity sig.mode) = .ok vs s) (hf : exec env m (.force ty l cyc .ret) s = .ok v s1)
    (nd : CompNode V) (hl : s1.table.get l = some (.comp nd))
    (edits : List (Ty × Loc × V)) (u : V) (k : Nat) (ws : List V) (s2 : St V)
    (hin : ∀ x ∈ edits, ∀ p nd d, s1.table.get p = some (.comp nd) → d ∈ nd.succs → d.effect = .allocate → d.loc ≠ x.2.1)
    (he : runSession env k (edits.map fun x => .set x.1 x.2.1 x.2.2 (.ret u)) s1 = .ok ws s2)
    (hsame : ∀ p c d w, Below s1.table l p → s1.table.get p = some (.comp c) → d ∈ c.succs → d.effect = .observe →
      (∀ c', s1.table.get d.loc ≠ some (.comp c')) → s2.contentAt d.loc = some w → ¬ Differs d w) (cyc' : Option V) :
    ∃ N s3, (∀ j ≥ N, exec env j (.force nd.ty l cyc' .ret) s2 = .ok v s3) ∧ s3.runs = s1.runs ∧
      (∀ x, s3.contentAt x = s2.contentAt x ∧ s3.value x = s2.value x) ∧ ∃ nd', s3.table.get l = some (.comp nd') ∧ AllClean nd'.succs := by
  obtain ⟨σ0, D0, σ2, D2, rs, _, hI, _, hst, _, hD⟩ := demand_ran sig env ps ty l cyc us h purity hp n m vs v s s1 hr hf
  have hk := hI.thunkKind hl
  obtain ⟨hDl, nd', hl', hv⟩ := hD nd.ty nd.pp nd.fn hk
  rw [hl] at hl'; cases hl'
  have hed := edits_edited u edits k s1 s2 ws hI.graph hin he
  have hcur := current_after hI hed (Below s1.table l) (fun p c e hp hA he ho => .step hA hp he ho)
    (fun p c e m hp hA _ he hef hm => by
      have h1 := hsame p c e m.val hA hp he hef (fun c' hc' => by
        have h2 := hed.tbl e.loc
        rw [hc'] at h2
        obtain ⟨es, h3, _⟩ := h2.comp
        rw [hm] at h3; cases h3) (by unfold St.contentAt; rw [hm])
      cases hd : e.dep with
      | force ty w => rw [Differs, hd] at h1; exact Classical.not_not.1 h1
      | forceMap ty f r => rw [Differs, hd] at h1; exact Classical.not_not.1 h1
      | allocStruct => rw [Differs, hd] at h1; exact absurd trivial h1
      | allocNom _ => rw [Differs, hd] at h1; exact absurd trivial h1
      | allocCell _ => rw [Differs, hd] at h1; exact absurd trivial h1
      | forceAbs => rw [Differs, hd] at h1; exact absurd trivial h1)
    l hDl .self nd v hl hv
  have h2 := hed.tbl l
  rw [hl] at h2
  obtain ⟨es, hl2, _⟩ := h2.comp
  obtain ⟨N, s3, g1, g2, g3, g4⟩ := C74_current_is_not_run env s2 (hed.stack.trans hst) l _ v hl2 hcur cyc'
  exact ⟨N, s3, g1, g2.trans hed.runs, g3, g4⟩

/-- **C74.** Edits that are undone cost nothing: if at the end every cell holds what it held, then the next demand runs no code. -/
theorem C74_undone_edits_run_nothing (sig : Sig) (env : Env V) (ps : List (Prog V)) (ty : Ty) (l : Loc) (cyc : Option V) (us : List V)
    (h : Means sig env (ps ++ [.force ty l cyc .ret]) us) (purity : Bool) (hp : purity = true → sig.pu = true)
    (n m : Nat) (vs : List V) (v : V) (s s1 : St V)
    (hr : runSession env n ps (initSt purity sig.mode) = .ok vs s) (hf : exec env m (.force ty l cyc .ret) s = .ok v s1)
    (nd : CompNode V) (hl : s1.table.get l = some (.comp nd))
    (edits : List (Ty × Loc × V)) (u : V) (k : Nat) (ws : List V) (s2 : St V)
    (hin : ∀ x ∈ edits, ∀ p nd d, s1.table.get p = some (.comp nd) → d ∈ nd.succs → d.effect = .allocate → d.loc ≠ x.2.1)
    (he : runSession env k (edits.map fun x => .set x.1 x.2.1 x.2.2 (.ret u)) s1 = .ok ws s2)
    (hundo : ∀ x, s2.contentAt x = s1.contentAt x) (cyc' : Option V) :
    ∃ N s3, (∀ j ≥ N, exec env j (.force nd.ty l cyc' .ret) s2 = .ok v s3) ∧ s3.runs = s1.runs := by
  obtain ⟨σ0, D0, σ2, D2, rs, _, hI, _, hst, _, hD⟩ := demand_ran sig env ps ty l cyc us h purity hp n m vs v s s1 hr hf
  have hk := hI.thunkKind hl
  obtain ⟨hDl, nd', hl', hv⟩ := hD nd.ty nd.pp nd.fn hk
  rw [hl] at hl'; cases hl'
  have hed := edits_edited u edits k s1 s2 ws hI.graph hin he
  have hcur := current_after hI hed (fun _ => True) (fun _ _ _ _ _ _ _ => trivial)
    (fun p c e m hp _ hDp he hef hm => by
      have h1 : s1.table.get e.loc = some (.mut m) := by
        have h2 := hed.tbl e.loc
        rw [hm] at h2
        have h3 := hundo e.loc
        unfold St.contentAt at h3
        rw [hm] at h3
        rcases hg : s1.table.get e.loc with _ | n
        · rw [hg] at h2; cases h2
        · rw [hg] at h2 h3
          match n with
          | .comp c => obtain ⟨_, h4, _⟩ := h2; cases h4
          | .pure c => cases h2
          | .mut c =>
            obtain ⟨w, h4⟩ := h2
            cases h4
            cases h3
            rfl
      have h2 := hI.clean p c e hp he ((hI.settled p hDp).elim fun c' hc' => by
        obtain ⟨j1, _, _, _, j5, _⟩ := hc'
        rw [hp] at j1; cases j1
        exact j5 e he)
      rcases h2 with h2 | h2
      · exact h2.elim
      · unfold Good at h2
        have hef : e.edge.effect = .observe := hef
        have h1 : s1.table.get e.edge.loc = _ := h1
        rw [hef] at h2
        simp only [h1] at h2
        exact h2) l hDl trivial nd v hl hv
  have h2 := hed.tbl l
  rw [hl] at h2
  obtain ⟨es, hl2, _⟩ := h2.comp
  obtain ⟨N, s3, g1, g2, g3, g4⟩ := C74_current_is_not_run env s2 (hed.stack.trans hst) l _ v hl2 hcur cyc'
  exact ⟨N, s3, g1, g2.trans hed.runs⟩


end

/-! ### A session that meets the hypotheses

`top` (name 3) forces `tens` (name 1), which looks at the tens of the cell 0, and `twice` (name 2), which reads the cell 4.  The editor sets the cell 0 from
5 to 50, and then to 7; it sets the cell 4 from 1 to 2, and back.  All dependencies are flagged, and none of the three thunks is run again. -/
namespace ReuseEx

def nm (n : Nat) : Name := ⟨0, .usize n⟩
def at_ (n : Nat) : Loc := ⟨.empty, .nominal (nm n)⟩

def code : FnId → Nat → Prog Nat
  | 1, _ => .forceMap 0 (at_ 0) (· / 10) fun x => .ret (x + 1)
  | 2, _ => .force 0 (at_ 4) none fun x => .ret (x * 2)
  | 3, _ => .force 0 (at_ 1) none fun x => .force 0 (at_ 2) none fun y => .ret (x + y)
  | _, _ => .panic

def env : Env Nat := ⟨code, fun _ => 0, fun _ _ => 0⟩

def kind (l : Loc) : Kind :=
  if l = at_ 0 then .cell 0 else if l = at_ 4 then .cell 0 else if l = at_ 1 then .thunk 0 1 1 else if l = at_ 2 then .thunk 0 2 2 else .thunk 0 3 3

def sig : Sig := { kind := kind }

def ps : List (Prog Nat) :=
  [.cell 0 (nm 0) 5 fun _ => .cell 0 (nm 4) 1 fun _ => .thunk 0 (.nominal (nm 1)) 1 1 0 fun _ => .thunk 0 (.nominal (nm 2)) 2 2 0 fun _ =>
      .thunk 0 (.nominal (nm 3)) 3 3 0 fun _ => .ret 0]

def demand : Prog Nat := .force 0 (at_ 3) none .ret

example : Means sig env (ps ++ [demand]) [0, 3] := ⟨10, _, rfl⟩

def edits : List (Ty × Loc × Nat) := [(0, at_ 0, 50), (0, at_ 4, 2), (0, at_ 0, 7), (0, at_ 4, 1)]

/-- The result, if the run is successful. -/
def result {α : Type} : Out Nat α → Option α
  | .ok a _ => some a
  | _ => none
def state {α : Type} (s : St Nat) : Out Nat α → St Nat
  | .ok _ s => s
  | _ => s

def st0 : St Nat := state (initSt false false) (runSession env 10 ps (initSt false false))
def st1 : St Nat := state st0 (exec env 10 demand st0)
def st2 : St Nat := state st1 (runSession env 10 (edits.map fun x => .set x.1 x.2.1 x.2.2 (.ret 0)) st1)
def st3 : St Nat := state st2 (exec env 10 demand st2)

example : result (exec env 10 demand st0) = some 3 := by decide +kernel
example : result (runSession env 10 (edits.map fun x => .set x.1 x.2.1 x.2.2 (.ret 0)) st1) = some [0, 0, 0, 0] := by decide +kernel
example : st1.runs = [at_ 2, at_ 1, at_ 3] := by decide +kernel

/-- The flags of the dependencies of the thunk. -/
def flags (s : St Nat) (l : Loc) : List Bool :=
  match s.table.get l with
  | some (.comp nd) => nd.succs.map Succ.dirty
  | _ => []

example : flags st2 (at_ 3) = [true, true] ∧ flags st2 (at_ 1) = [true] ∧ flags st2 (at_ 2) = [true] := by decide +kernel
/-- The demand returns the value, runs nothing, and lowers the flags. -/
example : result (exec env 10 demand st2) = some 3 ∧ st3.runs = st1.runs ∧ flags st3 (at_ 3) = [false, false] ∧ flags st3 (at_ 1) = [false] := by
  decide +kernel

theorem mem_of_get {W : Type} : ∀ {t : Table W} {l : Loc} {n : Node W}, t.get l = some n → (l, n) ∈ t
  | [], _, _, h => by cases h
  | (k, m) :: t, l, n, h => by
    simp only [Table.get] at h
    by_cases hk : k = l
    · rw [if_pos hk] at h; cases h; rw [hk]; exact List.mem_cons_self ..
    · rw [if_neg hk] at h; exact List.mem_cons_of_mem _ (mem_of_get h)

/-- Checks the hypotheses of `C74_unseen_edits_run_nothing` for all nodes of the table. -/
def okNode (s : St Nat) (x : Loc × Node Nat) : Bool :=
  match x.2 with
  | .comp nd => nd.succs.all fun d => decide (d.effect = .observe) &&
      match s.contentAt d.loc, d.dep with
      | some w, .force _ v => decide (v = w) || decide (d.loc = at_ 1) || decide (d.loc = at_ 2)
      | some w, .forceMap _ f r => decide (r = f w)
      | none, _ => true
      | _, _ => false
  | _ => true

theorem all_ok : st1.table.all (okNode st2) = true := by decide +kernel
theorem thunks : (match st1.table.get (at_ 1) with | some (.comp _) => true | _ => false) = true ∧
    (match st1.table.get (at_ 2) with | some (.comp _) => true | _ => false) = true := by decide +kernel

theorem ok_edge {p : Loc} {c : CompNode Nat} {d : Succ Nat} (h : st1.table.get p = some (.comp c)) (hd : d ∈ c.succs) :
    d.effect = .observe ∧ ∀ w, (∀ c', st1.table.get d.loc ≠ some (.comp c')) → st2.contentAt d.loc = some w → ¬ Differs d w := by
  have h1 := List.all_eq_true.1 all_ok _ (mem_of_get h)
  have h2 := List.all_eq_true.1 h1 d hd
  rw [Bool.and_eq_true] at h2
  refine ⟨of_decide_eq_true h2.1, fun w hc hw => ?_⟩
  have h3 := h2.2
  rw [hw] at h3
  unfold Differs
  cases hdp : d.dep with
  | force ty v =>
    rw [hdp] at h3
    simp only [Bool.or_eq_true, decide_eq_true_eq] at h3
    rcases h3 with (h3 | h3) | h3
    · exact fun h => h h3
    · exfalso
      have := thunks.1
      rw [← h3] at this
      split at this
      · rename_i c' hc'; exact hc c' hc'
      · cases this
    · exfalso
      have := thunks.2
      rw [← h3] at this
      split at this
      · rename_i c' hc'; exact hc c' hc'
      · cases this
  | forceMap ty f r =>
    rw [hdp] at h3
    exact fun h => h (of_decide_eq_true h3)
  | allocStruct => rw [hdp] at h3; cases h3
  | allocNom _ => rw [hdp] at h3; cases h3
  | allocCell _ => rw [hdp] at h3; cases h3
  | forceAbs => rw [hdp] at h3; cases h3

/-- The hypotheses on the edits. -/
example : (∀ x ∈ edits, ∀ p nd d, st1.table.get p = some (.comp nd) → d ∈ nd.succs → d.effect = .allocate → d.loc ≠ x.2.1) ∧
    (∀ p c d w, Below st1.table (at_ 3) p → st1.table.get p = some (.comp c) → d ∈ c.succs → d.effect = .observe →
      (∀ c', st1.table.get d.loc ≠ some (.comp c')) → st2.contentAt d.loc = some w → ¬ Differs d w) := by
  refine ⟨fun x _ p nd d h hd he => ?_, fun p c d w _ h hd _ hc hw => (ok_edge h hd).2 w hc hw⟩
  rw [(ok_edge h hd).1] at he; cases he

end ReuseEx

end Adapton
