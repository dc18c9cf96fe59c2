import Verif.Props.Consistency
import Verif.Engine.Stay
import Verif.Props.Dirtying
/-
C04 (unchanged edits are invisible), C05 (read your writes), C06 (edits are lazy), C23 (set is editor-only), C24 (type errors
are detected), C25 (program-point mismatch is detected), C26 (memo match), C48 (contents and caches change only for a reason).
All for every engine state.
-/
set_option linter.unusedSectionVars false
set_option linter.unusedVariables false
set_option linter.unusedSimpArgs false
namespace Adapton
variable {V : Type} [UEq V]

/-! ### Specification -/

/-- Nothing has happened, except for entries in the trace and, inside a running thunk, edges recorded on its frame. -/
structure NoChange (s s' : St V) : Prop where
  graph : s'.table = s.table
  noRun : s'.runs = s.runs
  path : s'.path = s.path
  modes : s'.purity = s.purity ∧ s'.ignoreNominal = s.ignoreNominal
  editor : s.stack = [] → s'.stack = []

/-- Where an allocation named `nm` goes, outside structural mode. -/
def here (s : St V) (nm : Name) : Loc := ⟨s.path, .nominal nm⟩

/-- All locations but `l` hold what they held, with the same cached result; only dirty bits may differ. -/
def OthersKeep (l : Loc) (s s' : St V) : Prop :=
  ∀ x n, x ≠ l → s.table.get x = some n →
    ∃ n', s'.table.get x = some n' ∧ n'.content = n.content ∧ n'.cached = n.cached

/-! ### Helpers -/

theorem NoChange.refl (s : St V) : NoChange s s := ⟨rfl, rfl, rfl, ⟨rfl, rfl⟩, fun h => h⟩
theorem NoChange.trans {a b c : St V} (h1 : NoChange a b) (h2 : NoChange b c) : NoChange a c :=
  ⟨h2.graph.trans h1.graph, h2.noRun.trans h1.noRun, h2.path.trans h1.path,
    ⟨h2.modes.1.trans h1.modes.1, h2.modes.2.trans h1.modes.2⟩, fun h => h2.editor (h1.editor h)⟩
theorem NoChange.log (s : St V) (lg : List Ev) : NoChange s { s with log := lg } := ⟨rfl, rfl, rfl, ⟨rfl, rfl⟩, fun h => h⟩

theorem recordEdge_noChange (e : Succ V) (d : Option (Dep V)) (s : St V) :
    ∃ s', recordEdge e d s = .ok () s' ∧ NoChange s s' := by
  unfold recordEdge
  rw [M.modify_def]
  rcases hs : s.stack with _ | ⟨fr, K⟩
  · exact ⟨_, rfl, NoChange.refl _⟩
  · exact ⟨_, rfl, ⟨rfl, rfl, rfl, ⟨rfl, rfl⟩, fun h => by rw [hs] at h; cases h⟩⟩

theorem resNode_panic {ty : Ty} {l : Loc} {s : St V} {n : Node V} (h : s.table.get l = some n) (ht : n.ty ≠ ty) :
    resNode ty l s = .panic .typeError s := by
  simp only [resNode, M.bind_def, lookupAbs_ok h, ht, if_false]; rfl

/-- The end of a force: the observation is recorded on the running frame, unless it is a duplicate. -/
theorem record_noChange (d : Bool) (l : Loc) (ty : Ty) (r : V) (s : St V) :
    ∃ s', (if d then (Pure.pure r : M V V) else do
      recordEdge ⟨false, l, .observe, .force ty r⟩ none; Pure.pure r) s = .ok r s' ∧ NoChange s s' := by
  cases d
  · obtain ⟨s2, h1, h2⟩ := recordEdge_noChange (⟨false, l, .observe, .force ty r⟩ : Succ V) none s
    refine ⟨s2, ?_, h2⟩
    simp only [Bool.false_eq_true, if_false]
    rw [M.bind_ok h1]; rfl
  · exact ⟨s, rfl, NoChange.refl _⟩

theorem fin_noChange (c d : Bool) (l : Loc) (ty : Ty) (r : V) (s : St V) :
    ∃ s', (if c then (Pure.pure r : M V V) else if d then (Pure.pure r : M V V) else do
      recordEdge ⟨false, l, .observe, .force ty r⟩ none; Pure.pure r) s = .ok r s' ∧ NoChange s s' := by
  cases c
  · exact record_noChange d l ty r s
  · exact ⟨s, rfl, NoChange.refl _⟩

/-- Forcing a cell, in any state, with any recursion depth: its value, and no change. -/
theorem forceCell (R : Rec V) (l : Loc) (cyc : Option V) (s : St V) (nd : MutNode V) (h : s.table.get l = some (.mut nd)) :
    ∃ s', opForce R nd.ty l cyc s = .ok nd.val s' ∧ NoChange s s' := by
  unfold opForce
  rw [M.bind_ok (M.get_def s), M.bind_ok (resNode_ok (ty := nd.ty) h rfl)]
  simp only []
  rw [M.bind_ok (m := evEff _ _ _) rfl]
  obtain ⟨s', h1, h2⟩ := record_noChange (dupOf s l) l nd.ty nd.val { s with log := .eff (.force .refGet) (topLoc s) l :: s.log }
  exact ⟨s', h1, (NoChange.log _ _).trans h2⟩

theorem exec_force (env : Env V) (n : Nat) (ty : Ty) (l : Loc) (cyc : Option V) (s s' : St V) (v : V)
    (h : opForce (recN env n) ty l cyc s = .ok v s') : exec env n (.force ty l cyc .ret) s = .ok v s' := by
  unfold exec runProg
  rw [M.bind_ok h]; rfl

theorem Up.others {s s' : St V} (h : Up s s') (x : Loc) (n : Node V) (hx : s.table.get x = some n) :
    ∃ n', s'.table.get x = some n' ∧ n'.content = n.content ∧ n'.cached = n.cached := by
  have := h.tbl x
  rw [hx] at this
  match n with
  | .comp nd => obtain ⟨es, h1, h2⟩ := this; exact ⟨_, h1, rfl, rfl⟩
  | .mut nd => exact ⟨_, this, rfl, rfl⟩
  | .pure nd => exact ⟨_, this, rfl, rfl⟩

/-! ### C04 -/

/-- **C04.** `set` with a value equal to the one the cell holds does nothing at all. -/
theorem C04_set_same (s : St V) (l : Loc) (nd : MutNode V) (h : s.table.get l = some (.mut nd)) (hs : s.stack = []) (v : V)
    (hv : nd.val ≈ᵤ v) : opSet nd.ty l v s = .ok () s := by
  unfold opSet
  rw [M.bind_ok (M.get_def s)]
  simp only [hs, List.isEmpty_nil, if_true]
  unfold setCell
  rw [M.bind_ok (resNode_ok (ty := nd.ty) h rfl)]
  simp only []; rw [if_pos hv]; rfl

/-- **C04.** Re-allocating a cell with a value equal to the one it holds changes nothing; the trace reports an allocation without change. -/
theorem C04_cell_same (env : Env V) (s : St V) (nm : Name) (nd : MutNode V) (hi : s.ignoreNominal = false)
    (h : s.table.get (here s nm) = some (.mut nd)) (v : V) (hv : nd.val ≈ᵤ v) :
    ∃ s', opCell env nd.ty nm v s = .ok (here s nm) s' ∧ NoChange s s' ∧
      s'.log = .end_ :: .begin (.alloc (.locExists false) .refCell) (topLoc s) (here s nm) :: s.log := by
  unfold opCell
  rw [M.bind_ok (M.get_def s)]
  simp only [hi, Bool.false_and, Bool.false_eq_true, if_false]
  have hc : cellTable nd.ty (here s nm) v false s = .ok () { s with
      log := .end_ :: .begin (.alloc (.locExists false) .refCell) (topLoc s) (here s nm) :: s.log } := by
    unfold cellTable
    rw [M.bind_ok (M.get_def s)]
    simp only [h]
    rw [M.bind_ok (resNode_ok (ty := nd.ty) h rfl)]
    simp only [cellDiff, hv, not_true_eq_false, decide_false]
    rw [M.bind_ok (m := evBegin _ _ _) rfl]
    unfold setCell
    rw [M.bind_def, M.bind_ok (resNode_ok (ty := nd.ty) (n := .mut nd)
      (s := { s with log := .begin (.alloc (.locExists false) .refCell) (topLoc s) (here s nm) :: s.log }) h rfl)]
    simp only [if_pos hv]
    rfl
  have hc' : cellTable nd.ty (⟨s.path, .nominal nm⟩ : Loc) v false s = _ := hc
  rw [M.bind_ok hc']
  unfold cellRecord
  simp only [Bool.false_eq_true, if_false]
  obtain ⟨s2, h1, h2⟩ := recordEdge_noChange (⟨false, here s nm, .allocate, .allocCell v⟩ : Succ V) none
    { s with log := .end_ :: .begin (.alloc (.locExists false) .refCell) (topLoc s) (here s nm) :: s.log }
  refine ⟨s2, ?_, (NoChange.log _ _).trans h2, ?_⟩
  · have h1' : recordEdge (⟨false, ⟨s.path, .nominal nm⟩, .allocate, .allocCell v⟩ : Succ V) none _ = _ := h1
    rw [M.bind_ok h1']; rfl
  · unfold recordEdge at h1
    rw [M.modify_def] at h1
    rcases hs : s.stack with _ | ⟨fr, K⟩ <;> simp only [hs] at h1 <;> cases h1 <;> rfl

/-! ### C05 -/

theorem setCell_effect (ty : Ty) (l : Loc) (v : V) (s s' : St V) (h : setCell ty l v s = .ok () s') :
    (∃ nd, s'.table.get l = some (.mut nd) ∧ nd.ty = ty ∧ (nd.val = v ∨ nd.val ≈ᵤ v)) ∧ OthersKeep l s s' ∧ s'.path = s.path ∧
      s'.ignoreNominal = s.ignoreNominal ∧ s'.stack = s.stack ∧ s'.runs = s.runs := by
  unfold setCell at h
  obtain ⟨n, s1, h1, h⟩ := M.bind_inv h
  obtain ⟨rfl, g1, g2⟩ := resNode_inv h1
  match n with
  | .comp _ => cases h
  | .pure _ => cases h
  | .mut nd =>
    simp only [] at h
    by_cases hv : nd.val ≈ᵤ v
    · rw [if_pos hv] at h
      cases h
      exact ⟨⟨nd, g1, g2, .inr hv⟩, fun x n hx hn => ⟨n, hn, rfl, rfl⟩, rfl, rfl, rfl, rfl⟩
    · rw [if_neg hv, M.bind_ok (m := putNode _ _) rfl] at h
      have hup : Up { s1 with table := s1.table.put l (.mut { nd with val := v }) } s' := (dirtyAlloc_general l _).ok h
      refine ⟨⟨{ nd with val := v }, ?_, g2, .inl rfl⟩, ?_, hup.path, hup.ign, hup.stack, hup.runs⟩
      · have := hup.tbl l
        simp only [Table.get_put_self] at this
        exact this
      · intro x n hx hn
        exact hup.others x n (by simp only [Table.get_put_ne _ _ hx]; exact hn)

/-- **C05**, set: after `set(l,v)`, `force(l)` returns `v`, or a value equal to `v` in the user's sense (at every recursion depth,
and without running anything), and what every other location holds, and caches, is unchanged. -/
theorem C05_set_then_force_upto (env : Env V) (s s' : St V) (ty : Ty) (l : Loc) (v : V) (h : opSet ty l v s = .ok () s') :
    (∃ w, (w = v ∨ w ≈ᵤ v) ∧ ∀ n cyc, ∃ s2, exec env n (.force ty l cyc .ret) s' = .ok w s2 ∧ NoChange s' s2) ∧
      OthersKeep l s s' := by
  unfold opSet at h
  rw [M.bind_ok (M.get_def s)] at h
  rcases hs : s.stack.isEmpty with _ | _
  · rw [hs] at h; cases h
  · rw [hs] at h
    obtain ⟨⟨nd, g1, rfl, hv⟩, g2, _⟩ := setCell_effect ty l v s s' h
    refine ⟨⟨nd.val, hv, fun n cyc => ?_⟩, g2⟩
    obtain ⟨s2, k1, k2⟩ := forceCell (recN env n) l cyc s' nd g1
    exact ⟨s2, exec_force env n _ _ _ _ _ _ k1, k2⟩

/-- **C05**, cell: after `cell(nm,v)` of a name that is new or holds a cell, `force` of the returned art returns `v`, or
a value equal to `v` in the user's sense, and what every other location holds, and caches, is unchanged. -/
theorem C05_cell_then_force_upto (env : Env V) (s s' : St V) (ty : Ty) (nm : Name) (l : Loc) (v : V) (hi : s.ignoreNominal = false)
    (hk : ∀ nd, s.table.get (here s nm) ≠ some (.comp nd)) (hp : ∀ nd, s.table.get (here s nm) ≠ some (.pure nd))
    (h : opCell env ty nm v s = .ok l s') :
    l = here s nm ∧ (∃ w, (w = v ∨ w ≈ᵤ v) ∧ ∀ n cyc, ∃ s2, exec env n (.force ty l cyc .ret) s' = .ok w s2 ∧ NoChange s' s2) ∧
      OthersKeep l s s' := by
  unfold opCell at h
  rw [M.bind_ok (M.get_def s)] at h
  simp only [hi, Bool.false_and, Bool.false_eq_true, if_false] at h
  obtain ⟨_, s1, h1, h⟩ := M.bind_inv h
  obtain ⟨_, s2, h2, h⟩ := M.bind_inv h
  cases h
  refine ⟨rfl, ?_⟩
  have ht : s'.table = s1.table := by
    unfold cellRecord at h2
    simp only [Bool.false_eq_true, if_false] at h2
    exact recordEdge_table _ _ _ _ _ h2
  have key : (∃ nd, s1.table.get (here s nm) = some (.mut nd) ∧ nd.ty = ty ∧ (nd.val = v ∨ nd.val ≈ᵤ v)) ∧ OthersKeep (here s nm) s s1 := by
    unfold cellTable at h1
    rw [M.bind_ok (M.get_def s)] at h1
    rcases hg : s.table.get (⟨s.path, .nominal nm⟩ : Loc) with _ | n0
    · simp only [hg] at h1
      rw [M.bind_ok (m := evBegin _ _ _) rfl, M.bind_ok (m := evEnd) rfl] at h1
      cases h1
      refine ⟨⟨_, Table.get_put_self _ _ _, rfl, .inl rfl⟩, fun x n hx hn => ⟨n, ?_, rfl, rfl⟩⟩
      simp only [here] at hx
      simp only [Table.get_put_ne _ _ hx]; exact hn
    · simp only [hg] at h1
      replace h1 := M.bind_inv h1
      obtain ⟨n, s3, h3, h1⟩ := h1
      obtain ⟨rfl, g1, g2⟩ := resNode_inv h3
      rw [M.bind_ok (m := evBegin _ _ _) rfl] at h1
      match n with
      | .comp nd => exact absurd g1 (hk nd)
      | .pure nd => exact absurd g1 (hp nd)
      | .mut nd =>
        simp only [] at h1
        obtain ⟨_, s4, h4, h1⟩ := M.bind_inv h1
        cases h1
        obtain ⟨k1, k2, _⟩ := setCell_effect _ _ _ _ _ h4
        exact ⟨k1, k2⟩
  obtain ⟨⟨nd, g1, rfl, hv⟩, g2⟩ := key
  refine ⟨⟨nd.val, hv, fun n cyc => ?_⟩, ?_⟩
  · obtain ⟨s2, k1, k2⟩ := forceCell (recN env n) (here s nm) cyc s' nd (by rw [ht]; exact g1)
    exact ⟨s2, exec_force env n _ _ _ _ _ _ k1, k2⟩
  · intro x n hx hn
    rw [ht]; exact g2 x n hx hn

/-- **C05**, set, for derived equality: after `set(l,v)`, `force(l)` returns `v`. -/
theorem C05_set_then_force {V : Type} [DecidableEq V] (env : Env V) (s s' : St V) (ty : Ty) (l : Loc) (v : V)
    (h : opSet ty l v s = .ok () s') :
    (∀ n cyc, ∃ s2, exec env n (.force ty l cyc .ret) s' = .ok v s2 ∧ NoChange s' s2) ∧ OthersKeep l s s' := by
  obtain ⟨⟨w, hw, h1⟩, h2⟩ := C05_set_then_force_upto env s s' ty l v h
  obtain rfl : w = v := hw.elim id id
  exact ⟨h1, h2⟩

/-- **C05**, cell, for derived equality: after `cell(nm,v)` of a name that is new or holds a cell, `force` of the returned art
returns `v`. -/
theorem C05_cell_then_force {V : Type} [DecidableEq V] (env : Env V) (s s' : St V) (ty : Ty) (nm : Name) (l : Loc) (v : V)
    (hi : s.ignoreNominal = false)
    (hk : ∀ nd, s.table.get (here s nm) ≠ some (.comp nd)) (hp : ∀ nd, s.table.get (here s nm) ≠ some (.pure nd))
    (h : opCell env ty nm v s = .ok l s') :
    l = here s nm ∧ (∀ n cyc, ∃ s2, exec env n (.force ty l cyc .ret) s' = .ok v s2 ∧ NoChange s' s2) ∧ OthersKeep l s s' := by
  obtain ⟨h0, ⟨w, hw, h1⟩, h2⟩ := C05_cell_then_force_upto env s s' ty nm l v hi hk hp h
  obtain rfl : w = v := hw.elim id id
  exact ⟨h0, h1, h2⟩

/-- **C05**, "until the next mutation": whatever program runs next, whether it returns or panics, as long as nobody calls
`set` on `l` and the trace reports no allocation at `l`, forcing the cell returns what it held. -/
theorem C05_until_next_mutation (env : Env V) (l : Loc) (p : Prog V) (hp : NoSet l p) (he : ∀ fn a, NoSet l (env.code fn a))
    (n : Nat) (s s' : St V) (nd : MutNode V) (hl : s.table.get l = some (.mut nd)) (r : V)
    (h : exec env n p s = .ok r s' ∨ ∃ e, exec env n p s = .panic e s')
    (ha : ∀ evs, s'.log = evs ++ s.log → ¬ AllocAt l evs) (n' : Nat) (cyc : Option V) :
    ∃ s2, exec env n' (.force nd.ty l cyc .ret) s' = .ok nd.val s2 ∧ NoChange s' s2 := by
  have hs := exec_stays env l he n p hp s
  have hs : Stay l s s' := by
    rcases h with h | ⟨e, h⟩ <;> rw [h] at hs <;> exact hs
  obtain ⟨evs, rs, h1, h2, h3⟩ := hs
  obtain ⟨n2, g1, g2, _⟩ := h3 (ha evs h1) _ hl
  match n2 with
  | .comp _ => cases g2
  | .pure _ => cases g2
  | .mut nd2 =>
    simp only [Node.content, Content.cell.injEq] at g2
    obtain ⟨e1, e2⟩ := g2
    rw [← e1, ← e2]
    obtain ⟨s2, k1, k2⟩ := forceCell (recN env n') l cyc s' nd2 g1
    exact ⟨s2, exec_force env n' _ _ _ _ _ _ k1, k2⟩

/-! ### C48 -/

/-- **C48.** What a location holds changes only by an allocation at that location, which the trace reports, or a `set`; and
its cached result changes only by that or by running it.  For every program, whether it returns or panics. -/
theorem C48_changes_have_reasons (env : Env V) (l : Loc) (p : Prog V) (hp : NoSet l p) (he : ∀ fn a, NoSet l (env.code fn a))
    (n : Nat) (s s' : St V) (r : V) (h : exec env n p s = .ok r s' ∨ ∃ e, exec env n p s = .panic e s')
    (nd : Node V) (hl : s.table.get l = some nd) :
    ∃ evs rs, s'.log = evs ++ s.log ∧ s'.runs = rs ++ s.runs ∧
      (AllocAt l evs ∨ ∃ nd', s'.table.get l = some nd' ∧ nd'.content = nd.content ∧ (l ∈ rs ∨ nd'.cached = nd.cached)) := by
  have hs := exec_stays env l he n p hp s
  have hs : Stay l s s' := by
    rcases h with h | ⟨e, h⟩ <;> rw [h] at hs <;> exact hs
  obtain ⟨evs, rs, h1, h2, h3⟩ := hs
  refine ⟨evs, rs, h1, h2, ?_⟩
  by_cases ha : AllocAt l evs
  · exact .inl ha
  · obtain ⟨n', g1, g2, g3⟩ := h3 ha nd hl
    refine .inr ⟨n', g1, g2, ?_⟩
    by_cases hr : l ∈ rs
    · exact .inl hr
    · exact .inr (g3 hr)

/-! ### C06 -/

theorem removePred_runs (src tgt : Loc) (s : St V) : (removePred src tgt s).Sat (fun s' => s'.runs = s.runs) := by
  unfold removePred
  rw [M.bind_ok (m := evEff _ _ _) rfl]
  refine Sat.bind (lookupAbs_sat tgt _) (fun _ h => by rw [h]) ?_
  rintro n s' _ rfl
  match n with
  | .comp nd => exact rfl
  | .mut nd => exact rfl
  | .pure nd => exact rfl

theorem revokeSuccs_runs (src : Loc) (es : List (Succ V)) : ∀ s : St V, (revokeSuccs src es s).Sat (fun s' => s'.runs = s.runs) := by
  induction es with
  | nil => intro s; exact rfl
  | cons e es ih =>
    intro s
    exact Sat.bind (removePred_runs src e.loc s) (fun _ h => h) fun _ s' _ h => (ih s').mono fun _ h' => h'.trans h

theorem dirtyAlloc_runs (l : Loc) (s : St V) : (dirtyAlloc l s).Sat (fun s' => s'.runs = s.runs) :=
  (dirtyAlloc_general l s).mono fun _ h => h.runs

theorem setCell_runs (ty : Ty) (l : Loc) (v : V) (s : St V) : (setCell ty l v s).Sat (fun s' => s'.runs = s.runs) := by
  unfold setCell
  refine Sat.bind (resNode_sat ty l s) (fun _ h => by rw [h]) ?_
  rintro n s' _ rfl
  match n with
  | .comp nd => exact rfl
  | .pure nd => exact rfl
  | .mut nd =>
    show ((if nd.val ≈ᵤ v then _ else _ : M V Unit) s').Sat _
    split
    · exact rfl
    · exact dirtyAlloc_runs l { s' with table := s'.table.put l (.mut { nd with val := v }) }

theorem recordEdge_runs (e : Succ V) (d : Option (Dep V)) (s : St V) : (recordEdge e d s).Sat (fun s' => s'.runs = s.runs) := by
  obtain ⟨s', h, h1⟩ := recordEdge_noChange e d s
  rw [h]; exact h1.noRun

theorem cellTable_runs (ty : Ty) (l : Loc) (v : V) (pu : Bool) (s : St V) :
    (cellTable ty l v pu s).Sat (fun s' => s'.runs = s.runs) := by
  unfold cellTable
  rw [M.bind_ok (M.get_def s)]
  rcases hg : s.table.get l with _ | n0
  · simp only [hg]; exact rfl
  · simp only [hg]
    refine Sat.bind (resNode_sat ty l s) (fun _ h => by rw [h]) ?_
    rintro n s' _ rfl
    rw [M.bind_ok (m := evBegin _ _ _) rfl]
    match n with
    | .mut nd => exact Sat.bind (setCell_runs _ _ _ _) (fun _ h => h) fun _ s2 _ h => h
    | .comp nd =>
      exact Sat.bind (dirtyAlloc_runs _ _) (fun _ h => h) fun _ s2 _ h =>
        Sat.bind ((revokeSuccs_runs _ _ s2).mono fun _ h' => h'.trans h) (fun _ h => h) fun _ s3 _ h => h
    | .pure nd => exact rfl

/-- **C06.** Allocating and mutating run no user code: `cell`, `set` and `thunk` (named or structural) always terminate, and
whether they return or panic, no thunk has been run. -/
theorem C06_edits_are_lazy (env : Env V) (s : St V) (ty : Ty) :
    (∀ nm v, (opCell env ty nm v s).Sat (fun s' => s'.runs = s.runs)) ∧
    (∀ l v, (opSet ty l v s).Sat (fun s' => s'.runs = s.runs)) ∧
    (∀ nc pp fn arg, (opThunk env ty nc pp fn arg s).Sat (fun s' => s'.runs = s.runs)) := by
  refine ⟨fun nm v => ?_, fun l v => ?_, fun nc pp fn arg => ?_⟩
  · unfold opCell
    rw [M.bind_ok (M.get_def s)]
    refine Sat.bind (cellTable_runs _ _ _ _ _) (fun _ h => h) fun _ s2 _ h => ?_
    unfold cellRecord
    refine Sat.bind (Q := fun s' => s'.runs = s.runs) ?_ (fun _ h => h) fun _ s3 _ h => h
    split
    · exact h
    · exact (recordEdge_runs _ _ _).mono fun _ h' => h'.trans h
  · unfold opSet
    rw [M.bind_ok (M.get_def s)]
    rcases hs : s.stack.isEmpty with _ | _
    · exact rfl
    · exact setCell_runs _ _ _ _
  · unfold opThunk
    rw [M.bind_ok (M.get_def s)]
    have hst : (thunkStructural env ty pp fn arg s).Sat (fun s' => s'.runs = s.runs) := by
      unfold thunkStructural
      rw [M.bind_ok (M.get_def s)]
      rcases hg : s.table.get (⟨s.path, .structural (env.hashApp pp arg)⟩ : Loc) with _ | n0
      · simp only [hg]
        exact Sat.bind (recordEdge_runs _ _ _) (fun _ h => h) fun _ s2 _ h => h
      · simp only [hg]; exact rfl
    match nc with
    | .eager => exact rfl
    | .naive => exact rfl
    | .structural => exact hst
    | .nominal nm =>
      show ((if s.ignoreNominal = true then _ else _ : M V Loc) s).Sat _
      split
      · exact hst
      · unfold thunkNominal
        rw [M.bind_ok (M.get_def s)]
        rcases hg : s.table.get (⟨s.path, .nominal nm⟩ : Loc) with _ | n0
        · simp only [hg]
          rw [M.bind_ok (m := evBegin _ _ _) rfl, M.bind_ok (m := evEnd) rfl]
          exact Sat.bind (recordEdge_runs _ _ _) (fun _ h => h) fun _ s2 _ h => h
        · simp only [hg]
          refine Sat.bind (resNode_sat ty _ s) (fun _ h => by rw [h]) ?_
          rintro n s' _ rfl
          match n with
          | .pure _ => exact rfl
          | .mut _ =>
            simp only []
            rw [M.bind_ok (m := evBegin _ _ _) rfl]
            exact Sat.bind (dirtyAlloc_runs _ _) (fun _ h => h) fun _ s2 _ h => Sat.bind (m := evEnd) (Q := fun q => q.runs = s'.runs) h (fun _ h => h) fun _ s3 _ h =>
              Sat.bind ((recordEdge_runs _ _ _).mono fun _ h' => h'.trans h) (fun _ h => h) fun _ s4 _ h => h
          | .comp c =>
            simp only []
            by_cases hpp : c.pp = pp
            · rw [if_pos hpp]
              by_cases ha : c.arg ≈ᵤ arg
              · rw [if_pos ha, M.bind_ok (m := evBegin _ _ _) rfl, M.bind_ok (m := evEnd) rfl]
                exact Sat.bind (recordEdge_runs _ _ _) (fun _ h => h) fun _ s2 _ h => h
              · rw [if_neg ha, M.bind_ok (m := putNode _ _) rfl, M.bind_ok (m := evBegin _ _ _) rfl]
                exact Sat.bind (dirtyAlloc_runs _ _) (fun _ h => h) fun _ s2 _ h => Sat.bind (m := evEnd) (Q := fun q => q.runs = s'.runs) h (fun _ h => h) fun _ s3 _ h =>
                  Sat.bind ((recordEdge_runs _ _ _).mono fun _ h' => h'.trans h) (fun _ h => h) fun _ s4 _ h => h
            · rw [if_neg hpp]; exact rfl

/-! ### C23, C24, C25 -/

/-- **C23.** `set` inside a running thunk panics, whatever the cell and the value, and changes nothing. -/
theorem C23_set_is_editor_only (env : Env V) (n : Nat) (s : St V) (hs : s.stack ≠ []) (ty : Ty) (l : Loc) (v : V) (k : Prog V) :
    exec env n (.set ty l v k) s = .panic .setInThunk s := by
  unfold exec runProg opSet
  rw [M.bind_def, M.bind_ok (M.get_def s)]
  rcases h : s.stack with _ | ⟨f, K⟩
  · exact absurd h hs
  · rfl

/-- **C24.** Using a location at another type than the one it has panics and changes nothing: forcing it in any way, setting
it, re-allocating it as a cell or a named thunk. -/
theorem C24_type_errors_detected (env : Env V) (n : Nat) (s : St V) (l : Loc) (nd : Node V) (hl : s.table.get l = some nd)
    (ty : Ty) (ht : nd.ty ≠ ty) :
    (∀ cyc k, exec env n (.force ty l cyc k) s = .panic .typeError s) ∧
    (∀ f k, exec env n (.forceMap ty l f k) s = .panic .typeError s) ∧
    (∀ f k, exec env n (.forceAbs ty l f k) s = .panic .typeError s) ∧
    (s.stack = [] → ∀ v k, exec env n (.set ty l v k) s = .panic .typeError s) ∧
    (∀ nm v k, s.ignoreNominal = false → l = here s nm → exec env n (.cell ty nm v k) s = .panic .typeError s) ∧
    (∀ nm pp fn arg k, s.ignoreNominal = false → l = here s nm →
      exec env n (.thunk ty (.nominal nm) pp fn arg k) s = .panic .typeError s) := by
  have hr := resNode_panic hl ht
  refine ⟨fun cyc k => ?_, fun f k => ?_, fun f k => ?_, fun hs v k => ?_, fun nm v k hi h => ?_, fun nm pp fn arg k hi h => ?_⟩
  · unfold exec runProg opForce
    rw [M.bind_def, M.bind_ok (M.get_def s), M.bind_def, hr]
  · unfold exec runProg opForceMap
    rw [M.bind_def, M.bind_ok (M.get_def s), M.bind_def, hr]
  · unfold exec runProg opForceAbs
    rw [M.bind_def, M.bind_ok (M.get_def s), M.bind_def, hr]
  · unfold exec runProg opSet
    rw [M.bind_def, M.bind_ok (M.get_def s)]
    simp only [hs, List.isEmpty_nil, if_true]
    unfold setCell
    rw [M.bind_def, hr]
  · subst h
    unfold exec runProg opCell
    rw [M.bind_def, M.bind_ok (M.get_def s)]
    simp only [hi, Bool.false_and, Bool.false_eq_true, if_false]
    rw [M.bind_def]
    unfold cellTable
    rw [M.bind_ok (M.get_def s)]
    simp only [here] at hl hr
    simp only [hl]
    rw [M.bind_def, hr]
  · subst h
    unfold exec runProg opThunk
    rw [M.bind_def, M.bind_ok (M.get_def s)]
    simp only [hi, Bool.false_eq_true, if_false]
    unfold thunkNominal
    rw [M.bind_ok (M.get_def s)]
    simp only [here] at hl hr
    simp only [hl]
    rw [M.bind_def, hr]

/-- **C25.** Re-allocating a thunk name with another program point panics and changes nothing. -/
theorem C25_prog_pt_mismatch (env : Env V) (n : Nat) (s : St V) (nm : Name) (c : CompNode V) (hi : s.ignoreNominal = false)
    (hl : s.table.get (here s nm) = some (.comp c)) (pp : ProgPt) (hpp : pp ≠ c.pp) (fn : FnId) (arg : V) (k : Loc → Prog V) :
    exec env n (.thunk c.ty (.nominal nm) pp fn arg k) s = .panic .progPtMismatch s := by
  unfold exec runProg opThunk
  rw [M.bind_def, M.bind_ok (M.get_def s)]
  simp only [hi, Bool.false_eq_true, if_false]
  unfold thunkNominal
  rw [M.bind_ok (M.get_def s)]
  simp only [here] at hl
  simp only [hl]
  rw [M.bind_ok (resNode_ok (ty := c.ty) hl rfl)]
  simp only [if_neg (Ne.symm hpp)]
  rfl

/-! ### C26 -/

/-- **C26**, match: re-allocating a thunk with the same name and program point and an equal argument changes nothing; in particular the
cached result and its dependencies stay. -/
theorem C26_memo_match (env : Env V) (s : St V) (nm : Name) (c : CompNode V) (hi : s.ignoreNominal = false)
    (hl : s.table.get (here s nm) = some (.comp c)) (fn : FnId) (arg : V) (ha : c.arg ≈ᵤ arg) :
    ∃ s', opThunk env c.ty (.nominal nm) c.pp fn arg s = .ok (here s nm) s' ∧ NoChange s s' := by
  unfold opThunk
  rw [M.bind_ok (M.get_def s)]
  simp only [hi, Bool.false_eq_true, if_false]
  unfold thunkNominal
  rw [M.bind_ok (M.get_def s)]
  simp only [here] at hl ⊢
  simp only [hl]
  rw [M.bind_ok (resNode_ok (ty := c.ty) hl rfl)]
  simp only [if_true, if_pos ha]
  rw [M.bind_ok (m := evBegin _ _ _) rfl, M.bind_ok (m := evEnd) rfl]
  simp only []
  generalize hs0 : ({ s with log := _ } : St V) = s0
  obtain ⟨s2, h1, h2⟩ := recordEdge_noChange (⟨false, ⟨s.path, .nominal nm⟩, .allocate, .allocNom arg⟩ : Succ V) none s0
  refine ⟨s2, ?_, NoChange.trans ?_ h2⟩
  · rw [M.bind_ok h1]; rfl
  · rw [← hs0]; exact NoChange.log _ _

/-- **C26**, mismatch: re-allocating it with an argument that is not equal stores the argument and discards the cached result; what every
other location holds, and caches, is unchanged; nothing is run. -/
theorem C26_memo_mismatch (env : Env V) (s s' : St V) (nm : Name) (c : CompNode V) (hi : s.ignoreNominal = false)
    (hl : s.table.get (here s nm) = some (.comp c)) (fn : FnId) (arg : V) (ha : ¬ c.arg ≈ᵤ arg) (l : Loc)
    (h : opThunk env c.ty (.nominal nm) c.pp fn arg s = .ok l s') :
    l = here s nm ∧ (∃ nd, s'.table.get l = some nd ∧ nd.content = .thunk c.ty c.pp c.fn arg ∧ nd.cached = none) ∧
      OthersKeep l s s' ∧ s'.runs = s.runs := by
  unfold opThunk at h
  rw [M.bind_ok (M.get_def s)] at h
  simp only [hi, Bool.false_eq_true, if_false] at h
  unfold thunkNominal at h
  rw [M.bind_ok (M.get_def s)] at h
  simp only [here] at hl ⊢
  simp only [hl] at h
  rw [M.bind_ok (resNode_ok (ty := c.ty) hl rfl)] at h
  simp only [if_true, if_neg ha] at h
  rw [M.bind_ok (m := putNode _ _) rfl, M.bind_ok (m := evBegin _ _ _) rfl] at h
  simp only [] at h
  generalize hs0 : ({ s with table := s.table.put ⟨s.path, .nominal nm⟩ (.comp { c with arg := arg, res := none }), log := _ } : St V) = s0 at h
  obtain ⟨_, s1, h1, h⟩ := M.bind_inv h
  obtain ⟨_, s2, h2, h⟩ := M.bind_inv h
  obtain ⟨_, s3, h3, h⟩ := M.bind_inv h
  cases h
  have ht : s'.table = s1.table := by
    rw [recordEdge_table _ _ _ _ _ h3]; cases h2; rfl
  have hrn : s'.runs = s1.runs := by
    have := (recordEdge_runs _ _ _).ok h3
    rw [this]; cases h2; rfl
  have hup : Up s0 s1 := (dirtyAlloc_general _ _).ok h1
  refine ⟨rfl, ?_, ?_, ?_⟩
  · rw [ht]
    obtain ⟨n', g1, g2, g3⟩ := hup.others (⟨s.path, .nominal nm⟩ : Loc) (.comp { c with arg := arg, res := none })
      (by rw [← hs0]; exact Table.get_put_self _ _ _)
    exact ⟨n', g1, g2, g3⟩
  · intro x n hx hn
    rw [ht]
    exact hup.others x n (by rw [← hs0]; simp only [Table.get_put_ne _ _ hx]; exact hn)
  · rw [hrn, hup.runs, ← hs0]

/-! ### The hypotheses are met -/
namespace Example1

/-- A cell observed by a thunk that has a cached result. -/
def cellN : MutNode Nat := ⟨0, [⟨at_ 2, .observe, none⟩], 25⟩
def thunkN : CompNode Nat := ⟨0, [], [⟨false, at_ 1, .observe, .force 0 25⟩], 12, 2, 7, some 1⟩
def st2 : St Nat := { initSt true false with table := [ (at_ 1, .mut cellN), (at_ 2, .comp thunkN) ] }

example : st2.table.get (here st2 (nm 1)) = some (.mut cellN) ∧ st2.stack = [] ∧ st2.ignoreNominal = false := ⟨rfl, rfl, rfl⟩
example : st2.table.get (here st2 (nm 2)) = some (.comp thunkN) ∧ (13 : ProgPt) ≠ thunkN.pp ∧ ¬ thunkN.arg ≈ᵤ (8 : Nat) := by
  refine ⟨?_, by decide, by decide⟩
  show Table.get st2.table (at_ 2) = _
  rfl
/-- The successful edits assumed by C05 and C26: they succeed, the value is new, the observer's edge gets dirty. -/
example : (match opSet 0 (at_ 1) 30 st2 with | .ok _ s => tableClean s.table | _ => 9) = 0 ∧
    (match opCell env 0 (nm 1) 30 st2 with | .ok _ s => tableClean s.table | _ => 9) = 0 ∧
    (match opCell env 0 (nm 5) 30 st2 with | .ok l s => (decide (l = at_ 5), s.table.length) | _ => (false, 9)) = (true, 3) ∧
    (match opThunk env 0 (.nominal (nm 2)) 12 2 8 st2 with | .ok l _ => decide (l = at_ 2) | _ => false) = true := by decide +kernel
/-- A program for C05/C48 that calls `set`, but not on `at_ 1`, allocates and forces. -/
example : NoSet (at_ 1) (.set 0 (at_ 3) 5 (.cell 0 (nm 4) 6 fun _ => .force 0 (at_ 2) none fun v => .ret v) : Prog Nat) :=
  .set _ _ _ _ (by decide) (.cell _ _ _ _ fun _ => .force _ _ _ _ fun _ => .ret _)
/-- The closures of the example session never call `set`. -/
example : ∀ fn a, NoSet (at_ 1) (env.code fn a) := by
  intro fn a
  show NoSet (at_ 1) (code fn a)
  unfold code
  split
  · refine .ns _ _ _ (.thunk _ _ _ _ _ _ fun _ => .force _ _ _ _ fun _ => .ret _) fun x => ?_
    split
    · exact .ret _
    · exact .forceMap _ _ _ _ fun _ => .call _ _ _ fun _ => .ret _
  · exact .force _ _ _ _ fun _ => .ret _
  · exact .ret _
  · exact .panic

end Example1
end Adapton
