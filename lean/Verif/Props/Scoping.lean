import Verif.Trace.Model
import Verif.Props.Consistency
/-
C27 (scoping), C28 (persistence of locations), C29 (identity of arts), C31 (trace brackets):
for every program, disciplined or not, every closure environment, every state, every recursion depth.
-/
set_option linter.unusedSectionVars false
namespace Adapton
variable {V : Type} [UEq V]

/-- **C27.** Namespaces and modes are scoped: when a program returns normally, the current namespace, the structural-mode
flag and the purity flag are what they were, and the evaluation stack has the same locations; all frames but the running
one are untouched, and the running one has only gained edges. -/
theorem C27_scoped (env : Env V) (n : Nat) (p : Prog V) (s s' : St V) (v : V) (h : exec env n p s = .ok v s') :
    s'.path = s.path ∧ s'.ignoreNominal = s.ignoreNominal ∧ s'.purity = s.purity ∧
    s'.stack.map (·.loc) = s.stack.map (·.loc) ∧ s'.stack.tail = s.stack.tail ∧
    ∀ fr fr', s.stack.head? = some fr → s'.stack.head? = some fr' → ∃ new, fr'.succs = fr.succs ++ new := by
  have hg := exec_gen env n p s
  rw [h] at hg
  have hg : Ok false 0 0 s s' := hg
  refine ⟨hg.path, hg.ign, hg.purity, hg.stack.locs, ?_, ?_⟩
  · rcases hg.stack with h | ⟨_, fr, K0, new, h1, h2⟩
    · rw [h]
    · rw [h1, h2]; rfl
  · intro fr fr' h1 h2
    rcases hg.stack with h | ⟨_, fr0, K0, new, h3, h4⟩
    · rw [h, h1] at h2; cases h2; exact ⟨[], (List.append_nil _).symm⟩
    · rw [h3] at h1; rw [h4] at h2; cases h1; cases h2; exact ⟨new, rfl⟩

/-- C27 for whole sessions: the editor's namespace, mode and (empty) stack are restored. -/
theorem C27_session_scoped (env : Env V) (n : Nat) (ps : List (Prog V)) (pu : Bool) (s' : St V) (vs : List V)
    (h : runSession env n ps (initSt pu false) = .ok vs s') :
    s'.path = .empty ∧ s'.ignoreNominal = false ∧ s'.purity = pu ∧ s'.stack = [] := by
  have hg := runSession_gen env n ps (initSt pu false)
  rw [h] at hg
  have hg : Ok false 0 0 (initSt pu false) s' := hg
  refine ⟨hg.path, hg.ign, hg.purity, ?_⟩
  rcases hg.stack with h | ⟨_, fr, K0, new, h1, _⟩
  · exact h
  · cases h1

/-- What can be seen of a location's kind. -/
inductive LocKind where
  | cell | immutableCell | thunk
deriving DecidableEq
/-- The kind of a node. -/
def kindOf : Node V → LocKind
  | .mut _ => .cell
  | .pure _ => .immutableCell
  | .comp _ => .thunk

/-- How a location may change: an immutable (structural) cell keeps its contents for ever, a thunk stays a thunk, a cell stays a
cell unless it is reallocated as a thunk; the type never changes. -/
def PersistsAs (nd nd' : Node V) : Prop :=
  nd'.ty = nd.ty ∧ (kindOf nd = .immutableCell → nd' = nd) ∧ (kindOf nd = .thunk → kindOf nd' = .thunk) ∧
    (kindOf nd = .cell → kindOf nd' ≠ .immutableCell)

theorem KindOk.persists {n n' : Node V} (ht : n'.ty = n.ty) (h : n.KindOk n') : PersistsAs n n' := by
  cases n <;> cases n' <;> simp_all [PersistsAs, kindOf, Node.KindOk]

/-- **C28.** A location, once allocated, stays allocated with the same result type: across any program, whether it returns
or panics, and at any crash point (a panic leaves the state of the moment it is raised). -/
theorem C28_locations_persist (env : Env V) (n : Nat) (p : Prog V) (s : St V) (l : Loc) (nd : Node V)
    (hl : s.table.get l = some nd) :
    (∀ v s', exec env n p s = .ok v s' → ∃ nd', s'.table.get l = some nd' ∧ PersistsAs nd nd') ∧
    (∀ e s', exec env n p s = .panic e s' → ∃ nd', s'.table.get l = some nd' ∧ PersistsAs nd nd') := by
  have hg := exec_gen env n p s
  constructor
  · intro v s' h
    rw [h] at hg
    obtain ⟨nd', h1, h2, h3⟩ := (show Ok false 0 0 s s' from hg).grow l nd hl
    exact ⟨nd', h1, KindOk.persists h2 h3⟩
  · intro e s' h
    rw [h] at hg
    obtain ⟨nd', h1, h2, h3⟩ := (show Pk s s' from hg).grow l nd hl
    exact ⟨nd', h1, KindOk.persists h2 h3⟩

/-- C28, second half: the art returned by an allocation exists, with the type it was allocated at (outside structural mode).
Together with `C28_locations_persist` it never dangles. -/
theorem C28_cell_exists (env : Env V) (ty : Ty) (nm : Name) (v : V) (s s' : St V) (l : Loc)
    (h : opCell env ty nm v s = .ok l s') : ∃ nd, s'.table.get l = some nd ∧ nd.ty = ty := by
  unfold opCell at h
  rw [M.bind_ok (M.get_def s), M.bind_def] at h
  generalize hl : (⟨s.path, if s.ignoreNominal then ArtId.structural (env.hashVal v) else ArtId.nominal nm⟩ : Loc) = l0 at h
  rcases h1 : cellTable ty l0 v (s.ignoreNominal && s.purity) s with ⟨u, s1⟩ | ⟨e, s1⟩ | _
  · rw [h1] at h
    simp only [] at h
    have key : ∃ nd, s1.table.get l0 = some nd ∧ nd.ty = ty := by
      unfold cellTable at h1
      rw [M.bind_ok (M.get_def s)] at h1
      rcases hg : s.table.get l0 with _ | n0
      · simp only [hg] at h1
        rw [M.bind_ok (m := evBegin _ _ _) rfl, M.bind_ok (m := evEnd) rfl] at h1
        cases h1
        simp only [Table.get_put_self]
        cases (s.ignoreNominal && s.purity) <;> exact ⟨_, rfl, rfl⟩
      · simp only [hg] at h1
        rw [M.bind_def] at h1
        rcases h2 : resNode ty l0 s with ⟨n, s2⟩ | ⟨e, s2⟩ | _
        · rw [h2] at h1
          obtain ⟨rfl, g1, g2⟩ := resNode_inv h2
          simp only [] at h1
          have hgr : Grow s2.table s1.table := by
            have hg2 := cellTable_gen true 0 ty l0 v (s2.ignoreNominal && s2.purity) s2
            unfold cellTable at hg2
            rw [M.bind_ok (M.get_def s2)] at hg2
            simp only [hg] at hg2
            rw [M.bind_ok h2] at hg2
            rw [h1] at hg2
            exact (show Ok true 0 0 s2 s1 from hg2).grow
          obtain ⟨nd, k1, k2, _⟩ := hgr l0 n g1
          exact ⟨nd, k1, k2.trans g2⟩
        · rw [h2] at h1; cases h1
        · rw [h2] at h1; cases h1
    rw [M.bind_def] at h
    rcases h2 : cellRecord l0 v (s.ignoreNominal && s.purity) s1 with ⟨u, s2⟩ | ⟨e, s2⟩ | _
    · rw [h2] at h
      cases h
      have ht : s'.table = s1.table := by
        unfold cellRecord at h2
        cases hb : (s.ignoreNominal && s.purity)
        · rw [hb] at h2
          exact recordEdge_table _ _ _ _ _ h2
        · rw [hb] at h2
          cases h2; rfl
      rw [ht]; exact key
    · rw [h2] at h; cases h
    · rw [h2] at h; cases h
  · rw [h1] at h; cases h
  · rw [h1] at h; cases h

/-- C28, thunks: outside structural mode the location returned by `thunk` exists with the given type. -/
theorem C28_thunk_exists (env : Env V) (ty : Ty) (nm : Name) (pp : ProgPt) (fn : FnId) (arg : V) (s s' : St V) (l : Loc)
    (hi : s.ignoreNominal = false) (h : opThunk env ty (.nominal nm) pp fn arg s = .ok l s') :
    ∃ nd, s'.table.get l = some nd ∧ nd.ty = ty := by
  unfold opThunk at h
  rw [M.bind_ok (M.get_def s)] at h
  simp only [hi, Bool.false_eq_true, if_false] at h
  have hgen := thunkNominal_gen 0 ty nm pp fn arg s
  rw [h] at hgen
  have hgen : Ok false 0 0 s s' := hgen
  unfold thunkNominal at h
  rw [M.bind_ok (M.get_def s)] at h
  rcases hg : s.table.get (⟨s.path, .nominal nm⟩ : Loc) with _ | n0
  · simp only [hg] at h
    rw [M.bind_ok (m := evBegin _ _ _) rfl, M.bind_ok (m := evEnd) rfl, M.bind_def] at h
    generalize hr : recordEdge _ _ _ = o at h
    match o, h with
    | .ok u s1, h =>
      cases h
      exact ⟨_, Table.get_put_self _ _ _, rfl⟩
  · have hl : l = ⟨s.path, .nominal nm⟩ ∧ n0.ty = ty := by
      simp only [hg] at h
      rw [M.bind_def] at h
      rcases h2 : resNode ty (⟨s.path, .nominal nm⟩ : Loc) s with ⟨n, s2⟩ | ⟨e, s2⟩ | _
      · rw [h2] at h
        obtain ⟨rfl, g1, g2⟩ := resNode_inv h2
        rw [hg] at g1; cases g1
        refine ⟨?_, g2⟩
        match n0 with
        | .pure _ => cases h
        | .mut _ =>
          simp only [] at h
          rw [M.bind_ok (m := evBegin _ _ _) rfl, M.bind_def] at h
          generalize (dirtyAlloc _ : M V Unit) _ = o at h
          match o, h with
          | .ok u s3, h =>
            simp only [] at h
            rw [M.bind_ok (m := evEnd) rfl, M.bind_def] at h
            generalize recordEdge _ _ _ = o at h
            match o, h with
            | .ok u s4, h => cases h; rfl
        | .comp c =>
          simp only [] at h
          split at h
          · split at h
            · rw [M.bind_ok (m := evBegin _ _ _) rfl, M.bind_ok (m := evEnd) rfl, M.bind_def] at h
              generalize recordEdge _ _ _ = o at h
              match o, h with
              | .ok u s4, h => cases h; rfl
            · rw [M.bind_ok (m := putNode _ _) rfl, M.bind_ok (m := evBegin _ _ _) rfl, M.bind_def] at h
              generalize (dirtyAlloc _ : M V Unit) _ = o at h
              match o, h with
              | .ok u s3, h =>
                simp only [] at h
                rw [M.bind_ok (m := evEnd) rfl, M.bind_def] at h
                generalize recordEdge _ _ _ = o at h
                match o, h with
                | .ok u s4, h => cases h; rfl
          · cases h
      · rw [h2] at h; cases h
      · rw [h2] at h; cases h
    obtain ⟨rfl, hty⟩ := hl
    obtain ⟨nd, k1, k2, _⟩ := hgen.grow _ _ hg
    exact ⟨nd, k1, k2.trans hty⟩

theorem opCell_loc (env : Env V) (ty : Ty) (nm : Name) (v : V) (s s' : St V) (l : Loc) (h : opCell env ty nm v s = .ok l s') :
    l = ⟨s.path, if s.ignoreNominal then .structural (env.hashVal v) else .nominal nm⟩ := by
  unfold opCell at h
  rw [M.bind_ok (M.get_def s), M.bind_def] at h
  generalize cellTable _ _ _ _ s = o at h
  match o, h with
  | .ok u s3, h =>
    simp only [] at h
    rw [M.bind_def] at h
    generalize cellRecord _ _ _ s3 = o at h
    match o, h with
    | .ok u s4, h => cases h; rfl

theorem thunkNominal_loc (ty : Ty) (nm : Name) (pp : ProgPt) (fn : FnId) (arg : V) (s s' : St V) (l : Loc)
    (h : thunkNominal ty nm pp fn arg s = .ok l s') : l = ⟨s.path, .nominal nm⟩ := by
  unfold thunkNominal at h
  rw [M.bind_ok (M.get_def s)] at h
  rcases hg : s.table.get (⟨s.path, .nominal nm⟩ : Loc) with _ | n0
  · simp only [hg] at h
    rw [M.bind_ok (m := evBegin _ _ _) rfl, M.bind_ok (m := evEnd) rfl, M.bind_def] at h
    generalize hr : recordEdge _ _ _ = o at h
    match o, h with
    | .ok u s1, h => cases h; rfl
  · simp only [hg] at h
    rw [M.bind_def] at h
    rcases h2 : resNode ty (⟨s.path, .nominal nm⟩ : Loc) s with ⟨n, s2⟩ | ⟨e, s2⟩ | _
    · rw [h2] at h
      obtain ⟨rfl, g1, g2⟩ := resNode_inv h2
      rw [hg] at g1; cases g1
      match n0 with
      | .pure _ => cases h
      | .mut _ =>
        simp only [] at h
        rw [M.bind_ok (m := evBegin _ _ _) rfl, M.bind_def] at h
        generalize (dirtyAlloc _ : M V Unit) _ = o at h
        match o, h with
        | .ok u s3, h =>
          simp only [] at h
          rw [M.bind_ok (m := evEnd) rfl, M.bind_def] at h
          generalize recordEdge _ _ _ = o at h
          match o, h with
          | .ok u s4, h => cases h; rfl
      | .comp c =>
        simp only [] at h
        split at h
        · split at h
          · rw [M.bind_ok (m := evBegin _ _ _) rfl, M.bind_ok (m := evEnd) rfl, M.bind_def] at h
            generalize recordEdge _ _ _ = o at h
            match o, h with
            | .ok u s4, h => cases h; rfl
          · rw [M.bind_ok (m := putNode _ _) rfl, M.bind_ok (m := evBegin _ _ _) rfl, M.bind_def] at h
            generalize (dirtyAlloc _ : M V Unit) _ = o at h
            match o, h with
            | .ok u s3, h =>
              simp only [] at h
              rw [M.bind_ok (m := evEnd) rfl, M.bind_def] at h
              generalize recordEdge _ _ _ = o at h
              match o, h with
              | .ok u s4, h => cases h; rfl
        · cases h
    · rw [h2] at h; cases h
    · rw [h2] at h; cases h

theorem thunkStructural_loc (env : Env V) (ty : Ty) (pp : ProgPt) (fn : FnId) (arg : V) (s s' : St V) (l : Loc)
    (h : thunkStructural env ty pp fn arg s = .ok l s') : l = ⟨s.path, .structural (env.hashApp pp arg)⟩ := by
  unfold thunkStructural at h
  rw [M.bind_ok (M.get_def s)] at h
  rcases hg : s.table.get (⟨s.path, .structural (env.hashApp pp arg)⟩ : Loc) with _ | n0
  · simp only [hg] at h
    rw [M.bind_def] at h
    generalize recordEdge _ _ _ = o at h
    match o, h with
    | .ok u s1, h => cases h; rfl
  · simp only [hg] at h; cases h; rfl

theorem opThunk_loc (env : Env V) (ty : Ty) (nc : NameChoice) (pp : ProgPt) (fn : FnId) (arg : V) (s s' : St V) (l : Loc)
    (h : opThunk env ty nc pp fn arg s = .ok l s') :
    l.path = s.path ∧
    (l.id = .structural (env.hashApp pp arg) ∧ (nc = .structural ∨ s.ignoreNominal = true) ∨
      ∃ nm, nc = .nominal nm ∧ s.ignoreNominal = false ∧ l.id = .nominal nm) := by
  unfold opThunk at h
  rw [M.bind_ok (M.get_def s)] at h
  match nc with
  | .eager => cases h
  | .naive => cases h
  | .structural => have := thunkStructural_loc _ _ _ _ _ _ _ _ h; subst this; exact ⟨rfl, .inl ⟨rfl, .inl rfl⟩⟩
  | .nominal nm =>
    cases hi : s.ignoreNominal
    · simp only [hi, Bool.false_eq_true, if_false] at h
      have := thunkNominal_loc _ _ _ _ _ _ _ _ h; subst this
      exact ⟨rfl, .inr ⟨nm, rfl, rfl, rfl⟩⟩
    · simp only [hi, if_true] at h
      have := thunkStructural_loc _ _ _ _ _ _ _ _ h; subst this
      exact ⟨rfl, .inl ⟨rfl, .inr rfl⟩⟩

/-- An allocation by the user: `cell!`, or `thunk!` with a name. -/
inductive AllocCall (V : Type) where
  | cell (ty : Ty) (nm : Name) (v : V)
  | thunk (ty : Ty) (nm : Name) (pp : ProgPt) (fn : FnId) (arg : V)

/-- The name it is given. -/
def AllocCall.name : AllocCall V → Name
  | .cell _ nm _ => nm
  | .thunk _ nm _ _ _ => nm

/-- Performing it. -/
def AllocCall.run (env : Env V) : AllocCall V → M V Loc
  | .cell ty nm v => opCell env ty nm v
  | .thunk ty nm pp fn arg => opThunk env ty (.nominal nm) pp fn arg

/-- **C29.** Outside structural mode, two allocations, made in any states (at any two moments, with any contents, of any
kinds), return equal arts iff they were made in equal namespaces with equal names. -/
theorem C29_art_identity (env : Env V) (a b : AllocCall V) (s1 s1' s2 s2' : St V) (l1 l2 : Loc)
    (i1 : s1.ignoreNominal = false) (i2 : s2.ignoreNominal = false)
    (h1 : a.run env s1 = .ok l1 s1') (h2 : b.run env s2 = .ok l2 s2') :
    l1 = l2 ↔ s1.path = s2.path ∧ a.name = b.name := by
  have key : ∀ (a : AllocCall V) s s' l, s.ignoreNominal = false → a.run env s = .ok l s' → l = ⟨s.path, .nominal a.name⟩ := by
    intro a s s' l hi h
    match a with
    | .cell ty nm v => have := opCell_loc _ _ _ _ _ _ _ h; rw [hi] at this; exact this
    | .thunk ty nm pp fn arg =>
      obtain ⟨k1, ⟨_, h | h⟩ | ⟨nm', h, _, k2⟩⟩ :=
        opThunk_loc _ _ _ _ _ _ _ _ _ (show opThunk env ty (.nominal nm) pp fn arg s = .ok l s' from h)
      · cases h
      · rw [hi] at h; cases h
      · cases h; cases l; cases k1; cases k2; rfl
  rw [key a s1 s1' l1 i1 h1, key b s2 s2' l2 i2 h2]
  simp

/-- C29 in structural mode: identity is the namespace and the hash of the content, whatever the names; cells and thunks use
the two hash functions of the environment. -/
theorem C29_structural_identity (env : Env V) (ty ty' : Ty) (nm nm' : Name) (v v' : V) (s1 s1' s2 s2' : St V) (l1 l2 : Loc)
    (i1 : s1.ignoreNominal = true) (i2 : s2.ignoreNominal = true)
    (h1 : opCell env ty nm v s1 = .ok l1 s1') (h2 : opCell env ty' nm' v' s2 = .ok l2 s2') :
    l1 = l2 ↔ s1.path = s2.path ∧ env.hashVal v = env.hashVal v' := by
  rw [opCell_loc _ _ _ _ _ _ _ h1, opCell_loc _ _ _ _ _ _ _ h2, i1, i2]
  simp

/-- C29 in structural mode, and for structural thunks in any mode. -/
theorem C29_structural_thunk_identity (env : Env V) (ty ty' : Ty) (pp pp' : ProgPt) (fn fn' : FnId) (v v' : V)
    (nc nc' : NameChoice) (s1 s1' s2 s2' : St V) (l1 l2 : Loc)
    (i1 : nc = .structural ∨ s1.ignoreNominal = true) (i2 : nc' = .structural ∨ s2.ignoreNominal = true)
    (h1 : opThunk env ty nc pp fn v s1 = .ok l1 s1') (h2 : opThunk env ty' nc' pp' fn' v' s2 = .ok l2 s2') :
    l1 = l2 ↔ s1.path = s2.path ∧ env.hashApp pp v = env.hashApp pp' v' := by
  have key : ∀ (ty pp fn v nc s s' l), (nc = .structural ∨ s.ignoreNominal = true) →
      opThunk env ty nc pp fn v s = .ok l s' → l = ⟨s.path, .structural (env.hashApp pp v)⟩ := by
    intro ty pp fn v nc s s' l hi h
    obtain ⟨k1, ⟨k2, _⟩ | ⟨nm', h, h', k2⟩⟩ := opThunk_loc _ _ _ _ _ _ _ _ _ h
    · cases l; cases k1; cases k2; rfl
    · rcases hi with hi | hi
      · rw [hi] at h; cases h
      · rw [hi] at h'; cases h'
  rw [key _ _ _ _ _ _ _ _ i1 h1, key _ _ _ _ _ _ _ _ i2 h2]
  simp

/-- **C31.** The trace is well bracketed: while a program that returns normally runs, `dcg_effect_end!` never reaches its
`unreachable!` cases, its assertion holds, and afterwards the recorder has exactly one sequence, so `dcg_reflect_end`
succeeds; the forest it returns is the bracket structure of the events that were emitted. -/
theorem C31_trace_bracketed (env : Env V) (n : Nat) (p : Prog V) (s s' : St V) (v : V) (h : exec env n p s = .ok v s') :
    ∃ evs tr0 tr ts, s'.log = evs.reverse ++ s.log ∧ Trace.reflectBegin none = some (some tr0) ∧ Trace.runs evs tr0 = some tr ∧
      Trace.reflectEnd (some tr) = some (none, ts) ∧ Trace.Parses evs ts := by
  have hg := exec_gen env n p s
  rw [h] at hg
  obtain ⟨evs, h1, h2⟩ := (show Ok false 0 0 s s' from hg).log
  obtain ⟨ts, h3, h4⟩ := Trace.record_closed h2
  exact ⟨evs.reverse, [[]], [ts], ts.reverse, by simpa using h1, rfl, h3, rfl, h4⟩

/-- **C31.** Recording does not nest: `dcg_reflect_begin` panics while a trace is being recorded (rather than losing it), and
`dcg_reflect_end` panics when none is, or when an extent is still open. -/
theorem C31_no_nesting (tr : Trace.TrSt) (ts us : List Trace.Tree) (K : Trace.TrSt) :
    Trace.reflectBegin (some tr) = none ∧ Trace.reflectEnd none = none ∧ Trace.reflectEnd (some []) = none ∧
    Trace.reflectEnd (some (ts :: us :: K)) = none := ⟨rfl, rfl, rfl, rfl⟩

/-! ### The hypotheses are met -/
namespace Example1

/-- A program that enters a namespace and structural mode, and demands a thunk there. -/
def prog27 : Prog Nat := .cell 0 (nm 0) 1 fun _ => .cell 0 (nm 1) 25 fun _ =>
    .thunk 0 (.nominal (nm 2)) 11 1 0 fun l => .ns (nm 5) (.structural (.force 0 l none .ret) .ret) .ret

/-- It returns, having emitted 12 trace events. -/
example : (match exec env 10 prog27 (initSt true false) with | .ok v s => some (v, s.log.length) | _ => none) = some (1009, 12) := by decide +kernel
/-- In another namespace it panics: the locations it forces do not exist. -/
example : (match exec env 10 prog27 { initSt true false with path := .child .empty (nm 7) } with
    | .panic e s => some (e, s.table.length) | _ => none) = some (.dangling, 4) := by decide +kernel

end Example1
end Adapton
