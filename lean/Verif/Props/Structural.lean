import Verif.Props.Edits
import Verif.Props.Scoping
/-
C55: cells allocated in structural mode with the purity optimisation.
-/
set_option linter.unusedSectionVars false
set_option linter.unusedVariables false
namespace Adapton
variable {V : Type} [UEq V]

/-- Any number of programs run one after the other, each returning or panicking (the editor may catch the panic). -/
inductive History (env : Env V) : St V → St V → Prop where
  | refl (s : St V) : History env s s
  | ran {s s1 s2 : St V} {n : Nat} {p : Prog V} {v : V} : History env s s1 → exec env n p s1 = .ok v s2 → History env s s2
  | panicked {s s1 s2 : St V} {n : Nat} {p : Prog V} {e : Err} : History env s s1 → exec env n p s1 = .panic e s2 → History env s s2

/-- Where a structural cell with this content is allocated in state `s`. -/
def structuralLoc (env : Env V) (s : St V) (v : V) : Loc := ⟨s.path, .structural (env.hashVal v)⟩

/-- Locations persist through histories. -/
theorem History.persists {env : Env V} {s s' : St V} (h : History env s s') {l : Loc} {nd : PureNode V}
    (hl : s.table.get l = some (.pure nd)) : s'.table.get l = some (.pure nd) := by
  induction h with
  | refl => exact hl
  | @ran s1 s2 n p v h0 h ih =>
    obtain ⟨nd', h1, _, h2, _⟩ := (C28_locations_persist env n p s1 l _ ih).1 _ _ h
    rw [h2 rfl] at h1; exact h1
  | @panicked s1 s2 n p e h0 h ih =>
    obtain ⟨nd', h1, _, h2, _⟩ := (C28_locations_persist env n p s1 l _ ih).2 _ _ h
    rw [h2 rfl] at h1; exact h1

/-- Allocating a structural cell: either it is new, or nothing happens but a trace event. -/
theorem opCell_pure (env : Env V) (ty : Ty) (nm : Name) (v : V) (s : St V) (hi : s.ignoreNominal = true) (hp : s.purity = true) :
    (s.table.get (structuralLoc env s v) = none → ∃ s', opCell env ty nm v s = .ok (structuralLoc env s v) s' ∧
      s'.stack = s.stack ∧ s'.table = s.table.put (structuralLoc env s v) (.pure ⟨ty, v⟩)) ∧
    (∀ nd, s.table.get (structuralLoc env s v) = some (.pure nd) → nd.ty = ty →
      ∃ s', opCell env ty nm v s = .ok (structuralLoc env s v) s' ∧ s'.stack = s.stack ∧ s'.table = s.table) := by
  constructor
  · intro hf
    unfold structuralLoc at hf
    unfold opCell
    rw [M.bind_ok (M.get_def s)]
    simp only [hi, hp, Bool.and_self, if_true]
    unfold cellTable
    rw [M.bind_def, M.bind_ok (M.get_def s)]
    simp only [hf]
    exact ⟨_, rfl, rfl, rfl⟩
  · intro nd hf ht
    unfold structuralLoc at hf
    unfold opCell
    rw [M.bind_ok (M.get_def s)]
    simp only [hi, hp, Bool.and_self, if_true]
    unfold cellTable
    rw [M.bind_def, M.bind_ok (M.get_def s)]
    simp only [hf]
    rw [M.bind_ok (resNode_ok (ty := ty) hf ht)]
    exact ⟨_, rfl, rfl, rfl⟩

/-- **C55.** A cell allocated in structural mode (with the purity optimisation, the default) at a location that does not exist yet:
no dependency on it is recorded, and through any history of programs, returning or panicking, demanding it returns the value it was
allocated with and records no dependency either (the state is the same, but for one trace event); `set` on it always panics. -/
theorem C55_structural_cell_immutable (env : Env V) (ty : Ty) (nm : Name) (v : V) (s : St V) (hi : s.ignoreNominal = true)
    (hp : s.purity = true) (hf : s.table.get (structuralLoc env s v) = none) :
    ∃ s1, opCell env ty nm v s = .ok (structuralLoc env s v) s1 ∧ s1.stack = s.stack ∧
      ∀ s2, History env s1 s2 →
        (∀ n cyc, ∃ s3, exec env n (.force ty (structuralLoc env s v) cyc .ret) s2 = .ok v s3 ∧ ∃ e, s3 = { s2 with log := e :: s2.log }) ∧
        (∀ n w k, ∃ e, exec env n (.set ty (structuralLoc env s v) w k) s2 = .panic e s2) := by
  obtain ⟨s1, h1, h2, h3⟩ := (opCell_pure env ty nm v s hi hp).1 hf
  refine ⟨s1, h1, h2, fun s2 h => ?_⟩
  have hl : s2.table.get (structuralLoc env s v) = some (.pure ⟨ty, v⟩) :=
    h.persists (by rw [h3, Table.get_put_self])
  constructor
  · intro n cyc
    refine ⟨_, exec_force env n ty _ cyc s2 { s2 with log := .eff (.force .refGet) (topLoc s2) (structuralLoc env s v) :: s2.log } v ?_, _, rfl⟩
    unfold opForce
    rw [M.bind_ok (M.get_def s2), M.bind_ok (resNode_ok (ty := ty) hl rfl)]
    rfl
  · intro n w k
    rcases hs : s2.stack with _ | ⟨f, K⟩
    · refine ⟨.setNonCell, ?_⟩
      unfold exec runProg opSet
      rw [M.bind_def, M.bind_ok (M.get_def s2)]
      simp only [hs, List.isEmpty_nil, if_true]
      unfold setCell
      rw [M.bind_ok (resNode_ok (ty := ty) hl rfl)]
      rfl
    · exact ⟨_, C23_set_is_editor_only env n s2 (by rw [hs]; intro h; cases h) _ _ _ _⟩

/-- **C55**, the other side: identity is by hash only.  After any history, allocating a structural cell of the same type with another
value of the same hash in the same namespace returns the old cell, and the new value is lost. -/
theorem C55_hash_collision (env : Env V) (ty : Ty) (nm nm' : Name) (v w : V) (s s1 s2 : St V) (hi : s.ignoreNominal = true)
    (hp : s.purity = true) (hf : s.table.get (structuralLoc env s v) = none) (l : Loc) (h1 : opCell env ty nm v s = .ok l s1)
    (hh : History env s1 s2) (hi2 : s2.ignoreNominal = true) (hp2 : s2.purity = true) (hpath : s2.path = s.path)
    (hw : env.hashVal w = env.hashVal v) (n : Nat) :
    ∃ s3, exec env n (.cell ty nm' w fun l' => .force ty l' none .ret) s2 = .ok v s3 := by
  obtain ⟨s1', g1, g2, g3⟩ := (opCell_pure env ty nm v s hi hp).1 hf
  rw [h1] at g1; cases g1
  have hl : s2.table.get (structuralLoc env s2 w) = some (.pure ⟨ty, v⟩) := by
    have : structuralLoc env s2 w = structuralLoc env s v := by simp [structuralLoc, hpath, hw]
    rw [this]
    exact hh.persists (by rw [g3, Table.get_put_self])
  obtain ⟨s3, k1, k2, k3⟩ := (opCell_pure env ty nm' w s2 hi2 hp2).2 _ hl rfl
  rw [← k3] at hl
  refine ⟨{ s3 with log := .eff (.force .refGet) (topLoc s3) (structuralLoc env s2 w) :: s3.log }, ?_⟩
  unfold exec runProg
  rw [M.bind_ok k1]
  unfold runProg opForce
  rw [M.bind_def, M.bind_ok (M.get_def s3), M.bind_ok (resNode_ok (ty := ty) hl rfl)]
  rfl

/-! ### The hypotheses are met -/
namespace Structural

/-- All values have the same hash; no thunks. -/
def collideEnv : Env Nat := ⟨fun _ v => .ret v, fun _ => 10, fun _ _ => 0⟩
def x0 : Name := ⟨0, .usize 0⟩
def s0 : St Nat := initSt true true

/-- A structural cell holding 1; afterwards another program allocates a cell and demands it, and one panics. -/
example : s0.ignoreNominal = true ∧ s0.purity = true ∧ s0.table.get (structuralLoc collideEnv s0 1) = none := ⟨rfl, rfl, rfl⟩
example : ∃ l s1 s2, opCell collideEnv 0 x0 1 s0 = .ok l s1 ∧ History collideEnv s1 s2 ∧ s2.log.length = 5 ∧ s2.ignoreNominal = true ∧
    s2.purity = true ∧ s2.path = s0.path ∧ collideEnv.hashVal 2 = collideEnv.hashVal 1 := by
  refine ⟨_, _, _, rfl, .panicked (n := 3) (p := .ns x0 (.cell 0 x0 3 fun l => .force 0 l none .ret) fun _ => .panic) (.refl _) rfl, ?_⟩
  exact ⟨rfl, rfl, rfl, rfl, rfl⟩
end Structural
end Adapton
