import Verif.Props.Edits
/-
The global engine and its switching: /repo/src/engine.rs:31, 372-381 (`Globals`, `Engine`), 2561-2620 (`manage`), and the
dispatch of the public API on it, 2327-2559.
-/
set_option linter.unusedSectionVars false
set_option linter.unusedVariables false
namespace Adapton
variable {V : Type} [UEq V]

/-- `Engine`, engine.rs:377-381.  The naive engine has no state. -/
inductive Engine (V : Type) where
  | dcg (s : St V)
  | naive

/-- `GLOBALS` (thread-local `RefCell<Globals>`), engine.rs:31, 372-374, with the number of outstanding shared borrows of the
cell: each call of `ns`, `structural`, `force`, `force_cycle`, `force_map`, `force_abs` holds one (`g.borrow()`, e.g. 2329-2334)
while it runs user code. -/
structure Globals (V : Type) where
  engine : Engine V
  borrows : Nat

/-- What a thread starts with, engine.rs:31. -/
def globals0 : Globals V := ⟨.naive, 0⟩

/-- `use_engine`, 2583-2590: `g.borrow_mut()` panics (`none`) if the cell is borrowed; else the engines are swapped. -/
def useEngine (e : Engine V) (g : Globals V) : Option (Engine V × Globals V) :=
  if g.borrows = 0 then some (g.engine, { g with engine := e }) else none

/-- The environment variables read by `DCG::new` that change behaviour, 1487-1491. -/
structure EnvVars where
  noPurity : Bool
  structural : Bool

/-- `DCG::new`, 1483-1501. -/
def newDcg (ev : EnvVars) : St V := initSt (!ev.noPurity) ev.structural

/-- `init_dcg`, 2572. -/
def initDcg (ev : EnvVars) (g : Globals V) : Option (Engine V × Globals V) := useEngine (.dcg (newDcg ev)) g
/-- `init_naive`, 2577. -/
def initNaive (g : Globals V) : Option (Engine V × Globals V) := useEngine .naive g
/-- `engine_is_naive`, 2598-2604. -/
def engineIsNaive (g : Globals V) : Bool := match g.engine with | .dcg _ => false | .naive => true
/-- `engine_is_dcg`, 2607-2613. -/
def engineIsDcg (g : Globals V) : Bool := match g.engine with | .dcg _ => true | .naive => false

/-- The state while user code runs inside an API call. -/
def inside (g : Globals V) : Globals V := { g with borrows := g.borrows + 1 }

/-- Outcome of editor code on the global engine. -/
inductive GOut (V : Type) where
  | ok (v : V) (g : Globals V)
  | panic (g : Globals V)
  | oof

/-- Run an editor program on the current engine.  Under the naive engine, programs over locations are not modelled here: forcing a
location panics (2477), see the naive model for its own arts. -/
def gRun (env : Env V) (n : Nat) (p : Prog V) (g : Globals V) : GOut V :=
  match g.engine with
  | .dcg s =>
    match exec env n p s with
    | .ok v s' => .ok v { g with engine := .dcg s' }
    | .panic _ s' => .panic { g with engine := .dcg s' }
    | .oof => .oof
  | .naive => .panic g

/-- What an editor may do on one thread: run programs, and switch engines. -/
inductive Cmd (V : Type) where
  | run (p : Prog V)
  | use (e : Engine V)

/-- A sequence of editor commands; panics are caught.  `none`: out of recursion depth, or a switch was refused. -/
def gRuns (env : Env V) (n : Nat) : List (Cmd V) → Globals V → Option (Globals V)
  | [], g => some g
  | .run p :: cs, g =>
    match gRun env n p g with
    | .ok _ g' => gRuns env n cs g'
    | .panic g' => gRuns env n cs g'
    | .oof => none
  | .use e :: cs, g =>
    match useEngine e g with
    | some (_, g') => gRuns env n cs g'
    | none => none

theorem gRuns_borrows (env : Env V) (n : Nat) (cs : List (Cmd V)) : ∀ (g g' : Globals V), gRuns env n cs g = some g' → g'.borrows = g.borrows := by
  induction cs with
  | nil => intro g g' h; cases h; rfl
  | cons c cs ih =>
    intro g g' h
    cases c with
    | run p =>
      unfold gRuns gRun at h
      rcases he : g.engine with s | _
      · simp only [he] at h
        rcases hx : exec env n p s with ⟨v, s'⟩ | ⟨e, s'⟩ | _
        · simp only [hx] at h; have := ih _ _ h; exact this
        · simp only [hx] at h; have := ih _ _ h; exact this
        · simp only [hx] at h; cases h
      · simp only [he] at h; exact ih _ _ h
    | use e =>
      unfold gRuns useEngine at h
      by_cases hb : g.borrows = 0
      · rw [if_pos hb] at h; have := ih _ _ h; exact this
      · rw [if_neg hb] at h; cases h

/-- **C32.** `use_engine` returns the engine that was in use and installs the given one; `init_dcg` and `init_naive` install
a new engine; the current engine is either naive or a DCG. -/
theorem C32_use_engine (e : Engine V) (g : Globals V) (hb : g.borrows = 0) (ev : EnvVars) :
    (∃ g', useEngine e g = some (g.engine, g') ∧ g'.engine = e) ∧
    (∃ g' s, initDcg ev g = some (g.engine, g') ∧ g'.engine = .dcg s ∧ s.table = [] ∧ s.stack = [] ∧ s.path = .empty ∧
      engineIsDcg g' = true ∧ engineIsNaive g' = false) ∧
    (∃ g', initNaive g = some (g.engine, g') ∧ g'.engine = .naive ∧ engineIsDcg g' = false ∧ engineIsNaive g' = true) := by
  refine ⟨⟨{ g with engine := e }, ?_, rfl⟩, ⟨{ g with engine := .dcg (newDcg ev) }, _, ?_, rfl, rfl, rfl, rfl, rfl, rfl⟩,
    ⟨{ g with engine := .naive }, ?_, rfl, rfl, rfl⟩⟩
  · unfold useEngine; rw [if_pos hb]
  · unfold initDcg useEngine; rw [if_pos hb]
  · unfold initNaive useEngine; rw [if_pos hb]

/-- **C32.** A new DCG engine has the purity optimisation unless ADAPTON_NO_PURITY is set, and treats all names as structural
exactly if ADAPTON_STRUCTURAL is set. -/
theorem C32_new_engine_flags (ev : EnvVars) (g g' : Globals V) (old : Engine V) (s : St V) (h : initDcg ev g = some (old, g'))
    (hs : g'.engine = .dcg s) : (s.purity = true ↔ ev.noPurity = false) ∧ (s.ignoreNominal = true ↔ ev.structural = true) := by
  unfold initDcg useEngine at h
  by_cases hb : g.borrows = 0
  · rw [if_pos hb] at h
    cases h
    cases hs
    rcases ev with ⟨a, b⟩
    cases a <;> cases b <;> simp [newDcg, initSt]
  · rw [if_neg hb] at h; cases h

/-- **C32.** Switching away and back: whatever the editor does with other engines in between, re-installing the engine that
`use_engine` returned gives the state from before the switch, exactly, so every later program behaves as if there had been no
switch. -/
theorem C32_switch_back (env : Env V) (n : Nat) (g g1 g2 g3 : Globals V) (e old e' : Engine V) (cs : List (Cmd V))
    (h1 : useEngine e g = some (old, g1)) (h2 : gRuns env n cs g1 = some g2) (h3 : useEngine old g2 = some (e', g3)) :
    g3 = g ∧ ∀ m p, gRun env m p g3 = gRun env m p g := by
  have hb := gRuns_borrows env n cs g1 g2 h2
  suffices h : g3 = g from ⟨h, fun m p => by rw [h]⟩
  unfold useEngine at h1 h3
  by_cases hg : g.borrows = 0
  · rw [if_pos hg] at h1
    cases h1
    by_cases hg2 : g2.borrows = 0
    · rw [if_pos hg2] at h3
      cases h3
      cases g with
      | mk a b => simp only [Globals.mk.injEq, true_and]; exact hb
    · rw [if_neg hg2] at h3; cases h3
  · rw [if_neg hg] at h1; cases h1

/-- **C32.** Inside user code that runs under an API call, switching engines is refused (a panic), for every engine. -/
theorem C32_no_switch_inside (e : Engine V) (g : Globals V) : useEngine e (inside g) = none := by
  unfold useEngine inside
  rw [if_neg (by simp)]

/-! ### The hypotheses are met -/
namespace Example1

def g0 : Globals Nat := ⟨.dcg st2, 0⟩

example : ∃ old g1 g2 e' g3, useEngine (.dcg (newDcg ⟨false, false⟩)) g0 = some (old, g1) ∧
    gRuns env 10 [.run (.cell 0 (nm 7) 3 fun l => .force 0 l none .ret), .use .naive, .use (.dcg (newDcg ⟨true, false⟩)),
      .run (.thunk 0 (.nominal (nm 8)) 1 3 5 fun l => .force 0 l none .ret)] g1 = some g2 ∧
    useEngine old g2 = some (e', g3) := ⟨_, _, _, _, _, rfl, rfl, rfl⟩

end Example1
end Adapton
