import Verif.Props.Graph
/-
Where the engine does not do what a user relies on: C15, C16, C17, C18, C19, C22, C50.  Each is a theorem about a family of
sessions, for every type of values, all values that meet the side condition and every sufficient recursion depth: what the
incremental engine answers after an edit, and what it answers when the same program is run in a new engine on the edited
input.  The sessions have no meaning in Verif/Engine/Spec.lean, so C01 does not apply to them.
-/
set_option linter.unusedSectionVars false
set_option linter.unusedVariables false
set_option linter.unusedSimpArgs false
namespace Adapton
variable {V : Type} [DecidableEq V]

/-! ### Specification -/

/-- The session returns these values, one per editor program. -/
def Answers (env : Env V) (n : Nat) (purity : Bool) (ps : List (Prog V)) (vs : List V) : Prop :=
  ∃ s, runSession env n ps (initSt purity false) = .ok vs s

/-- The session panics. -/
def Fails (env : Env V) (n : Nat) (purity : Bool) (ps : List (Prog V)) (e : Err) : Prop :=
  ∃ s, runSession env n ps (initSt purity false) = .panic e s

namespace Dev

def nm (n : Nat) : Name := ⟨0, .usize n⟩
def at_ (n : Nat) : Loc := ⟨.empty, .nominal (nm n)⟩
def c0 : Loc := at_ 0
def t1 : Loc := at_ 1
def t2 : Loc := at_ 2
def c3 : Loc := at_ 3

/-- Set `c0` and force `t1` again. -/
def edit (b : V) : Prog V := .set 0 c0 b (.force 0 t1 none .ret)
/-- Allocate the cell `c0` with content `a` and the thunk `t1`, running closure 1 on `x`, and force the thunk. -/
def startArg (x a : V) : Prog V := .cell 0 (nm 0) a fun _ => .thunk 0 (.nominal (nm 1)) 1 1 x fun l => .force 0 l none .ret

attribute [local simp] ueq_eq Answers Fails runSession exec runProg opCell opForce opThunk thunkNominal thunkStructural cellTable cellRecord
  M.bind_def M.pure_def M.modify_def M.get_def M.panic_def evBegin evEnd evEff recordEdge putNode Table.get Table.put resNode
  lookupAbs opForceMap opForceAbs produceBody revokeSuccs removePred installPreds installPred Node.predsInsert Node.predsRemove
  Node.ty initSt topLoc opSet setCell dirtyAlloc dirtyPredsTop dirtyPreds dirtyLoop dirtyObserver dirtyStop checkForceMapDep
  Node.predsObs Node.predsAlloc cleanForceBody cleanLoop cleanDep succDirty setSuccDirty Succ.matches setFirst step recN
  tableClean cleanCount Node.succsList dirtyAllocLoop dirtyAllocator startArg edit c0 t1 t2 c3 at_ nm

/-! ### C15 -/

/-- A thunk that observes `c0` through `force_map` and then through `force`. -/
def codeMapForce (f : V → V) : FnId → V → Prog V := fun _ _ => .forceMap 0 c0 f fun _ => .force 0 c0 none .ret
/-- The other order. -/
def codeForceMap (f : V → V) (h : V → V → V) : FnId → V → Prog V :=
  fun _ _ => .force 0 c0 none fun x => .forceMap 0 c0 f fun y => .ret (h x y)
/-- A thunk that observes `c0` through two maps. -/
def codeTwoMaps (f g : V → V) (h : V → V → V) : FnId → V → Prog V :=
  fun _ _ => .forceMap 0 c0 f fun x => .forceMap 0 c0 g fun y => .ret (h x y)

/-- **C15 (violated).** A thunk observes a cell through `force_map(f)` and then through `force`, returning the latter.  After
an edit of the cell that `f` does not distinguish, forcing the thunk returns the old value; a new run returns the new one. -/
theorem C15_map_then_force_is_stale (f : V → V) (a b x : V) (hab : a ≠ b) (hf : f a = f b) (hv : V → UInt64)
    (ha : ProgPt → V → UInt64) (purity : Bool) (n : Nat) :
    Answers ⟨codeMapForce f, hv, ha⟩ (n + 5) purity [startArg x a, edit b] [a, a] ∧
    Answers ⟨codeMapForce f, hv, ha⟩ (n + 5) purity [startArg x b] [b] := by
  constructor <;> simp [codeMapForce, hab, hf]

/-- **C15 (violated).** The same for two maps of which the first does not distinguish the two contents. -/
theorem C15_two_maps_are_stale (f g : V → V) (h : V → V → V) (a b x : V) (hg : g a ≠ g b) (hf : f a = f b) (hv : V → UInt64)
    (ha : ProgPt → V → UInt64) (purity : Bool) (n : Nat) :
    Answers ⟨codeTwoMaps f g h, hv, ha⟩ (n + 5) purity [startArg x a, edit b] [h (f a) (g a), h (f a) (g a)] ∧
    Answers ⟨codeTwoMaps f g h, hv, ha⟩ (n + 5) purity [startArg x b] [h (f b) (g b)] := by
  have hab : a ≠ b := fun e => hg (by rw [e])
  constructor <;> simp [codeTwoMaps, hab, hf, hg]

/-- **C15 (the half that holds).** If the plain `force` comes first, both observations are tracked. -/
theorem C15_force_then_map_is_tracked (f : V → V) (h : V → V → V) (a b x : V) (hv : V → UInt64)
    (ha : ProgPt → V → UInt64) (purity : Bool) (n : Nat) :
    Answers ⟨codeForceMap f h, hv, ha⟩ (n + 5) purity [startArg x a, edit b] [h a (f a), h b (f b)] := by
  by_cases hab : a = b
  · subst hab; simp [codeForceMap]
  by_cases hf : f a = f b
  · simp [codeForceMap, hab, hf, Ne.symm hab]
  · simp [codeForceMap, hab, hf, Ne.symm hab, Ne.symm hf]

/-! ### C16 -/

/-- Closure 1 allocates a structural thunk for closure 2 and forces it; closure 2 reads `c0`. -/
def codeStructural (x : V) : FnId → V → Prog V
  | 1, _ => .thunk 0 .structural 7 2 x fun l => .force 0 l none .ret
  | 2, _ => .force 0 c0 none .ret
  | _, _ => .panic

/-- **C16 (violated).** With the purity optimisation, which is on by default, the caller of a structural thunk is not
recomputed when the input of the structural thunk changes; without it, it is. -/
theorem C16_structural_caller_is_stale (a b x : V) (hab : a ≠ b) (hv : V → UInt64) (ha : ProgPt → V → UInt64) (n : Nat) :
    Answers ⟨codeStructural x, hv, ha⟩ (n + 8) true [startArg x a, edit b] [a, a] ∧
    Answers ⟨codeStructural x, hv, ha⟩ (n + 8) true [startArg x b] [b] ∧
    Answers ⟨codeStructural x, hv, ha⟩ (n + 8) false [startArg x a, edit b] [a, b] := by
  refine ⟨?_, ?_, ?_⟩ <;> simp [codeStructural, hab, Ne.symm hab]

/-! ### C17 -/

def codeAbs (f : V → V) : FnId → V → Prog V := fun _ _ => .forceAbs 0 c0 f .ret

/-- **C17 (violated).** An observation through `force_abs` is never dirtied: whatever the edit, the thunk returns the image
of the old content. -/
theorem C17_force_abs_is_stale (f : V → V) (a b x : V) (hv : V → UInt64) (ha : ProgPt → V → UInt64) (purity : Bool) (n : Nat) :
    Answers ⟨codeAbs f, hv, ha⟩ (n + 5) purity [startArg x a, edit b] [f a, f a] ∧
    Answers ⟨codeAbs f, hv, ha⟩ (n + 5) purity [startArg x b] [f b] := by
  by_cases hab : a = b
  · subst hab; constructor <;> simp [codeAbs]
  · constructor <;> simp [codeAbs, hab]

/-! ### C18 -/

def codeConst (a : V) : FnId → V → Prog V := fun _ _ => .ret a

/-- **C18 (violated).** A cell allocated at a name that holds a thunk: its value is dropped, and forcing it yields the
thunk's result, whether or not the thunk was forced before. -/
theorem C18_cell_over_thunk_is_lost (a b x : V) (hv : V → UInt64) (ha : ProgPt → V → UInt64) (purity : Bool) (n : Nat) :
    Answers ⟨codeConst a, hv, ha⟩ (n + 5) purity [startArg x b, .cell 0 (nm 1) b fun l => .force 0 l none .ret] [a, a] ∧
    Answers ⟨codeConst a, hv, ha⟩ (n + 5) purity
      [.thunk 0 (.nominal (nm 1)) 1 1 x fun _ => .ret x, .cell 0 (nm 1) b fun l => .force 0 l none .ret] [x, a] ∧
    Answers ⟨codeConst a, hv, ha⟩ (n + 5) purity [.cell 0 (nm 1) b fun l => .force 0 l none .ret] [b] := by
  refine ⟨?_, ?_, ?_⟩ <;> simp [codeConst]

/-! ### C19 -/

/-- Closure 1 reads `c0`, closure 2 reads `c3`. -/
def codeReads : FnId → V → Prog V
  | 1, _ => .force 0 c0 none .ret
  | _, _ => .force 0 c3 none .ret

/-- **C19 (violated).** `t1` observes the cell `c0`.  The name of `c0` is then used for a thunk that reads `c3` and has, for
the time being, the same value.  From then on `t1` is not notified: after `c3` is set to `b`, forcing `c0` yields `b`, but
forcing `t1` still yields `a`. -/
theorem C19_thunk_over_cell_loses_observers (a b x : V) (hab : a ≠ b) (hv : V → UInt64) (ha : ProgPt → V → UInt64)
    (purity : Bool) (n : Nat) :
    Answers ⟨codeReads, hv, ha⟩ (n + 8) purity
      [ startArg x a,
        .cell 0 (nm 3) a fun _ => .thunk 0 (.nominal (nm 0)) 2 2 x fun _ => .force 0 t1 none .ret,
        .set 0 c3 b (.force 0 c0 none .ret),
        .force 0 t1 none .ret ] [a, a, b, a] ∧
    Answers ⟨codeReads, hv, ha⟩ (n + 8) purity
      [ .cell 0 (nm 3) b fun _ => .thunk 0 (.nominal (nm 0)) 2 2 x fun _ =>
          .thunk 0 (.nominal (nm 1)) 1 1 x fun l => .force 0 l none .ret ] [b] := by
  refine ⟨?_, ?_⟩ <;> simp [codeReads, hab, Ne.symm hab]

/-! ### C22 -/

/-- A thunk that reads `c0` and then observes itself, through `force_cycle` with the value `d`. -/
def codeSelf (d : V) (h : V → V → V) : FnId → V → Prog V :=
  fun _ _ => .force 0 c0 none fun x => .force 0 t1 (some d) fun y => .ret (h x y)

/-- **C22 (violated).** The first force works; the next edit of the cell panics, in the assertion of dirtying. -/
theorem C22_self_cycle_poisons_edits (d : V) (h : V → V → V) (a b x : V) (hab : a ≠ b) (hv : V → UInt64)
    (ha : ProgPt → V → UInt64) (purity : Bool) (n : Nat) (k : Prog V) :
    Answers ⟨codeSelf d h, hv, ha⟩ (n + 5) purity [startArg x a] [h a d] ∧
    Fails ⟨codeSelf d h, hv, ha⟩ (n + 5) purity [startArg x a, .set 0 c0 b k] .selfEdge := by
  refine ⟨?_, ?_⟩ <;> simp [codeSelf, hab, Ne.symm hab]

/-! ### C50 -/

/-- Closure 1 reads `c0` and returns `d` if it holds `a`, else forces `t2`; closure 2 forces `t1`. -/
def codeCycle (a d : V) : FnId → V → Prog V
  | 1, _ => .force 0 c0 none fun x => if x = a then .ret d else .force 0 t2 none .ret
  | _, _ => .force 0 t1 none .ret

def startCycle (x v : V) : Prog V :=
  .cell 0 (nm 0) v fun _ => .thunk 0 (.nominal (nm 1)) 1 1 x fun _ => .thunk 0 (.nominal (nm 2)) 2 2 x fun l => .force 0 l none .ret

/-- **C50 (violated).** An edit makes two thunks demand each other.  Run from scratch, the program panics with an unexpected
cycle; the incremental engine answers with a stale value instead. -/
theorem C50_cycle_by_edit_is_silent (a b d x : V) (hab : a ≠ b) (hv : V → UInt64) (ha : ProgPt → V → UInt64) (purity : Bool)
    (n : Nat) :
    Answers ⟨codeCycle a d, hv, ha⟩ (n + 8) purity [startCycle x a, .set 0 c0 b (.force 0 t2 none .ret)] [d, d] ∧
    Fails ⟨codeCycle a d, hv, ha⟩ (n + 8) purity [startCycle x b] .unexpectedCycle := by
  refine ⟨?_, ?_⟩ <;> simp [codeCycle, startCycle, hab, Ne.symm hab]

/-! ### C65 -/

/-- Closure 1 allocates the thunk `t2` (closure 2) and forces it in structural mode; closure 2 stores the content of `c0` and the value
`y` in two cells to which it gives the same name, which structural mode ignores, and reads the first. -/
def codeMode (y : V) : FnId → V → Prog V
  | 1, x => .thunk 0 (.nominal (nm 2)) 7 2 x fun l => .structural (.force 0 l none .ret) .ret
  | 2, _ => .force 0 c0 none fun a => .cell 0 (nm 3) a fun c => .cell 0 (nm 3) y fun _ => .force 0 c none .ret
  | _, _ => .panic

set_option maxHeartbeats 2000000 in
theorem mode_pure (a b x y : V) (hab : a ≠ b) (hv : V → UInt64) (ha : ProgPt → V → UInt64) (h1 : hv a ≠ hv y) (h2 : hv b ≠ hv y) (n : Nat) :
    Answers ⟨codeMode y, hv, ha⟩ (n + 8) true [startArg x a, edit b] [a, y] := by
  have h3 : b ≠ y := fun e => h2 (by rw [e])
  have h4 : a ≠ y := fun e => h1 (by rw [e])
  simp [codeMode, hab, Ne.symm hab, h1, h2, h3, h4, Ne.symm h1, Ne.symm h2, Ne.symm h3, Ne.symm h4]

set_option maxHeartbeats 2000000 in
theorem mode_impure (a b x y : V) (hab : a ≠ b) (hv : V → UInt64) (ha : ProgPt → V → UInt64) (h1 : hv a ≠ hv y) (h2 : hv b ≠ hv y) (n : Nat) :
    Answers ⟨codeMode y, hv, ha⟩ (n + 8) false [startArg x a, edit b] [a, y] := by
  have h3 : b ≠ y := fun e => h2 (by rw [e])
  have h4 : a ≠ y := fun e => h1 (by rw [e])
  simp [codeMode, hab, Ne.symm hab, h1, h2, h3, h4, Ne.symm h1, Ne.symm h2, Ne.symm h3, Ne.symm h4]

set_option maxHeartbeats 2000000 in
theorem mode_fresh (b x y : V) (hv : V → UInt64) (ha : ProgPt → V → UInt64) (purity : Bool) (h2 : hv b ≠ hv y) (n : Nat) :
    Answers ⟨codeMode y, hv, ha⟩ (n + 8) purity [startArg x b] [b] := by
  have h3 : b ≠ y := fun e => h2 (by rw [e])
  cases purity <;> simp [codeMode, h2, h3, Ne.symm h2, Ne.symm h3]

/-- **C65 (violated).** A thunk forces another one in structural mode, in which names are ignored.  After an edit the engine re-evaluates
the inner thunk while it cleans the outer one, and this is not in structural mode: the names count, the two cells are one, and the result is `y`
instead of the content `b` of the edited cell, which a new run returns. -/
theorem C65_mode_is_forgotten (a b x y : V) (hab : a ≠ b) (hv : V → UInt64) (ha : ProgPt → V → UInt64) (purity : Bool)
    (h1 : hv a ≠ hv y) (h2 : hv b ≠ hv y) (n : Nat) :
    Answers ⟨codeMode y, hv, ha⟩ (n + 8) purity [startArg x a, edit b] [a, y] ∧
    Answers ⟨codeMode y, hv, ha⟩ (n + 8) purity [startArg x b] [b] := by
  refine ⟨?_, mode_fresh b x y hv ha purity h2 n⟩
  cases purity
  · exact mode_impure a b x y hab hv ha h1 h2 n
  · exact mode_pure a b x y hab hv ha h1 h2 n

end Dev
end Adapton
