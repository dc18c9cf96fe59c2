import Verif.Props.FoldEngine
import Lean.Elab.Tactic
/-
C77: `prune_tree_of_tree` on the engine does not follow edits.

`tree_fold_up` (collections.rs 568-606) allocates, for each name `n` of the tree, thunks under the two forks of `n`, and `prune_tree_of_tree` (832-849) then allocates cells
under the same forks in the same namespace (`filter_tree_of_tree` has `ns(name_unit(), …)` around it; `prune_tree_of_tree` has not).  `cell` at the place of a thunk keeps the thunk but takes
its edges away (C18), so that what the thunk has read is forgotten.
-/
namespace Adapton.FoldProg.Prune
/-- `rfl`, checked by the kernel only (the elaborator gives up on long runs). -/
elab "kernel_rfl" : tactic => do
  let g ← Lean.Elab.Tactic.getMainGoal
  match (← Lean.instantiateMVars (← g.getType)).eq? with
  | some (_, l, _) => g.assign (← Lean.Meta.mkEqRefl l)
  | none => throwError "not an equation"
open Coll (Tree Dir2)
open SortProg (TV)
open EditSession (cellAt Edit)

/-- What `prune_tree_of_tree` passes to `tree_fold_up`, 841-848. -/
def pruneFns (H : NameHash) : UpFns Nat Nat where
  nil := .tree .nil
  leaf x := .tree (.leaf x)
  bin lev a b := onTree (fun l => onTree (fun r => binArts H none lev l r) b) a
  name n lev a b := onTree (fun l => onTree (fun r => binArts H (some n) lev l r) b) a
/-- The namespaces. -/
def nsPrune : Name := ⟨0, .str "prune"⟩
def nsSum : Name := ⟨0, .str "sum"⟩
def nsTop : Name := ⟨0, .str "top"⟩

def fPrune : FnId := 1000
def fTop : FnId := 1001

/-- The sum of the leaves (`monoid_of_tree`, 792-810). -/
def fs : Fns Nat Nat where
  up _ := monoidFns 0 (· + ·)
  seq _ := ⟨0, fun _ r => r, fun _ r => r, fun _ _ r => r⟩
  nm _ := ⟨fun _ => 0, fun _ _ => 0, fun _ _ a _ => a, fun _ _ _ a _ => a⟩
  pred _ _ := true

/-- `let t = ns("prune", || prune_tree_of_tree(t)); ns("sum", || monoid_of_tree(t, 0, +))`. -/
def code (H : NameHash) (fn : FnId) (v : CV Nat Nat) : Prog (CV Nat Nat) :=
  match v with
  | .tree t =>
    if fn = fPrune then foldUp H tyT fPrune (pruneFns H) t
    else if fn = fTop then .ns nsPrune (.call fPrune (.tree t) .ret) fun v => .ns nsSum (.call (fUp 0) v .ret) .ret
    else FoldProg.code H (fun _ => .up 0) fs fn v
  | _ => FoldProg.code H (fun _ => .up 0) fs fn v
def env (H : NameHash) : Env (CV Nat Nat) := ⟨code H, fun _ => 0, fun _ _ => 0⟩

/-- Edits, and then a demand of the sum, by way of a thunk. -/
def step (rn : Name) (es : List (Edit (CV Nat Nat))) (t : TV Nat) : Prog (CV Nat Nat) :=
  EditSession.editProg tyT es <| .ns nsTop (.thunk tyR (.nominal rn) ppRoot fTop (.tree t) fun l => .force tyR l none .ret) .ret

/-- The tree `⟨name n⟩([cell a], [cell b])`. -/
def theTree (n a b : Name) : TV Nat := .name n 1 (.art (cellAt a)) (.art (cellAt b))

def H0 : NameHash := ⟨fun a b => a + 3 * b, fun n => n.toUInt64, fun _ => 0, fun _ => 7, fun h i => 5 * h + i.toUInt64⟩
def nm (n : Nat) : Name := nameOfUsize H0 n

/-- What a session returns. -/
def results (purity : Bool) (n : Nat) (ps : List (Prog (CV Nat Nat))) : Option (List (CV Nat Nat)) :=
  match runSession (env H0) n ps (initSt purity false) with
  | .ok vs _ => some vs
  | _ => none

/-- The first cell is made with the content `u`, the second with the leaf `z`; the sum is demanded. -/
def start (u : TV Nat) (z : Nat) : Prog (CV Nat Nat) :=
  step (nm 0) [.cell (nm 10) (.tree u), .cell (nm 11) (.tree (.leaf z))] (theTree (nm 1) (nm 10) (nm 11))
/-- The first cell is set to `u`; the sum is demanded. -/
def edit (u : TV Nat) : Prog (CV Nat Nat) := step (nm 0) [.set (nm 10) (.tree u)] (theTree (nm 1) (nm 10) (nm 11))

/-- **C77.** `prune_tree_of_tree` does not follow edits.  The tree is `⟨name 1⟩([cell 10], [cell 11])`, and the sum of the leaves of what `prune_tree_of_tree` makes of it is demanded, each stage in
a namespace of its own.  If the first cell is the leaf `x` at first, and is then set to a tree with the leaves `y` and `w`, the second demand still returns the old sum, whatever the
numbers are; from scratch it is the new one (with `filter_tree_of_tree` in the place of `prune_tree_of_tree` it is the new one after the edit, too: C76). -/
theorem C77_prune_is_stale (x y w z : Nat) (purity : Bool) (n : Nat) :
    results purity (n + 40) [start (.leaf x) z, edit (.bin 0 (.leaf y) (.leaf w))] = some [.res (x + z), .res (x + z)] ∧
    results purity (n + 40) [start (.bin 0 (.leaf y) (.leaf w)) z] = some [.res ((y + w) + z)] := by
  cases purity
  · exact ⟨by kernel_rfl, by kernel_rfl⟩
  · exact ⟨by kernel_rfl, by kernel_rfl⟩

/-- Every later demand is stale: after the first, two more edits change nothing. -/
theorem C77_prune_stays_stale (x y w z y' w' : Nat) (purity : Bool) (n : Nat) :
    results purity (n + 40) [start (.leaf x) z, edit (.bin 0 (.leaf y) (.leaf w)), edit .nil, edit (.bin 0 (.leaf y') (.leaf w'))] = some [.res (x + z), .res (x + z), .res (x + z), .res (x + z)] := by
  cases purity
  · kernel_rfl
  · kernel_rfl
end Adapton.FoldProg.Prune
