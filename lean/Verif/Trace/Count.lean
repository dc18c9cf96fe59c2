import Verif.Trace.Model
/-
Counting the effects of a recorded trace: /repo/src/reflect.rs:439-653 (`trace_count` and its helpers).
-/
namespace Adapton.Trace
open Adapton

/-- `Effect` with the `Debug` effects, reflect.rs:337-410; the name and message of `Debug` are never looked at here. -/
inductive CEff where
  | eng (e : TEff)
  | debug
deriving DecidableEq

/-- `Trace`, reflect.rs:424-437, without its edge, which `trace_count` never looks at. -/
inductive CTree where
  | node (e : CEff) (ext : List CTree)

/-- `TraceCount`, reflect.rs:456-469 (`usize` modelled by `Nat`).  For pairs: editor, archivist. -/
structure Count where
  updates : Nat
  archivist : Nat
  reevalNochange : Nat
  reevalChange : Nat
  cleanRec : Nat
  dirty : Nat × Nat
  fresh : Nat × Nat
  nochange : Nat × Nat
  change : Nat × Nat
deriving DecidableEq, Repr

/-- `trace_count_zero`, 471-482. -/
def Count.zero : Count := ⟨0, 0, 0, 0, 0, (0, 0), (0, 0), (0, 0), (0, 0)⟩

/-- `Role`, 449. -/
inductive Role where
  | editor
  | archivist

/-- `c.x.0 += 1` for the editor, `c.x.1 += 1` for the archivist. -/
def bump : Role → Nat × Nat → Nat × Nat
  | .editor, (a, b) => (a + 1, b)
  | .archivist, (a, b) => (a, b + 1)

mutual
/-- `trace_count_dirty`, 538-549: counts `Dirty`; prints a warning for every other effect. -/
def countDirty (r : Role) : CTree → Count → Count
  | .node e ext, c => countDirtyL r ext (if e = .eng .dirty then { c with dirty := bump r c.dirty } else c)
/-- Its loop, 546-548. -/
def countDirtyL (r : Role) : List CTree → Count → Count
  | [], c => c
  | t :: ts, c => countDirtyL r ts (countDirty r t c)
end

/-- Does this effect in the extent of a `CleanEval` count as a change, 594-608? -/
def isChange : CEff → Bool
  | .eng (.alloc .locFresh _) => true
  | .eng (.alloc (.locExists diff) _) => diff
  | .eng (.force .compCacheMiss) => true
  | .eng .dirty => true
  | _ => false

/-- The effect of a trace. -/
def CTree.eff : CTree → CEff
  | .node e _ => e

mutual
/-- `trace_count_rec`, 551-651; `none`: a panic (`unreachable!` or a failed assertion). -/
def countRec : Role → CTree → Count → Option Count
  | .editor, .node e ext, c =>
    match e with
    | .debug => some (countDirty .editor (.node e ext) c)
    | .eng .dirty => some (countDirty .editor (.node e ext) c)
    | .eng .remove => none
    | .eng .cleanEdge => none
    | .eng .cleanEval => none
    | .eng .cleanRec => none
    | .eng (.alloc .locFresh _) => if ext.isEmpty then some { c with fresh := bump .editor c.fresh } else none
    | .eng (.alloc (.locExists false) _) => some (countDirtyL .editor ext { c with nochange := bump .editor c.nochange })
    | .eng (.alloc (.locExists true) _) => some (countDirtyL .editor ext { c with change := bump .editor c.change })
    | .eng (.force .refGet) => if ext.isEmpty then some c else none
    | .eng (.force .compCacheHit) => countRecL .archivist ext { c with archivist := c.archivist + 1 }
    | .eng (.force .compCacheMiss) => countRecL .archivist ext { c with archivist := c.archivist + 1 }
  | .archivist, .node e ext, c =>
    match e with
    | .debug => some (countDirty .archivist (.node e ext) c)
    | .eng .dirty => some (countDirty .archivist (.node e ext) c)
    | .eng .remove => if ext.isEmpty then some c else none
    | .eng .cleanEdge => if ext.isEmpty then some c else none
    | .eng .cleanEval =>
      let c := if ext.any (fun t => isChange t.eff) then { c with reevalChange := c.reevalChange + 1 }
        else { c with reevalNochange := c.reevalNochange + 1 }
      countRecL .archivist ext c
    | .eng .cleanRec => countRecL .archivist ext { c with cleanRec := c.cleanRec + 1 }
    | .eng (.alloc .locFresh _) => if ext.isEmpty then some { c with fresh := bump .archivist c.fresh } else none
    | .eng (.alloc (.locExists false) _) => countRecL .archivist ext { c with nochange := bump .archivist c.nochange }
    | .eng (.alloc (.locExists true) _) => countRecL .archivist ext { c with change := bump .archivist c.change }
    | .eng (.force .refGet) => if ext.isEmpty then some c else none
    | .eng (.force .compCacheHit) => countRecL .archivist ext c
    | .eng (.force .compCacheMiss) => countRecL .archivist ext c
/-- The loops `for sub_tr in tr.extent.iter() { trace_count_rec(role, sub_tr, c) }`, and that of 532-534. -/
def countRecL : Role → List CTree → Count → Option Count
  | _, [], c => some c
  | r, t :: ts, c => (countRec r t c).bind (countRecL r ts)
end

/-- `trace_count`, 526-536. -/
def traceCount (trs : List CTree) (total : Option Nat) : Option Count :=
  countRecL .editor trs { Count.zero with updates := total.getD 1 }

mutual
/-- A recorded trace, as input of `trace_count`. -/
def Tree.toC : Tree → CTree
  | .node e _ _ ext => .node (.eng e) (toCL ext)
def toCL : List Tree → List CTree
  | [] => []
  | t :: ts => t.toC :: toCL ts
end

/-! ### Specification: counting by looking at all traces of the forest -/

mutual
/-- All traces of a tree, with their extents. -/
def CTree.all : CTree → List CTree
  | .node e ext => .node e ext :: allL ext
def allL : List CTree → List CTree
  | [] => []
  | t :: ts => t.all ++ allL ts
end

end Adapton.Trace
