import Verif.Names.Model
import Verif.Collections.Model
import Verif.Engine.Model
/-
Association lists as maps and sets, as programs of the engine: an articulation is a location, and forcing it is an engine call.  None of these functions allocates.
Source: /repo/src/catalog/collections.rs; line numbers refer to that file.
-/
namespace Adapton.MapProg
open Coll (NameElse)

/-- `List<(Dom,Cod)>`, 1082-1089.  Of a `Tree` only the tail is kept: no function looks inside one. -/
inductive MapV (D C : Type) where
  | nil
  | cons (d : D) (c : C) (tl : MapV D C)
  | tree (tl : MapV D C)
  | name (n : Name) (tl : MapV D C)
  | art (a : Loc)
deriving DecidableEq, Repr

/-- The values of the program: contents of cells, arguments and results of functions. -/
inductive CV (D C R : Type) where
  | map (m : MapV D C)
  | opt (c : Option C)
  | bool (b : Bool)
  | res (r : R)
  /-- the accumulator of `inter` -/
  | pair (out other : MapV D C)
  /-- the arguments of `find` and `is_mem` -/
  | find (m : MapV D C) (d : D)
  | mem (m : MapV D C) (d : D)
  /-- the arguments of `fold`; the function is known by its number -/
  | fold (i : Nat) (m : MapV D C) (r : R)
  /-- the arguments of `inter` and of the fold in it -/
  | inter (set other : MapV D C)
  | inter1 (m out other : MapV D C)
  /-- the arguments of `remove`, of `append` and `union`, and of `diff` -/
  | remove (m : MapV D C) (d : D)
  | append (m other : MapV D C)
  | diff (set other : MapV D C)
deriving DecidableEq, Repr

/-- The type of the cells, and that of the results that the editor demands. -/
def tyM : Ty := 0
def tyA : Ty := 1
/-- The functions: all but the first are told apart by their arguments. -/
def fView : FnId := 0
def fFun : FnId := 1
/-- The program that the editor demands. -/
def fRoot : FnId := 2
def ppRoot : ProgPt := 0

variable {D C R : Type} [DecidableEq D]

def onMap (k : MapV D C → Prog (CV D C R)) : CV D C R → Prog (CV D C R)
  | .map m => k m
  | _ => .panic
def onOpt (k : Option C → Prog (CV D C R)) : CV D C R → Prog (CV D C R)
  | .opt c => k c
  | _ => .panic
def onRes (k : R → Prog (CV D C R)) : CV D C R → Prog (CV D C R)
  | .res r => k r
  | _ => .panic
def onPair (k : MapV D C → MapV D C → Prog (CV D C R)) : CV D C R → Prog (CV D C R)
  | .pair a b => k a b
  | _ => .panic

/-- `MapElim::find`, 1183-1194. -/
def find (m : MapV D C) (d : D) : Prog (CV D C R) :=
  match m with
  | .nil => .ret (.opt none)
  | .cons d2 c tl => if d = d2 then .ret (.opt (some c)) else .call fFun (.find tl d) .ret
  | .tree _ => .panic
  | .name _ l => .call fFun (.find l d) .ret
  | .art a => .force tyM a none <| onMap fun l => .call fFun (.find l d) .ret

/-- The pattern match of `ListElim::elim_arg`, 1138-1163: an articulation is forced and its content matched; a `Tree` panics. -/
def view (m : MapV D C) : Prog (CV D C R) :=
  match m with
  | .art a => .force tyM a none fun v => .call fView v .ret
  | .tree _ => .panic
  | m => .ret (.map m)

/-- `MapElim::fold`, 1198-1202, that is `list_fold`, 276-289, with the function `(d, c), r ↦ body(d, c, r)`. -/
def fold (body : Nat → D → C → R → R) (i : Nat) (m : MapV D C) (r : R) : Prog (CV D C R) :=
  .call fView (.map m) <| onMap fun
  | .nil => .ret (.res r)
  | .cons d c tl => .call fFun (.fold i tl r) <| onRes fun r => .ret (.res (body i d c r))
  | .name _ tl => .call fFun (.fold i tl r) .ret
  | _ => .panic

/-- The fold of `inter`, 469-478: `list_fold` with the function `(x, ()), (out, other) ↦ (if find(other, x).is_some() { add(out, x) } else { out }, other)`.  `u` is `()`; `add` is `update`, 464, 1174. -/
def inter1 (u : C) (m out other : MapV D C) : Prog (CV D C R) :=
  .call fView (.map m) <| onMap fun
  | .nil => .ret (.pair out other)
  | .cons x _ tl =>
    .call fFun (.inter1 tl out other) <| onPair fun out other =>
    .call fFun (.find other x) <| onOpt fun
    | some _ => .ret (.pair (.cons x u out) other)
    | none => .ret (.pair out other)
  | .name _ tl => .call fFun (.inter1 tl out other) .ret
  | _ => .panic

/-- `SetIntro::inter`, 467-480. -/
def inter (set other : MapV D C) : Prog (CV D C R) :=
  .call fFun (.inter1 set .nil other) <| onPair fun out _ => .ret (.map out)

/-- `SetElim::is_mem`, 494-499. -/
def isMem (set : MapV D C) (x : D) : Prog (CV D C R) :=
  .call fFun (.find set x) <| onOpt fun c => .ret (.bool c.isSome)

/-- The code of the functions.  `remove` (1195-1197; of a set 465), `append` (1203-1205; `union` 466) and `diff` (480-482) are `unimplemented!()`. -/
def code (u : C) (body : Nat → D → C → R → R) (fn : FnId) (v : CV D C R) : Prog (CV D C R) :=
  if fn = fView then onMap view v
  else if fn = fRoot then .call fFun v .ret
  else match v with
    | .find m d => find m d
    | .mem m d => isMem m d
    | .fold i m r => fold body i m r
    | .inter s o => inter s o
    | .inter1 m out o => inter1 u m out o
    | .remove _ _ => .panic
    | .append _ _ => .panic
    | .diff _ _ => .panic
    | _ => .panic

/-- The environment; no structural names are used, so the hashes do not matter. -/
def env (u : C) (body : Nat → D → C → R → R) (hv : CV D C R → UInt64) (ha : ProgPt → CV D C R → UInt64) : Env (CV D C R) := ⟨code u body, hv, ha⟩

/-- `list_of_vec`, 882-896, as code of the editor, followed by what it does with the list: the vector is gone through from its end; at a name, a cell is allocated under that name. -/
def listOfVec (v : List (NameElse (D × C))) (k : MapV D C → Prog (CV D C R)) : Prog (CV D C R) :=
  match v with
  | [] => k .nil
  | .name n :: v => listOfVec v fun l => .cell tyM n (.map l) fun a => k (.name n (.art a))
  | .elm e :: v => listOfVec v fun l => k (.cons e.1 e.2 l)

end Adapton.MapProg
