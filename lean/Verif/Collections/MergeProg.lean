import Verif.Engine.Basic
import Verif.Collections.SortProg
/-
`mergesort_list_of_tree3`, `list_merge_wrapper`, `list_merge` and `vec_of_list` as programs of the engine: an articulation is a location, forcing it is an engine call, and the `memo!` and `thunk!`
of the source are allocations.  The thunks of the fold are allocated in the namespace in which the sort is called, those of the merges in the namespace `merge` below it.
Source: /repo/src/catalog/collections.rs; line numbers refer to that file.
-/
namespace Adapton.MergeProg
open Coll (NameElse)
open SortProg (LV TV lvNameOp)

/-- The values of the program: contents of cells, arguments and results of functions. -/
inductive CV (X : Type) where
  | lst (l : LV X)
  | tree (t : TV X)
  | vec (v : List (NameElse X))
  /-- the arguments of `list_merge` -/
  | margs (n1 : Option Name) (l1 : LV X) (n2 : Option Name) (l2 : LV X)
  /-- the arguments of `mergesort_list_of_tree3`, and of `tree_fold_up_nm_dn` below it -/
  | sargs (t : TV X) (nm : Option Name)
  /-- the loop variables of `vec_of_list`, and its limit -/
  | vargs (l : LV X) (out : List (NameElse X)) (limit : Option Nat)
  /-- the arguments of the whole program: the namespace of the sort, the tree, the name, the limit -/
  | root (stage : Name) (t : TV X) (nm : Option Name) (limit : Option Nat)
deriving DecidableEq, Repr

variable {X : Type} (H : NameHash) (le : X → X → Bool)

/-- Result types. -/
def tyL : Ty := 0
def tyT : Ty := 1
def tyV : Ty := 2
/-- The functions. -/
def fRoot : FnId := 0
def fSort3 : FnId := 1
def fMerge : FnId := 2
def fVec : FnId := 3
def fLView : FnId := 4
def fTView : FnId := 5
/-- The program points (`prog_pt!(stringify!(f))`, macros.rs:348-378). -/
def ppRoot : ProgPt := 0
def ppSort3 : ProgPt := 1
def ppMerge : ProgPt := 2

/-- Continue with a list. -/
def onLst (k : LV X → Prog (CV X)) : CV X → Prog (CV X)
  | .lst l => k l
  | _ => .panic
/-- Continue with a tree. -/
def onTree (k : TV X → Prog (CV X)) : CV X → Prog (CV X)
  | .tree l => k l
  | _ => .panic

/-- The pattern match of `ListElim::elim_arg` for `List`, 1140-1163: an articulation is forced and its content matched. -/
def lview : LV X → Prog (CV X)
  | .art a => .force tyL a none fun v => .call fLView v .ret
  | l => .ret (.lst l)

/-- The pattern match of `TreeElim::elim_arg` for `Tree`, 1383-1401. -/
def tview : TV X → Prog (CV X)
  | .art a => .force tyT a none fun v => .call fTView v .ret
  | t => .ret (.tree t)

/-- `list_merge`, 895-957. -/
def merge (n1 : Option Name) (l1 : LV X) (n2 : Option Name) (l2 : LV X) : Prog (CV X) :=
  .call fLView (.lst l1) <| onLst fun
  | .nil => .ret (.lst (lvNameOp n2 l2))
  | .cons h1 t1 =>
    .call fLView (.lst l2) <| onLst fun
    | .nil => .ret (.lst (lvNameOp n1 (.cons h1 t1)))
    | .cons h2 t2 =>
      if le h1 h2 then
        match n1 with
        | none => .call fMerge (.margs none t1 n2 (.cons h2 t2)) <| onLst fun rest => .ret (.lst (.cons h1 rest))
        | some n1 =>
          .thunk tyL (.nominal (nameFork H n1).1) ppMerge fMerge (.margs none t1 n2 (.cons h2 t2)) fun a =>
            .ret (.lst (.name (nameFork H n1).2 (.cons h1 (.art a))))
      else
        match n2 with
        | none => .call fMerge (.margs n1 (.cons h1 t1) none t2) <| onLst fun rest => .ret (.lst (.cons h2 rest))
        | some n2 =>
          .thunk tyL (.nominal (nameFork H n2).1) ppMerge fMerge (.margs n1 (.cons h1 t1) none t2) fun a =>
            .ret (.lst (.name (nameFork H n2).2 (.cons h2 (.art a))))
    | .name m2 t2 => .call fMerge (.margs n1 (.cons h1 t1) (some m2) t2) .ret
    | .art _ => .panic
  | .name m1 t1 => .call fMerge (.margs (some m1) t1 n2 l2) .ret
  | .art _ => .panic

/-- The namespace of `list_merge_wrapper`, 1034. -/
def mergeNm : Name := nameOfStr H "merge"

/-- `list_merge_wrapper`, 1030-1035. -/
def mergeWrapper (n1 : Option Name) (l1 : LV X) (n2 : Option Name) (l2 : LV X) : Prog (CV X) :=
  .ns (mergeNm H) (.call fMerge (.margs n1 l1 n2 l2) .ret) .ret

/-- `tree_fold_up_nm_dn`, 617-654, with the functions of `mergesort_list_of_tree3`, 1013-1028.  `memo!(n =>> f, x ;; …)` is `get!(thunk!([Some(n)]? f ; x ;; …))` (macros.rs:708-714). -/
def sort3 (t : TV X) (nm : Option Name) : Prog (CV X) :=
  .call fTView (.tree t) <| onTree fun
  | .nil => .ret (.lst .nil)
  | .leaf x => .ret (.lst (lvNameOp nm (.cons x .nil)))
  | .bin _ l r =>
    .call fSort3 (.sargs l nm) <| onLst fun rl =>
    .call fSort3 (.sargs r none) <| onLst fun rr =>
    mergeWrapper H none rl none rr
  | .name n _ l r =>
    .thunk tyL (.nominal (nameFork H n).1) ppSort3 fSort3 (.sargs l nm) fun a => .force tyL a none <| onLst fun rl =>
    .thunk tyL (.nominal (nameFork H n).2) ppSort3 fSort3 (.sargs r (some n)) fun b => .force tyL b none <| onLst fun rr =>
    mergeWrapper H none rl none rr
  | .art _ => .panic

/-- One turn of the loop of `vec_of_list`, 858-878, and the turns after it. -/
def vec (l : LV X) (out : List (NameElse X)) (limit : Option Nat) : Prog (CV X) :=
  .call fLView (.lst l) <| onLst fun
  | .nil => .ret (.vec out)
  | .cons x rest => if limit = some (out.length + 1) then .ret (.vec (out ++ [.elm x])) else .call fVec (.vargs rest (out ++ [.elm x]) limit) .ret
  | .name n rest => if limit = some (out.length + 1) then .ret (.vec (out ++ [.name n])) else .call fVec (.vargs rest (out ++ [.name n]) limit) .ret
  | .art _ => .panic

/-- The program that the editor demands: `let s = ns(stage, || mergesort_list_of_tree3(t, nm)); vec_of_list(s, limit)`, as in the tests, 1043-1047. -/
def root (stage : Name) (t : TV X) (nm : Option Name) (limit : Option Nat) : Prog (CV X) :=
  .ns stage (.call fSort3 (.sargs t nm) .ret) <| onLst fun l => .call fVec (.vargs l [] limit) .ret

/-- The code of the functions. -/
def code (fn : FnId) (v : CV X) : Prog (CV X) :=
  match v with
  | .lst l => if fn = fLView then lview l else .panic
  | .tree t => if fn = fTView then tview t else .panic
  | .margs n1 l1 n2 l2 => if fn = fMerge then merge H le n1 l1 n2 l2 else .panic
  | .sargs t nm => if fn = fSort3 then sort3 H t nm else .panic
  | .vargs l out limit => if fn = fVec then vec l out limit else .panic
  | .root stage t nm limit => if fn = fRoot then root stage t nm limit else .panic
  | .vec _ => .panic

/-- The environment; no structural names are used, so the hashes do not matter. -/
def env (hv : CV X → UInt64) (ha : ProgPt → CV X → UInt64) : Env (CV X) := ⟨code H le, hv, ha⟩

end Adapton.MergeProg
