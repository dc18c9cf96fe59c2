import Verif.Engine.Basic
import Verif.Collections.Model
/-
`tree_of_list`, `mergesort_list_of_tree` and `vec_of_list` as programs of the engine: here an articulation is a location, forcing it is an engine call, and the
`memo!` and `thunk!` of the source are allocations.  Source: /repo/src/catalog/collections.rs; line numbers refer to that file.
-/
namespace Adapton.SortProg
open Coll (NameElse Dir2 Hashes levElm levName levBits levZero levMaxVal levAdd levInc levLte)

/-- `List<X>`, 1082-1089, with real articulations (without `Tree`, see Collections/Model.lean). -/
inductive LV (X : Type) where
  | nil
  | cons (x : X) (l : LV X)
  | name (n : Name) (l : LV X)
  | art (a : Loc)
deriving DecidableEq, Repr

/-- `Tree<X>`, 1091-1098, with real articulations. -/
inductive TV (X : Type) where
  | nil
  | leaf (x : X)
  | bin (lev : Nat) (l r : TV X)
  | name (n : Name) (lev : Nat) (l r : TV X)
  | art (a : Loc)
deriving DecidableEq, Repr

/-- The values of the program: contents of cells, arguments and results of functions. -/
inductive CV (X : Type) where
  | lst (l : LV X)
  | tree (t : TV X)
  | vec (v : List (NameElse X))
  /-- the arguments of `list_merge` -/
  | margs (n1 : Option Name) (l1 : LV X) (n2 : Option Name) (l2 : LV X)
  /-- the loop variables of `vec_of_list` -/
  | vargs (l : LV X) (out : List (NameElse X))
  /-- the arguments of `mergesort_list_of_tree2` -/
  | sargs (t : TV X) (nm : Option Name)
  /-- the loop variables of `vec_of_list` with a limit -/
  | vlim (l : LV X) (out : List (NameElse X)) (limit : Nat)
  /-- the arguments of `tree_of_list_rec` -/
  | targs (dir : Dir2) (l : LV X) (t : TV X) (treeLev parentLev : Nat)
  /-- the result of `tree_of_list_rec` -/
  | pair (t : TV X) (l : LV X)
  /-- the arguments of the whole pipeline -/
  | pargs (dir : Dir2) (l : LV X)
deriving DecidableEq, Repr

variable {X : Type} (H : NameHash) (le : X → X → Bool)

/-- Result types. -/
def tyL : Ty := 0
def tyT : Ty := 1
def tyV : Ty := 2
def tyP : Ty := 3
/-- The functions. -/
def fRoot : FnId := 0
def fSort : FnId := 1
def fMerge : FnId := 2
def fVec : FnId := 3
def fLView : FnId := 4
def fTView : FnId := 5
def fSort2 : FnId := 6
def fVecLim : FnId := 7
def fTree : FnId := 8
def fAssert : FnId := 9
def fPipe : FnId := 10
/-- The program points (`prog_pt!(stringify!(f))`, macros.rs:348-378). -/
def ppRoot : ProgPt := 0
def ppSort : ProgPt := 1
def ppMerge : ProgPt := 2
def ppSort2 : ProgPt := 3
def ppTree : ProgPt := 4
def ppPipe : ProgPt := 5

/-- Continue with a list. -/
def onLst (k : LV X → Prog (CV X)) : CV X → Prog (CV X)
  | .lst l => k l
  | _ => .panic
/-- Continue with a tree. -/
def onTree (k : TV X → Prog (CV X)) : CV X → Prog (CV X)
  | .tree l => k l
  | _ => .panic
/-- Continue with a tree and a list. -/
def onPair (k : TV X → LV X → Prog (CV X)) : CV X → Prog (CV X)
  | .pair t l => k t l
  | _ => .panic

/-- `list_name_op`, 131-136. -/
def lvNameOp (n : Option Name) (l : LV X) : LV X :=
  match n with
  | none => l
  | some n => .name n l

/-- The pattern match of `ListElim::elim_arg` for `List`, 1140-1163: an articulation is forced and its content matched. -/
def lview : LV X → Prog (CV X)
  | .art a => .force tyL a none fun v => .call fLView v .ret
  | l => .ret (.lst l)

/-- The pattern match of `TreeElim::elim_arg` for `Tree`, 1383-1401. -/
def tview : TV X → Prog (CV X)
  | .art a => .force tyT a none fun v => .call fTView v .ret
  | t => .ret (.tree t)

/-- `list_merge`, 895-957. -/
def merge (n1 : Option Name) (l1 : LV X) (n2 : Option Name) (l2 : LV X) : Prog (CV X) :=
  .call fLView (.lst l1) <| onLst fun
  | .nil => .ret (.lst (lvNameOp n2 l2))
  | .cons h1 t1 =>
    .call fLView (.lst l2) <| onLst fun
    | .nil => .ret (.lst (lvNameOp n1 (.cons h1 t1)))
    | .cons h2 t2 =>
      if le h1 h2 then
        match n1 with
        | none => .call fMerge (.margs none t1 n2 (.cons h2 t2)) <| onLst fun rest => .ret (.lst (.cons h1 rest))
        | some n1 =>
          .thunk tyL (.nominal (nameFork H n1).1) ppMerge fMerge (.margs none t1 n2 (.cons h2 t2)) fun a =>
            .ret (.lst (.name (nameFork H n1).2 (.cons h1 (.art a))))
      else
        match n2 with
        | none => .call fMerge (.margs n1 (.cons h1 t1) none t2) <| onLst fun rest => .ret (.lst (.cons h2 rest))
        | some n2 =>
          .thunk tyL (.nominal (nameFork H n2).1) ppMerge fMerge (.margs n1 (.cons h1 t1) none t2) fun a =>
            .ret (.lst (.name (nameFork H n2).2 (.cons h2 (.art a))))
    | .name m2 t2 => .call fMerge (.margs n1 (.cons h1 t1) (some m2) t2) .ret
    | .art _ => .panic
  | .name m1 t1 => .call fMerge (.margs (some m1) t1 n2 l2) .ret
  | .art _ => .panic

/-- `tree_fold_up`, 563-606, with the functions of `mergesort_list_of_tree`, 966-982.  `memo!(n =>> f, x)` is `get!(thunk!([Some(n)]? f ; x))`
(macros.rs:708-714). -/
def sort (t : TV X) : Prog (CV X) :=
  .call fTView (.tree t) <| onTree fun
  | .nil => .ret (.lst .nil)
  | .leaf x => .ret (.lst (.cons x .nil))
  | .bin _ l r =>
    .call fSort (.tree l) <| onLst fun rl =>
    .call fSort (.tree r) <| onLst fun rr =>
    .call fMerge (.margs none rl none rr) .ret
  | .name n _ l r =>
    .thunk tyL (.nominal (nameFork H n).1) ppSort fSort (.tree l) fun a => .force tyL a none <| onLst fun rl =>
    .thunk tyL (.nominal (nameFork H n).2) ppSort fSort (.tree r) fun b => .force tyL b none <| onLst fun rr =>
    .call fMerge (.margs (some (nameFork H n).1) rl (some (nameFork H n).2) rr) .ret
  | .art _ => .panic

/-- One turn of the loop of `vec_of_list(list, None)`, 858-878, and the turns after it. -/
def vec (l : LV X) (out : List (NameElse X)) : Prog (CV X) :=
  .call fLView (.lst l) <| onLst fun
  | .nil => .ret (.vec out)
  | .cons x rest => .call fVec (.vargs rest (out ++ [.elm x])) .ret
  | .name n rest => .call fVec (.vargs rest (out ++ [.name n])) .ret
  | .art _ => .panic

/-- `vec_of_list(mergesort_list_of_tree(t), None)`: the program whose result the editor demands. -/
def root (t : TV X) : Prog (CV X) :=
  .call fSort (.tree t) <| onLst fun l => .call fVec (.vargs l []) .ret

/-- `list_merge_wrapper`, 1030-1035. -/
def mergeWrapper (n1 : Option Name) (l1 : LV X) (n2 : Option Name) (l2 : LV X) : Prog (CV X) :=
  .ns (nameOfStr H "merge") (.call fMerge (.margs n1 l1 n2 l2) .ret) .ret

/-- `tree_fold_up_nm_dn`, 617-654, with the functions of `mergesort_list_of_tree2`, 990-1005. -/
def sort2 (t : TV X) (nm : Option Name) : Prog (CV X) :=
  .call fTView (.tree t) <| onTree fun
  | .nil => .ret (.lst .nil)
  | .leaf x => .ret (.lst (lvNameOp nm (.cons x .nil)))
  | .bin _ l r =>
    .call fSort2 (.sargs l nm) <| onLst fun rl =>
    .call fSort2 (.sargs r none) <| onLst fun rr =>
    mergeWrapper H none rl none rr
  | .name n _ l r =>
    .thunk tyL (.nominal (nameFork H n).1) ppSort2 fSort2 (.sargs l nm) fun a => .force tyL a none <| onLst fun rl =>
    .thunk tyL (.nominal (nameFork H n).2) ppSort2 fSort2 (.sargs r (some n)) fun b => .force tyL b none <| onLst fun rr =>
    mergeWrapper H none rl (some n) rr
  | .art _ => .panic

/-- One turn of the loop of `vec_of_list(list, Some(limit))`, 858-878, and the turns after it. -/
def vecLim (l : LV X) (out : List (NameElse X)) (limit : Nat) : Prog (CV X) :=
  .call fLView (.lst l) <| onLst fun
  | .nil => .ret (.vec out)
  | .cons x rest => if out.length + 1 = limit then .ret (.vec (out ++ [.elm x])) else .call fVecLim (.vlim rest (out ++ [.elm x]) limit) .ret
  | .name n rest => if out.length + 1 = limit then .ret (.vec (out ++ [.name n])) else .call fVecLim (.vlim rest (out ++ [.name n]) limit) .ret
  | .art _ => .panic

/-- `list_demand(mergesort_list_of_tree2(t, nm), limit)`. -/
def main2 (t : TV X) (nm : Option Name) (limit : Nat) : Prog (CV X) :=
  .call fSort2 (.sargs t nm) <| onLst fun l => .call fVecLim (.vlim l [] limit) .ret

/-- 691-694: the new binary node. -/
def binTV (dir : Dir2) (lev : Nat) (t t2 : TV X) : TV X :=
  match dir with
  | .left => .bin lev t t2
  | .right => .bin lev t2 t
/-- 711-714: the new named node. -/
def nameTV (dir : Dir2) (nm : Name) (lev : Nat) (t t2 : TV X) : TV X :=
  match dir with
  | .left => .name nm lev t t2
  | .right => .name nm lev t2 t

/-- `tree_of_list_rec`, 669-726.  `eager!(n =>> f, …)` is `thunk` followed by `force` (macros.rs:738-752). -/
def treeRec (K : Hashes X) (dir : Dir2) (list : LV X) (tree : TV X) (treeLev parentLev : Nat) : Prog (CV X) :=
  .call fLView (.lst list) <| onLst fun
  | .nil => .ret (.pair tree .nil)
  | .cons hd rest =>
    let levHd := levInc (levElm K hd)
    if levLte treeLev levHd && levLte levHd parentLev then
      .call fTree (.targs dir rest (.leaf hd) levZero levHd) <| onPair fun tree2 rest2 =>
      .call fTree (.targs dir rest2 (binTV dir levHd tree tree2) levHd parentLev) .ret
    else .ret (.pair tree (.cons hd rest))
  | .name nm rest =>
    let levNm := levInc (levAdd levBits (levName K nm))
    if levLte treeLev levNm && levLte levNm parentLev then
      .thunk tyP (.nominal (nameFork H nm).1) ppTree fTree (.targs dir rest .nil levZero levNm) fun a => .force tyP a none <| onPair fun tree2 rest2 =>
      .cell tyT nm (.tree (nameTV dir nm levNm tree tree2)) fun art =>
      .thunk tyP (.nominal (nameFork H nm).2) ppTree fTree (.targs dir rest2 (.art art) levNm parentLev) fun b => .force tyP b none <| onPair fun t r =>
      .ret (.pair t r)
    else .ret (.pair tree (.name nm rest))
  | .art _ => .panic

/-- `assert!(L::is_empty(&list))` with `ListElim::is_empty`, 102-107 and 665. -/
def assertEmpty (l : LV X) : Prog (CV X) :=
  .call fLView (.lst l) <| onLst fun
  | .nil => .ret (.lst .nil)
  | .cons _ _ => .panic
  | .name _ tl => .call fAssert (.lst tl) .ret
  | .art _ => .panic

/-- `tree_of_list`, 657-667. -/
def treeOfList (dir : Dir2) (l : LV X) : Prog (CV X) :=
  .call fTree (.targs dir l .nil levZero levMaxVal) <| onPair fun t rest => .call fAssert (.lst rest) fun _ => .ret (.tree t)

/-- The namespace of `tree_of_list` in the pipeline, 1043. -/
def treeNm : Name := nameOfStr H "tree_of_list"

/-- The pipeline of the tests, 1043-1047: `ns("tree_of_list", || tree_of_list(dir, l))`, `mergesort_list_of_tree`, `vec_of_list`. -/
def pipe (dir : Dir2) (l : LV X) : Prog (CV X) :=
  .ns (treeNm H) (treeOfList dir l) <| onTree fun t =>
  .call fSort (.tree t) <| onLst fun l => .call fVec (.vargs l []) .ret

/-- The code of the functions. -/
def code (K : Hashes X) (fn : FnId) (v : CV X) : Prog (CV X) :=
  match v with
  | .lst l => if fn = fLView then lview l else if fn = fAssert then assertEmpty l else .panic
  | .tree t => if fn = fSort then sort H t else if fn = fTView then tview t else if fn = fRoot then root t else .panic
  | .margs n1 l1 n2 l2 => if fn = fMerge then merge H le n1 l1 n2 l2 else .panic
  | .vargs l out => if fn = fVec then vec l out else .panic
  | .sargs t nm => if fn = fSort2 then sort2 H t nm else .panic
  | .vlim l out k => if fn = fVecLim then vecLim l out k else .panic
  | .targs dir l t tl pl => if fn = fTree then treeRec H K dir l t tl pl else .panic
  | .pargs dir l => if fn = fPipe then pipe H dir l else .panic
  | .vec _ => .panic
  | .pair _ _ => .panic

/-- The environment; no structural names are used, so the hashes do not matter. -/
def env (K : Hashes X) (hv : CV X → UInt64) (ha : ProgPt → CV X → UInt64) : Env (CV X) := ⟨code H le K, hv, ha⟩

end Adapton.SortProg
