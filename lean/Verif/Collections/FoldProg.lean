import Verif.Collections.SortProg
/-
`tree_fold_up`, `tree_fold_seq` and `tree_fold_up_nm_dn`, and what is made with them (`monoid_of_tree`, `eager_tree_of_tree`, `filter_tree_of_tree`, `list_of_tree`,
`filter_list_of_tree`), as programs of the engine: an articulation is a location, forcing it is an engine call, and the `memo!` and `cell` of the source are allocations.
Source: /repo/src/catalog/collections.rs; line numbers refer to that file.
-/
namespace Adapton.FoldProg
open Coll (NameElse Dir2)
open SortProg (LV TV)

/-- The values of the program: contents of cells, arguments and results of functions.  `R` is the type of the results of the folds with pure functions. -/
inductive CV (X R : Type) where
  | tree (t : TV X)
  | lst (l : LV X)
  | vec (v : List (NameElse X))
  | res (r : R)
  /-- the compared arguments of `tree_fold_seq`: the tree, the direction, the result so far -/
  | sargs (t : TV X) (dir : Dir2) (v : CV X R)
  /-- the compared arguments of `tree_fold_up_nm_dn` -/
  | nargs (t : TV X) (nm : Option Name)
  /-- the loop variables of `vec_of_list` -/
  | vargs (l : LV X) (out : List (NameElse X)) (limit : Option Nat)
  /-- the arguments of the program that the editor demands: the filters, the last stage, the tree, the limit -/
  | root (filters : List Name) (last : Name) (t : TV X) (limit : Option Nat)
deriving DecidableEq, Repr

/-- A stage of the program.  The number `i` says which functions (or which predicate) are passed. -/
inductive Op where
  /-- `tree_fold_up` with pure functions: `monoid_of_tree`, `eager_tree_of_tree` and others -/
  | up (i : Nat)
  /-- `tree_fold_seq` with pure functions, in a direction -/
  | seq (dir : Dir2) (i : Nat)
  /-- `tree_fold_up_nm_dn` with pure functions, from a name -/
  | nm (nm : Option Name) (i : Nat)
  | listOf (dir : Dir2)
  | filtList (i : Nat)
  | filt (i : Nat)
deriving DecidableEq, Repr

/-- Result types. -/
def tyT : Ty := 0
def tyL : Ty := 1
def tyR : Ty := 2
def tyV : Ty := 3
/-- The functions. -/
def fTView : FnId := 0
def fLView : FnId := 1
def fVec : FnId := 2
def fRoot : FnId := 3
/-- A fold with the functions passed to it, which are not among the compared arguments (`;;`, macros.rs). -/
def fUp (i : Nat) : FnId := 6 * i + 4
def fSeq (i : Nat) : FnId := 6 * i + 5
def fNm (i : Nat) : FnId := 6 * i + 6
def fFilt (i : Nat) : FnId := 6 * i + 7
def fFiltList (i : Nat) : FnId := 6 * i + 8
def fListOf : FnId := 9
/-- The program points (`prog_pt!(stringify!(f))`). -/
def ppUp : ProgPt := 0
def ppSeq : ProgPt := 1
def ppNm : ProgPt := 2
def ppRoot : ProgPt := 3

variable {X R : Type} (H : NameHash)

/-- Continue with a tree. -/
def onTree (k : TV X → Prog (CV X R)) : CV X R → Prog (CV X R)
  | .tree t => k t
  | _ => .panic
/-- Continue with a list. -/
def onLst (k : LV X → Prog (CV X R)) : CV X R → Prog (CV X R)
  | .lst l => k l
  | _ => .panic
/-- Continue with a result. -/
def onRes (k : R → Prog (CV X R)) : CV X R → Prog (CV X R)
  | .res r => k r
  | _ => .panic

/-- The pattern match of `TreeElim::elim_arg`, 1383-1400, and `elim_ref`, 1437-1453, for `Tree`: an articulation is forced and its content matched. -/
def tview : TV X → Prog (CV X R)
  | .art a => .force tyT a none fun v => .call fTView v .ret
  | t => .ret (.tree t)
/-- The pattern match of `ListElim::elim` (and `elim_arg`) for `List`, 1112-1163. -/
def lview : LV X → Prog (CV X R)
  | .art a => .force tyL a none fun v => .call fLView v .ret
  | l => .ret (.lst l)

/-- The functions passed to `tree_fold_up`. -/
structure UpFns (X R : Type) where
  nil : CV X R
  leaf : X → CV X R
  bin : Nat → CV X R → CV X R → Prog (CV X R)
  name : Name → Nat → CV X R → CV X R → Prog (CV X R)
/-- The functions passed to `tree_fold_seq`; `name` is given what is done next. -/
structure SeqFns (X R : Type) where
  leaf : X → CV X R → Prog (CV X R)
  bin : Nat → CV X R → CV X R
  name : Name → Nat → CV X R → (CV X R → Prog (CV X R)) → Prog (CV X R)
/-- The functions passed to `tree_fold_up_nm_dn`. -/
structure NmFns (X R : Type) where
  nil : Option Name → CV X R
  leaf : Option Name → X → CV X R
  bin : Option Name → Nat → CV X R → CV X R → Prog (CV X R)
  name : Option Name → Name → Nat → CV X R → CV X R → Prog (CV X R)

/-- `tree_fold_up`, 568-606. -/
def foldUp (ty : Ty) (fn : FnId) (F : UpFns X R) (t : TV X) : Prog (CV X R) :=
  .call fTView (.tree t) <| onTree fun
  | .nil => .ret F.nil
  | .leaf x => .ret (F.leaf x)
  | .bin x l r => .call fn (.tree l) fun a => .call fn (.tree r) fun b => F.bin x a b
  | .name n x l r =>
    .thunk ty (.nominal (nameFork H n).1) ppUp fn (.tree l) fun t1 => .force ty t1 none fun a =>
    .thunk ty (.nominal (nameFork H n).2) ppUp fn (.tree r) fun t2 => .force ty t2 none fun b =>
    F.name n x a b
  | .art _ => .panic

/-- `let (l,r) = match dir { Dir2::Left => (l,r), Dir2::Right => (r, l) }`, 545, 552. -/
def swap {A : Type} (dir : Dir2) (l r : A) : A × A :=
  match dir with
  | .left => (l, r)
  | .right => (r, l)

/-- `tree_fold_seq`, 526-562. -/
def foldSeq (ty : Ty) (fn : FnId) (F : SeqFns X R) (t : TV X) (dir : Dir2) (res : CV X R) : Prog (CV X R) :=
  .call fTView (.tree t) <| onTree fun
  | .nil => .ret res
  | .leaf x => F.leaf x res
  | .bin x l r =>
    .call fn (.sargs (swap dir l r).1 dir res) fun res =>
    .call fn (.sargs (swap dir l r).2 dir (F.bin x res)) .ret
  | .name n x l r =>
    .thunk ty (.nominal (nameFork H n).1) ppSeq fn (.sargs (swap dir l r).1 dir res) fun t1 => .force ty t1 none fun res =>
    F.name n x res fun res =>
    .thunk ty (.nominal (nameFork H n).2) ppSeq fn (.sargs (swap dir l r).2 dir res) fun t2 => .force ty t2 none .ret
  | .art _ => .panic

/-- `tree_fold_up_nm_dn`, 617-654. -/
def foldNm (ty : Ty) (fn : FnId) (F : NmFns X R) (t : TV X) (nm : Option Name) : Prog (CV X R) :=
  .call fTView (.tree t) <| onTree fun
  | .nil => .ret (F.nil nm)
  | .leaf x => .ret (F.leaf nm x)
  | .bin x l r => .call fn (.nargs l nm) fun a => .call fn (.nargs r none) fun b => F.bin nm x a b
  | .name n x l r =>
    .thunk ty (.nominal (nameFork H n).1) ppNm fn (.nargs l nm) fun t1 => .force ty t1 none fun a =>
    .thunk ty (.nominal (nameFork H n).2) ppNm fn (.nargs r (some n)) fun t2 => .force ty t2 none fun b =>
    F.name nm n x a b
  | .art _ => .panic

/-! ### The functions that are passed -/

/-- Pure functions for `tree_fold_up`. -/
structure PureUp (X R : Type) where
  nil : R
  leaf : X → R
  bin : Nat → R → R → R
  name : Name → Nat → R → R → R
/-- Pure functions for `tree_fold_seq`, and the result to start with. -/
structure PureSeq (X R : Type) where
  init : R
  leaf : X → R → R
  bin : Nat → R → R
  name : Name → Nat → R → R
/-- Pure functions for `tree_fold_up_nm_dn`. -/
structure PureNm (X R : Type) where
  nil : Option Name → R
  leaf : Option Name → X → R
  bin : Option Name → Nat → R → R → R
  name : Option Name → Name → Nat → R → R → R

def PureUp.fns (f : PureUp X R) : UpFns X R where
  nil := .res f.nil
  leaf x := .res (f.leaf x)
  bin x a b := onRes (fun a => onRes (fun b => .ret (.res (f.bin x a b))) b) a
  name n x a b := onRes (fun a => onRes (fun b => .ret (.res (f.name n x a b))) b) a
/-- Apply a pure function to a result. -/
def mapRes (f : R → R) : CV X R → CV X R
  | .res r => .res (f r)
  | v => v
def PureSeq.fns (f : PureSeq X R) : SeqFns X R where
  leaf x := onRes fun r => .ret (.res (f.leaf x r))
  bin x v := mapRes (f.bin x) v
  name n x v k := onRes (fun r => k (.res (f.name n x r))) v
def PureNm.fns (f : PureNm X R) : NmFns X R where
  nil nm := .res (f.nil nm)
  leaf nm x := .res (f.leaf nm x)
  bin nm x a b := onRes (fun a => onRes (fun b => .ret (.res (f.bin nm x a b))) b) a
  name nm n x a b := onRes (fun a => onRes (fun b => .ret (.res (f.name nm n x a b))) b) a

/-- What `list_of_tree` passes, 738-745. -/
def listOfFns : SeqFns X R where
  leaf x := onLst fun xs => .ret (.lst (.cons x xs))
  bin _ xs := xs
  name n _ v k := onLst (fun xs => .cell tyL n (.lst xs) fun c => k (.lst (.name n (.art c)))) v

/-- What `filter_list_of_tree` passes, 760-767; `is_name`, 110-115, answers `true` at a cons (see C45). -/
def filtListFns (pred : X → Bool) : SeqFns X R where
  leaf x := onLst fun xs => if pred x then .ret (.lst (.cons x xs)) else .ret (.lst xs)
  bin _ xs := xs
  name n _ v k := onLst (fun xs => .call fLView (.lst xs) <| onLst fun
    | .cons _ _ => k (.lst xs)
    | _ => .cell tyL n (.lst xs) fun c => k (.lst (.name n (.art c)))) v

/-- `is_nil`, 417-425, of a tree that has been looked at. -/
def isNilV : TV X → Bool
  | .nil => true
  | _ => false
/-- The last part of `bin_arts_niltest`, 516-523. -/
def binMake (n : Option Name) (lev : Nat) (l r : TV X) : Prog (CV X R) :=
  match n with
  | none => .ret (.tree (.bin lev l r))
  | some n =>
    .cell tyT (nameFork H n).1 (.tree l) fun a =>
    .cell tyT (nameFork H n).2 (.tree r) fun b =>
    .ret (.tree (.name n lev (.art a) (.art b)))
/-- `bin_arts_niltest`, 507-524. -/
def binArts (n : Option Name) (lev : Nat) (l r : TV X) : Prog (CV X R) :=
  .call fTView (.tree l) <| onTree fun lv =>
  if isNilV lv then .ret (.tree r)
  else .call fTView (.tree r) <| onTree fun rv =>
    if isNilV rv then .ret (.tree l)
    else binMake H n lev l r

/-- What `filter_tree_of_tree` passes, 781-789. -/
def filtFns (pred : X → Bool) : UpFns X R where
  nil := .tree .nil
  leaf x := .tree (if !pred x then .nil else .leaf x)
  bin lev a b := onTree (fun l => onTree (fun r => .ns nameUnit (binArts H none lev l r) .ret) b) a
  name n lev a b := onTree (fun l => onTree (fun r => .ns nameUnit (binArts H (some n) lev l r) .ret) b) a

/-- One turn of the loop of `vec_of_list`, 858-878, and the turns after it. -/
def vec (l : LV X) (out : List (NameElse X)) (limit : Option Nat) : Prog (CV X R) :=
  .call fLView (.lst l) <| onLst fun
  | .nil => .ret (.vec out)
  | .cons x rest => if limit = some (out.length + 1) then .ret (.vec (out ++ [.elm x])) else .call fVec (.vargs rest (out ++ [.elm x]) limit) .ret
  | .name n rest => if limit = some (out.length + 1) then .ret (.vec (out ++ [.name n])) else .call fVec (.vargs rest (out ++ [.name n]) limit) .ret
  | .art _ => .panic

/-- What a program passes to the folds. -/
structure Fns (X R : Type) where
  up : Nat → PureUp X R
  seq : Nat → PureSeq X R
  nm : Nat → PureNm X R
  pred : Nat → X → Bool

/-- The call of a stage; `list_of_tree` inverts the direction, 738. -/
def opCall (fs : Fns X R) : Op → TV X → Prog (CV X R)
  | .up i, t => .call (fUp i) (.tree t) .ret
  | .seq dir i, t => .call (fSeq i) (.sargs t dir (.res (fs.seq i).init)) .ret
  | .nm nm i, t => .call (fNm i) (.nargs t nm) .ret
  | .listOf dir, t => .call fListOf (.sargs t dir.invert (.lst .nil)) .ret
  | .filtList i, t => .call (fFiltList i) (.sargs t .right (.lst .nil)) .ret
  | .filt i, t => .call (fFilt i) (.tree t) .ret

/-- What is done with the result of the last stage: a list is demanded by `vec_of_list`. -/
def finish (limit : Option Nat) : CV X R → Prog (CV X R)
  | .lst l => .call fVec (.vargs l [] limit) .ret
  | v => .ret v

/-- The program that the editor demands: `let t = ns(nm, || filter_tree_of_tree(t, p))` for each filter, then the last stage in a namespace of its own. -/
def root (opAt : Name → Op) (fs : Fns X R) : List Name → Name → TV X → Option Nat → Prog (CV X R)
  | [], last, t, limit => .ns last (opCall fs (opAt last) t) (finish limit)
  | nm :: nms, last, t, limit => .ns nm (opCall fs (opAt nm) t) <| onTree fun t => root opAt fs nms last t limit

/-- The code of the folds. -/
def foldCode (fs : Fns X R) (k i : Nat) (v : CV X R) : Prog (CV X R) :=
  match k, v with
  | 0, .tree t => foldUp H tyR (fUp i) (fs.up i).fns t
  | 1, .sargs t dir v => foldSeq H tyR (fSeq i) (fs.seq i).fns t dir v
  | 2, .nargs t nm => foldNm H tyR (fNm i) (fs.nm i).fns t nm
  | 3, .tree t => foldUp H tyT (fFilt i) (filtFns H (fs.pred i)) t
  | 4, .sargs t dir v => foldSeq H tyL (fFiltList i) (filtListFns (fs.pred i)) t dir v
  | 5, .sargs t dir v => foldSeq H tyL fListOf listOfFns t dir v
  | _, _ => .panic

/-- The code of the functions. -/
def code (opAt : Name → Op) (fs : Fns X R) (fn : FnId) (v : CV X R) : Prog (CV X R) :=
  if 4 ≤ fn then foldCode H fs ((fn - 4) % 6) ((fn - 4) / 6) v
  else
    match v with
    | .tree t => if fn = fTView then tview t else .panic
    | .lst l => if fn = fLView then lview l else .panic
    | .vargs l out limit => if fn = fVec then vec l out limit else .panic
    | .root nms last t limit => if fn = fRoot then root opAt fs nms last t limit else .panic
    | _ => .panic

/-- The environment; no structural names are used, so the hashes do not matter. -/
def env (opAt : Name → Op) (fs : Fns X R) (hv : CV X R → UInt64) (ha : ProgPt → CV X R → UInt64) : Env (CV X R) := ⟨code H opAt fs, hv, ha⟩

theorem code_fold (opAt : Name → Op) (fs : Fns X R) (k i : Nat) (hk : k < 6) (v : CV X R) : code H opAt fs (6 * i + k + 4 : Nat) v = foldCode H fs k i v := by
  have h1 : 4 ≤ (6 * i + k + 4 : Nat) := by omega
  have h3 : (6 * i + k + 4 - 4 : Nat) % 6 = k := by omega
  have h4 : (6 * i + k + 4 - 4 : Nat) / 6 = i := by omega
  unfold code
  rw [if_pos h1]
  show foldCode H fs ((6 * i + k + 4 - 4 : Nat) % 6) ((6 * i + k + 4 - 4 : Nat) / 6) v = _
  rw [h3, h4]

end Adapton.FoldProg
