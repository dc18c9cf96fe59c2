import Verif.Names.Model
/-
Lists and trees: /repo/src/catalog/collections.rs.

An articulation is modelled by the value it holds: `force(art)` yields that value, `cell(n, v)` an articulation holding `v`,
`thunk!(n =>> f, args)` one holding `f(args)`, `memo!` and `eager!` return `f(args)` (`eager!` with such an articulation too).
That is what the naive engine does (engine.rs:2368, 2442-2451, 2472-2480), and what the archivist's engine does as long as no
location is written twice with different contents (C01; see DESIGN.md for what happens when names repeat).

`List::Tree` is left out: nothing in the crate builds one, and looking inside one panics (collections.rs:1130, 1154, 1190).
-/
namespace Adapton.Coll

/-- `Dir2`, 13-14. -/
inductive Dir2 where
  | left
  | right
deriving DecidableEq, Repr

/-- `Dir2::invert`, 16-22. -/
def Dir2.invert : Dir2 → Dir2
  | .left => .right
  | .right => .left

/-- `List<X>`, 1082-1089 (without `Tree`, see the header). -/
inductive Lst (X : Type) where
  | nil
  | cons (x : X) (l : Lst X)
  | name (n : Name) (l : Lst X)
  | art (l : Lst X)
deriving DecidableEq, Repr

/-- `Tree<X>`, 1091-1098. -/
inductive Tree (X : Type) where
  | nil
  | leaf (x : X)
  | bin (lev : Nat) (l r : Tree X)
  | name (n : Name) (lev : Nat) (l r : Tree X)
  | art (t : Tree X)
deriving DecidableEq, Repr

/-- `NameElse<X>`, 1100-1104. -/
inductive NameElse (X : Type) where
  | name (n : Name)
  | elm (x : X)
deriving DecidableEq, Repr

variable {X Y R : Type} (H : NameHash)

/-- What the arms of `ListElim::elim` / `elim_arg` are given (81-99): the articulations at the head have been forced. -/
inductive View (X : Type) where
  | nil
  | cons (x : X) (tl : Lst X)
  | name (n : Name) (tl : Lst X)

/-- The pattern match made by `elim` and `elim_arg`, 1118-1163. -/
def Lst.view : Lst X → View X
  | .nil => .nil
  | .cons x tl => .cons x tl
  | .name n tl => .name n tl
  | .art l => l.view

/-- `cell(n, v)` wrapped by `L::art`. -/
def lcell (_n : Name) (l : Lst X) : Lst X := .art l
/-- `cell(n, v)` wrapped by `T::art`. -/
def tcell (_n : Name) (t : Tree X) : Tree X := .art t

/-- `ListIntro::singleton`, 46-49. -/
def singleton (x : X) : Lst X := .cons x .nil

/-- `ListIntro::name_art` (53-57) and `list_name_art_op` (122-130). -/
def nameArt (nm : Option Name) (rest : Lst X) : Lst X :=
  match nm with
  | none => rest
  | some nm => .name nm (lcell nm rest)

/-- `list_name_op`, 131-138. -/
def listNameOp (n : Option Name) (l : Lst X) : Lst X :=
  match n with
  | none => l
  | some n => .name n l

/-- The iteration of `for i in a..b`: ascending, empty unless `a < b`. -/
def rangeIter (a b : Nat) : List Nat := (List.range (b - a)).map (a + ·)

/-- `list_gen`, 60-74.  `len-1` on `usize`: a debug build panics (`none`) at 0, a release build wraps. -/
def listGen (debug : Bool) (len : Nat) (genElm : Nat → X) : Option (Lst X) :=
  if len = 0 ∧ debug then none
  else
    let start := if len = 0 then 2 ^ 64 - 1 else len - 1
    some ((rangeIter start 0).foldl (fun out i =>
      let x := genElm i
      let nm := nameOfUsize H i
      let out := lcell nm out
      let out := .name nm out
      .cons x out) .nil)

/-- `ListElim::is_empty`, 102-107. -/
def isEmpty : Lst X → Bool
  | .nil => true
  | .cons _ _ => false
  | .name _ tl => isEmpty tl
  | .art l => isEmpty l

/-- `ListElim::is_name`, 110-115 (the arms are in the order nil, cons, name). -/
def isName (l : Lst X) : Bool :=
  match l.view with
  | .nil => false
  | .cons _ _ => true
  | .name _ _ => false

/-- `list_map_lazy`, 140-162. -/
def listMapLazy (body : X → Y) : Lst X → Lst Y
  | .nil => .nil
  | .cons x tl => .cons (body x) (listMapLazy body tl)
  | .name _ tl => .art (listMapLazy body tl)
  | .art l => listMapLazy body l

/-- `list_filter_lazy`, 164-183. -/
def listFilterLazy (body : X → Bool) : Lst X → Lst X
  | .nil => .nil
  | .cons x tl => if body x then .cons x (listFilterLazy body tl) else listFilterLazy body tl
  | .name _ tl => .art (listFilterLazy body tl)
  | .art l => listFilterLazy body l

/-- `list_filter_eager`, 185-208. -/
def listFilterEager (body : X → Bool) : Lst X → Lst X
  | .nil => .nil
  | .cons x tl => if body x then .cons x (listFilterEager body tl) else listFilterEager body tl
  | .name n tl => .name n (.art (listFilterEager body tl))
  | .art l => listFilterEager body l

/-- `list_map_eager`, 210-230. -/
def listMapEager (body : X → Y) : Lst X → Lst Y
  | .nil => .nil
  | .cons x tl => .cons (body x) (listMapEager body tl)
  | .name n tl => .name n (.art (listMapEager body tl))
  | .art l => listMapEager body l

/-- `list_map_eager2`, 232-255. -/
def listMapEager2 (body : X → Y) : Lst X → Lst Y
  | .nil => .nil
  | .cons x tl => .cons (body x) (listMapEager2 body tl)
  | .name n tl =>
    let (nm1, _nm2, nm3) := nameFork3 H n
    let t := listMapEager2 body tl
    .name nm1 (lcell nm3 t)
  | .art l => listMapEager2 body l

/-- `list_reverse`, 258-273. -/
def listReverse : Lst X → Lst X → Lst X
  | .nil, rev => rev
  | .cons x tl, rev => listReverse tl (.cons x rev)
  | .name n tl, rev =>
    let rev := lcell (namePair H (nameOfStr H "rev") n) rev
    let t := listReverse tl rev
    .name n (.art t)
  | .art l, rev => listReverse l rev

/-- `list_fold`, 275-288. -/
def listFold (body : X → R → R) : Lst X → R → R
  | .nil, res => res
  | .cons x tl, res =>
    let res := listFold body tl res
    body x res
  | .name _ tl, res => listFold body tl res
  | .art l, res => listFold body l res

/-- `list_pop`, 294-299; `none`: the panic "cannot pop an empty stack". -/
def listPop : Lst X → Option (X × Lst X)
  | .nil => none
  | .cons h t => some (h, t)
  | .name _ t => listPop t
  | .art l => listPop l

/-- `list_push`, 301-303. -/
def listPush (stack : Lst X) (elm : X) : Lst X := .cons elm stack

/-- `list_append`, 305-307. -/
def listAppend (l1 l2 : Lst X) : Lst X := listFold (fun x r => .cons x r) l1 l2

/-- `MapIntro::empty` for association lists, 1173. -/
def mapEmpty : Lst (X × Y) := .nil
/-- `MapIntro::update`, 1174. -/
def mapUpdate (map : Lst (X × Y)) (d : X) (c : Y) : Lst (X × Y) := .cons (d, c) map
/-- `MapElim::find`, 1183-1194. -/
def mapFind [DecidableEq X] (d : X) : Lst (X × Y) → Option Y
  | .nil => none
  | .cons (d2, c) tl => if d = d2 then some c else mapFind d tl
  | .name _ l => mapFind d l
  | .art l => mapFind d l
/-- `MapElim::fold`, 1198-1202. -/
def mapFold (map : Lst (X × Y)) (res : R) (body : X → Y → R → R) : R := listFold (fun p r => body p.1 p.2 r) map res

/-- `SetIntro::add`, 464. -/
def setAdd (set : Lst (X × Unit)) (x : X) : Lst (X × Unit) := mapUpdate set x ()
/-- `SetIntro::inter`, 467-480. -/
def setInter [DecidableEq X] (set other : Lst (X × Unit)) : Lst (X × Unit) :=
  (mapFold set ((mapEmpty : Lst (X × Unit)), other) (fun x _ p =>
    let out := match mapFind x p.2 with
      | some _ => setAdd p.1 x
      | none => p.1
    (out, p.2))).1
/-- `SetElim::is_mem`, 494-499. -/
def setIsMem [DecidableEq X] (set : Lst (X × Unit)) (e : X) : Bool :=
  match mapFind e set with
  | some _ => true
  | none => false
/-- `SetElim::fold`, 500-504. -/
def setFold (set : Lst (X × Unit)) (res : R) (f : X → R → R) : R := mapFold set res (fun elm _ r => f elm r)

/-- `TreeElim::is_empty`, 407-415. -/
def tIsEmpty : Tree X → Bool
  | .nil => true
  | .leaf _ => false
  | .bin _ l r => tIsEmpty l && tIsEmpty r
  | .name _ _ l r => tIsEmpty l && tIsEmpty r
  | .art t => tIsEmpty t

/-- `TreeElim::is_nil`, 417-425. -/
def tIsNil : Tree X → Bool
  | .nil => true
  | .leaf _ => false
  | .bin _ _ _ => false
  | .name _ _ _ _ => false
  | .art t => tIsNil t

/-- `bin_arts_niltest`, 507-524. -/
def binArtsNiltest (n : Option Name) (lev : Nat) (l r : Tree X) : Tree X :=
  if tIsNil l then r
  else if tIsNil r then l
  else
    match n with
    | none => .bin lev l r
    | some n =>
      let (nl, nr) := nameFork H n
      let l := tcell nl l
      let r := tcell nr r
      .name n lev l r

/-- `tree_fold_seq`, 526-563. -/
def treeFoldSeq (dir : Dir2) (leaf : X → R → R) (bin : Nat → R → R) (name : Name → Nat → R → R) : Tree X → R → R
  | .nil, res => res
  | .leaf x, res => leaf x res
  | .bin x l r, res =>
    match dir with
    | .left =>
      let res := treeFoldSeq dir leaf bin name l res
      let res := bin x res
      treeFoldSeq dir leaf bin name r res
    | .right =>
      let res := treeFoldSeq dir leaf bin name r res
      let res := bin x res
      treeFoldSeq dir leaf bin name l res
  | .name n x l r, res =>
    match dir with
    | .left =>
      let res := treeFoldSeq dir leaf bin name l res
      let res := name n x res
      treeFoldSeq dir leaf bin name r res
    | .right =>
      let res := treeFoldSeq dir leaf bin name r res
      let res := name n x res
      treeFoldSeq dir leaf bin name l res
  | .art t, res => treeFoldSeq dir leaf bin name t res

/-- `tree_fold_up`, 565-605. -/
def treeFoldUp (nil : R) (leaf : X → R) (bin : Nat → R → R → R) (name : Name → Nat → R → R → R) : Tree X → R
  | .nil => nil
  | .leaf x => leaf x
  | .bin x l r => bin x (treeFoldUp nil leaf bin name l) (treeFoldUp nil leaf bin name r)
  | .name n x l r => name n x (treeFoldUp nil leaf bin name l) (treeFoldUp nil leaf bin name r)
  | .art t => treeFoldUp nil leaf bin name t

/-- `tree_fold_up_nm_dn`, 607-654. -/
def treeFoldUpNmDn (nil : Option Name → R) (leaf : Option Name → X → R) (bin : Option Name → Nat → R → R → R)
    (name : Option Name → Name → Nat → R → R → R) : Tree X → Option Name → R
  | .nil, nm => nil nm
  | .leaf x, nm => leaf nm x
  | .bin x l r, nm =>
    bin nm x (treeFoldUpNmDn nil leaf bin name l nm) (treeFoldUpNmDn nil leaf bin name r none)
  | .name n x l r, nm =>
    name nm n x (treeFoldUpNmDn nil leaf bin name l nm) (treeFoldUpNmDn nil leaf bin name r (some n))
  | .art t, nm => treeFoldUpNmDn nil leaf bin name t nm

/-- `u64::trailing_zeros`. -/
def trailingZeros (h : UInt64) : Nat := ((List.range 64).takeWhile (fun i => !(h.toNat.testBit i))).length

/-- The hashes `my_hash_n(&x, 1)` (24-32) of the elements and of the names. -/
structure Hashes (X : Type) where
  elm : X → UInt64
  name : Name → UInt64

/-- `Level::new` for `usize`, 1357-1359, at an element. -/
def levElm (K : Hashes X) (x : X) : Nat := trailingZeros (K.elm x)
/-- `Level::new` for `usize`, 1357-1359, at a name. -/
def levName (K : Hashes X) (n : Name) : Nat := trailingZeros (K.name n)
/-- `bits`, 1360. -/
def levBits : Nat := 32
/-- `zero`, 1361. -/
def levZero : Nat := 0
/-- `max_val`, 1362. -/
def levMaxVal : Nat := 2 ^ 64 - 1
/-- `add`, 1363 (no overflow: the levels that occur are at most 97). -/
def levAdd (x y : Nat) : Nat := x + y
/-- `inc`, 1364 (no overflow either). -/
def levInc (x : Nat) : Nat := x + 1
/-- `lte`, 1365. -/
def levLte (x y : Nat) : Bool := decide (x ≤ y)

/-- The number of elements and names of a list: the measure that decreases in the recursions below. -/
def Lst.size : Lst X → Nat
  | .nil => 0
  | .cons _ l => l.size + 1
  | .name _ l => l.size + 1
  | .art l => l.size

theorem Lst.view_cons {l : Lst X} {x tl} (h : l.view = .cons x tl) : l.size = tl.size + 1 := by
  induction l with
  | nil => cases h
  | cons y l ih => cases h; rfl
  | name n l ih => cases h
  | art l ih => exact ih h

theorem Lst.view_name {l : Lst X} {n tl} (h : l.view = .name n tl) : l.size = tl.size + 1 := by
  induction l with
  | nil => cases h
  | cons y l ih => cases h
  | name n l ih => cases h; rfl
  | art l ih => exact ih h

theorem le_of_steps {a b c d : Nat} (h1 : a ≤ b) (h2 : b ≤ c) (h3 : d = c + 1) : a ≤ d := by omega

/-- `tree_of_list_rec`, 669-726.  The second component of the result is the list that remains; that it is no longer than the
input (the subtype) is what makes the recursion terminate. -/
def treeOfListRec (K : Hashes X) (dir : Dir2) (list : Lst X) (tree : Tree X) (treeLev parentLev : Nat) :
    { p : Tree X × Lst X // p.2.size ≤ list.size } :=
  match hv : list.view with
  | .nil => ⟨(tree, .nil), Nat.zero_le _⟩
  | .cons hd rest =>
    let levHd := levInc (levElm K hd)
    if levLte treeLev levHd && levLte levHd parentLev then
      let leaf := Tree.leaf hd
      match treeOfListRec K dir rest leaf levZero levHd with
      | ⟨(tree2, rest2), h2⟩ =>
        let tree3 := match dir with
          | .left => Tree.bin levHd tree tree2
          | .right => Tree.bin levHd tree2 tree
        let r := treeOfListRec K dir rest2 tree3 levHd parentLev
        ⟨r.1, le_of_steps r.2 h2 (Lst.view_cons hv)⟩
    else ⟨(tree, .cons hd rest), by simp only [Lst.size]; have := Lst.view_cons hv; omega⟩
  | .name nm rest =>
    let levNm := levInc (levAdd levBits (levName K nm))
    if levLte treeLev levNm && levLte levNm parentLev then
      match treeOfListRec K dir rest .nil levZero levNm with
      | ⟨(tree2, rest2), h2⟩ =>
        let tree3 := match dir with
          | .left => Tree.name nm levNm tree tree2
          | .right => Tree.name nm levNm tree2 tree
        let tree3 := tcell nm tree3
        let r := treeOfListRec K dir rest2 tree3 levNm parentLev
        ⟨r.1, le_of_steps r.2 h2 (Lst.view_name hv)⟩
    else ⟨(tree, .name nm rest), by simp only [Lst.size]; have := Lst.view_name hv; omega⟩
termination_by list.size
decreasing_by
  all_goals first
    | (have := Lst.view_cons hv; omega)
    | (have := Lst.view_name hv; omega)
    | (have h3 := Lst.view_cons hv; have h4 : rest2.size ≤ rest.size := h2; omega)
    | (have h3 := Lst.view_name hv; have h4 : rest2.size ≤ rest.size := h2; omega)

/-- `tree_of_list`, 657-667; `none`: the assertion fails. -/
def treeOfList (K : Hashes X) (dir : Dir2) (list : Lst X) : Option (Tree X) :=
  let r := treeOfListRec K dir list .nil levZero levMaxVal
  if isEmpty r.1.2 then some r.1.1 else none

/-- `list_of_tree`, 728-746. -/
def listOfTree (tree : Tree X) (dir : Dir2) : Lst X :=
  treeFoldSeq dir.invert (fun x xs => .cons x xs) (fun _ xs => xs) (fun n _ xs => .name n (lcell n xs)) tree .nil

/-- `filter_list_of_tree`, 748-768. -/
def filterListOfTree (tree : Tree X) (pred : X → Bool) : Lst X :=
  treeFoldSeq .right (fun x xs => if pred x then .cons x xs else xs) (fun _ xs => xs)
    (fun n _ xs => if isName xs then xs else .name n (lcell n xs)) tree .nil

/-- `filter_tree_of_tree`, 770-790. -/
def filterTreeOfTree (tree : Tree X) (pred : X → Bool) : Tree X :=
  treeFoldUp .nil (fun x => let fx := pred x; if !fx then .nil else .leaf x)
    (fun lev l r => binArtsNiltest H none lev l r) (fun n lev l r => binArtsNiltest H (some n) lev l r) tree

/-- `monoid_of_tree`, 792-810. -/
def monoidOfTree (tree : Tree X) (idElm : X) (binOp : X → X → X) : X :=
  treeFoldUp idElm (fun x => x) (fun _ l r => binOp l r) (fun _ _ l r => binOp l r) tree

/-- `eager_tree_of_tree`, 812-830. -/
def eagerTreeOfTree (tree : Tree X) : Tree X :=
  treeFoldUp .nil (fun x => .leaf x) (fun lev l r => .bin lev l r) (fun n lev l r => .name n lev l r) tree

/-- `prune_tree_of_tree`, 832-849. -/
def pruneTreeOfTree (tree : Tree X) : Tree X :=
  treeFoldUp .nil (fun x => .leaf x) (fun lev l r => binArtsNiltest H none lev l r)
    (fun n lev l r => binArtsNiltest H (some n) lev l r) tree

/-- `vec_of_list`, 858-878: one turn of the loop per constructor; `out` is the vector so far. -/
def vecLoop (limit : Option Nat) : Lst X → List (NameElse X) → List (NameElse X)
  | .nil, out => out
  | .cons x rest, out =>
    let out := out ++ [.elm x]
    match limit with
    | some k => if out.length = k then out else vecLoop limit rest out
    | none => vecLoop limit rest out
  | .name n rest, out =>
    let out := out ++ [.name n]
    match limit with
    | some k => if out.length = k then out else vecLoop limit rest out
    | none => vecLoop limit rest out
  | .art l, out => vecLoop limit l out

/-- `vec_of_list`, 858-878: the loop starts with the empty vector. -/
def vecOfList (list : Lst X) (limit : Option Nat) : List (NameElse X) := vecLoop limit list []

/-- `list_demand`, 851-856. -/
def listDemand (list : Lst X) (demand : Nat) : List (NameElse X) := vecOfList list (some demand)

/-- `list_of_vec`, 880-893. -/
def listOfVec (v : List (NameElse X)) : Lst X :=
  v.reverse.foldl (fun l x =>
    match x with
    | .name nm => .name nm (lcell nm l)
    | .elm el => .cons el l) .nil

/-- `list_merge`, 895-957.  `le a b` is `a <= b`. -/
def listMerge (le : X → X → Bool) (n1 : Option Name) (l1 : Lst X) (n2 : Option Name) (l2 : Lst X) : Lst X :=
  match hv1 : l1.view with
  | .nil => listNameOp n2 l2
  | .cons h1 t1 =>
    match hv2 : l2.view with
    | .nil => listNameOp n1 (.cons h1 t1)
    | .cons h2 t2 =>
      if le h1 h2 then
        let l2 := .cons h2 t2
        match n1 with
        | none =>
          let rest := listMerge le none t1 n2 l2
          .cons h1 rest
        | some n1 =>
          let (_n1a, n1b) := nameFork H n1
          let rest := listMerge le none t1 n2 l2
          let rest := .art rest
          let rest := .cons h1 rest
          let rest := .name n1b rest
          rest
      else
        let l1 := .cons h1 t1
        match n2 with
        | none =>
          let rest := listMerge le n1 l1 none t2
          let l := .cons h2 rest
          l
        | some n2 =>
          let (_n2a, n2b) := nameFork H n2
          let rest := listMerge le n1 l1 none t2
          let rest := .art rest
          let rest := .cons h2 rest
          let rest := .name n2b rest
          rest
    | .name m2 t2 =>
      let l1 := .cons h1 t1
      listMerge le n1 l1 (some m2) t2
  | .name m1 t1 => listMerge le (some m1) t1 n2 l2
termination_by l1.size + l2.size
decreasing_by
  all_goals try simp only [Lst.size]
  · have := Lst.view_cons hv1; have := Lst.view_cons hv2; omega
  · have := Lst.view_cons hv1; have := Lst.view_cons hv2; omega
  · have := Lst.view_cons hv1; have := Lst.view_cons hv2; omega
  · have := Lst.view_cons hv1; have := Lst.view_cons hv2; omega
  · have := Lst.view_cons hv1; have := Lst.view_name hv2; omega
  · have := Lst.view_name hv1; omega

/-- `mergesort_list_of_tree`, 966-982. -/
def mergesort1 (le : X → X → Bool) (tree : Tree X) : Lst X :=
  treeFoldUp .nil (fun x => singleton x) (fun _ l r => listMerge H le none l none r)
    (fun n _ l r => let (n1, n2) := nameFork H n; listMerge H le (some n1) l (some n2) r) tree

/-- `list_merge_wrapper`, 1030-1035 (`ns` only changes the namespace of the articulations). -/
def listMergeWrapper (le : X → X → Bool) (n1 : Option Name) (l1 : Lst X) (n2 : Option Name) (l2 : Lst X) : Lst X :=
  listMerge H le n1 l1 n2 l2

/-- `mergesort_list_of_tree2`, 990-1005. -/
def mergesort2 (le : X → X → Bool) (tree : Tree X) (nm : Option Name) : Lst X :=
  treeFoldUpNmDn (fun _ => .nil) (fun m x => listNameOp m (singleton x))
    (fun _ _ l r => listMergeWrapper H le none l none r)
    (fun _ n _ l r => listMergeWrapper H le none l (some n) r) tree nm

/-- `mergesort_list_of_tree3`, 1013-1028. -/
def mergesort3 (le : X → X → Bool) (tree : Tree X) (nm : Option Name) : Lst X :=
  treeFoldUpNmDn (fun _ => .nil) (fun m x => listNameOp m (singleton x))
    (fun _ _ l r => listMergeWrapper H le none l none r)
    (fun _ _ _ l r => listMergeWrapper H le none l none r) tree nm

end Adapton.Coll
