import Verif.Collections.SortProg
/-
`list_map_lazy`, `list_filter_lazy`, `list_map_eager`, `list_filter_eager`, `list_map_eager2`, `list_reverse` and `vec_of_list` as programs of the engine: an articulation is a
location, forcing it is an engine call, and the `memo!`, `eager!`, `thunk!` and `cell` of the source are allocations.  Source: /repo/src/catalog/collections.rs;
line numbers refer to that file.
-/
namespace Adapton.ListProg
open Coll (NameElse)
open SortProg (LV)

/-- The values of the program: contents of cells, arguments and results of functions. -/
inductive CV (X : Type) where
  | lst (l : LV X)
  | vec (v : List (NameElse X))
  /-- the arguments of `list_reverse` -/
  | rargs (l rev : LV X)
  /-- the loop variables of `vec_of_list` -/
  | vargs (l : LV X) (out : List (NameElse X)) (limit : Option Nat)
  /-- the arguments of the program that the editor demands: the stages, the list, the limit -/
  | root (stages : List Name) (l : LV X) (limit : Option Nat)
deriving DecidableEq, Repr

/-- How a function treats a name of its input. -/
inductive Style where
  /-- a thunk for the rest: `list_map_lazy`, `list_filter_lazy` -/
  | lazy
  /-- a thunk for the rest, forced at once: `list_map_eager`, `list_filter_eager` -/
  | eager
  /-- the rest is memoized and put into a cell: `list_map_eager2` -/
  | eager2
deriving DecidableEq, Repr

/-- A stage of the program: one of the functions with the body number `i`, or `list_reverse`. -/
inductive Op where
  | each (s : Style) (i : Nat)
  | rev
deriving DecidableEq, Repr

/-- Result types. -/
def tyL : Ty := 0
def tyV : Ty := 1
/-- The functions. -/
def fLView : FnId := 0
def fVec : FnId := 1
def fRoot : FnId := 2
def fRev : FnId := 3
def Style.tag : Style → Nat
  | .lazy => 0
  | .eager => 1
  | .eager2 => 2
def styleOf : Nat → Style
  | 0 => .lazy
  | 1 => .eager
  | _ => .eager2
/-- A function with its body, which is not among the compared arguments (`;;`, macros.rs). -/
def fEach (s : Style) (i : Nat) : FnId := 3 * i + s.tag + 4
/-- The program points (`prog_pt!(stringify!(f))`). -/
def ppEach (s : Style) : ProgPt := s.tag
def ppRev : ProgPt := 3
def ppRoot : ProgPt := 4

variable {X : Type} (H : NameHash)

/-- Continue with a list. -/
def onLst (k : LV X → Prog (CV X)) : CV X → Prog (CV X)
  | .lst l => k l
  | _ => .panic

/-- The pattern match of `ListElim::elim_arg` for `List`, 1140-1163: an articulation is forced and its content matched. -/
def lview : LV X → Prog (CV X)
  | .art a => .force tyL a none fun v => .call fLView v .ret
  | l => .ret (.lst l)

/-- 157-160, 181-183, 201-207, 224-228, 246-252: what is done at a name. -/
def atName (s : Style) (i : Nat) (n : Name) (tl : LV X) : Prog (CV X) :=
  match s with
  | .lazy => .thunk tyL (.nominal n) (ppEach .lazy) (fEach .lazy i) (.lst tl) fun a => .ret (.lst (.art a))
  | .eager =>
    .thunk tyL (.nominal n) (ppEach .eager) (fEach .eager i) (.lst tl) fun a => .force tyL a none <| onLst fun _ =>
    .ret (.lst (.name n (.art a)))
  | .eager2 =>
    .thunk tyL (.nominal (nameFork3 H n).2.1) (ppEach .eager2) (fEach .eager2 i) (.lst tl) fun a => .force tyL a none <| onLst fun t =>
    .cell tyL (nameFork3 H n).2.2 (.lst t) fun c => .ret (.lst (.name (nameFork3 H n).1 (.art c)))

/-- `list_map_lazy` (140-162), `list_filter_lazy` (164-185), `list_filter_eager` (187-208), `list_map_eager` (210-230) and `list_map_eager2` (232-255).  A map with the body `f` has
`g x = Some(f(x))`; a filter with the body `p` has `g x = if p(x) { Some(x) } else { None }`. -/
def each (s : Style) (i : Nat) (g : X → Option X) (l : LV X) : Prog (CV X) :=
  .call fLView (.lst l) <| onLst fun
  | .nil => .ret (.lst .nil)
  | .cons x tl =>
    match g x with
    | some y => .call (fEach s i) (.lst tl) <| onLst fun r => .ret (.lst (.cons y r))
    | none => .call (fEach s i) (.lst tl) .ret
  | .name n tl => atName H s i n tl
  | .art _ => .panic

/-- The name of the cell in `list_reverse`, 268. -/
def revNm (n : Name) : Name := namePair H (nameOfStr H "rev") n

/-- `list_reverse`, 258-273. -/
def reverse (l rev : LV X) : Prog (CV X) :=
  .call fLView (.lst l) <| onLst fun
  | .nil => .ret (.lst rev)
  | .cons x tl => .call fRev (.rargs tl (.cons x rev)) .ret
  | .name n tl =>
    .cell tyL (revNm H n) (.lst rev) fun c =>
    .thunk tyL (.nominal n) ppRev fRev (.rargs tl (.art c)) fun t => .force tyL t none <| onLst fun _ =>
    .ret (.lst (.name n (.art t)))
  | .art _ => .panic

/-- One turn of the loop of `vec_of_list`, 858-878, and the turns after it. -/
def vec (l : LV X) (out : List (NameElse X)) (limit : Option Nat) : Prog (CV X) :=
  .call fLView (.lst l) <| onLst fun
  | .nil => .ret (.vec out)
  | .cons x rest => if limit = some (out.length + 1) then .ret (.vec (out ++ [.elm x])) else .call fVec (.vargs rest (out ++ [.elm x]) limit) .ret
  | .name n rest => if limit = some (out.length + 1) then .ret (.vec (out ++ [.name n])) else .call fVec (.vargs rest (out ++ [.name n]) limit) .ret
  | .art _ => .panic

/-- The call of a stage. -/
def opCall : Op → LV X → Prog (CV X)
  | .each s i, l => .call (fEach s i) (.lst l) .ret
  | .rev, l => .call fRev (.rargs l .nil) .ret

/-- The program that the editor demands: `let l = ns(nm, || f(l))` for each stage, then `vec_of_list(l, limit)`. -/
def root (opAt : Name → Op) : List Name → LV X → Option Nat → Prog (CV X)
  | [], l, limit => .call fVec (.vargs l [] limit) .ret
  | nm :: nms, l, limit => .ns nm (opCall (opAt nm) l) <| onLst fun l => root opAt nms l limit

/-- The code of the functions. -/
def code (opAt : Name → Op) (g : Nat → X → Option X) (fn : FnId) (v : CV X) : Prog (CV X) :=
  match v with
  | .lst l => if fn = fLView then lview l else if fn < 4 then .panic else each H (styleOf ((fn - 4) % 3)) ((fn - 4) / 3) (g ((fn - 4) / 3)) l
  | .rargs l rev => if fn = fRev then reverse H l rev else .panic
  | .vargs l out limit => if fn = fVec then vec l out limit else .panic
  | .root nms l limit => if fn = fRoot then root opAt nms l limit else .panic
  | .vec _ => .panic

/-- The environment; no structural names are used, so the hashes do not matter. -/
def env (opAt : Name → Op) (g : Nat → X → Option X) (hv : CV X → UInt64) (ha : ProgPt → CV X → UInt64) : Env (CV X) := ⟨code H opAt g, hv, ha⟩

theorem code_lview (opAt : Name → Op) (g : Nat → X → Option X) (l : LV X) : code H opAt g fLView (.lst l) = lview l := rfl

theorem code_each (opAt : Name → Op) (g : Nat → X → Option X) (s : Style) (i : Nat) (l : LV X) : code H opAt g (fEach s i) (.lst l) = each H s i (g i) l := by
  have h1 : fEach s i ≠ fLView := by simp [fEach, fLView]
  have h2 : ¬ fEach s i < 4 := by simp [fEach]
  have h5 : s.tag < 3 := by cases s <;> simp [Style.tag]
  have h3 : (fEach s i - 4) / 3 = i := by
    show ((3 * i + s.tag : Nat) / 3 : Nat) = i
    omega
  have h4 : styleOf ((fEach s i - 4) % 3) = s := by
    have : (fEach s i - 4) % 3 = s.tag := by
      show ((3 * i + s.tag : Nat) % 3 : Nat) = s.tag
      omega
    rw [this]; cases s <;> rfl
  simp only [code, if_neg h1, if_neg h2, h3, h4]

end Adapton.ListProg
