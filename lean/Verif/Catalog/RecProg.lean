import Verif.Names.Model
import Verif.Engine.Model
/-
The level trees of the documentation, "Incremental sequences", and their folds, as programs of the engine.
Source: /repo/src/lib.rs; line numbers refer to that file.
-/
namespace Adapton.RecProg

/-- `Rec<X>`, 1055-1080. -/
inductive RecV (X : Type) where
  | leaf (elms : List X)
  | bin (level : Nat) (l r : RecV X)
  | name (level : Nat) (n : Name) (t : RecV X)
  | art (a : Loc)
deriving DecidableEq, Repr

/-- The functions passed to `fold_up_namebin`, 1212-1221, with what they are passed besides the tree (`l`, `b`).  `art` is a function of the value; it does not use the articulation. -/
structure Fns (X R : Type) where
  leaf : List X → R
  namebin : Option Name → Nat → R → R → R
  art : R → R

/-- The values of the program: contents of cells, arguments and results of functions. -/
inductive CV (X R : Type) where
  | tree (t : RecV X)
  | res (r : R)
  /-- the arguments `t` and `n`; the others are the same in all calls -/
  | args (t : RecV X) (n : Option Name)
  /-- the arguments of the program that the editor demands: the namespace of the fold and the tree -/
  | root (nm : Name) (t : RecV X)
deriving DecidableEq, Repr

/-- Result types. -/
def tyT : Ty := 0
def tyR : Ty := 1
/-- The functions: the program that the editor demands, and `fold_up_namebin` with the functions number `i`. -/
def fMain : FnId := 0
def fFold (i : Nat) : FnId := i + 1
/-- The program points (`prog_pt!(stringify!(f))`). -/
def ppMain : ProgPt := 0
def ppFold : ProgPt := 1

variable {X R : Type} (H : NameHash)

/-- Continue with a tree. -/
def onRec (k : RecV X → Prog (CV X R)) : CV X R → Prog (CV X R)
  | .tree t => k t
  | _ => .panic
/-- Continue with a result. -/
def onRes (k : R → Prog (CV X R)) : CV X R → Prog (CV X R)
  | .res r => k r
  | _ => .panic

/-- `memo!([nmop]? f; …)`, macros.rs:700-706: without a name, `ArtIdChoice::Eager`. -/
def memoOpt (ty : Ty) (nmop : Option Name) (pp : ProgPt) (fn : FnId) (arg : CV X R) (k : CV X R → Prog (CV X R)) : Prog (CV X R) :=
  .thunk ty (match nmop with | none => .eager | some n => .nominal n) pp fn arg fun t => .force ty t none k

/-- `fold_up_namebin`, 1212-1246. -/
def foldUpNamebin (fs : Fns X R) (fn : FnId) (t : RecV X) (n : Option Name) : Prog (CV X R) :=
  match t with
  | .art a => .force tyT a none <| onRec fun t => .call fn (.args t n) .ret
  | .leaf elms => .ret (.res (fs.leaf elms))
  | .bin level l r =>
    memoOpt tyR (forko H n).1 ppFold fn (.args l none) <| onRes fun r1 =>
    memoOpt tyR (forko H n).2 ppFold fn (.args r none) <| onRes fun r2 =>
    .ret (.res (fs.namebin n level (fs.art r1) (fs.art r2)))
  | .name _ m t => .call fn (.args t (some m)) .ret

/-- The functions that `fold_monoid` passes, 1190-1210: `m_leaf` folds the elements of a leaf from the left, starting with `z`; `m_bin` combines with `bin`. -/
def monoidFns (z : X) (bin : X → X → X) (art : X → X) : Fns X X where
  leaf elms := elms.foldl bin z
  namebin _ _ l r := bin l r
  art := art

/-- The program that the editor demands: `ns(nm, || fold_up_namebin(t, …, None, …))`, with the functions of that namespace. -/
def main (opAt : Name → Nat) (nm : Name) (t : RecV X) : Prog (CV X R) :=
  .ns nm (.call (fFold (opAt nm)) (.args t none) .ret) .ret

/-- The code of the functions. -/
def code (opAt : Name → Nat) (fs : Nat → Fns X R) (fn : FnId) (v : CV X R) : Prog (CV X R) :=
  match fn, v with
  | 0, .root nm t => main opAt nm t
  | i + 1, .args t n => foldUpNamebin H (fs i) (i + 1) t n
  | _, _ => .panic

/-- The environment; no structural names are used, so the hashes do not matter. -/
def env (opAt : Name → Nat) (fs : Nat → Fns X R) (hv : CV X R → UInt64) (ha : ProgPt → CV X R → UInt64) : Env (CV X R) := ⟨code H opAt fs, hv, ha⟩

end Adapton.RecProg
