import Verif.Engine.Model
import Verif.Names.Model
/-
The macros of /repo/src/macros.rs as the programs they expand to.  Line numbers refer to that file.

A use of a macro is given by its arguments: names and texts are strings, as the compiler's `stringify!` produces them; a function or body
expression is given twice, by its text and by the closure (`FnId`) that the expansion builds from it and from the variables it captures;
the tuple of the labelled arguments is one value.  What follows the use in the program is the continuation `k`.
-/
namespace Adapton.Macros
open Adapton
variable {V : Type} (H : NameHash) (pt : String → ProgPt)

/-- The name choice that the optional-name forms compute (351-353, 364-366, 404-406): `match $nmop { None => Eager, Some(n) => Nominal(n) }`. -/
def optChoice : Option Name → NameChoice
  | none => .eager
  | some n => .nominal n

/-- `thunk!([nmop]? fun ; lab:arg, ... )`, 349-360; also the form with spurious arguments, 362-378, whose values are part of the closure.
The program point is `stringify!($fun)`. -/
def thunkFun (ty : Ty) (nmop : Option Name) (funText : String) (fn : FnId) (arg : V) (k : Loc → Prog V) : Prog V :=
  .thunk ty (optChoice nmop) (pt funText) fn arg k

/-- `thunk!([name] fun ; lab:arg, ... )`, 380-385, and `thunk!(nm =>> fun, lab:arg, ...)`, 387-400, with a name in place of a string. -/
def thunkNamedFun (ty : Ty) (name funText : String) (fn : FnId) (arg : V) (k : Loc → Prog V) : Prog V :=
  thunkFun pt ty (some (nameOfStr H name)) funText fn arg k

/-- `thunk![[nmop]? body]`, 402-411.  The program point is `stringify!($body)`; the argument is `()`. -/
def thunkBody (ty : Ty) (nmop : Option Name) (bodyText : String) (fn : FnId) (unit : V) (k : Loc → Prog V) : Prog V :=
  .thunk ty (optChoice nmop) (pt bodyText) fn unit k

/-- `thunk![[name] body]`, 413-420.  The program point is `stringify!($fun)`, but this rule of the macro binds `$body`, not `$fun`: the two
tokens are passed on as they are, and the program point is the string "$fun", whatever the body. -/
def thunkNamedBody (ty : Ty) (name _bodyText : String) (fn : FnId) (unit : V) (k : Loc → Prog V) : Prog V :=
  .thunk ty (.nominal (nameOfStr H name)) (pt "$fun") fn unit k

/-- `thunk![body]`, 422-425, when the name counter holds `ctr`. -/
def thunkCounter (ty : Ty) (ctr : Nat) (bodyText : String) (fn : FnId) (unit : V) (k : Loc → Prog V) : Prog V :=
  thunkBody pt ty (some (nameOfUsize H (bumpNameCounter ctr).1)) bodyText fn unit k

/-- `get!(t)`, 88-90. -/
def get (ty : Ty) (l : Loc) (k : V → Prog V) : Prog V := .force ty l none k
/-- `get!(t, v)`, 92-94. -/
def getCycle (ty : Ty) (l : Loc) (out : V) (k : V → Prog V) : Prog V := .force ty l (some out) k

/-- `memo!([nmop]? fun ; lab:arg, ... )`, 700-706: the thunk and its value. -/
def memo (ty : Ty) (nmop : Option Name) (funText : String) (fn : FnId) (arg : V) (k : Loc → V → Prog V) : Prog V :=
  thunkFun pt ty nmop funText fn arg fun t => get ty t fun x => k t x

/-- `memo!(nm =>> fun, lab:arg, ...)`, 708-714: the value. -/
def memoNamed (ty : Ty) (nm : Name) (funText : String) (fn : FnId) (arg : V) (k : V → Prog V) : Prog V :=
  thunkFun pt ty (some nm) funText fn arg fun t => get ty t k

/-- `cell!(v)`, 166-168, when the name counter holds `ctr`. -/
def cellCounter (ty : Ty) (ctr : Nat) (v : V) (k : Loc → Prog V) : Prog V := .cell ty (nameOfUsize H (bumpNameCounter ctr).1) v k
/-- `cell!([name] v)`, 174-176. -/
def cellNamed (ty : Ty) (name : String) (v : V) (k : Loc → Prog V) : Prog V := .cell ty (nameOfStr H name) v k

/-- `let_cell!{var = rhs; body}`, 834-838. -/
def letCell (ty : Ty) (var : String) (v : V) (body : Loc → Prog V) : Prog V := .cell ty (nameOfStr H var) v body
/-- `let_thunk!{var = rhs; body}`, 852-855: `thunk!([Some(name)]?{rhs})`. -/
def letThunk (ty : Ty) (var bodyText : String) (fn : FnId) (unit : V) (body : Loc → Prog V) : Prog V :=
  thunkBody pt ty (some (nameOfStr H var)) bodyText fn unit body
/-- `let_memo!{var = (thk) = rhs; body}`, 899-903: `thunk!([thk]{rhs})`, forced. -/
def letMemo (ty : Ty) (thk bodyText : String) (fn : FnId) (unit : V) (body : Loc → V → Prog V) : Prog V :=
  thunkNamedBody H pt ty thk bodyText fn unit fun t => get ty t fun x => body t x

end Adapton.Macros
