import Verif.Catalog.BitString
import Verif.Collections.Model
/-
Tokens, infix to postfix, and evaluation: /repo/src/catalog/arith_parse.rs.  (The file is in the repository, but `catalog/mod.rs` does not include it in the crate.)
Articulations by their contents, as in Verif/Collections/Model.lean.  `none`: a panic.  `isize` is the 64-bit one; arithmetic that overflows panics (debug build).
Not modelled: `generate_balanced_string`, which only builds a string and drops it.
-/
namespace Adapton.Arith
open Adapton.Bits (chk)
open Adapton.Coll

/-- `Op`, arith_parse.rs:13-14. -/
inductive Op where
  | plus
  | minus
  | times
  | divide
  | parenOpen
  | parenClose
deriving DecidableEq, Repr

/-- `Tok`, 16-20. -/
inductive Tok where
  | num (n : Int)
  | op (o : Op)
deriving DecidableEq, Repr

/-- `Precedence`, 22. -/
inductive Precedence where
  | higher
  | lower
  | equal
deriving DecidableEq, Repr

variable {X : Type}

/-- `pop`, 24-30. -/
def pop : Lst X → Option (X × Lst X)
  | .nil => none
  | .cons h t => some (h, t)
  | .name _ t => pop t
  | .art t => pop t

/-- `push`, 32-36. -/
def push (stack : Lst X) (elm : X) : Lst X := .cons elm stack

theorem pop_size {l t : Lst X} {x : X} (h : pop l = some (x, t)) : t.size < l.size := by
  induction l with
  | nil => cases h
  | cons y l _ => cases h; exact Nat.lt_succ_self _
  | name n l ih => exact Nat.lt_succ_of_lt (ih h)
  | art l ih => exact ih h

/-- `precedence_check`, 38-58. -/
def precedenceCheck (topOp nextOp : Op) : Precedence :=
  match topOp, nextOp with
  | .plus, .plus => .equal
  | .plus, .minus => .equal
  | .minus, .plus => .equal
  | .minus, .minus => .equal
  | .times, .times => .equal
  | .divide, .divide => .equal
  | .times, .plus => .higher
  | .times, .minus => .higher
  | .times, .divide => .higher
  | .divide, .plus => .higher
  | .divide, .minus => .higher
  | .divide, .times => .higher
  | _, .parenOpen => .higher
  | _, _ => .lower

/-- `check_ops_rec`, 60-74. -/
def checkOpsRec (ops : Lst Op) (op : Op) : Option Bool :=
  if isEmpty ops then some true
  else match h : pop ops with
    | none => none
    | some (topOp, popped) =>
      match op with
      | .parenOpen => checkOpsRec popped topOp
      | op => match precedenceCheck op topOp with
        | .higher => checkOpsRec popped topOp
        | _ => some false
termination_by ops.size
decreasing_by all_goals exact pop_size h

/-- `check_ops`, 76-82. -/
def checkOps (ops : Lst Op) : Option Bool :=
  if isEmpty ops then some true
  else match pop ops with
    | none => none
    | some (topOp, popped) => checkOpsRec popped topOp

/-- `num_of_digits_rec`, 85-95. -/
def numOfDigitsRec (num : Int) (digits : Lst Char) : Option (Tok × Lst Char) :=
  if isEmpty digits then some (.num num, digits)
  else match h : pop digits with
    | none => none
    | some (topDig, popped) =>
      (chk ((topDig.toNat : Int) - 48)).bind fun d =>
      if num > 0 then (chk (10 * d)).bind fun t => (chk (num + t)).bind fun n => numOfDigitsRec n popped
      else numOfDigitsRec d popped
termination_by digits.size
decreasing_by all_goals exact pop_size h

/-- `num_of_digits`, 97-102. -/
def numOfDigits (digits : Lst Char) (output : Lst Tok) : Option (Lst Char × Lst Tok) :=
  if isEmpty digits then some (digits, output)
  else (numOfDigitsRec 0 digits).bind fun (num, digits) => some (digits, push output num)

/-- `transfer_num`, 104-107. -/
def transferNum (digits : Lst Char) (output : Lst Tok) : Option (Lst Char × Lst Tok) := numOfDigits digits output

/-- `read_op`, 110-113. -/
def readOp (digits : Lst Char) (output : Lst Tok) (op : Op) : Option (Lst Char × Lst Tok) :=
  (transferNum digits output).bind fun (digits, output) => some (digits, push output (.op op))

/-- The first closure of `tok_of_char`, 118-138. -/
def tokStep (ch : Char) (digits : Lst Char) (output : Lst Tok) : Option (Lst Char × Lst Tok) :=
  match ch with
  | '+' => readOp digits output .plus
  | '-' => readOp digits output .minus
  | '*' => readOp digits output .times
  | '/' => readOp digits output .divide
  | '(' => readOp digits output .parenOpen
  | ')' => readOp digits output .parenClose
  | '0' => some (push digits '0', output)
  | '1' => some (push digits '1', output)
  | '2' => some (push digits '2', output)
  | '3' => some (push digits '3', output)
  | '4' => some (push digits '4', output)
  | '5' => some (push digits '5', output)
  | '6' => some (push digits '6', output)
  | '7' => some (push digits '7', output)
  | '8' => some (push digits '8', output)
  | '9' => some (push digits '9', output)
  | _ => none

variable (H : NameHash)

/-- The third closure of `tok_of_char`, 140-143. -/
def tokName (n : Name) (s : Lst Char × Lst Tok) : Lst Char × Lst Tok :=
  let toks := lcell n s.2
  let toks := .name (namePair H nameUnit n) toks
  (s.1, toks)

/-- `tok_of_char`, 84-150. -/
def tokOfChar (K : Hashes Tok) (input : Tree Char) : Option (Tree Tok) :=
  (treeFoldSeq .left (fun ch (r : Option (Lst Char × Lst Tok)) => r.bind fun s => tokStep ch s.1 s.2) (fun _ a => a) (fun n _ r => r.map (tokName H n))
    input (some (.nil, .nil))).bind fun s =>
  (transferNum s.1 s.2).bind fun s =>
  if isEmpty s.1 then treeOfList K .right s.2 else none

/-- The loop for `)`, 164-170. -/
def closeLoop (ops : Lst Op) (pf : Lst Tok) : Option (Lst Op × Lst Tok) :=
  match h : pop ops with
  | none => none
  | some (topOp, popped) =>
    if topOp = .parenOpen then some (popped, pf)
    else closeLoop popped (push pf (.op topOp))
termination_by ops.size
decreasing_by exact pop_size h

/-- The loop for the other operators, 176-184. -/
def opLoop (op : Op) (ops : Lst Op) (pf : Lst Tok) : Option (Lst Op × Lst Tok) :=
  if isEmpty ops then some (ops, pf)
  else match h : pop ops with
    | none => none
    | some (topOp, popped) =>
      match precedenceCheck topOp op with
      | .higher => opLoop op popped (push pf (.op topOp))
      | .equal => some (popped, push pf (.op topOp))
      | .lower => some (push popped topOp, pf)
termination_by ops.size
decreasing_by exact pop_size h

/-- The first closure of `postfix_of_infix`, 156-190. -/
def postStep (tok : Tok) (ops : Lst Op) (pf : Lst Tok) : Option (Lst Op × Lst Tok) :=
  (checkOps ops).bind fun ok =>
  if !ok then none
  else match tok with
    | .num n => some (ops, push pf (.num n))
    | .op op => match op with
      | .parenOpen => some (push ops op, pf)
      | .parenClose => closeLoop ops pf
      | op =>
        if isEmpty ops then some (push ops op, pf)
        else (opLoop op ops pf).bind fun (ops, pf) => some (push ops op, pf)

/-- The third closure of `postfix_of_infix`, 192-199. -/
def postName (n : Name) (s : Lst Op × Lst Tok) : Lst Op × Lst Tok :=
  let (n1, n2) := nameFork H (namePair H nameUnit n)
  let ops := lcell n1 s.1
  let toks := lcell n2 s.2
  let toks := .name n toks
  (ops, toks)

/-- The loop at the end, 201-205. -/
def flushLoop (ops : Lst Op) (pf : Lst Tok) : Option (Lst Tok) :=
  if isEmpty ops then some pf
  else match h : pop ops with
    | none => none
    | some (topOp, popped) => flushLoop popped (push pf (.op topOp))
termination_by ops.size
decreasing_by exact pop_size h

/-- `postfix_of_infix`, 152-207. -/
def postfixOfInfix (infx : Tree Tok) : Option (Lst Tok) :=
  (treeFoldSeq .left (fun tok (r : Option (Lst Op × Lst Tok)) => r.bind fun s => postStep tok s.1 s.2) (fun _ a => a) (fun n _ r => r.map (postName H n))
    infx (some (.nil, .nil))).bind fun s => flushLoop s.1 s.2

/-- `Plus => y + x`, and so on, 240-246, on `isize`. -/
def apply (op : Op) (y x : Int) : Option Int :=
  match op with
  | .plus => chk (y + x)
  | .minus => chk (y - x)
  | .times => chk (y * x)
  | .divide => if x = 0 then none else chk (y.tdiv x)
  | _ => none

/-- The first closure of `evaluate_postfix`, 231-254. -/
def evalStep (tok : Tok) (stack : Lst Int) : Option (Lst Int) :=
  match tok with
  | .op op => match op with
    | .parenClose => none
    | .parenOpen => none
    | op =>
      (pop stack).bind fun (x, stack) =>
      (pop stack).bind fun (y, stack) =>
      (apply op y x).bind fun z => some (push stack z)
  | .num n => some (push stack n)

/-- `evaluate_postfix`, 227-263. -/
def evaluatePostfix (input : Tree Tok) : Option Int :=
  (treeFoldSeq .left (fun tok (r : Option (Lst Int)) => r.bind (evalStep tok)) (fun _ s => s) (fun n _ r => r.map (lcell n)) input (some .nil)).bind fun stack =>
  (pop stack).bind fun (x, stack) => if isEmpty stack then some x else none

end Adapton.Arith
