import Verif.Names.Model
/-
`parse_val`: parsing the `Debug` text of a value into a reflected value: /repo/src/parse_val.rs, /repo/src/reflect.rs.

Line numbers without a file name refer to /repo/src/parse_val.rs.  A panic is `PRes.panic`.  The parser is general recursion in
Rust; here it is recursion on fuel, `PRes.fuel` is "out of fuel", and `Props/Reflection.lean` proves that the fuel given by
`parseVal` always suffices.
-/
namespace Adapton.Reflect

/-- `reflect::Const`, reflect.rs:98-106. -/
inductive Const where
  | num (i : Int)
  | nat (n : Nat)
  | str (s : List Char)
deriving DecidableEq

/-- `reflect::Loc`, reflect.rs:134-140; `Path` is a vector of names, reflect.rs:143. -/
structure RLoc where
  path : List Name
  name : Name
deriving DecidableEq

/-- `reflect::Val`, reflect.rs:67-95.  `ValTODO` is left out and so is the content of `Art`: `parse_val` makes only `Unknown`
(350).  `Rc` is transparent. -/
inductive Val where
  | constr (n : Name) (vs : List Val)
  | tuple (vs : List Val)
  | vec (vs : List Val)
  | struct (n : Name) (fs : List (Name × Val))
  | art (l : RLoc)
  | name (n : Name)
  | const (c : Const)

/-- `BalTok`, 16-21. -/
inductive Bal where
  | paren | bracket | brace
deriving DecidableEq

/-- `Tok`, 26-40. -/
inductive Tok where
  | left (b : Bal)
  | right (b : Bal)
  | const (c : Const)
  | ident (s : List Char)
  | colon
  | comma
deriving DecidableEq

/-- `c as char` for a `u8` (76): the character with that code point (Latin-1). -/
def chr (b : UInt8) : Char := Char.ofNat b.toNat

/-- `c >= '0' && c <= '9'`, 105, 113, 151. -/
def isDig (c : Char) : Bool := '0' ≤ c && c ≤ '9'
/-- The first character of an identifier, 137-139. -/
def isId0 (c : Char) : Bool := ('a' ≤ c && c ≤ 'z') || ('A' ≤ c && c ≤ 'Z') || c == '_'
/-- A later character of an identifier, 147-150. -/
def isId (c : Char) : Bool := ('a' ≤ c && c ≤ 'z') || ('A' ≤ c && c ≤ 'Z') || ('0' ≤ c && c ≤ '9') || c == '_'

/-- The inner loop for strings, 88-100: everything up to the next double quote, which is dropped; also stops at the end. -/
def lexStr : List UInt8 → List Char × List UInt8
  | [] => ([], [])
  | b :: bs => if chr b = '"' then ([], bs) else let r := lexStr bs; (chr b :: r.1, r.2)

/-- The inner loops for digits, 107-120, and for identifiers, 142-158: the longest prefix of characters satisfying `p`. -/
def lexWhile (p : Char → Bool) : List UInt8 → List Char × List UInt8
  | [] => ([], [])
  | b :: bs => if p (chr b) then let r := lexWhile p bs; (chr b :: r.1, r.2) else ([], b :: bs)

theorem lexStr_le : ∀ bs : List UInt8, (lexStr bs).2.length ≤ bs.length
  | [] => Nat.le_refl _
  | b :: bs => by
    simp only [lexStr]
    split
    · exact Nat.le_succ _
    · exact Nat.le_succ_of_le (lexStr_le bs)

theorem lexWhile_le (p : Char → Bool) : ∀ bs : List UInt8, (lexWhile p bs).2.length ≤ bs.length
  | [] => Nat.le_refl _
  | b :: bs => by
    simp only [lexWhile]
    split
    · exact Nat.le_succ_of_le (lexWhile_le p bs)
    · exact Nat.le_refl _

/-- `usize::from_str_radix(s, 10).unwrap()`, 129 (64-bit target), for a nonempty string of digits: fails on overflow. -/
def usizeOf (ds : List Char) : Option Nat :=
  let n := Nat.ofDigitChars 10 ds 0
  if n < 2 ^ 64 then some n else none

/-- `isize::from_str_radix(s, 10).unwrap()`, 124, for `'-'` followed by digits: fails without digits and on overflow. -/
def isizeOf (ds : List Char) : Option Int :=
  if ds = [] then none
  else
    let n := Nat.ofDigitChars 10 ds 0
    if n ≤ 2 ^ 63 then some (-(n : Int)) else none

/-- The token for the characters `c` that stand for themselves, 78-85; the outer option is "c is such a character". -/
def punct (c : Char) : Option (Option Tok) :=
  if c = ' ' then some none
  else if c = ':' then some (some .colon)
  else if c = ',' then some (some .comma)
  else if c = '{' then some (some (.left .brace))
  else if c = '[' then some (some (.left .bracket))
  else if c = '(' then some (some (.left .paren))
  else if c = '}' then some (some (.right .brace))
  else if c = ']' then some (some (.right .bracket))
  else if c = ')' then some (some (.right .paren))
  else none

/-- `lex`, 69-163; `none` is a panic (the two `unwrap`s).  Characters that start no token are skipped: the chain of tests has no
final `else`. -/
def lex : List UInt8 → Option (List Tok)
  | [] => some []
  | b :: bs =>
    let c := chr b
    match punct c with
    | some none => lex bs
    | some (some t) => (lex bs).map (t :: ·)
    | none =>
      if c = '"' then
        (lex (lexStr bs).2).map (.const (.str (lexStr bs).1) :: ·)
      else if c = '-' then
        match isizeOf (lexWhile isDig bs).1 with
        | none => none
        | some i => (lex (lexWhile isDig bs).2).map (.const (.num i) :: ·)
      else if isDig c then
        match usizeOf (c :: (lexWhile isDig bs).1) with
        | none => none
        | some n => (lex (lexWhile isDig bs).2).map (.const (.nat n) :: ·)
      else if isId0 c then
        (lex (lexWhile isId bs).2).map (.ident (c :: (lexWhile isId bs).1) :: ·)
      else lex bs
  termination_by bs => bs.length
  decreasing_by
    all_goals simp only [List.length_cons]
    all_goals first
      | exact Nat.lt_succ_self _
      | exact Nat.lt_succ_of_le (lexStr_le _)
      | exact Nat.lt_succ_of_le (lexWhile_le _ _)

/-- Outcome of the parser. -/
inductive PRes (α : Type) where
  | ok (a : α)
  | panic
  | fuel

def PRes.bind {α β : Type} : PRes α → (α → PRes β) → PRes β
  | .ok a, f => f a
  | .panic, _ => .panic
  | .fuel, _ => .fuel

instance : Monad PRes where
  pure := .ok
  bind := PRes.bind

variable (H : NameHash)

/-- `name_of_string(i)` for the characters of `i`; `name_of_str` makes the same name (engine.rs:2284-2295). -/
def nameOfChars (s : List Char) : Name := nameOfString H (String.ofList s)

/-- `name_of_val`, 238-283.  `cons_args[k]` panics when out of range. -/
def nameOfVal : Val → PRes Name
  | .constr c args =>
    if c = nameOfStr H "Unit" then .ok nameUnit
    else if c = nameOfStr H "Hash64" then .ok (nameOfHash64 0)
    else if c = nameOfStr H "String" then
      match args with
      | .const (.str s) :: _ => .ok (nameOfChars H s)
      | _ => .panic
    else if c = nameOfStr H "Usize" then
      match args with
      | .const (.nat n) :: _ => .ok (nameOfUsize H n)
      | _ => .panic
    else if c = nameOfStr H "Isize" then .panic
    else if c = nameOfStr H "Pair" then
      match args with
      | a :: b :: _ => (nameOfVal a).bind fun n1 => (nameOfVal b).bind fun n2 => .ok (namePair H n1 n2)
      | [a] => (nameOfVal a).bind fun _ => .panic
      | [] => .panic
    else if c = nameOfStr H "ForkL" then
      match args with
      | a :: _ => (nameOfVal a).bind fun n => .ok (nameFork H n).1
      | [] => .panic
    else if c = nameOfStr H "ForkR" then
      match args with
      | a :: _ => (nameOfVal a).bind fun n => .ok (nameFork H n).2
      | [] => .panic
    else .panic
  | .name n => .ok n
  | _ => .panic

/-- `name_option_of_val`, 285-348. -/
def nameOptionOfVal : Val → PRes (Option Name)
  | .constr c args =>
    if c = nameOfStr H "Unit" then .ok (some nameUnit)
    else if c = nameOfStr H "Hash64" then .ok (some (nameOfHash64 0))
    else if c = nameOfStr H "String" then
      match args with
      | .const (.str s) :: _ => .ok (some (nameOfChars H s))
      | _ => .ok none
    else if c = nameOfStr H "Usize" then
      match args with
      | .const (.nat n) :: _ => .ok (some (nameOfUsize H n))
      | _ => .ok none
    else if c = nameOfStr H "Isize" then .panic
    else if c = nameOfStr H "Pair" then
      match args with
      | a :: b :: _ =>
        (nameOptionOfVal a).bind fun n1 => (nameOptionOfVal b).bind fun n2 =>
          match n1, n2 with
          | some n1, some n2 => .ok (some (namePair H n1 n2))
          | _, _ => .ok none
      | _ => .ok none
    else if c = nameOfStr H "ForkL" then
      match args with
      | a :: _ => (nameOptionOfVal a).bind fun
          | some n => .ok (some (nameFork H n).1)
          | none => .ok none
      | [] => .ok none
    else if c = nameOfStr H "ForkR" then
      match args with
      | a :: _ => (nameOptionOfVal a).bind fun
          | some n => .ok (some (nameFork H n).2)
          | none => .ok none
      | [] => .ok none
    else .ok none
  | .name n => .ok (some n)
  | _ => .ok none

/-- The `map(name_of_val).collect()` of `path_of_val`, 233. -/
def namesOfVals : List Val → PRes (List Name)
  | [] => .ok []
  | v :: vs => (nameOfVal H v).bind fun n => (namesOfVals vs).bind fun ns => .ok (n :: ns)

/-- `path_of_val`, 231-236. -/
def pathOfVal : Val → PRes (List Name)
  | .vec vs => namesOfVals H vs
  | _ => .panic

/-- `parse_art_val`, 356-389. -/
def parseArtVal (i : List Char) (fields : List (Name × Val)) : PRes (Option Val) :=
  if i = "Art".toList then
    match fields with
    | [(nf, vf)] =>
      if nf = nameOfStr H "art" then
        match vf with
        | .struct j [(f0, v0), (f1, v1)] =>
          if j = nameOfStr H "Loc" ∧ f0 = nameOfStr H "path" ∧ f1 = nameOfStr H "id" then
            (pathOfVal H v0).bind fun path => (nameOfVal H v1).bind fun name => .ok (some (.art ⟨path, name⟩))
          else .ok none
        | _ => .ok none
      else .ok none
    | _ => .ok none
  else .ok none

mutual
/-- `parse_val_rec`, 392-445.  The token vector is a stack with its top at the end in Rust and a list here; what is pushed back
there stays there here. -/
def parseRec : Nat → List Tok → PRes (Val × List Tok)
  | 0, _ => .fuel
  | _ + 1, [] => .panic
  | _ + 1, .right _ :: _ => .panic
  | _ + 1, .comma :: _ => .panic
  | _ + 1, .colon :: _ => .panic
  | k + 1, .left .bracket :: ts => (parseVals k ts [] (.right .bracket)).bind fun r => .ok (.vec r.1, r.2)
  | k + 1, .left .paren :: ts => (parseVals k ts [] (.right .paren)).bind fun r => .ok (.tuple r.1, r.2)
  | _ + 1, .left .brace :: _ => .panic
  | k + 1, .ident i :: ts =>
    match ts with
    | [] => .ok (.constr (nameOfChars H i) [], [])
    | .left .brace :: ts =>
      (parseFields k ts [] (.right .brace)).bind fun r =>
        (parseArtVal H i r.1).bind fun
          | some a => .ok (a, r.2)
          | none => .ok (.struct (nameOfChars H i) r.1, r.2)
    | .left .paren :: ts =>
      (parseVals k ts [] (.right .paren)).bind fun r =>
        (nameOptionOfVal H (.constr (nameOfChars H i) r.1)).bind fun
          | some n => .ok (.name n, r.2)
          | none => .ok (.constr (nameOfChars H i) r.1, r.2)
    | .comma :: ts => .ok (.constr (nameOfChars H i) [], .comma :: ts)
    | .right b :: ts => .ok (.constr (nameOfChars H i) [], .right b :: ts)
    | _ :: _ => .panic
  | _ + 1, .const c :: ts => .ok (.const c, ts)
/-- `parse_vals`, 192-208. -/
def parseVals : Nat → List Tok → List Val → Tok → PRes (List Val × List Tok)
  | 0, _, _, _ => .fuel
  | _ + 1, [], _, _ => .panic
  | k + 1, t :: ts, vals, bal =>
    if t = bal then .ok (vals, ts)
    else if t = .comma then parseVals k ts vals bal
    else (parseRec k (t :: ts)).bind fun r => parseVals k r.2 (vals ++ [r.1]) bal
/-- `parse_fields`, 167-188, with `expect_tok(toks, Colon)`, 211-219. -/
def parseFields : Nat → List Tok → List (Name × Val) → Tok → PRes (List (Name × Val) × List Tok)
  | 0, _, _, _ => .fuel
  | _ + 1, [], _, _ => .panic
  | k + 1, t :: ts, fields, bal =>
    if t = bal then .ok (fields, ts)
    else if t = .comma then parseFields k ts fields bal
    else match t with
      | .ident i =>
        match ts with
        | .colon :: ts => (parseRec k ts).bind fun r => parseFields k r.2 (fields ++ [(nameOfChars H i, r.1)]) bal
        | _ => .panic
      | _ => .panic
end

/-- `parse_toks`, 221-226. -/
def parseToks (fuel : Nat) (ts : List Tok) : PRes Val :=
  (parseRec H fuel ts).bind fun r => if r.2 = [] then .ok r.1 else .panic

/-- `parse_val`, 60-66, from the bytes of the `Debug` text on. -/
def parseBytes (bs : List UInt8) : PRes Val :=
  match lex bs with
  | none => .panic
  | some ts => parseToks H (2 * ts.length + 2) ts

/-- `s.into_bytes()`, 63: UTF-8. -/
def utf8 (s : List Char) : List UInt8 := s.flatMap String.utf8EncodeChar

end Adapton.Reflect
