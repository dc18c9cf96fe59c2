import Verif.Reflect.ParseVal
/-
What Rust's `Debug` prints for the values that reach `parse_val`, and what reflecting such a value should give.

`D` is the class of Rust values the documentation of `parse_val` (/repo/src/parse_val.rs:43-59) speaks of: numbers, strings,
tuples, vectors, values of `enum` and `struct` types that derive `Debug`, first-class names and articulations.
-/
namespace Adapton.Reflect

/-- A Rust value, as far as its `Debug` text goes.
* `nat`, `int`: unsigned and signed machine integers
* `constr c ds`: enum variant or tuple struct `c` with arguments `ds` (no argument: a unit variant)
* `struct c fs`: struct or struct variant with named fields
* `name n`: an `engine::Name`; `art l`: an `engine::Art` that is a location of the DCG engine -/
inductive D where
  | nat (n : Nat)
  | int (i : Int)
  | str (s : List Char)
  | tuple (ds : List D)
  | vec (ds : List D)
  | constr (c : List Char) (ds : List D)
  | struct (c : List Char) (fs : List (List Char × D))
  | name (n : Name)
  | art (l : Loc)

/-- Printing of a character inside a string (`str`'s `Debug`, i.e. `char::escape_debug` without escaping the single quote): the
common escapes, the printable characters as they are, `\u{..}` for the others.  Which characters outside ASCII count as printable is
the parameter `prn`. -/
def escChar (prn : Char → Bool) (c : Char) : List Char :=
  if c = '"' then ['\\', '"']
  else if c = '\\' then ['\\', '\\']
  else if c = '\n' then ['\\', 'n']
  else if c = '\t' then ['\\', 't']
  else if c = '\r' then ['\\', 'r']
  else if c = '\x00' then ['\\', '0']
  else if (32 ≤ c.toNat ∧ c.toNat < 127) ∨ (128 ≤ c.toNat ∧ prn c = true) then [c]
  else ['\\', 'u', '{'] ++ Nat.toDigits 16 c.toNat ++ ['}']

/-- The body of a printed string. -/
def esc (prn : Char → Bool) (s : List Char) : List Char := s.flatMap (escChar prn)

/-- `Debug` of a string. -/
def printStr (prn : Char → Bool) (s : List Char) : List Char := '"' :: esc prn s ++ ['"']

/-- `Debug` of integers. -/
def printInt (i : Int) : List Char := if 0 ≤ i then Nat.toDigits 10 i.toNat else '-' :: Nat.toDigits 10 (-i).toNat

/-- Derived `Debug` of `NameSym`, engine.rs:429-439; it is the `Debug` of `Name`, engine.rs:301-303. -/
def printSym (prn : Char → Bool) : NameSym → List Char
  | .unit => "Unit".toList
  | .hash64 => "Hash64".toList
  | .str s => "String".toList ++ '(' :: printStr prn s.toList ++ [')']
  | .usize n => "Usize".toList ++ '(' :: Nat.toDigits 10 n ++ [')']
  | .isize i => "Isize".toList ++ '(' :: printInt i ++ [')']
  | .pair a b => "Pair".toList ++ '(' :: printSym prn a ++ ',' :: ' ' :: printSym prn b ++ [')']
  | .forkL a => "ForkL".toList ++ '(' :: printSym prn a ++ [')']
  | .forkR a => "ForkR".toList ++ '(' :: printSym prn a ++ [')']

/-- `Debug` of `Path`, engine.rs:473-480. -/
def printPath (prn : Char → Bool) : Path → List Char
  | .empty => []
  | .child p n => printPath prn p ++ ',' :: printSym prn n.sym

/-- `Debug` of `ArtId`, engine.rs:348-355. -/
def printId (prn : Char → Bool) : ArtId → List Char
  | .structural h => Nat.toDigits 10 h.toNat
  | .nominal n => printSym prn n.sym

/-- `Debug` of `Art`: derived (engine.rs:2108-2111), then that of `EnumArt` (2146-2154), then that of `Loc` (317-322). -/
def printArt (prn : Char → Bool) (l : Loc) : List Char :=
  "Art { art: Loc { path:[".toList ++ printPath prn l.path ++ "], id:".toList ++ printId prn l.id ++ " } }".toList

mutual
/-- Derived `Debug`. -/
def print (prn : Char → Bool) : D → List Char
  | .nat n => Nat.toDigits 10 n
  | .int i => printInt i
  | .str s => printStr prn s
  | .tuple [d] => '(' :: print prn d ++ [',', ')']
  | .tuple ds => '(' :: printSeq prn ds ++ [')']
  | .vec ds => '[' :: printSeq prn ds ++ [']']
  | .constr c [] => c
  | .constr c ds => c ++ '(' :: printSeq prn ds ++ [')']
  | .struct c [] => c
  | .struct c fs => c ++ " { ".toList ++ printFields prn fs ++ " }".toList
  | .name n => printSym prn n.sym
  | .art l => printArt prn l
/-- Values separated by `", "`. -/
def printSeq (prn : Char → Bool) : List D → List Char
  | [] => []
  | [d] => print prn d
  | d :: ds => print prn d ++ ',' :: ' ' :: printSeq prn ds
/-- Fields `f: v` separated by `", "`. -/
def printFields (prn : Char → Bool) : List (List Char × D) → List Char
  | [] => []
  | [(f, d)] => f ++ ':' :: ' ' :: print prn d
  | (f, d) :: fs => f ++ ':' :: ' ' :: print prn d ++ ',' :: ' ' :: printFields prn fs
end

/-- `parse_val(&v)`, parse_val.rs:60-66: print, take the UTF-8 bytes, lex and parse. -/
def parseVal (H : NameHash) (prn : Char → Bool) (d : D) : PRes Val := parseBytes H (utf8 (print prn d))

/-! ## Specification -/

/-- ASCII identifiers. -/
def IdentOk : List Char → Prop
  | [] => False
  | c :: cs => isId0 c = true ∧ ∀ x ∈ cs, isId x = true

/-- Characters that `Debug` prints as themselves and that are ASCII. -/
def Plain (c : Char) : Prop := 32 ≤ c.toNat ∧ c.toNat < 127 ∧ c ≠ '"' ∧ c ≠ '\\'

/-- Names whose reflection is right: no `Hash64` and no `Isize` symbol; plain strings; numbers that fit. -/
def SymOk : NameSym → Prop
  | .unit => True
  | .hash64 => False
  | .str s => ∀ c ∈ s.toList, Plain c
  | .usize n => n < 2 ^ 64
  | .isize _ => False
  | .pair a b => SymOk a ∧ SymOk b
  | .forkL a => SymOk a
  | .forkR a => SymOk a

/-- The names that the functions of the API make (engine.rs:2246-2326) with a given symbol, except `name_of_hash64`: the stored hash is
computed from the symbol. -/
inductive Built (H : NameHash) : Name → Prop where
  | unit : Built H nameUnit
  | str (s) : Built H (nameOfString H s)
  | usize (n) : Built H (nameOfUsize H n)
  | isize (i) : Built H (nameOfIsize H i)
  | pair {a b} : Built H a → Built H b → Built H (namePair H a b)
  | forkL {a} : Built H a → Built H (nameFork H a).1
  | forkR {a} : Built H a → Built H (nameFork H a).2

/-- A name made by the API whose symbol `parse_val` can read. -/
def NameOk (H : NameHash) (n : Name) : Prop := Built H n ∧ SymOk n.sym

def PathOk (H : NameHash) : Path → Prop
  | .empty => True
  | .child p n => PathOk H p ∧ NameOk H n

/-- Locations with a nominal identity (`cell`, nominal thunks). -/
def LocOk (H : NameHash) : Loc → Prop
  | ⟨p, .nominal n⟩ => PathOk H p ∧ NameOk H n
  | ⟨_, .structural _⟩ => False

/-- The constructor names that `parse_val` takes for name symbols. -/
def reserved : List (List Char) :=
  ["Unit".toList, "Hash64".toList, "String".toList, "Usize".toList, "Isize".toList, "Pair".toList, "ForkL".toList, "ForkR".toList]

mutual
/-- The values that `parse_val` reflects faithfully. -/
def Ok (H : NameHash) : D → Prop
  | .nat n => n < 2 ^ 64
  | .int i => -2 ^ 63 ≤ i ∧ i < 2 ^ 63
  | .str s => ∀ c ∈ s, Plain c
  | .tuple ds => OkL H ds
  | .vec ds => OkL H ds
  | .constr c ds => IdentOk c ∧ (ds ≠ [] → c ∉ reserved) ∧ OkL H ds
  | .struct c fs => IdentOk c ∧ fs ≠ [] ∧ (c = "Art".toList → ∀ gs, fs ≠ [("art".toList, .struct "Loc".toList gs)]) ∧ OkF H fs
  | .name n => NameOk H n
  | .art l => LocOk H l
def OkL (H : NameHash) : List D → Prop
  | [] => True
  | d :: ds => Ok H d ∧ OkL H ds
def OkF (H : NameHash) : List (List Char × D) → Prop
  | [] => True
  | (f, d) :: fs => IdentOk f ∧ Ok H d ∧ OkF H fs
end

/-- The reflection of a path, engine.rs:460-472: the names from the outermost namespace in. -/
def reflPath : Path → List Name
  | .empty => []
  | .child p n => reflPath p ++ [n]

/-- The reflection of a location, engine.rs:328-338. -/
def reflLoc (l : Loc) : RLoc :=
  ⟨reflPath l.path, match l.id with | .structural h => nameOfHash64 h | .nominal n => n⟩

mutual
/-- What the reflection of a value should be: the same tree.  A nonnegative number is a `Nat`, whatever its Rust type; the unit
name is a constructor without arguments, every other name is a `Name`. -/
def refl (H : NameHash) : D → Val
  | .nat n => .const (.nat n)
  | .int i => if 0 ≤ i then .const (.nat i.toNat) else .const (.num i)
  | .str s => .const (.str s)
  | .tuple ds => .tuple (reflL H ds)
  | .vec ds => .vec (reflL H ds)
  | .constr c ds => .constr (nameOfChars H c) (reflL H ds)
  | .struct c fs => .struct (nameOfChars H c) (reflF H fs)
  | .name n => if n.sym = .unit then .constr (nameOfStr H "Unit") [] else .name n
  | .art l => .art (reflLoc l)
def reflL (H : NameHash) : List D → List Val
  | [] => []
  | d :: ds => refl H d :: reflL H ds
def reflF (H : NameHash) : List (List Char × D) → List (Name × Val)
  | [] => []
  | (f, d) :: fs => (nameOfChars H f, refl H d) :: reflF H fs
end

end Adapton.Reflect
