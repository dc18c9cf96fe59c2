import Verif.Names.Model
import Verif.Reflect.Debug
/-
The concise strings of names, paths and locations: /repo/src/engine.rs:89-124 and 441-452.
-/
namespace Adapton
open Reflect (RLoc printInt)

/-- What is written for `NameSym::Unit`, engine.rs:443. -/
def triangle : Char := '▲'

/-- What is written for `NameSym::Hash64`, engine.rs:444. -/
def hash64Str : List Char := "(Hash64)".toList

/-- `write_namesym`, engine.rs:441-452: the characters written.  `{}` of a string is the string itself, of integers their digits. -/
def writeNamesym : NameSym → List Char
  | .unit => [triangle]
  | .hash64 => hash64Str
  | .str s => s.toList
  | .usize n => Nat.toDigits 10 n
  | .isize i => printInt i
  | .pair a b => writeNamesym a ++ '-' :: writeNamesym b
  | .forkL a => writeNamesym a ++ ['-', 'l']
  | .forkR a => writeNamesym a ++ ['-', 'r']

/-- `string_of_name` with `write_name`, engine.rs:90-92, 104-106. -/
def stringOfName (n : Name) : List Char := writeNamesym n.sym

/-- `string_of_path` with `write_path`, engine.rs:94-96, 110-116. -/
def stringOfPath (p : List Name) : List Char := '_' :: '_' :: p.flatMap fun n => stringOfName n ++ ['_', '_']

/-- `string_of_loc` with `write_loc`, engine.rs:98-100, 120-124. -/
def stringOfLoc (l : RLoc) : List Char := stringOfPath l.path ++ '_' :: stringOfName l.name

end Adapton
