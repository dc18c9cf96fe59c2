import Verif.Catalog.BitString
import Verif.Collections.Model
/-
Tries: /repo/src/catalog/trie.rs.  Articulations by their contents, as in Verif/Collections/Model.lean.
`mfn` and `root_mfn` (143-217) are commented out in the source, so `extend` cannot insert anything (it panics).
-/
namespace Adapton.TrieM
open Adapton.Bits Adapton.Coll

/-- `Trie<X>` with `Meta`, trie.rs:17-32. -/
inductive Trie (X : Type) where
  | nil (bs : BS)
  | leaf (bs : BS) (x : X)
  | bin (bs : BS) (l r : Trie X)
  | root (minDepth : Int) (t : Trie X)
  | name (n : Name) (t : Trie X)
  | art (t : Trie X)

variable {X R : Type}

/-- `Trie::empty`, 242-260. -/
def empty (H : NameHash) (minDepth : Int) : Trie X :=
  let min := if minDepth ≤ maxLen then minDepth else maxLen
  let nm := nameOfStr H "empty"
  let (nm1, nm2) := nameFork H nm
  let mtbs : BS := ⟨0, 0⟩
  let nilArt := Trie.nil mtbs
  let rootArt := Trie.root min (.name nm2 (.art nilArt))
  .name nm1 (.art rootArt)

/-- `Trie::extend`, 266-271: `panic!("todo")`. -/
def extend (_nm : Name) (_t : Trie X) (_elt : X) : Option (Trie X) := none

/-- `Trie::singleton`, 262-264. -/
def singleton (H : NameHash) (minDepth : Int) (nm : Name) (elt : X) : Option (Trie X) := extend nm (empty H minDepth) elt

/-- `Trie::find`, 301-312.  `i >> 1` on `i64` rounds down. -/
def find [DecidableEq X] : Trie X → X → Int → Option X
  | .nil _, _, _ => none
  | .leaf _ x, elt, _ => if elt = x then some x else none
  | .bin _ l r, elt, i => if i.tmod 2 = 0 then find l elt (i / 2) else find r elt (i / 2)
  | .root _ t, elt, i => find t elt i
  | .name _ t, elt, i => find t elt i
  | .art t, elt, i => find t elt i

/-- `Trie::is_empty`, 314-321. -/
def isEmpty : Trie X → Bool
  | .nil _ => true
  | .leaf _ _ => false
  | .bin _ _ _ => false
  | .root _ t => isEmpty t
  | .name _ t => isEmpty t
  | .art t => isEmpty t

/-- `suffix`, 324-326. -/
def suffix (bs : BS) (k : Int) : Bool := decide (iand bs.value k = bs.value)

/-- `Trie::split_atomic`, 323-344; `hash e` is `hasher.finish() as i64`. -/
def splitAtomic (hash : X → Int) (t : Trie X) : Option (Trie X) :=
  match t with
  | .nil bs => some (.nil bs)
  | .bin bs l r => some (.bin bs l r)
  | .leaf bs e => do
    let bs0 ← prepend 0 bs
    let bs1 ← prepend 1 bs
    if suffix bs1 (hash e) then some (.bin bs (.nil bs0) (.leaf bs1 e)) else some (.bin bs (.leaf bs0 e) (.nil bs1))
  | _ => none

/-- `SetIntro::add`, 445-447. -/
def setAdd (set : Trie X) (elt : X) : Option (Trie X) := extend nameUnit set elt

/-- `SetElim::mem`, 451-458. -/
def mem [DecidableEq X] (hash : X → Int) (set : Trie X) (elt : X) : Bool :=
  match find set elt (hash elt) with
  | some _ => true
  | none => false

/-- `SetElim::fold` (460-472) and `trie_fold` (476-487), which differ in memoisation only. -/
def fold (f : X → R → R) : Trie X → R → R
  | .nil _, arg => arg
  | .leaf _ x, arg => f x arg
  | .bin _ l r, arg => fold f r (fold f l arg)
  | .root _ t, arg => fold f t arg
  | .name _ t, arg => fold f t arg
  | .art t, arg => fold f t arg

/-- `trie_of_list`, 489-497; `none`: a panic. -/
def trieOfList (H : NameHash) (list : Lst X) : Option (Trie X) :=
  listFold (fun x acc => acc.bind (fun t => extend nameUnit t x)) list (some (empty H 1))

end Adapton.TrieM
