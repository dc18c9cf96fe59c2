import Verif.Collections.Model
/-
What a list or a tree stands for: its sequence of elements and names, articulations aside.
-/
namespace Adapton.Coll
variable {X : Type}

/-- The elements and names of a list, in order. -/
def Lst.items : Lst X → List (NameElse X)
  | .nil => []
  | .cons x l => .elm x :: l.items
  | .name n l => .name n :: l.items
  | .art l => l.items

/-- The elements and names of a tree, from left to right; the name of a node stands between its subtrees. -/
def Tree.items : Tree X → List (NameElse X)
  | .nil => []
  | .leaf x => [.elm x]
  | .bin _ l r => l.items ++ r.items
  | .name n _ l r => l.items ++ .name n :: r.items
  | .art t => t.items

/-- The elements among elements and names. -/
def elmsOf : List (NameElse X) → List X
  | [] => []
  | .elm x :: l => x :: elmsOf l
  | .name _ :: l => elmsOf l

/-- The names among elements and names. -/
def namesOf : List (NameElse X) → List Name
  | [] => []
  | .elm _ :: l => namesOf l
  | .name n :: l => n :: namesOf l

/-- The elements of a list, in order. -/
def Lst.elems (l : Lst X) : List X := elmsOf l.items
/-- The leaves of a tree, from left to right. -/
def Tree.leaves (t : Tree X) : List X := elmsOf t.items

/-- `s` in ascending order: whatever stands before is at most what stands after. -/
def Ascending (le : X → X → Bool) (s : List X) : Prop := s.Pairwise (fun a b => le a b = true)

/-- A total order, as `Ord` demands. -/
structure TotalOrder (le : X → X → Bool) : Prop where
  total : ∀ a b, le a b = true ∨ le b a = true
  trans : ∀ a b c, le a b = true → le b c = true → le a c = true

end Adapton.Coll
