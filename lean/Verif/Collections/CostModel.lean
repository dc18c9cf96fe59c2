import Verif.Collections.Model
/-
The functions `list_merge` and `mergesort_list_of_tree*` once more, with the number of comparisons of elements that they make.  Thunks are evaluated when they are first forced and at most once (C66, C69),
so an articulation of a list is modelled by its content together with the number of comparisons made when it is first forced.
Source: /repo/src/catalog/collections.rs; line numbers refer to that file.
-/
set_option linter.unusedVariables false
namespace Adapton.Coll
variable {X : Type} (H : NameHash)

/-- `List<X>`, 1082-1089 (without `Tree`, see Collections/Model.lean); an articulation has what it costs to force it, and what is in it. -/
inductive CL (X : Type) where
  | nil
  | cons (x : X) (l : CL X)
  | name (n : Name) (l : CL X)
  | art (c : Nat) (l : CL X)

namespace CL
/-- The list, without costs. -/
def erase : CL X → Lst X
  | nil => .nil
  | cons x l => .cons x l.erase
  | name n l => .name n l.erase
  | art _ l => .art l.erase
/-- What is matched on by `ListElim::elim_arg`, 1140-1163: leading articulations are forced, -/
def strip : CL X → CL X
  | art _ l => l.strip
  | l => l
/-- at this cost. -/
def vcost : CL X → Nat
  | art c l => c + l.vcost
  | _ => 0
def size : CL X → Nat
  | nil => 1
  | cons _ l => l.size + 1
  | name _ l => l.size + 1
  | art _ l => l.size + 1
theorem strip_size (l : CL X) : l.strip.size ≤ l.size := by
  induction l with
  | art a l ih => simp only [strip, size]; omega
  | _ => exact Nat.le_refl _
theorem strip_cons {l : CL X} {x : X} {t : CL X} (h : l.strip = .cons x t) : t.size < l.size := by
  have := l.strip_size; rw [h] at this; simp only [size] at this; omega
theorem strip_name {l : CL X} {n : Name} {t : CL X} (h : l.strip = .name n t) : t.size < l.size := by
  have := l.strip_size; rw [h] at this; simp only [size] at this; omega
theorem strip_art {l : CL X} {a : Nat} {t : CL X} : l.strip ≠ .art a t := by
  induction l with
  | art b l ih => exact ih
  | _ => exact fun h => by cases h
end CL

/-- `list_name_op`, 131-136. -/
def clNameOp (n : Option Name) (l : CL X) : CL X :=
  match n with
  | none => l
  | some n => .name n l

/-- `list_merge`, 895-957: what it returns, and the comparisons it makes before it returns.  The rest of a merge in a thunk (917, 939) is not run, and has its cost in the articulation. -/
def cmerge (le : X → X → Bool) (n1 : Option Name) (l1 : CL X) (n2 : Option Name) (l2 : CL X) : CL X × Nat :=
  match hv1 : l1.strip with
  | .nil => (clNameOp n2 l2, l1.vcost)
  | .cons h1 t1 =>
    match hv2 : l2.strip with
    | .nil => (clNameOp n1 (.cons h1 t1), l1.vcost + l2.vcost)
    | .cons h2 t2 =>
      if le h1 h2 then
        let r := cmerge le none t1 n2 (.cons h2 t2)
        match n1 with
        | none => (.cons h1 r.1, l1.vcost + l2.vcost + 1 + r.2)
        | some n1 => (.name (nameFork H n1).2 (.cons h1 (.art r.2 r.1)), l1.vcost + l2.vcost + 1)
      else
        let r := cmerge le n1 (.cons h1 t1) none t2
        match n2 with
        | none => (.cons h2 r.1, l1.vcost + l2.vcost + 1 + r.2)
        | some n2 => (.name (nameFork H n2).2 (.cons h2 (.art r.2 r.1)), l1.vcost + l2.vcost + 1)
    | .name m2 t2 =>
      let r := cmerge le n1 (.cons h1 t1) (some m2) t2
      (r.1, l1.vcost + l2.vcost + r.2)
    | .art _ _ => (.nil, 0)
  | .name m1 t1 =>
    let r := cmerge le (some m1) t1 n2 l2
    (r.1, l1.vcost + r.2)
  | .art _ _ => (.nil, 0)
termination_by l1.size + l2.size
decreasing_by
  all_goals try simp only [CL.size]
  · have := CL.strip_cons hv1; have := CL.strip_cons hv2; omega
  · have := CL.strip_cons hv1; have := CL.strip_cons hv2; omega
  · have := CL.strip_cons hv1; have := CL.strip_name hv2; omega
  · have := CL.strip_name hv1; omega

/-- A merge of two results: the comparisons of both, and those of the merge. -/
def cjoin (le : X → X → Bool) (n1 : Option Name) (l : CL X × Nat) (n2 : Option Name) (r : CL X × Nat) : CL X × Nat :=
  let m := cmerge H le n1 l.1 n2 r.1
  (m.1, l.2 + r.2 + m.2)

/-- `mergesort_list_of_tree`, 966-982: what it returns, and the comparisons it makes before it returns. -/
def csort1 (le : X → X → Bool) (tree : Tree X) : CL X × Nat :=
  treeFoldUp (.nil, 0) (fun x => (.cons x .nil, 0)) (fun _ l r => cjoin H le none l none r)
    (fun n _ l r => let (n1, n2) := nameFork H n; cjoin H le (some n1) l (some n2) r) tree

/-- `mergesort_list_of_tree2`, 990-1005. -/
def csort2 (le : X → X → Bool) (tree : Tree X) (nm : Option Name) : CL X × Nat :=
  treeFoldUpNmDn (fun _ => (.nil, 0)) (fun m x => (clNameOp m (.cons x .nil), 0))
    (fun _ _ l r => cjoin H le none l none r)
    (fun _ n _ l r => cjoin H le none l (some n) r) tree nm

/-- `mergesort_list_of_tree3`, 1013-1028. -/
def csort3 (le : X → X → Bool) (tree : Tree X) (nm : Option Name) : CL X × Nat :=
  treeFoldUpNmDn (fun _ => (.nil, 0)) (fun m x => (clNameOp m (.cons x .nil), 0))
    (fun _ _ l r => cjoin H le none l none r)
    (fun _ _ _ l r => cjoin H le none l none r) tree nm

/-- The comparisons made when the first `k` elements of a list are demanded, one after the other, as `vec_of_list`, 858-878, does. -/
def demandCost : Nat → CL X → Nat
  | 0, _ => 0
  | _ + 1, .nil => 0
  | k + 1, .cons _ t => demandCost k t
  | k + 1, .name _ t => demandCost (k + 1) t
  | k + 1, .art c t => c + demandCost (k + 1) t

/-- The comparisons made by a sort of which the first `k` elements are demanded. -/
def sortCost (s : CL X × Nat) (k : Nat) : Nat := s.2 + demandCost k s.1

end Adapton.Coll
