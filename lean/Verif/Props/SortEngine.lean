import Verif.Engine.Conv
import Verif.Collections.SortProg
import Verif.Props.SortNames
import Verif.Props.Consistency
/-
C63: sorting on the engine.  `mergesort_list_of_tree` and `vec_of_list`, as programs of the engine, have in the reference semantics the meaning
that the model of Collections/Model.lean gives them; so the engine, after any edits, returns the sorted elements of the current tree.
-/
set_option linter.unusedSectionVars false
set_option linter.unusedVariables false
namespace Adapton.SortProg
open Coll (NameElse Lst Tree)
open Ref (Sig Kind Store Ctx Ext alloc)
variable {X : Type} (H : NameHash) (le : X → X → Bool)

/-! ### Lists and trees with the contents of their articulations -/

/-- A list, with the location and the content of every articulation. -/
inductive AL (X : Type) where
  | nil
  | cons (x : X) (l : AL X)
  | name (n : Name) (l : AL X)
  | art (a : Loc) (l : AL X)

/-- A tree, with the location and the content of every articulation. -/
inductive AT (X : Type) where
  | nil
  | leaf (x : X)
  | bin (lev : Nat) (l r : AT X)
  | name (n : Name) (lev : Nat) (l r : AT X)
  | art (a : Loc) (t : AT X)

/-- The list as a value of the program. -/
def AL.val : AL X → LV X
  | .nil => .nil
  | .cons x l => .cons x l.val
  | .name n l => .name n l.val
  | .art a _ => .art a
/-- The list as the model has it. -/
def AL.erase : AL X → Lst X
  | .nil => .nil
  | .cons x l => .cons x l.erase
  | .name n l => .name n l.erase
  | .art _ l => .art l.erase
/-- The tree as a value of the program. -/
def AT.val : AT X → TV X
  | .nil => .nil
  | .leaf x => .leaf x
  | .bin lev l r => .bin lev l.val r.val
  | .name n lev l r => .name n lev l.val r.val
  | .art a _ => .art a
/-- The tree as the model has it. -/
def AT.erase : AT X → Tree X
  | .nil => .nil
  | .leaf x => .leaf x
  | .bin lev l r => .bin lev l.erase r.erase
  | .name n lev l r => .name n lev l.erase r.erase
  | .art _ t => .art t.erase
def AL.size : AL X → Nat
  | .nil => 1
  | .cons _ l => l.size + 1
  | .name _ l => l.size + 1
  | .art _ l => l.size + 1
/-- Height. -/
def AT.ht : AT X → Nat
  | .nil => 0
  | .leaf _ => 0
  | .bin _ l r => max l.ht r.ht + 1
  | .name _ _ l r => max l.ht r.ht + 1
  | .art _ t => t.ht

/-- Leading articulations removed. -/
def AL.strip : AL X → AL X
  | .art _ l => l.strip
  | l => l
theorem AL.strip_size (l : AL X) : l.strip.size ≤ l.size := by
  induction l with
  | art a l ih => simp only [AL.strip, AL.size]; omega
  | _ => exact Nat.le_refl _
theorem AL.strip_cons {l : AL X} {x : X} {t : AL X} (h : l.strip = .cons x t) : t.size < l.size := by
  have := l.strip_size; rw [h] at this; simp only [AL.size] at this; omega
theorem AL.strip_name {l : AL X} {n : Name} {t : AL X} (h : l.strip = .name n t) : t.size < l.size := by
  have := l.strip_size; rw [h] at this; simp only [AL.size] at this; omega
theorem AL.strip_art {l : AL X} {a : Loc} {t : AL X} : l.strip ≠ .art a t := by
  induction l with
  | art b l ih => exact ih
  | _ => exact fun h => by cases h

/-- The namespace in which the sort runs. -/
def sortNm : Name := ⟨0, .str "sort"⟩
def sortPath : Path := .child .empty sortNm
/-- A location of the sort. -/
def loc (n : Name) : Loc := ⟨sortPath, .nominal n⟩

def nameOp (n : Option Name) (l : AL X) : AL X :=
  match n with
  | none => l
  | some n => .name n l

/-- What `list_merge` returns, and what it allocates when the result is demanded to the end. -/
def amerge (n1 : Option Name) (l1 : AL X) (n2 : Option Name) (l2 : AL X) : AL X × List (Name × CV X) :=
  match hv1 : l1.strip with
  | .nil => (nameOp n2 l2, [])
  | .cons h1 t1 =>
    match hv2 : l2.strip with
    | .nil => (nameOp n1 (.cons h1 t1), [])
    | .cons h2 t2 =>
      if le h1 h2 then
        match n1 with
        | none =>
          let r := amerge none t1 n2 (.cons h2 t2)
          (.cons h1 r.1, r.2)
        | some n1 =>
          let r := amerge none t1 n2 (.cons h2 t2)
          (.name (nameFork H n1).2 (.cons h1 (.art (loc (nameFork H n1).1) r.1)),
            ((nameFork H n1).1, .margs none t1.val n2 (.cons h2 t2.val)) :: r.2)
      else
        match n2 with
        | none =>
          let r := amerge n1 (.cons h1 t1) none t2
          (.cons h2 r.1, r.2)
        | some n2 =>
          let r := amerge n1 (.cons h1 t1) none t2
          (.name (nameFork H n2).2 (.cons h2 (.art (loc (nameFork H n2).1) r.1)),
            ((nameFork H n2).1, .margs n1 (.cons h1 t1.val) none t2.val) :: r.2)
    | .name m2 t2 => amerge n1 (.cons h1 t1) (some m2) t2
    | .art _ _ => (.nil, [])
  | .name m1 t1 => amerge (some m1) t1 n2 l2
  | .art _ _ => (.nil, [])
termination_by l1.size + l2.size
decreasing_by
  all_goals try simp only [AL.size]
  · have := AL.strip_cons hv1; have := AL.strip_cons hv2; omega
  · have := AL.strip_cons hv1; have := AL.strip_cons hv2; omega
  · have := AL.strip_cons hv1; have := AL.strip_cons hv2; omega
  · have := AL.strip_cons hv1; have := AL.strip_cons hv2; omega
  · have := AL.strip_cons hv1; have := AL.strip_name hv2; omega
  · have := AL.strip_name hv1; omega

/-- What `mergesort_list_of_tree` returns, and what it allocates when the result is demanded to the end; the last component is a
rank: a thunk forces only thunks of smaller rank. -/
def asort : AT X → AL X × List (Name × CV X × Nat)
  | .nil => (.nil, [])
  | .leaf x => (.cons x .nil, [])
  | .bin lev l r =>
    let m := amerge H le none (asort l).1 none (asort r).1
    (m.1, (asort l).2 ++ (asort r).2 ++ m.2.map fun p => (p.1, p.2, 2 * (AT.bin lev l r).ht))
  | .name n lev l r =>
    let m := amerge H le (some (nameFork H n).1) (asort l).1 (some (nameFork H n).2) (asort r).1
    (m.1, ((nameFork H n).1, .tree l.val, 2 * l.ht + 1) :: (asort l).2 ++ ((nameFork H n).2, .tree r.val, 2 * r.ht + 1) :: (asort r).2 ++
      m.2.map fun p => (p.1, p.2, 2 * (AT.name n lev l r).ht))
  | .art _ t => asort t

/-! ### The annotated functions and the model -/

theorem erase_view (l : AL X) : (l.strip = .nil ∧ l.erase.view = .nil) ∨
    (∃ x t, l.strip = .cons x t ∧ l.erase.view = .cons x t.erase) ∨ (∃ n t, l.strip = .name n t ∧ l.erase.view = .name n t.erase) := by
  induction l with
  | nil => exact .inl ⟨rfl, rfl⟩
  | cons x l ih => exact .inr (.inl ⟨x, l, rfl, rfl⟩)
  | name n l ih => exact .inr (.inr ⟨n, l, rfl, rfl⟩)
  | art a l ih => exact ih
theorem erase_nil {l : AL X} (h : l.strip = .nil) : l.erase.view = .nil := by
  rcases erase_view l with ⟨_, h2⟩ | ⟨x, t, h1, _⟩ | ⟨x, t, h1, _⟩
  · exact h2
  all_goals rw [h] at h1; cases h1
theorem erase_cons {l t : AL X} {x : X} (h : l.strip = .cons x t) : l.erase.view = .cons x t.erase := by
  rcases erase_view l with ⟨h1, _⟩ | ⟨x, t, h1, h2⟩ | ⟨x, t, h1, _⟩
  · rw [h] at h1; cases h1
  · rw [h] at h1; cases h1; exact h2
  · rw [h] at h1; cases h1
theorem erase_name {l t : AL X} {n : Name} (h : l.strip = .name n t) : l.erase.view = .name n t.erase := by
  rcases erase_view l with ⟨h1, _⟩ | ⟨x, t, h1, _⟩ | ⟨x, t, h1, h2⟩
  · rw [h] at h1; cases h1
  · rw [h] at h1; cases h1
  · rw [h] at h1; cases h1; exact h2

open Coll (listMerge listMergeAllocs listNameOp mergesort1 mergesort1Allocs) in
section
variable {n1 n2 : Option Name} {l1 l2 t1 t2 : Lst X} {h1 h2 : X}
theorem lm_nil (hv : l1.view = .nil) : listMerge H le n1 l1 n2 l2 = listNameOp n2 l2 := by
  rw [listMerge]
  split <;> rename_i h <;> rw [hv] at h <;> cases h
  try rfl
theorem lm_name {m : Name} (hv : l1.view = .name m t1) : listMerge H le n1 l1 n2 l2 = listMerge H le (some m) t1 n2 l2 := by
  rw [listMerge]
  split <;> rename_i h <;> rw [hv] at h <;> cases h
  try rfl
theorem lm_cons (hv : l1.view = .cons h1 t1) : listMerge H le n1 l1 n2 l2 =
    match l2.view with
    | .nil => listNameOp n1 (.cons h1 t1)
    | .cons h2 t2 =>
      if le h1 h2 then
        match n1 with
        | none => .cons h1 (listMerge H le none t1 n2 (.cons h2 t2))
        | some n1 => .name (nameFork H n1).2 (.cons h1 (.art (listMerge H le none t1 n2 (.cons h2 t2))))
      else
        match n2 with
        | none => .cons h2 (listMerge H le n1 (.cons h1 t1) none t2)
        | some n2 => .name (nameFork H n2).2 (.cons h2 (.art (listMerge H le n1 (.cons h1 t1) none t2)))
    | .name m2 t2 => listMerge H le n1 (.cons h1 t1) (some m2) t2 := by
  rw [listMerge]
  split <;> rename_i h <;> rw [hv] at h <;> cases h
  split <;> rename_i h <;> rw [h]
  cases n1 <;> cases n2 <;> rfl
end

theorem nameOp_erase (n : Option Name) (l : AL X) : (nameOp n l).erase = Coll.listNameOp n l.erase := by cases n <;> rfl
theorem nameOp_val (n : Option Name) (l : AL X) : (nameOp n l).val = lvNameOp n l.val := by cases n <;> rfl

/-- The annotated merge is the merge of the model, and allocates at the names of `listMergeAllocs`. -/
theorem amerge_model (n1 : Option Name) (l1 : AL X) (n2 : Option Name) (l2 : AL X) :
    (amerge H le n1 l1 n2 l2).1.erase = Coll.listMerge H le n1 l1.erase n2 l2.erase ∧
    (amerge H le n1 l1 n2 l2).2.map Prod.fst = Coll.listMergeAllocs H le n1 l1.erase n2 l2.erase := by
  fun_induction amerge H le n1 l1 n2 l2 with
  | case1 n1 l1 n2 l2 h =>
    rw [lm_nil H le (erase_nil h), Coll.allocs_nil H (erase_nil h), nameOp_erase]
    exact ⟨rfl, rfl⟩
  | case2 n1 l1 n2 l2 h1 t1 hv1 hv2 =>
    rw [lm_cons H le (erase_cons hv1), Coll.allocs_cons H (erase_cons hv1), erase_nil hv2, nameOp_erase]
    exact ⟨rfl, rfl⟩
  | case3 l1 n2 l2 h1 t1 hv1 h2 t2 hv2 hle r ih =>
    rw [lm_cons H le (erase_cons hv1), Coll.allocs_cons H (erase_cons hv1), erase_cons hv2]
    simp only [hle, if_true]
    exact ⟨congrArg (Lst.cons h1) ih.1, ih.2⟩
  | case4 l1 n2 l2 h1 t1 hv1 h2 t2 hv2 hle n1 r ih =>
    rw [lm_cons H le (erase_cons hv1), Coll.allocs_cons H (erase_cons hv1), erase_cons hv2]
    simp only [hle, if_true]
    exact ⟨congrArg (fun l => Lst.name (nameFork H n1).2 (.cons h1 (.art l))) ih.1, congrArg (List.cons _) ih.2⟩
  | case5 n1 l1 l2 h1 t1 hv1 h2 t2 hv2 hle r ih =>
    rw [lm_cons H le (erase_cons hv1), Coll.allocs_cons H (erase_cons hv1), erase_cons hv2]
    simp only [hle, Bool.false_eq_true, if_false]
    exact ⟨congrArg (Lst.cons h2) ih.1, ih.2⟩
  | case6 n1 l1 l2 h1 t1 hv1 h2 t2 hv2 hle n2 r ih =>
    rw [lm_cons H le (erase_cons hv1), Coll.allocs_cons H (erase_cons hv1), erase_cons hv2]
    simp only [hle, Bool.false_eq_true, if_false]
    exact ⟨congrArg (fun l => Lst.name (nameFork H n2).2 (.cons h2 (.art l))) ih.1, congrArg (List.cons _) ih.2⟩
  | case7 n1 l1 n2 l2 h1 t1 hv1 m2 t2 hv2 ih =>
    rw [lm_cons H le (erase_cons hv1), Coll.allocs_cons H (erase_cons hv1), erase_name hv2]
    exact ih
  | case8 n1 l1 n2 l2 h1 t1 hv1 a t2 hv2 => exact absurd hv2 AL.strip_art
  | case9 n1 l1 n2 l2 m1 t1 hv1 ih =>
    rw [lm_name H le (erase_name hv1), Coll.allocs_name H (erase_name hv1)]
    exact ih
  | case10 n1 l1 n2 l2 a t hv => exact absurd hv AL.strip_art

/-- The annotated sort is the sort of the model, and allocates at the names of `mergesort1Allocs`. -/
theorem asort_model (t : AT X) : (asort H le t).1.erase = Coll.mergesort1 H le t.erase ∧
    (asort H le t).2.map Prod.fst = Coll.mergesort1Allocs H le t.erase := by
  induction t with
  | nil => exact ⟨rfl, rfl⟩
  | leaf x => exact ⟨rfl, rfl⟩
  | art a t ih => exact ih
  | bin lev l r ihl ihr =>
    obtain ⟨m1, m2⟩ := amerge_model H le none (asort H le l).1 none (asort H le r).1
    rw [ihl.1, ihr.1] at m1 m2
    refine ⟨m1, ?_⟩
    simp only [asort, List.map_append, List.map_map]
    rw [ihl.2, ihr.2]
    show _ ++ _ ++ List.map Prod.fst _ = _
    rw [m2]; rfl
  | name n lev l r ihl ihr =>
    obtain ⟨m1, m2⟩ := amerge_model H le (some (nameFork H n).1) (asort H le l).1 (some (nameFork H n).2) (asort H le r).1
    rw [ihl.1, ihr.1] at m1 m2
    refine ⟨m1, ?_⟩
    simp only [asort, List.map_append, List.map_map, List.map_cons]
    rw [ihl.2, ihr.2]
    show _ ++ _ ++ List.map Prod.fst _ = _
    rw [m2]; rfl

/-! ### Convergence -/

/-- `fork` or `fork` of a `fork`. -/
def isFork : NameSym → Bool
  | .forkL _ => true
  | .forkR _ => true
  | _ => false
def isFork2 : NameSym → Bool
  | .forkL s => isFork s
  | .forkR s => isFork s
  | _ => false

/-- The signature: in the namespace of the sort, forks of forks are thunks of merges, other forks are thunks of the recursive calls of the sort, other names
are thunks of the whole program.  If the program is the sort only (`b = false`), everything else is a cell that holds a tree.  If it is the pipeline
(`b = true`), the editor has cells that hold lists, and in the namespace of `tree_of_list` forks are thunks of its recursive calls, other names cells that hold trees. -/
def sigKind (b : Bool) (l : Loc) : Kind :=
  if l.path = sortPath then
    match l.id with
    | .nominal n => if isFork2 n.sym then .thunk tyL ppMerge fMerge else if isFork n.sym then .thunk tyL ppSort fSort
      else if b then .thunk tyV ppPipe fPipe else .thunk tyV ppRoot fRoot
    | .structural _ => .cell tyT
  else if b = true ∧ l.path = .empty then .cell tyL
  else match l.id with
    | .nominal n => if b = true ∧ isFork n.sym = true then .thunk tyP ppTree fTree else .cell tyT
    | .structural _ => .cell tyT
def sigS (b : Bool) : Sig := { kind := sigKind b }

variable [DecidableEq X]

/-- What will have been allocated when everything is demanded, with ranks. -/
abbrev World (X : Type) := Loc → Option (CV X × Nat)

/-- Everything in the store is as in the world. -/
def Below (σ : Store (CV X)) (W : World X) : Prop := ∀ l v, σ l = some v → ∃ k, W l = some (v, k)

/-- The thunks being evaluated have rank at least `k`. -/
def AncOk (W : World X) (c : Ctx) (k : Nat) : Prop := ∀ a ∈ c.anc, ∃ v j, W a = some (v, j) ∧ k ≤ j

/-- The thunks a merge will allocate are in the world at rank `k`. -/
def AllocOk (b : Bool) (W : World X) (k : Nat) (as : List (Name × CV X)) : Prop :=
  ∀ x ∈ as, W (loc x.1) = some (x.2, k) ∧ (sigS b) (loc x.1) = .thunk tyL ppMerge fMerge

/-- The articulations of the list are in the store, all of rank below `r`; they are thunks of merges, of lists of which the same holds. -/
inductive Live (b : Bool) (W : World X) (σ : Store (CV X)) : Nat → AL X → Prop
  | nil {r} : Live b W σ r .nil
  | cons {r x l} : Live b W σ r l → Live b W σ r (.cons x l)
  | name {r n l} : Live b W σ r l → Live b W σ r (.name n l)
  | art {r a k n1 l1 n2 l2} : k < r → W (loc a) = some (.margs n1 l1.val n2 l2.val, k) → σ (loc a) = some (.margs n1 l1.val n2 l2.val) →
      (sigS b) (loc a) = .thunk tyL ppMerge fMerge → Live b W σ k l1 → Live b W σ k l2 → AllocOk b W k (amerge H le n1 l1 n2 l2).2 →
      (a :: (amerge H le n1 l1 n2 l2).2.map Prod.fst).Nodup → Live b W σ r (.art (loc a) (amerge H le n1 l1 n2 l2).1)

variable {H le} {b : Bool} {K : Coll.Hashes X} {W : World X} {σ σ' : Store (CV X)}

theorem Live.ext {r : Nat} {l : AL X} (h : Live H le b W σ r l) (he : Ext σ σ') : Live H le b W σ' r l := by
  induction h with
  | nil => exact .nil
  | cons _ ih => exact .cons ih
  | name _ ih => exact .name ih
  | art h1 h2 h3 h4 _ _ h7 h8 ih1 ih2 => exact .art h1 h2 (he _ _ h3) h4 ih1 ih2 h7 h8

theorem Live.mono {r r' : Nat} {l : AL X} (h : Live H le b W σ r l) (hr : r ≤ r') : Live H le b W σ r' l := by
  induction h with
  | nil => exact .nil
  | cons _ ih => exact .cons (ih hr)
  | name _ ih => exact .name (ih hr)
  | art h1 h2 h3 h4 h5 h6 h7 h8 _ _ => exact .art (Nat.lt_of_lt_of_le h1 hr) h2 h3 h4 h5 h6 h7 h8

theorem AncOk.mono {c : Ctx} {k j : Nat} (h : AncOk W c k) (hj : j ≤ k) : AncOk W c j := by
  intro a ha
  obtain ⟨v, i, h1, h2⟩ := h a ha
  exact ⟨v, i, h1, Nat.le_trans hj h2⟩

/-- Allocating what the world has. -/
theorem alloc_below (hb : Below σ W) {l : Loc} {v : CV X} {k : Nat} (hw : W l = some (v, k)) :
    ∃ σ1, alloc σ l v = some σ1 ∧ Ext σ σ1 ∧ Below σ1 W ∧ σ1 l = some v := by
  have key : ∃ σ1, alloc σ l v = some σ1 := by
    rw [Ref.alloc_dec]
    rcases h : σ l with _ | w
    · exact ⟨_, rfl⟩
    · obtain ⟨j, hj⟩ := hb l w h
      rw [hw] at hj
      cases hj
      simp
  obtain ⟨σ1, h1⟩ := key
  obtain ⟨h2, h3⟩ := Ref.alloc_ext h1
  refine ⟨σ1, h1, h2, ?_, h3⟩
  intro x w hx
  rw [Ref.alloc_dec] at h1
  rcases h : σ l with _ | u
  · rw [h] at h1
    cases h1
    unfold Ref.upd at hx
    split at hx
    · rename_i hxl
      cases hx
      subst hxl
      exact ⟨k, hw⟩
    · exact hb x w hx
  · rw [h] at h1
    simp only at h1
    split at h1
    · cases h1; exact hb x w hx
    · cases h1

variable {hv : CV X → UInt64} {ha : ProgPt → CV X → UInt64}

/-- Code running in the namespace of the sort. -/
abbrev CS (b : Bool) (K : Coll.Hashes X) (H : NameHash) (le : X → X → Bool) (hv : CV X → UInt64) (ha : ProgPt → CV X → UInt64) (c : Ctx) (p : Prog (CV X)) (σ : Store (CV X))
    (Q : Store (CV X) → CV X → Prop) : Prop := Conv (sigS b) (env H le K hv ha) c sortPath p σ Q

/-- Merging at rank `k` converges to the annotated merge. -/
def MergeOk (b : Bool) (K : Coll.Hashes X) (H : NameHash) (le : X → X → Bool) (hv : CV X → UInt64) (ha : ProgPt → CV X → UInt64) (W : World X) (k : Nat) : Prop :=
  ∀ n1 l1 n2 l2 c σ, AncOk W c k → Below σ W → Live H le b W σ k l1 → Live H le b W σ k l2 → AllocOk b W k (amerge H le n1 l1 n2 l2).2 →
    ((amerge H le n1 l1 n2 l2).2.map Prod.fst).Nodup → (∀ x ∈ (amerge H le n1 l1 n2 l2).2, loc x.1 ≠ c.self) →
    CS b K H le hv ha c (merge H le n1 l1.val n2 l2.val) σ fun σ' v =>
      Ext σ σ' ∧ Below σ' W ∧ v = .lst (amerge H le n1 l1 n2 l2).1.val ∧ Live H le b W σ' (k + 1) (amerge H le n1 l1 n2 l2).1

/-- Looking at a list of rank `r`. -/
def ViewOk (b : Bool) (K : Coll.Hashes X) (H : NameHash) (le : X → X → Bool) (hv : CV X → UInt64) (ha : ProgPt → CV X → UInt64) (W : World X) (r : Nat) : Prop :=
  ∀ l c σ, AncOk W c r → Below σ W → Live H le b W σ r l → CS b K H le hv ha c (lview l.val) σ fun σ' v =>
    Ext σ σ' ∧ Below σ' W ∧ v = .lst l.strip.val ∧ Live H le b W σ' r l.strip

theorem Live.inv_cons {r : Nat} {x : X} {l : AL X} (h : Live H le b W σ r (.cons x l)) : Live H le b W σ r l := by cases h; assumption
theorem Live.inv_name {r : Nat} {n : Name} {l : AL X} (h : Live H le b W σ r (.name n l)) : Live H le b W σ r l := by cases h; assumption

theorem viewOk_of {r : Nat} (hm : ∀ k, k < r → MergeOk b K H le hv ha W k) : ViewOk b K H le hv ha W r := by
  intro l
  induction l with
  | nil => intro c σ hc hb hl; exact Conv.ret ⟨Ext.refl _, hb, rfl, hl⟩
  | cons x l ih => intro c σ hc hb hl; exact Conv.ret ⟨Ext.refl _, hb, rfl, hl⟩
  | name n l ih => intro c σ hc hb hl; exact Conv.ret ⟨Ext.refl _, hb, rfl, hl⟩
  | art a l ih =>
    intro c σ hc hb hl
    generalize e : AL.art a l = q at hl
    cases hl with
    | nil => cases e
    | cons h => cases e
    | name h => cases e
    | @art _ a' k n1 l1 n2 l2 h1 h2 h3 h4 h5 h6 h7 h8 =>
      cases e
      have hn : loc a' ∉ c.anc := by
        intro hm
        obtain ⟨v, j, e1, e2⟩ := hc _ hm
        rw [h2] at e1
        cases e1
        omega
      refine Conv.forceThunk h4 hn h3 rfl ?_
      have hcode : (env H le K hv ha).code fMerge (.margs n1 l1.val n2 l2.val) = merge H le n1 l1.val n2 l2.val := rfl
      rw [hcode]
      rw [List.nodup_cons] at h8
      refine (hm k h1 n1 l1 n2 l2 ⟨loc a', loc a' :: c.anc⟩ σ ?_ hb h5 h6 h7 h8.2 ?_).mono ?_
      · intro b hb'
        rcases List.mem_cons.1 hb' with rfl | hb'
        · exact ⟨_, _, h2, Nat.le_refl _⟩
        · obtain ⟨v, j, e1, e2⟩ := hc b hb'
          exact ⟨v, j, e1, by omega⟩
      · intro x hx he
        have : x.1 = a' := by
          have := congrArg Loc.id he
          simp [loc] at this
          exact this
        exact h8.1 (this ▸ List.mem_map.2 ⟨x, hx, rfl⟩)
      · rintro σ1 v ⟨e1, b1, rfl, lv⟩
        refine Conv.call ?_
        have hcode : (env H le K hv ha).code fLView (.lst (amerge H le n1 l1 n2 l2).1.val) = lview (amerge H le n1 l1 n2 l2).1.val := rfl
        rw [hcode]
        refine (ih c σ1 hc b1 (lv.mono h1)).mono ?_
        rintro σ2 v ⟨e2, b2, rfl, lv2⟩
        exact Conv.ret ⟨e1.trans e2, b2, rfl, lv2⟩

/-- One step of looking at a list, inside a program. -/
theorem CS.view {r : Nat} (hV : ViewOk b K H le hv ha W r) {l : AL X} {c : Ctx} {k : LV X → Prog (CV X)} {Q : Store (CV X) → CV X → Prop}
    (hc : AncOk W c r) (hb : Below σ W) (hl : Live H le b W σ r l)
    (h : ∀ σ1, Ext σ σ1 → Below σ1 W → Live H le b W σ1 r l.strip → CS b K H le hv ha c (k l.strip.val) σ1 Q) :
    CS b K H le hv ha c (.call fLView (.lst l.val) (onLst k)) σ Q := by
  refine Conv.call ?_
  have hcode : (env H le K hv ha).code fLView (.lst l.val) = lview l.val := rfl
  rw [hcode]
  refine (hV l c σ hc hb hl).mono ?_
  rintro σ1 v ⟨e1, b1, rfl, lv⟩
  exact h σ1 e1 b1 lv

theorem CS.callMerge {c : Ctx} {n1 n2 : Option Name} {l1 l2 : LV X} {k : CV X → Prog (CV X)} {Q : Store (CV X) → CV X → Prop}
    (h : CS b K H le hv ha c (merge H le n1 l1 n2 l2) σ fun σ1 v1 => CS b K H le hv ha c (k v1) σ1 Q) :
    CS b K H le hv ha c (.call fMerge (.margs n1 l1 n2 l2) k) σ Q := Conv.call h

theorem live_nameOp {r : Nat} {n : Option Name} {l : AL X} (h : Live H le b W σ r l) : Live H le b W σ r (nameOp n l) := by
  cases n with
  | none => exact h
  | some n => exact .name h

theorem mergeOk_of {k : Nat} (hV : ViewOk b K H le hv ha W k) : MergeOk b K H le hv ha W k := by
  intro n1 l1 n2 l2
  fun_induction amerge H le n1 l1 n2 l2 with
  | case1 n1 l1 n2 l2 h =>
    intro c σ hc hb hl1 hl2 hal hnd hself
    refine CS.view hV hc hb hl1 fun σ1 e1 b1 lv1 => ?_
    rw [h]
    exact Conv.ret ⟨e1, b1, by rw [nameOp_val], (live_nameOp (hl2.ext e1)).mono (by omega)⟩
  | case2 n1 l1 n2 l2 h1 t1 hv1 hv2 =>
    intro c σ hc hb hl1 hl2 hal hnd hself
    refine CS.view hV hc hb hl1 fun σ1 e1 b1 lv1 => ?_
    rw [hv1] at lv1 ⊢
    refine CS.view hV hc b1 (hl2.ext e1) fun σ2 e2 b2 lv2 => ?_
    rw [hv2]
    exact Conv.ret ⟨e1.trans e2, b2, by rw [nameOp_val]; rfl, (live_nameOp (lv1.ext e2)).mono (by omega)⟩
  | case3 l1 n2 l2 h1 t1 hv1 h2 t2 hv2 hle r ih =>
    intro c σ hc hb hl1 hl2 hal hnd hself
    refine CS.view hV hc hb hl1 fun σ1 e1 b1 lv1 => ?_
    rw [hv1] at lv1 ⊢
    refine CS.view hV hc b1 (hl2.ext e1) fun σ2 e2 b2 lv2 => ?_
    rw [hv2] at lv2 ⊢
    simp only [AL.val, hle, if_true]
    refine CS.callMerge ?_
    refine (ih c σ2 hc b2 (lv1.inv_cons.ext e2) lv2 hal hnd hself).mono ?_
    rintro σ3 v ⟨e3, b3, rfl, lv3⟩
    exact Conv.ret ⟨(e1.trans e2).trans e3, b3, rfl, .cons lv3⟩
  | case4 l1 n2 l2 h1 t1 hv1 h2 t2 hv2 hle n1 r ih =>
    intro c σ hc hb hl1 hl2 hal hnd hself
    refine CS.view hV hc hb hl1 fun σ1 e1 b1 lv1 => ?_
    rw [hv1] at lv1 ⊢
    refine CS.view hV hc b1 (hl2.ext e1) fun σ2 e2 b2 lv2 => ?_
    rw [hv2] at lv2 ⊢
    simp only [AL.val, hle, if_true]
    obtain ⟨hw, hs⟩ := hal _ (List.mem_cons_self ..)
    obtain ⟨σ3, ha3, e3, b3, h3⟩ := alloc_below b2 hw
    refine Conv.thunk hs (hself _ (List.mem_cons_self ..)) ha3 ?_
    refine Conv.ret ⟨(e1.trans e2).trans e3, b3, rfl, .name (.cons ?_)⟩
    exact .art (by omega) hw h3 hs ((lv1.inv_cons.ext e2).ext e3) (lv2.ext e3) (fun x hx => hal x (List.mem_cons_of_mem _ hx)) hnd
  | case5 n1 l1 l2 h1 t1 hv1 h2 t2 hv2 hle r ih =>
    intro c σ hc hb hl1 hl2 hal hnd hself
    refine CS.view hV hc hb hl1 fun σ1 e1 b1 lv1 => ?_
    rw [hv1] at lv1 ⊢
    refine CS.view hV hc b1 (hl2.ext e1) fun σ2 e2 b2 lv2 => ?_
    rw [hv2] at lv2 ⊢
    simp only [AL.val, hle, Bool.false_eq_true, if_false]
    refine CS.callMerge ?_
    refine (ih c σ2 hc b2 (lv1.ext e2) lv2.inv_cons hal hnd hself).mono ?_
    rintro σ3 v ⟨e3, b3, rfl, lv3⟩
    exact Conv.ret ⟨(e1.trans e2).trans e3, b3, rfl, .cons lv3⟩
  | case6 n1 l1 l2 h1 t1 hv1 h2 t2 hv2 hle n2 r ih =>
    intro c σ hc hb hl1 hl2 hal hnd hself
    refine CS.view hV hc hb hl1 fun σ1 e1 b1 lv1 => ?_
    rw [hv1] at lv1 ⊢
    refine CS.view hV hc b1 (hl2.ext e1) fun σ2 e2 b2 lv2 => ?_
    rw [hv2] at lv2 ⊢
    simp only [AL.val, hle, Bool.false_eq_true, if_false]
    obtain ⟨hw, hs⟩ := hal _ (List.mem_cons_self ..)
    obtain ⟨σ3, ha3, e3, b3, h3⟩ := alloc_below b2 hw
    refine Conv.thunk hs (hself _ (List.mem_cons_self ..)) ha3 ?_
    refine Conv.ret ⟨(e1.trans e2).trans e3, b3, rfl, .name (.cons ?_)⟩
    exact .art (by omega) hw h3 hs ((lv1.ext e2).ext e3) (lv2.inv_cons.ext e3) (fun x hx => hal x (List.mem_cons_of_mem _ hx)) hnd
  | case7 n1 l1 n2 l2 h1 t1 hv1 m2 t2 hv2 ih =>
    intro c σ hc hb hl1 hl2 hal hnd hself
    refine CS.view hV hc hb hl1 fun σ1 e1 b1 lv1 => ?_
    rw [hv1] at lv1 ⊢
    refine CS.view hV hc b1 (hl2.ext e1) fun σ2 e2 b2 lv2 => ?_
    rw [hv2] at lv2 ⊢
    refine CS.callMerge ?_
    refine (ih c σ2 hc b2 (lv1.ext e2) lv2.inv_name hal hnd hself).mono ?_
    rintro σ3 v ⟨e3, b3, rfl, lv3⟩
    exact Conv.ret ⟨(e1.trans e2).trans e3, b3, rfl, lv3⟩
  | case8 n1 l1 n2 l2 h1 t1 hv1 a t2 hv2 => exact absurd hv2 AL.strip_art
  | case9 n1 l1 n2 l2 m1 t1 hv1 ih =>
    intro c σ hc hb hl1 hl2 hal hnd hself
    refine CS.view hV hc hb hl1 fun σ1 e1 b1 lv1 => ?_
    rw [hv1] at lv1 ⊢
    refine CS.callMerge ?_
    refine (ih c σ1 hc b1 lv1.inv_name (hl2.ext e1) hal hnd hself).mono ?_
    rintro σ3 v ⟨e3, b3, rfl, lv3⟩
    exact Conv.ret ⟨e1.trans e3, b3, rfl, lv3⟩
  | case10 n1 l1 n2 l2 a t hv => exact absurd hv AL.strip_art

theorem mergeOk (k : Nat) : MergeOk b K H le hv ha W k := by
  induction k using Nat.strongRecOn with
  | ind k ih => exact mergeOk_of (viewOk_of ih)
theorem viewOk (r : Nat) : ViewOk b K H le hv ha W r := viewOk_of fun k _ => mergeOk k

/-! ### Reading the list -/

theorem vecLoop_strip (l : AL X) (out : List (NameElse X)) : Coll.vecLoop none l.erase out = Coll.vecLoop none l.strip.erase out := by
  induction l with
  | art a l ih => exact ih
  | _ => rfl

theorem vecOk (r : Nat) : ∀ (m : Nat) (l : AL X) (out : List (NameElse X)) (c : Ctx) (σ : Store (CV X)), l.size ≤ m → AncOk W c r → Below σ W →
    Live H le b W σ r l → CS b K H le hv ha c (vec l.val out) σ fun σ' v => Ext σ σ' ∧ Below σ' W ∧ v = .vec (Coll.vecLoop none l.erase out) := by
  intro m
  induction m with
  | zero => intro l out c σ hm; cases l <;> simp [AL.size] at hm
  | succ m ih =>
    intro l out c σ hm hc hb hl
    refine CS.view (viewOk r) hc hb hl fun σ1 e1 b1 lv1 => ?_
    rw [vecLoop_strip]
    rcases hs : l.strip with _ | ⟨x, t⟩ | ⟨n, t⟩ | ⟨a, t⟩
    · exact Conv.ret ⟨e1, b1, rfl⟩
    · rw [hs] at lv1
      refine Conv.call ?_
      have hcode : (env H le K hv ha).code fVec (.vargs t.val (out ++ [.elm x])) = vec t.val (out ++ [.elm x]) := rfl
      rw [hcode]
      refine (ih t _ c σ1 (by have := AL.strip_cons hs; omega) hc b1 lv1.inv_cons).mono ?_
      rintro σ2 v ⟨e2, b2, rfl⟩
      exact Conv.ret ⟨e1.trans e2, b2, rfl⟩
    · rw [hs] at lv1
      refine Conv.call ?_
      have hcode : (env H le K hv ha).code fVec (.vargs t.val (out ++ [.name n])) = vec t.val (out ++ [.name n]) := rfl
      rw [hcode]
      refine (ih t _ c σ1 (by have := AL.strip_name hs; omega) hc b1 lv1.inv_name).mono ?_
      rintro σ2 v ⟨e2, b2, rfl⟩
      exact Conv.ret ⟨e1.trans e2, b2, rfl⟩
    · exact absurd hs AL.strip_art

/-! ### Sorting -/

/-- The articulations of the tree are cells in the store. -/
def LiveT (b : Bool) (σ : Store (CV X)) : AT X → Prop
  | .nil => True
  | .leaf _ => True
  | .bin _ l r => LiveT b σ l ∧ LiveT b σ r
  | .name _ _ l r => LiveT b σ l ∧ LiveT b σ r
  | .art a t => (sigS b) a = .cell tyT ∧ σ a = some (.tree t.val) ∧ LiveT b σ t

theorem LiveT.ext {t : AT X} (h : LiveT b σ t) (he : Ext σ σ') : LiveT b σ' t := by
  induction t with
  | nil => trivial
  | leaf x => trivial
  | bin lev l r ihl ihr => exact ⟨ihl h.1, ihr h.2⟩
  | name n lev l r ihl ihr => exact ⟨ihl h.1, ihr h.2⟩
  | art a t ih => exact ⟨h.1, he _ _ h.2.1, ih h.2.2⟩

def AT.strip : AT X → AT X
  | .art _ t => t.strip
  | t => t
def AT.size : AT X → Nat
  | .nil => 1
  | .leaf _ => 1
  | .bin _ l r => l.size + r.size + 1
  | .name _ _ l r => l.size + r.size + 1
  | .art _ t => t.size + 1
theorem AT.strip_size (t : AT X) : t.strip.size ≤ t.size := by
  induction t with
  | art a l ih => simp only [AT.strip, AT.size]; omega
  | _ => exact Nat.le_refl _
theorem AT.strip_ht (t : AT X) : t.strip.ht = t.ht := by
  induction t with
  | art a l ih => exact ih
  | _ => rfl
theorem AT.strip_art {t : AT X} {a : Loc} {u : AT X} : t.strip ≠ .art a u := by
  induction t with
  | art b l ih => exact ih
  | _ => exact fun h => by cases h
theorem asort_strip (t : AT X) : asort H le t.strip = asort H le t := by
  induction t with
  | art a l ih => exact ih
  | _ => rfl
theorem LiveT.strip {t : AT X} (h : LiveT b σ t) : LiveT b σ t.strip := by
  induction t with
  | art a l ih => exact ih h.2.2
  | _ => exact h

/-- Looking at a tree. -/
theorem tviewOk (t : AT X) : ∀ (c : Ctx), LiveT b σ t → CS b K H le hv ha c (tview t.val) σ fun σ' v => σ' = σ ∧ v = .tree t.strip.val := by
  induction t with
  | art a t ih =>
    intro c h
    refine Conv.forceCell h.1 h.2.1 (Conv.call ?_)
    have hcode : (env H le K hv ha).code fTView (.tree t.val) = tview t.val := rfl
    rw [hcode]
    refine (ih c h.2.2).mono ?_
    rintro σ1 v ⟨rfl, rfl⟩
    exact Conv.ret ⟨rfl, rfl⟩
  | _ => intro c h; exact Conv.ret ⟨rfl, rfl⟩

/-- The thunks a sort will allocate are in the world. -/
def SAllocOk (b : Bool) (W : World X) (as : List (Name × CV X × Nat)) : Prop :=
  ∀ x ∈ as, W (loc x.1) = some x.2 ∧
    ((∃ t, x.2.1 = .tree t) → (sigS b) (loc x.1) = .thunk tyL ppSort fSort) ∧
    ((¬ ∃ t, x.2.1 = .tree t) → (sigS b) (loc x.1) = .thunk tyL ppMerge fMerge)

theorem amerge_margs (n1 : Option Name) (l1 : AL X) (n2 : Option Name) (l2 : AL X) :
    ∀ x ∈ (amerge H le n1 l1 n2 l2).2, ¬ ∃ t, x.2 = .tree t := by
  fun_induction amerge H le n1 l1 n2 l2 with
  | case1 => intro x hx; cases hx
  | case2 => intro x hx; cases hx
  | case3 l1 n2 l2 h1 t1 hv1 h2 t2 hv2 hle r ih => exact ih
  | case4 l1 n2 l2 h1 t1 hv1 h2 t2 hv2 hle n1 r ih =>
    intro x hx
    rcases List.mem_cons.1 hx with rfl | hx
    · rintro ⟨t, ht⟩; cases ht
    · exact ih x hx
  | case5 n1 l1 l2 h1 t1 hv1 h2 t2 hv2 hle r ih => exact ih
  | case6 n1 l1 l2 h1 t1 hv1 h2 t2 hv2 hle n2 r ih =>
    intro x hx
    rcases List.mem_cons.1 hx with rfl | hx
    · rintro ⟨t, ht⟩; cases ht
    · exact ih x hx
  | case7 n1 l1 n2 l2 h1 t1 hv1 m2 t2 hv2 ih => exact ih
  | case8 => intro x hx; cases hx
  | case9 n1 l1 n2 l2 m1 t1 hv1 ih => exact ih
  | case10 => intro x hx; cases hx

/-- The merge at the end of a sort. -/
theorem mergeAt {k : Nat} {n1 n2 : Option Name} {l1 l2 : AL X} {c : Ctx} (hc : AncOk W c (k + 1)) (hself : c.self ∈ c.anc) (hb : Below σ W)
    (h1 : Live H le b W σ k l1) (h2 : Live H le b W σ k l2)
    (hal : SAllocOk b W ((amerge H le n1 l1 n2 l2).2.map fun p => (p.1, p.2, k)))
    (hnd : (((amerge H le n1 l1 n2 l2).2.map fun p => (p.1, p.2, k)).map Prod.fst).Nodup) :
    CS b K H le hv ha c (.call fMerge (.margs n1 l1.val n2 l2.val) .ret) σ fun σ' v =>
      Ext σ σ' ∧ Below σ' W ∧ v = .lst (amerge H le n1 l1 n2 l2).1.val ∧ Live H le b W σ' (k + 1) (amerge H le n1 l1 n2 l2).1 := by
  have hal' : AllocOk b W k (amerge H le n1 l1 n2 l2).2 := by
    intro x hx
    obtain ⟨a1, _, a3⟩ := hal _ (List.mem_map.2 ⟨x, hx, rfl⟩)
    exact ⟨a1, a3 (amerge_margs n1 l1 n2 l2 x hx)⟩
  refine CS.callMerge ?_
  refine (mergeOk k n1 l1 n2 l2 c σ (hc.mono (by omega)) hb h1 h2 hal' ?_ ?_).mono ?_
  · rw [List.map_map] at hnd; exact hnd
  · intro x hx he
    obtain ⟨v, j, e1, e2⟩ := hc _ hself
    rw [← he, (hal' x hx).1] at e1
    cases e1
    omega
  · rintro σ3 v ⟨e3, b3, rfl, lv3⟩
    exact Conv.ret ⟨e3, b3, rfl, lv3⟩

/-- The recursive call of the sort through a thunk. -/
theorem memoAt {k : Nat} {n : Name} {t : AT X} {c : Ctx} {Kc : LV X → Prog (CV X)} {Q : Store (CV X) → CV X → Prop}
    (hc : AncOk W c (k + 1)) (hself : c.self ∈ c.anc) (hk : 2 * t.ht + 1 ≤ k) (hb : Below σ W)
    (hal : W (loc n) = some (.tree t.val, 2 * t.ht + 1)) (hs : (sigS b) (loc n) = .thunk tyL ppSort fSort)
    (h : ∀ (c' : Ctx) σ1, AncOk W c' (2 * t.ht + 1) → c'.self ∈ c'.anc → Ext σ σ1 → Below σ1 W →
      CS b K H le hv ha c' (sort H t.val) σ1 fun σ2 v => ∃ l, v = .lst l ∧ CS b K H le hv ha c (Kc l) σ2 Q) :
    CS b K H le hv ha c (.thunk tyL (.nominal n) ppSort fSort (.tree t.val) fun a => .force tyL a none (onLst Kc)) σ Q := by
  obtain ⟨σ1, ha1, e1, b1, h1⟩ := alloc_below hb hal
  have hnot : loc n ∉ c.anc := by
    intro hm
    obtain ⟨v, j, e1, e2⟩ := hc _ hm
    rw [hal] at e1
    cases e1
    omega
  refine Conv.thunk hs (fun e => hnot (by rw [show loc n = c.self from e]; exact hself)) ha1 ?_
  refine Conv.forceThunk hs hnot h1 rfl ?_
  have hcode : (env H le K hv ha).code fSort (.tree t.val) = sort H t.val := rfl
  rw [hcode]
  refine (h ⟨loc n, loc n :: c.anc⟩ σ1 ?_ (List.mem_cons_self ..) e1 b1).mono ?_
  · intro a ham
    rcases List.mem_cons.1 ham with rfl | ham
    · exact ⟨_, _, hal, Nat.le_refl _⟩
    · obtain ⟨v, j, e1, e2⟩ := hc a ham
      exact ⟨v, j, e1, by omega⟩
  · rintro σ2 v ⟨l, rfl, h⟩
    exact h

theorem sortOk : ∀ (m : Nat) (t : AT X) (c : Ctx) (σ : Store (CV X)), t.size ≤ m → AncOk W c (2 * t.ht + 1) → c.self ∈ c.anc → Below σ W → LiveT b σ t →
    SAllocOk b W (asort H le t).2 → ((asort H le t).2.map Prod.fst).Nodup →
    CS b K H le hv ha c (sort H t.val) σ fun σ' v =>
      Ext σ σ' ∧ Below σ' W ∧ v = .lst (asort H le t).1.val ∧ Live H le b W σ' (2 * t.ht + 1) (asort H le t).1 := by
  intro m
  induction m with
  | zero => intro t c σ hm; cases t <;> simp [AT.size] at hm
  | succ m ih =>
    intro t c σ hm hc hself hb hl hal hnd
    rw [← asort_strip] at hal hnd ⊢
    rw [← AT.strip_ht] at hc ⊢
    refine Conv.call ?_
    have hcode : (env H le K hv ha).code fTView (.tree t.val) = tview t.val := rfl
    rw [hcode]
    refine (tviewOk t c hl).mono ?_
    rintro σ0 v ⟨rfl, rfl⟩
    have hsz := t.strip_size
    have hl := hl.strip
    rcases hst : t.strip with _ | ⟨x⟩ | ⟨lev, l, r⟩ | ⟨n, lev, l, r⟩ | ⟨a, u⟩
    · exact Conv.ret ⟨Ext.refl _, hb, rfl, .nil⟩
    · exact Conv.ret ⟨Ext.refl _, hb, rfl, .cons .nil⟩
    · rw [hst] at hal hnd hc hsz hl
      simp only [AT.size] at hsz
      have hh : (AT.bin lev l r).ht = max l.ht r.ht + 1 := rfl
      simp only [asort, List.map_append] at hal hnd
      have ha1 : SAllocOk b W (asort H le l).2 := fun x hx => hal x (List.mem_append_left _ (List.mem_append_left _ hx))
      have ha2 : SAllocOk b W (asort H le r).2 := fun x hx => hal x (List.mem_append_left _ (List.mem_append_right _ hx))
      have ha3 : SAllocOk b W ((amerge H le none (asort H le l).1 none (asort H le r).1).2.map fun p => (p.1, p.2, 2 * (AT.bin lev l r).ht)) :=
        fun x hx => hal x (List.mem_append_right _ hx)
      obtain ⟨hn12, hn3, _⟩ := List.nodup_append.1 hnd
      obtain ⟨hn1, hn2, _⟩ := List.nodup_append.1 hn12
      refine Conv.call ?_
      have hcode : (env H le K hv ha).code fSort (.tree l.val) = sort H l.val := rfl
      rw [hcode]
      refine (ih l c _ (by omega) (hc.mono (by omega)) hself hb hl.1 ha1 hn1).mono ?_
      rintro σ1 v ⟨e1, b1, rfl, lv1⟩
      refine Conv.call ?_
      have hcode : (env H le K hv ha).code fSort (.tree r.val) = sort H r.val := rfl
      rw [hcode]
      refine (ih r c _ (by omega) (hc.mono (by omega)) hself b1 (hl.2.ext e1) ha2 hn2).mono ?_
      rintro σ2 v ⟨e2, b2, rfl, lv2⟩
      refine (mergeAt hc hself b2 ((lv1.ext e2).mono (by omega)) (lv2.mono (by omega)) ha3 hn3).mono ?_
      rintro σ3 v ⟨e3, b3, rfl, lv3⟩
      exact ⟨(e1.trans e2).trans e3, b3, rfl, lv3⟩
    · rw [hst] at hal hnd hc hsz hl
      simp only [AT.size] at hsz
      have hh : (AT.name n lev l r).ht = max l.ht r.ht + 1 := rfl
      simp only [asort, List.map_append] at hal hnd
      have ha1 : SAllocOk b W (asort H le l).2 := fun x hx => hal x (List.mem_append_left _ (List.mem_append_left _ (List.mem_cons_of_mem _ hx)))
      have ha2 : SAllocOk b W (asort H le r).2 := fun x hx => hal x (List.mem_append_left _ (List.mem_append_right _ (List.mem_cons_of_mem _ hx)))
      have ha3 : SAllocOk b W ((amerge H le (some (nameFork H n).1) (asort H le l).1 (some (nameFork H n).2) (asort H le r).1).2.map
          fun p => (p.1, p.2, 2 * (AT.name n lev l r).ht)) := fun x hx => hal x (List.mem_append_right _ hx)
      obtain ⟨w1, s1, _⟩ := hal ((nameFork H n).1, .tree l.val, 2 * l.ht + 1) (List.mem_append_left _ (List.mem_append_left _ (List.mem_cons_self ..)))
      obtain ⟨w2, s2, _⟩ := hal ((nameFork H n).2, .tree r.val, 2 * r.ht + 1) (List.mem_append_left _ (List.mem_append_right _ (List.mem_cons_self ..)))
      obtain ⟨hn12, hn3, _⟩ := List.nodup_append.1 hnd
      obtain ⟨hn1, hn2, _⟩ := List.nodup_append.1 hn12
      rw [List.map_cons, List.nodup_cons] at hn1 hn2
      have hk : 2 * (AT.name n lev l r).ht + 1 = (2 * (AT.name n lev l r).ht) + 1 := rfl
      refine memoAt (t := l) hc hself (by omega) hb w1 (s1 ⟨_, rfl⟩) fun c1 σ1 hc1 hs1 e1 b1 => ?_
      refine (ih l c1 _ (by omega) hc1 hs1 b1 (hl.1.ext e1) ha1 hn1.2).mono ?_
      rintro σ2 v ⟨e2, b2, rfl, lv2⟩
      refine ⟨_, rfl, ?_⟩
      refine memoAt (t := r) hc hself (by omega) b2 w2 (s2 ⟨_, rfl⟩) fun c3 σ3 hc3 hs3 e3 b3 => ?_
      refine (ih r c3 _ (by omega) hc3 hs3 b3 (((hl.2.ext e1).ext e2).ext e3) ha2 hn2.2).mono ?_
      rintro σ4 v ⟨e4, b4, rfl, lv4⟩
      refine ⟨_, rfl, ?_⟩
      refine (mergeAt hc hself b4 (((lv2.ext e3).ext e4).mono (by omega)) (lv4.mono (by omega)) ha3 hn3).mono ?_
      rintro σ5 v ⟨e5, b5, rfl, lv5⟩
      exact ⟨(((e1.trans e2).trans e3).trans e4).trans e5, b5, rfl, lv5⟩
    · exact absurd hst AT.strip_art

/-- The whole program. -/
theorem rootOk {t : AT X} {c : Ctx} (hc : AncOk W c (2 * t.ht + 1)) (hself : c.self ∈ c.anc) (hb : Below σ W) (hl : LiveT b σ t)
    (hal : SAllocOk b W (asort H le t).2) (hnd : ((asort H le t).2.map Prod.fst).Nodup) :
    CS b K H le hv ha c (root t.val) σ fun σ' v => Ext σ σ' ∧ Below σ' W ∧ v = .vec (Coll.vecOfList (Coll.mergesort1 H le t.erase) none) := by
  refine Conv.call ?_
  have hcode : (env H le K hv ha).code fSort (.tree t.val) = sort H t.val := rfl
  rw [hcode]
  refine (sortOk _ t c σ (Nat.le_refl _) hc hself hb hl hal hnd).mono ?_
  rintro σ1 v ⟨e1, b1, rfl, lv1⟩
  refine Conv.call ?_
  have hcode : (env H le K hv ha).code fVec (.vargs (asort H le t).1.val []) = vec (asort H le t).1.val [] := rfl
  rw [hcode]
  refine (vecOk _ _ _ _ c σ1 (Nat.le_refl _) hc b1 lv1).mono ?_
  rintro σ2 v ⟨e2, b2, rfl⟩
  refine Conv.ret ⟨e1.trans e2, b2, ?_⟩
  rw [(asort_model H le t).1]; rfl

/-! ### The world of one demand -/

/-- All names of the list are forks. -/
def AllFork : AL X → Prop
  | .nil => True
  | .cons _ l => AllFork l
  | .name n l => isFork n.sym = true ∧ AllFork l
  | .art _ l => AllFork l
def OptFork (n : Option Name) : Prop := ∀ m, n = some m → isFork m.sym = true

theorem AllFork.strip {l : AL X} (h : AllFork l) : AllFork l.strip := by
  induction l with
  | art a l ih => exact ih h
  | _ => exact h
theorem AllFork.nameOp {n : Option Name} {l : AL X} (hn : OptFork n) (h : AllFork l) : AllFork (nameOp n l) := by
  cases n with
  | none => exact h
  | some n => exact ⟨hn n rfl, h⟩
theorem OptFork.none : OptFork none := fun m h => by cases h
theorem OptFork.some {n : Name} (h : isFork n.sym = true) : OptFork (some n) := fun m e => by cases e; exact h

theorem amerge_fork (n1 : Option Name) (l1 : AL X) (n2 : Option Name) (l2 : AL X) :
    OptFork n1 → AllFork l1 → OptFork n2 → AllFork l2 →
    AllFork (amerge H le n1 l1 n2 l2).1 ∧ ∀ x ∈ (amerge H le n1 l1 n2 l2).2, isFork2 x.1.sym = true := by
  fun_induction amerge H le n1 l1 n2 l2 with
  | case1 n1 l1 n2 l2 h => intro a1 b1 a2 b2; exact ⟨.nameOp a2 b2, fun x hx => by cases hx⟩
  | case2 n1 l1 n2 l2 h1 t1 hv1 hv2 =>
    intro a1 b1 a2 b2
    have b1 := b1.strip; rw [hv1] at b1
    exact ⟨.nameOp a1 b1, fun x hx => by cases hx⟩
  | case3 l1 n2 l2 h1 t1 hv1 h2 t2 hv2 hle r ih =>
    intro a1 b1 a2 b2
    have b1 := b1.strip; rw [hv1] at b1
    have b2 := b2.strip; rw [hv2] at b2
    exact ih .none b1 a2 b2
  | case4 l1 n2 l2 h1 t1 hv1 h2 t2 hv2 hle n1 r ih =>
    intro a1 b1 a2 b2
    have b1 := b1.strip; rw [hv1] at b1
    have b2 := b2.strip; rw [hv2] at b2
    obtain ⟨i1, i2⟩ := ih .none b1 a2 b2
    refine ⟨⟨rfl, i1⟩, fun x hx => ?_⟩
    rcases List.mem_cons.1 hx with rfl | hx
    · exact a1 n1 rfl
    · exact i2 x hx
  | case5 n1 l1 l2 h1 t1 hv1 h2 t2 hv2 hle r ih =>
    intro a1 b1 a2 b2
    have b1 := b1.strip; rw [hv1] at b1
    have b2 := b2.strip; rw [hv2] at b2
    exact ih a1 b1 .none b2
  | case6 n1 l1 l2 h1 t1 hv1 h2 t2 hv2 hle n2 r ih =>
    intro a1 b1 a2 b2
    have b1 := b1.strip; rw [hv1] at b1
    have b2 := b2.strip; rw [hv2] at b2
    obtain ⟨i1, i2⟩ := ih a1 b1 .none b2
    refine ⟨⟨rfl, i1⟩, fun x hx => ?_⟩
    rcases List.mem_cons.1 hx with rfl | hx
    · exact a2 n2 rfl
    · exact i2 x hx
  | case7 n1 l1 n2 l2 h1 t1 hv1 m2 t2 hv2 ih =>
    intro a1 b1 a2 b2
    have b1 := b1.strip; rw [hv1] at b1
    have b2 := b2.strip; rw [hv2] at b2
    exact ih a1 b1 (.some b2.1) b2.2
  | case8 n1 l1 n2 l2 h1 t1 hv1 a t2 hv2 => exact absurd hv2 AL.strip_art
  | case9 n1 l1 n2 l2 m1 t1 hv1 ih =>
    intro a1 b1 a2 b2
    have b1 := b1.strip; rw [hv1] at b1
    exact ih (.some b1.1) b1.2 a2 b2
  | case10 n1 l1 n2 l2 a t hv => exact absurd hv AL.strip_art

/-- No name of the tree is a fork. -/
def Plain : AT X → Prop
  | .nil => True
  | .leaf _ => True
  | .bin _ l r => Plain l ∧ Plain r
  | .name n _ l r => isFork n.sym = false ∧ Plain l ∧ Plain r
  | .art _ t => Plain t

/-- What kind of name an allocation is made at. -/
def KindOk (x : Name × CV X × Nat) : Prop :=
  isFork x.1.sym = true ∧ ((∃ t, x.2.1 = .tree t) → isFork2 x.1.sym = false) ∧ ((¬ ∃ t, x.2.1 = .tree t) → isFork2 x.1.sym = true)

theorem isFork_of2 {s : NameSym} (h : isFork2 s = true) : isFork s = true := by
  cases s <;> first | rfl | cases h

theorem asort_kinds (t : AT X) (hp : Plain t) : AllFork (asort H le t).1 ∧ ∀ x ∈ (asort H le t).2, KindOk x := by
  induction t with
  | nil => exact ⟨trivial, fun x hx => by cases hx⟩
  | leaf x => exact ⟨trivial, fun x hx => by cases hx⟩
  | art a t ih => exact ih hp
  | bin lev l r ihl ihr =>
    obtain ⟨l1, l2⟩ := ihl hp.1
    obtain ⟨r1, r2⟩ := ihr hp.2
    obtain ⟨m1, m2⟩ := amerge_fork (H := H) (le := le) none (asort H le l).1 none (asort H le r).1 .none l1 .none r1
    refine ⟨m1, fun x hx => ?_⟩
    rcases List.mem_append.1 hx with hx | hx
    · rcases List.mem_append.1 hx with hx | hx
      · exact l2 x hx
      · exact r2 x hx
    · obtain ⟨y, hy, rfl⟩ := List.mem_map.1 hx
      exact ⟨isFork_of2 (m2 y hy), fun h => absurd h (amerge_margs _ _ _ _ y hy), fun _ => m2 y hy⟩
  | name n lev l r ihl ihr =>
    obtain ⟨l1, l2⟩ := ihl hp.2.1
    obtain ⟨r1, r2⟩ := ihr hp.2.2
    obtain ⟨m1, m2⟩ := amerge_fork (H := H) (le := le) (some (nameFork H n).1) (asort H le l).1 (some (nameFork H n).2) (asort H le r).1 (.some rfl) l1 (.some rfl) r1
    refine ⟨m1, fun x hx => ?_⟩
    rcases List.mem_append.1 hx with hx | hx
    · rcases List.mem_append.1 hx with hx | hx
      · rcases List.mem_cons.1 hx with rfl | hx
        · exact ⟨rfl, fun _ => hp.1, fun h => absurd ⟨_, rfl⟩ h⟩
        · exact l2 x hx
      · rcases List.mem_cons.1 hx with rfl | hx
        · exact ⟨rfl, fun _ => hp.1, fun h => absurd ⟨_, rfl⟩ h⟩
        · exact r2 x hx
    · obtain ⟨y, hy, rfl⟩ := List.mem_map.1 hx
      exact ⟨isFork_of2 (m2 y hy), fun h => absurd h (amerge_margs _ _ _ _ y hy), fun _ => m2 y hy⟩

/-- The world: what the editor has allocated, and what the sort of `t` will allocate. -/
def world (H : NameHash) (le : X → X → Bool) (base : Store (CV X)) (t : AT X) : World X := fun l =>
  match base l with
  | some v => some (v, 2 * t.ht + 1)
  | none => ((asort H le t).2.find? fun x => decide (loc x.1 = l)).map Prod.snd

/-- The editor has nothing at the names of the sort. -/
def Clear (base : Store (CV X)) : Prop := ∀ n, isFork n.sym = true → base (loc n) = none

theorem find_nodup {as : List (Name × CV X × Nat)} (hnd : (as.map Prod.fst).Nodup) {x : Name × CV X × Nat} (hx : x ∈ as) :
    as.find? (fun y => decide (loc y.1 = loc x.1)) = some x := by
  induction as with
  | nil => cases hx
  | cons y as ih =>
    rw [List.map_cons, List.nodup_cons] at hnd
    rcases List.mem_cons.1 hx with rfl | hx
    · simp
    · have hne : loc y.1 ≠ loc x.1 := by
        intro e
        have : y.1 = x.1 := by
          have := congrArg Loc.id e
          simp [loc] at this
          exact this
        exact hnd.1 (this ▸ List.mem_map.2 ⟨x, hx, rfl⟩)
      rw [List.find?_cons_of_neg (by simpa using hne)]
      exact ih hnd.2 hx

theorem world_allocs {base : Store (CV X)} {t : AT X} (hcl : Clear base) (hp : Plain t) (hnd : ((asort H le t).2.map Prod.fst).Nodup) :
    SAllocOk b (world H le base t) (asort H le t).2 := by
  intro x hx
  obtain ⟨k1, k2, k3⟩ := (asort_kinds (H := H) (le := le) t hp).2 x hx
  refine ⟨?_, fun h => ?_, fun h => ?_⟩
  · unfold world
    rw [hcl x.1 k1]
    simp only [find_nodup hnd hx, Option.map_some]
  · simp [sigS, sigKind, loc, k2 h, k1]
  · simp [sigS, sigKind, loc, k3 h]

theorem world_base {base : Store (CV X)} {t : AT X} {l : Loc} {v : CV X} (h : base l = some v) : world H le base t l = some (v, 2 * t.ht + 1) := by
  simp only [world, h]

theorem plain_names (t : AT X) (hp : Plain t) : ∀ n ∈ t.erase.names, isFork n.sym = false := by
  induction t with
  | nil => intro n hn; cases hn
  | leaf x => intro n hn; cases hn
  | art a t ih => exact ih hp
  | bin lev l r ihl ihr =>
    intro n hn
    rw [show (AT.bin lev l r).erase.names = l.erase.names ++ r.erase.names from Coll.Tree.names_bin ..] at hn
    rcases List.mem_append.1 hn with h | h
    · exact ihl hp.1 n h
    · exact ihr hp.2 n h
  | name m lev l r ihl ihr =>
    intro n hn
    rw [show (AT.name m lev l r).erase.names = l.erase.names ++ m :: r.erase.names from Coll.Tree.names_name ..] at hn
    rcases List.mem_append.1 hn with h | h
    · exact ihl hp.2.1 n h
    · rcases List.mem_cons.1 h with rfl | h
      · exact hp.1
      · exact ihr hp.2.2 n h

/-- The names of the tree are distinct and none is a fork. -/
def NamesOk (t : AT X) : Prop := Plain t ∧ (t.erase.names.map Name.sym).Nodup

theorem NamesOk.nodup {t : AT X} (h : NamesOk t) : ((asort H le t).2.map Prod.fst).Nodup := by
  rw [(asort_model H le t).2]
  refine (Coll.C62_mergesort_names H le t.erase (Coll.C62_plain_names h.2 ?_)).1
  intro n hn m
  have := plain_names t h.1 n hn
  constructor <;> intro e <;> rw [e] at this <;> cases this

/-- Demanding the program converges, from every store between what the editor has allocated and the world. -/
theorem demand_conv {base cur : Store (CV X)} {t : AT X} {rn : Name} (hr : isFork rn.sym = false) (hcl : Clear base) (hbase : base (loc rn) = some (.tree t.val))
    (hlive : LiveT false base t) (hn : NamesOk t) (hec : Ext base cur) (hbel : Below cur (world H le base t)) :
    ∃ N σ' , Ext cur σ' ∧ Below σ' (world H le base t) ∧ ∀ n, N ≤ n → (Ref.recN (sigS false) (env H le K hv ha) n).frc [] cur (loc rn) =
      some (σ', .vec (Coll.vecOfList (Coll.mergesort1 H le t.erase) none)) := by
  have hs : (sigS false) (loc rn) = .thunk tyV ppRoot fRoot := by
    have h2 : isFork2 rn.sym = false := by
      cases h : isFork2 rn.sym with
      | false => rfl
      | true => rw [isFork_of2 h] at hr; cases hr
    simp [sigS, sigKind, loc, hr, h2]
  have hc : CS false K H le hv ha ⟨loc rn, [loc rn]⟩ (root t.val) cur fun σ' v =>
      Ext cur σ' ∧ Below σ' (world H le base t) ∧ v = .vec (Coll.vecOfList (Coll.mergesort1 H le t.erase) none) := by
    refine rootOk ?_ (List.mem_cons_self ..) hbel (hlive.ext hec) (world_allocs hcl hn.1 hn.nodup) hn.nodup
    intro a ham
    rcases List.mem_cons.1 ham with rfl | ham
    · exact ⟨_, _, world_base hbase, Nat.le_refl _⟩
    · cases ham
  obtain ⟨N, σ', v, ⟨q1, q2, rfl⟩, h⟩ := Conv.frc hs (hec _ _ hbase) ⟨rfl, fun _ => rfl⟩ rfl hc
  exact ⟨N, σ', q1, q2, h⟩

end Adapton.SortProg
