import Verif.Props.Lists
/-
C38, C39: merging and sorting.
-/
namespace Adapton.Coll
variable {X : Type} (H : NameHash)

theorem view_nil_elems {l : Lst X} (h : l.view = .nil) : l.elems = [] := by
  induction l with
  | nil => rfl
  | cons y l ih => cases h
  | name n l ih => cases h
  | art l ih => exact ih h

theorem view_cons_elems {l : Lst X} {x tl} (h : l.view = .cons x tl) : l.elems = x :: tl.elems := by
  induction l with
  | nil => cases h
  | cons y l ih => cases h; rfl
  | name n l ih => cases h
  | art l ih => exact ih h

theorem view_name_elems {l : Lst X} {n tl} (h : l.view = .name n tl) : l.elems = tl.elems := by
  induction l with
  | nil => cases h
  | cons y l ih => cases h
  | name n l ih => cases h; rfl
  | art l ih => exact ih h

theorem listNameOp_elems (n : Option Name) (l : Lst X) : (listNameOp n l).elems = l.elems := by
  cases n <;> rfl

/-- C38: on the sequences of elements, `list_merge` is the merge that takes the first head while it is at most the second, for
all optional names and wherever names and articulations occur. -/
theorem list_merge_elems (le : X → X → Bool) (n1 : Option Name) (l1 : Lst X) (n2 : Option Name) (l2 : Lst X) :
    (listMerge H le n1 l1 n2 l2).elems = List.merge l1.elems l2.elems le := by
  fun_induction listMerge H le n1 l1 n2 l2 with
  | case1 n1 l1 n2 l2 h => rw [listNameOp_elems, view_nil_elems h, List.nil_merge]
  | case2 n1 l1 n2 l2 h1 t1 hv1 hv2 =>
    rw [listNameOp_elems, view_nil_elems hv2, List.merge_right, view_cons_elems hv1]; rfl
  | case3 n2 l1 l2 h1 t1 hv1 h2 t2 hv2 hle l2' rest ih =>
    rw [view_cons_elems hv1, view_cons_elems hv2, List.cons_merge_cons_pos _ _ _ hle, elems_cons, ih]; rfl
  | case4 n2 l1 l2 h1 t1 hv1 h2 t2 hv2 hle l2' n1 _n1a n1b hf rest rest1 rest2 rest3 ih =>
    rw [view_cons_elems hv1, view_cons_elems hv2, List.cons_merge_cons_pos _ _ _ hle]
    show _ :: rest.elems = _
    rw [ih]; rfl
  | case5 n1 l1 l2 h1 t1 hv1 h2 t2 hv2 hle l1' rest l ih =>
    rw [view_cons_elems hv1, view_cons_elems hv2, List.cons_merge_cons_neg _ _ _ hle]
    show _ :: rest.elems = _
    rw [ih]; rfl
  | case6 n1 l1 l2 h1 t1 hv1 h2 t2 hv2 hle l1' n2 _n2a n2b hf rest rest1 rest2 rest3 ih =>
    rw [view_cons_elems hv1, view_cons_elems hv2, List.cons_merge_cons_neg _ _ _ hle]
    show _ :: rest.elems = _
    rw [ih]; rfl
  | case7 n1 l1 n2 l2 h1 t1 hv1 m2 t2 hv2 l1' ih =>
    rw [ih, view_cons_elems hv1, view_name_elems hv2]; rfl
  | case8 n1 l1 n2 l2 m1 t1 hv1 ih => rw [ih, view_name_elems hv1]

/-- C38: `list_merge` returns a permutation of the elements of both lists, for every order relation and all optional names. -/
theorem list_merge_perm (le : X → X → Bool) (n1 : Option Name) (l1 : Lst X) (n2 : Option Name) (l2 : Lst X) :
    (listMerge H le n1 l1 n2 l2).elems.Perm (l1.elems ++ l2.elems) := by
  rw [list_merge_elems]; exact List.merge_perm_append le

/-- C38: the merge of two ascending lists is ascending. -/
theorem list_merge_ascending (le : X → X → Bool) (ho : TotalOrder le) (n1 : Option Name) (l1 : Lst X) (n2 : Option Name)
    (l2 : Lst X) (h1 : Ascending le l1.elems) (h2 : Ascending le l2.elems) :
    Ascending le (listMerge H le n1 l1 n2 l2).elems := by
  rw [list_merge_elems]
  exact List.pairwise_merge ho.trans (fun a b => by rcases ho.total a b with h | h <;> simp [h]) _ _ h1 h2

/-- Taking over what is already in order, on sequences. -/
theorem merge_sublist (le : X → X → Bool) (ho : TotalOrder le) (xs ys c1 c2 : List X) (hx : Ascending le xs)
    (h1 : c1.Sublist xs) (h2 : c2.Sublist ys) (hc : Ascending le (c1 ++ c2)) : (c1 ++ c2).Sublist (List.merge xs ys le) := by
  fun_induction List.merge xs ys le generalizing c1 c2 with
  | case1 ys => cases h1; exact h2
  | case2 xs _ => cases h2; rw [List.append_nil]; exact h1
  | case3 x xs y ys hle ih =>
    cases h1 with
    | cons _ h1 => exact (ih c1 c2 (List.Pairwise.of_cons hx) h1 h2 hc).cons _
    | cons_cons _ h1 => exact (ih _ c2 (List.Pairwise.of_cons hx) h1 h2 (List.Pairwise.of_cons hc)).cons_cons _
  | case4 x xs y ys hle ih =>
    cases h2 with
    | cons _ h2 => exact (ih c1 c2 hx h1 h2 hc).cons _
    | cons_cons _ h2 =>
      rename_i c2
      match c1 with
      | [] => exact (ih [] c2 hx h1 h2 (List.Pairwise.of_cons hc)).cons_cons _
      | a :: c1 =>
        exfalso
        apply hle
        have hay : le a y = true := List.rel_of_pairwise_cons hc (by simp)
        have hxa : le x a = true := by
          have : a ∈ x :: xs := h1.subset (by simp)
          rcases List.mem_cons.1 this with e | e
          · subst e; rcases ho.total a a with h | h <;> exact h
          · exact List.rel_of_pairwise_cons hx e
        exact ho.trans _ _ _ hxa hay

/-- C39: what a sort of the sequence `s` is: an ascending permutation that keeps whatever was in order (it is stable). -/
structure SortOf (le : X → X → Bool) (s out : List X) : Prop where
  perm : out.Perm s
  ascending : Ascending le out
  stable : ∀ c, c.Sublist s → Ascending le c → c.Sublist out

theorem SortOf.nil (le : X → X → Bool) : SortOf le [] [] := ⟨.refl _, .nil, fun _ h _ => h⟩
theorem SortOf.one (le : X → X → Bool) (x : X) : SortOf le [x] [x] := ⟨.refl _, by simp [Ascending], fun _ h _ => h⟩
theorem SortOf.merge {le : X → X → Bool} (ho : TotalOrder le) {a b la lb : List X} (h1 : SortOf le a la) (h2 : SortOf le b lb) :
    SortOf le (a ++ b) (List.merge la lb le) := by
  refine ⟨(List.merge_perm_append le).trans (h1.perm.append h2.perm), ?_, ?_⟩
  · exact List.pairwise_merge ho.trans (fun a b => by rcases ho.total a b with h | h <;> simp [h]) _ _ h1.ascending h2.ascending
  · intro c hc ha
    obtain ⟨c1, c2, e, hc1, hc2⟩ := List.sublist_append_iff.1 hc
    subst e
    have := List.pairwise_append.1 ha
    exact merge_sublist le ho _ _ _ _ h1.ascending (h1.stable _ hc1 this.1) (h2.stable _ hc2 this.2.1) ha

/-- C39: `mergesort_list_of_tree` sorts the leaves: an ascending permutation of them, and stable. -/
theorem mergesort1_sorts (le : X → X → Bool) (ho : TotalOrder le) (t : Tree X) :
    SortOf le t.leaves (mergesort1 H le t).elems := by
  unfold mergesort1
  induction t with
  | nil => exact SortOf.nil le
  | leaf x => exact SortOf.one le x
  | bin lev l r ihl ihr =>
    simp only [treeFoldUp]
    rw [list_merge_elems]
    simp only [Tree.leaves, Tree.items, elmsOf_append]
    exact SortOf.merge ho ihl ihr
  | name n lev l r ihl ihr =>
    simp only [treeFoldUp]
    rw [list_merge_elems]
    simp only [Tree.leaves, Tree.items, elmsOf_append, elmsOf]
    exact SortOf.merge ho ihl ihr
  | art t ih => exact ih

/-- C39: `mergesort_list_of_tree2` sorts the leaves, whatever name it is given. -/
theorem mergesort2_sorts (le : X → X → Bool) (ho : TotalOrder le) (t : Tree X) (nm : Option Name) :
    SortOf le t.leaves (mergesort2 H le t nm).elems := by
  unfold mergesort2
  induction t generalizing nm with
  | nil => exact SortOf.nil le
  | leaf x => simp only [treeFoldUpNmDn]; rw [listNameOp_elems]; exact SortOf.one le x
  | bin lev l r ihl ihr =>
    simp only [treeFoldUpNmDn, listMergeWrapper]
    rw [list_merge_elems]
    simp only [Tree.leaves, Tree.items, elmsOf_append]
    exact SortOf.merge ho (ihl _) (ihr _)
  | name n lev l r ihl ihr =>
    simp only [treeFoldUpNmDn, listMergeWrapper]
    rw [list_merge_elems]
    simp only [Tree.leaves, Tree.items, elmsOf_append, elmsOf]
    exact SortOf.merge ho (ihl _) (ihr _)
  | art t ih => exact ih _

/-- C39: `mergesort_list_of_tree3` sorts the leaves, whatever name it is given. -/
theorem mergesort3_sorts (le : X → X → Bool) (ho : TotalOrder le) (t : Tree X) (nm : Option Name) :
    SortOf le t.leaves (mergesort3 H le t nm).elems := by
  unfold mergesort3
  induction t generalizing nm with
  | nil => exact SortOf.nil le
  | leaf x => simp only [treeFoldUpNmDn]; rw [listNameOp_elems]; exact SortOf.one le x
  | bin lev l r ihl ihr =>
    simp only [treeFoldUpNmDn, listMergeWrapper]
    rw [list_merge_elems]
    simp only [Tree.leaves, Tree.items, elmsOf_append]
    exact SortOf.merge ho (ihl _) (ihr _)
  | name n lev l r ihl ihr =>
    simp only [treeFoldUpNmDn, listMergeWrapper]
    rw [list_merge_elems]
    simp only [Tree.leaves, Tree.items, elmsOf_append, elmsOf]
    exact SortOf.merge ho (ihl _) (ihr _)
  | art t ih => exact ih _

theorem natLe : TotalOrder (fun a b : Nat => decide (a ≤ b)) :=
  ⟨fun a b => by simp; omega, fun a b c => by simp; omega⟩

example : SortOf (fun a b : Nat => decide (a ≤ b)) [3, 1, 2]
    (mergesort1 H (fun a b => decide (a ≤ b)) (.name nameUnit 5 (.art (.leaf 3)) (.bin 2 (.leaf 1) (.leaf 2)))).elems :=
  mergesort1_sorts H _ natLe (.name nameUnit 5 (.art (.leaf 3)) (.bin 2 (.leaf 1) (.leaf 2)))

end Adapton.Coll
