import Verif.Props.Lists
/-
C40, C41, C43: trees.
-/
namespace Adapton.Coll
variable {X R : Type} (H : NameHash)

theorem view_nil_items {l : Lst X} (h : l.view = .nil) : l.items = [] := by
  induction l with
  | nil => rfl
  | cons y l ih => cases h
  | name n l ih => cases h
  | art l ih => exact ih h

theorem view_cons_items {l : Lst X} {x tl} (h : l.view = .cons x tl) : l.items = .elm x :: tl.items := by
  induction l with
  | nil => cases h
  | cons y l ih => cases h; rfl
  | name n l ih => cases h
  | art l ih => exact ih h

theorem view_name_items {l : Lst X} {n tl} (h : l.view = .name n tl) : l.items = .name n :: tl.items := by
  induction l with
  | nil => cases h
  | cons y l ih => cases h
  | name n l ih => cases h; rfl
  | art l ih => exact ih h

/-- The level `tree_of_list_rec` compares an item with. -/
def itemLev (K : Hashes X) : NameElse X → Nat
  | .elm x => levInc (levElm K x)
  | .name n => levInc (levAdd levBits (levName K n))

theorem trailingZeros_le (h : UInt64) : trailingZeros h ≤ 64 := by
  unfold trailingZeros
  have := (List.takeWhile_sublist (fun i => !(h.toNat.testBit i)) (l := List.range 64)).length_le
  simp at this ⊢
  exact this

theorem itemLev_le (K : Hashes X) (i : NameElse X) : itemLev K i ≤ 97 := by
  cases i with
  | elm x => have := trailingZeros_le (K.elm x); simp [itemLev, levInc, levElm]; omega
  | name n => have := trailingZeros_le (K.name n); simp [itemLev, levInc, levName, levAdd, levBits]; omega

/-- The levels in a tree decrease from the root down, and none exceeds `b`. -/
def Tree.Heap : Nat → Tree X → Prop
  | _, .nil => True
  | _, .leaf _ => True
  | b, .bin lev l r => lev ≤ b ∧ l.Heap lev ∧ r.Heap lev
  | b, .name _ lev l r => lev ≤ b ∧ l.Heap lev ∧ r.Heap lev
  | b, .art t => t.Heap b

theorem Tree.Heap.mono {t : Tree X} {a b : Nat} (h : t.Heap a) (hab : a ≤ b) : t.Heap b := by
  induction t generalizing a b with
  | nil => trivial
  | leaf x => trivial
  | bin lev l r _ _ => exact ⟨Nat.le_trans h.1 hab, h.2⟩
  | name n lev l r _ _ => exact ⟨Nat.le_trans h.1 hab, h.2⟩
  | art t ih => exact ih (a := a) h hab

/-- Items in the order in which the list is consumed. -/
def Tree.itemsFrom (t : Tree X) : Dir2 → List (NameElse X)
  | .left => t.items
  | .right => t.items.reverse

/-- What `tree_of_list_rec` returns: no item is lost or moved; if the first item's level is at least that of the tree, the rest
is empty or begins with an item of a level above the parent's; the levels in the tree decrease from the root down. -/
theorem treeOfListRec_spec (K : Hashes X) (dir : Dir2) (list : Lst X) (tree : Tree X) (tl pl : Nat) :
    let r := treeOfListRec K dir list tree tl pl
    r.1.1.itemsFrom dir ++ r.1.2.items = tree.itemsFrom dir ++ list.items ∧
    ((∀ i s, list.items = i :: s → tl ≤ itemLev K i) → ∀ i s, r.1.2.items = i :: s → pl < itemLev K i) ∧
    (tree.Heap tl → tl ≤ pl → r.1.1.Heap pl) := by
  fun_induction treeOfListRec K dir list tree tl pl with
  | case1 list tree tl pl hv =>
    simp only [view_nil_items hv]
    exact ⟨rfl, (fun _ i s h => by cases h), fun h hl => h.mono hl⟩
  | case2 list tree tl pl hd rest hv levHd hc leaf tree2 rest2 h2 he tree3 r ih2 ih1 =>
    simp only [] at ih1 ih2 ⊢
    rw [he] at ih2
    simp only [] at ih2
    obtain ⟨a2, b2, c2⟩ := ih2
    obtain ⟨a1, b1, c1⟩ := ih1
    have hl : tl ≤ levHd ∧ levHd ≤ pl := by simpa [levLte] using hc
    have ht3 : tree3.itemsFrom dir = tree.itemsFrom dir ++ tree2.itemsFrom dir := by
      cases dir <;> simp [tree3, Tree.itemsFrom, Tree.items]
    have hleaf : leaf.itemsFrom dir = [.elm hd] := by cases dir <;> rfl
    refine ⟨?_, ?_, ?_⟩
    · rw [a1, ht3, List.append_assoc, a2, hleaf, view_cons_items hv]; rfl
    · intro _
      apply b1
      intro i s hi
      exact Nat.le_of_lt (b2 (fun _ _ _ => Nat.zero_le _) i s hi)
    · intro ht _
      apply c1 _ hl.2
      have h2 := c2 trivial (Nat.zero_le _)
      cases dir
      · exact ⟨Nat.le_refl _, ht.mono hl.1, h2⟩
      · exact ⟨Nat.le_refl _, h2, ht.mono hl.1⟩
  | case3 list tree tl pl hd rest hv levHd hc =>
    refine ⟨by rw [view_cons_items hv]; rfl, ?_, fun h hl => h.mono hl⟩
    intro hh i s hi
    cases hi
    have := hh _ _ (view_cons_items hv)
    simp only [levLte, Bool.and_eq_true, decide_eq_true_eq] at hc
    simp only [itemLev] at this ⊢
    omega
  | case4 list tree tl pl nm rest hv levNm hc tree2 rest2 h2 he tree3 tree3' r ih2 ih1 =>
    simp only [] at ih1 ih2 ⊢
    rw [he] at ih2
    simp only [] at ih2
    obtain ⟨a2, b2, c2⟩ := ih2
    obtain ⟨a1, b1, c1⟩ := ih1
    have hl : tl ≤ levNm ∧ levNm ≤ pl := by simpa [levLte] using hc
    have ht3 : tree3'.itemsFrom dir = tree.itemsFrom dir ++ .name nm :: tree2.itemsFrom dir := by
      cases dir <;> simp [tree3', tree3, tcell, Tree.itemsFrom, Tree.items]
    have hnil : (Tree.nil : Tree X).itemsFrom dir = [] := by cases dir <;> rfl
    refine ⟨?_, ?_, ?_⟩
    · rw [a1, ht3, List.append_assoc, List.cons_append, a2, hnil, view_name_items hv]; rfl
    · intro _
      apply b1
      intro i s hi
      exact Nat.le_of_lt (b2 (fun _ _ _ => Nat.zero_le _) i s hi)
    · intro ht _
      apply c1 _ hl.2
      have h2 := c2 trivial (Nat.zero_le _)
      cases dir
      · exact ⟨Nat.le_refl _, ht.mono hl.1, h2⟩
      · exact ⟨Nat.le_refl _, h2, ht.mono hl.1⟩
  | case5 list tree tl pl nm rest hv levNm hc =>
    refine ⟨by rw [view_name_items hv]; rfl, ?_, fun h hl => h.mono hl⟩
    intro hh i s hi
    cases hi
    have := hh _ _ (view_name_items hv)
    simp only [levLte, Bool.and_eq_true, decide_eq_true_eq] at hc
    simp only [itemLev] at this ⊢
    omega

theorem isEmpty_of_items {l : Lst X} (h : l.items = []) : isEmpty l = true := by
  rw [list_is_empty_iff]; simp [Lst.elems, h, elmsOf]

/-- `tree_of_list` consumes the whole list. -/
theorem toLR_rest (K : Hashes X) (dir : Dir2) (l : Lst X) : (treeOfListRec K dir l .nil levZero levMaxVal).1.2.items = [] := by
  have h2 := (treeOfListRec_spec K dir l .nil levZero levMaxVal).2.1
  rcases hi : (treeOfListRec K dir l .nil levZero levMaxVal).1.2.items with _ | ⟨i, s⟩
  · rfl
  · exfalso
    have := h2 (fun _ _ _ => Nat.zero_le _) i s hi
    have h97 := itemLev_le K i
    simp only [levMaxVal] at this
    omega

/-- C40: `tree_of_list` never fails its assertion, for every hash function; the tree holds the elements and names of the list,
from left to right for `Left` and from right to left for `Right`; and its levels decrease from the root down. -/
theorem tree_of_list_items (K : Hashes X) (dir : Dir2) (l : Lst X) :
    ∃ t, treeOfList K dir l = some t ∧ (dir = .left → t.items = l.items) ∧ (dir = .right → t.items = l.items.reverse) ∧
      ∃ b, t.Heap b := by
  have h := treeOfListRec_spec K dir l .nil levZero levMaxVal
  simp only [] at h
  obtain ⟨h1, h2, h3⟩ := h
  have hr := toLR_rest K dir l
  refine ⟨(treeOfListRec K dir l .nil levZero levMaxVal).1.1, ?_, ?_, ?_, _, h3 trivial (Nat.zero_le _)⟩
  · simp only [treeOfList]
    rw [if_pos (isEmpty_of_items hr)]
  · rintro rfl
    rw [hr] at h1
    simpa [Tree.itemsFrom, Tree.items] using h1
  · rintro rfl
    rw [hr] at h1
    have : (treeOfListRec K .right l .nil levZero levMaxVal).1.1.items.reverse = l.items := by
      simpa [Tree.itemsFrom, Tree.items] using h1
    rw [← this, List.reverse_reverse]

theorem treeFoldSeq_left (leaf : X → R → R) (bin : Nat → R → R) (name : Name → Nat → R → R) (g : NameElse X → R → R)
    (hl : ∀ x r, leaf x r = g (.elm x) r) (hb : ∀ n r, bin n r = r) (hn : ∀ n lev r, name n lev r = g (.name n) r)
    (t : Tree X) (r : R) : treeFoldSeq .left leaf bin name t r = t.items.foldl (fun r i => g i r) r := by
  induction t generalizing r with
  | nil => rfl
  | leaf x => simp [treeFoldSeq, Tree.items, hl]
  | bin lev a b iha ihb => simp [treeFoldSeq, Tree.items, iha, ihb, hb]
  | name n lev a b iha ihb => simp [treeFoldSeq, Tree.items, iha, ihb, hn]
  | art t ih => simp [treeFoldSeq, Tree.items, ih]

theorem treeFoldSeq_right (leaf : X → R → R) (bin : Nat → R → R) (name : Name → Nat → R → R) (g : NameElse X → R → R)
    (hl : ∀ x r, leaf x r = g (.elm x) r) (hb : ∀ n r, bin n r = r) (hn : ∀ n lev r, name n lev r = g (.name n) r)
    (t : Tree X) (r : R) : treeFoldSeq .right leaf bin name t r = t.items.foldr g r := by
  induction t generalizing r with
  | nil => rfl
  | leaf x => simp [treeFoldSeq, Tree.items, hl]
  | bin lev a b iha ihb => simp [treeFoldSeq, Tree.items, iha, ihb, hb]
  | name n lev a b iha ihb => simp [treeFoldSeq, Tree.items, iha, ihb, hn]
  | art t ih => simp [treeFoldSeq, Tree.items, ih]

/-- C41: `tree_fold_seq` with a `bin` function that ignores its node visits the leaves and names of the tree one after another:
from left to right for `Left`, from right to left for `Right`. -/
theorem tree_fold_seq_order (leaf : X → R → R) (name : Name → R → R) (t : Tree X) (r : R) :
    let g : NameElse X → R → R := fun i r => match i with
      | .elm x => leaf x r
      | .name n => name n r
    treeFoldSeq .left leaf (fun _ r => r) (fun n _ r => name n r) t r = t.items.foldl (fun r i => g i r) r ∧
    treeFoldSeq .right leaf (fun _ r => r) (fun n _ r => name n r) t r = t.items.foldr g r :=
  ⟨treeFoldSeq_left _ _ _ _ (by intros; rfl) (by intros; rfl) (by intros; rfl) t r,
   treeFoldSeq_right _ _ _ _ (by intros; rfl) (by intros; rfl) (by intros; rfl) t r⟩

/-- How an item is put in front of a list by `list_of_tree`. -/
def putItem (i : NameElse X) (l : Lst X) : Lst X :=
  match i with
  | .elm x => .cons x l
  | .name n => .name n (lcell n l)

theorem putItem_items (i : NameElse X) (l : Lst X) : (putItem i l).items = i :: l.items := by cases i <;> rfl

theorem foldr_putItem (s : List (NameElse X)) (l : Lst X) : (s.foldr putItem l).items = s ++ l.items := by
  induction s with
  | nil => rfl
  | cons i s ih => simp [putItem_items, ih]

theorem foldl_putItem (s : List (NameElse X)) (l : Lst X) :
    (s.foldl (fun r i => putItem i r) l).items = s.reverse ++ l.items := by
  induction s generalizing l with
  | nil => rfl
  | cons i s ih => simp [putItem_items, ih]

/-- C40: `list_of_tree` lists the elements and names of the tree, from left to right for `Left`, from right to left for
`Right`. -/
theorem list_of_tree_items (t : Tree X) :
    (listOfTree t .left).items = t.items ∧ (listOfTree t .right).items = t.items.reverse := by
  constructor
  · simp only [listOfTree, Dir2.invert]
    rw [treeFoldSeq_right (g := putItem), foldr_putItem]
    · simp [Lst.items]
    all_goals intros; rfl
  · simp only [listOfTree, Dir2.invert]
    rw [treeFoldSeq_left (g := putItem), foldl_putItem]
    · simp [Lst.items]
    all_goals intros; rfl

/-- C40: the round trip of a list through a tree, in either direction, for every list and every hash function: the same elements
and names in the same order. -/
theorem list_tree_round_trip (K : Hashes X) (dir : Dir2) (l : Lst X) :
    ∃ t, treeOfList K dir l = some t ∧ (listOfTree t dir).items = l.items := by
  obtain ⟨t, ht, hl, hr, _⟩ := tree_of_list_items K dir l
  refine ⟨t, ht, ?_⟩
  cases dir
  · rw [(list_of_tree_items t).1, hl rfl]
  · rw [(list_of_tree_items t).2, hr rfl, List.reverse_reverse]

/-- C40: the tree depends on the elements and names only, not on where the list is articulated. -/
theorem treeOfListRec_congr (K : Hashes X) (dir : Dir2) (l l' : Lst X) (h : l.items = l'.items) (tree : Tree X) (tl pl : Nat) :
    (treeOfListRec K dir l tree tl pl).1.1 = (treeOfListRec K dir l' tree tl pl).1.1 ∧
    (treeOfListRec K dir l tree tl pl).1.2.items = (treeOfListRec K dir l' tree tl pl).1.2.items := by
  fun_induction treeOfListRec K dir l tree tl pl generalizing l' with
  | case1 list tree tl pl hv =>
    rw [view_nil_items hv] at h
    unfold treeOfListRec
    split
    · exact ⟨rfl, rfl⟩
    · rename_i hv'; rw [view_cons_items hv'] at h; cases h
    · rename_i hv'; rw [view_name_items hv'] at h; cases h
  | case2 list tree tl pl hd rest hv levHd hc leaf tree2 rest2 h2 he tree3 r ih2 ih1 =>
    rw [view_cons_items hv] at h
    rw [treeOfListRec.eq_def K dir l']
    split
    · rename_i hv'; rw [view_nil_items hv'] at h; cases h
    · rename_i hd' rest' hv'
      rw [view_cons_items hv'] at h
      injection h with h0 h
      injection h0 with h0
      subst h0
      obtain ⟨i1, i2⟩ := ih2 rest' h
      rw [he] at i1 i2
      rw [if_pos hc]
      rcases he' : treeOfListRec K dir rest' (.leaf hd) levZero levHd with ⟨⟨tree2', rest2'⟩, h2'⟩
      rw [he'] at i1 i2
      simp only [] at i1 i2
      subst i1
      simp only [levHd] at he'
      simp only [he']
      rw [he']
      exact ih1 rest2' i2
    · rename_i hv'; rw [view_name_items hv'] at h; cases h
  | case3 list tree tl pl hd rest hv levHd hc =>
    rw [view_cons_items hv] at h
    rw [treeOfListRec.eq_def K dir l']
    split
    · rename_i hv'; rw [view_nil_items hv'] at h; cases h
    · rename_i hd' rest' hv'
      rw [view_cons_items hv'] at h
      injection h with h0 h
      injection h0 with h0
      subst h0
      rw [if_neg hc]
      exact ⟨rfl, by simp [Lst.items, h]⟩
    · rename_i hv'; rw [view_name_items hv'] at h; cases h
  | case4 list tree tl pl nm rest hv levNm hc tree2 rest2 h2 he tree3 tree3' r ih2 ih1 =>
    rw [view_name_items hv] at h
    rw [treeOfListRec.eq_def K dir l']
    split
    · rename_i hv'; rw [view_nil_items hv'] at h; cases h
    · rename_i hv'; rw [view_cons_items hv'] at h; cases h
    · rename_i nm' rest' hv'
      rw [view_name_items hv'] at h
      injection h with h0 h
      injection h0 with h0
      subst h0
      obtain ⟨i1, i2⟩ := ih2 rest' h
      rw [he] at i1 i2
      rw [if_pos hc]
      rcases he' : treeOfListRec K dir rest' .nil levZero levNm with ⟨⟨tree2', rest2'⟩, h2'⟩
      rw [he'] at i1 i2
      simp only [] at i1 i2
      subst i1
      exact ih1 rest2' i2
  | case5 list tree tl pl nm rest hv levNm hc =>
    rw [view_name_items hv] at h
    rw [treeOfListRec.eq_def K dir l']
    split
    · rename_i hv'; rw [view_nil_items hv'] at h; cases h
    · rename_i hv'; rw [view_cons_items hv'] at h; cases h
    · rename_i nm' rest' hv'
      rw [view_name_items hv'] at h
      injection h with h0 h
      injection h0 with h0
      subst h0
      rw [if_neg hc]
      exact ⟨rfl, by simp [Lst.items, h]⟩

/-- C40: the tree depends on the elements and names only: lists with the same items give equal trees, however they are
articulated. -/
theorem tree_of_list_canonical (K : Hashes X) (dir : Dir2) (l l' : Lst X) (h : l.items = l'.items) :
    treeOfList K dir l = treeOfList K dir l' := by
  obtain ⟨t, ht, _⟩ := tree_of_list_items K dir l
  obtain ⟨t', ht', _⟩ := tree_of_list_items K dir l'
  have hc := (treeOfListRec_congr K dir l l' h .nil levZero levMaxVal).1
  rw [ht, ht']
  simp only [treeOfList] at ht ht'
  split at ht <;> cases ht
  split at ht' <;> cases ht'
  rw [hc]

/-! C41 -/

/-- C41: `monoid_of_tree` aggregates the leaves from left to right, for every monoid. -/
theorem monoid_of_tree_eq (t : Tree X) (e : X) (op : X → X → X) (hassoc : ∀ a b c, op (op a b) c = op a (op b c))
    (hl : ∀ a, op e a = a) (hr : ∀ a, op a e = a) : monoidOfTree t e op = t.leaves.foldr op e := by
  have happ : ∀ s s' : List X, op (s.foldr op e) (s'.foldr op e) = (s ++ s').foldr op e := by
    intro s s'
    induction s with
    | nil => simp [hl]
    | cons x s ih => simp only [List.foldr_cons, List.cons_append]; rw [hassoc, ih]
  unfold monoidOfTree
  induction t with
  | nil => rfl
  | leaf x => simp [treeFoldUp, Tree.leaves, Tree.items, elmsOf, hr]
  | bin lev a b iha ihb =>
    simp only [treeFoldUp, iha, ihb, happ]
    simp [Tree.leaves, Tree.items]
  | name n lev a b iha ihb =>
    simp only [treeFoldUp, iha, ihb, happ]
    simp [Tree.leaves, Tree.items, elmsOf]
  | art t ih => exact ih

/-- C41: the emptiness tests: `is_empty` tells whether there is no leaf. -/
theorem tree_is_empty_iff (t : Tree X) : tIsEmpty t = true ↔ t.leaves = [] := by
  induction t with
  | nil => simp [tIsEmpty, Tree.leaves, Tree.items, elmsOf]
  | leaf x => simp [tIsEmpty, Tree.leaves, Tree.items, elmsOf]
  | bin lev a b iha ihb => simp [tIsEmpty, iha, ihb, Tree.leaves, Tree.items]
  | name n lev a b iha ihb => simp [tIsEmpty, iha, ihb, Tree.leaves, Tree.items, elmsOf]
  | art t ih => exact ih

theorem tIsNil_leaves {t : Tree X} (h : tIsNil t = true) : t.leaves = [] := by
  induction t with
  | nil => rfl
  | leaf x => cases h
  | bin lev a b iha ihb => cases h
  | name n lev a b iha ihb => cases h
  | art t ih => exact ih h

theorem binArtsNiltest_leaves (n : Option Name) (lev : Nat) (l r : Tree X) :
    (binArtsNiltest H n lev l r).leaves = l.leaves ++ r.leaves := by
  unfold binArtsNiltest
  by_cases h1 : tIsNil l = true
  · rw [if_pos h1, tIsNil_leaves h1]; rfl
  · rw [if_neg h1]
    by_cases h2 : tIsNil r = true
    · rw [if_pos h2, tIsNil_leaves h2, List.append_nil]
    · rw [if_neg h2]
      cases n with
      | none => simp [Tree.leaves, Tree.items]
      | some n => simp [Tree.leaves, Tree.items, tcell, elmsOf]

/-- C41: `filter_tree_of_tree` keeps exactly the leaves that satisfy the predicate, in order. -/
theorem filter_tree_leaves (t : Tree X) (p : X → Bool) : (filterTreeOfTree H t p).leaves = t.leaves.filter p := by
  unfold filterTreeOfTree
  induction t with
  | nil => rfl
  | leaf x =>
    by_cases h : p x = true
    · simp [treeFoldUp, Tree.leaves, Tree.items, elmsOf, h]
    · simp [treeFoldUp, Tree.leaves, Tree.items, elmsOf, h]
  | bin lev a b iha ihb =>
    simp only [treeFoldUp, binArtsNiltest_leaves, iha, ihb]
    simp [Tree.leaves, Tree.items]
  | name n lev a b iha ihb =>
    simp only [treeFoldUp, binArtsNiltest_leaves, iha, ihb]
    simp [Tree.leaves, Tree.items, elmsOf]
  | art t ih => exact ih

/-- A tree without articulations. -/
def Tree.NoArt : Tree X → Prop
  | .nil => True
  | .leaf _ => True
  | .bin _ l r => l.NoArt ∧ r.NoArt
  | .name _ _ l r => l.NoArt ∧ r.NoArt
  | .art _ => False

/-- The tree with its articulations taken away. -/
def Tree.strip : Tree X → Tree X
  | .nil => .nil
  | .leaf x => .leaf x
  | .bin lev l r => .bin lev l.strip r.strip
  | .name n lev l r => .name n lev l.strip r.strip
  | .art t => t.strip

/-- C41: `eager_tree_of_tree` is the same tree without its articulations: no articulation is left, and the elements and names are
those of the input, in order. -/
theorem eager_tree_eq (t : Tree X) :
    eagerTreeOfTree t = t.strip ∧ (eagerTreeOfTree t).NoArt ∧ (eagerTreeOfTree t).items = t.items := by
  unfold eagerTreeOfTree
  induction t with
  | nil => exact ⟨rfl, trivial, rfl⟩
  | leaf x => exact ⟨rfl, trivial, rfl⟩
  | bin lev a b iha ihb =>
    refine ⟨?_, ⟨iha.2.1, ihb.2.1⟩, ?_⟩
    · simp only [treeFoldUp, Tree.strip, iha.1, ihb.1]
    · simp only [treeFoldUp, Tree.items, iha.2.2, ihb.2.2]
  | name n lev a b iha ihb =>
    refine ⟨?_, ⟨iha.2.1, ihb.2.1⟩, ?_⟩
    · simp only [treeFoldUp, Tree.strip, iha.1, ihb.1]
    · simp only [treeFoldUp, Tree.items, iha.2.2, ihb.2.2]
  | art t ih => exact ih

/-- No empty subtree anywhere (also behind articulations). -/
def Tree.NoNil : Tree X → Prop
  | .nil => False
  | .leaf _ => True
  | .bin _ l r => l.NoNil ∧ r.NoNil
  | .name _ _ l r => l.NoNil ∧ r.NoNil
  | .art t => t.NoNil

theorem NoNil.leaves {t : Tree X} (h : t.NoNil) : t.leaves ≠ [] := by
  induction t with
  | nil => exact h.elim
  | leaf x => simp [Tree.leaves, Tree.items, elmsOf]
  | bin lev a b iha ihb =>
    have := iha h.1
    simp only [Tree.leaves, Tree.items, elmsOf_append] at this ⊢
    simp [this]
  | name n lev a b iha ihb =>
    have := iha h.1
    simp only [Tree.leaves, Tree.items, elmsOf_append] at this ⊢
    simp [this]
  | art t ih => exact ih h

theorem NoNil.isNil {t : Tree X} (h : t.NoNil) : tIsNil t = false := by
  induction t with
  | nil => exact h.elim
  | leaf x => rfl
  | bin lev a b iha ihb => rfl
  | name n lev a b iha ihb => rfl
  | art t ih => exact ih h

theorem binArtsNiltest_noNil (n : Option Name) (lev : Nat) {l r : Tree X} (hl : l = .nil ∨ l.NoNil) (hr : r = .nil ∨ r.NoNil) :
    binArtsNiltest H n lev l r = .nil ∨ (binArtsNiltest H n lev l r).NoNil := by
  unfold binArtsNiltest
  rcases hl with rfl | hl
  · exact hr
  · rw [if_neg (by simp [NoNil.isNil hl])]
    rcases hr with rfl | hr
    · exact .inr hl
    · rw [if_neg (by simp [NoNil.isNil hr])]
      right
      cases n with
      | none => exact ⟨hl, hr⟩
      | some n => exact ⟨hl, hr⟩

/-- C41: `prune_tree_of_tree` keeps the leaves in order and leaves no empty subtree: the result has none, unless it is the empty
tree itself, and that only for an input without leaves. -/
theorem prune_tree_spec (t : Tree X) :
    (pruneTreeOfTree H t).leaves = t.leaves ∧
    ((pruneTreeOfTree H t).NoNil ∨ (pruneTreeOfTree H t = .nil ∧ t.leaves = [])) := by
  have hlv : (pruneTreeOfTree H t).leaves = t.leaves := by
    unfold pruneTreeOfTree
    induction t with
    | nil => rfl
    | leaf x => rfl
    | bin lev a b iha ihb =>
      simp only [treeFoldUp, binArtsNiltest_leaves, iha, ihb]
      simp [Tree.leaves, Tree.items]
    | name n lev a b iha ihb =>
      simp only [treeFoldUp, binArtsNiltest_leaves, iha, ihb]
      simp [Tree.leaves, Tree.items, elmsOf]
    | art t ih => exact ih
  have hn : pruneTreeOfTree H t = .nil ∨ (pruneTreeOfTree H t).NoNil := by
    clear hlv
    unfold pruneTreeOfTree
    induction t with
    | nil => exact .inl rfl
    | leaf x => exact .inr trivial
    | bin lev a b iha ihb => exact binArtsNiltest_noNil H none lev iha ihb
    | name n lev a b iha ihb => exact binArtsNiltest_noNil H (some n) lev iha ihb
    | art t ih => exact ih
  refine ⟨hlv, ?_⟩
  rcases hn with h | h
  · exact .inr ⟨h, by rw [← hlv, h]; rfl⟩
  · exact .inl h

/-- C41: so does `filter_tree_of_tree`: no empty subtree is left. -/
theorem filter_tree_noNil (t : Tree X) (p : X → Bool) :
    (filterTreeOfTree H t p).NoNil ∨ (filterTreeOfTree H t p = .nil ∧ t.leaves.filter p = []) := by
  have hn : filterTreeOfTree H t p = .nil ∨ (filterTreeOfTree H t p).NoNil := by
    unfold filterTreeOfTree
    induction t with
    | nil => exact .inl rfl
    | leaf x =>
      by_cases h : p x = true
      · right; simp [treeFoldUp, h, Tree.NoNil]
      · left; simp [treeFoldUp, h]
    | bin lev a b iha ihb => exact binArtsNiltest_noNil H none lev iha ihb
    | name n lev a b iha ihb => exact binArtsNiltest_noNil H (some n) lev iha ihb
    | art t ih => exact ih
  rcases hn with h | h
  · exact .inr ⟨h, by rw [← filter_tree_leaves H, h]; rfl⟩
  · exact .inl h

/-- C51 (deviation): `filter_tree_of_tree` is documented to retain all names "even if they merely name empty sub-trees".  It does
not: whenever one side of a named node filters to nothing, the name is gone. -/
theorem filter_tree_drops_names (n : Name) (lev : Nat) (l r : Tree X) (p : X → Bool)
    (h : l.leaves.filter p = [] ∨ r.leaves.filter p = []) :
    (filterTreeOfTree H (.name n lev l r) p).items =
      (filterTreeOfTree H l p).items ++ (filterTreeOfTree H r p).items := by
  have hnil : ∀ t : Tree X, t.leaves.filter p = [] → filterTreeOfTree H t p = .nil := by
    intro t ht
    rcases filter_tree_noNil H t p with h | h
    · exact absurd ((filter_tree_leaves H t p).trans ht) (NoNil.leaves h)
    · exact h.1
  show (binArtsNiltest H (some n) lev (filterTreeOfTree H l p) (filterTreeOfTree H r p)).items = _
  unfold binArtsNiltest
  rcases h with h | h
  · rw [hnil l h]; rfl
  · rw [hnil r h]
    by_cases h1 : tIsNil (filterTreeOfTree H l p) = true
    · rw [if_pos h1]
      rcases filter_tree_noNil H l p with h2 | h2
      · simp [NoNil.isNil h2] at h1
      · rw [h2.1]; rfl
    · rw [if_neg h1]
      simp [tIsNil, Tree.items]

/-- C51 (deviation), concretely: filtering both leaves of a named node away leaves no name, though the tree had one. -/
theorem filter_tree_names_counterexample (n : Name) (lev : Nat) (x y : X) :
    namesOf (Tree.name n lev (.leaf x) (.leaf y)).items = [n] ∧
    namesOf (filterTreeOfTree H (.name n lev (.leaf x) (.leaf y)) (fun _ => false)).items = [] := by
  refine ⟨rfl, ?_⟩
  rw [filter_tree_drops_names H _ _ _ _ _ (.inl (by simp))]
  simp [filterTreeOfTree, treeFoldUp, Tree.items, namesOf]

/-! C43 -/

/-- The names after the last element satisfying `p`. -/
def trailingNames (p : X → Bool) : List (NameElse X) → List Name
  | [] => []
  | .elm _ :: s => trailingNames p s
  | .name n :: s => if (elmsOf s).filter p = [] then n :: trailingNames p s else trailingNames p s

theorem isName_iff (l : Lst X) : isName l = true ↔ ∃ x s, l.items = .elm x :: s := by
  unfold isName
  rcases h : l.view with _ | ⟨x, tl⟩ | ⟨n, tl⟩
  · simp [view_nil_items h]
  · simp [view_cons_items h]
  · simp [view_name_items h]

/-- C43 (deviation): `is_name` answers for `cons`: it is true exactly when the list begins with an element, and false when it
begins with a name. -/
theorem is_name_swapped (l : Lst X) :
    (isName l = true ↔ ∃ x s, l.items = .elm x :: s) ∧ (∀ n s, l.items = .name n :: s → isName l = false) := by
  refine ⟨isName_iff l, fun n s h => ?_⟩
  rcases hb : isName l with _ | _
  · rfl
  · obtain ⟨x, s', h'⟩ := (isName_iff l).1 hb
    rw [h] at h'; cases h'

/-- C43: what `filter_list_of_tree` returns, exactly: the elements that satisfy the predicate, in order, without any name between
them, then every name that stands after the last of them. -/
theorem filter_list_of_tree_items (t : Tree X) (p : X → Bool) :
    (filterListOfTree t p).items = (t.leaves.filter p).map .elm ++ (trailingNames p t.items).map .name := by
  unfold filterListOfTree
  rw [treeFoldSeq_right (g := fun i l => match i with
    | .elm x => if p x then .cons x l else l
    | .name n => if isName l then l else .name n (lcell n l)) (hl := by intros; rfl) (hb := by intros; rfl)
    (hn := by intros; rfl)]
  unfold Tree.leaves
  induction t.items with
  | nil => rfl
  | cons i s ih =>
    cases i with
    | elm x =>
      simp only [List.foldr_cons, elmsOf, trailingNames]
      by_cases h : p x = true
      · rw [if_pos h]; simp only [Lst.items, ih]; simp [h]
      · rw [if_neg h, ih]; simp [h]
    | name n =>
      simp only [List.foldr_cons, elmsOf, trailingNames]
      rcases hf : (elmsOf s).filter p with _ | ⟨y, f⟩
      · rw [if_neg]
        · rw [hf] at ih
          show NameElse.name n :: Lst.items _ = _
          refine (congrArg (NameElse.name n :: ·) ih).trans ?_
          simp
        · rw [isName_iff, ih, hf]
          rintro ⟨x, s', h⟩
          rcases ht : trailingNames p s with _ | ⟨m, tn⟩
          · rw [ht] at h; cases h
          · rw [ht] at h; cases h
      · rw [if_pos, ih, hf]
        · simp
        · rw [isName_iff, ih, hf]
          exact ⟨_, _, rfl⟩

/-- C43: the elements are right: the leaves that satisfy the predicate, in order. -/
theorem filter_list_of_tree_elems (t : Tree X) (p : X → Bool) : (filterListOfTree t p).elems = t.leaves.filter p := by
  rw [Lst.elems, filter_list_of_tree_items, elmsOf_append, elmsOf_elm, elmsOf_name, List.append_nil]

/-- C43 (deviation): the documented "exactly one name between any two elements separated by a name" fails: two kept leaves
separated by a name come out with none between them. -/
theorem filter_list_of_tree_no_name (n : Name) (lev : Nat) (x y : X) (p : X → Bool) (hx : p x = true) (hy : p y = true) :
    (filterListOfTree (.name n lev (.leaf x) (.leaf y)) p).items = [.elm x, .elm y] := by
  rw [filter_list_of_tree_items]
  simp [Tree.leaves, Tree.items, elmsOf, hx, hy, trailingNames]

example (K : Hashes Nat) : ∃ t, treeOfList K .right (.cons 1 (.name nameUnit (.art (.cons 2 .nil)))) = some t ∧
    (listOfTree t .right).items = [.elm 1, .name nameUnit, .elm 2] := list_tree_round_trip K .right _

end Adapton.Coll
