import Verif.Collections.Spec
/-
C36, C37, C42, C44: lists.
-/
namespace Adapton.Coll
variable {X Y R : Type} (H : NameHash)

@[simp] theorem elmsOf_append (a b : List (NameElse X)) : elmsOf (a ++ b) = elmsOf a ++ elmsOf b := by
  induction a with
  | nil => rfl
  | cons x a ih => cases x <;> simp [elmsOf, ih]

@[simp] theorem namesOf_append (a b : List (NameElse X)) : namesOf (a ++ b) = namesOf a ++ namesOf b := by
  induction a with
  | nil => rfl
  | cons x a ih => cases x <;> simp [namesOf, ih]

@[simp] theorem elmsOf_elm (s : List X) : elmsOf (s.map .elm) = s := by
  induction s with
  | nil => rfl
  | cons x s ih => simp [elmsOf, ih]

@[simp] theorem elmsOf_name (s : List Name) : elmsOf (s.map (NameElse.name (X := X))) = [] := by
  induction s with
  | nil => rfl
  | cons x s ih => simp [elmsOf, ih]

theorem elems_nil : (Lst.nil : Lst X).elems = [] := rfl
theorem elems_cons (x : X) (l) : (Lst.cons x l).elems = x :: l.elems := rfl
theorem elems_name (n) (l : Lst X) : (Lst.name n l).elems = l.elems := rfl
theorem elems_art (l : Lst X) : (Lst.art l).elems = l.elems := rfl

/-! C36 -/

theorem vecLoop_none (l : Lst X) (out) : vecLoop none l out = out ++ l.items := by
  induction l generalizing out with
  | nil => simp [vecLoop, Lst.items]
  | cons x l ih => simp [vecLoop, Lst.items, ih]
  | name n l ih => simp [vecLoop, Lst.items, ih]
  | art l ih => simp [vecLoop, Lst.items, ih]

theorem vecLoop_some (k) (l : Lst X) (out) (h : out.length < k) :
    vecLoop (some k) l out = out ++ l.items.take (k - out.length) := by
  induction l generalizing out with
  | nil => simp [vecLoop, Lst.items]
  | cons x l ih =>
    simp only [vecLoop, Lst.items]
    by_cases hk : (out ++ [NameElse.elm x]).length = k
    · rw [if_pos hk]
      simp at hk
      have : k - out.length = 1 := by omega
      simp [this]
    · rw [if_neg hk, ih]
      · simp at hk ⊢
        have : k - out.length = (k - (out.length + 1)) + 1 := by omega
        rw [this, List.take_succ_cons]
      · simp at hk ⊢; omega
  | name n l ih =>
    simp only [vecLoop, Lst.items]
    by_cases hk : (out ++ [NameElse.name n]).length = k
    · rw [if_pos hk]
      simp at hk
      have : k - out.length = 1 := by omega
      simp [this]
    · rw [if_neg hk, ih]
      · simp at hk ⊢
        have : k - out.length = (k - (out.length + 1)) + 1 := by omega
        rw [this, List.take_succ_cons]
      · simp at hk ⊢; omega
  | art l ih => simp only [vecLoop, Lst.items]; exact ih out h

theorem vecLoop_past (k) (l : Lst X) (out) (h : k ≤ out.length) :
    vecLoop (some k) l out = out ++ l.items := by
  induction l generalizing out with
  | nil => simp [vecLoop, Lst.items]
  | cons x l ih =>
    simp only [vecLoop, Lst.items]
    rw [if_neg (by simp; omega), ih _ (by simp; omega)]; simp
  | name n l ih =>
    simp only [vecLoop, Lst.items]
    rw [if_neg (by simp; omega), ih _ (by simp; omega)]; simp
  | art l ih => simp only [vecLoop, Lst.items]; exact ih out h

theorem listOfVec_items (v : List (NameElse X)) : (listOfVec v).items = v := by
  unfold listOfVec
  rw [List.foldl_reverse]
  induction v with
  | nil => rfl
  | cons x v ih =>
    cases x with
    | name n => exact congrArg (NameElse.name n :: ·) ih
    | elm x => exact congrArg (NameElse.elm x :: ·) ih

/-- C36: the items of a list are what `vec_of_list` returns; with a positive limit, the first ones. -/
theorem vec_of_list_items (l : Lst X) :
    vecOfList l none = l.items ∧ ∀ k, 0 < k → vecOfList l (some k) = l.items.take k := by
  constructor
  · simp [vecOfList, vecLoop_none]
  · intro k hk
    simp [vecOfList, vecLoop_some k l [] hk]

/-- C36: the round trip through a list, for every vector of elements and names; with a positive limit, its first entries. -/
theorem vec_list_round_trip (v : List (NameElse X)) :
    vecOfList (listOfVec v) none = v ∧ ∀ k, 0 < k → vecOfList (listOfVec v) (some k) = v.take k := by
  have h := vec_of_list_items (listOfVec v)
  rw [listOfVec_items] at h
  exact h

/-- C36: `list_demand` with demand zero is no limit at all: it walks the whole list (the length is compared after an entry has
been pushed). -/
theorem list_demand_zero (l : Lst X) : listDemand l 0 = l.items := by
  simp [listDemand, vecOfList, vecLoop_past 0 l [] (by simp)]

example : vecOfList (listOfVec [.elm 1, .name nameUnit, .elm 2, .elm 3]) (some 3) = [.elm 1, .name nameUnit, .elm (2 : Nat)] :=
  (vec_list_round_trip _).2 3 (by decide)

/-! C37 -/

/-- C37: `list_map_lazy` maps the elements (and keeps no name). -/
theorem list_map_lazy_items (f : X → Y) (l : Lst X) : (listMapLazy f l).items = (l.elems.map f).map .elm := by
  induction l with
  | nil => rfl
  | cons x l ih => simp only [listMapLazy, Lst.items, ih, elems_cons, List.map_cons]
  | name n l ih => simp only [listMapLazy, Lst.items, ih, elems_name]
  | art l ih => simp only [listMapLazy, ih, elems_art]

/-- What mapping does to an item: names stay. -/
def NameElse.map (f : X → Y) : NameElse X → NameElse Y
  | .elm x => .elm (f x)
  | .name n => .name n

/-- C37: `list_map_eager` maps the elements and keeps the names where they are. -/
theorem list_map_eager_items (f : X → Y) (l : Lst X) : (listMapEager f l).items = l.items.map (NameElse.map f) := by
  induction l with
  | nil => rfl
  | cons x l ih => simp only [listMapEager, Lst.items, ih, List.map_cons, NameElse.map]
  | name n l ih => simp only [listMapEager, Lst.items, ih, List.map_cons, NameElse.map]
  | art l ih => simp only [listMapEager, Lst.items, ih]

/-- C37: `list_map_eager2` maps the elements and puts a fork of each name where that name was. -/
theorem list_map_eager2_items (f : X → Y) (l : Lst X) :
    (listMapEager2 H f l).items = l.items.map (fun i => match i with
      | .elm x => .elm (f x)
      | .name n => .name (nameFork H n).1) := by
  induction l with
  | nil => rfl
  | cons x l ih => simp only [listMapEager2, Lst.items, ih, List.map_cons]
  | name n l ih => simp only [listMapEager2, Lst.items, nameFork3, lcell, ih, List.map_cons]
  | art l ih => simp only [listMapEager2, Lst.items, ih]

theorem elmsOf_map (f : X → Y) (s : List (NameElse X)) : elmsOf (s.map (NameElse.map f)) = (elmsOf s).map f := by
  induction s with
  | nil => rfl
  | cons x s ih => cases x <;> simp [elmsOf, NameElse.map, ih]

/-- C37: the three maps compute the map of the sequence of elements. -/
theorem list_map_elems (f : X → Y) (l : Lst X) :
    (listMapLazy f l).elems = l.elems.map f ∧ (listMapEager f l).elems = l.elems.map f ∧
      (listMapEager2 H f l).elems = l.elems.map f := by
  refine ⟨?_, ?_, ?_⟩
  · rw [Lst.elems, list_map_lazy_items, elmsOf_elm]
  · simp [Lst.elems, list_map_eager_items, elmsOf_map]
  · induction l with
    | nil => rfl
    | cons x l ih => simp only [listMapEager2, elems_cons, ih, List.map_cons]
    | name n l ih => simp only [listMapEager2, nameFork3, lcell, elems_name, elems_art, ih]
    | art l ih => simp only [listMapEager2, elems_art, ih]

/-- C37: `list_filter_eager` keeps the elements that satisfy the predicate, and all names, where they are. -/
theorem list_filter_eager_items (p : X → Bool) (l : Lst X) :
    (listFilterEager p l).items = l.items.filter (fun i => match i with
      | .elm x => p x
      | .name _ => true) := by
  induction l with
  | nil => rfl
  | cons x l ih =>
    by_cases h : p x = true
    · simp [listFilterEager, Lst.items, ih, h]
    · simp [listFilterEager, Lst.items, ih, h]
  | name n l ih => simp [listFilterEager, Lst.items, ih]
  | art l ih => simp only [listFilterEager, Lst.items, ih]

/-- C37: both filters compute the filter of the sequence of elements. -/
theorem list_filter_elems (p : X → Bool) (l : Lst X) :
    (listFilterLazy p l).elems = l.elems.filter p ∧ (listFilterEager p l).elems = l.elems.filter p := by
  constructor
  · induction l with
    | nil => rfl
    | cons x l ih =>
      by_cases h : p x = true
      · simp [listFilterLazy, elems_cons, ih, h]
      · simp [listFilterLazy, elems_cons, ih, h]
    | name n l ih => simp only [listFilterLazy, elems_name, elems_art, ih]
    | art l ih => simp only [listFilterLazy, elems_art, ih]
  · induction l with
    | nil => rfl
    | cons x l ih =>
      by_cases h : p x = true
      · simp [listFilterEager, elems_cons, ih, h]
      · simp [listFilterEager, elems_cons, ih, h]
    | name n l ih => simp only [listFilterEager, elems_name, elems_art, ih]
    | art l ih => simp only [listFilterEager, elems_art, ih]

theorem list_reverse_items_acc (l rev : Lst X) :
    (listReverse H l rev).items = (namesOf l.items).map .name ++ (l.elems.reverse.map .elm ++ rev.items) := by
  induction l generalizing rev with
  | nil => rfl
  | cons x l ih => simp [listReverse, Lst.items, ih, elems_cons, namesOf]
  | name n l ih => simp [listReverse, Lst.items, ih, elems_name, namesOf, lcell]
  | art l ih => simp only [listReverse, Lst.items, ih, elems_art]

/-- C37: `list_reverse` yields the elements in reverse in front of the accumulator; all names of the input, in input order, are
moved to the front. -/
theorem list_reverse_items (l : Lst X) :
    (listReverse H l .nil).items = (namesOf l.items).map .name ++ l.elems.reverse.map .elm := by
  rw [list_reverse_items_acc]; simp [Lst.items]

/-- C37: `list_reverse` reverses the sequence of elements. -/
theorem list_reverse_elems (l rev : Lst X) : (listReverse H l rev).elems = l.elems.reverse ++ rev.elems := by
  rw [Lst.elems, list_reverse_items_acc, elmsOf_append, elmsOf_append, elmsOf_elm, elmsOf_name]; rfl

/-- C37: `list_fold` is the fold from the right over the elements. -/
theorem list_fold_eq (f : X → R → R) (l : Lst X) (res : R) : listFold f l res = l.elems.foldr f res := by
  induction l with
  | nil => rfl
  | cons x l ih => simp only [listFold, ih, elems_cons, List.foldr_cons]
  | name n l ih => simp only [listFold, ih, elems_name]
  | art l ih => simp only [listFold, ih, elems_art]

/-- C37: `list_append` appends: the elements of the first list (its names are dropped), then the second list as it is. -/
theorem list_append_items (l1 l2 : Lst X) : (listAppend l1 l2).items = l1.elems.map .elm ++ l2.items := by
  rw [listAppend, list_fold_eq]
  induction l1.elems with
  | nil => rfl
  | cons x s ih => simp [Lst.items, ih]

/-- C37: `list_append` appends the sequences of elements. -/
theorem list_append_elems (l1 l2 : Lst X) : (listAppend l1 l2).elems = l1.elems ++ l2.elems := by
  simp [Lst.elems, list_append_items]

/-- C37: `list_is_empty` tells whether there is no element. -/
theorem list_is_empty_iff (l : Lst X) : isEmpty l = true ↔ l.elems = [] := by
  induction l with
  | nil => simp [isEmpty, elems_nil]
  | cons x l ih => simp [isEmpty, elems_cons]
  | name n l ih => simp [isEmpty, elems_name, ih]
  | art l ih => simp [isEmpty, elems_art, ih]

/-- C37: `list_pop` panics exactly on a list without elements, and otherwise yields the first element and a list of the others;
`list_push` puts an element in front. -/
theorem list_pop_push (l : Lst X) (x : X) :
    (listPop l).map (fun p => (p.1, p.2.elems)) = (match l.elems with
      | [] => none
      | y :: s => some (y, s)) ∧ (listPush l x).elems = x :: l.elems ∧ listPop (listPush l x) = some (x, l) := by
  refine ⟨?_, rfl, rfl⟩
  induction l with
  | nil => rfl
  | cons y l ih => rfl
  | name n l ih => simp only [listPop, elems_name, ih]
  | art l ih => simp only [listPop, elems_art, ih]

example : (listReverse (X := Nat) H (.cons 1 (.name nameUnit (.art (.cons 2 .nil)))) .nil).items =
    [.name nameUnit, .elm 2, .elm 1] := list_reverse_items H _

/-! C42 -/

/-- C42 (deviation): `list_gen` never generates anything: the range `len-1..0` is empty.  For every length at least one, the
result is the empty list, whatever the generator; for length zero a debug build panics. -/
theorem list_gen_empty (debug : Bool) (len : Nat) (g : Nat → X) :
    listGen H debug len g = (if len = 0 ∧ debug = true then none else some .nil) := by
  simp [listGen, rangeIter]

/-- C42 (deviation): so the claim "the elements of `list_gen(len, g)` are `g(0), ..., g(len-1)`" fails for every `len ≥ 1`. -/
theorem list_gen_not_generating (debug : Bool) (len : Nat) (g : Nat → X) (h : 0 < len) :
    ∃ l, listGen H debug len g = some l ∧ l.elems ≠ (List.range len).map g := by
  refine ⟨.nil, ?_, ?_⟩
  · rw [list_gen_empty, if_neg (by omega)]
  · rw [elems_nil]
    intro hc
    have := congrArg List.length hc
    simp at this
    omega

/-! C44 -/

/-- C44: looking up after an update: the new value at that key, the old one at every other key. -/
theorem map_find_update [DecidableEq X] (m : Lst (X × Y)) (d e : X) (c : Y) :
    mapFind e (mapUpdate m d c) = (if e = d then some c else mapFind e m) := rfl

/-- C44: the meaning of a map: the first pair with that key among the elements, whatever names and articulations occur. -/
theorem map_find_eq [DecidableEq X] (m : Lst (X × Y)) (d : X) :
    mapFind d m = (m.elems.find? (fun p => decide (d = p.1))).map (·.2) := by
  induction m with
  | nil => rfl
  | cons p m ih =>
    obtain ⟨d2, c⟩ := p
    by_cases h : d = d2
    · simp [mapFind, elems_cons, h]
    · simp [mapFind, elems_cons, h, ih]
  | name n m ih => simp only [mapFind, elems_name, ih]
  | art m ih => simp only [mapFind, elems_art, ih]

/-- C44: the empty map has no key. -/
theorem map_find_empty [DecidableEq X] (d : X) : mapFind d (mapEmpty : Lst (X × Y)) = none := rfl

/-- C44: `map_fold` visits every pair, from the last to the first. -/
theorem map_fold_eq (m : Lst (X × Y)) (r : R) (f : X → Y → R → R) :
    mapFold m r f = m.elems.foldr (fun p r => f p.1 p.2 r) r := list_fold_eq _ _ _

/-- C44: a set holds the keys of its elements. -/
theorem set_is_mem_iff [DecidableEq X] (s : Lst (X × Unit)) (e : X) : setIsMem s e = true ↔ e ∈ s.elems.map (·.1) := by
  unfold setIsMem
  rw [map_find_eq]
  induction s.elems with
  | nil => simp
  | cons p l ih =>
    obtain ⟨d, u⟩ := p
    by_cases h : e = d
    · simp [h]
    · simp only [List.find?_cons, h, decide_false, List.map_cons, List.mem_cons, false_or]
      exact ih

/-- C44: adding an element. -/
theorem set_add_iff [DecidableEq X] (s : Lst (X × Unit)) (x e : X) :
    setIsMem (setAdd s x) e = true ↔ e = x ∨ setIsMem s e = true := by
  rw [set_is_mem_iff, set_is_mem_iff]
  simp [setAdd, mapUpdate, elems_cons]

/-- C44: the intersection holds exactly the common members. -/
theorem set_inter_iff [DecidableEq X] (a b : Lst (X × Unit)) (e : X) :
    setIsMem (setInter a b) e = true ↔ setIsMem a e = true ∧ setIsMem b e = true := by
  have key : ∀ s : List (X × Unit),
      let r := s.foldr (fun p r => ((match mapFind p.1 r.2 with
        | some _ => setAdd r.1 p.1
        | none => r.1), r.2)) ((mapEmpty : Lst (X × Unit)), b)
      r.2 = b ∧ (setIsMem r.1 e = true ↔ e ∈ s.map (·.1) ∧ setIsMem b e = true) := by
    intro s
    induction s with
    | nil => simp [mapEmpty, setIsMem, mapFind]
    | cons p s ih =>
      obtain ⟨hb, hi⟩ := ih
      obtain ⟨d, u⟩ := p
      refine ⟨hb, ?_⟩
      simp only [List.foldr_cons, hb, List.map_cons, List.mem_cons]
      rcases hf : mapFind d b with _ | c
      · simp only [hi]
        constructor
        · rintro ⟨h1, h2⟩; exact ⟨.inr h1, h2⟩
        · rintro ⟨h1 | h1, h2⟩
          · subst h1; simp [setIsMem, hf] at h2
          · exact ⟨h1, h2⟩
      · simp only [set_add_iff, hi]
        constructor
        · rintro (h1 | ⟨h1, h2⟩)
          · subst h1; exact ⟨.inl rfl, by simp [setIsMem, hf]⟩
          · exact ⟨.inr h1, h2⟩
        · rintro ⟨h1 | h1, h2⟩
          · exact .inl h1
          · exact .inr ⟨h1, h2⟩
  have h := (key a.elems).2
  rw [set_is_mem_iff (s := a), ← h]
  unfold setInter
  rw [map_fold_eq]
  exact Iff.rfl

example : setIsMem (setInter (.name nameUnit (.cons (1, ()) (.art (.cons (2, ()) .nil)))) (.cons (2, ()) .nil)) (2 : Nat) = true := by
  rw [set_inter_iff]; decide

end Adapton.Coll
