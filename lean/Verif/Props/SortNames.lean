import Verif.Props.Sorting
/-
C62: the names in the result of sorting, and the names at which sorting allocates its thunks.  Names are first-class and must not be
used twice in one namespace: `list_merge` and the folds make the names they need by forking the names of their input.
-/
set_option linter.unusedSectionVars false
set_option linter.unusedVariables false
namespace Adapton.Coll
variable (H : NameHash) {X : Type}

/-! ### Specification -/

/-- `a` is `o` or is made from `o` by forking, any number of times. -/
inductive Under (o : NameSym) : NameSym → Prop
  | refl : Under o o
  | left {a} : Under o a → Under o (.forkL a)
  | right {a} : Under o a → Under o (.forkR a)

/-- Two names are independent: forking them, any number of times, never makes the same name. -/
def Indep (a b : NameSym) : Prop := ∀ c, Under a c → ¬ Under b c

/-- The names of a list, of a tree, and an optional name. -/
def Lst.names (l : Lst X) : List Name := namesOf l.items
def Tree.names (t : Tree X) : List Name := namesOf t.items
def optNames : Option Name → List Name
  | none => []
  | some n => [n]

/-- No name of the list is made from another, or from the same name as another. -/
def Independent (ns : List Name) : Prop := ns.Pairwise fun a b => Indep a.sym b.sym

/-- The names at which `list_merge` (895-957) allocates thunks (`thunk!(n1a =>> …)`, 917; `thunk!(n2a =>> …)`, 939), when its result is
demanded to the end. -/
def listMergeAllocs (le : X → X → Bool) (n1 : Option Name) (l1 : Lst X) (n2 : Option Name) (l2 : Lst X) : List Name :=
  match hv1 : l1.view with
  | .nil => []
  | .cons h1 t1 =>
    match hv2 : l2.view with
    | .nil => []
    | .cons h2 t2 =>
      if le h1 h2 then
        let l2 := .cons h2 t2
        match n1 with
        | none => listMergeAllocs le none t1 n2 l2
        | some n1 =>
          let (n1a, _n1b) := nameFork H n1
          n1a :: listMergeAllocs le none t1 n2 l2
      else
        let l1 := .cons h1 t1
        match n2 with
        | none => listMergeAllocs le n1 l1 none t2
        | some n2 =>
          let (n2a, _n2b) := nameFork H n2
          n2a :: listMergeAllocs le n1 l1 none t2
    | .name m2 t2 =>
      let l1 := .cons h1 t1
      listMergeAllocs le n1 l1 (some m2) t2
  | .name m1 t1 => listMergeAllocs le (some m1) t1 n2 l2
termination_by l1.size + l2.size
decreasing_by
  all_goals try simp only [Lst.size]
  · have := Lst.view_cons hv1; have := Lst.view_cons hv2; omega
  · have := Lst.view_cons hv1; have := Lst.view_cons hv2; omega
  · have := Lst.view_cons hv1; have := Lst.view_cons hv2; omega
  · have := Lst.view_cons hv1; have := Lst.view_cons hv2; omega
  · have := Lst.view_cons hv1; have := Lst.view_name hv2; omega
  · have := Lst.view_name hv1; omega

/-- The names at which `mergesort_list_of_tree` (966-982) allocates: the memo thunks of `tree_fold_up` (600-601) and those of the
merges, all in one namespace. -/
def mergesort1Allocs (le : X → X → Bool) : Tree X → List Name
  | .nil => []
  | .leaf _ => []
  | .bin _ l r => mergesort1Allocs le l ++ mergesort1Allocs le r ++
      listMergeAllocs H le none (mergesort1 H le l) none (mergesort1 H le r)
  | .name n _ l r =>
      let (n1, n2) := nameFork H n
      n1 :: mergesort1Allocs le l ++ n2 :: mergesort1Allocs le r ++
        listMergeAllocs H le (some n1) (mergesort1 H le l) (some n2) (mergesort1 H le r)
  | .art t => mergesort1Allocs le t

/-- The names at which `mergesort_list_of_tree3` (1013-1028) allocates in the namespace `merge` of `list_merge_wrapper` (1030-1035). -/
def mergesort3Allocs (le : X → X → Bool) : Tree X → Option Name → List Name
  | .nil, _ => []
  | .leaf _, _ => []
  | .bin _ l r, nm => mergesort3Allocs le l nm ++ mergesort3Allocs le r none ++
      listMergeAllocs H le none (mergesort3 H le l nm) none (mergesort3 H le r none)
  | .name n _ l r, nm => mergesort3Allocs le l nm ++ mergesort3Allocs le r (some n) ++
      listMergeAllocs H le none (mergesort3 H le l nm) none (mergesort3 H le r (some n))
  | .art t, nm => mergesort3Allocs le t nm

/-- The memo thunks of `tree_fold_up_nm_dn` (646-649), in the namespace of the caller. -/
def memoAllocs : Tree X → List Name
  | .nil => []
  | .leaf _ => []
  | .bin _ l r => memoAllocs l ++ memoAllocs r
  | .name n _ l r =>
      let (n1, n2) := nameFork H n
      n1 :: memoAllocs l ++ n2 :: memoAllocs r
  | .art t => memoAllocs t

/-- The names at which `mergesort_list_of_tree2` (990-1005) allocates in the namespace `merge`. -/
def mergesort2Allocs (le : X → X → Bool) : Tree X → Option Name → List Name
  | .nil, _ => []
  | .leaf _, _ => []
  | .bin _ l r, nm => mergesort2Allocs le l nm ++ mergesort2Allocs le r none ++
      listMergeAllocs H le none (mergesort2 H le l nm) none (mergesort2 H le r none)
  | .name n _ l r, nm => mergesort2Allocs le l nm ++ mergesort2Allocs le r (some n) ++
      listMergeAllocs H le none (mergesort2 H le l nm) (some n) (mergesort2 H le r (some n))
  | .art t, nm => mergesort2Allocs le t nm

/-! ### Forks -/

theorem Under.trans {a b c : NameSym} (h : Under a b) (h' : Under b c) : Under a c := by
  induction h' with
  | refl => exact h
  | left _ ih => exact .left ih
  | right _ ih => exact .right ih

theorem Under.size {a b : NameSym} (h : Under a b) : sizeOf a ≤ sizeOf b := by
  induction h with
  | refl => exact Nat.le_refl _
  | left _ ih => simp; omega
  | right _ ih => simp; omega

theorem Under.cmp {a b c : NameSym} (h : Under a c) : Under b c → Under a b ∨ Under b a := by
  induction h with
  | refl => intro h; exact .inr h
  | left h ih =>
    intro h'
    cases h' with
    | refl => exact .inl (.left h)
    | left h' => exact ih h'
  | right h ih =>
    intro h'
    cases h' with
    | refl => exact .inl (.right h)
    | right h' => exact ih h'

theorem Indep.symm {a b : NameSym} (h : Indep a b) : Indep b a := fun c hb ha => h c ha hb
theorem Indep.mono {a b a' b' : NameSym} (h : Indep a b) (ha : Under a a') (hb : Under b b') : Indep a' b' :=
  fun c h1 h2 => h c (ha.trans h1) (hb.trans h2)
theorem Indep.ne {a b : NameSym} (h : Indep a b) : a ≠ b := by rintro rfl; exact h _ .refl .refl

theorem indep_forks (n : NameSym) : Indep (.forkL n) (.forkR n) := by
  intro c h1 h2
  rcases h1.cmp h2 with h | h
  · cases h with
    | right h => have := h.size; simp at this; omega
  · cases h with
    | left h => have := h.size; simp at this; omega

/-- Made from `o` by at least one fork. -/
def Strict (o a : NameSym) : Prop := ∃ b, Under o b ∧ (a = .forkL b ∨ a = .forkR b)

theorem Strict.under {o a : NameSym} (h : Strict o a) : Under o a := by
  obtain ⟨b, h, rfl | rfl⟩ := h
  · exact .left h
  · exact .right h
theorem Strict.of_under {o o' a : NameSym} (h : Under o o') (h' : Strict o' a) : Strict o a := by
  obtain ⟨b, hb, e⟩ := h'
  exact ⟨b, h.trans hb, e⟩
theorem Strict.size {o a : NameSym} (h : Strict o a) : sizeOf o < sizeOf a := by
  obtain ⟨b, h, rfl | rfl⟩ := h <;> have := h.size <;> simp <;> omega

/-- The invariant: `A` has been allocated, without repetition; `O` are the names still in use; nothing allocated is a fork of
a name in use. -/
structure Good (A O : List NameSym) : Prop where
  nodup : A.Nodup
  indep : O.Pairwise Indep
  fresh : ∀ a ∈ A, ∀ o ∈ O, ¬ Strict o a

theorem Good.perm {A O O' : List NameSym} (h : Good A O) (hp : O.Perm O') : Good A O' :=
  ⟨h.nodup, hp.pairwise h.indep fun h => h.symm, fun a ha o ho => h.fresh a ha o (hp.mem_iff.2 ho)⟩
theorem Good.permA {A A' O : List NameSym} (h : Good A O) (hp : A.Perm A') : Good A' O :=
  ⟨hp.nodup_iff.1 h.nodup, h.indep, fun a ha o ho => h.fresh a (hp.mem_iff.2 ha) o ho⟩
theorem Good.sub {A O O' : List NameSym} (h : Good A O) (hs : O'.Sublist O) : Good A O' :=
  ⟨h.nodup, h.indep.sublist hs, fun a ha o ho => h.fresh a ha o (hs.mem ho)⟩

theorem not_strict_of_indep {n o : NameSym} (h : Indep n o) {a : NameSym} (ha : Under n a) : ¬ Strict o a :=
  fun hs => h _ ha hs.under

/-- Using up a name: its left half is allocated, its right half stays in use. -/
theorem Good.use {A O : List NameSym} {n : NameSym} (h : Good A (n :: O)) : Good (n.forkL :: A) (n.forkR :: O) := by
  obtain ⟨h1, h2, h3⟩ := h
  rw [List.pairwise_cons] at h2
  refine ⟨List.nodup_cons.2 ⟨fun hm => h3 _ hm n (by simp) ⟨n, .refl, .inl rfl⟩, h1⟩,
    List.pairwise_cons.2 ⟨fun o ho => (h2.1 o ho).mono (.right .refl) .refl, h2.2⟩, ?_⟩
  intro a ha o ho
  rcases List.mem_cons.1 ho with rfl | ho
  · rcases List.mem_cons.1 ha with rfl | ha
    · intro hs; have := hs.size; simp at this
    · exact fun hs => h3 a ha n (by simp) (hs.of_under (.right .refl))
  · rcases List.mem_cons.1 ha with rfl | ha
    · exact not_strict_of_indep (h2.1 o ho) (.left .refl)
    · exact h3 a ha o (List.mem_cons_of_mem _ ho)

/-- Forking a name: both halves are allocated, and both stay in use. -/
theorem Good.fork {A O : List NameSym} {n : NameSym} (h : Good A (n :: O)) : Good (n.forkL :: n.forkR :: A) (n.forkL :: n.forkR :: O) := by
  obtain ⟨h1, h2, h3⟩ := h
  rw [List.pairwise_cons] at h2
  refine ⟨List.nodup_cons.2 ⟨?_, List.nodup_cons.2 ⟨fun hm => h3 _ hm n (by simp) ⟨n, .refl, .inr rfl⟩, h1⟩⟩,
    List.pairwise_cons.2 ⟨?_, List.pairwise_cons.2 ⟨fun o ho => (h2.1 o ho).mono (.right .refl) .refl, h2.2⟩⟩, ?_⟩
  · intro hm
    rcases List.mem_cons.1 hm with h | hm
    · cases h
    · exact h3 _ hm n (by simp) ⟨n, .refl, .inl rfl⟩
  · intro o ho
    rcases List.mem_cons.1 ho with rfl | ho
    · exact indep_forks n
    · exact (h2.1 o ho).mono (.left .refl) .refl
  · have key : ∀ o, (o = n.forkL ∨ o = n.forkR) → ∀ a ∈ n.forkL :: n.forkR :: A, ¬ Strict o a := by
      intro o ho a ha hs
      have hsz := hs.size
      have hu : Under n o := by
        rcases ho with rfl | rfl
        · exact .left .refl
        · exact .right .refl
      have ho' : sizeOf o = sizeOf n + 1 := by rcases ho with rfl | rfl <;> simp <;> omega
      rcases List.mem_cons.1 ha with rfl | ha
      · simp at hsz; omega
      · rcases List.mem_cons.1 ha with rfl | ha
        · simp at hsz; omega
        · exact h3 a ha n (by simp) (hs.of_under hu)
    intro a ha o ho
    rcases List.mem_cons.1 ho with rfl | ho
    · exact key _ (.inl rfl) a ha
    · rcases List.mem_cons.1 ho with rfl | ho
      · exact key _ (.inr rfl) a ha
      · rcases List.mem_cons.1 ha with rfl | ha
        · exact not_strict_of_indep (h2.1 o ho) (.left .refl)
        · rcases List.mem_cons.1 ha with rfl | ha
          · exact not_strict_of_indep (h2.1 o ho) (.right .refl)
          · exact h3 a ha o (List.mem_cons_of_mem _ ho)

/-! ### Merging -/

theorem view_nil_names {l : Lst X} (h : l.view = .nil) : l.names = [] := by
  induction l with
  | nil => rfl
  | cons y l ih => cases h
  | name n l ih => cases h
  | art l ih => exact ih h
theorem view_cons_names {l : Lst X} {x : X} {t : Lst X} (h : l.view = .cons x t) : l.names = t.names := by
  induction l with
  | nil => cases h
  | cons y l ih => cases h; rfl
  | name n l ih => cases h
  | art l ih => exact ih h
theorem view_name_names {l : Lst X} {m : Name} {t : Lst X} (h : l.view = .name m t) : l.names = m :: t.names := by
  induction l with
  | nil => cases h
  | cons y l ih => cases h
  | name n l ih => cases h; rfl
  | art l ih => exact ih h
theorem listNameOp_names (n : Option Name) (l : Lst X) : (listNameOp n l).names = optNames n ++ l.names := by cases n <;> rfl

/-- The symbols of names. -/
def syms (ns : List Name) : List NameSym := ns.map Name.sym
theorem syms_append (a b : List Name) : syms (a ++ b) = syms a ++ syms b := List.map_append ..
theorem syms_cons (a : Name) (b : List Name) : syms (a :: b) = a.sym :: syms b := rfl
theorem syms_nil : syms [] = [] := rfl

section
variable {le : X → X → Bool} {n1 n2 : Option Name} {l1 l2 t1 t2 : Lst X} {h1 h2 : X}
theorem allocs_nil (hv : l1.view = .nil) : listMergeAllocs H le n1 l1 n2 l2 = [] := by
  rw [listMergeAllocs]
  split <;> rename_i h <;> rw [hv] at h <;> cases h
  try rfl
theorem allocs_name {m : Name} (hv : l1.view = .name m t1) : listMergeAllocs H le n1 l1 n2 l2 = listMergeAllocs H le (some m) t1 n2 l2 := by
  rw [listMergeAllocs]
  split <;> rename_i h <;> rw [hv] at h <;> cases h
  try rfl
theorem allocs_cons (hv : l1.view = .cons h1 t1) : listMergeAllocs H le n1 l1 n2 l2 =
    match l2.view with
    | .nil => []
    | .cons h2 t2 =>
      if le h1 h2 then
        match n1 with
        | none => listMergeAllocs H le none t1 n2 (.cons h2 t2)
        | some n1 => (nameFork H n1).1 :: listMergeAllocs H le none t1 n2 (.cons h2 t2)
      else
        match n2 with
        | none => listMergeAllocs H le n1 (.cons h1 t1) none t2
        | some n2 => (nameFork H n2).1 :: listMergeAllocs H le n1 (.cons h1 t1) none t2
    | .name m2 t2 => listMergeAllocs H le n1 (.cons h1 t1) (some m2) t2 := by
  rw [listMergeAllocs]
  split <;> rename_i h <;> rw [hv] at h <;> cases h
  split <;> rename_i h <;> rw [h]
end

theorem merge_good (le : X → X → Bool) (n1 : Option Name) (l1 : Lst X) (n2 : Option Name) (l2 : Lst X) :
    ∀ A B, Good A (syms (optNames n1 ++ l1.names ++ optNames n2 ++ l2.names) ++ B) →
      Good (syms (listMergeAllocs H le n1 l1 n2 l2) ++ A) (syms (listMerge H le n1 l1 n2 l2).names ++ B) := by
  fun_induction listMerge H le n1 l1 n2 l2 with
  | case1 n1 l1 n2 l2 h =>
    intro A B hg
    have e : listMergeAllocs H le n1 l1 n2 l2 = [] := allocs_nil H h
    rw [e, listNameOp_names]
    refine hg.sub ?_
    simp only [syms_append, List.append_assoc]
    exact ((List.sublist_append_right _ _).trans (List.sublist_append_right _ _))
  | case2 n1 l1 n2 l2 h1 t1 hv1 hv2 =>
    intro A B hg
    have e : listMergeAllocs H le n1 l1 n2 l2 = [] := by rw [allocs_cons H hv1, hv2]
    rw [e, listNameOp_names, show (Lst.cons h1 t1).names = t1.names from rfl]
    refine hg.sub ?_
    rw [view_cons_names hv1]
    simp only [syms_append, List.append_assoc]
    refine (List.Sublist.refl _).append ((List.Sublist.refl _).append ?_)
    exact ((List.sublist_append_right _ _).trans (List.sublist_append_right _ _))
  | case3 l1 n2 l2 h1 t1 hv1 h2 t2 hv2 hle l2' rest ih =>
    intro A B hg
    have e : listMergeAllocs H le none l1 n2 l2 = listMergeAllocs H le none t1 n2 l2' := by
      rw [allocs_cons H hv1, hv2]; simp only [hle, if_true]; try rfl
    rw [e]
    refine ih A B ?_
    rw [view_cons_names hv1, view_cons_names hv2] at hg
    exact hg
  | case4 l1 n2 l2 h1 t1 hv1 h2 t2 hv2 hle l2' n1 _n1a n1b hf rest rest1 rest2 rest3 ih =>
    intro A B hg
    have e : listMergeAllocs H le (some n1) l1 n2 l2 = (nameFork H n1).1 :: listMergeAllocs H le none t1 n2 l2' := by
      rw [allocs_cons H hv1, hv2]; simp only [hle, if_true]; try rfl
    rw [e]
    rw [view_cons_names hv1, view_cons_names hv2] at hg
    have h1 := Good.use (show Good A (n1.sym :: (syms (t1.names ++ optNames n2 ++ t2.names) ++ B)) from hg)
    have h2 := ih (n1.sym.forkL :: A) (n1.sym.forkR :: B) (h1.perm (by
      show List.Perm (_ :: (syms (t1.names ++ optNames n2 ++ t2.names) ++ B)) (syms (t1.names ++ optNames n2 ++ t2.names) ++ _)
      exact List.perm_middle.symm))
    have h3 : n1b.sym = n1.sym.forkR := by cases hf; rfl
    refine (h2.perm (show List.Perm _ (n1b.sym :: (syms rest.names ++ B)) from ?_)).permA ?_
    · rw [h3]; exact List.perm_middle
    · show List.Perm _ (n1.sym.forkL :: (syms (listMergeAllocs H le none t1 n2 l2') ++ A))
      exact List.perm_middle
  | case5 n1 l1 l2 h1 t1 hv1 h2 t2 hv2 hle l1' rest l ih =>
    intro A B hg
    have e : listMergeAllocs H le n1 l1 none l2 = listMergeAllocs H le n1 l1' none t2 := by
      rw [allocs_cons H hv1, hv2]; simp only [hle, Bool.false_eq_true, if_false]; try rfl
    rw [e]
    refine ih A B ?_
    rw [view_cons_names hv1, view_cons_names hv2] at hg
    exact hg
  | case6 n1 l1 l2 h1 t1 hv1 h2 t2 hv2 hle l1' n2 _n2a n2b hf rest rest1 rest2 rest3 ih =>
    intro A B hg
    have e : listMergeAllocs H le n1 l1 (some n2) l2 = (nameFork H n2).1 :: listMergeAllocs H le n1 l1' none t2 := by
      rw [allocs_cons H hv1, hv2]; simp only [hle, Bool.false_eq_true, if_false]; try rfl
    rw [e]
    rw [view_cons_names hv1, view_cons_names hv2] at hg
    have hg' : Good A (n2.sym :: (syms (optNames n1 ++ t1.names ++ t2.names) ++ B)) := by
      refine hg.perm ?_
      rw [show optNames (some n2) = [n2] from rfl]
      simp only [syms_append, List.append_assoc, syms_cons, List.nil_append, List.cons_append]
      rw [← List.append_assoc, ← List.append_assoc (syms (optNames n1))]
      exact List.perm_middle
    have h1 := hg'.use
    have h2 := ih (n2.sym.forkL :: A) (n2.sym.forkR :: B) (h1.perm (by
      show List.Perm (_ :: (syms (optNames n1 ++ t1.names ++ t2.names) ++ B)) (syms (optNames n1 ++ t1.names ++ optNames none ++ t2.names) ++ _)
      rw [show optNames none = [] from rfl, List.append_nil]
      exact List.perm_middle.symm))
    have h3 : n2b.sym = n2.sym.forkR := by cases hf; rfl
    refine (h2.perm (show List.Perm _ (n2b.sym :: (syms rest.names ++ B)) from ?_)).permA ?_
    · rw [h3]; exact List.perm_middle
    · show List.Perm _ (n2.sym.forkL :: (syms (listMergeAllocs H le n1 l1' none t2) ++ A))
      exact List.perm_middle
  | case7 n1 l1 n2 l2 h1 t1 hv1 m2 t2 hv2 l1' ih =>
    intro A B hg
    have e : listMergeAllocs H le n1 l1 n2 l2 = listMergeAllocs H le n1 l1' (some m2) t2 := by
      rw [allocs_cons H hv1, hv2]
    rw [e]
    refine ih A B (hg.sub ?_)
    rw [view_cons_names hv1, view_name_names hv2]
    show List.Sublist (syms (optNames n1 ++ t1.names ++ [m2] ++ t2.names) ++ B) _
    simp only [syms_append, List.append_assoc, syms_cons]
    refine (List.Sublist.refl _).append ((List.Sublist.refl _).append ?_)
    exact List.sublist_append_right _ _
  | case8 n1 l1 n2 l2 m1 t1 hv1 ih =>
    intro A B hg
    have e : listMergeAllocs H le n1 l1 n2 l2 = listMergeAllocs H le (some m1) t1 n2 l2 := by
      exact allocs_name H hv1
    rw [e]
    refine ih A B (hg.sub ?_)
    rw [view_name_names hv1]
    simp only [syms_append, List.append_assoc, syms_cons]
    exact List.sublist_append_right _ _

theorem good_init {ns : List Name} (h : Independent ns) : Good [] (syms ns ++ []) :=
  ⟨List.nodup_nil, by rw [List.append_nil]; exact List.pairwise_map.2 h, fun a ha => by cases ha⟩

theorem nodup_of_syms {ns : List Name} (h : (syms ns).Nodup) : ns.Nodup := by
  induction ns with
  | nil => exact List.nodup_nil
  | cons n ns ih =>
    rw [syms_cons, List.nodup_cons] at h
    exact List.nodup_cons.2 ⟨fun hm => h.1 (List.mem_map.2 ⟨n, hm, rfl⟩), ih h.2⟩

theorem independent_of {ns : List Name} (h : (syms ns).Pairwise Indep) : Independent ns := List.pairwise_map.1 h
theorem Independent.nodup {ns : List Name} (h : Independent ns) : ns.Nodup := h.imp fun h e => h.ne (by rw [e])

/-! ### Sorting -/

theorem Tree.names_bin (x : Nat) (l r : Tree X) : (Tree.bin x l r).names = l.names ++ r.names := by
  simp [Tree.names, Tree.items, namesOf_append]
theorem Tree.names_name (n : Name) (x : Nat) (l r : Tree X) : (Tree.name n x l r).names = l.names ++ n :: r.names := by
  simp [Tree.names, Tree.items, namesOf_append, namesOf]

/-- Permutations of appended lists. -/
macro "perm_tac" : tactic => `(tactic| (
  refine List.perm_iff_count.2 fun a => ?_
  simp only [syms_append, syms_cons, optNames, List.count_append, List.count_cons, List.append_nil, List.count_nil, List.nil_append, List.cons_append, show syms [] = [] from rfl]
  omega))

theorem sort1_good (le : X → X → Bool) (t : Tree X) :
    ∀ A B, Good A (syms t.names ++ B) → Good (syms (mergesort1Allocs H le t) ++ A) (syms (mergesort1 H le t).names ++ B) := by
  induction t with
  | nil => exact fun A B h => h
  | leaf x => exact fun A B h => h
  | art t ih => exact ih
  | bin x l r ihl ihr =>
    intro A B h
    rw [Tree.names_bin, syms_append, List.append_assoc] at h
    have h1 := ihl A _ h
    have h2 := ihr _ (syms (mergesort1 H le l).names ++ B) (h1.perm (by perm_tac))
    have h3 := merge_good H le none (mergesort1 H le l) none (mergesort1 H le r) _ B (h2.perm (by perm_tac))
    refine h3.permA ?_
    show List.Perm _ (syms (mergesort1Allocs H le l ++ mergesort1Allocs H le r ++ listMergeAllocs H le none (mergesort1 H le l) none (mergesort1 H le r)) ++ A)
    perm_tac
  | name n x l r ihl ihr =>
    intro A B h
    rw [Tree.names_name] at h
    have h0 := (h.perm (show List.Perm _ (n.sym :: (syms l.names ++ (syms r.names ++ B))) by perm_tac)).fork
    have h1 := ihl _ (n.sym.forkL :: n.sym.forkR :: (syms r.names ++ B)) (h0.perm (by perm_tac))
    have h2 := ihr _ (n.sym.forkL :: n.sym.forkR :: (syms (mergesort1 H le l).names ++ B)) (h1.perm (by perm_tac))
    have e1 : (nameFork H n).1.sym = n.sym.forkL := rfl
    have e2 : (nameFork H n).2.sym = n.sym.forkR := rfl
    have h3 := merge_good H le (some (nameFork H n).1) (mergesort1 H le l) (some (nameFork H n).2) (mergesort1 H le r) _ B (h2.perm (by
      rw [← e1, ← e2]; perm_tac))
    refine h3.permA ?_
    show List.Perm _ (syms ((nameFork H n).1 :: mergesort1Allocs H le l ++ (nameFork H n).2 :: mergesort1Allocs H le r ++
      listMergeAllocs H le (some (nameFork H n).1) (mergesort1 H le l) (some (nameFork H n).2) (mergesort1 H le r)) ++ A)
    rw [← e1, ← e2]
    perm_tac

theorem sort3_good (le : X → X → Bool) (t : Tree X) :
    ∀ nm A B, Good A (syms (optNames nm ++ t.names) ++ B) → Good (syms (mergesort3Allocs H le t nm) ++ A) (syms (mergesort3 H le t nm).names ++ B) := by
  induction t with
  | nil =>
    intro nm A B h
    refine h.sub ?_
    rw [syms_append, List.append_assoc]
    exact List.sublist_append_right _ _
  | leaf x =>
    intro nm A B h
    cases nm <;> exact h
  | art t ih => exact ih
  | bin x l r ihl ihr =>
    intro nm A B h
    rw [Tree.names_bin] at h
    have h1 := ihl nm A (syms r.names ++ B) (h.perm (by perm_tac))
    have h2 := ihr none _ (syms (mergesort3 H le l nm).names ++ B) (h1.perm (by perm_tac))
    have h3 := merge_good H le none (mergesort3 H le l nm) none (mergesort3 H le r none) _ B (h2.perm (by perm_tac))
    refine h3.permA ?_
    show List.Perm _ (syms (mergesort3Allocs H le l nm ++ mergesort3Allocs H le r none ++ listMergeAllocs H le none (mergesort3 H le l nm) none (mergesort3 H le r none)) ++ A)
    perm_tac
  | name n x l r ihl ihr =>
    intro nm A B h
    rw [Tree.names_name] at h
    have h1 := ihl nm A (n.sym :: (syms r.names ++ B)) (h.perm (by perm_tac))
    have h2 := ihr (some n) _ (syms (mergesort3 H le l nm).names ++ B) (h1.perm (by perm_tac))
    have h3 := merge_good H le none (mergesort3 H le l nm) none (mergesort3 H le r (some n)) _ B (h2.perm (by perm_tac))
    refine h3.permA ?_
    show List.Perm _ (syms (mergesort3Allocs H le l nm ++ mergesort3Allocs H le r (some n) ++ listMergeAllocs H le none (mergesort3 H le l nm) none (mergesort3 H le r (some n))) ++ A)
    perm_tac

theorem memo_good (t : Tree X) : ∀ A B, Good A (syms t.names ++ B) → Good (syms (memoAllocs H t) ++ A) B := by
  induction t with
  | nil => exact fun A B h => h
  | leaf x => exact fun A B h => h
  | art t ih => exact ih
  | bin x l r ihl ihr =>
    intro A B h
    rw [Tree.names_bin] at h
    have h1 := ihl A (syms r.names ++ B) (h.perm (by perm_tac))
    have h2 := ihr _ B h1
    refine h2.permA ?_
    show List.Perm _ (syms (memoAllocs H l ++ memoAllocs H r) ++ A)
    perm_tac
  | name n x l r ihl ihr =>
    intro A B h
    rw [Tree.names_name] at h
    have h0 := (h.perm (show List.Perm _ (n.sym :: (syms l.names ++ (syms r.names ++ B))) by perm_tac)).fork
    have h0 := h0.sub (List.sublist_append_right [_, _] _)
    have h1 := ihl _ _ h0
    have h2 := ihr _ B h1
    refine h2.permA ?_
    have e1 : (nameFork H n).1.sym = n.sym.forkL := rfl
    have e2 : (nameFork H n).2.sym = n.sym.forkR := rfl
    show List.Perm _ (syms ((nameFork H n).1 :: memoAllocs H l ++ (nameFork H n).2 :: memoAllocs H r) ++ A)
    rw [← e1, ← e2]
    perm_tac

/-! ### Where names come from -/

/-- Every name of the first list is made by forking from a name of the second. -/
def MadeFrom (out ns : List Name) : Prop := ∀ n ∈ out, ∃ m ∈ ns, Under m.sym n.sym

theorem MadeFrom.refl (ns : List Name) : MadeFrom ns ns := fun n hn => ⟨n, hn, .refl⟩
theorem MadeFrom.sub {a b : List Name} (h : ∀ n ∈ a, n ∈ b) : MadeFrom a b := fun n hn => ⟨n, h n hn, .refl⟩
theorem MadeFrom.trans {a b c : List Name} (h : MadeFrom a b) (h' : MadeFrom b c) : MadeFrom a c := by
  intro n hn
  obtain ⟨m, hm, hu⟩ := h n hn
  obtain ⟨k, hk, hu'⟩ := h' m hm
  exact ⟨k, hk, hu'.trans hu⟩
theorem MadeFrom.append {a b c : List Name} (h : MadeFrom a c) (h' : MadeFrom b c) : MadeFrom (a ++ b) c := by
  intro n hn
  rcases List.mem_append.1 hn with hn | hn
  · exact h n hn
  · exact h' n hn
theorem MadeFrom.cons {n m : Name} {b c : List Name} (h : Under m.sym n.sym) (hm : m ∈ c) (h' : MadeFrom b c) : MadeFrom (n :: b) c := by
  intro k hk
  rcases List.mem_cons.1 hk with rfl | hk
  · exact ⟨m, hm, h⟩
  · exact h' k hk
theorem MadeFrom.weaken {a b c : List Name} (h : MadeFrom a b) (h' : ∀ n ∈ b, n ∈ c) : MadeFrom a c := h.trans (.sub h')

theorem merge_made (le : X → X → Bool) (n1 : Option Name) (l1 : Lst X) (n2 : Option Name) (l2 : Lst X) :
    MadeFrom (listMerge H le n1 l1 n2 l2).names (optNames n1 ++ l1.names ++ optNames n2 ++ l2.names) := by
  fun_induction listMerge H le n1 l1 n2 l2 with
  | case1 n1 l1 n2 l2 h =>
    rw [listNameOp_names]
    exact .sub (by simp +contextual)
  | case2 n1 l1 n2 l2 h1 t1 hv1 hv2 =>
    rw [listNameOp_names, view_cons_names hv1, show (Lst.cons h1 t1).names = t1.names from rfl]
    refine .sub fun n hn => ?_
    rcases List.mem_append.1 hn with h | h <;> simp [h]
  | case3 l1 n2 l2 h1 t1 hv1 h2 t2 hv2 hle l2' rest ih =>
    rw [view_cons_names hv1, view_cons_names hv2]
    exact ih
  | case4 l1 n2 l2 h1 t1 hv1 h2 t2 hv2 hle l2' n1 _n1a n1b hf rest rest1 rest2 rest3 ih =>
    rw [view_cons_names hv1, view_cons_names hv2]
    show MadeFrom (n1b :: (listMerge H le none t1 n2 l2').names) _
    refine .cons (m := n1) (by cases hf; exact .right .refl) (by simp [optNames]) (ih.weaken fun n hn => ?_)
    show n ∈ n1 :: (t1.names ++ optNames n2 ++ t2.names)
    exact List.mem_cons_of_mem _ hn
  | case5 n1 l1 l2 h1 t1 hv1 h2 t2 hv2 hle l1' rest l ih =>
    rw [view_cons_names hv1, view_cons_names hv2]
    exact ih
  | case6 n1 l1 l2 h1 t1 hv1 h2 t2 hv2 hle l1' n2 _n2a n2b hf rest rest1 rest2 rest3 ih =>
    rw [view_cons_names hv1, view_cons_names hv2]
    show MadeFrom (n2b :: (listMerge H le n1 l1' none t2).names) _
    refine .cons (m := n2) (by cases hf; exact .right .refl) (by simp [optNames]) (ih.weaken fun n hn => ?_)
    have hn : n ∈ optNames n1 ++ t1.names ++ [] ++ t2.names := hn
    rw [List.append_nil] at hn
    rcases List.mem_append.1 hn with h | h
    · exact List.mem_append_left _ (List.mem_append_left _ h)
    · exact List.mem_append_right _ h
  | case7 n1 l1 n2 l2 h1 t1 hv1 m2 t2 hv2 l1' ih =>
    rw [view_cons_names hv1, view_name_names hv2]
    refine ih.weaken fun n hn => ?_
    have hn : n ∈ optNames n1 ++ t1.names ++ [m2] ++ t2.names := hn
    rw [List.append_assoc] at hn
    rcases List.mem_append.1 hn with h | h
    · exact List.mem_append_left _ (List.mem_append_left _ h)
    · exact List.mem_append_right _ h
  | case8 n1 l1 n2 l2 m1 t1 hv1 ih =>
    rw [view_name_names hv1]
    refine ih.weaken fun n hn => ?_
    have hn : n ∈ [m1] ++ t1.names ++ optNames n2 ++ l2.names := hn
    rw [List.append_assoc, List.append_assoc (optNames n1)]
    refine List.mem_append_right _ ?_
    simpa [List.append_assoc] using hn

theorem sort1_made (le : X → X → Bool) (t : Tree X) : MadeFrom (mergesort1 H le t).names t.names := by
  induction t with
  | nil => exact .refl _
  | leaf x => exact .refl _
  | art t ih => exact ih
  | bin x l r ihl ihr =>
    rw [Tree.names_bin]
    refine (merge_made H le none _ none _).trans ?_
    show MadeFrom ((mergesort1 H le l).names ++ [] ++ (mergesort1 H le r).names) _
    rw [List.append_nil]
    exact .append (ihl.weaken (by simp +contextual)) (ihr.weaken (by simp +contextual))
  | name n x l r ihl ihr =>
    rw [Tree.names_name]
    refine (merge_made H le (some (nameFork H n).1) _ (some (nameFork H n).2) _).trans ?_
    show MadeFrom ([(nameFork H n).1] ++ (mergesort1 H le l).names ++ [(nameFork H n).2] ++ (mergesort1 H le r).names) _
    refine .append (.append (.append ?_ (ihl.weaken (by simp +contextual))) ?_) (ihr.weaken (by simp +contextual))
    · exact .cons (m := n) (.left .refl) (by simp) (fun n hn => by cases hn)
    · exact .cons (m := n) (.right .refl) (by simp) (fun n hn => by cases hn)

theorem sort3_made (le : X → X → Bool) (t : Tree X) : ∀ nm, MadeFrom (mergesort3 H le t nm).names (optNames nm ++ t.names) := by
  induction t with
  | nil => exact fun nm n hn => by cases hn
  | leaf x => intro nm; cases nm <;> exact .refl _
  | art t ih => exact ih
  | bin x l r ihl ihr =>
    intro nm
    rw [Tree.names_bin]
    refine (merge_made H le none _ none _).trans ?_
    show MadeFrom ((mergesort3 H le l nm).names ++ [] ++ (mergesort3 H le r none).names) _
    rw [List.append_nil]
    refine .append ((ihl nm).weaken ?_) ((ihr none).weaken ?_)
    · intro k hk; rcases List.mem_append.1 hk with h | h <;> simp [h]
    · intro k hk; rcases List.mem_append.1 hk with h | h
      · cases h
      · simp [h]
  | name n x l r ihl ihr =>
    intro nm
    rw [Tree.names_name]
    refine (merge_made H le none _ none _).trans ?_
    show MadeFrom ((mergesort3 H le l nm).names ++ [] ++ (mergesort3 H le r (some n)).names) _
    rw [List.append_nil]
    refine .append ((ihl nm).weaken ?_) ((ihr (some n)).weaken ?_)
    · intro k hk; rcases List.mem_append.1 hk with h | h <;> simp [h]
    · intro k hk; rcases List.mem_append.1 hk with h | h
      · rcases List.mem_cons.1 h with rfl | h
        · simp
        · cases h
      · simp [h]

/-! ### Names stay with their elements -/

/-- The elements of a list, each with the name directly in front of it; `o` is a name in front of the list. -/
def taggedItems : Option Name → List (NameElse X) → List (Option Name × X)
  | _, [] => []
  | o, .elm x :: l => (o, x) :: taggedItems none l
  | _, .name n :: l => taggedItems (some n) l
def Lst.tagged (o : Option Name) (l : Lst X) : List (Option Name × X) := taggedItems o l.items

/-- The element is the same and its name is the same or the right half of it. -/
def SameTag (p q : Option Name × X) : Prop := p.2 = q.2 ∧ (q.1 = p.1 ∨ ∃ n, p.1 = some n ∧ q.1 = some (nameFork H n).2)

theorem view_nil_tagged {l : Lst X} (h : l.view = .nil) (o : Option Name) : l.tagged o = [] := by
  induction l with
  | nil => rfl
  | cons y l ih => cases h
  | name n l ih => cases h
  | art l ih => exact ih h
theorem view_cons_tagged {l : Lst X} {x : X} {t : Lst X} (h : l.view = .cons x t) (o : Option Name) : l.tagged o = (o, x) :: t.tagged none := by
  induction l with
  | nil => cases h
  | cons y l ih => cases h; rfl
  | name n l ih => cases h
  | art l ih => exact ih h
theorem view_name_tagged {l : Lst X} {m : Name} {t : Lst X} (h : l.view = .name m t) (o : Option Name) : l.tagged o = t.tagged (some m) := by
  induction l with
  | nil => cases h
  | cons y l ih => cases h
  | name n l ih => cases h; rfl
  | art l ih => exact ih h
theorem listNameOp_tagged (n : Option Name) (l : Lst X) : (listNameOp n l).tagged none = l.tagged n := by cases n <;> rfl

/-- The same elements in the same order, with names kept or halved. -/
inductive SameTags : List (Option Name × X) → List (Option Name × X) → Prop
  | nil : SameTags [] []
  | cons {a b p q} : SameTag H a b → SameTags p q → SameTags (a :: p) (b :: q)

/-- `q` is `p` rearranged, every element with its own name, possibly forked. -/
def Retagged (p q : List (Option Name × X)) : Prop := ∃ p', List.Perm p p' ∧ SameTags H p' q

theorem SameTag.refl (a : Option Name × X) : SameTag H a a := ⟨rfl, .inl rfl⟩
theorem Retagged.refl (p : List (Option Name × X)) : Retagged H p p := ⟨p, .refl _, by
  induction p with
  | nil => exact .nil
  | cons a p ih => exact .cons (.refl H a) ih⟩
theorem Retagged.cons {a b : Option Name × X} {p q : List (Option Name × X)} (h : SameTag H a b) (h' : Retagged H p q) :
    Retagged H (a :: p) (b :: q) := by
  obtain ⟨p', hp, hf⟩ := h'
  exact ⟨a :: p', hp.cons a, .cons h hf⟩
theorem Retagged.perm {p p' q : List (Option Name × X)} (h : List.Perm p p') (h' : Retagged H p' q) : Retagged H p q := by
  obtain ⟨r, hp, hf⟩ := h'
  exact ⟨r, h.trans hp, hf⟩

/-- C62: merging keeps every element with the name in front of it: the elements of the result, each with the name in front of it, are
those of the two lists, where a name may have been replaced by its right half. -/
theorem C62_merge_keeps_names (le : X → X → Bool) (n1 : Option Name) (l1 : Lst X) (n2 : Option Name) (l2 : Lst X) :
    Retagged H (l1.tagged n1 ++ l2.tagged n2) ((listMerge H le n1 l1 n2 l2).tagged none) := by
  fun_induction listMerge H le n1 l1 n2 l2 with
  | case1 n1 l1 n2 l2 h =>
    rw [listNameOp_tagged, view_nil_tagged h]
    exact .refl H _
  | case2 n1 l1 n2 l2 h1 t1 hv1 hv2 =>
    rw [listNameOp_tagged, view_cons_tagged hv1, view_nil_tagged hv2, List.append_nil]
    exact .refl H _
  | case3 l1 n2 l2 h1 t1 hv1 h2 t2 hv2 hle l2' rest ih =>
    rw [view_cons_tagged hv1, view_cons_tagged hv2]
    exact .cons H (.refl H _) ih
  | case4 l1 n2 l2 h1 t1 hv1 h2 t2 hv2 hle l2' n1 _n1a n1b hf rest rest1 rest2 rest3 ih =>
    rw [view_cons_tagged hv1, view_cons_tagged hv2]
    refine .cons H (b := (some n1b, h1)) ⟨rfl, .inr ⟨n1, rfl, ?_⟩⟩ ih
    rw [hf]
  | case5 n1 l1 l2 h1 t1 hv1 h2 t2 hv2 hle l1' rest l ih =>
    rw [view_cons_tagged hv1, view_cons_tagged hv2]
    exact .perm H List.perm_middle (.cons H (.refl H _) ih)
  | case6 n1 l1 l2 h1 t1 hv1 h2 t2 hv2 hle l1' n2 _n2a n2b hf rest rest1 rest2 rest3 ih =>
    rw [view_cons_tagged hv1, view_cons_tagged hv2]
    refine .perm H List.perm_middle (.cons H (b := (some n2b, h2)) ⟨rfl, .inr ⟨n2, rfl, ?_⟩⟩ ih)
    rw [hf]
  | case7 n1 l1 n2 l2 h1 t1 hv1 m2 t2 hv2 l1' ih =>
    rw [view_cons_tagged hv1, view_name_tagged hv2]
    exact ih
  | case8 n1 l1 n2 l2 m1 t1 hv1 ih =>
    rw [view_name_tagged hv1]
    exact ih

/-- In this merge the names are forked and stay with their elements. -/
example (H : NameHash) (n m : Name) : (listMerge H (fun a b => decide (a ≤ b)) none (.name n (.cons 1 (.cons 5 .nil))) none (.name m (.cons 3 .nil))).tagged none
    = [(some (nameFork H n).2, 1), (some (nameFork H m).2, 3), (none, 5)] := by
  simp [listMerge, Lst.view, listNameOp, Lst.tagged, taggedItems, Lst.items, nameFork]

/-! ### C62 -/

/-- C62: merging two lists whose names are independent allocates every thunk at its own name, and the names of the result are again
independent, and made from the given names. -/
theorem C62_merge_names (le : X → X → Bool) (n1 : Option Name) (l1 : Lst X) (n2 : Option Name) (l2 : Lst X)
    (h : Independent (optNames n1 ++ l1.names ++ optNames n2 ++ l2.names)) :
    (listMergeAllocs H le n1 l1 n2 l2).Nodup ∧ Independent (listMerge H le n1 l1 n2 l2).names ∧
      MadeFrom (listMerge H le n1 l1 n2 l2).names (optNames n1 ++ l1.names ++ optNames n2 ++ l2.names) := by
  have hg := merge_good H le n1 l1 n2 l2 [] [] (good_init h)
  rw [List.append_nil, List.append_nil] at hg
  exact ⟨nodup_of_syms hg.nodup, independent_of hg.indep, merge_made H le n1 l1 n2 l2⟩

/-- C62: `mergesort_list_of_tree` of a tree whose names are independent: all its memo thunks and all thunks of all its merges are
allocated at distinct names; the names of the sorted list are independent, so distinct, and made from the names of the tree. -/
theorem C62_mergesort_names (le : X → X → Bool) (t : Tree X) (h : Independent t.names) :
    (mergesort1Allocs H le t).Nodup ∧ Independent (mergesort1 H le t).names ∧ (mergesort1 H le t).names.Nodup ∧
      MadeFrom (mergesort1 H le t).names t.names := by
  have hg := sort1_good H le t [] [] (good_init h)
  rw [List.append_nil, List.append_nil] at hg
  exact ⟨nodup_of_syms hg.nodup, independent_of hg.indep, (independent_of hg.indep).nodup, sort1_made H le t⟩

/-- C62: the same of `mergesort_list_of_tree3`, whose merges allocate in one namespace and whose memo thunks in another. -/
theorem C62_mergesort3_names (le : X → X → Bool) (t : Tree X) (nm : Option Name) (h : Independent (optNames nm ++ t.names)) :
    (mergesort3Allocs H le t nm).Nodup ∧ (memoAllocs H t).Nodup ∧ Independent (mergesort3 H le t nm).names ∧
      (mergesort3 H le t nm).names.Nodup ∧ MadeFrom (mergesort3 H le t nm).names (optNames nm ++ t.names) := by
  have hg := sort3_good H le t nm [] [] (good_init h)
  have hm := memo_good H t [] [] (good_init (h.sublist (List.sublist_append_right _ _)))
  rw [List.append_nil, List.append_nil] at hg
  rw [List.append_nil] at hm
  exact ⟨nodup_of_syms hg.nodup, nodup_of_syms hm.nodup, independent_of hg.indep, (independent_of hg.indep).nodup, sort3_made H le t nm⟩

/-- Names that are not forks, such as those made from strings or numbers. -/
def NotFork (n : Name) : Prop := ∀ m, n.sym ≠ .forkL m ∧ n.sym ≠ .forkR m

/-- C62: distinct names that are not forks are independent. -/
theorem C62_plain_names {ns : List Name} (h : (ns.map Name.sym).Nodup) (hp : ∀ n ∈ ns, NotFork n) : Independent ns := by
  have key : ∀ a b : Name, NotFork b → Under a.sym b.sym → a.sym = b.sym := by
    intro a b hb hu
    have hb' : ∀ m, b.sym ≠ .forkL m ∧ b.sym ≠ .forkR m := hb
    generalize b.sym = s at hu hb' ⊢
    cases hu with
    | refl => rfl
    | left _ => exact absurd rfl (hb' _).1
    | right _ => exact absurd rfl (hb' _).2
  rw [List.Nodup, List.pairwise_map] at h
  refine (List.Pairwise.and_mem.1 h).imp ?_
  rintro a b ⟨ha, hb, hne⟩ c h1 h2
  rcases h1.cmp h2 with hu | hu
  · exact hne (key a b (hp b hb) hu)
  · exact hne (key b a (hp a ha) hu).symm

/-- C62, finding: `mergesort_list_of_tree2` uses the name of every node twice, for the element right of it and for the merge, which the
documentation of `tree_fold_up_nm_dn` (612-616) forbids.  So its result can have the same name twice. -/
theorem C62_mergesort2_repeats_name (le : X → X → Bool) (n : Name) (i j : Nat) (a b c : X) (hac : le a c = true) (hbc : le b c = false) :
    (mergesort2 H le (.name n i (.leaf a) (.bin j (.leaf b) (.leaf c))) none).names = [n, n] := by
  simp [mergesort2, treeFoldUpNmDn, listMergeWrapper, listNameOp, singleton, listMerge, Lst.view, hac, hbc, Lst.names, Lst.items, namesOf]

/-- C62, finding: and it can allocate two thunks of the namespace `merge` at the same name, although the tree has only one name. -/
theorem C62_mergesort2_repeats_alloc (le : X → X → Bool) (n : Name) (i j k : Nat) (a b c d : X)
    (hbc : le b c = true) (hbd : le b d = false) (had : le a d = false) (hab : le a b = true) :
    (mergesort2Allocs H le (.name n i (.leaf a) (.bin j (.bin k (.leaf b) (.leaf c)) (.leaf d))) none) =
      [(nameFork H n).1, (nameFork H n).1] := by
  simp [mergesort2Allocs, mergesort2, treeFoldUpNmDn, listMergeWrapper, listNameOp, singleton, listMerge, listMergeAllocs, Lst.view, hbc, hbd, had, hab]

/-- The names `1`, `2`, … of a tree are independent. -/
example (H : NameHash) : Independent ((Tree.name (nameOfUsize H 1) 3 (.leaf 4) (.name (nameOfUsize H 2) 1 (.leaf 5) (.leaf 6))).names) :=
  C62_plain_names (by simp [Tree.names, Tree.items, namesOf, nameOfUsize])
    (by intro n hn; simp [Tree.names, Tree.items, namesOf] at hn; rcases hn with rfl | rfl <;> intro m <;> simp [nameOfUsize])

/-- And sorting this tree allocates and leaves names: the theorems are not about empty lists. -/
example (H : NameHash) :
    (mergesort1 H (fun a b => decide (a ≤ b)) (Tree.name (nameOfUsize H 1) 3 (.leaf 6) (.name (nameOfUsize H 2) 1 (.leaf 5) (.leaf 4)))).names.length = 3 ∧
    (mergesort1Allocs H (fun a b => decide (a ≤ b)) (Tree.name (nameOfUsize H 1) 3 (.leaf 6) (.name (nameOfUsize H 2) 1 (.leaf 5) (.leaf 4)))).length = 7 := by
  constructor <;>
  simp [mergesort1, mergesort1Allocs, treeFoldUp, singleton, listNameOp, listMerge, listMergeAllocs, Lst.view, Lst.names, Lst.items, namesOf]

/-- The hypotheses of the findings are met. -/
example (H : NameHash) : (mergesort2 H (fun a b => decide (a ≤ b)) (.name (nameOfUsize H 7) 3 (.leaf 1) (.bin 1 (.leaf 3) (.leaf 2))) none).names
    = [nameOfUsize H 7, nameOfUsize H 7] := C62_mergesort2_repeats_name H _ _ _ _ _ _ _ (by decide) (by decide)
example (H : NameHash) : ¬ (mergesort2Allocs H (fun a b => decide (a ≤ b))
    (.name (nameOfUsize H 7) 3 (.leaf 4) (.bin 2 (.bin 1 (.leaf 5) (.leaf 6)) (.leaf 3))) none).Nodup := by
  rw [C62_mergesort2_repeats_alloc H _ _ _ _ _ _ _ _ _ (by decide) (by decide) (by decide) (by decide)]
  simp

end Adapton.Coll
