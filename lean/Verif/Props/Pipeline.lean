import Verif.Props.TreeEngine
import Verif.Props.SortSession
/-
C68: the pipeline list → tree → sorted list on the engine, end to end.  An editor edits the cells of a list and demands
`vec_of_list(mergesort_list_of_tree(tree_of_list(dir, l)))`, again and again; every demand returns the elements of the current list, sorted.
-/
set_option linter.unusedSectionVars false
set_option linter.unusedVariables false
namespace Adapton.SortProg.Pipe
open Coll (NameElse Lst Tree Dir2 Hashes levZero levMaxVal treeOfListRec)
open Ref (Sig Kind Store Ctx Ext ES Means)
variable {X : Type} [DecidableEq X] (H : NameHash) (le : X → X → Bool) (K : Hashes X)

/-! ### The specification -/

/-- What the editor has put into its cells. -/
abbrev Cells (X : Type) := Name → Option (LV X)

/-- One edit: `cell(name, list)`, or `set(art, list)` of a cell that exists. -/
inductive Edit (X : Type) where
  | cell (n : Name) (l : LV X)
  | set (n : Name) (l : LV X)

/-- The cells after an edit; `set` needs the cell to exist. -/
def Edit.apply (cs : Cells X) : Edit X → Option (Cells X)
  | .cell n l => some fun m => if m = n then some l else cs m
  | .set n l => if (cs n).isSome then some fun m => if m = n then some l else cs m else none
def applyAll (cs : Cells X) : List (Edit X) → Option (Cells X)
  | [] => some cs
  | e :: es => (e.apply cs).bind fun cs' => applyAll cs' es

/-- The list `l` is what the value `v` stands for: the articulations in it are cells, and are replaced by what they hold. -/
inductive Unfolds (cs : Cells X) : LV X → Lst X → Prop
  | nil : Unfolds cs .nil .nil
  | cons {x v l} : Unfolds cs v l → Unfolds cs (.cons x v) (.cons x l)
  | name {n v l} : Unfolds cs v l → Unfolds cs (.name n v) (.name n l)
  | art {n v l} : cs n = some v → Unfolds cs v l → Unfolds cs (.art (cellAt n)) (.art l)

/-- The names in the list are distinct, and none is itself a fork of a name. -/
def GoodNames (l : Lst X) : Prop := (l.names.map Name.sym).Nodup ∧ ∀ n ∈ l.names, isFork n.sym = false

/-- A step of the session: some edits, then a demand of the sorted elements of a list, through a tree built in the direction `dir`. -/
structure Step (X : Type) where
  edits : List (Edit X)
  dir : Dir2
  list : LV X

/-- The lists demanded in a session are the lists `ls`, with good names. -/
inductive Demands : Cells X → List (Step X) → List (Dir2 × Lst X) → Prop
  | nil {cs} : Demands cs [] []
  | cons {cs cs' s ss l ls} : applyAll cs s.edits = some cs' → Unfolds cs' s.list l → GoodNames l → Demands cs' ss ls →
      Demands cs (s :: ss) ((s.dir, l) :: ls)

/-- The order of the leaves in the tree that is sorted: that of the list, or the reverse. -/
def leavesOf : Dir2 × Lst X → List X
  | (.left, l) => l.elems
  | (.right, l) => l.elems.reverse

/-- The code of the editor for one step: the edits, and then
`ns("sort", || get!(thunk!([Some(root)]? { let t = ns("tree_of_list", || tree_of_list(dir, l)); vec_of_list(mergesort_list_of_tree(t)) })))`. -/
def editProg : List (Edit X) → Prog (CV X) → Prog (CV X)
  | [], k => k
  | .cell n l :: es, k => .cell tyL n (.lst l) fun _ => editProg es k
  | .set n l :: es, k => .set tyL (cellAt n) (.lst l) (editProg es k)
def stepProg (rn : Name) (s : Step X) : Prog (CV X) :=
  editProg s.edits <| .ns sortNm (.thunk tyV (.nominal rn) ppPipe fPipe (.pargs s.dir s.list) fun l => .force tyV l none .ret) .ret

/-! ### The tree of a list -/

/-- `tree_of_list` on an annotated list. -/
def ptr (dir : Dir2) (a : AL X) : TR X := atree H K dir (a.erase.size + 1) a .nil levZero levMaxVal

variable {H le K} {dir : Dir2} {a : AL X}

theorem namesOf_reverse (l : List (NameElse X)) : Coll.namesOf l.reverse = (Coll.namesOf l).reverse := by
  induction l with
  | nil => rfl
  | cons i l ih => cases i <;> simp [Coll.namesOf, Coll.namesOf_append, ih]
theorem elmsOf_reverse (l : List (NameElse X)) : Coll.elmsOf l.reverse = (Coll.elmsOf l).reverse := by
  induction l with
  | nil => rfl
  | cons i l ih => cases i <;> simp [Coll.elmsOf, Coll.elmsOf_append, ih]

/-- The tree is that of the model; nothing remains. -/
theorem ptr_model : Coll.treeOfList K dir a.erase = some (ptr H K dir a).tree.erase ∧ (ptr H K dir a).rest.erase.items = [] := by
  obtain ⟨m1, m2⟩ := atree_model H K dir (a.erase.size + 1) a .nil levZero levMaxVal (by omega)
  obtain ⟨t, h1, -⟩ := Coll.tree_of_list_items K dir a.erase
  unfold Coll.treeOfList at h1
  by_cases he : Coll.isEmpty (treeOfListRec K dir a.erase .nil levZero levMaxVal).1.2 = true
  · refine ⟨?_, ?_⟩
    · unfold Coll.treeOfList
      simp only [he, if_true]
      exact congrArg some m1.symm
    · show (atree H K dir (a.erase.size + 1) a .nil levZero levMaxVal).rest.erase.items = []
      rw [m2]
      exact Coll.toLR_rest K dir a.erase
  · simp only [he] at h1; cases h1

theorem ptr_items : (dir = .left → (ptr H K dir a).tree.erase.items = a.erase.items) ∧ (dir = .right → (ptr H K dir a).tree.erase.items = a.erase.items.reverse) := by
  obtain ⟨t, h1, h2, h3, -⟩ := Coll.tree_of_list_items K dir a.erase
  rw [(ptr_model (H := H)).1] at h1
  cases h1
  exact ⟨h2, h3⟩

theorem ptr_leaves : (ptr H K dir a).tree.erase.leaves = leavesOf (dir, a.erase) := by
  cases dir with
  | left => exact congrArg Coll.elmsOf (ptr_items.1 rfl)
  | right =>
    show Coll.elmsOf _ = (Coll.elmsOf _).reverse
    rw [ptr_items.2 rfl, elmsOf_reverse]

theorem ptr_names : (ptr H K dir a).tree.erase.names.Perm a.erase.names := by
  cases dir with
  | left => exact .of_eq (congrArg Coll.namesOf (ptr_items.1 rfl))
  | right =>
    show (Coll.namesOf _).Perm (Coll.namesOf _)
    rw [ptr_items.2 rfl, namesOf_reverse]
    exact List.reverse_perm _

theorem ptr_namesOk (hg : GoodNames a.erase) : NamesOk (ptr H K dir a).tree := by
  refine ⟨plain_of_names _ fun n hn => hg.2 n (ptr_names.mem_iff.1 hn), ?_⟩
  exact ((ptr_names.map _).nodup_iff).2 hg.1

/-! ### The allocations of `tree_of_list` -/

theorem three_mem {m x : Name} (h : x ∈ three H m) : x.sym = .forkL m.sym ∨ x = m ∨ x.sym = .forkR m.sym := by
  simp only [three, List.mem_cons, List.not_mem_nil, or_false] at h
  rcases h with rfl | rfl | rfl
  · exact .inl rfl
  · exact .inr (.inl rfl)
  · exact .inr (.inr rfl)

theorem three_nodup {ms : List Name} (h1 : (ms.map Name.sym).Nodup) (h2 : ∀ n ∈ ms, isFork n.sym = false) : (ms.flatMap (three H)).Nodup := by
  induction ms with
  | nil => exact List.nodup_nil
  | cons m ms ih =>
    rw [List.map_cons, List.nodup_cons] at h1
    rw [List.flatMap_cons, List.nodup_append]
    have hm := h2 m (List.mem_cons_self ..)
    refine ⟨?_, ih h1.2 fun n hn => h2 n (List.mem_cons_of_mem _ hn), ?_⟩
    · have e1 : (nameFork H m).1 ≠ m := fun e => by rw [← e] at hm; cases hm
      have e2 : m ≠ (nameFork H m).2 := fun e => by rw [e] at hm; cases hm
      have e3 : (nameFork H m).1 ≠ (nameFork H m).2 := fun e => by have := congrArg Name.sym e; cases this
      simp [three, e1, e2, e3]
    · intro x hx y hy e
      subst e
      obtain ⟨n, hn, hy⟩ := List.mem_flatMap.1 hy
      have hne : n.sym ≠ m.sym := fun e => h1.1 (e ▸ List.mem_map_of_mem hn)
      have hnf := h2 n (List.mem_cons_of_mem _ hn)
      rcases three_mem hx with a1 | a1 | a1 <;> rcases three_mem hy with b1 | b1 | b1
      · rw [a1] at b1; injection b1 with b1; exact hne b1.symm
      · subst b1; rw [a1] at hnf; cases hnf
      · rw [a1] at b1; cases b1
      · subst a1; rw [b1] at hm; cases hm
      · subst a1; exact hne (by rw [b1])
      · subst a1; rw [b1] at hm; cases hm
      · rw [a1] at b1; cases b1
      · subst b1; rw [a1] at hnf; cases hnf
      · rw [a1] at b1; injection b1 with b1; exact hne b1.symm

theorem ptr_nodup (hg : GoodNames a.erase) : ((ptr H K dir a).allocs.map Prod.fst).Nodup := by
  obtain ⟨⟨ms, h1, h2⟩, -⟩ := atree_names H K dir (a.erase.size + 1) a .nil levZero levMaxVal (by omega)
  refine h2.nodup_iff.2 (three_nodup ?_ fun n hn => hg.2 n ?_)
  · have := hg.1
    rw [h1, List.map_append, List.nodup_append] at this
    exact this.1
  · rw [h1]; exact List.mem_append_left _ hn

theorem tloc_ne {n m : Name} : tloc H n ≠ loc m := by
  intro e
  have := congrArg Loc.path e
  exact absurd this (by simp [tloc, loc, sortPath])
theorem tloc_inj {n m : Name} (h : tloc H n = tloc H m) : n = m := by
  have := congrArg Loc.id h
  simp [tloc] at this
  exact this

/-- The world: what the editor has allocated, and what the demand will allocate. -/
def pworld (H : NameHash) (le : X → X → Bool) (K : Hashes X) (base : Store (CV X)) (dir : Dir2) (a : AL X) : World X := fun l =>
  match base l with
  | some v => some (v, 2 * (ptr H K dir a).tree.ht + 1 + (a.erase.size + 1))
  | none =>
    match (ptr H K dir a).allocs.find? fun x => decide (tloc H x.1 = l) with
    | some x => some x.2
    | none => ((asort H le (ptr H K dir a).tree).2.find? fun x => decide (loc x.1 = l)).map Prod.snd

/-- The editor has nothing at the names of the pipeline. -/
structure Clear (H : NameHash) (base : Store (CV X)) : Prop where
  sort : ∀ n, isFork n.sym = true → base (loc n) = none
  tree : ∀ n, base (tloc H n) = none

theorem tfind_nodup {as : List (Name × CV X × Nat)} (hnd : (as.map Prod.fst).Nodup) {x : Name × CV X × Nat} (hx : x ∈ as) :
    as.find? (fun y => decide (tloc H y.1 = tloc H x.1)) = some x := by
  induction as with
  | nil => cases hx
  | cons y as ih =>
    rw [List.map_cons, List.nodup_cons] at hnd
    rcases List.mem_cons.1 hx with rfl | hx
    · simp
    · have hne : tloc H y.1 ≠ tloc H x.1 := fun e => hnd.1 (tloc_inj e ▸ List.mem_map.2 ⟨x, hx, rfl⟩)
      rw [List.find?_cons_of_neg (by simpa using hne)]
      exact ih hnd.2 hx

variable {base : Store (CV X)}

theorem pworld_base {l : Loc} {v : CV X} (h : base l = some v) : pworld H le K base dir a l = some (v, 2 * (ptr H K dir a).tree.ht + 1 + (a.erase.size + 1)) := by
  simp only [pworld, h]

theorem pworld_tree (hcl : Clear H base) (hg : GoodNames a.erase) : TAllocOk H (pworld H le K base dir a) (ptr H K dir a).allocs := by
  intro x hx
  have hk := (atree_names H K dir (a.erase.size + 1) a .nil levZero levMaxVal (by omega)).2 x hx
  have hp1 : Path.child sortPath (treeNm H) ≠ sortPath := by simp [sortPath]
  have hp2 : Path.child sortPath (treeNm H) ≠ .empty := by simp
  refine ⟨?_, fun h => ?_, fun h => ?_⟩
  · unfold pworld
    rw [hcl.tree x.1]
    simp only [tfind_nodup (ptr_nodup hg) hx]
  · rcases hk with ⟨h1, h2⟩ | ⟨h1, d, l, t, p, q, h2⟩
    · have := hg.2 _ h1
      simp [sigS, sigKind, tloc, hp1, hp2, this]
    · obtain ⟨t, h⟩ := h; rw [h] at h2; cases h2
  · rcases hk with ⟨h1, h2⟩ | ⟨h1, d, l, t, p, q, h2⟩
    · exact absurd h2 h
    · simp [sigS, sigKind, tloc, hp1, hp2, h1]

theorem pworld_sort (hcl : Clear H base) (hg : GoodNames a.erase) : SAllocOk true (pworld H le K base dir a) (asort H le (ptr H K dir a).tree).2 := by
  intro x hx
  have hn := ptr_namesOk (H := H) (K := K) (dir := dir) hg
  obtain ⟨k1, k2, k3⟩ := (asort_kinds (H := H) (le := le) _ hn.1).2 x hx
  refine ⟨?_, fun h => ?_, fun h => ?_⟩
  · unfold pworld
    rw [hcl.sort x.1 k1]
    have hf : (ptr H K dir a).allocs.find? (fun y => decide (tloc H y.1 = loc x.1)) = none := by
      rw [List.find?_eq_none]
      intro y _
      simp [tloc_ne]
    simp only [hf, find_nodup hn.nodup hx, Option.map_some]
  · simp [sigS, sigKind, loc, k2 h, k1]
  · simp [sigS, sigKind, loc, k3 h]

/-! ### Convergence -/

variable {W : World X} {σ : Store (CV X)} {hv : CV X → UInt64} {ha : ProgPt → CV X → UInt64}

/-- The assertion holds. -/
theorem assertOk {l : AL X} (hi : l.erase.items = []) (hl : LiveL σ l) (c : Ctx) (π : Path) :
    Conv (sigS true) (env H le K hv ha) c π (assertEmpty l.val) σ fun σ' _ => σ' = σ := by
  refine Conv.call ?_
  have hcode : (env H le K hv ha).code fLView (.lst l.val) = lview l.val := rfl
  rw [hcode]
  refine (elviewOk l c π hl).mono ?_
  rintro σ0 v ⟨rfl, rfl⟩
  rcases hs : l.strip with _ | ⟨x, t⟩ | ⟨n, t⟩ | ⟨a, t⟩
  · exact Conv.ret rfl
  · rw [Coll.view_cons_items (erase_cons hs)] at hi; cases hi
  · rw [Coll.view_name_items (erase_name hs)] at hi; cases hi
  · exact absurd hs AL.strip_art

theorem pipeOk {c : Ctx} (hc : AncOk W c (2 * (ptr H K dir a).tree.ht + 1 + (a.erase.size + 1))) (hself : c.self ∈ c.anc) (hb : Below σ W) (hl : LiveL σ a)
    (hta : TAllocOk H W (ptr H K dir a).allocs) (hsa : SAllocOk true W (asort H le (ptr H K dir a).tree).2) (hnd : ((asort H le (ptr H K dir a).tree).2.map Prod.fst).Nodup) :
    CS true K H le hv ha c (pipe H dir a.val) σ fun σ' v => Ext σ σ' ∧ Below σ' W ∧
      v = .vec (Coll.vecOfList (Coll.mergesort1 H le (ptr H K dir a).tree.erase) none) := by
  refine Conv.ns ?_
  refine Conv.call ?_
  have hcode : (env H le K hv ha).code fTree (.targs dir a.val .nil levZero levMaxVal) = treeRec H K dir a.val (AT.nil : AT X).val levZero levMaxVal := rfl
  rw [hcode]
  refine (treeOk (a.erase.size + 1) a .nil levZero levMaxVal c σ (by omega) (hc.mono (by omega)) hself hb hl trivial hta).mono ?_
  rintro σ1 v ⟨e1, b1, rfl, t1, l1⟩
  refine Conv.call ?_
  have hcode : (env H le K hv ha).code fAssert (.lst (ptr H K dir a).rest.val) = assertEmpty (ptr H K dir a).rest.val := rfl
  refine (Conv.mono (show Conv _ _ _ _ ((env H le K hv ha).code fAssert (.lst (ptr H K dir a).rest.val)) σ1 _ from hcode ▸ assertOk ptr_model.2 l1 c _) ?_)
  rintro σ2 v rfl
  refine Conv.ret ?_
  refine (rootOk (t := (ptr H K dir a).tree) (hc.mono (by omega)) hself b1 t1 hsa hnd).mono ?_
  rintro σ3 v ⟨e3, b3, rfl⟩
  exact ⟨e1.trans e3, b3, rfl⟩

theorem sig_root {rn : Name} (hr : isFork rn.sym = false) : (sigS true) (loc rn) = .thunk tyV ppPipe fPipe := by
  have h2 : isFork2 rn.sym = false := by
    cases h : isFork2 rn.sym with
    | false => rfl
    | true => rw [isFork_of2 h] at hr; cases hr
  simp [sigS, sigKind, loc, hr, h2]

/-- Demanding the pipeline converges, from every store between what the editor has allocated and the world. -/
theorem demand_conv {base cur : Store (CV X)} {rn : Name} (hr : isFork rn.sym = false) (hcl : Clear H base) (hbase : base (loc rn) = some (.pargs dir a.val))
    (hlive : LiveL base a) (hn : GoodNames a.erase) (hec : Ext base cur) (hbel : Below cur (pworld H le K base dir a)) :
    ∃ N σ' , Ext cur σ' ∧ Below σ' (pworld H le K base dir a) ∧ ∀ n, N ≤ n → (Ref.recN (sigS true) (env H le K hv ha) n).frc [] cur (loc rn) =
      some (σ', .vec (Coll.vecOfList (Coll.mergesort1 H le (ptr H K dir a).tree.erase) none)) := by
  have hc : CS true K H le hv ha ⟨loc rn, [loc rn]⟩ (pipe H dir a.val) cur fun σ' v =>
      Ext cur σ' ∧ Below σ' (pworld H le K base dir a) ∧ v = .vec (Coll.vecOfList (Coll.mergesort1 H le (ptr H K dir a).tree.erase) none) := by
    refine pipeOk ?_ (List.mem_cons_self ..) hbel (hlive.ext hec) (pworld_tree hcl hn) (pworld_sort hcl hn) (ptr_namesOk hn).nodup
    intro b ham
    rcases List.mem_cons.1 ham with rfl | ham
    · exact ⟨_, _, pworld_base hbase, Nat.le_refl _⟩
    · cases ham
  obtain ⟨N, σ', v, ⟨q1, q2, rfl⟩, h⟩ := Conv.frc (sig_root hr) (hec _ _ hbase) ⟨rfl, fun _ => rfl⟩ rfl hc
  exact ⟨N, σ', q1, q2, h⟩

/-! ### From the specification to the annotated lists -/

theorem sig_cellAt (n : Name) : (sigS true) (cellAt n) = .cell tyL := by
  have : (cellAt n).path ≠ sortPath := by simp [cellAt, sortPath]
  have h2 : (cellAt n).path = .empty := rfl
  show sigKind true (cellAt n) = _
  unfold sigKind
  rw [if_neg this, if_pos ⟨rfl, h2⟩]

theorem Unfolds.annot {cs : Cells X} {σ : Store (CV X)} (hσ : ∀ n v, cs n = some v → σ (cellAt n) = some (.lst v)) {v : LV X} {l : Lst X}
    (h : Unfolds cs v l) : ∃ a : AL X, a.val = v ∧ a.erase = l ∧ LiveL σ a := by
  induction h with
  | nil => exact ⟨.nil, rfl, rfl, trivial⟩
  | cons _ ih => obtain ⟨a, rfl, rfl, a3⟩ := ih; exact ⟨.cons _ a, rfl, rfl, a3⟩
  | name _ ih => obtain ⟨a, rfl, rfl, a3⟩ := ih; exact ⟨.name _ a, rfl, rfl, a3⟩
  | @art n v t hn _ ih =>
    obtain ⟨a, rfl, rfl, a3⟩ := ih
    exact ⟨.art (cellAt n) a, rfl, rfl, sig_cellAt n, hσ _ _ hn, a3⟩

theorem liveL_unique {σ : Store (CV X)} {t : AL X} : ∀ {t' : AL X}, LiveL σ t → LiveL σ t' → t.val = t'.val → t = t' := by
  induction t with
  | nil => intro t' _ _ e; cases t' <;> simp [AL.val] at e ⊢
  | cons x l ih =>
    intro t' h h' e
    cases t' <;> simp [AL.val] at e
    rename_i y l'
    obtain ⟨rfl, e1⟩ := e
    rw [ih h (t' := l') h' e1]
  | name n l ih =>
    intro t' h h' e
    cases t' <;> simp [AL.val] at e
    rename_i y l'
    obtain ⟨rfl, e1⟩ := e
    rw [ih h (t' := l') h' e1]
  | art a t ih =>
    intro t' h h' e
    cases t' <;> simp [AL.val] at e
    rename_i a' t'
    subst e
    have := h.2.1
    rw [h'.2.1] at this
    injection this with this
    injection this with this
    rw [ih h.2.2 h'.2.2 this.symm]

/-! ### The invariant of the editor's store -/

/-- Between the operations of the editor: it has allocated cells and the root only; what else there is was allocated by the demand of
the current root. -/
structure EdOk (H : NameHash) (le : X → X → Bool) (K : Hashes X) (rn : Name) (cs : Cells X) (e : ES (CV X)) : Prop where
  ext : Ext e.base e.cur
  clear : ∀ l, l ≠ loc rn → l.path ≠ .empty → e.base l = none
  cells : ∀ n v, cs n = some v → e.base (cellAt n) = some (.lst v)
  below : e.cur = e.base ∨ ∃ (dir : Dir2) (a : AL X), e.base (loc rn) = some (.pargs dir a.val) ∧ LiveL e.base a ∧ GoodNames a.erase ∧
    Below e.cur (pworld H le K e.base dir a)

variable {rn : Name} {cs cs' : Cells X} {e : ES (CV X)}

theorem EdOk.cl (hr : isFork rn.sym = false) (h : EdOk H le K rn cs e) : Clear H e.base := by
  refine ⟨fun n hn => h.clear _ (fun e => ?_) (by simp [loc, sortPath]), fun n => h.clear _ tloc_ne (by simp [tloc])⟩
  have := congrArg Loc.id e
  simp [loc] at this
  rw [this, hr] at hn; cases hn

/-- What is in the world and not from the editor is at a name of the pipeline. -/
theorem pworld_fork (hg : GoodNames a.erase) {l : Loc} {v : CV X} {k : Nat} (hb : base l = none) (hk : pworld H le K base dir a l = some (v, k)) :
    (∃ n, l = loc n ∧ isFork n.sym = true) ∨ ∃ n, l = tloc H n := by
  unfold pworld at hk
  rw [hb] at hk
  simp only at hk
  rcases hf : (ptr H K dir a).allocs.find? (fun x => decide (tloc H x.1 = l)) with _ | x
  · rw [hf] at hk
    simp only [Option.map_eq_some_iff] at hk
    obtain ⟨x, hx, _⟩ := hk
    have hm := List.mem_of_find?_eq_some hx
    have hl := List.find?_some hx
    simp at hl
    exact .inl ⟨x.1, hl.symm, ((asort_kinds _ (ptr_namesOk hg).1).2 x hm).1⟩
  · have hl := List.find?_some hf
    simp at hl
    exact .inr ⟨x.1, hl.symm⟩

/-- An edit of a cell or of the root. -/
theorem EdOk.edit (hr : isFork rn.sym = false) (h : EdOk H le K rn cs e) {l : Loc} {v : CV X}
    (hl : l = loc rn ∨ l.path = .empty) (hcs : ∀ n w, cs' n = some w → (Ref.edit e l v).base (cellAt n) = some (.lst w)) :
    EdOk H le K rn cs' (Ref.edit e l v) ∧ (Ref.edit e l v).base l = some v := by
  have hnf : ((∃ n, l = loc n ∧ isFork n.sym = true) ∨ ∃ n, l = tloc H n) → False := by
    rintro (⟨n, e1, e2⟩ | ⟨n, e1⟩)
    · rcases hl with rfl | hl
      · have := congrArg Loc.id e1
        simp [loc] at this
        rw [← this, hr] at e2; cases e2
      · rw [e1] at hl; simp [loc, sortPath] at hl
    · rcases hl with rfl | hl
      · exact tloc_ne e1.symm
      · rw [e1] at hl; simp [tloc] at hl
  have hclear : ∀ l', l' ≠ loc rn → l'.path ≠ .empty → (Ref.edit e l v).base l' = none := by
    intro l' h1 h2
    rw [Ref.edit_dec]
    simp only [Ref.upd]
    have : l' ≠ l := by
      rintro rfl
      rcases hl with hl | hl
      · exact h1 hl
      · exact h2 hl
    rw [if_neg this]
    exact h.clear l' h1 h2
  have hbl : (Ref.edit e l v).base l = some v := by rw [Ref.edit_dec]; simp [Ref.upd]
  refine ⟨?_, hbl⟩
  rcases hcl : e.cur l with _ | w
  · have hb : e.base l = none := by
      rcases hb : e.base l with _ | w
      · rfl
      · have := h.ext _ _ hb; rw [hcl] at this; cases this
    have e1 : Ref.edit e l v = ⟨Ref.upd e.base l v, Ref.upd e.cur l v⟩ := by rw [Ref.edit_dec]; simp [hcl]
    have hext : Ext e.base (Ref.upd e.base l v) := by
      intro l' w hw
      simp only [Ref.upd]
      by_cases h' : l' = l
      · rw [h', hb] at hw; cases hw
      · rw [if_neg h']; exact hw
    refine ⟨?_, hclear, hcs, ?_⟩
    · rw [e1]
      intro l' w hw
      simp only [Ref.upd] at hw ⊢
      by_cases h' : l' = l
      · rw [if_pos h'] at hw ⊢; exact hw
      · rw [if_neg h'] at hw ⊢; exact h.ext _ _ hw
    · rw [e1]
      rcases h.below with h1 | ⟨dir, t, h1, h2, h3, h4⟩
      · exact .inl (by rw [h1])
      · refine .inr ⟨dir, t, hext _ _ h1, h2.ext hext, h3, ?_⟩
        intro l' w hw
        simp only [Ref.upd] at hw
        by_cases h' : l' = l
        · rw [if_pos h'] at hw
          subst h'; cases hw
          exact ⟨_, pworld_base (by simp [Ref.upd])⟩
        · rw [if_neg h'] at hw
          obtain ⟨k, hk⟩ := h4 _ _ hw
          refine ⟨k, ?_⟩
          unfold pworld at hk ⊢
          simp only [Ref.upd, if_neg h']
          exact hk
  · by_cases hwv : w = v
    · subst hwv
      have hb : e.base l = some w := by
        rcases hb : e.base l with _ | u
        · rcases h.below with h1 | ⟨dir, t, h1, h2, h3, h4⟩
          · rw [h1, hb] at hcl; cases hcl
          · obtain ⟨k, hk⟩ := h4 _ _ hcl
            exact absurd (hnf (pworld_fork h3 hb hk)) id
        · have := h.ext _ _ hb
          rw [hcl] at this; cases this; rfl
      have e1 : Ref.edit e l w = e := by
        have u1 : Ref.upd e.base l w = e.base := by
          funext x; simp only [Ref.upd]; by_cases h' : x = l
          · rw [if_pos h', h', hb]
          · rw [if_neg h']
        have u2 : Ref.upd e.cur l w = e.cur := by
          funext x; simp only [Ref.upd]; by_cases h' : x = l
          · rw [if_pos h', h', hcl]
          · rw [if_neg h']
        rw [Ref.edit_dec]; simp [hcl, u1, u2]
      rw [e1] at hcs ⊢
      exact ⟨h.ext, h.clear, hcs, h.below⟩
    · have e1 : Ref.edit e l v = ⟨Ref.upd e.base l v, Ref.upd e.base l v⟩ := by rw [Ref.edit_dec]; simp [hcl, hwv]
      refine ⟨?_, hclear, hcs, ?_⟩
      · rw [e1]; exact fun _ _ h => h
      · rw [e1]; exact .inl rfl

/-- The cells after an edit of a cell. -/
theorem EdOk.cellEdit (hr : isFork rn.sym = false) (h : EdOk H le K rn cs e) (n : Name) (l : LV X) :
    EdOk H le K rn (fun m => if m = n then some l else cs m) (Ref.edit e (cellAt n) (.lst l)) := by
  refine (h.edit hr (.inr rfl) ?_).1
  intro m w hw
  rw [Ref.edit_dec]
  simp only [Ref.upd]
  by_cases hm : m = n
  · simp only [hm, if_true] at hw ⊢
    cases hw; rfl
  · rw [if_neg (by simpa [cellAt] using hm)]
    rw [if_neg hm] at hw
    exact h.cells _ _ hw

/-- The edits of a step. -/
theorem edits_ok (hr : isFork rn.sym = false) (es : List (Edit X)) : ∀ (cs cs' : Cells X) (e : ES (CV X)), applyAll cs es = some cs' → EdOk H le K rn cs e →
    ∃ e', EdOk H le K rn cs' e' ∧ ∀ env R callE k, Ref.evalEd (sigS true) env R callE false .empty (editProg es k) e = Ref.evalEd (sigS true) env R callE false .empty k e' := by
  induction es with
  | nil => intro cs cs' e h1 h2; cases h1; exact ⟨e, h2, fun _ _ _ _ => rfl⟩
  | cons ed es ih =>
    intro cs cs' e h1 h2
    cases ed with
    | cell n t =>
      obtain ⟨e', i1, i2⟩ := ih _ _ _ h1 (h2.cellEdit hr n t)
      refine ⟨e', i1, fun env R callE k => ?_⟩
      rw [← i2]
      have hl : Ref.cellLoc env false .empty n (.lst t) = cellAt n := rfl
      simp only [editProg, Ref.evalEd, hl]
      rw [if_pos ⟨sig_cellAt n, rfl⟩]
    | set n t =>
      by_cases hs : (cs n).isSome
      · simp only [applyAll, Edit.apply, if_pos hs, Option.bind] at h1
        obtain ⟨e', i1, i2⟩ := ih _ _ _ h1 (h2.cellEdit hr n t)
        refine ⟨e', i1, fun env R callE k => ?_⟩
        rw [← i2]
        obtain ⟨w, hw⟩ := Option.isSome_iff_exists.1 hs
        have hc : e.cur (cellAt n) ≠ none := by rw [h2.ext _ _ (h2.cells _ _ hw)]; simp
        simp only [editProg, Ref.evalEd]
        rw [if_pos ⟨sig_cellAt n, hc, rfl⟩]
      · simp [applyAll, Edit.apply, hs] at h1

/-- The program allocates nothing structurally. -/
theorem keepStruct_pworld {base σ : Store (CV X)} (hg : GoodNames a.erase) (he : Ext base σ) (hb : Below σ (pworld H le K base dir a)) : Ref.keepStruct base σ = base := by
  funext l
  unfold Ref.keepStruct
  by_cases hl : l.isStruct = true
  · rw [if_pos hl]
    rcases hbl : base l with _ | v
    · rcases hσ : σ l with _ | v
      · rfl
      · obtain ⟨k, hk⟩ := hb l v hσ
        rcases pworld_fork hg hbl hk with ⟨n, rfl, _⟩ | ⟨n, rfl⟩ <;> cases hl
    · exact he l v hbl
  · rw [if_neg hl]

/-- What the model returns. -/
def result (H : NameHash) (le : X → X → Bool) (K : Hashes X) (p : Dir2 × Lst X) : List (NameElse X) :=
  match Coll.treeOfList K p.1 p.2 with
  | some t => Coll.vecOfList (Coll.mergesort1 H le t) none
  | none => []

theorem result_eq : result H le K (dir, a.erase) = Coll.vecOfList (Coll.mergesort1 H le (ptr H K dir a).tree.erase) none := by
  unfold result
  simp only [(ptr_model (H := H)).1]

/-- One step. -/
theorem step_ok (hr : isFork rn.sym = false) {s : Step X} {l : Lst X} (h : EdOk H le K rn cs e)
    (h1 : applyAll cs s.edits = some cs') (h2 : Unfolds cs' s.list l) (h3 : GoodNames l) :
    ∃ N e', EdOk H le K rn cs' e' ∧ ∀ n, N ≤ n →
      Ref.evalEd (sigS true) (env H le K hv ha) (Ref.recN (sigS true) (env H le K hv ha) n) (Ref.callEN (sigS true) (env H le K hv ha) n) false .empty (stepProg rn s) e =
        some (e', .vec (result H le K (s.dir, l))) := by
  obtain ⟨e1, a1, a2⟩ := edits_ok hr s.edits cs cs' e h1 h
  have hcs : ∀ n w, cs' n = some w → (Ref.edit e1 (loc rn) (.pargs s.dir s.list)).base (cellAt n) = some (.lst w) := by
    intro n w hw
    rw [Ref.edit_dec]
    simp only [Ref.upd]
    rw [if_neg (by simp [cellAt, loc, sortPath])]
    exact a1.cells _ _ hw
  obtain ⟨b1, b2⟩ := a1.edit hr (.inl rfl) hcs
  obtain ⟨a, a4, rfl, a5⟩ := h2.annot b1.cells
  obtain ⟨ses, dir, sl⟩ := s
  simp only at a4
  subst a4
  have hbel : Below (Ref.edit e1 (loc rn) (.pargs dir a.val)).cur (pworld H le K (Ref.edit e1 (loc rn) (.pargs dir a.val)).base dir a) := by
    rcases b1.below with hb | ⟨dir', t', t1, t2, t3, t4⟩
    · rw [hb]; exact fun l v hl => ⟨_, pworld_base hl⟩
    · rw [b2] at t1
      injection t1 with t1
      injection t1 with t0 t1
      have := liveL_unique t2 a5 t1.symm
      rw [this, ← t0] at t4; exact t4
  obtain ⟨N, σ', d1, d2, d3⟩ := demand_conv (K := K) (hv := hv) (ha := ha) hr (b1.cl hr) b2 a5 h3 b1.ext hbel
  have hs := sig_root hr
  refine ⟨N, ⟨(Ref.edit e1 (loc rn) (.pargs dir a.val)).base, σ'⟩, ⟨b1.ext.trans d1, b1.clear, b1.cells, .inr ⟨dir, a, b2, a5, h3, d2⟩⟩, fun n hnN => ?_⟩
  unfold stepProg
  rw [a2, result_eq (H := H)]
  have hs' : (sigS true) ⟨.child .empty sortNm, .nominal rn⟩ = .thunk tyV ppPipe fPipe := hs
  have hks : Ref.keepStruct (Ref.edit e1 (loc rn) (.pargs dir a.val)).base σ' = (Ref.edit e1 (loc rn) (.pargs dir a.val)).base := keepStruct_pworld h3 (b1.ext.trans d1) d2
  have hd : Ref.demand (sigS true) (Ref.recN (sigS true) (env H le K hv ha) n) false tyV ⟨.child .empty sortNm, .nominal rn⟩ (Ref.edit e1 ⟨.child .empty sortNm, .nominal rn⟩ (.pargs dir a.val)) =
      some (⟨(Ref.edit e1 (loc rn) (.pargs dir a.val)).base, σ'⟩, .vec (Coll.vecOfList (Coll.mergesort1 H le (ptr H K dir a).tree.erase) none)) := by
    have d3 : (Ref.recN (sigS true) (env H le K hv ha) n).frc [] (Ref.edit e1 ⟨.child .empty sortNm, .nominal rn⟩ (.pargs dir a.val)).cur ⟨.child .empty sortNm, .nominal rn⟩ = _ := d3 n hnN
    have hmo : (sigS true).mode = false := rfl
    simp only [Ref.demand, hs', hmo, and_self, if_true, Ref.editorForce, d3]
    rw [← hks]
    rfl
  have hl : Ref.thunkLoc (env H le K hv ha) false (.child .empty sortNm) (.nominal rn) ppPipe (.pargs dir a.val) = some (loc rn) := rfl
  simp only [Ref.evalEd, hl]
  rw [if_pos ⟨hs, rfl⟩]
  rw [show Ref.demand (sigS true) (Ref.recN (sigS true) (env H le K hv ha) n) false tyV (loc rn) (Ref.edit e1 (loc rn) (.pargs dir a.val)) = _ from hd]

theorem session_means (hr : isFork rn.sym = false) (ss : List (Step X)) : ∀ (cs : Cells X) (ls : List (Dir2 × Lst X)) (e : ES (CV X)), Demands cs ss ls → EdOk H le K rn cs e →
    ∃ N e', ∀ n, N ≤ n → Ref.session (sigS true) (env H le K hv ha) n (ss.map (stepProg rn)) e = some (e', ls.map fun p => .vec (result H le K p)) := by
  induction ss with
  | nil => intro cs ts e h he; cases h; exact ⟨0, e, fun _ _ => rfl⟩
  | cons s ss ih =>
    intro cs ts e h he
    cases h with
    | cons h1 h2 h3 h4 =>
      obtain ⟨N, e1, s1, s2⟩ := step_ok (K := K) (hv := hv) (ha := ha) hr he h1 h2 h3
      obtain ⟨N', e2, i⟩ := ih _ _ e1 h4 s1
      refine ⟨max N N', e2, fun n hn => ?_⟩
      simp only [List.map_cons, Ref.session]
      rw [show (sigS true).mode = false from rfl, s2 n (by omega)]
      simp only [i n (by omega)]

/-- The sessions have a meaning. -/
theorem pipeline_session_means (hr : isFork rn.sym = false) (ss : List (Step X)) (ls : List (Dir2 × Lst X)) (h : Demands (fun _ => none) ss ls) :
    Means (sigS true) (env H le K hv ha) (ss.map (stepProg rn)) (ls.map fun p => .vec (result H le K p)) := by
  have he : EdOk H le K rn (fun _ => none) (Ref.emptyES : ES (CV X)) :=
    ⟨(fun _ _ h => by cases h), fun _ _ _ => rfl, (fun _ _ h => by cases h), .inl rfl⟩
  obtain ⟨N, e, hN⟩ := session_means hr ss _ ls _ h he
  exact ⟨N, e, hN N (Nat.le_refl _)⟩

theorem result_sorts (ho : Coll.TotalOrder le) (p : Dir2 × Lst X) : Coll.SortOf le (leavesOf p) (Coll.elmsOf (result H le K p)) := by
  obtain ⟨dir, l⟩ := p
  obtain ⟨t, h1, h2, h3, -⟩ := Coll.tree_of_list_items K dir l
  have hlv : leavesOf (dir, l) = t.leaves := by
    cases dir with
    | left => exact (congrArg Coll.elmsOf (h2 rfl)).symm
    | right =>
      show (Coll.elmsOf _).reverse = Coll.elmsOf _
      rw [h3 rfl, elmsOf_reverse]
  unfold result
  simp only [h1]
  rw [hlv]
  have := Coll.mergesort1_sorts H le ho t
  unfold Coll.Lst.elems at this
  rw [← (Coll.vec_of_list_items _).1] at this
  exact this

/-- **C68.** The pipeline on the engine.  The editor edits cells that hold lists, in any way, and demands `vec_of_list(mergesort_list_of_tree(tree_of_list(dir, l)))`, again
and again.  If at each demand the articulations of the list can be followed to the end, and the names in it are distinct and not forks, then the
engine terminates without panic and returns, at each demand, the elements of the list as it is then, sorted; whatever the hashes
of names and elements, which decide the shape of the tree. -/
theorem C68_pipeline_session (ho : Coll.TotalOrder le) (hr : isFork rn.sym = false) (ss : List (Step X)) (ls : List (Dir2 × Lst X))
    (h : Demands (fun _ => none) ss ls) (purity : Bool) :
    ∃ vs : List (List (NameElse X)), vs.length = ls.length ∧ (∀ p ∈ ls.zip vs, Coll.SortOf le (leavesOf p.1) (Coll.elmsOf p.2)) ∧
      (∃ N s', ∀ n, N ≤ n → runSession (env H le K hv ha) n (ss.map (stepProg rn)) (initSt purity false) = .ok (vs.map .vec) s') ∧
      (∀ n err s', runSession (env H le K hv ha) n (ss.map (stepProg rn)) (initSt purity false) ≠ .panic err s') ∧
      ∀ n vs' s', runSession (env H le K hv ha) n (ss.map (stepProg rn)) (initSt purity false) = .ok vs' s' → vs' = vs.map .vec := by
  have hm := pipeline_session_means (H := H) (le := le) (K := K) (hv := hv) (ha := ha) hr ss ls h
  refine ⟨ls.map (result H le K), by simp, ?_, ?_, ?_, ?_⟩
  · clear hm h
    induction ls with
    | nil => intro p hp; cases hp
    | cons t ts ih =>
      intro p hp
      simp only [List.map_cons, List.zip_cons_cons] at hp
      rcases List.mem_cons.1 hp with rfl | hp
      · exact result_sorts ho _
      · exact ih p hp
  · rw [List.map_map]
    exact (C02_terminates_without_panic (sigS true) (env H le K hv ha) _ _ hm purity fun _ => rfl).1
  · exact (C02_terminates_without_panic (sigS true) (env H le K hv ha) _ _ hm purity fun _ => rfl).2
  · intro n vs' s' he
    rw [List.map_map]
    exact C01_from_scratch_consistency (sigS true) (env H le K hv ha) _ _ hm purity (fun _ => rfl) n vs' s' he

/-! ### A session that meets the hypotheses

The list `8, ⟨name 1⟩, [cell 10]`, of which the cells are edited between demands. -/
end Adapton.SortProg.Pipe
namespace Adapton.SortProg.Pipe.Example68
open Coll (Dir2 Lst)
open Example63 (H nm le K elems)
def theList : LV Nat := .cons 8 (.name (nm 1) (.art (cellAt (nm 10))))
def steps : List (Step Nat) :=
  [⟨[.cell (nm 11) (.cons 7 .nil), .cell (nm 10) (.cons 3 (.name (nm 2) (.art (cellAt (nm 11)))))], .left, theList⟩,
   ⟨[.set (nm 11) (.cons 9 (.cons 1 .nil))], .left, theList⟩,
   ⟨[.cell (nm 12) (.cons 5 .nil), .set (nm 11) (.name (nm 3) (.cons 2 (.art (cellAt (nm 12)))))], .right, theList⟩,
   ⟨[.set (nm 10) (.art (cellAt (nm 12)))], .right, theList⟩]
def lists : List (Dir2 × Lst Nat) :=
  [(.left, .cons 8 (.name (nm 1) (.art (.cons 3 (.name (nm 2) (.art (.cons 7 .nil))))))),
   (.left, .cons 8 (.name (nm 1) (.art (.cons 3 (.name (nm 2) (.art (.cons 9 (.cons 1 .nil)))))))),
   (.right, .cons 8 (.name (nm 1) (.art (.cons 3 (.name (nm 2) (.art (.name (nm 3) (.cons 2 (.art (.cons 5 .nil)))))))))),
   (.right, .cons 8 (.name (nm 1) (.art (.art (.cons 5 .nil)))))]

theorem meets : Demands (fun _ => none) steps lists := by
  refine .cons rfl (.cons (.name (.art rfl (.cons (.name (.art rfl (.cons .nil))))))) ⟨by decide, by decide⟩ ?_
  refine .cons rfl (.cons (.name (.art rfl (.cons (.name (.art rfl (.cons (.cons .nil)))))))) ⟨by decide, by decide⟩ ?_
  refine .cons rfl (.cons (.name (.art rfl (.cons (.name (.art rfl (.name (.cons (.art rfl (.cons .nil)))))))))) ⟨by decide, by decide⟩ ?_
  refine .cons rfl (.cons (.name (.art rfl (.art rfl (.cons .nil))))) ⟨by decide, by decide⟩ ?_
  exact .nil

example : (match runSession (env H le K (fun _ => 0) (fun _ _ => 0)) 60 (steps.map (stepProg (nm 0))) (initSt true false) with
    | .ok vs _ => vs.map elems
    | _ => []) = [[3, 7, 8], [1, 3, 8, 9], [2, 3, 5, 8], [5, 8]] := by decide +kernel

/-- The hypothesis on names is needed: on the list `8, ⟨name 1⟩, 3, ⟨name 1⟩, 5` the engine panics. -/
theorem C68_repeated_name_panics :
    (match runSession (env H le K (fun _ => 0) (fun _ _ => 0)) 60 [stepProg (nm 0) ⟨[], .left, .cons 8 (.name (nm 1) (.cons 3 (.name (nm 1) (.cons 5 .nil))))⟩] (initSt true false) with
    | .panic e _ => some e
    | _ => none) = some .unexpectedCycle := by decide +kernel

end Adapton.SortProg.Pipe.Example68
