import Verif.Props.SortEngine
import Verif.Props.Trees
/-
C68, first part: `tree_of_list` on the engine.  As a program of the engine it has in the reference semantics the meaning that the model of
Collections/Model.lean gives it.
-/
set_option linter.unusedSectionVars false
set_option linter.unusedVariables false
namespace Adapton
open Ref (Sig Store Ctx) in
theorem Conv.ns {V : Type} [DecidableEq V] {sig : Sig} {env : Env V} {c : Ctx} {π : Path} {σ : Store V} {Q : Store V → V → Prop} {n : Name} {body : Prog V} {k : V → Prog V}
    (h : Conv sig env c (.child π n) body σ fun σ1 v1 => Conv sig env c π (k v1) σ1 Q) : Conv sig env c π (.ns n body k) σ Q := by
  intro hm hu obs ho
  obtain ⟨N, σ1, v1, obs1, h1, h2, h3⟩ := h hm hu obs ho
  obtain ⟨N', σ', v, obs', h4, h5, h6⟩ := h2 hm hu obs1 h1
  refine ⟨max N N', σ', v, obs', h4, h5, fun n hn => ?_⟩
  simp only [Ref.eval, h3 n (by omega)]
  exact h6 n (by omega)

namespace SortProg
open Coll (NameElse Lst Tree Dir2 Hashes levElm levName levBits levZero levMaxVal levAdd levInc levLte treeOfListRec)
open Ref (Sig Kind Store Ctx Ext alloc)
variable {X : Type} (H : NameHash) (le : X → X → Bool) (K : Hashes X) (dir : Dir2)

/-! ### The annotated function -/

/-- A location of `tree_of_list`. -/
def tloc (n : Name) : Loc := ⟨.child sortPath (treeNm H), .nominal n⟩

/-- What `tree_of_list_rec` returns, and what it allocates (with ranks: a thunk forces only thunks of smaller rank). -/
structure TR (X : Type) where
  tree : AT X
  rest : AL X
  allocs : List (Name × CV X × Nat)

def binOf (lev : Nat) (t t2 : AT X) : AT X :=
  match dir with
  | .left => .bin lev t t2
  | .right => .bin lev t2 t
def nameOf (nm : Name) (lev : Nat) (t t2 : AT X) : AT X :=
  match dir with
  | .left => .name nm lev t t2
  | .right => .name nm lev t2 t

/-- `tree_of_list_rec`, with recursion depth at most `n`. -/
def atree : Nat → AL X → AT X → Nat → Nat → TR X
  | 0, list, tree, _, _ => ⟨tree, list, []⟩
  | n + 1, list, tree, tl, pl =>
    match list.strip with
    | .nil => ⟨tree, .nil, []⟩
    | .cons hd rest =>
      let lev := levInc (levElm K hd)
      if levLte tl lev && levLte lev pl then
        let r1 := atree n rest (.leaf hd) levZero lev
        let r2 := atree n r1.rest (binOf dir lev tree r1.tree) lev pl
        ⟨r2.tree, r2.rest, r1.allocs ++ r2.allocs⟩
      else ⟨tree, .cons hd rest, []⟩
    | .name nm rest =>
      let lev := levInc (levAdd levBits (levName K nm))
      if levLte tl lev && levLte lev pl then
        let r1 := atree n rest .nil levZero lev
        let r2 := atree n r1.rest (.art (tloc H nm) (nameOf dir nm lev tree r1.tree)) lev pl
        ⟨r2.tree, r2.rest, ((nameFork H nm).1, .targs dir rest.val .nil levZero lev, n) :: r1.allocs ++
          (nm, .tree (nameOf dir nm lev tree r1.tree).val, 0) ::
          ((nameFork H nm).2, .targs dir r1.rest.val (.art (tloc H nm)) lev pl, n) :: r2.allocs⟩
      else ⟨tree, .name nm rest, []⟩
    | .art _ _ => ⟨tree, list, []⟩

theorem strip_erase_size_cons {l : AL X} {x : X} {t : AL X} (h : l.strip = .cons x t) : l.erase.size = t.erase.size + 1 :=
  Lst.view_cons (erase_cons h)
theorem strip_erase_size_name {l : AL X} {n : Name} {t : AL X} (h : l.strip = .name n t) : l.erase.size = t.erase.size + 1 :=
  Lst.view_name (erase_name h)

def binT (lev : Nat) (t t2 : Tree X) : Tree X :=
  match dir with
  | .left => .bin lev t t2
  | .right => .bin lev t2 t
def nameT (nm : Name) (lev : Nat) (t t2 : Tree X) : Tree X :=
  match dir with
  | .left => .name nm lev t t2
  | .right => .name nm lev t2 t
theorem binOf_erase (lev : Nat) (t t2 : AT X) : (binOf dir lev t t2).erase = binT dir lev t.erase t2.erase := by cases dir <;> rfl
theorem nameOf_erase (nm : Name) (lev : Nat) (t t2 : AT X) : (nameOf dir nm lev t t2).erase = nameT dir nm lev t.erase t2.erase := by cases dir <;> rfl

theorem tolr_nil {l : Lst X} (h : l.view = .nil) (t : Tree X) (tl pl : Nat) : (treeOfListRec K dir l t tl pl).1 = (t, .nil) := by
  rw [treeOfListRec.eq_def]
  split <;> rename_i h' <;> rw [h] at h' <;> cases h'
theorem tolr_cons {l r : Lst X} {x : X} (h : l.view = .cons x r) (t : Tree X) (tl pl : Nat) : (treeOfListRec K dir l t tl pl).1 =
    if levLte tl (levInc (levElm K x)) && levLte (levInc (levElm K x)) pl then
      (treeOfListRec K dir (treeOfListRec K dir r (.leaf x) levZero (levInc (levElm K x))).1.2
        (binT dir (levInc (levElm K x)) t (treeOfListRec K dir r (.leaf x) levZero (levInc (levElm K x))).1.1) (levInc (levElm K x)) pl).1
    else (t, .cons x r) := by
  rw [treeOfListRec.eq_def]
  split <;> rename_i h' <;> rw [h] at h' <;> cases h'
  by_cases hc : (levLte tl (levInc (levElm K x)) && levLte (levInc (levElm K x)) pl) = true
  · rw [if_pos hc, if_pos hc]
    dsimp only
    rcases treeOfListRec K dir r (.leaf x) levZero (levInc (levElm K x)) with ⟨⟨t2, r2⟩, h2⟩
    cases dir <;> rfl
  · rw [if_neg hc, if_neg hc]
theorem tolr_name {l r : Lst X} {nm : Name} (h : l.view = .name nm r) (t : Tree X) (tl pl : Nat) : (treeOfListRec K dir l t tl pl).1 =
    if levLte tl (levInc (levAdd levBits (levName K nm))) && levLte (levInc (levAdd levBits (levName K nm))) pl then
      (treeOfListRec K dir (treeOfListRec K dir r .nil levZero (levInc (levAdd levBits (levName K nm)))).1.2
        (Coll.tcell nm (nameT dir nm (levInc (levAdd levBits (levName K nm))) t (treeOfListRec K dir r .nil levZero (levInc (levAdd levBits (levName K nm)))).1.1))
        (levInc (levAdd levBits (levName K nm))) pl).1
    else (t, .name nm r) := by
  rw [treeOfListRec.eq_def]
  split <;> rename_i h' <;> rw [h] at h' <;> cases h'
  by_cases hc : (levLte tl (levInc (levAdd levBits (levName K nm))) && levLte (levInc (levAdd levBits (levName K nm))) pl) = true
  · rw [if_pos hc, if_pos hc]
    rcases treeOfListRec K dir r .nil levZero (levInc (levAdd levBits (levName K nm))) with ⟨⟨t2, r2⟩, h2⟩
    cases dir <;> rfl
  · rw [if_neg hc, if_neg hc]

/-- The annotated function is the function of the model. -/
theorem atree_model : ∀ (n : Nat) (list : AL X) (tree : AT X) (tl pl : Nat), list.erase.size < n →
    (atree H K dir n list tree tl pl).tree.erase = (treeOfListRec K dir list.erase tree.erase tl pl).1.1 ∧
    (atree H K dir n list tree tl pl).rest.erase = (treeOfListRec K dir list.erase tree.erase tl pl).1.2 := by
  intro n
  induction n with
  | zero => intro list tree tl pl h; omega
  | succ n ih =>
    intro list tree tl pl h
    rcases hs : list.strip with _ | ⟨x, t⟩ | ⟨nm, t⟩ | ⟨a, t⟩
    · have hv := erase_nil hs
      rw [tolr_nil K dir hv]
      simp only [atree, hs]
      exact ⟨trivial, rfl⟩
    · have hv := erase_cons hs
      have hsz := strip_erase_size_cons hs
      rw [tolr_cons K dir hv]
      simp only [atree, hs]
      by_cases hc : (levLte tl (levInc (levElm K x)) && levLte (levInc (levElm K x)) pl) = true
      · rw [if_pos hc, if_pos hc]
        obtain ⟨i1, i2⟩ := ih t (.leaf x) levZero (levInc (levElm K x)) (by omega)
        have h2 := (treeOfListRec K dir t.erase (AT.leaf x).erase levZero (levInc (levElm K x))).2
        simp only [AT.erase] at i1 i2 h2
        rw [← i2] at h2 ⊢
        rw [← i1]
        obtain ⟨j1, j2⟩ := ih (atree H K dir n t (.leaf x) levZero (levInc (levElm K x))).rest
          (binOf dir (levInc (levElm K x)) tree (atree H K dir n t (.leaf x) levZero (levInc (levElm K x))).tree) (levInc (levElm K x)) pl (by omega)
        rw [binOf_erase] at j1 j2
        exact ⟨j1, j2⟩
      · rw [if_neg hc, if_neg hc]
        exact ⟨rfl, rfl⟩
    · have hv := erase_name hs
      have hsz := strip_erase_size_name hs
      rw [tolr_name K dir hv]
      simp only [atree, hs]
      by_cases hc : (levLte tl (levInc (levAdd levBits (levName K nm))) && levLte (levInc (levAdd levBits (levName K nm))) pl) = true
      · rw [if_pos hc, if_pos hc]
        generalize levInc (levAdd levBits (levName K nm)) = lev at hc ⊢
        obtain ⟨i1, i2⟩ := ih t .nil levZero lev (by omega)
        have h2 := (treeOfListRec K dir t.erase (AT.nil : AT X).erase levZero lev).2
        simp only [AT.erase] at i1 i2 h2
        rw [← i2] at h2 ⊢
        rw [← i1]
        obtain ⟨j1, j2⟩ := ih (atree H K dir n t .nil levZero lev).rest
          (.art (tloc H nm) (nameOf dir nm lev tree (atree H K dir n t .nil levZero lev).tree)) lev pl (by omega)
        have hb : (AT.art (tloc H nm) (nameOf dir nm lev tree (atree H K dir n t .nil levZero lev).tree)).erase =
            Coll.tcell nm (nameT dir nm lev tree.erase (atree H K dir n t .nil levZero lev).tree.erase) := by
          rw [← nameOf_erase]; rfl
        rw [hb] at j1 j2
        exact ⟨j1, j2⟩
      · rw [if_neg hc, if_neg hc]
        exact ⟨rfl, rfl⟩
    · exact absurd hs AL.strip_art

/-- What remains is not longer. -/
theorem atree_size {n : Nat} {list : AL X} (tree : AT X) (tl pl : Nat) (h : list.erase.size < n) :
    (atree H K dir n list tree tl pl).rest.erase.size ≤ list.erase.size := by
  rw [(atree_model H K dir n list tree tl pl h).2]
  exact (treeOfListRec K dir list.erase tree.erase tl pl).2

/-- What kinds of values are allocated at what kinds of names. -/
def TKind (ns : List Name) (x : Name × CV X × Nat) : Prop :=
  (x.1 ∈ ns ∧ ∃ t, x.2.1 = .tree t) ∨ (isFork x.1.sym = true ∧ ∃ d l t a b, x.2.1 = .targs d l t a b)

theorem view_name_names {l t : Lst X} {n : Name} (h : l.view = .name n t) : l.names = n :: t.names := by
  unfold Lst.names; rw [Coll.view_name_items h]; rfl
theorem view_cons_names {l t : Lst X} {x : X} (h : l.view = .cons x t) : l.names = t.names := by
  unfold Lst.names; rw [Coll.view_cons_items h]; rfl
theorem view_nil_names {l : Lst X} (h : l.view = .nil) : l.names = [] := by
  unfold Lst.names; rw [Coll.view_nil_items h]; rfl

/-- The three names used for a name of the list. -/
def three (m : Name) : List Name := [(nameFork H m).1, m, (nameFork H m).2]

/-- The names at which `tree_of_list_rec` allocates: the names of the part of the list that it consumes, and their halves. -/
theorem atree_names : ∀ (n : Nat) (list : AL X) (tree : AT X) (tl pl : Nat), list.erase.size < n →
    (∃ ms, list.erase.names = ms ++ (atree H K dir n list tree tl pl).rest.erase.names ∧
      ((atree H K dir n list tree tl pl).allocs.map Prod.fst).Perm (ms.flatMap (three H))) ∧
    ∀ x ∈ (atree H K dir n list tree tl pl).allocs, TKind list.erase.names x := by
  intro n
  induction n with
  | zero => intro list tree tl pl h; omega
  | succ n ih =>
    intro list tree tl pl h
    rcases hs : list.strip with _ | ⟨x, t⟩ | ⟨nm, t⟩ | ⟨a, t⟩
    · simp only [atree, hs]
      refine ⟨⟨[], ?_, .refl _⟩, fun x hx => by cases hx⟩
      rw [view_nil_names (erase_nil hs)]; rfl
    · have hsz := strip_erase_size_cons hs
      have hn := view_cons_names (erase_cons hs)
      simp only [atree, hs]
      by_cases hc : (levLte tl (levInc (levElm K x)) && levLte (levInc (levElm K x)) pl) = true
      · rw [if_pos hc]
        generalize levInc (levElm K x) = lev at hc ⊢
        obtain ⟨⟨ms, i1, i2⟩, i3⟩ := ih t (.leaf x) levZero lev (by omega)
        have hsz2 := atree_size H K dir (.leaf x) levZero lev (list := t) (n := n) (by omega)
        obtain ⟨⟨ms', j1, j2⟩, j3⟩ := ih (atree H K dir n t (.leaf x) levZero lev).rest (binOf dir lev tree (atree H K dir n t (.leaf x) levZero lev).tree) lev pl (by omega)
        refine ⟨⟨ms ++ ms', ?_, ?_⟩, fun y hy => ?_⟩
        · rw [hn, i1, List.append_assoc, ← j1]
        · rw [List.map_append, List.flatMap_append]; exact i2.append j2
        · rw [hn]
          rcases List.mem_append.1 hy with hy | hy
          · exact i3 y hy
          · refine (j3 y hy).imp (fun ⟨h1, h2⟩ => ⟨?_, h2⟩) id
            rw [i1]; exact List.mem_append_right _ h1
      · rw [if_neg hc]
        exact ⟨⟨[], hn, .refl _⟩, fun x hx => by cases hx⟩
    · have hsz := strip_erase_size_name hs
      have hn := view_name_names (erase_name hs)
      simp only [atree, hs]
      by_cases hc : (levLte tl (levInc (levAdd levBits (levName K nm))) && levLte (levInc (levAdd levBits (levName K nm))) pl) = true
      · rw [if_pos hc]
        generalize levInc (levAdd levBits (levName K nm)) = lev at hc ⊢
        obtain ⟨⟨ms, i1, i2⟩, i3⟩ := ih t .nil levZero lev (by omega)
        have hsz2 := atree_size H K dir .nil levZero lev (list := t) (n := n) (by omega)
        obtain ⟨⟨ms', j1, j2⟩, j3⟩ := ih (atree H K dir n t .nil levZero lev).rest (.art (tloc H nm) (nameOf dir nm lev tree (atree H K dir n t .nil levZero lev).tree)) lev pl (by omega)
        refine ⟨⟨nm :: (ms ++ ms'), ?_, ?_⟩, fun y hy => ?_⟩
        · rw [hn, i1, List.cons_append, List.append_assoc, ← j1]
        · simp only [List.map_append, List.map_cons, List.flatMap_cons, List.flatMap_append, List.cons_append]
          refine .trans (.cons _ (.trans (i2.append (.cons _ (.cons _ j2))) ?_)) (.refl _)
          refine (List.perm_middle (a := nm)).trans (.cons _ ?_)
          exact List.perm_middle
        · rw [hn]
          rw [List.cons_append] at hy
          rcases List.mem_cons.1 hy with rfl | hy
          · exact .inr ⟨rfl, _, _, _, _, _, rfl⟩
          rcases List.mem_append.1 hy with hy | hy
          · exact (i3 y hy).imp (fun ⟨h1, h2⟩ => ⟨List.mem_cons_of_mem _ h1, h2⟩) id
          rcases List.mem_cons.1 hy with rfl | hy
          · exact .inl ⟨List.mem_cons_self .., _, rfl⟩
          rcases List.mem_cons.1 hy with rfl | hy
          · exact .inr ⟨rfl, _, _, _, _, _, rfl⟩
          · refine (j3 y hy).imp (fun ⟨h1, h2⟩ => ⟨?_, h2⟩) id
            rw [i1]; exact List.mem_cons_of_mem _ (List.mem_append_right _ h1)
      · rw [if_neg hc]
        exact ⟨⟨[], hn, .refl _⟩, fun x hx => by cases hx⟩
    · exact absurd hs AL.strip_art

/-! ### Convergence -/

variable [DecidableEq X]

/-- The articulations of the list are cells of the editor, in the store. -/
def LiveL (σ : Store (CV X)) : AL X → Prop
  | .nil => True
  | .cons _ l => LiveL σ l
  | .name _ l => LiveL σ l
  | .art a l => (sigS true) a = .cell tyL ∧ σ a = some (.lst l.val) ∧ LiveL σ l

/-- The allocations of `tree_of_list_rec` are in the world. -/
def TAllocOk (W : World X) (as : List (Name × CV X × Nat)) : Prop :=
  ∀ x ∈ as, W (tloc H x.1) = some x.2 ∧
    ((∃ t, x.2.1 = .tree t) → (sigS true) (tloc H x.1) = .cell tyT) ∧
    ((¬ ∃ t, x.2.1 = .tree t) → (sigS true) (tloc H x.1) = .thunk tyP ppTree fTree)

variable {H le K dir} {W : World X} {σ σ' : Store (CV X)} {hv : CV X → UInt64} {ha : ProgPt → CV X → UInt64}

theorem LiveL.ext {l : AL X} (h : LiveL σ l) (he : Ext σ σ') : LiveL σ' l := by
  induction l with
  | nil => trivial
  | cons x l ih => exact ih h
  | name n l ih => exact ih h
  | art a l ih => exact ⟨h.1, he _ _ h.2.1, ih h.2.2⟩

theorem LiveL.strip {l : AL X} (h : LiveL σ l) : LiveL σ l.strip := by
  induction l with
  | art a l ih => exact ih h.2.2
  | _ => exact h

/-- Looking at a list of the editor. -/
theorem elviewOk (l : AL X) : ∀ (c : Ctx) (π : Path), LiveL σ l →
    Conv (sigS true) (env H le K hv ha) c π (lview l.val) σ fun σ' v => σ' = σ ∧ v = .lst l.strip.val := by
  induction l with
  | art a t ih =>
    intro c π h
    refine Conv.forceCell h.1 h.2.1 (Conv.call ?_)
    have hcode : (env H le K hv ha).code fLView (.lst t.val) = lview t.val := rfl
    rw [hcode]
    refine (ih c π h.2.2).mono ?_
    rintro σ1 v ⟨rfl, rfl⟩
    exact Conv.ret ⟨rfl, rfl⟩
  | _ => intro c π h; exact Conv.ret ⟨rfl, rfl⟩

/-- Code running in the namespace of `tree_of_list`. -/
abbrev CT (K : Hashes X) (H : NameHash) (le : X → X → Bool) (hv : CV X → UInt64) (ha : ProgPt → CV X → UInt64) (c : Ctx) (p : Prog (CV X)) (σ : Store (CV X))
    (Q : Store (CV X) → CV X → Prop) : Prop := Conv (sigS true) (env H le K hv ha) c (.child sortPath (treeNm H)) p σ Q

/-- A recursive call through a thunk. -/
theorem eagerAt {n : Nat} {nm : Name} {d : Dir2} {l : LV X} {t : TV X} {a b : Nat} {c : Ctx} {Kc : TV X → LV X → Prog (CV X)} {Q : Store (CV X) → CV X → Prop}
    (hc : AncOk W c (n + 1)) (hself : c.self ∈ c.anc) (hb : Below σ W)
    (hal : W (tloc H nm) = some (.targs d l t a b, n)) (hs : (sigS true) (tloc H nm) = .thunk tyP ppTree fTree)
    (h : ∀ (c' : Ctx) σ1, AncOk W c' n → c'.self ∈ c'.anc → Ext σ σ1 → Below σ1 W →
      CT K H le hv ha c' (treeRec H K d l t a b) σ1 fun σ2 v => ∃ t l, v = .pair t l ∧ CT K H le hv ha c (Kc t l) σ2 Q) :
    CT K H le hv ha c (.thunk tyP (.nominal nm) ppTree fTree (.targs d l t a b) fun x => .force tyP x none (onPair Kc)) σ Q := by
  obtain ⟨σ1, ha1, e1, b1, h1⟩ := alloc_below hb hal
  have hnot : tloc H nm ∉ c.anc := by
    intro hm
    obtain ⟨v, j, e1, e2⟩ := hc _ hm
    rw [hal] at e1
    cases e1
    omega
  refine Conv.thunk hs (fun e => hnot (by rw [show tloc H nm = c.self from e]; exact hself)) ha1 ?_
  refine Conv.forceThunk hs hnot h1 rfl ?_
  have hcode : (env H le K hv ha).code fTree (.targs d l t a b) = treeRec H K d l t a b := rfl
  rw [hcode]
  refine (h ⟨tloc H nm, tloc H nm :: c.anc⟩ σ1 ?_ (List.mem_cons_self ..) e1 b1).mono ?_
  · intro a ham
    rcases List.mem_cons.1 ham with rfl | ham
    · exact ⟨_, _, hal, Nat.le_refl _⟩
    · obtain ⟨v, j, e1, e2⟩ := hc a ham
      exact ⟨v, j, e1, by omega⟩
  · rintro σ2 v ⟨t, l, rfl, h⟩
    exact h

theorem binOf_val (lev : Nat) (t t2 : AT X) : (binOf dir lev t t2).val = binTV dir lev t.val t2.val := by cases dir <;> rfl
theorem nameOf_val (nm : Name) (lev : Nat) (t t2 : AT X) : (nameOf dir nm lev t t2).val = nameTV dir nm lev t.val t2.val := by cases dir <;> rfl
theorem binOf_live {lev : Nat} {t t2 : AT X} (h : LiveT true σ t) (h2 : LiveT true σ t2) : LiveT true σ (binOf dir lev t t2) := by
  cases dir
  · exact ⟨h, h2⟩
  · exact ⟨h2, h⟩
theorem nameOf_live {nm : Name} {lev : Nat} {t t2 : AT X} (h : LiveT true σ t) (h2 : LiveT true σ t2) : LiveT true σ (nameOf dir nm lev t t2) := by
  cases dir
  · exact ⟨h, h2⟩
  · exact ⟨h2, h⟩

theorem treeOk : ∀ (n : Nat) (list : AL X) (tree : AT X) (tl pl : Nat) (c : Ctx) (σ : Store (CV X)), list.erase.size < n → AncOk W c n → c.self ∈ c.anc → Below σ W →
    LiveL σ list → LiveT true σ tree → TAllocOk H W (atree H K dir n list tree tl pl).allocs →
    CT K H le hv ha c (treeRec H K dir list.val tree.val tl pl) σ fun σ' v =>
      Ext σ σ' ∧ Below σ' W ∧ v = .pair (atree H K dir n list tree tl pl).tree.val (atree H K dir n list tree tl pl).rest.val ∧
      LiveT true σ' (atree H K dir n list tree tl pl).tree ∧ LiveL σ' (atree H K dir n list tree tl pl).rest := by
  intro n
  induction n with
  | zero => intro list tree tl pl c σ h; omega
  | succ n ih =>
    intro list tree tl pl c σ hsz hc hself hb hl ht hal
    refine Conv.call ?_
    have hcode : (env H le K hv ha).code fLView (.lst list.val) = lview list.val := rfl
    rw [hcode]
    refine (elviewOk list c _ hl).mono ?_
    rintro σ0 v ⟨rfl, rfl⟩
    have hl := hl.strip
    rcases hs : list.strip with _ | ⟨x, t⟩ | ⟨nm, t⟩ | ⟨a, t⟩
    · simp only [atree, hs] at hal ⊢
      exact Conv.ret ⟨Ext.refl _, hb, rfl, ht, trivial⟩
    · rw [hs] at hl
      have hsz' := strip_erase_size_cons hs
      simp only [atree, hs] at hal ⊢
      simp only [AL.val, onLst]
      by_cases hcd : (levLte tl (levInc (levElm K x)) && levLte (levInc (levElm K x)) pl) = true
      · simp only [if_pos hcd] at hal ⊢
        generalize levInc (levElm K x) = lev at hcd hal ⊢
        have ha1 : TAllocOk H W (atree H K dir n t (.leaf x) levZero lev).allocs := fun y hy => hal y (List.mem_append_left _ hy)
        have ha2 : TAllocOk H W (atree H K dir n (atree H K dir n t (.leaf x) levZero lev).rest (binOf dir lev tree (atree H K dir n t (.leaf x) levZero lev).tree) lev pl).allocs :=
          fun y hy => hal y (List.mem_append_right _ hy)
        have hsz2 := atree_size H K dir (.leaf x) levZero lev (list := t) (n := n) (by omega)
        refine Conv.call ?_
        have hcode : (env H le K hv ha).code fTree (.targs dir t.val (.leaf x) levZero lev) = treeRec H K dir t.val (AT.leaf x).val levZero lev := rfl
        rw [hcode]
        refine (ih t (.leaf x) levZero lev c σ0 (by omega) (hc.mono (by omega)) hself hb hl trivial ha1).mono ?_
        rintro σ1 v ⟨e1, b1, rfl, t1, l1⟩
        refine Conv.call ?_
        have hcode : (env H le K hv ha).code fTree (.targs dir (atree H K dir n t (.leaf x) levZero lev).rest.val (binOf dir lev tree (atree H K dir n t (.leaf x) levZero lev).tree).val lev pl) =
          treeRec H K dir (atree H K dir n t (.leaf x) levZero lev).rest.val (binOf dir lev tree (atree H K dir n t (.leaf x) levZero lev).tree).val lev pl := rfl
        rw [← binOf_val, hcode]
        refine (ih _ _ lev pl c σ1 (by omega) (hc.mono (by omega)) hself b1 l1 (binOf_live (ht.ext e1) t1) ha2).mono ?_
        rintro σ2 v ⟨e2, b2, rfl, t2, l2⟩
        exact Conv.ret ⟨e1.trans e2, b2, rfl, t2, l2⟩
      · simp only [if_neg hcd] at hal ⊢
        exact Conv.ret ⟨Ext.refl _, hb, rfl, ht, hl⟩
    · rw [hs] at hl
      have hsz' := strip_erase_size_name hs
      simp only [atree, hs] at hal ⊢
      simp only [AL.val, onLst]
      by_cases hcd : (levLte tl (levInc (levAdd levBits (levName K nm))) && levLte (levInc (levAdd levBits (levName K nm))) pl) = true
      · simp only [if_pos hcd] at hal ⊢
        generalize levInc (levAdd levBits (levName K nm)) = lev at hcd hal ⊢
        simp only [List.cons_append] at hal
        have ha1 : TAllocOk H W (atree H K dir n t .nil levZero lev).allocs := fun y hy => hal y (List.mem_cons_of_mem _ (List.mem_append_left _ hy))
        have ha2 : TAllocOk H W (atree H K dir n (atree H K dir n t .nil levZero lev).rest (.art (tloc H nm) (nameOf dir nm lev tree (atree H K dir n t .nil levZero lev).tree)) lev pl).allocs :=
          fun y hy => hal y (List.mem_cons_of_mem _ (List.mem_append_right _ (List.mem_cons_of_mem _ (List.mem_cons_of_mem _ hy))))
        obtain ⟨w1, _, s1⟩ := hal _ (List.mem_cons_self ..)
        obtain ⟨w2, s2, _⟩ := hal _ (List.mem_cons_of_mem _ (List.mem_append_right _ (List.mem_cons_self ..)))
        obtain ⟨w3, _, s3⟩ := hal _ (List.mem_cons_of_mem _ (List.mem_append_right _ (List.mem_cons_of_mem _ (List.mem_cons_self ..))))
        have s1 := s1 (fun ⟨_, h⟩ => by cases h)
        have s2 := s2 ⟨_, rfl⟩
        have s3 := s3 (fun ⟨_, h⟩ => by cases h)
        simp only at w1 w2 w3 s1 s2 s3
        have hsz2 := atree_size H K dir .nil levZero lev (list := t) (n := n) (by omega)
        refine eagerAt hc hself hb w1 s1 fun c1 σ1 hc1 hs1 e1 b1 => ?_
        refine (ih t .nil levZero lev c1 σ1 (by omega) hc1 hs1 b1 (LiveL.ext (l := t) hl e1) trivial ha1).mono ?_
        rintro σ2 v ⟨e2, b2, rfl, t2, l2⟩
        refine ⟨_, _, rfl, ?_⟩
        rw [← nameOf_val]
        obtain ⟨σ3, ha3, e3, b3, h3⟩ := alloc_below b2 w2
        refine Conv.cell s2 ha3 ?_
        have htree : LiveT true σ3 (.art (tloc H nm) (nameOf dir nm lev tree (atree H K dir n t .nil levZero lev).tree)) :=
          ⟨s2, h3, nameOf_live (((ht.ext e1).ext e2).ext e3) (t2.ext e3)⟩
        refine eagerAt hc hself b3 w3 s3 fun c4 σ4 hc4 hs4 e4 b4 => ?_
        refine (ih _ (.art (tloc H nm) (nameOf dir nm lev tree (atree H K dir n t .nil levZero lev).tree)) lev pl c4 σ4 (by omega) hc4 hs4 b4
          ((l2.ext e3).ext e4) (htree.ext e4) ha2).mono ?_
        rintro σ5 v ⟨e5, b5, rfl, t5, l5⟩
        exact ⟨_, _, rfl, Conv.ret ⟨(((e1.trans e2).trans e3).trans e4).trans e5, b5, rfl, t5, l5⟩⟩
      · simp only [if_neg hcd] at hal ⊢
        exact Conv.ret ⟨Ext.refl _, hb, rfl, ht, hl⟩
    · exact absurd hs AL.strip_art

end SortProg
end Adapton
