import Verif.Engine.EditSession
import Verif.Collections.FoldProg
import Verif.Props.Trees
import Verif.Props.TreeEngine
import Verif.Props.SortNames
import Verif.Props.ListEngine
/-
C76: the tree folds of the catalog on the engine.
-/
set_option linter.unusedSectionVars false
set_option linter.unusedVariables false
namespace Adapton.FoldProg
open Coll (NameElse Lst Tree Dir2 elmsOf namesOf)
open SortProg (LV TV AL AT)
open Ref (Sig Kind Store Ctx Ext ES Means alloc)
open EditSession (World Below AncOk alloc_below Cells Edit applyAll cellAt)
variable {X R : Type} [DecidableEq X] [DecidableEq R] (H : NameHash)

/-! ### The signature -/

/-- The namespace of the program. -/
def rootNm : Name := ⟨0, .str "tree"⟩
def rootPath : Path := .child .empty rootNm
def stagePath (nm : Name) : Path := .child rootPath nm
/-- The namespace in which `filter_tree_of_tree` allocates its cells. -/
def unitPath (nm : Name) : Path := .child (stagePath nm) nameUnit

def isFork : NameSym → Bool
  | .forkL _ => true
  | .forkR _ => true
  | _ => false

/-- What a stage allocates under a name. -/
def stageKind : Op → ArtId → Kind
  | .up i, _ => .thunk tyR ppUp (fUp i)
  | .seq _ i, _ => .thunk tyR ppSeq (fSeq i)
  | .nm _ i, _ => .thunk tyR ppNm (fNm i)
  | .filt i, _ => .thunk tyT ppUp (fFilt i)
  | .listOf _, .nominal n => if isFork n.sym then .thunk tyL ppSeq fListOf else .cell tyL
  | .filtList i, .nominal n => if isFork n.sym then .thunk tyL ppSeq (fFiltList i) else .cell tyL
  | _, .structural _ => .cell tyL

def sigKind (opAt : Name → Op) (l : Loc) : Kind :=
  match l.path with
  | .empty => .cell tyT
  | .child p nm => if l.path = rootPath then .thunk tyV ppRoot fRoot else if p = rootPath then stageKind (opAt nm) l.id else .cell tyT

def sigF (opAt : Name → Op) : Sig := { kind := sigKind opAt }

variable {opAt : Name → Op} {fs : Fns X R}

theorem sig_stage (nm : Name) (id : ArtId) : sigF opAt ⟨stagePath nm, id⟩ = stageKind (opAt nm) id := by
  have h : stagePath nm ≠ rootPath := by simp [stagePath, rootPath]
  show sigKind opAt ⟨stagePath nm, id⟩ = _
  unfold sigKind
  show (if stagePath nm = rootPath then _ else if rootPath = rootPath then stageKind (opAt nm) id else _) = _
  rw [if_neg h, if_pos rfl]
theorem sig_unit (nm : Name) (id : ArtId) : sigF opAt ⟨unitPath nm, id⟩ = .cell tyT := by
  have h : unitPath nm ≠ rootPath := by simp [unitPath, stagePath, rootPath]
  have h' : stagePath nm ≠ rootPath := by simp [stagePath, rootPath]
  show sigKind opAt ⟨unitPath nm, id⟩ = _
  unfold sigKind
  show (if unitPath nm = rootPath then _ else if stagePath nm = rootPath then _ else _) = _
  rw [if_neg h, if_neg h']

/-! ### What is allocated -/

/-- What has been allocated, with ranks. -/
abbrev Allocs (X R : Type) := List (Loc × CV X R × Nat)

/-- The functions passed to `tree_fold_up`, on annotated results. -/
structure AUp (X R A : Type) where
  nil : A
  leaf : X → A
  bin : Nat → A → A → A
  name : Name → Nat → A → A → A × Allocs X R
structure ASeq (X R A : Type) where
  leaf : X → A → A
  bin : Nat → A → A
  name : Name → Nat → A → A × Allocs X R
structure ANm (X R A : Type) where
  nil : Option Name → A
  leaf : Option Name → X → A
  bin : Option Name → Nat → A → A → A
  name : Option Name → Name → Nat → A → A → A × Allocs X R

variable {A : Type}

/-- What `tree_fold_up` returns, and what it allocates. -/
def aUp (D : AUp X R A) (p : Path) : AT X → A × Allocs X R
  | .nil => (D.nil, [])
  | .leaf x => (D.leaf x, [])
  | .bin x l r => (D.bin x (aUp D p l).1 (aUp D p r).1, (aUp D p l).2 ++ (aUp D p r).2)
  | .name n x l r =>
    ((D.name n x (aUp D p l).1 (aUp D p r).1).1,
      (⟨p, .nominal (nameFork H n).1⟩, .tree l.val, l.ht + 1) :: (⟨p, .nominal (nameFork H n).2⟩, .tree r.val, r.ht + 1) ::
        ((D.name n x (aUp D p l).1 (aUp D p r).1).2 ++ ((aUp D p l).2 ++ (aUp D p r).2)))
  | .art _ t => aUp D p t

/-- The same for `tree_fold_seq`. -/
def aSeq (D : ASeq X R A) (val : A → CV X R) (p : Path) (dir : Dir2) : AT X → A → A × Allocs X R
  | .nil, v => (v, [])
  | .leaf x, v => (D.leaf x v, [])
  | .bin x l r, v =>
    match dir with
    | .left =>
      let a := aSeq D val p dir l v
      let b := aSeq D val p dir r (D.bin x a.1)
      (b.1, a.2 ++ b.2)
    | .right =>
      let a := aSeq D val p dir r v
      let b := aSeq D val p dir l (D.bin x a.1)
      (b.1, a.2 ++ b.2)
  | .name n x l r, v =>
    match dir with
    | .left =>
      let a := aSeq D val p dir l v
      let m := D.name n x a.1
      let b := aSeq D val p dir r m.1
      (b.1, (⟨p, .nominal (nameFork H n).1⟩, .sargs l.val dir (val v), l.ht + 1) :: (⟨p, .nominal (nameFork H n).2⟩, .sargs r.val dir (val m.1), r.ht + 1) ::
        (m.2 ++ (a.2 ++ b.2)))
    | .right =>
      let a := aSeq D val p dir r v
      let m := D.name n x a.1
      let b := aSeq D val p dir l m.1
      (b.1, (⟨p, .nominal (nameFork H n).1⟩, .sargs r.val dir (val v), r.ht + 1) :: (⟨p, .nominal (nameFork H n).2⟩, .sargs l.val dir (val m.1), l.ht + 1) ::
        (m.2 ++ (a.2 ++ b.2)))
  | .art _ t, v => aSeq D val p dir t v

/-- The same for `tree_fold_up_nm_dn`. -/
def aNm (D : ANm X R A) (p : Path) : AT X → Option Name → A × Allocs X R
  | .nil, nm => (D.nil nm, [])
  | .leaf x, nm => (D.leaf nm x, [])
  | .bin x l r, nm => (D.bin nm x (aNm D p l nm).1 (aNm D p r none).1, (aNm D p l nm).2 ++ (aNm D p r none).2)
  | .name n x l r, nm =>
    ((D.name nm n x (aNm D p l nm).1 (aNm D p r (some n)).1).1,
      (⟨p, .nominal (nameFork H n).1⟩, .nargs l.val nm, l.ht + 1) :: (⟨p, .nominal (nameFork H n).2⟩, .nargs r.val (some n), r.ht + 1) ::
        ((D.name nm n x (aNm D p l nm).1 (aNm D p r (some n)).1).2 ++ ((aNm D p l nm).2 ++ (aNm D p r (some n)).2)))
  | .art _ t, nm => aNm D p t nm

variable {H}

theorem aUp_strip {D : AUp X R A} {p : Path} (t : AT X) : aUp H D p t = aUp H D p t.strip := by
  induction t with
  | art a t ih => exact ih
  | _ => rfl
theorem aSeq_strip {D : ASeq X R A} {val : A → CV X R} {p : Path} {dir : Dir2} (t : AT X) (v : A) : aSeq H D val p dir t v = aSeq H D val p dir t.strip v := by
  induction t with
  | art a t ih => exact ih
  | _ => rfl
theorem aNm_strip {D : ANm X R A} {p : Path} (t : AT X) (nm : Option Name) : aNm H D p t nm = aNm H D p t.strip nm := by
  induction t with
  | art a t ih => exact ih
  | _ => rfl

/-- `tree_fold_seq` at a node, with the subtrees in the order of the direction. -/
theorem aSeq_bin {D : ASeq X R A} {val : A → CV X R} {p : Path} {dir : Dir2} (x : Nat) (l r : AT X) (v : A) : aSeq H D val p dir (.bin x l r) v =
    ((aSeq H D val p dir (swap dir l r).2 (D.bin x (aSeq H D val p dir (swap dir l r).1 v).1)).1,
      (aSeq H D val p dir (swap dir l r).1 v).2 ++ (aSeq H D val p dir (swap dir l r).2 (D.bin x (aSeq H D val p dir (swap dir l r).1 v).1)).2) := by
  cases dir <;> rfl
theorem aSeq_name {D : ASeq X R A} {val : A → CV X R} {p : Path} {dir : Dir2} (n : Name) (x : Nat) (l r : AT X) (v : A) {a b : A × Allocs X R} {m : A × Allocs X R}
    (ha : aSeq H D val p dir (swap dir l r).1 v = a) (hm : D.name n x a.1 = m) (hb : aSeq H D val p dir (swap dir l r).2 m.1 = b) :
    aSeq H D val p dir (.name n x l r) v =
      (b.1, (⟨p, .nominal (nameFork H n).1⟩, .sargs (swap dir l r).1.val dir (val v), (swap dir l r).1.ht + 1) ::
        (⟨p, .nominal (nameFork H n).2⟩, .sargs (swap dir l r).2.val dir (val m.1), (swap dir l r).2.ht + 1) :: (m.2 ++ (a.2 ++ b.2))) := by
  subst ha; subst hm; subst hb
  cases dir <;> rfl

/-! ### Trees and lists that can be followed -/

variable {hv : CV X R → UInt64} {ha : ProgPt → CV X R → UInt64}

/-- Code of the program. -/
abbrev CP (H : NameHash) (opAt : Name → Op) (fs : Fns X R) (hv : CV X R → UInt64) (ha : ProgPt → CV X R → UInt64) (c : Ctx) (π : Path) (p : Prog (CV X R)) (σ : Store (CV X R))
    (Q : Store (CV X R) → CV X R → Prop) : Prop := Conv (sigF opAt) (env H opAt fs hv ha) c π p σ Q

/-- The articulations of the tree are cells in the store. -/
def LiveT (opAt : Name → Op) (σ : Store (CV X R)) : AT X → Prop
  | .nil => True
  | .leaf _ => True
  | .bin _ l r => LiveT opAt σ l ∧ LiveT opAt σ r
  | .name _ _ l r => LiveT opAt σ l ∧ LiveT opAt σ r
  | .art a t => sigF opAt a = .cell tyT ∧ σ a = some (.tree t.val) ∧ LiveT opAt σ t
/-- The articulations of the list are cells in the store. -/
def LiveL (opAt : Name → Op) (σ : Store (CV X R)) : AL X → Prop
  | .nil => True
  | .cons _ l => LiveL opAt σ l
  | .name _ l => LiveL opAt σ l
  | .art a l => sigF opAt a = .cell tyL ∧ σ a = some (.lst l.val) ∧ LiveL opAt σ l

variable {W : World (CV X R)} {σ σ' : Store (CV X R)}

theorem LiveT.ext {t : AT X} (h : LiveT opAt σ t) (he : Ext σ σ') : LiveT opAt σ' t := by
  induction t with
  | nil => trivial
  | leaf x => trivial
  | bin lev l r ihl ihr => exact ⟨ihl h.1, ihr h.2⟩
  | name n lev l r ihl ihr => exact ⟨ihl h.1, ihr h.2⟩
  | art a t ih => exact ⟨h.1, he _ _ h.2.1, ih h.2.2⟩
theorem LiveL.ext {l : AL X} (h : LiveL opAt σ l) (he : Ext σ σ') : LiveL opAt σ' l := by
  induction l with
  | nil => trivial
  | cons x l ih => exact ih h
  | name n l ih => exact ih h
  | art a l ih => exact ⟨h.1, he _ _ h.2.1, ih h.2.2⟩
theorem LiveT.strip {t : AT X} (h : LiveT opAt σ t) : LiveT opAt σ t.strip := by
  induction t with
  | art a l ih => exact ih h.2.2
  | _ => exact h
theorem LiveL.strip {l : AL X} (h : LiveL opAt σ l) : LiveL opAt σ l.strip := by
  induction l with
  | art a l ih => exact ih h.2.2
  | _ => exact h

theorem tviewOk (t : AT X) : ∀ (c : Ctx) (π : Path), LiveT opAt σ t → CP H opAt fs hv ha c π (tview t.val) σ fun σ' v => σ' = σ ∧ v = .tree t.strip.val := by
  induction t with
  | art a t ih =>
    intro c π h
    refine Conv.forceCell h.1 h.2.1 (Conv.call ?_)
    have hcode : (env H opAt fs hv ha).code fTView (.tree t.val) = tview t.val := rfl
    rw [hcode]
    refine (ih c π h.2.2).mono ?_
    rintro σ1 v ⟨rfl, rfl⟩
    exact Conv.ret ⟨rfl, rfl⟩
  | _ => intro c π h; exact Conv.ret ⟨rfl, rfl⟩
theorem lviewOk (l : AL X) : ∀ (c : Ctx) (π : Path), LiveL opAt σ l → CP H opAt fs hv ha c π (lview l.val) σ fun σ' v => σ' = σ ∧ v = .lst l.strip.val := by
  induction l with
  | art a t ih =>
    intro c π h
    refine Conv.forceCell h.1 h.2.1 (Conv.call ?_)
    have hcode : (env H opAt fs hv ha).code fLView (.lst t.val) = lview t.val := rfl
    rw [hcode]
    refine (ih c π h.2.2).mono ?_
    rintro σ1 v ⟨rfl, rfl⟩
    exact Conv.ret ⟨rfl, rfl⟩
  | _ => intro c π h; exact Conv.ret ⟨rfl, rfl⟩

/-- Looking at a tree, inside a program. -/
theorem onView {t : AT X} {c : Ctx} {π : Path} {k : TV X → Prog (CV X R)} {Q : Store (CV X R) → CV X R → Prop} (hl : LiveT opAt σ t)
    (h : CP H opAt fs hv ha c π (k t.strip.val) σ Q) : CP H opAt fs hv ha c π (.call fTView (.tree t.val) (onTree k)) σ Q := by
  refine Conv.call ?_
  have hcode : (env H opAt fs hv ha).code fTView (.tree t.val) = tview t.val := rfl
  rw [hcode]
  refine (tviewOk t c π hl).mono ?_
  rintro σ1 v ⟨rfl, rfl⟩
  exact h
theorem onLView {l : AL X} {c : Ctx} {π : Path} {k : LV X → Prog (CV X R)} {Q : Store (CV X R) → CV X R → Prop} (hl : LiveL opAt σ l)
    (h : CP H opAt fs hv ha c π (k l.strip.val) σ Q) : CP H opAt fs hv ha c π (.call fLView (.lst l.val) (onLst k)) σ Q := by
  refine Conv.call ?_
  have hcode : (env H opAt fs hv ha).code fLView (.lst l.val) = lview l.val := rfl
  rw [hcode]
  refine (lviewOk l c π hl).mono ?_
  rintro σ1 v ⟨rfl, rfl⟩
  exact h

/-! ### The folds -/

/-- What is to be shown of a function that returns `o`. -/
def Post (W : World (CV X R)) (val : A → CV X R) (Live : Store (CV X R) → A → Prop) (o : A) (σ : Store (CV X R)) : Store (CV X R) → CV X R → Prop :=
  fun σ' v => Ext σ σ' ∧ Below σ' W ∧ v = val o ∧ Live σ' o

/-- How annotated results are seen in the program. -/
structure Dom (X R A : Type) where
  val : A → CV X R
  Live : Store (CV X R) → A → Prop
  ext : ∀ σ σ' a, Live σ a → Ext σ σ' → Live σ' a

variable {D : Dom X R A}

/-- A `memo!`: the thunk is allocated and forced. -/
theorem memo {c : Ctx} {π : Path} {n : Name} {ty : Ty} {pp : ProgPt} {fn : FnId} {arg : CV X R} {k : Nat} {o : A} {K : CV X R → Prog (CV X R)} {Q : Store (CV X R) → CV X R → Prop}
    (hsig : sigF opAt ⟨π, .nominal n⟩ = .thunk ty pp fn) (hw : W ⟨π, .nominal n⟩ = some (arg, k)) (hc : AncOk W c (k + 1)) (hs : c.self ∈ c.anc) (hb : Below σ W)
    (hbody : ∀ σ1 c', Ext σ σ1 → Below σ1 W → AncOk W c' k → c'.self ∈ c'.anc →
      CP H opAt fs hv ha c' π ((env H opAt fs hv ha).code fn arg) σ1 (Post W D.val D.Live o σ1))
    (hk : ∀ σ1, Ext σ σ1 → Below σ1 W → D.Live σ1 o → CP H opAt fs hv ha c π (K (D.val o)) σ1 Q) :
    CP H opAt fs hv ha c π (.thunk ty (.nominal n) pp fn arg fun a => .force ty a none K) σ Q := by
  obtain ⟨σ1, a1, e1, b1, g1⟩ := alloc_below hb hw
  have hnm : (⟨π, .nominal n⟩ : Loc) ∉ c.anc := hc.not_mem hw (by omega)
  refine Conv.thunk hsig (fun e => hnm (e ▸ hs)) a1 ?_
  refine Conv.forceThunk hsig hnm g1 rfl ?_
  refine (hbody σ1 ⟨_, _ :: c.anc⟩ e1 b1 (hc.cons hw (by omega)) (List.mem_cons_self ..)).mono ?_
  rintro σ2 v ⟨e2, b2, rfl, l2⟩
  exact hk σ2 (e1.trans e2) b2 l2

/-- The functions `F` do what `G` says (for `tree_fold_up`, in the namespace `π`). -/
structure UpOk (H : NameHash) (opAt : Name → Op) (fs : Fns X R) (hv : CV X R → UInt64) (ha : ProgPt → CV X R → UInt64) (W : World (CV X R)) (D : Dom X R A) (F : UpFns X R)
    (G : AUp X R A) (π : Path) : Prop where
  nil : F.nil = D.val G.nil
  leaf : ∀ x, F.leaf x = D.val (G.leaf x)
  liveNil : ∀ σ, D.Live σ G.nil
  liveLeaf : ∀ σ x, D.Live σ (G.leaf x)
  bin : ∀ c σ x a b, Below σ W → D.Live σ a → D.Live σ b → CP H opAt fs hv ha c π (F.bin x (D.val a) (D.val b)) σ (Post W D.val D.Live (G.bin x a b) σ)
  name : ∀ c σ n x a b, Below σ W → D.Live σ a → D.Live σ b → (∀ y ∈ (G.name n x a b).2, W y.1 = some y.2) →
    CP H opAt fs hv ha c π (F.name n x (D.val a) (D.val b)) σ (Post W D.val D.Live (G.name n x a b).1 σ)

theorem foldUpOk {F : UpFns X R} {G : AUp X R A} {nm : Name} {ty : Ty} {fn : FnId} (ok : UpOk H opAt fs hv ha W D F G (stagePath nm))
    (hcode : ∀ t, (env H opAt fs hv ha).code fn (.tree t) = foldUp H ty fn F t)
    (hsig : ∀ n : Name, isFork n.sym = true → sigF opAt ⟨stagePath nm, .nominal n⟩ = .thunk ty ppUp fn) : ∀ (m : Nat) (t : AT X) (c : Ctx) (σ : Store (CV X R)), t.size ≤ m →
    AncOk W c (t.ht + 1) → c.self ∈ c.anc → Below σ W → LiveT opAt σ t → (∀ x ∈ (aUp H G (stagePath nm) t).2, W x.1 = some x.2) →
    CP H opAt fs hv ha c (stagePath nm) (foldUp H ty fn F t.val) σ (Post W D.val D.Live (aUp H G (stagePath nm) t).1 σ) := by
  intro m
  induction m with
  | zero => intro t c σ hm; cases t <;> simp [AT.size] at hm
  | succ m ih =>
    intro t c σ hm hc hs hb hl hal
    refine onView hl ?_
    have hsz := t.strip_size
    rw [← AT.strip_ht] at hc
    have hl := hl.strip
    rw [aUp_strip] at hal ⊢
    rcases hst : t.strip with _ | x | ⟨x, l, r⟩ | ⟨n, x, l, r⟩ | ⟨a, u⟩
    · exact Conv.ret ⟨Ext.refl _, hb, ok.nil, ok.liveNil _⟩
    · exact Conv.ret ⟨Ext.refl _, hb, ok.leaf x, ok.liveLeaf _ x⟩
    · rw [hst] at hsz hc hl hal
      simp only [AT.size] at hsz
      have hh : (AT.bin x l r).ht = max l.ht r.ht + 1 := rfl
      have hal1 : ∀ y ∈ (aUp H G (stagePath nm) l).2, W y.1 = some y.2 := fun y hy => hal y (List.mem_append_left _ hy)
      have hal2 : ∀ y ∈ (aUp H G (stagePath nm) r).2, W y.1 = some y.2 := fun y hy => hal y (List.mem_append_right _ hy)
      refine Conv.call ?_
      rw [hcode]
      refine (ih l c σ (by omega) (hc.mono (by omega)) hs hb hl.1 hal1).mono ?_
      rintro σ1 v ⟨e1, b1, rfl, l1⟩
      refine Conv.call ?_
      rw [hcode]
      refine (ih r c σ1 (by omega) (hc.mono (by omega)) hs b1 (hl.2.ext e1) hal2).mono ?_
      rintro σ2 v ⟨e2, b2, rfl, l2⟩
      refine (ok.bin c σ2 x _ _ b2 (D.ext _ _ _ l1 e2) l2).mono ?_
      rintro σ3 v ⟨e3, b3, rfl, l3⟩
      exact ⟨e1.trans (e2.trans e3), b3, rfl, l3⟩
    · rw [hst] at hsz hc hl hal
      simp only [AT.size] at hsz
      have hh : (AT.name n x l r).ht = max l.ht r.ht + 1 := rfl
      simp only [aUp, List.mem_cons, List.mem_append] at hal
      have hw1 := hal _ (.inl rfl)
      have hw2 := hal _ (.inr (.inl rfl))
      have hal0 : ∀ y ∈ (G.name n x (aUp H G (stagePath nm) l).1 (aUp H G (stagePath nm) r).1).2, W y.1 = some y.2 := fun y hy => hal y (.inr (.inr (.inl hy)))
      have hal1 : ∀ y ∈ (aUp H G (stagePath nm) l).2, W y.1 = some y.2 := fun y hy => hal y (.inr (.inr (.inr (.inl hy))))
      have hal2 : ∀ y ∈ (aUp H G (stagePath nm) r).2, W y.1 = some y.2 := fun y hy => hal y (.inr (.inr (.inr (.inr hy))))
      refine memo (D := D) (o := (aUp H G (stagePath nm) l).1) (hsig _ rfl) hw1 (hc.mono (by omega)) hs hb ?_ ?_
      · intro σ1 c' e1 b1 hc' hs'
        rw [hcode]
        exact ih l c' σ1 (by omega) hc' hs' b1 (hl.1.ext e1) hal1
      intro σ1 e1 b1 l1
      refine memo (D := D) (o := (aUp H G (stagePath nm) r).1) (hsig _ rfl) hw2 (hc.mono (by omega)) hs b1 ?_ ?_
      · intro σ2 c' e2 b2 hc' hs'
        rw [hcode]
        exact ih r c' σ2 (by omega) hc' hs' b2 (hl.2.ext (e1.trans e2)) hal2
      intro σ2 e2 b2 l2
      refine (ok.name c σ2 n x _ _ b2 (D.ext _ _ _ l1 e2) l2 hal0).mono ?_
      rintro σ3 v ⟨e3, b3, rfl, l3⟩
      exact ⟨e1.trans (e2.trans e3), b3, rfl, l3⟩
    · exact absurd hst AT.strip_art

/-- The functions `F` do what `G` says (for `tree_fold_up_nm_dn`). -/
structure NmOk (H : NameHash) (opAt : Name → Op) (fs : Fns X R) (hv : CV X R → UInt64) (ha : ProgPt → CV X R → UInt64) (W : World (CV X R)) (D : Dom X R A) (F : NmFns X R)
    (G : ANm X R A) (π : Path) : Prop where
  nil : ∀ nm, F.nil nm = D.val (G.nil nm)
  leaf : ∀ nm x, F.leaf nm x = D.val (G.leaf nm x)
  liveNil : ∀ σ nm, D.Live σ (G.nil nm)
  liveLeaf : ∀ σ nm x, D.Live σ (G.leaf nm x)
  bin : ∀ c σ nm x a b, Below σ W → D.Live σ a → D.Live σ b → CP H opAt fs hv ha c π (F.bin nm x (D.val a) (D.val b)) σ (Post W D.val D.Live (G.bin nm x a b) σ)
  name : ∀ c σ nm n x a b, Below σ W → D.Live σ a → D.Live σ b → (∀ y ∈ (G.name nm n x a b).2, W y.1 = some y.2) →
    CP H opAt fs hv ha c π (F.name nm n x (D.val a) (D.val b)) σ (Post W D.val D.Live (G.name nm n x a b).1 σ)

theorem foldNmOk {F : NmFns X R} {G : ANm X R A} {nm : Name} {ty : Ty} {fn : FnId} (ok : NmOk H opAt fs hv ha W D F G (stagePath nm))
    (hcode : ∀ t o, (env H opAt fs hv ha).code fn (.nargs t o) = foldNm H ty fn F t o)
    (hsig : ∀ n : Name, isFork n.sym = true → sigF opAt ⟨stagePath nm, .nominal n⟩ = .thunk ty ppNm fn) : ∀ (m : Nat) (t : AT X) (o : Option Name) (c : Ctx) (σ : Store (CV X R)), t.size ≤ m →
    AncOk W c (t.ht + 1) → c.self ∈ c.anc → Below σ W → LiveT opAt σ t → (∀ x ∈ (aNm H G (stagePath nm) t o).2, W x.1 = some x.2) →
    CP H opAt fs hv ha c (stagePath nm) (foldNm H ty fn F t.val o) σ (Post W D.val D.Live (aNm H G (stagePath nm) t o).1 σ) := by
  intro m
  induction m with
  | zero => intro t o c σ hm; cases t <;> simp [AT.size] at hm
  | succ m ih =>
    intro t o c σ hm hc hs hb hl hal
    refine onView hl ?_
    have hsz := t.strip_size
    rw [← AT.strip_ht] at hc
    have hl := hl.strip
    rw [aNm_strip] at hal ⊢
    rcases hst : t.strip with _ | x | ⟨x, l, r⟩ | ⟨n, x, l, r⟩ | ⟨a, u⟩
    · exact Conv.ret ⟨Ext.refl _, hb, ok.nil o, ok.liveNil _ o⟩
    · exact Conv.ret ⟨Ext.refl _, hb, ok.leaf o x, ok.liveLeaf _ o x⟩
    · rw [hst] at hsz hc hl hal
      simp only [AT.size] at hsz
      have hh : (AT.bin x l r).ht = max l.ht r.ht + 1 := rfl
      have hal1 : ∀ y ∈ (aNm H G (stagePath nm) l o).2, W y.1 = some y.2 := fun y hy => hal y (List.mem_append_left _ hy)
      have hal2 : ∀ y ∈ (aNm H G (stagePath nm) r none).2, W y.1 = some y.2 := fun y hy => hal y (List.mem_append_right _ hy)
      refine Conv.call ?_
      rw [hcode]
      refine (ih l o c σ (by omega) (hc.mono (by omega)) hs hb hl.1 hal1).mono ?_
      rintro σ1 v ⟨e1, b1, rfl, l1⟩
      refine Conv.call ?_
      rw [hcode]
      refine (ih r none c σ1 (by omega) (hc.mono (by omega)) hs b1 (hl.2.ext e1) hal2).mono ?_
      rintro σ2 v ⟨e2, b2, rfl, l2⟩
      refine (ok.bin c σ2 o x _ _ b2 (D.ext _ _ _ l1 e2) l2).mono ?_
      rintro σ3 v ⟨e3, b3, rfl, l3⟩
      exact ⟨e1.trans (e2.trans e3), b3, rfl, l3⟩
    · rw [hst] at hsz hc hl hal
      simp only [AT.size] at hsz
      have hh : (AT.name n x l r).ht = max l.ht r.ht + 1 := rfl
      simp only [aNm, List.mem_cons, List.mem_append] at hal
      have hw1 := hal _ (.inl rfl)
      have hw2 := hal _ (.inr (.inl rfl))
      have hal0 : ∀ y ∈ (G.name o n x (aNm H G (stagePath nm) l o).1 (aNm H G (stagePath nm) r (some n)).1).2, W y.1 = some y.2 := fun y hy => hal y (.inr (.inr (.inl hy)))
      have hal1 : ∀ y ∈ (aNm H G (stagePath nm) l o).2, W y.1 = some y.2 := fun y hy => hal y (.inr (.inr (.inr (.inl hy))))
      have hal2 : ∀ y ∈ (aNm H G (stagePath nm) r (some n)).2, W y.1 = some y.2 := fun y hy => hal y (.inr (.inr (.inr (.inr hy))))
      refine memo (D := D) (o := (aNm H G (stagePath nm) l o).1) (hsig _ rfl) hw1 (hc.mono (by omega)) hs hb ?_ ?_
      · intro σ1 c' e1 b1 hc' hs'
        rw [hcode]
        exact ih l o c' σ1 (by omega) hc' hs' b1 (hl.1.ext e1) hal1
      intro σ1 e1 b1 l1
      refine memo (D := D) (o := (aNm H G (stagePath nm) r (some n)).1) (hsig _ rfl) hw2 (hc.mono (by omega)) hs b1 ?_ ?_
      · intro σ2 c' e2 b2 hc' hs'
        rw [hcode]
        exact ih r (some n) c' σ2 (by omega) hc' hs' b2 (hl.2.ext (e1.trans e2)) hal2
      intro σ2 e2 b2 l2
      refine (ok.name c σ2 o n x _ _ b2 (D.ext _ _ _ l1 e2) l2 hal0).mono ?_
      rintro σ3 v ⟨e3, b3, rfl, l3⟩
      exact ⟨e1.trans (e2.trans e3), b3, rfl, l3⟩
    · exact absurd hst AT.strip_art

/-- The names in a tree. -/
abbrev nms (t : AT X) : List Name := t.erase.names

theorem nms_bin (x : Nat) (l r : AT X) : nms (.bin x l r) = nms l ++ nms r := Coll.Tree.names_bin ..
theorem nms_name (n : Name) (x : Nat) (l r : AT X) : nms (.name n x l r) = nms l ++ n :: nms r := Coll.Tree.names_name ..

theorem nms_strip (t : AT X) : nms t.strip = nms t := by
  induction t with
  | art a t ih => exact ih
  | _ => rfl

/-- The functions `F` do what `G` says (for `tree_fold_seq`), for the names of which `P` holds. -/
structure SeqOk (H : NameHash) (opAt : Name → Op) (fs : Fns X R) (hv : CV X R → UInt64) (ha : ProgPt → CV X R → UInt64) (W : World (CV X R)) (D : Dom X R A) (F : SeqFns X R)
    (G : ASeq X R A) (π : Path) (P : Name → Prop) : Prop where
  leaf : ∀ c σ x a, Below σ W → D.Live σ a → CP H opAt fs hv ha c π (F.leaf x (D.val a)) σ (Post W D.val D.Live (G.leaf x a) σ)
  bin : ∀ x a, F.bin x (D.val a) = D.val (G.bin x a)
  liveBin : ∀ σ x a, D.Live σ a → D.Live σ (G.bin x a)
  name : ∀ c σ n x a k Q, P n → Below σ W → D.Live σ a → (∀ y ∈ (G.name n x a).2, W y.1 = some y.2) →
    (∀ σ1, Ext σ σ1 → Below σ1 W → D.Live σ1 (G.name n x a).1 → CP H opAt fs hv ha c π (k (D.val (G.name n x a).1)) σ1 Q) →
    CP H opAt fs hv ha c π (F.name n x (D.val a) k) σ Q

theorem swap_val (dir : Dir2) (l r : AT X) : swap dir l.val r.val = ((swap dir l r).1.val, (swap dir l r).2.val) := by cases dir <;> rfl

theorem foldSeqOk {F : SeqFns X R} {G : ASeq X R A} {nm : Name} {ty : Ty} {fn : FnId} {dir : Dir2} {P : Name → Prop} (ok : SeqOk H opAt fs hv ha W D F G (stagePath nm) P)
    (hcode : ∀ t d v, (env H opAt fs hv ha).code fn (.sargs t d v) = foldSeq H ty fn F t d v)
    (hsig : ∀ n : Name, isFork n.sym = true → sigF opAt ⟨stagePath nm, .nominal n⟩ = .thunk ty ppSeq fn) : ∀ (m : Nat) (t : AT X) (v : A) (c : Ctx) (σ : Store (CV X R)), t.size ≤ m →
    AncOk W c (t.ht + 1) → c.self ∈ c.anc → Below σ W → LiveT opAt σ t → D.Live σ v → (∀ n ∈ nms t, P n) → (∀ x ∈ (aSeq H G D.val (stagePath nm) dir t v).2, W x.1 = some x.2) →
    CP H opAt fs hv ha c (stagePath nm) (foldSeq H ty fn F t.val dir (D.val v)) σ (Post W D.val D.Live (aSeq H G D.val (stagePath nm) dir t v).1 σ) := by
  intro m
  induction m with
  | zero => intro t v c σ hm; cases t <;> simp [AT.size] at hm
  | succ m ih =>
    intro t v c σ hm hc hs hb hl hv' hP hal
    refine onView hl ?_
    have hsz := t.strip_size
    rw [← nms_strip] at hP
    rw [← AT.strip_ht] at hc
    have hl := hl.strip
    rw [aSeq_strip] at hal ⊢
    rcases hst : t.strip with _ | x | ⟨x, l, r⟩ | ⟨n, x, l, r⟩ | ⟨a, u⟩
    · exact Conv.ret ⟨Ext.refl _, hb, rfl, hv'⟩
    · exact ok.leaf c σ x v hb hv'
    · rw [hst] at hsz hc hl hal hP
      simp only [AT.size] at hsz
      have hh : (AT.bin x l r).ht = max l.ht r.ht + 1 := rfl
      have k1 : (swap dir l r).1.size ≤ m ∧ (swap dir l r).2.size ≤ m ∧ (swap dir l r).1.ht ≤ max l.ht r.ht ∧ (swap dir l r).2.ht ≤ max l.ht r.ht ∧
          LiveT opAt σ (swap dir l r).1 ∧ LiveT opAt σ (swap dir l r).2 := by
        have hl' : LiveT opAt σ l ∧ LiveT opAt σ r := hl
        cases dir <;> simp only [swap] <;> refine ⟨by omega, by omega, by omega, by omega, ?_, ?_⟩ <;> first | exact hl'.1 | exact hl'.2
      obtain ⟨k1, k2, k3, k4, k5, k6⟩ := k1
      have hP1 : (∀ n ∈ nms (swap dir l r).1, P n) ∧ ∀ n ∈ nms (swap dir l r).2, P n := by
        rw [nms_bin] at hP
        cases dir <;> exact ⟨fun n hn => hP n (by simp only [swap] at hn; simp [hn]), fun n hn => hP n (by simp only [swap] at hn; simp [hn])⟩
      rw [aSeq_bin] at hal ⊢
      have hal1 := fun y hy => hal y (List.mem_append_left _ hy)
      have hal2 := fun y hy => hal y (List.mem_append_right _ hy)
      simp only [AT.val, swap_val]
      refine Conv.call ?_
      rw [hcode]
      refine (ih _ v c σ k1 (hc.mono (by omega)) hs hb k5 hv' hP1.1 hal1).mono ?_
      rintro σ1 w ⟨e1, b1, rfl, l1⟩
      refine Conv.call ?_
      rw [hcode, ok.bin]
      refine (ih _ _ c σ1 k2 (hc.mono (by omega)) hs b1 (k6.ext e1) (ok.liveBin _ _ _ l1) hP1.2 hal2).mono ?_
      rintro σ2 w ⟨e2, b2, rfl, l2⟩
      exact Conv.ret ⟨e1.trans e2, b2, rfl, l2⟩
    · rw [hst] at hsz hc hl hal hP
      simp only [AT.size] at hsz
      have hh : (AT.name n x l r).ht = max l.ht r.ht + 1 := rfl
      have k1 : (swap dir l r).1.size ≤ m ∧ (swap dir l r).2.size ≤ m ∧ (swap dir l r).1.ht ≤ max l.ht r.ht ∧ (swap dir l r).2.ht ≤ max l.ht r.ht ∧
          LiveT opAt σ (swap dir l r).1 ∧ LiveT opAt σ (swap dir l r).2 := by
        have hl' : LiveT opAt σ l ∧ LiveT opAt σ r := hl
        cases dir <;> simp only [swap] <;> refine ⟨by omega, by omega, by omega, by omega, ?_, ?_⟩ <;> first | exact hl'.1 | exact hl'.2
      obtain ⟨k1, k2, k3, k4, k5, k6⟩ := k1
      have hP1 : (∀ n ∈ nms (swap dir l r).1, P n) ∧ ∀ n ∈ nms (swap dir l r).2, P n := by
        rw [nms_name] at hP
        cases dir <;> exact ⟨fun n hn => hP n (by simp only [swap] at hn; simp [hn]), fun n hn => hP n (by simp only [swap] at hn; simp [hn])⟩
      have hP0 : P n := hP n (by rw [nms_name]; simp)
      rw [aSeq_name n x l r v rfl rfl rfl] at hal ⊢
      simp only [List.mem_cons, List.mem_append] at hal
      have hw1 := hal _ (.inl rfl)
      have hw2 := hal _ (.inr (.inl rfl))
      have hal0 := fun y hy => hal y (.inr (.inr (.inl hy)))
      have hal1 := fun y hy => hal y (.inr (.inr (.inr (.inl hy))))
      have hal2 := fun y hy => hal y (.inr (.inr (.inr (.inr hy))))
      simp only [AT.val, swap_val]
      refine memo (D := D) (hsig _ rfl) hw1 (hc.mono (by omega)) hs hb (o := (aSeq H G D.val (stagePath nm) dir (swap dir l r).1 v).1) ?_ ?_
      · intro σ1 c' e1 b1 hc' hs'
        rw [hcode]
        exact ih _ v c' σ1 k1 hc' hs' b1 (k5.ext e1) (D.ext _ _ _ hv' e1) hP1.1 hal1
      intro σ1 e1 b1 l1
      refine ok.name c σ1 n x _ _ _ hP0 b1 l1 hal0 ?_
      intro σ2 e2 b2 l2
      refine memo (D := D) (hsig _ rfl) hw2 (hc.mono (by omega)) hs b2 (o := (aSeq H G D.val (stagePath nm) dir (swap dir l r).2 (G.name n x (aSeq H G D.val (stagePath nm) dir (swap dir l r).1 v).1).1).1) ?_ ?_
      · intro σ3 c' e3 b3 hc' hs'
        rw [hcode]
        exact ih _ _ c' σ3 k2 hc' hs' b3 (k6.ext (e1.trans (e2.trans e3))) (D.ext _ _ _ l2 e3) hP1.2 hal2
      intro σ3 e3 b3 l3
      exact Conv.ret ⟨e1.trans (e2.trans e3), b3, rfl, l3⟩
    · exact absurd hst AT.strip_art

/-! ### Where things are allocated -/

/-- A location that belongs to the name `n`: one of the two thunks, or one of the cells. -/
def Own (H : NameHash) (p : Path) (C : Name → Loc → Prop) (n : Name) (l : Loc) : Prop :=
  l = ⟨p, .nominal (nameFork H n).1⟩ ∨ l = ⟨p, .nominal (nameFork H n).2⟩ ∨ C n l

/-- The cells of different names are different, and none is a thunk. -/
structure Sep (H : NameHash) (p : Path) (C : Name → Loc → Prop) (P : Name → Prop) : Prop where
  inj : ∀ n m l, C n l → C m l → n.sym = m.sym
  cell : ∀ n m l, P n → P m → C n l → l ≠ ⟨p, .nominal (nameFork H m).1⟩ ∧ l ≠ ⟨p, .nominal (nameFork H m).2⟩

variable {p : Path} {C : Name → Loc → Prop} {P : Name → Prop}

theorem Own.inj (hS : Sep H p C P) {n m : Name} {l : Loc} (hn : P n) (hm : P m) (h : Own H p C n l) (h' : Own H p C m l) : n.sym = m.sym := by
  rcases h with h | h | h <;> rcases h' with h' | h' | h'
  · rw [h] at h'; simp [nameFork] at h'; exact h'.2
  · rw [h] at h'; simp [nameFork] at h'
  · exact absurd h (hS.cell m n l hm hn h').1
  · rw [h] at h'; simp [nameFork] at h'
  · rw [h] at h'; simp [nameFork] at h'; exact h'.2
  · exact absurd h (hS.cell m n l hm hn h').2
  · exact absurd h' (hS.cell n m l hn hm h).1
  · exact absurd h' (hS.cell n m l hn hm h).2
  · exact hS.inj n m l h h'

/-- The locations are different, and belong to the names. -/
def OwnedBy (H : NameHash) (p : Path) (C : Name → Loc → Prop) (ns : List Name) (ls : List Loc) : Prop := ls.Nodup ∧ ∀ l ∈ ls, ∃ n ∈ ns, Own H p C n l

theorem OwnedBy.append (hS : Sep H p C P) {na nb : List Name} {la lb : List Loc} (ha : OwnedBy H p C na la) (hb : OwnedBy H p C nb lb) (hPa : ∀ n ∈ na, P n) (hPb : ∀ n ∈ nb, P n)
    (hd : ∀ a ∈ na, ∀ b ∈ nb, a.sym ≠ b.sym) : OwnedBy H p C (na ++ nb) (la ++ lb) := by
  refine ⟨List.nodup_append.2 ⟨ha.1, hb.1, ?_⟩, ?_⟩
  · rintro l hl _ hl' rfl
    obtain ⟨a, a1, a2⟩ := ha.2 l hl
    obtain ⟨b, b1, b2⟩ := hb.2 l hl'
    exact hd a a1 b b1 (a2.inj hS (hPa a a1) (hPb b b1) b2)
  · intro l hl
    rcases List.mem_append.1 hl with hl | hl
    · obtain ⟨a, a1, a2⟩ := ha.2 l hl; exact ⟨a, List.mem_append_left _ a1, a2⟩
    · obtain ⟨a, a1, a2⟩ := hb.2 l hl; exact ⟨a, List.mem_append_right _ a1, a2⟩

theorem OwnedBy.node (hS : Sep H p C P) {n : Name} {cs : List Loc} (hP : P n) (hn : cs.Nodup) (hC : ∀ l ∈ cs, C n l) :
    OwnedBy H p C [n] (⟨p, .nominal (nameFork H n).1⟩ :: ⟨p, .nominal (nameFork H n).2⟩ :: cs) := by
  refine ⟨?_, ?_⟩
  · simp only [List.nodup_cons, List.mem_cons, not_or]
    refine ⟨⟨by simp [nameFork], fun h => ?_⟩, fun h => ?_, hn⟩
    · exact (hS.cell n n _ hP hP (hC _ h)).1 rfl
    · exact (hS.cell n n _ hP hP (hC _ h)).2 rfl
  · intro l hl
    refine ⟨n, List.mem_cons_self .., ?_⟩
    rcases List.mem_cons.1 hl with h | hl
    · exact .inl h
    · rcases List.mem_cons.1 hl with h | hl
      · exact .inr (.inl h)
      · exact .inr (.inr (hC l hl))

theorem OwnedBy.sub {na nb : List Name} {la : List Loc} (h : OwnedBy H p C na la) (hs : ∀ n ∈ na, n ∈ nb) : OwnedBy H p C nb la :=
  ⟨h.1, fun l hl => by obtain ⟨n, h1, h2⟩ := h.2 l hl; exact ⟨n, hs n h1, h2⟩⟩

/-- The syms of two lists of names do not meet. -/
def Apart (na nb : List Name) : Prop := ∀ a ∈ na, ∀ b ∈ nb, a.sym ≠ b.sym
theorem Apart.symm {na nb : List Name} (h : Apart na nb) : Apart nb na := fun a ha b hb e => h b hb a ha e.symm

theorem OwnedBy.fork (hS : Sep H p C P) {n : Name} {cs la lb : List Loc} {na nb : List Name} (hP : P n) (hn : cs.Nodup) (hC : ∀ l ∈ cs, C n l) (ha : OwnedBy H p C na la)
    (hb : OwnedBy H p C nb lb) (hPa : ∀ n ∈ na, P n) (hPb : ∀ n ∈ nb, P n) (hab : Apart na nb) (han : Apart na [n]) (hbn : Apart nb [n]) :
    OwnedBy H p C (n :: (na ++ nb)) (⟨p, .nominal (nameFork H n).1⟩ :: ⟨p, .nominal (nameFork H n).2⟩ :: (cs ++ (la ++ lb))) := by
  refine OwnedBy.append hS (OwnedBy.node hS hP hn hC) (OwnedBy.append hS ha hb hPa hPb hab) ?_ ?_ ?_
  · intro m hm
    rcases List.mem_cons.1 hm with rfl | hm
    · exact hP
    · cases hm
  · intro m hm
    rcases List.mem_append.1 hm with hm | hm
    · exact hPa m hm
    · exact hPb m hm
  · intro a ha' b hb'
    rcases List.mem_cons.1 ha' with rfl | ha'
    · rcases List.mem_append.1 hb' with hb' | hb'
      · exact han.symm a (List.mem_cons_self ..) b hb'
      · exact hbn.symm a (List.mem_cons_self ..) b hb'
    · cases ha'

theorem bin_parts {na nb : List Name} (h : ((na ++ nb).map Name.sym).Nodup) : (na.map Name.sym).Nodup ∧ (nb.map Name.sym).Nodup ∧ Apart na nb := by
  rw [List.map_append, List.nodup_append] at h
  exact ⟨h.1, h.2.1, fun a ha b hb => h.2.2 _ (List.mem_map.2 ⟨a, ha, rfl⟩) _ (List.mem_map.2 ⟨b, hb, rfl⟩)⟩
theorem name_parts {na nb : List Name} {n : Name} (h : ((na ++ n :: nb).map Name.sym).Nodup) :
    (na.map Name.sym).Nodup ∧ (nb.map Name.sym).Nodup ∧ Apart na nb ∧ Apart na [n] ∧ Apart nb [n] := by
  obtain ⟨h1, h2, h3⟩ := bin_parts h
  rw [List.map_cons, List.nodup_cons] at h2
  refine ⟨h1, h2.2, fun a ha b hb => h3 a ha b (List.mem_cons_of_mem _ hb), ?_, ?_⟩
  · intro a ha b hb
    rcases List.mem_cons.1 hb with rfl | hb
    · exact h3 a ha b (List.mem_cons_self ..)
    · cases hb
  · intro a ha b hb e
    rcases List.mem_cons.1 hb with rfl | hb
    · exact h2.1 (List.mem_map.2 ⟨a, ha, e⟩)
    · cases hb

/-- The functions allocate only cells that belong to the name. -/
def CellsOk (C : Name → Loc → Prop) (n : Name) (as : Allocs X R) : Prop := (as.map Prod.fst).Nodup ∧ ∀ y ∈ as, C n y.1

theorem CellsOk.locs {n : Name} {as : Allocs X R} (h : CellsOk C n as) : ∀ l ∈ as.map Prod.fst, C n l := by
  intro l hl
  obtain ⟨y, hy, rfl⟩ := List.mem_map.1 hl
  exact h.2 y hy

theorem aUp_owned (hS : Sep H p C P) {G : AUp X R A} (hG : ∀ n x a b, CellsOk C n (G.name n x a b).2) (t : AT X) : ((nms t).map Name.sym).Nodup → (∀ n ∈ nms t, P n) →
    OwnedBy H p C (nms t) ((aUp H G p t).2.map Prod.fst) := by
  induction t with
  | nil => intro _ _; exact ⟨List.nodup_nil, fun l hl => by cases hl⟩
  | leaf x => intro _ _; exact ⟨List.nodup_nil, fun l hl => by cases hl⟩
  | bin x l r ihl ihr =>
    intro hn hP
    rw [nms_bin] at hn hP ⊢
    obtain ⟨h1, h2, h3⟩ := bin_parts hn
    have p1 : ∀ n ∈ nms l, P n := fun n hn => hP n (List.mem_append_left _ hn)
    have p2 : ∀ n ∈ nms r, P n := fun n hn => hP n (List.mem_append_right _ hn)
    simp only [aUp, List.map_append]
    exact OwnedBy.append hS (ihl h1 p1) (ihr h2 p2) p1 p2 h3
  | name n x l r ihl ihr =>
    intro hn hP
    rw [nms_name] at hn hP ⊢
    obtain ⟨h1, h2, h3, h4, h5⟩ := name_parts hn
    have p1 : ∀ n ∈ nms l, P n := fun n hn => hP n (List.mem_append_left _ hn)
    have p2 : ∀ n ∈ nms r, P n := fun m hm => hP m (List.mem_append_right _ (List.mem_cons_of_mem _ hm))
    have p0 : P n := hP n (List.mem_append_right _ (List.mem_cons_self ..))
    simp only [aUp, List.map_cons, List.map_append]
    refine (OwnedBy.fork hS p0 (hG n x _ _).1 (hG n x _ _).locs (ihl h1 p1) (ihr h2 p2) p1 p2 h3 h4 h5).sub ?_
    intro m hm
    rcases List.mem_cons.1 hm with rfl | hm
    · exact List.mem_append_right _ (List.mem_cons_self ..)
    · rcases List.mem_append.1 hm with hm | hm
      · exact List.mem_append_left _ hm
      · exact List.mem_append_right _ (List.mem_cons_of_mem _ hm)
  | art a t ih => exact ih

theorem aNm_owned (hS : Sep H p C P) {G : ANm X R A} (hG : ∀ o n x a b, CellsOk C n (G.name o n x a b).2) (t : AT X) : ∀ o, ((nms t).map Name.sym).Nodup → (∀ n ∈ nms t, P n) →
    OwnedBy H p C (nms t) ((aNm H G p t o).2.map Prod.fst) := by
  induction t with
  | nil => intro _ _ _; exact ⟨List.nodup_nil, fun l hl => by cases hl⟩
  | leaf x => intro _ _ _; exact ⟨List.nodup_nil, fun l hl => by cases hl⟩
  | bin x l r ihl ihr =>
    intro o hn hP
    rw [nms_bin] at hn hP ⊢
    obtain ⟨h1, h2, h3⟩ := bin_parts hn
    have p1 : ∀ n ∈ nms l, P n := fun n hn => hP n (List.mem_append_left _ hn)
    have p2 : ∀ n ∈ nms r, P n := fun n hn => hP n (List.mem_append_right _ hn)
    simp only [aNm, List.map_append]
    exact OwnedBy.append hS (ihl _ h1 p1) (ihr _ h2 p2) p1 p2 h3
  | name n x l r ihl ihr =>
    intro o hn hP
    rw [nms_name] at hn hP ⊢
    obtain ⟨h1, h2, h3, h4, h5⟩ := name_parts hn
    have p1 : ∀ n ∈ nms l, P n := fun n hn => hP n (List.mem_append_left _ hn)
    have p2 : ∀ n ∈ nms r, P n := fun m hm => hP m (List.mem_append_right _ (List.mem_cons_of_mem _ hm))
    have p0 : P n := hP n (List.mem_append_right _ (List.mem_cons_self ..))
    simp only [aNm, List.map_cons, List.map_append]
    refine (OwnedBy.fork hS p0 (hG o n x _ _).1 (hG o n x _ _).locs (ihl _ h1 p1) (ihr _ h2 p2) p1 p2 h3 h4 h5).sub ?_
    intro m hm
    rcases List.mem_cons.1 hm with rfl | hm
    · exact List.mem_append_right _ (List.mem_cons_self ..)
    · rcases List.mem_append.1 hm with hm | hm
      · exact List.mem_append_left _ hm
      · exact List.mem_append_right _ (List.mem_cons_of_mem _ hm)
  | art a t ih => exact ih

theorem aSeq_owned (hS : Sep H p C P) {G : ASeq X R A} {val : A → CV X R} {dir : Dir2} (hG : ∀ n x a, CellsOk C n (G.name n x a).2) (t : AT X) :
    ∀ v, ((nms t).map Name.sym).Nodup → (∀ n ∈ nms t, P n) → OwnedBy H p C (nms t) ((aSeq H G val p dir t v).2.map Prod.fst) := by
  induction t with
  | nil => intro _ _ _; exact ⟨List.nodup_nil, fun l hl => by cases hl⟩
  | leaf x => intro _ _ _; exact ⟨List.nodup_nil, fun l hl => by cases hl⟩
  | bin x l r ihl ihr =>
    intro v hn hP
    rw [nms_bin] at hn hP ⊢
    obtain ⟨h1, h2, h3⟩ := bin_parts hn
    have p1 : ∀ n ∈ nms l, P n := fun n hn => hP n (List.mem_append_left _ hn)
    have p2 : ∀ n ∈ nms r, P n := fun n hn => hP n (List.mem_append_right _ hn)
    cases dir with
    | left =>
      simp only [aSeq, List.map_append]
      exact OwnedBy.append hS (ihl _ h1 p1) (ihr _ h2 p2) p1 p2 h3
    | right =>
      simp only [aSeq, List.map_append]
      refine (OwnedBy.append hS (ihr _ h2 p2) (ihl _ h1 p1) p2 p1 h3.symm).sub ?_
      intro m hm
      rcases List.mem_append.1 hm with hm | hm
      · exact List.mem_append_right _ hm
      · exact List.mem_append_left _ hm
  | name n x l r ihl ihr =>
    intro v hn hP
    rw [nms_name] at hn hP ⊢
    obtain ⟨h1, h2, h3, h4, h5⟩ := name_parts hn
    have p1 : ∀ n ∈ nms l, P n := fun n hn => hP n (List.mem_append_left _ hn)
    have p2 : ∀ n ∈ nms r, P n := fun m hm => hP m (List.mem_append_right _ (List.mem_cons_of_mem _ hm))
    have p0 : P n := hP n (List.mem_append_right _ (List.mem_cons_self ..))
    cases dir with
    | left =>
      simp only [aSeq, List.map_cons, List.map_append]
      refine (OwnedBy.fork hS p0 (hG n x _).1 (hG n x _).locs (ihl _ h1 p1) (ihr _ h2 p2) p1 p2 h3 h4 h5).sub ?_
      intro m hm
      rcases List.mem_cons.1 hm with rfl | hm
      · exact List.mem_append_right _ (List.mem_cons_self ..)
      · rcases List.mem_append.1 hm with hm | hm
        · exact List.mem_append_left _ hm
        · exact List.mem_append_right _ (List.mem_cons_of_mem _ hm)
    | right =>
      simp only [aSeq, List.map_cons, List.map_append]
      refine (OwnedBy.fork hS p0 (hG n x _).1 (hG n x _).locs (ihr _ h2 p2) (ihl _ h1 p1) p2 p1 h3.symm h5 h4).sub ?_
      intro m hm
      rcases List.mem_cons.1 hm with rfl | hm
      · exact List.mem_append_right _ (List.mem_cons_self ..)
      · rcases List.mem_append.1 hm with hm | hm
        · exact List.mem_append_right _ (List.mem_cons_of_mem _ hm)
        · exact List.mem_append_left _ hm
  | art a t ih => exact ih

/-! ### The functions that are passed -/

/-- Pure results. -/
def domR : Dom X R R := ⟨.res, fun _ _ => True, fun _ _ _ _ _ => trivial⟩
def domL (opAt : Name → Op) : Dom X R (AL X) := ⟨fun l => .lst l.val, LiveL opAt, fun _ _ _ h he => h.ext he⟩
def domT (opAt : Name → Op) : Dom X R (AT X) := ⟨fun t => .tree t.val, LiveT opAt, fun _ _ _ h he => h.ext he⟩

def PureUp.ann (f : PureUp X R) : AUp X R R := ⟨f.nil, f.leaf, f.bin, fun n x a b => (f.name n x a b, [])⟩
def PureSeq.ann (f : PureSeq X R) : ASeq X R R := ⟨f.leaf, f.bin, fun n x a => (f.name n x a, [])⟩
def PureNm.ann (f : PureNm X R) : ANm X R R := ⟨f.nil, f.leaf, f.bin, fun o n x a b => (f.name o n x a b, [])⟩

theorem pureUpOk {π : Path} (f : PureUp X R) : UpOk H opAt fs hv ha W domR f.fns f.ann π where
  nil := rfl
  leaf _ := rfl
  liveNil _ := trivial
  liveLeaf _ _ := trivial
  bin c σ x a b hb _ _ := Conv.ret ⟨Ext.refl _, hb, rfl, trivial⟩
  name c σ n x a b hb _ _ _ := Conv.ret ⟨Ext.refl _, hb, rfl, trivial⟩
theorem pureNmOk {π : Path} (f : PureNm X R) : NmOk H opAt fs hv ha W domR f.fns f.ann π where
  nil _ := rfl
  leaf _ _ := rfl
  liveNil _ _ := trivial
  liveLeaf _ _ _ := trivial
  bin c σ o x a b hb _ _ := Conv.ret ⟨Ext.refl _, hb, rfl, trivial⟩
  name c σ o n x a b hb _ _ _ := Conv.ret ⟨Ext.refl _, hb, rfl, trivial⟩
theorem pureSeqOk {π : Path} (f : PureSeq X R) : SeqOk H opAt fs hv ha W domR f.fns f.ann π fun _ => True where
  leaf c σ x a hb _ := Conv.ret ⟨Ext.refl _, hb, rfl, trivial⟩
  bin _ _ := rfl
  liveBin _ _ _ _ := trivial
  name c σ n x a k Q _ hb _ _ h := h σ (Ext.refl _) hb trivial

/-- `list_of_tree`: a cell for what comes after the name. -/
def annListOf (p : Path) : ASeq X R (AL X) :=
  ⟨.cons, fun _ l => l, fun n _ l => (.name n (.art ⟨p, .nominal n⟩ l), [(⟨p, .nominal n⟩, .lst l.val, 0)])⟩
/-- `filter_list_of_tree`. -/
def annFiltList (p : Path) (pred : X → Bool) : ASeq X R (AL X) :=
  ⟨fun x l => if pred x then .cons x l else l, fun _ l => l, fun n _ l =>
    match l.strip with
    | .cons _ _ => (l, [])
    | _ => (.name n (.art ⟨p, .nominal n⟩ l), [(⟨p, .nominal n⟩, .lst l.val, 0)])⟩

/-- `bin_arts_niltest`, with the cells in the namespace `q`. -/
def annMake (H : NameHash) (q : Path) (n : Option Name) (lev : Nat) (l r : AT X) : AT X × Allocs X R :=
  match n with
  | none => (.bin lev l r, [])
  | some n => (.name n lev (.art ⟨q, .nominal (nameFork H n).1⟩ l) (.art ⟨q, .nominal (nameFork H n).2⟩ r),
      [(⟨q, .nominal (nameFork H n).1⟩, .tree l.val, 0), (⟨q, .nominal (nameFork H n).2⟩, .tree r.val, 0)])
def annBinArts (H : NameHash) (q : Path) (n : Option Name) (lev : Nat) (l r : AT X) : AT X × Allocs X R :=
  if isNilV l.strip.val then (r, []) else if isNilV r.strip.val then (l, []) else annMake H q n lev l r
/-- `filter_tree_of_tree`. -/
def annFilt (H : NameHash) (q : Path) (pred : X → Bool) : AUp X R (AT X) :=
  ⟨.nil, fun x => if !pred x then .nil else .leaf x, fun lev l r => (annBinArts (R := R) H q none lev l r).1, annBinArts H q ∘ some⟩

theorem isFork_cell {nm n : Name} {op : Op} (hop : opAt nm = op) (hl : (∃ d, op = .listOf d) ∨ ∃ i, op = .filtList i) (hn : isFork n.sym = false) :
    sigF opAt ⟨stagePath nm, .nominal n⟩ = .cell tyL := by
  rw [sig_stage, hop]
  rcases hl with ⟨d, rfl⟩ | ⟨i, rfl⟩ <;> simp [stageKind, hn]

theorem cellOk {nm n : Name} {c : Ctx} {l : AL X} {k : CV X R → Prog (CV X R)} {Q : Store (CV X R) → CV X R → Prop} {j : Nat} (hsig : sigF opAt ⟨stagePath nm, .nominal n⟩ = .cell tyL)
    (hw : W ⟨stagePath nm, .nominal n⟩ = some (.lst l.val, j)) (hb : Below σ W) (hl : LiveL opAt σ l)
    (hk : ∀ σ1, Ext σ σ1 → Below σ1 W → LiveL opAt σ1 (.name n (.art ⟨stagePath nm, .nominal n⟩ l)) → CP H opAt fs hv ha c (stagePath nm) (k (.lst (.name n (.art ⟨stagePath nm, .nominal n⟩)))) σ1 Q) :
    CP H opAt fs hv ha c (stagePath nm) (.cell tyL n (.lst l.val) fun c => k (.lst (.name n (.art c)))) σ Q := by
  obtain ⟨σ1, a1, e1, b1, g1⟩ := alloc_below hb hw
  exact Conv.cell hsig a1 (hk σ1 e1 b1 ⟨hsig, g1, hl.ext e1⟩)

/-- No name that `name_fork` makes. -/
def Plain (n : Name) : Prop := isFork n.sym = false

theorem listOfOk {nm : Name} {op : Op} (hop : opAt nm = op) (hl : (∃ d, op = .listOf d) ∨ ∃ i, op = .filtList i) :
    SeqOk H opAt fs hv ha W (domL opAt) (listOfFns : SeqFns X R) (annListOf (stagePath nm)) (stagePath nm) Plain where
  leaf c σ x a hb h := Conv.ret ⟨Ext.refl _, hb, rfl, h⟩
  bin _ _ := rfl
  liveBin _ _ _ h := h
  name c σ n x a k Q hn hb h hal hk := cellOk (isFork_cell hop hl hn) (hal _ (List.mem_cons_self ..)) hb h hk

theorem strip_val {l : AL X} (h : ∀ x t, l.strip ≠ .cons x t) : (∃ n t, l.strip = .name n t) ∨ l.strip = .nil := by
  rcases hs : l.strip with _ | ⟨x, t⟩ | ⟨n, t⟩ | ⟨a, t⟩
  · exact .inr rfl
  · exact absurd hs (h x t)
  · exact .inl ⟨n, t, rfl⟩
  · exact absurd hs AL.strip_art

theorem filtListOk {nm : Name} {op : Op} (hop : opAt nm = op) (hl : (∃ d, op = .listOf d) ∨ ∃ i, op = .filtList i) (pred : X → Bool) :
    SeqOk H opAt fs hv ha W (domL opAt) (filtListFns pred : SeqFns X R) (annFiltList (stagePath nm) pred) (stagePath nm) Plain where
  leaf c σ x a hb h := by
    show CP H opAt fs hv ha c (stagePath nm) (if pred x then .ret (.lst (.cons x a.val)) else .ret (.lst a.val)) σ _
    by_cases hp : pred x = true
    · rw [if_pos hp]
      refine Conv.ret ⟨Ext.refl _, hb, ?_, ?_⟩ <;> simp only [annFiltList, if_pos hp]
      · rfl
      · exact h
    · rw [if_neg hp]
      refine Conv.ret ⟨Ext.refl _, hb, ?_, ?_⟩ <;> simp only [annFiltList, if_neg hp]
      · rfl
      · exact h
  bin _ _ := rfl
  liveBin _ _ _ h := h
  name c σ n x a k Q hn hb h hal hk := by
    refine onLView h ?_
    by_cases hc : ∃ x t, a.strip = .cons x t
    · obtain ⟨x', t, e⟩ := hc
      have e0 : (annFiltList (R := R) (stagePath nm) pred).name n x a = (a, []) := by simp only [annFiltList, e]
      rw [e0] at hk
      rw [e]
      exact hk σ (Ext.refl _) hb h
    · have e0 : (annFiltList (R := R) (stagePath nm) pred).name n x a = (.name n (.art ⟨stagePath nm, .nominal n⟩ a), [(⟨stagePath nm, .nominal n⟩, .lst a.val, 0)]) := by
        rcases strip_val (fun x t e => hc ⟨x, t, e⟩) with ⟨m, t, e⟩ | e <;> simp only [annFiltList, e]
      rw [e0] at hk hal
      have := cellOk (H := H) (fs := fs) (hv := hv) (ha := ha) (c := c) (isFork_cell hop hl hn) (hal _ (List.mem_cons_self ..)) hb h hk
      rcases strip_val (fun x t e => hc ⟨x, t, e⟩) with ⟨m, t, e⟩ | e <;> rw [e] <;> exact this

theorem binArtsOk {nm : Name} (n : Option Name) (lev : Nat) (l r : AT X) {c : Ctx} (hb : Below σ W) (hl : LiveT opAt σ l) (hr : LiveT opAt σ r)
    (hal : ∀ y ∈ (annBinArts (R := R) H (unitPath nm) n lev l r).2, W y.1 = some y.2) :
    CP H opAt fs hv ha c (stagePath nm) (.ns nameUnit (binArts H n lev l.val r.val) .ret) σ (Post W (domT opAt).val (LiveT opAt) (annBinArts (R := R) H (unitPath nm) n lev l r).1 σ) := by
  refine Conv.ns ?_
  refine onView hl ?_
  unfold annBinArts at hal ⊢
  by_cases h1 : isNilV l.strip.val = true
  · rw [if_pos h1, if_pos h1]
    exact Conv.ret (Conv.ret ⟨Ext.refl _, hb, rfl, hr⟩)
  rw [if_neg h1, if_neg h1]
  rw [if_neg h1] at hal
  refine onView hr ?_
  by_cases h2 : isNilV r.strip.val = true
  · rw [if_pos h2, if_pos h2]
    exact Conv.ret (Conv.ret ⟨Ext.refl _, hb, rfl, hl⟩)
  rw [if_neg h2, if_neg h2]
  rw [if_neg h2] at hal
  cases n with
  | none => exact Conv.ret (Conv.ret ⟨Ext.refl _, hb, rfl, hl, hr⟩)
  | some n =>
    obtain ⟨σ1, a1, f1, b1, g1⟩ := alloc_below hb (hal _ (List.mem_cons_self ..))
    obtain ⟨σ2, a2, f2, b2, g2⟩ := alloc_below b1 (hal _ (List.mem_cons_of_mem _ (List.mem_cons_self ..)))
    exact Conv.cell (sig_unit ..) a1 (Conv.cell (sig_unit ..) a2 (Conv.ret (Conv.ret ⟨f1.trans f2, b2, rfl,
      ⟨sig_unit .., f2 _ _ g1, hl.ext (f1.trans f2)⟩, sig_unit .., g2, hr.ext (f1.trans f2)⟩)))

theorem filtOk {nm : Name} (pred : X → Bool) : UpOk H opAt fs hv ha W (domT opAt) (filtFns H pred : UpFns X R) (annFilt H (unitPath nm) pred) (stagePath nm) where
  nil := rfl
  leaf x := by
    show CV.tree _ = CV.tree _
    congr 1
    show _ = AT.val (if !pred x then .nil else .leaf x)
    cases pred x <;> rfl
  liveNil _ := trivial
  liveLeaf σ x := by
    show LiveT opAt σ (if !pred x then .nil else .leaf x)
    cases pred x <;> trivial
  bin c σ x a b hb h1 h2 := binArtsOk none x a b hb h1 h2 (by
    intro y hy
    have : (annBinArts (R := R) H (unitPath nm) none x a b).2 = [] := by
      unfold annBinArts annMake
      split
      · rfl
      · split <;> rfl
    rw [this] at hy; cases hy)
  name c σ n x a b hb h1 h2 hal := binArtsOk (some n) x a b hb h1 h2 hal

/-! ### What is returned, in terms of the model of Collections/Model.lean -/

theorem aUp_pure {f : PureUp X R} (t : AT X) : (aUp H f.ann p t).1 = Coll.treeFoldUp f.nil f.leaf f.bin f.name t.erase := by
  induction t with
  | nil => rfl
  | leaf x => rfl
  | bin x l r ihl ihr => simp only [aUp, AT.erase, Coll.treeFoldUp, ihl, ihr]; rfl
  | name n x l r ihl ihr => simp only [aUp, AT.erase, Coll.treeFoldUp, ihl, ihr]; rfl
  | art a t ih => exact ih
theorem aNm_pure {f : PureNm X R} (t : AT X) : ∀ o, (aNm H f.ann p t o).1 = Coll.treeFoldUpNmDn f.nil f.leaf f.bin f.name t.erase o := by
  induction t with
  | nil => intro o; rfl
  | leaf x => intro o; rfl
  | bin x l r ihl ihr => intro o; simp only [aNm, AT.erase, Coll.treeFoldUpNmDn, ihl, ihr]; rfl
  | name n x l r ihl ihr => intro o; simp only [aNm, AT.erase, Coll.treeFoldUpNmDn, ihl, ihr]; rfl
  | art a t ih => exact ih
theorem aSeq_pure {f : PureSeq X R} {val : R → CV X R} {dir : Dir2} (t : AT X) : ∀ v, (aSeq H f.ann val p dir t v).1 = Coll.treeFoldSeq dir f.leaf f.bin f.name t.erase v := by
  induction t with
  | nil => intro v; rfl
  | leaf x => intro v; rfl
  | bin x l r ihl ihr => intro v; cases dir <;> simp only [aSeq, AT.erase, Coll.treeFoldSeq, ihl, ihr] <;> rfl
  | name n x l r ihl ihr => intro v; cases dir <;> simp only [aSeq, AT.erase, Coll.treeFoldSeq, ihl, ihr] <;> rfl
  | art a t ih => exact ih

theorem annListOf_bin (x : Nat) (l : AL X) : (annListOf (R := R) p).bin x l = l := rfl
theorem annListOf_name (n : Name) (x : Nat) (l : AL X) : ((annListOf (R := R) p).name n x l).1.erase = .name n (Coll.lcell n l.erase) := rfl
theorem annFiltList_bin (pred : X → Bool) (x : Nat) (l : AL X) : (annFiltList (R := R) p pred).bin x l = l := rfl

theorem listOf_model {val : AL X → CV X R} {dir : Dir2} (t : AT X) : ∀ v, (aSeq H (annListOf p) val p dir t v).1.erase =
    Coll.treeFoldSeq dir (fun x xs => .cons x xs) (fun _ xs => xs) (fun n _ xs => .name n (Coll.lcell n xs)) t.erase v.erase := by
  induction t with
  | nil => intro v; rfl
  | leaf x => intro v; rfl
  | bin x l r ihl ihr => intro v; cases dir <;> simp only [aSeq, AT.erase, Coll.treeFoldSeq, annListOf_bin, ihl, ihr]
  | name n x l r ihl ihr => intro v; cases dir <;> simp only [aSeq, AT.erase, Coll.treeFoldSeq, annListOf_name, ihl, ihr]
  | art a t ih => exact ih

/-- `is_name` on an annotated list. -/
def isNameA (l : AL X) : Bool :=
  match l.strip with
  | .cons _ _ => true
  | _ => false

theorem isNameA_eq (l : AL X) : Coll.isName l.erase = isNameA l := by
  induction l with
  | art a l ih => exact ih
  | _ => rfl

theorem annFiltList_name (pred : X → Bool) (n : Name) (x : Nat) (l : AL X) : ((annFiltList (R := R) p pred).name n x l).1.erase =
    if Coll.isName l.erase then l.erase else .name n (Coll.lcell n l.erase) := by
  rw [isNameA_eq]
  rcases hs : l.strip with _ | _ | _ | _ <;> simp only [annFiltList, isNameA, hs] <;> rfl

theorem filtList_model {val : AL X → CV X R} {pred : X → Bool} (t : AT X) : ∀ v, (aSeq H (annFiltList p pred) val p .right t v).1.erase =
    Coll.treeFoldSeq .right (fun x xs => if pred x then .cons x xs else xs) (fun _ xs => xs) (fun n _ xs => if Coll.isName xs then xs else .name n (Coll.lcell n xs)) t.erase v.erase := by
  induction t with
  | nil => intro v; rfl
  | leaf x =>
    intro v
    show AL.erase (if pred x then .cons x v else v) = if pred x then .cons x v.erase else v.erase
    cases pred x <;> rfl
  | bin x l r ihl ihr => intro v; simp only [aSeq, AT.erase, Coll.treeFoldSeq, annFiltList_bin, ihl, ihr]
  | name n x l r ihl ihr => intro v; simp only [aSeq, AT.erase, Coll.treeFoldSeq, ihl, ihr, annFiltList_name]
  | art a t ih => exact ih

theorem isNil_eq (t : AT X) : Coll.tIsNil t.erase = isNilV t.strip.val := by
  induction t with
  | art a t ih => exact ih
  | _ => rfl

theorem annBinArts_model {q : Path} (n : Option Name) (lev : Nat) (l r : AT X) : (annBinArts (R := R) H q n lev l r).1.erase = Coll.binArtsNiltest H n lev l.erase r.erase := by
  unfold annBinArts Coll.binArtsNiltest
  rw [isNil_eq, isNil_eq]
  by_cases h1 : isNilV l.strip.val = true
  · rw [if_pos h1, if_pos h1]
  rw [if_neg h1, if_neg h1]
  by_cases h2 : isNilV r.strip.val = true
  · rw [if_pos h2, if_pos h2]
  rw [if_neg h2, if_neg h2]
  cases n <;> rfl

theorem filt_model {q : Path} {pred : X → Bool} (t : AT X) : (aUp H (annFilt (R := R) H q pred) p t).1.erase = Coll.filterTreeOfTree H t.erase pred := by
  unfold Coll.filterTreeOfTree
  induction t with
  | nil => rfl
  | leaf x =>
    show AT.erase (if !pred x then .nil else .leaf x) = if !pred x then .nil else .leaf x
    cases pred x <;> rfl
  | bin x l r ihl ihr =>
    simp only [aUp, AT.erase, Coll.treeFoldUp]
    rw [← ihl, ← ihr]
    exact annBinArts_model none x _ _
  | name n x l r ihl ihr =>
    simp only [aUp, AT.erase, Coll.treeFoldUp]
    rw [← ihl, ← ihr]
    exact annBinArts_model (some n) x _ _
  | art a t ih => exact ih

/-- `filter_tree_of_tree` invents no names. -/
theorem binArts_names (n : Name) (lev : Nat) (l r : Tree X) : (Coll.binArtsNiltest H (some n) lev l r).names.Sublist (l.names ++ n :: r.names) := by
  unfold Coll.binArtsNiltest
  split
  · exact (List.sublist_cons_self n _).trans (List.sublist_append_right _ _)
  · split
    · exact List.sublist_append_left _ _
    · show (Tree.name n lev _ _).names.Sublist _
      rw [Coll.Tree.names_name]
      exact List.Sublist.refl _
theorem binArts_names' (lev : Nat) (l r : Tree X) : (Coll.binArtsNiltest H none lev l r).names.Sublist (l.names ++ r.names) := by
  unfold Coll.binArtsNiltest
  split
  · exact List.sublist_append_right _ _
  · split
    · exact List.sublist_append_left _ _
    · show (Tree.bin lev _ _).names.Sublist _
      rw [Coll.Tree.names_bin]
      exact List.Sublist.refl _
theorem filter_names (t : Tree X) (pred : X → Bool) : (Coll.filterTreeOfTree H t pred).names.Sublist t.names := by
  unfold Coll.filterTreeOfTree
  induction t with
  | nil => exact List.Sublist.refl _
  | leaf x =>
    simp only [Coll.treeFoldUp]
    cases pred x <;> exact List.Sublist.refl _
  | bin x l r ihl ihr =>
    rw [Coll.Tree.names_bin]
    exact (binArts_names' (H := H) _ _ _).trans (ihl.append ihr)
  | name n x l r ihl ihr =>
    rw [Coll.Tree.names_name]
    exact (binArts_names (H := H) _ _ _ _).trans (ihl.append (ihr.cons_cons n))
  | art t ih => exact ih

/-! ### The last stage -/

/-- A stage that makes lists. -/
def Op.isList : Op → Bool
  | .listOf _ => true
  | .filtList _ => true
  | _ => false
/-- `filter_tree_of_tree`. -/
def Op.isFilt : Op → Bool
  | .filt _ => true
  | _ => false
/-- Which predicate. -/
def Op.idx : Op → Nat
  | .filt i => i
  | _ => 0

/-- What the last stage returns, and what it allocates. -/
def aLast (H : NameHash) (fs : Fns X R) (nm : Name) (lim : Option Nat) (t : AT X) : Op → CV X R × Allocs X R
  | .up i => (.res (aUp H (fs.up i).ann (stagePath nm) t).1, (aUp H (fs.up i).ann (stagePath nm) t).2)
  | .seq dir i => (.res (aSeq H (fs.seq i).ann .res (stagePath nm) dir t (fs.seq i).init).1, (aSeq H (fs.seq i).ann .res (stagePath nm) dir t (fs.seq i).init).2)
  | .nm o i => (.res (aNm H (fs.nm i).ann (stagePath nm) t o).1, (aNm H (fs.nm i).ann (stagePath nm) t o).2)
  | .listOf dir =>
    let a := aSeq H (annListOf (stagePath nm)) (fun l => .lst l.val) (stagePath nm) dir.invert t .nil
    (.vec (Coll.vecOfList a.1.erase lim), a.2)
  | .filtList i =>
    let a := aSeq H (annFiltList (stagePath nm) (fs.pred i)) (fun l => .lst l.val) (stagePath nm) .right t .nil
    (.vec (Coll.vecOfList a.1.erase lim), a.2)
  | .filt i => (.tree (aUp H (annFilt (R := R) H (unitPath nm) (fs.pred i)) (stagePath nm) t).1.val, (aUp H (annFilt H (unitPath nm) (fs.pred i)) (stagePath nm) t).2)

theorem vecOk {π : Path} {lim : Option Nat} : ∀ (m : Nat) (l : AL X) (out : List (NameElse X)) (c : Ctx) (σ : Store (CV X R)), l.size ≤ m → Below σ W →
    LiveL opAt σ l → CP H opAt fs hv ha c π (vec l.val out lim) σ fun σ' v => Ext σ σ' ∧ Below σ' W ∧ v = .vec (Coll.vecLoop lim l.erase out) := by
  intro m
  induction m with
  | zero => intro l out c σ hm; cases l <;> simp [AL.size] at hm
  | succ m ih =>
    intro l out c σ hm hb hl
    refine onLView hl ?_
    have hl := hl.strip
    rw [ListProg.vecLoop_strip]
    rcases hs : l.strip with _ | ⟨x, t⟩ | ⟨n, t⟩ | ⟨a, t⟩
    · exact Conv.ret ⟨Ext.refl _, hb, rfl⟩
    · rw [hs] at hl
      simp only [AL.val, AL.erase, ListProg.vecLoop_cons]
      by_cases hlim : lim = some (out.length + 1)
      · rw [if_pos hlim, if_pos hlim]
        exact Conv.ret ⟨Ext.refl _, hb, rfl⟩
      · rw [if_neg hlim, if_neg hlim]
        refine Conv.call ?_
        have hcode : (env H opAt fs hv ha).code fVec (.vargs t.val (out ++ [.elm x]) lim) = vec t.val (out ++ [.elm x]) lim := rfl
        rw [hcode]
        refine (ih t _ c σ (by have := AL.strip_cons hs; omega) hb hl).mono ?_
        rintro σ2 v ⟨e2, b2, rfl⟩
        exact Conv.ret ⟨e2, b2, rfl⟩
    · rw [hs] at hl
      simp only [AL.val, AL.erase, ListProg.vecLoop_name]
      by_cases hlim : lim = some (out.length + 1)
      · rw [if_pos hlim, if_pos hlim]
        exact Conv.ret ⟨Ext.refl _, hb, rfl⟩
      · rw [if_neg hlim, if_neg hlim]
        refine Conv.call ?_
        have hcode : (env H opAt fs hv ha).code fVec (.vargs t.val (out ++ [.name n]) lim) = vec t.val (out ++ [.name n]) lim := rfl
        rw [hcode]
        refine (ih t _ c σ (by have := AL.strip_name hs; omega) hb hl).mono ?_
        rintro σ2 v ⟨e2, b2, rfl⟩
        exact Conv.ret ⟨e2, b2, rfl⟩
    · exact absurd hs AL.strip_art

theorem code_up (i : Nat) (t : TV X) : (env H opAt fs hv ha).code (fUp i) (.tree t) = foldUp H tyR (fUp i) (fs.up i).fns t := code_fold H opAt fs 0 i (by omega) _
theorem code_seq (i : Nat) (t : TV X) (d : Dir2) (v : CV X R) : (env H opAt fs hv ha).code (fSeq i) (.sargs t d v) = foldSeq H tyR (fSeq i) (fs.seq i).fns t d v :=
  code_fold H opAt fs 1 i (by omega) _
theorem code_nm (i : Nat) (t : TV X) (o : Option Name) : (env H opAt fs hv ha).code (fNm i) (.nargs t o) = foldNm H tyR (fNm i) (fs.nm i).fns t o :=
  code_fold H opAt fs 2 i (by omega) _
theorem code_filt (i : Nat) (t : TV X) : (env H opAt fs hv ha).code (fFilt i) (.tree t) = foldUp H tyT (fFilt i) (filtFns H (fs.pred i)) t := code_fold H opAt fs 3 i (by omega) _
theorem code_filtList (i : Nat) (t : TV X) (d : Dir2) (v : CV X R) :
    (env H opAt fs hv ha).code (fFiltList i) (.sargs t d v) = foldSeq H tyL (fFiltList i) (filtListFns (fs.pred i)) t d v := code_fold H opAt fs 4 i (by omega) _
theorem code_listOf (t : TV X) (d : Dir2) (v : CV X R) : (env H opAt fs hv ha).code fListOf (.sargs t d v) = foldSeq H tyL fListOf listOfFns t d v :=
  code_fold H opAt fs 5 0 (by omega) (.sargs t d v)

/-- A filter. -/
theorem stageFiltOk {nm : Name} {i : Nat} (hop : opAt nm = .filt i) {t : AT X} {c : Ctx} (hc : AncOk W c (t.ht + 1)) (hs : c.self ∈ c.anc) (hb : Below σ W) (hl : LiveT opAt σ t)
    (hal : ∀ x ∈ (aUp H (annFilt (R := R) H (unitPath nm) (fs.pred i)) (stagePath nm) t).2, W x.1 = some x.2) :
    CP H opAt fs hv ha c (stagePath nm) (opCall fs (.filt i) t.val) σ
      (Post W (domT opAt).val (LiveT opAt) (aUp H (annFilt (R := R) H (unitPath nm) (fs.pred i)) (stagePath nm) t).1 σ) := by
  refine Conv.call ?_
  rw [code_filt]
  refine (foldUpOk (filtOk (fs.pred i)) (code_filt i) (fun n _ => by rw [sig_stage, hop]; rfl) t.size t c σ (Nat.le_refl _) hc hs hb hl hal).mono ?_
  rintro σ2 v ⟨e2, b2, rfl, l2⟩
  exact Conv.ret ⟨e2, b2, rfl, l2⟩

theorem lastOk {nm : Name} {lim : Option Nat} {t : AT X} {c : Ctx} (hf : (opAt nm).isFilt = false) (hp : (opAt nm).isList = true → ∀ n ∈ nms t, Plain n) (hc : AncOk W c (t.ht + 1))
    (hs : c.self ∈ c.anc) (hb : Below σ W) (hl : LiveT opAt σ t) (hal : ∀ x ∈ (aLast H fs nm lim t (opAt nm)).2, W x.1 = some x.2) :
    CP H opAt fs hv ha c rootPath (.ns nm (opCall fs (opAt nm) t.val) (finish lim)) σ fun σ' v => Ext σ σ' ∧ Below σ' W ∧ v = (aLast H fs nm lim t (opAt nm)).1 := by
  refine Conv.ns ?_
  show CP H opAt fs hv ha c (stagePath nm) _ _ _
  rcases hop : opAt nm with i | ⟨dir, i⟩ | ⟨o, i⟩ | dir | i | i
  · rw [hop] at hal
    refine Conv.call ?_
    rw [code_up]
    refine (foldUpOk (pureUpOk (fs.up i)) (code_up i) (fun n _ => by rw [sig_stage, hop]; rfl) t.size t c σ (Nat.le_refl _) hc hs hb hl hal).mono ?_
    rintro σ2 v ⟨e2, b2, rfl, l2⟩
    exact Conv.ret (Conv.ret ⟨e2, b2, rfl⟩)
  · rw [hop] at hal
    refine Conv.call ?_
    rw [code_seq]
    refine (foldSeqOk (D := domR) (pureSeqOk (fs.seq i)) (code_seq i) (fun n _ => by rw [sig_stage, hop]; rfl) t.size t (fs.seq i).init c σ (Nat.le_refl _) hc hs hb hl trivial
      (fun _ _ => trivial) hal).mono ?_
    rintro σ2 v ⟨e2, b2, rfl, l2⟩
    exact Conv.ret (Conv.ret ⟨e2, b2, rfl⟩)
  · rw [hop] at hal
    refine Conv.call ?_
    rw [code_nm]
    refine (foldNmOk (pureNmOk (fs.nm i)) (code_nm i) (fun n _ => by rw [sig_stage, hop]; rfl) t.size t o c σ (Nat.le_refl _) hc hs hb hl hal).mono ?_
    rintro σ2 v ⟨e2, b2, rfl, l2⟩
    exact Conv.ret (Conv.ret ⟨e2, b2, rfl⟩)
  · rw [hop] at hal hp
    refine Conv.call ?_
    rw [code_listOf]
    refine (foldSeqOk (D := domL opAt) (v := .nil) (dir := dir.invert) (listOfOk hop (.inl ⟨dir, rfl⟩)) code_listOf (fun n hn => by rw [sig_stage, hop]; simp [stageKind, hn]) t.size t c σ
      (Nat.le_refl _) hc hs hb hl trivial (hp rfl) hal).mono ?_
    rintro σ2 v ⟨e2, b2, rfl, l2⟩
    refine Conv.ret (Conv.call ?_)
    have hcode : ∀ l : LV X, (env H opAt fs hv ha).code fVec (.vargs l [] lim) = vec l [] lim := fun _ => rfl
    rw [hcode]
    refine (vecOk _ _ [] c σ2 (Nat.le_refl _) b2 l2).mono ?_
    rintro σ3 v ⟨e3, b3, rfl⟩
    exact Conv.ret ⟨e2.trans e3, b3, rfl⟩
  · rw [hop] at hal hp
    refine Conv.call ?_
    rw [code_filtList]
    refine (foldSeqOk (D := domL opAt) (v := .nil) (dir := .right) (filtListOk hop (.inr ⟨i, rfl⟩) (fs.pred i)) (code_filtList i) (fun n hn => by rw [sig_stage, hop]; simp [stageKind, hn]) t.size t c σ
      (Nat.le_refl _) hc hs hb hl trivial (hp rfl) hal).mono ?_
    rintro σ2 v ⟨e2, b2, rfl, l2⟩
    refine Conv.ret (Conv.call ?_)
    have hcode : ∀ l : LV X, (env H opAt fs hv ha).code fVec (.vargs l [] lim) = vec l [] lim := fun _ => rfl
    rw [hcode]
    refine (vecOk _ _ [] c σ2 (Nat.le_refl _) b2 l2).mono ?_
    rintro σ3 v ⟨e3, b3, rfl⟩
    exact Conv.ret ⟨e2.trans e3, b3, rfl⟩
  · rw [hop] at hf; cases hf

/-! ### The specification -/

/-- The tree that the filters leave. -/
def specFilters (H : NameHash) (opAt : Name → Op) (fs : Fns X R) (filters : List Name) (t : Tree X) : Tree X :=
  filters.foldl (fun t nm => Coll.filterTreeOfTree H t (fs.pred (opAt nm).idx)) t

/-- What the last stage returns. -/
def specLast (fs : Fns X R) (lim : Option Nat) (t : Tree X) : Op → CV X R
  | .up i => .res (Coll.treeFoldUp (fs.up i).nil (fs.up i).leaf (fs.up i).bin (fs.up i).name t)
  | .seq dir i => .res (Coll.treeFoldSeq dir (fs.seq i).leaf (fs.seq i).bin (fs.seq i).name t (fs.seq i).init)
  | .nm o i => .res (Coll.treeFoldUpNmDn (fs.nm i).nil (fs.nm i).leaf (fs.nm i).bin (fs.nm i).name t o)
  | .listOf dir => .vec (ListProg.limited lim (match dir with | .left => t.items | .right => t.items.reverse))
  | .filtList i => .vec (ListProg.limited lim (Coll.filterListOfTree t (fs.pred i)).items)
  | .filt _ => .tree .nil

/-- The tree `t` is what the value `v` stands for: the articulations in it are cells of the editor, and are replaced by what they hold. -/
inductive Unfolds (cs : Cells (CV X R)) : TV X → Tree X → Prop
  | nil : Unfolds cs .nil .nil
  | leaf {x} : Unfolds cs (.leaf x) (.leaf x)
  | bin {x l r l' r'} : Unfolds cs l l' → Unfolds cs r r' → Unfolds cs (.bin x l r) (.bin x l' r')
  | name {n x l r l' r'} : Unfolds cs l l' → Unfolds cs r r' → Unfolds cs (.name n x l r) (.name n x l' r')
  | art {n v t} : cs n = some (.tree v) → Unfolds cs v t → Unfolds cs (.art (cellAt n)) (.art t)

/-- The names in the tree are distinct; if the last stage makes a list, none of them is made by `name_fork`. -/
def GoodTree (op : Op) (ns : List Name) : Prop := (ns.map Name.sym).Nodup ∧ (op.isList = true → ∀ n ∈ ns, isFork n.sym = false)

/-- The stages have namespaces of their own, and are some filters and then something else. -/
def GoodStages (opAt : Name → Op) (filters : List Name) (last : Name) : Prop :=
  (filters ++ [last]).Nodup ∧ (∀ nm ∈ filters, (opAt nm).isFilt = true) ∧ (opAt last).isFilt = false

/-- A step of the session: some edits, then a demand. -/
structure Step (X R : Type) where
  edits : List (Edit (CV X R))
  filters : List Name
  last : Name
  tree : TV X
  limit : Option Nat

/-- What is demanded: the filters, the last stage, the tree, the limit. -/
structure Dem (X : Type) where
  filters : List Name
  last : Name
  tree : Tree X
  limit : Option Nat

/-- What is demanded in a session. -/
inductive Demands (opAt : Name → Op) : Cells (CV X R) → List (Step X R) → List (Dem X) → Prop
  | nil {cs} : Demands opAt cs [] []
  | cons {cs cs' s ss t ds} : applyAll cs s.edits = some cs' → Unfolds cs' s.tree t → GoodTree (opAt s.last) t.names → GoodStages opAt s.filters s.last → Demands opAt cs' ss ds →
      Demands opAt cs (s :: ss) (⟨s.filters, s.last, t, s.limit⟩ :: ds)

/-- What a demand returns. -/
def Dem.result (H : NameHash) (opAt : Name → Op) (fs : Fns X R) (d : Dem X) : CV X R := specLast fs d.limit (specFilters H opAt fs d.filters d.tree) (opAt d.last)

/-- The code of the editor for one step: the edits, and then `ns("tree", || get!(thunk!([Some(rn)]? { … })))`. -/
def stepProg (rn : Name) (s : Step X R) : Prog (CV X R) :=
  EditSession.editProg tyT s.edits <|
    .ns rootNm (.thunk tyV (.nominal rn) ppRoot fRoot (.root s.filters s.last s.tree s.limit) fun l => .force tyV l none .ret) .ret

/-! ### The chain -/

/-- What the program returns, what it allocates, and the rank of its thunk. -/
def aChain (H : NameHash) (opAt : Name → Op) (fs : Fns X R) (last : Name) (lim : Option Nat) : List Name → AT X → CV X R × Allocs X R × Nat
  | [], t => ((aLast H fs last lim t (opAt last)).1, (aLast H fs last lim t (opAt last)).2, t.ht + 1)
  | nm :: nms, t =>
    let a := aUp H (annFilt (R := R) H (unitPath nm) (fs.pred (opAt nm).idx)) (stagePath nm) t
    let b := aChain H opAt fs last lim nms a.1
    (b.1, a.2 ++ b.2.1, max (t.ht + 1) b.2.2)

theorem GoodTree.filter {op : Op} {t : AT X} (h : GoodTree op (nms t)) (q p : Path) (pred : X → Bool) : GoodTree op (nms (aUp H (annFilt (R := R) H q pred) p t).1) := by
  have hs : (nms (aUp H (annFilt (R := R) H q pred) p t).1).Sublist (nms t) := by
    show (AT.erase _).names.Sublist _
    rw [filt_model]
    exact filter_names _ _
  exact ⟨h.1.sublist (hs.map _), fun ho n hn => h.2 ho n (hs.subset hn)⟩

theorem chainOk {last : Name} {lim : Option Nat} {π : Path} (hπ : π = rootPath) {filters : List Name} : ∀ (t : AT X) (c : Ctx) (σ : Store (CV X R)), (∀ nm ∈ filters, (opAt nm).isFilt = true) →
    (opAt last).isFilt = false → AncOk W c (aChain H opAt fs last lim filters t).2.2 → c.self ∈ c.anc → Below σ W → LiveT opAt σ t → GoodTree (opAt last) (nms t) →
    (∀ x ∈ (aChain H opAt fs last lim filters t).2.1, W x.1 = some x.2) →
    CP H opAt fs hv ha c π (root opAt fs filters last t.val lim) σ fun σ' v => Ext σ σ' ∧ Below σ' W ∧ v = (aChain H opAt fs last lim filters t).1 := by
  subst hπ
  induction filters with
  | nil =>
    intro t c σ hf hlast hc hs hb hl hg hal
    exact lastOk hlast hg.2 hc hs hb hl hal
  | cons nm nms ih =>
    intro t c σ hf hlast hc hs hb hl hg hal
    refine Conv.ns ?_
    obtain ⟨i, hop⟩ : ∃ i, opAt nm = .filt i := by
      have := hf nm (List.mem_cons_self ..)
      rcases h : opAt nm with i | ⟨dir, i⟩ | ⟨o, i⟩ | dir | i | i <;> rw [h] at this <;> first | exact ⟨i, rfl⟩ | cases this
    simp only [aChain] at hc hal ⊢
    have hi : (opAt nm).idx = i := by rw [hop]; rfl
    rw [hi] at hc hal ⊢
    have hal1 := fun x hx => hal x (List.mem_append_left _ hx)
    have hal2 := fun x hx => hal x (List.mem_append_right _ hx)
    rw [hop]
    refine (stageFiltOk hop (hc.mono (Nat.le_max_left ..)) hs hb hl hal1).mono ?_
    rintro σ2 v ⟨e2, b2, rfl, l2⟩
    refine (ih _ c σ2 (fun n hn => hf n (List.mem_cons_of_mem _ hn)) hlast (hc.mono (Nat.le_max_right ..)) hs b2 l2 (hg.filter _ _ _) hal2).mono ?_
    rintro σ3 v ⟨e3, b3, rfl⟩
    exact ⟨e2.trans e3, b3, rfl⟩

/-! ### Where the chain allocates -/

theorem sepPure : Sep H p (fun _ _ => False) fun _ => True := ⟨fun _ _ _ h => h.elim, fun _ _ _ _ _ h => h.elim⟩
theorem sepFilt (nm : Name) : Sep H (stagePath nm) (fun n l => l = ⟨unitPath nm, .nominal (nameFork H n).1⟩ ∨ l = ⟨unitPath nm, .nominal (nameFork H n).2⟩) fun _ => True where
  inj n m l h h' := by
    rcases h with rfl | rfl <;> rcases h' with h' | h' <;> simp [nameFork] at h' <;> exact h'.2
  cell n m l _ _ h := by
    have : unitPath nm ≠ stagePath nm := by simp [unitPath, stagePath]; intro e; exact absurd (congrArg sizeOf e) (by simp [rootPath]; omega)
    rcases h with rfl | rfl <;> exact ⟨fun e => this (congrArg Loc.path e), fun e => this (congrArg Loc.path e)⟩
theorem sepList (nm : Name) : Sep H (stagePath nm) (fun n l => l = ⟨stagePath nm, .nominal n⟩) Plain where
  inj n m l h h' := by rw [h] at h'; simp at h'; rw [h']
  cell n m l hn _ h := by
    subst h
    refine ⟨fun e => ?_, fun e => ?_⟩ <;>
    · simp at e
      rw [e] at hn
      simp [Plain, nameFork, isFork] at hn

theorem cellsNil {n : Name} : CellsOk C n ([] : Allocs X R) := ⟨List.nodup_nil, fun _ h => by cases h⟩

theorem filtCells (nm n : Name) (pred : X → Bool) (x : Nat) (a b : AT X) :
    CellsOk (fun n l => l = ⟨unitPath nm, .nominal (nameFork H n).1⟩ ∨ l = ⟨unitPath nm, .nominal (nameFork H n).2⟩) n ((annFilt (R := R) H (unitPath nm) pred).name n x a b).2 := by
  show CellsOk _ n (annBinArts (R := R) H (unitPath nm) (some n) x a b).2
  unfold annBinArts
  split
  · exact cellsNil
  · split
    · exact cellsNil
    · refine ⟨by simp [annMake, nameFork], fun y hy => ?_⟩
      simp [annMake] at hy
      rcases hy with rfl | rfl
      · exact .inl rfl
      · exact .inr rfl
theorem listCells (nm n : Name) (x : Nat) (a : AL X) : CellsOk (fun n l => l = ⟨stagePath nm, .nominal n⟩) n ((annListOf (R := R) (stagePath nm)).name n x a).2 :=
  ⟨by simp [annListOf], fun y hy => by simp [annListOf] at hy; rw [hy]⟩
theorem filtListCells (nm n : Name) (pred : X → Bool) (x : Nat) (a : AL X) :
    CellsOk (fun n l => l = ⟨stagePath nm, .nominal n⟩) n ((annFiltList (R := R) (stagePath nm) pred).name n x a).2 := by
  rcases hs : a.strip with _ | _ | _ | _ <;> simp only [annFiltList, hs] <;> first | exact cellsNil | exact ⟨by simp, fun y hy => by simp at hy; rw [hy]⟩

/-- In the namespaces of a stage. -/
def InStage (nm : Name) (l : Loc) : Prop := ∃ n : Name, l = ⟨stagePath nm, .nominal n⟩ ∨ l = ⟨unitPath nm, .nominal n⟩

theorem OwnedBy.inStage {nm : Name} {ns : List Name} {ls : List Loc} (h : OwnedBy H (stagePath nm) C ns ls) (hC : ∀ n l, C n l → InStage nm l) : ls.Nodup ∧ ∀ l ∈ ls, InStage nm l := by
  refine ⟨h.1, fun l hl => ?_⟩
  obtain ⟨n, _, h | h | h⟩ := h.2 l hl
  · exact ⟨_, .inl h⟩
  · exact ⟨_, .inl h⟩
  · exact hC n l h

theorem filtAlloc {nm : Name} {t : AT X} (pred : X → Bool) (h : ((nms t).map Name.sym).Nodup) :
    ((aUp H (annFilt (R := R) H (unitPath nm) pred) (stagePath nm) t).2.map Prod.fst).Nodup ∧
      ∀ l ∈ (aUp H (annFilt (R := R) H (unitPath nm) pred) (stagePath nm) t).2.map Prod.fst, InStage nm l :=
  (aUp_owned (sepFilt nm) (fun n x a b => filtCells nm n pred x a b) t h fun _ _ => trivial).inStage
    fun n l h => by rcases h with h | h <;> exact ⟨_, .inr h⟩

theorem lastAlloc {nm : Name} {lim : Option Nat} {t : AT X} (h : GoodTree (opAt nm) (nms t)) :
    ((aLast H fs nm lim t (opAt nm)).2.map Prod.fst).Nodup ∧ ∀ l ∈ (aLast H fs nm lim t (opAt nm)).2.map Prod.fst, InStage nm l := by
  have hF : ∀ (n : Name) (l : Loc), False → InStage nm l := fun _ _ h => h.elim
  have hL : ∀ (n : Name) (l : Loc), l = ⟨stagePath nm, .nominal n⟩ → InStage nm l := fun n l h => ⟨n, .inl h⟩
  rcases hop : opAt nm with i | ⟨dir, i⟩ | ⟨o, i⟩ | dir | i | i <;> rw [hop] at h
  · exact (aUp_owned sepPure (G := (fs.up i).ann) (fun n x a b => cellsNil) t h.1 fun _ _ => trivial).inStage hF
  · exact (aSeq_owned sepPure (G := (fs.seq i).ann) (fun n x a => cellsNil) t _ h.1 fun _ _ => trivial).inStage hF
  · exact (aNm_owned sepPure (G := (fs.nm i).ann) (fun o n x a b => cellsNil) t _ h.1 fun _ _ => trivial).inStage hF
  · exact (aSeq_owned (sepList nm) (fun n x a => listCells nm n x a) t _ h.1 (h.2 rfl)).inStage hL
  · exact (aSeq_owned (sepList nm) (fun n x a => filtListCells nm n (fs.pred i) x a) t _ h.1 (h.2 rfl)).inStage hL
  · exact filtAlloc _ h.1

theorem aChain_alloc {last : Name} {lim : Option Nat} {filters : List Name} : ∀ t : AT X, (filters ++ [last]).Nodup → GoodTree (opAt last) (nms t) →
    ((aChain H opAt fs last lim filters t).2.1.map Prod.fst).Nodup ∧ ∀ l ∈ (aChain H opAt fs last lim filters t).2.1.map Prod.fst, ∃ nm ∈ filters ++ [last], InStage nm l := by
  induction filters with
  | nil =>
    intro t _ hg
    obtain ⟨h1, h2⟩ := lastAlloc (H := H) (fs := fs) (lim := lim) hg
    exact ⟨h1, fun l hl => ⟨last, List.mem_cons_self .., h2 l hl⟩⟩
  | cons nm nms ih =>
    intro t hn hg
    rw [List.cons_append, List.nodup_cons] at hn
    obtain ⟨a1, a2⟩ := filtAlloc (R := R) (H := H) (nm := nm) (fs.pred (opAt nm).idx) hg.1
    obtain ⟨b1, b2⟩ := ih (aUp H (annFilt (R := R) H (unitPath nm) (fs.pred (opAt nm).idx)) (stagePath nm) t).1 hn.2 (hg.filter _ _ _)
    simp only [aChain, List.map_append]
    refine ⟨List.nodup_append.2 ⟨a1, b1, ?_⟩, ?_⟩
    · rintro l hl _ hl' rfl
      obtain ⟨k, hk⟩ := a2 l hl
      obtain ⟨nm', hnm', k', hk'⟩ := b2 l hl'
      have : nm = nm' := by
        rcases hk with rfl | rfl <;> rcases hk' with hk' | hk' <;> have := congrArg Loc.path hk' <;> simp [unitPath, stagePath, rootPath] at this <;> exact this
      exact hn.1 (this ▸ hnm')
    · intro l hl
      rcases List.mem_append.1 hl with hl | hl
      · exact ⟨nm, List.mem_cons_self .., a2 l hl⟩
      · obtain ⟨nm', h1, h2⟩ := b2 l hl
        exact ⟨nm', List.mem_cons_of_mem _ h1, h2⟩

/-! ### What is returned -/

theorem vec_limited (l : Lst X) (lim : Option Nat) : Coll.vecOfList l lim = ListProg.limited lim l.items := by
  have h := Coll.vec_of_list_items l
  rcases lim with _ | _ | k
  · exact h.1
  · exact Coll.list_demand_zero l
  · exact h.2 (k + 1) (by omega)

theorem aLast_spec {nm : Name} {lim : Option Nat} {t : AT X} {op : Op} (hf : op.isFilt = false) : (aLast H fs nm lim t op).1 = specLast fs lim t.erase op := by
  rcases op with i | ⟨dir, i⟩ | ⟨o, i⟩ | dir | i | i
  · exact congrArg CV.res (aUp_pure t)
  · exact congrArg CV.res (aSeq_pure t _)
  · exact congrArg CV.res (aNm_pure t o)
  · refine congrArg CV.vec ?_
    rw [listOf_model, vec_limited]
    have := Coll.list_of_tree_items t.erase
    cases dir
    · exact congrArg _ this.1
    · exact congrArg _ this.2
  · refine congrArg CV.vec ?_
    rw [filtList_model, vec_limited]
    rfl
  · cases hf

theorem aChain_spec {last : Name} {lim : Option Nat} {filters : List Name} (hf : (opAt last).isFilt = false) : ∀ t : AT X,
    (aChain H opAt fs last lim filters t).1 = specLast fs lim (specFilters H opAt fs filters t.erase) (opAt last) := by
  induction filters with
  | nil => intro t; exact aLast_spec hf
  | cons nm nms ih =>
    intro t
    simp only [aChain]
    rw [ih, filt_model]
    rfl

/-! ### The session -/

/-- The articulations of the tree are cells of the editor. -/
def LiveC (cs : Cells (CV X R)) : AT X → Prop
  | .nil => True
  | .leaf _ => True
  | .bin _ l r => LiveC cs l ∧ LiveC cs r
  | .name _ _ l r => LiveC cs l ∧ LiveC cs r
  | .art a t => (∃ n, a = cellAt n ∧ cs n = some (.tree t.val)) ∧ LiveC cs t

theorem sig_cellAt (n : Name) : sigF opAt (cellAt n) = .cell tyT := rfl

theorem LiveC.live {cs : Cells (CV X R)} {t : AT X} (h : LiveC cs t) (hcs : ∀ n v, cs n = some v → σ (cellAt n) = some v) : LiveT opAt σ t := by
  induction t with
  | nil => trivial
  | leaf x => trivial
  | bin x l r ihl ihr => exact ⟨ihl h.1, ihr h.2⟩
  | name n x l r ihl ihr => exact ⟨ihl h.1, ihr h.2⟩
  | art a t ih =>
    obtain ⟨⟨n, rfl, h1⟩, h2⟩ := h
    exact ⟨sig_cellAt n, hcs _ _ h1, ih h2⟩
theorem LiveC.ext {cs cs' : Cells (CV X R)} {t : AT X} (h : LiveC cs t) (he : ∀ n v, cs n = some v → cs' n = some v) : LiveC cs' t := by
  induction t with
  | nil => trivial
  | leaf x => trivial
  | bin x l r ihl ihr => exact ⟨ihl h.1, ihr h.2⟩
  | name n x l r ihl ihr => exact ⟨ihl h.1, ihr h.2⟩
  | art a t ih =>
    obtain ⟨⟨n, rfl, h1⟩, h2⟩ := h
    exact ⟨⟨n, rfl, he _ _ h1⟩, ih h2⟩
theorem LiveC.unique {cs : Cells (CV X R)} {t : AT X} : ∀ {t' : AT X}, LiveC cs t → LiveC cs t' → t.val = t'.val → t = t' := by
  induction t with
  | nil => intro t' _ _ e; cases t' <;> simp [AT.val] at e ⊢
  | leaf x => intro t' _ _ e; cases t' <;> simp [AT.val] at e ⊢; exact e
  | bin x l r ihl ihr =>
    intro t' h h' e
    cases t' <;> simp [AT.val] at e
    rename_i y l' r'
    obtain ⟨rfl, e1, e2⟩ := e
    rw [ihl h.1 (t' := l') h'.1 e1, ihr h.2 (t' := r') h'.2 e2]
  | name n x l r ihl ihr =>
    intro t' h h' e
    cases t' <;> simp [AT.val] at e
    rename_i m y l' r'
    obtain ⟨rfl, rfl, e1, e2⟩ := e
    rw [ihl h.1 (t' := l') h'.1 e1, ihr h.2 (t' := r') h'.2 e2]
  | art a t ih =>
    intro t' h h' e
    cases t' <;> simp [AT.val] at e
    rename_i a' t'
    subst e
    obtain ⟨⟨n, rfl, h1⟩, h2⟩ := h
    obtain ⟨⟨n', e', h1'⟩, h2'⟩ := h'
    have : n = n' := by simpa [cellAt] using e'
    subst this
    rw [h1] at h1'
    injection h1' with h1'
    injection h1' with h1'
    rw [ih h2 h2' h1']

theorem Unfolds.annot {cs : Cells (CV X R)} {v : TV X} {t : Tree X} (h : Unfolds cs v t) : ∃ a : AT X, a.val = v ∧ a.erase = t ∧ LiveC cs a := by
  induction h with
  | nil => exact ⟨.nil, rfl, rfl, trivial⟩
  | leaf => exact ⟨.leaf _, rfl, rfl, trivial⟩
  | bin _ _ ihl ihr => obtain ⟨a, rfl, rfl, a3⟩ := ihl; obtain ⟨b, rfl, rfl, b3⟩ := ihr; exact ⟨.bin _ a b, rfl, rfl, a3, b3⟩
  | name _ _ ihl ihr => obtain ⟨a, rfl, rfl, a3⟩ := ihl; obtain ⟨b, rfl, rfl, b3⟩ := ihr; exact ⟨.name _ _ a b, rfl, rfl, a3, b3⟩
  | @art n v t hn _ ih =>
    obtain ⟨a, rfl, rfl, a3⟩ := ih
    exact ⟨.art (cellAt n) a, rfl, rfl, ⟨n, rfl, hn⟩, a3⟩

/-- The program as one that the editor demands. -/
def theRoot (H : NameHash) (opAt : Name → Op) (fs : Fns X R) (hv : CV X R → UInt64) (ha : ProgPt → CV X R → UInt64) (rn : Name) : EditSession.Root (CV X R) where
  sig := sigF opAt
  env := env H opAt fs hv ha
  ns := rootNm
  rn := rn
  ty := tyV
  pp := ppRoot
  fn := fRoot
  cty := tyT
  D := List Name × Name × AT X × Option Nat
  arg d := .root d.1 d.2.1 d.2.2.1.val d.2.2.2
  res d := (aChain H opAt fs d.2.1 d.2.2.2 d.1 d.2.2.1).1
  rank d := (aChain H opAt fs d.2.1 d.2.2.2 d.1 d.2.2.1).2.2
  allocs d := (aChain H opAt fs d.2.1 d.2.2.2 d.1 d.2.2.1).2.1
  ok cs d := LiveC cs d.2.2.1 ∧ GoodTree (opAt d.2.1) (nms d.2.2.1) ∧ GoodStages opAt d.1 d.2.1

theorem lawful (rn : Name) : (theRoot H opAt fs hv ha rn).Lawful where
  mode := ⟨rfl, fun _ => rfl⟩
  sig_root := rfl
  sig_cell := sig_cellAt
  ext cs cs' d h hok := ⟨LiveC.ext hok.1 h, hok.2⟩
  unique cs d d' h h' e := by
    obtain ⟨f, l, t, k⟩ := d
    obtain ⟨f', l', t', k'⟩ := d'
    injection e with e1 e2 e3 e4
    have e1 : f = f' := e1
    have e2 : l = l' := e2
    have e3 : t.val = t'.val := e3
    have e4 : k = k' := e4
    subst e1; subst e2; subst e4
    have h1 : LiveC cs t := h.1
    rw [h1.unique h'.1 e3]
  nodup cs d h := (aChain_alloc d.2.2.1 h.2.2.1 h.2.1).1
  away cs d h x hx := by
    obtain ⟨nm, _, n, e⟩ := (aChain_alloc (H := H) (fs := fs) (lim := d.2.2.2) d.2.2.1 h.2.2.1 h.2.1).2 x.1 (List.mem_map_of_mem hx)
    rcases e with e | e <;> rw [e]
    · refine ⟨by simp [stagePath], fun e => ?_, rfl⟩
      have := congrArg Loc.path e
      simp [stagePath, EditSession.Root.loc, rootPath] at this
    · refine ⟨by simp [unitPath], fun e => ?_, rfl⟩
      have := congrArg Loc.path e
      simp [unitPath, stagePath, EditSession.Root.loc, rootPath] at this
  conv cs d h W σ hcs hal hb hrt := by
    refine chainOk rfl d.2.2.1 _ σ h.2.2.2.1 h.2.2.2.2 ?_ (List.mem_cons_self ..) hb (LiveC.live h.1 hcs) h.2.1 hal
    intro a ha
    rcases List.mem_cons.1 ha with rfl | ha
    · exact ⟨_, _, hrt, Nat.le_refl _⟩
    · cases ha

theorem demands {rn : Name} {ss : List (Step X R)} : ∀ {cs : Cells (CV X R)} {ds : List (Dem X)}, Demands opAt cs ss ds →
    ∃ es, (theRoot H opAt fs hv ha rn).Demands cs (ss.map fun s => ⟨s.edits, .root s.filters s.last s.tree s.limit⟩) es ∧
      es.map (theRoot H opAt fs hv ha rn).res = ds.map (Dem.result H opAt fs) := by
  induction ss with
  | nil => intro cs ls h; cases h; exact ⟨[], .nil, rfl⟩
  | cons s ss ih =>
    intro cs ls h
    cases h with
    | cons h1 h2 h3 h4 h5 =>
      obtain ⟨ds, d1, d2⟩ := ih h5
      obtain ⟨a, a1, rfl, a3⟩ := h2.annot
      refine ⟨(s.filters, s.last, a, s.limit) :: ds, .cons h1 ⟨a3, h3, h4⟩ ?_ d1, ?_⟩
      · show CV.root s.filters s.last a.val s.limit = _
        rw [a1]
      · exact congr (congrArg List.cons (aChain_spec h4.2.2 a)) d2

/-- The sessions have a meaning. -/
theorem fold_session_means (rn : Name) (ss : List (Step X R)) (ds : List (Dem X)) (h : Demands opAt (fun _ => none) ss ds) :
    Means (sigF opAt) (env H opAt fs hv ha) (ss.map (stepProg rn)) (ds.map (Dem.result H opAt fs)) := by
  obtain ⟨es, d1, d2⟩ := demands (H := H) (fs := fs) (hv := hv) (ha := ha) (rn := rn) h
  have := EditSession.means (lawful rn) _ es d1
  rw [d2, List.map_map] at this
  exact this

/-- **C76.** The tree folds of the catalog on the engine.  The editor edits cells that hold trees, in any way, and demands, again and again, a fold of
`filter_tree_of_tree(… filter_tree_of_tree(t, p_1) …, p_k)`, where the fold is `tree_fold_up`, `tree_fold_seq` (in either direction) or `tree_fold_up_nm_dn` with any pure functions, or
`list_of_tree` or `filter_list_of_tree` followed by `vec_of_list`; each stage is in a namespace of its own.  If at each demand the articulations of the tree can be followed to the end,
and the names in it are distinct (and none is made by `name_fork`, if the last stage makes a list), then the engine terminates without panic, and returns the fold of the tree as it is then. -/
theorem C76_fold_session (rn : Name) (ss : List (Step X R)) (ds : List (Dem X)) (h : Demands opAt (fun _ => none) ss ds) (purity : Bool) :
    (∃ N s', ∀ n, N ≤ n → runSession (env H opAt fs hv ha) n (ss.map (stepProg rn)) (initSt purity false) = .ok (ds.map (Dem.result H opAt fs)) s') ∧
    (∀ n err s', runSession (env H opAt fs hv ha) n (ss.map (stepProg rn)) (initSt purity false) ≠ .panic err s') ∧
    ∀ n vs' s', runSession (env H opAt fs hv ha) n (ss.map (stepProg rn)) (initSt purity false) = .ok vs' s' → vs' = ds.map (Dem.result H opAt fs) := by
  have hm := fold_session_means (H := H) (fs := fs) (hv := hv) (ha := ha) rn ss ds h
  refine ⟨?_, ?_, ?_⟩
  · exact (C02_terminates_without_panic (sigF opAt) (env H opAt fs hv ha) _ _ hm purity fun _ => rfl).1
  · exact (C02_terminates_without_panic (sigF opAt) (env H opAt fs hv ha) _ _ hm purity fun _ => rfl).2
  · intro n vs' s' he
    exact C01_from_scratch_consistency (sigF opAt) (env H opAt fs hv ha) _ _ hm purity (fun _ => rfl) n vs' s' he

/-! ### What the results are, in terms of the leaves of the tree -/

/-- What the filters keep. -/
def keeps (opAt : Name → Op) (fs : Fns X R) (filters : List Name) (x : X) : Bool := filters.all fun nm => fs.pred (opAt nm).idx x

theorem specFilters_leaves (filters : List Name) : ∀ t : Tree X, (specFilters H opAt fs filters t).leaves = t.leaves.filter (keeps opAt fs filters) := by
  induction filters with
  | nil =>
    intro t
    exact (List.filter_eq_self.2 fun _ _ => rfl).symm
  | cons nm nms ih =>
    intro t
    show (specFilters H opAt fs nms (Coll.filterTreeOfTree H t (fs.pred (opAt nm).idx))).leaves = _
    rw [ih, Coll.filter_tree_leaves, List.filter_filter]
    congr 1
    funext x
    simp [keeps, Bool.and_comm]

theorem elmsOf_rev (s : List (NameElse X)) : elmsOf s.reverse = (elmsOf s).reverse := by
  induction s with
  | nil => rfl
  | cons x s ih => cases x <;> simp [elmsOf, ih]

/-- What `monoid_of_tree` passes to `tree_fold_up`, 792-810. -/
def monoidFns (e : X) (op : X → X → X) : PureUp X X := ⟨e, id, fun _ a b => op a b, fun _ _ a b => op a b⟩

/-- The results of C76 in terms of the leaves of the tree: `monoid_of_tree` with a monoid returns the sum of the leaves that the filters keep; `list_of_tree` returns them, in the
order of the direction, with the names among them; `filter_list_of_tree` returns those that its predicate also keeps. -/
theorem C76_results (d : Dem X) :
    (∀ (fs : Fns X X) (e : X) (op : X → X → X) (i : Nat), opAt d.last = .up i → fs.up i = monoidFns e op → (∀ a b c, op (op a b) c = op a (op b c)) → (∀ a, op e a = a) →
      (∀ a, op a e = a) → d.result H opAt fs = .res ((d.tree.leaves.filter (keeps opAt fs d.filters)).foldr op e)) ∧
    (∀ fs : Fns X R, opAt d.last = .listOf .left → d.limit = none → ∃ items, d.result H opAt fs = .vec items ∧ elmsOf items = d.tree.leaves.filter (keeps opAt fs d.filters)) ∧
    (∀ fs : Fns X R, opAt d.last = .listOf .right → d.limit = none →
      ∃ items, d.result H opAt fs = .vec items ∧ elmsOf items = (d.tree.leaves.filter (keeps opAt fs d.filters)).reverse) ∧
    (∀ fs : Fns X R, ∀ i, opAt d.last = .filtList i → d.limit = none →
      ∃ items, d.result H opAt fs = .vec items ∧ elmsOf items = (d.tree.leaves.filter (keeps opAt fs d.filters)).filter (fs.pred i)) := by
  refine ⟨?_, ?_, ?_, ?_⟩
  · intro fs e op i ho hf ha hl hr
    unfold Dem.result
    rw [ho, ← specFilters_leaves (H := H)]
    show CV.res (Coll.treeFoldUp (fs.up i).nil (fs.up i).leaf (fs.up i).bin (fs.up i).name _) = _
    rw [hf]
    exact congrArg CV.res (Coll.monoid_of_tree_eq _ e op ha hl hr)
  · intro fs ho hlim
    unfold Dem.result
    rw [ho, hlim, ← specFilters_leaves (H := H)]
    exact ⟨_, rfl, rfl⟩
  · intro fs ho hlim
    unfold Dem.result
    rw [ho, hlim, ← specFilters_leaves (H := H)]
    exact ⟨_, rfl, elmsOf_rev _⟩
  · intro fs i ho hlim
    unfold Dem.result
    rw [ho, hlim, ← specFilters_leaves (H := H)]
    refine ⟨_, rfl, ?_⟩
    show elmsOf (Coll.filterListOfTree _ _).items = _
    rw [Coll.filter_list_of_tree_items]
    generalize (specFilters H opAt fs d.filters d.tree).leaves.filter (fs.pred i) = xs
    induction xs with
    | nil =>
      simp only [List.map_nil, List.nil_append]
      generalize Coll.trailingNames _ _ = ns
      induction ns with
      | nil => rfl
      | cons n ns ih => exact ih
    | cons x xs ih => exact congrArg (List.cons x) ih

end Adapton.FoldProg

/-! ### A session that meets the hypotheses

The tree `⟨name 1⟩([cell 10], 4)`, of which the cells are edited between demands; the stages change too. -/
namespace Adapton.FoldProg.Example76
open Coll (Tree NameElse Dir2)
open SortProg (TV)
open EditSession (cellAt)
def H : NameHash := ⟨fun a b => a + 3 * b, fun n => n.toUInt64, fun _ => 0, fun _ => 7, fun h i => 5 * h + i.toUInt64⟩
def nm (n : Nat) : Name := nameOfUsize H n
/-- Sums; a sequence of digits; the number of leaves whose name is known; the odd numbers; the numbers below 8. -/
def fs : Fns Nat Nat where
  up _ := monoidFns 0 (· + ·)
  seq _ := ⟨0, fun x r => 10 * r + x, fun _ r => r, fun _ _ r => r⟩
  nm _ := ⟨fun _ => 0, fun o _ => if o.isSome then 1 else 0, fun _ _ a b => a + b, fun _ _ _ a b => a + b⟩
  pred i x := if i = 0 then x % 2 = 1 else x < 8
/-- The namespaces of the stages. -/
def opAt (n : Name) : Op :=
  if n = nm 20 then .up 0 else if n = nm 21 then .seq .left 0 else if n = nm 22 then .seq .right 0 else if n = nm 23 then .nm none 0 else if n = nm 24 then .listOf .left
  else if n = nm 25 then .listOf .right else if n = nm 26 then .filtList 0 else if n = nm 27 then .filt 0 else .filt 1
def theTree : TV Nat := .name (nm 1) 3 (.art (cellAt (nm 10))) (.leaf 4)
def t1 : Tree Nat := .name (nm 1) 3 (.art (.bin 2 (.leaf 3) (.name (nm 2) 1 (.art (.leaf 7)) (.leaf 9)))) (.leaf 4)
def t2 : Tree Nat := .name (nm 1) 3 (.art (.bin 2 (.leaf 3) (.name (nm 2) 1 (.art (.leaf 8)) (.leaf 9)))) (.leaf 4)
def t3 : Tree Nat := .name (nm 1) 3 (.art (.name (nm 3) 1 (.leaf 5) (.art (.leaf 8)))) (.leaf 4)
def s1 (es : List (EditSession.Edit (CV Nat Nat))) (filters : List Nat) (last : Nat) : Step Nat Nat := ⟨es, filters.map nm, nm last, theTree, none⟩
def steps : List (Step Nat Nat) :=
  [s1 [.cell (nm 11) (.tree (.leaf 7)), .cell (nm 10) (.tree (.bin 2 (.leaf 3) (.name (nm 2) 1 (.art (cellAt (nm 11))) (.leaf 9))))] [] 20,
   s1 [.set (nm 11) (.tree (.leaf 8))] [] 20, s1 [] [28, 27] 20, s1 [] [28] 21, s1 [] [] 22, s1 [] [28] 23,
   s1 [] [] 24, s1 [] [] 25, s1 [] [28] 26,
   s1 [.set (nm 10) (.tree (.name (nm 3) 1 (.leaf 5) (.art (cellAt (nm 11)))))] [28] 26, s1 [] [] 24, s1 [] [27] 20]
def dems : List (Dem Nat) :=
  [⟨[], nm 20, t1, none⟩, ⟨[], nm 20, t2, none⟩, ⟨[nm 28, nm 27], nm 20, t2, none⟩, ⟨[nm 28], nm 21, t2, none⟩, ⟨[], nm 22, t2, none⟩, ⟨[nm 28], nm 23, t2, none⟩,
   ⟨[], nm 24, t2, none⟩, ⟨[], nm 25, t2, none⟩, ⟨[nm 28], nm 26, t2, none⟩, ⟨[nm 28], nm 26, t3, none⟩, ⟨[], nm 24, t3, none⟩, ⟨[nm 27], nm 20, t3, none⟩]

theorem meets : Demands opAt (fun _ => none) steps dems := by
  refine .cons rfl (.name (.art rfl (.bin .leaf (.name (.art rfl .leaf) .leaf))) .leaf) ⟨by decide, by decide⟩ ⟨by decide, by decide, by decide⟩ ?_
  iterate 8 refine .cons rfl (.name (.art rfl (.bin .leaf (.name (.art rfl .leaf) .leaf))) .leaf) ⟨by decide, by decide⟩ ⟨by decide, by decide, by decide⟩ ?_
  iterate 3 refine .cons rfl (.name (.art rfl (.name .leaf (.art rfl .leaf))) .leaf) ⟨by decide, by decide⟩ ⟨by decide, by decide, by decide⟩ ?_
  exact .nil

def nums : CV Nat Nat → List Nat
  | .vec v => Coll.elmsOf v
  | .res r => [r]
  | _ => []

example : (match runSession (env H opAt fs (fun _ => 0) (fun _ _ => 0)) 60 (steps.map (stepProg (nm 0))) (initSt true false) with
    | .ok vs _ => vs.map nums
    | _ => []) = [[23], [24], [3], [34], [4983], [1], [3, 8, 9, 4], [4, 9, 8, 3], [3], [5], [5, 8, 4], [5]] := by decide +kernel

def panicOf (ps : List (Prog (CV Nat Nat))) : Option Err :=
  match runSession (env H opAt fs (fun _ => 0) (fun _ _ => 0)) 60 ps (initSt true false) with
  | .panic e _ => some e
  | _ => none


def outOf (ps : List (Prog (CV Nat Nat))) : List (List Nat) :=
  match runSession (env H opAt fs (fun _ => 0) (fun _ _ => 0)) 60 ps (initSt true false) with
  | .ok vs _ => vs.map nums
  | _ => []

/-- The names must be distinct: on the tree `⟨name 1⟩(⟨name 1⟩(1, 2), 4)` the sum of the leaves panics; -/
theorem C76_repeated_name_panics :
    panicOf [stepProg (nm 0) ⟨[], [], nm 20, .name (nm 1) 3 (.name (nm 1) 2 (.leaf 1) (.leaf 2)) (.leaf 4), none⟩] = some .unexpectedCycle := by decide +kernel
/-- the stages must be in different namespaces: filtering twice in the same one allocates the same thunk twice; -/
theorem C76_repeated_stage_panics :
    panicOf [stepProg (nm 0) ⟨[], [nm 27, nm 27], nm 20, .name (nm 1) 3 (.name (nm 2) 2 (.leaf 1) (.leaf 3)) (.leaf 5), none⟩] = some .dupMiss := by decide +kernel
/-- and if the last stage makes a list, no name may be made by `name_fork`: on the tree `⟨name 1⟩(⟨fork of name 1⟩(1, 2), 4)`, of which the names are distinct, `list_of_tree` loses a leaf, because
its cell for the inner name is where the thunk for the left subtree of the outer name is. -/
theorem C76_fork_name_loses_leaf :
    outOf [stepProg (nm 0) ⟨[], [], nm 24, .name (nm 1) 3 (.name (nameFork H (nm 1)).1 2 (.leaf 1) (.leaf 2)) (.leaf 4), none⟩] = [[1, 4]] ∧
    Coll.elmsOf (Tree.name (nm 1) 3 (.name (nameFork H (nm 1)).1 2 (.leaf 1) (.leaf 2)) (.leaf 4)).items = [1, 2, 4] := by decide +kernel

end Adapton.FoldProg.Example76
