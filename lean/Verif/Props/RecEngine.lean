import Verif.Engine.EditSession
import Verif.Catalog.RecProg
import Verif.Props.TreeEngine
import Verif.Props.Dirtying
/-
C89: the level trees of the documentation ("Incremental sequences"), and their folds, on the engine.
-/
set_option linter.unusedSectionVars false
set_option linter.unusedVariables false
namespace Adapton.RecProg
open Ref (Sig Kind Store Ctx Ext ES Means alloc)
open EditSession (World Below AncOk alloc_below Cells Edit applyAll cellAt)
variable {X R : Type} [DecidableEq X] [DecidableEq R] (H : NameHash)

/-! ### The specification -/

/-- Level trees, articulations replaced by what they hold. -/
inductive LTree (X : Type) where
  | leaf (elms : List X)
  | bin (level : Nat) (l r : LTree X)
  | name (level : Nat) (n : Name) (t : LTree X)
  | art (t : LTree X)

/-- The tree `t` is what the value `v` stands for: the articulations in it are cells of the editor, and are replaced by what they hold. -/
inductive Unfolds (cs : Cells (CV X R)) : RecV X → LTree X → Prop
  | leaf {xs} : Unfolds cs (.leaf xs) (.leaf xs)
  | bin {k l r l' r'} : Unfolds cs l l' → Unfolds cs r r' → Unfolds cs (.bin k l r) (.bin k l' r')
  | name {k n t t'} : Unfolds cs t t' → Unfolds cs (.name k n t) (.name k n t')
  | art {n v t} : cs n = some (.tree v) → Unfolds cs v t → Unfolds cs (.art (cellAt n)) (.art t)

/-- The elements of a tree, from left to right. -/
def LTree.elems : LTree X → List X
  | .leaf xs => xs
  | .bin _ l r => l.elems ++ r.elems
  | .name _ _ t => t.elems
  | .art t => t.elems

/-- The fold, without articulations and names; `n` is the name found above. -/
def LTree.foldUp (fs : Fns X R) : Option Name → LTree X → R
  | _, .leaf xs => fs.leaf xs
  | n, .bin k l r => fs.namebin n k (fs.art (l.foldUp fs none)) (fs.art (r.foldUp fs none))
  | _, .name _ m t => t.foldUp fs (some m)
  | n, .art t => t.foldUp fs n

/-- The names of the binary nodes: the name just above, possibly with articulations between; `none` if there is none. -/
def LTree.binNames : Option Name → LTree X → List (Option Name)
  | _, .leaf _ => []
  | n, .bin _ l r => n :: (l.binNames none ++ r.binNames none)
  | _, .name _ m t => t.binNames (some m)
  | n, .art t => t.binNames n

/-- Each binary node has a name of its own. -/
def LTree.WellNamed (t : LTree X) : Prop := (∀ o ∈ t.binNames none, o ≠ none) ∧ ((t.binNames none).map (Option.map Name.sym)).Nodup

/-- A step of the session: some edits, then a demand of the fold, in the namespace `nm`. -/
structure Step (X R : Type) where
  edits : List (Edit (CV X R))
  nm : Name
  tree : RecV X

/-- What is demanded in a session. -/
inductive Demands : Cells (CV X R) → List (Step X R) → List (Name × LTree X) → Prop
  | nil {cs} : Demands cs [] []
  | cons {cs cs' s ss t ds} : applyAll cs s.edits = some cs' → Unfolds cs' s.tree t → t.WellNamed → Demands cs' ss ds → Demands cs (s :: ss) ((s.nm, t) :: ds)

/-- The namespace of the program. -/
def rootNm : Name := ⟨0, .str "rec"⟩

/-- The code of the editor for one step: the edits, and then `ns("rec", || get!(thunk!([Some(rn)]? { … })))`. -/
def stepProg (rn : Name) (s : Step X R) : Prog (CV X R) :=
  EditSession.editProg tyT s.edits <|
    .ns rootNm (.thunk tyR (.nominal rn) ppMain fMain (.root s.nm s.tree) fun l => .force tyR l none .ret) .ret

/-! ### The signature -/

def rootPath : Path := .child .empty rootNm
def stagePath (nm : Name) : Path := .child rootPath nm

def sigKind (opAt : Name → Nat) (l : Loc) : Kind :=
  match l.path with
  | .empty => .cell tyT
  | .child _ nm => if l.path = rootPath then .thunk tyR ppMain fMain else .thunk tyR ppFold (fFold (opAt nm))

def sigR (opAt : Name → Nat) : Sig := { kind := sigKind opAt }

variable {H} {opAt : Name → Nat} {fs : Nat → Fns X R}

theorem sig_stage (nm : Name) (id : ArtId) : sigR opAt ⟨stagePath nm, id⟩ = .thunk tyR ppFold (fFold (opAt nm)) := by
  have h : stagePath nm ≠ rootPath := by simp [stagePath, rootPath]
  show sigKind opAt ⟨stagePath nm, id⟩ = _
  unfold sigKind
  show (if stagePath nm = rootPath then _ else Kind.thunk tyR ppFold (fFold (opAt nm))) = _
  rw [if_neg h]

/-! ### Trees with their articulations -/

/-- A tree, of which the articulations have both a location and what is in it. -/
inductive ATr (X : Type) where
  | leaf (elms : List X)
  | bin (level : Nat) (l r : ATr X)
  | name (level : Nat) (n : Name) (t : ATr X)
  | art (a : Loc) (t : ATr X)

namespace ATr
def val : ATr X → RecV X
  | .leaf xs => .leaf xs
  | .bin k l r => .bin k l.val r.val
  | .name k n t => .name k n t.val
  | .art a _ => .art a
def erase : ATr X → LTree X
  | .leaf xs => .leaf xs
  | .bin k l r => .bin k l.erase r.erase
  | .name k n t => .name k n t.erase
  | .art _ t => .art t.erase
/-- The nesting of the thunks. -/
def ht : ATr X → Nat
  | .leaf _ => 0
  | .bin _ l r => max l.ht r.ht + 1
  | .name _ _ t => t.ht
  | .art _ t => t.ht
end ATr

/-- Code of the program. -/
abbrev CP (H : NameHash) (opAt : Name → Nat) (fs : Nat → Fns X R) (hv : CV X R → UInt64) (ha : ProgPt → CV X R → UInt64) (c : Ctx) (π : Path) (p : Prog (CV X R)) (σ : Store (CV X R))
    (Q : Store (CV X R) → CV X R → Prop) : Prop := Conv (sigR opAt) (env H opAt fs hv ha) c π p σ Q

variable {hv : CV X R → UInt64} {ha : ProgPt → CV X R → UInt64} {W : World (CV X R)} {σ σ' : Store (CV X R)}

/-- The articulations of the tree can be followed: they are cells. -/
def Live (opAt : Name → Nat) (σ : Store (CV X R)) : ATr X → Prop
  | .leaf _ => True
  | .bin _ l r => Live opAt σ l ∧ Live opAt σ r
  | .name _ _ t => Live opAt σ t
  | .art a t => (sigR opAt a = .cell tyT ∧ σ a = some (.tree t.val)) ∧ Live opAt σ t

theorem Live.ext {t : ATr X} (h : Live opAt σ t) (he : Ext σ σ') : Live opAt σ' t := by
  induction t with
  | leaf xs => trivial
  | bin k l r ihl ihr => exact ⟨ihl h.1, ihr h.2⟩
  | name k n t ih => exact ih h
  | art a t ih => exact ⟨⟨h.1.1, he _ _ h.1.2⟩, ih h.2⟩

/-- What has been allocated, with ranks. -/
abbrev Allocs (X R : Type) := List (Loc × CV X R × Nat)

/-- What the fold allocates, in the namespace `p`. -/
def aFold (R : Type) (H : NameHash) (p : Path) : Option Name → ATr X → Allocs X R
  | _, .leaf _ => []
  | some n, .bin _ l r =>
    (⟨p, .nominal (nameFork H n).1⟩, .args l.val none, l.ht + 1) :: (⟨p, .nominal (nameFork H n).2⟩, .args r.val none, r.ht + 1) :: (aFold R H p none l ++ aFold R H p none r)
  | none, .bin _ _ _ => []
  | _, .name _ m t => aFold R H p (some m) t
  | n, .art _ t => aFold R H p n t

/-- The locations of the two thunks of a binary node. -/
def two (H : NameHash) (p : Path) : Option Name → List Loc
  | none => []
  | some n => [⟨p, .nominal (nameFork H n).1⟩, ⟨p, .nominal (nameFork H n).2⟩]

theorem aFold_locs {p : Path} (t : ATr X) : ∀ o : Option Name, ∀ l ∈ (aFold R H p o t).map Prod.fst, l ∈ (t.erase.binNames o).flatMap (two H p) := by
  induction t with
  | leaf xs => intro o l hl; cases o <;> exact hl
  | bin k l r ihl ihr =>
    intro o x hx
    cases o with
    | none => cases hx
    | some n =>
      simp only [aFold, List.map_cons, List.map_append, List.mem_cons, List.mem_append] at hx
      simp only [ATr.erase, LTree.binNames, List.flatMap_cons, List.flatMap_append, List.mem_append, two, List.mem_cons]
      rcases hx with rfl | rfl | hx | hx
      · exact .inl (.inl rfl)
      · exact .inl (.inr (.inl rfl))
      · exact .inr (.inl (ihl none _ hx))
      · exact .inr (.inr (ihr none _ hx))
  | name k m t ih => intro o; cases o <;> exact ih (some m)
  | art a t ih => intro o; cases o <;> exact ih _

theorem mem_two {p : Path} {o : Option Name} {l : Loc} (h : l ∈ two H p o) : ∃ n, o = some n ∧ (l = ⟨p, .nominal (nameFork H n).1⟩ ∨ l = ⟨p, .nominal (nameFork H n).2⟩) := by
  cases o with
  | none => cases h
  | some n =>
    refine ⟨n, rfl, ?_⟩
    simpa [two] using h

/-- Where the name of the thunk is from. -/
theorem two_sym {p : Path} {o o' : Option Name} {l : Loc} (h : l ∈ two H p o) (h' : l ∈ two H p o') : o.map Name.sym = o'.map Name.sym := by
  obtain ⟨n, rfl, g⟩ := mem_two h
  obtain ⟨n', rfl, g'⟩ := mem_two h'
  rcases g with rfl | rfl <;> rcases g' with e | e <;> simp [nameFork] at e <;> simp [e.2]

theorem aFold_nodup {p : Path} (t : ATr X) : ∀ o : Option Name, ((t.erase.binNames o).map (Option.map Name.sym)).Nodup → ((aFold R H p o t).map Prod.fst).Nodup := by
  induction t with
  | leaf xs => intro o _; cases o <;> exact List.nodup_nil
  | bin k l r ihl ihr =>
    intro o h
    cases o with
    | none => exact List.nodup_nil
    | some n =>
      simp only [ATr.erase, LTree.binNames, List.map_cons, List.map_append] at h
      obtain ⟨h1, h2⟩ := List.nodup_cons.1 h
      obtain ⟨h3, h4, h5⟩ := List.nodup_append.1 h2
      have key : ∀ x ∈ two H p (some n), x ∉ (aFold R H p none l ++ aFold R H p none r).map Prod.fst := by
        intro x hx hm
        rw [List.map_append] at hm
        have : ∃ o ∈ l.erase.binNames none ++ r.erase.binNames none, x ∈ two H p o := by
          rcases List.mem_append.1 hm with hm | hm
          · obtain ⟨o, a, b⟩ := List.mem_flatMap.1 (aFold_locs l none x hm)
            exact ⟨o, List.mem_append_left _ a, b⟩
          · obtain ⟨o, a, b⟩ := List.mem_flatMap.1 (aFold_locs r none x hm)
            exact ⟨o, List.mem_append_right _ a, b⟩
        obtain ⟨o, ho, hx'⟩ := this
        apply h1
        rw [← List.map_append]
        exact List.mem_map.2 ⟨o, ho, (two_sym hx hx').symm⟩
      simp only [aFold, List.map_cons]
      refine List.nodup_cons.2 ⟨?_, List.nodup_cons.2 ⟨key _ (by simp [two]), ?_⟩⟩
      · intro hm
        rcases List.mem_cons.1 hm with e | hm
        · simp [nameFork] at e
        · exact key _ (by simp [two]) hm
      · rw [List.map_append]
        refine List.nodup_append.2 ⟨ihl none h3, ihr none h4, ?_⟩
        rintro x hx _ hx' rfl
        obtain ⟨o, a, b⟩ := List.mem_flatMap.1 (aFold_locs l none x hx)
        obtain ⟨o', a', b'⟩ := List.mem_flatMap.1 (aFold_locs r none x hx')
        exact h5 _ (List.mem_map_of_mem a) _ (List.mem_map_of_mem a') (two_sym b b')
  | name k m t ih => intro o h; cases o <;> exact ih (some m) h
  | art a t ih => intro o h; cases o <;> exact ih _ h

theorem foldOk {nm : Name} : ∀ (t : ATr X) (o : Option Name) (c : Ctx) (σ : Store (CV X R)), AncOk W c (t.ht + 1) → c.self ∈ c.anc →
    Below σ W → Live opAt σ t → (∀ q ∈ t.erase.binNames o, q ≠ none) → (∀ x ∈ aFold R H (stagePath nm) o t, W x.1 = some x.2) →
    CP H opAt fs hv ha c (stagePath nm) (foldUpNamebin H (fs (opAt nm)) (fFold (opAt nm)) t.val o) σ fun σ' v =>
      Ext σ σ' ∧ Below σ' W ∧ v = .res (t.erase.foldUp (fs (opAt nm)) o) := by
  have hcode : ∀ (u : RecV X) (o : Option Name), (env H opAt fs hv ha).code (fFold (opAt nm)) (.args u o) = foldUpNamebin H (fs (opAt nm)) (fFold (opAt nm)) u o := fun _ _ => rfl
  intro t
  induction t with
  | leaf xs => intro o c σ hc hs hb hl hn hal; exact Conv.ret ⟨Ext.refl _, hb, rfl⟩
  | bin k l r ihl ihr =>
    intro o c σ hc hs hb hl hn hal
    cases o with
    | none => exact absurd rfl (hn none (List.mem_cons_self ..))
    | some n =>
      have hn1 : ∀ q ∈ l.erase.binNames none, q ≠ none := fun q hq => hn q (List.mem_cons_of_mem _ (List.mem_append_left _ hq))
      have hn2 : ∀ q ∈ r.erase.binNames none, q ≠ none := fun q hq => hn q (List.mem_cons_of_mem _ (List.mem_append_right _ hq))
      have hh : (ATr.bin k l r).ht = max l.ht r.ht + 1 := rfl
      have hw1 : W ⟨stagePath nm, .nominal (nameFork H n).1⟩ = some (.args l.val none, l.ht + 1) := hal _ (List.mem_cons_self ..)
      have hw2 : W ⟨stagePath nm, .nominal (nameFork H n).2⟩ = some (.args r.val none, r.ht + 1) := hal _ (List.mem_cons_of_mem _ (List.mem_cons_self ..))
      have hal1 : ∀ x ∈ aFold R H (stagePath nm) none l, W x.1 = some x.2 := fun x hx => hal x (List.mem_cons_of_mem _ (List.mem_cons_of_mem _ (List.mem_append_left _ hx)))
      have hal2 : ∀ x ∈ aFold R H (stagePath nm) none r, W x.1 = some x.2 := fun x hx => hal x (List.mem_cons_of_mem _ (List.mem_cons_of_mem _ (List.mem_append_right _ hx)))
      obtain ⟨σ1, a1, e1, b1, g1⟩ := alloc_below hb hw1
      have hm1 : (⟨stagePath nm, .nominal (nameFork H n).1⟩ : Loc) ∉ c.anc := hc.not_mem hw1 (by omega)
      refine Conv.thunk (sig_stage nm _) (fun e => hm1 (e ▸ hs)) a1 ?_
      refine Conv.forceThunk (sig_stage nm _) hm1 g1 rfl ?_
      rw [hcode]
      refine (ihl none _ σ1 (hc.cons hw1 (by omega)) (List.mem_cons_self ..) b1 (hl.1.ext e1) hn1 hal1).mono ?_
      rintro σ2 v ⟨e2, b2, rfl⟩
      obtain ⟨σ3, a3, e3, b3, g3⟩ := alloc_below b2 hw2
      have hm2 : (⟨stagePath nm, .nominal (nameFork H n).2⟩ : Loc) ∉ c.anc := hc.not_mem hw2 (by omega)
      refine Conv.thunk (sig_stage nm _) (fun e => hm2 (e ▸ hs)) a3 ?_
      refine Conv.forceThunk (sig_stage nm _) hm2 g3 rfl ?_
      rw [hcode]
      refine (ihr none _ σ3 (hc.cons hw2 (by omega)) (List.mem_cons_self ..) b3 (hl.2.ext (e1.trans (e2.trans e3))) hn2 hal2).mono ?_
      rintro σ4 v ⟨e4, b4, rfl⟩
      exact Conv.ret ⟨e1.trans (e2.trans (e3.trans e4)), b4, rfl⟩
  | name k m t ih =>
    intro o c σ hc hs hb hl hn hal
    refine Conv.call ?_
    rw [hcode]
    have hn : ∀ q ∈ t.erase.binNames (some m), q ≠ none := by cases o <;> exact hn
    have hal : ∀ x ∈ aFold R H (stagePath nm) (some m) t, W x.1 = some x.2 := by cases o <;> exact hal
    refine (ih (some m) c σ hc hs hb hl hn hal).mono ?_
    rintro σ1 v ⟨e1, b1, rfl⟩
    refine Conv.ret ⟨e1, b1, ?_⟩
    cases o <;> rfl
  | art a t ih =>
    intro o c σ hc hs hb hl hn hal
    refine Conv.forceCell hl.1.1 hl.1.2 ?_
    refine Conv.call ?_
    rw [hcode]
    have hn : ∀ q ∈ t.erase.binNames o, q ≠ none := by cases o <;> exact hn
    have hal : ∀ x ∈ aFold R H (stagePath nm) o t, W x.1 = some x.2 := by cases o <;> exact hal
    refine (ih o c σ hc hs hb hl.2 hn hal).mono ?_
    rintro σ1 v ⟨e1, b1, rfl⟩
    refine Conv.ret ⟨e1, b1, ?_⟩
    cases o <;> rfl

/-! ### The session -/

/-- The articulations of the tree are cells of the editor. -/
def LiveC (cs : Cells (CV X R)) : ATr X → Prop
  | .leaf _ => True
  | .bin _ l r => LiveC cs l ∧ LiveC cs r
  | .name _ _ t => LiveC cs t
  | .art a t => (∃ n, a = cellAt n ∧ cs n = some (.tree t.val)) ∧ LiveC cs t

theorem sig_cellAt (n : Name) : sigR opAt (cellAt n) = .cell tyT := rfl

theorem LiveC.live {cs : Cells (CV X R)} {t : ATr X} (h : LiveC cs t) (hcs : ∀ n v, cs n = some v → σ (cellAt n) = some v) : Live opAt σ t := by
  induction t with
  | leaf xs => trivial
  | bin k l r ihl ihr => exact ⟨ihl h.1, ihr h.2⟩
  | name k n t ih => exact ih h
  | art a t ih =>
    obtain ⟨⟨n, rfl, h1⟩, h2⟩ := h
    exact ⟨⟨sig_cellAt n, hcs _ _ h1⟩, ih h2⟩
theorem LiveC.ext {cs cs' : Cells (CV X R)} {t : ATr X} (h : LiveC cs t) (he : ∀ n v, cs n = some v → cs' n = some v) : LiveC cs' t := by
  induction t with
  | leaf xs => trivial
  | bin k l r ihl ihr => exact ⟨ihl h.1, ihr h.2⟩
  | name k n t ih => exact ih h
  | art a t ih =>
    obtain ⟨⟨n, rfl, h1⟩, h2⟩ := h
    exact ⟨⟨n, rfl, he _ _ h1⟩, ih h2⟩
theorem LiveC.unique {cs : Cells (CV X R)} {t : ATr X} : ∀ {t' : ATr X}, LiveC cs t → LiveC cs t' → t.val = t'.val → t = t' := by
  induction t with
  | leaf xs => intro t' _ _ e; cases t' <;> simp [ATr.val] at e ⊢; exact e
  | bin k l r ihl ihr =>
    intro t' h h' e
    cases t' <;> simp [ATr.val] at e
    rename_i y l' r'
    obtain ⟨rfl, e1, e2⟩ := e
    rw [ihl h.1 (t' := l') h'.1 e1, ihr h.2 (t' := r') h'.2 e2]
  | name k n t ih =>
    intro t' h h' e
    cases t' <;> simp [ATr.val] at e
    rename_i k' n' t'
    obtain ⟨rfl, rfl, e1⟩ := e
    rw [ih h (t' := t') h' e1]
  | art a t ih =>
    intro t' h h' e
    cases t' <;> simp [ATr.val] at e
    rename_i a' t'
    subst e
    obtain ⟨⟨n, rfl, h1⟩, h2⟩ := h
    obtain ⟨⟨n', e', h1'⟩, h2'⟩ := h'
    have : n = n' := by simpa [cellAt] using e'
    subst this
    rw [h1] at h1'
    injection h1' with h1'
    injection h1' with h1'
    rw [ih h2 h2' h1']

theorem Unfolds.annot {cs : Cells (CV X R)} {v : RecV X} {t : LTree X} (h : Unfolds cs v t) : ∃ a : ATr X, a.val = v ∧ a.erase = t ∧ LiveC cs a := by
  induction h with
  | leaf => exact ⟨.leaf _, rfl, rfl, trivial⟩
  | bin _ _ ihl ihr => obtain ⟨a, rfl, rfl, a3⟩ := ihl; obtain ⟨b, rfl, rfl, b3⟩ := ihr; exact ⟨.bin _ a b, rfl, rfl, a3, b3⟩
  | name _ ih => obtain ⟨a, rfl, rfl, a3⟩ := ih; exact ⟨.name _ _ a, rfl, rfl, a3⟩
  | @art n v t hn _ ih =>
    obtain ⟨a, rfl, rfl, a3⟩ := ih
    exact ⟨.art (cellAt n) a, rfl, rfl, ⟨n, rfl, hn⟩, a3⟩

/-- The program as one that the editor demands. -/
def theRoot (H : NameHash) (opAt : Name → Nat) (fs : Nat → Fns X R) (hv : CV X R → UInt64) (ha : ProgPt → CV X R → UInt64) (rn : Name) : EditSession.Root (CV X R) where
  sig := sigR opAt
  env := env H opAt fs hv ha
  ns := rootNm
  rn := rn
  ty := tyR
  pp := ppMain
  fn := fMain
  cty := tyT
  D := Name × ATr X
  arg d := .root d.1 d.2.val
  res d := .res (d.2.erase.foldUp (fs (opAt d.1)) none)
  rank d := d.2.ht + 1
  allocs d := aFold R H (stagePath d.1) none d.2
  ok cs d := LiveC cs d.2 ∧ d.2.erase.WellNamed

theorem lawful (rn : Name) : (theRoot H opAt fs hv ha rn).Lawful where
  mode := ⟨rfl, fun _ => rfl⟩
  sig_root := rfl
  sig_cell := sig_cellAt
  ext cs cs' d h hok := ⟨LiveC.ext hok.1 h, hok.2⟩
  unique cs d d' h h' e := by
    obtain ⟨m, t⟩ := d
    obtain ⟨m', t'⟩ := d'
    injection e with e1 e2
    have e1 : m = m' := e1
    have e2 : t.val = t'.val := e2
    subst e1
    have h1 : LiveC cs t := h.1
    rw [h1.unique h'.1 e2]
  nodup cs d h := aFold_nodup d.2 none h.2.2
  away cs d h x hx := by
    obtain ⟨o, _, ho⟩ := List.mem_flatMap.1 (aFold_locs d.2 none x.1 (List.mem_map_of_mem hx))
    obtain ⟨n, _, e⟩ := mem_two ho
    rcases e with e | e <;> rw [e]
    all_goals
      refine ⟨by simp [stagePath], fun e => ?_, rfl⟩
      have := congrArg Loc.path e
      simp [stagePath, EditSession.Root.loc, rootPath] at this
  conv cs d h W σ hcs hal hb hrt := by
    refine Conv.ns (Conv.call ?_)
    refine (foldOk (H := H) (fs := fs) (hv := hv) (ha := ha) (nm := d.1) d.2 none _ σ ?_ (List.mem_cons_self ..) hb (LiveC.live h.1 hcs) h.2.1 hal).mono ?_
    · intro a ha
      rcases List.mem_cons.1 ha with rfl | ha
      · exact ⟨_, _, hrt, Nat.le_refl _⟩
      · cases ha
    · rintro σ1 v ⟨e1, b1, rfl⟩
      exact Conv.ret (Conv.ret ⟨e1, b1, rfl⟩)

theorem demands {rn : Name} {ss : List (Step X R)} : ∀ {cs : Cells (CV X R)} {ds : List (Name × LTree X)}, Demands cs ss ds →
    ∃ es, (theRoot H opAt fs hv ha rn).Demands cs (ss.map fun s => ⟨s.edits, .root s.nm s.tree⟩) es ∧
      es.map (theRoot H opAt fs hv ha rn).res = ds.map fun d => .res (d.2.foldUp (fs (opAt d.1)) none) := by
  induction ss with
  | nil => intro cs ls h; cases h; exact ⟨[], .nil, rfl⟩
  | cons s ss ih =>
    intro cs ls h
    cases h with
    | cons h1 h2 h3 h4 =>
      obtain ⟨ds, d1, d2⟩ := ih h4
      obtain ⟨a, a1, rfl, a3⟩ := h2.annot
      refine ⟨(s.nm, a) :: ds, .cons h1 ⟨a3, h3⟩ ?_ d1, ?_⟩
      · show CV.root s.nm a.val = _
        rw [a1]
      · exact congrArg (List.cons _) d2

/-- The sessions have a meaning. -/
theorem rec_session_means (rn : Name) (ss : List (Step X R)) (ds : List (Name × LTree X)) (h : Demands (fun _ => none) ss ds) :
    Means (sigR opAt) (env H opAt fs hv ha) (ss.map (stepProg rn)) (ds.map fun d => .res (d.2.foldUp (fs (opAt d.1)) none)) := by
  obtain ⟨es, d1, d2⟩ := demands (H := H) (fs := fs) (hv := hv) (ha := ha) (rn := rn) h
  have := EditSession.means (lawful rn) _ es d1
  rw [d2, List.map_map] at this
  exact this

/-- **C89.** The folds of level trees of the documentation, on the engine.  The editor edits cells that hold level trees, in any way, and demands, again and again, `fold_up_namebin` of a tree made of
those cells, with any functions.  If at each demand the articulations of the tree can be followed to the end and each binary node has a name of its own just above it, then the engine
terminates without panic, and returns the fold of the tree as it is then. -/
theorem C89_level_trees (rn : Name) (ss : List (Step X R)) (ds : List (Name × LTree X)) (h : Demands (fun _ => none) ss ds) (purity : Bool) :
    (∃ N s', ∀ n, N ≤ n → runSession (env H opAt fs hv ha) n (ss.map (stepProg rn)) (initSt purity false) = .ok (ds.map fun d => .res (d.2.foldUp (fs (opAt d.1)) none)) s') ∧
    (∀ n err s', runSession (env H opAt fs hv ha) n (ss.map (stepProg rn)) (initSt purity false) ≠ .panic err s') ∧
    ∀ n vs' s', runSession (env H opAt fs hv ha) n (ss.map (stepProg rn)) (initSt purity false) = .ok vs' s' → vs' = ds.map fun d => .res (d.2.foldUp (fs (opAt d.1)) none) := by
  have hm := rec_session_means (H := H) (opAt := opAt) (fs := fs) (hv := hv) (ha := ha) rn ss ds h
  refine ⟨?_, ?_, ?_⟩
  · exact (C02_terminates_without_panic (sigR opAt) (env H opAt fs hv ha) _ _ hm purity fun _ => rfl).1
  · exact (C02_terminates_without_panic (sigR opAt) (env H opAt fs hv ha) _ _ hm purity fun _ => rfl).2
  · intro n vs' s' he
    exact C01_from_scratch_consistency (sigR opAt) (env H opAt fs hv ha) _ _ hm purity (fun _ => rfl) n vs' s' he

/-- C89: what `fold_monoid` returns is the combination of the elements from left to right, if `bin` is associative with the unit `z` and `art` returns the value it is given. -/
theorem C89_fold_monoid {X : Type} (z : X) (bin : X → X → X) (hassoc : ∀ a b c, bin (bin a b) c = bin a (bin b c)) (hl : ∀ a, bin z a = a) (hr : ∀ a, bin a z = a) (t : LTree X) (n : Option Name) :
    t.foldUp (monoidFns z bin id) n = t.elems.foldl bin z := by
  have key : ∀ (xs : List X) (a : X), xs.foldl bin a = bin a (xs.foldl bin z) := by
    intro xs
    induction xs with
    | nil => intro a; exact (hr a).symm
    | cons x xs ih => intro a; rw [List.foldl_cons, List.foldl_cons, ih, ih (bin z x), hl, hassoc]
  induction t generalizing n with
  | leaf xs => rfl
  | bin k l r ihl ihr =>
    simp only [LTree.foldUp, LTree.elems, List.foldl_append, ihl, ihr]
    exact (key _ _).symm
  | name k m t ih => simp only [LTree.foldUp, LTree.elems, ih]
  | art t ih => simp only [LTree.foldUp, LTree.elems, ih]

/-- **C89 (violated).** A binary node without a name just above it: the fold panics in the DCG engine, whatever is below, whatever the state.  (See C71; `fold_monoid` itself starts
without a name.) -/
theorem C89_unnamed_panics (n : Nat) (k : Nat) (l r : RecV X) (i : Nat) (s : St (CV X R)) :
    exec (env H opAt fs hv ha) n (foldUpNamebin H (fs i) (fFold i) (.bin k l r) none) s = .panic .eagerUnreachable s := by
  simp [foldUpNamebin, memoOpt, forko, exec, runProg, opThunk, M.bind_def, M.get_def, M.panic_def]

end Adapton.RecProg

/-! ### A session that meets the hypotheses

The tree `⟨name 1⟩ bin([1, 2], ⟨name 2⟩ [cell 10])`; the cell holds `bin([3], [4])`, then a leaf, then a tree with a name of its own. -/
namespace Adapton.RecProg.Example89
open EditSession (cellAt)
def H : NameHash := ⟨fun a b => a + 3 * b, fun n => n.toUInt64, fun _ => 0, fun _ => 7, fun h i => 5 * h + i.toUInt64⟩
def nm (n : Nat) : Name := nameOfUsize H n
def fs : Nat → Fns Nat Nat
  | 0 => monoidFns 0 (· + ·) id
  | _ => monoidFns 0 max id
/-- Namespace 20 is for sums, namespace 21 for maxima. -/
def opAt (n : Name) : Nat := if n = nm 20 then 0 else 1
def tree : RecV Nat := .name 9 (nm 1) (.bin 8 (.leaf [1, 2]) (.name 7 (nm 2) (.art (cellAt (nm 10)))))
def steps : List (Step Nat Nat) :=
  [⟨[.cell (nm 10) (.tree (.bin 6 (.leaf [3]) (.leaf [4])))], nm 20, tree⟩,
   ⟨[], nm 21, tree⟩,
   ⟨[.set (nm 10) (.tree (.leaf [5]))], nm 20, tree⟩,
   ⟨[.set (nm 10) (.tree (.name 5 (nm 3) (.bin 4 (.leaf [6]) (.leaf [7, 8]))))], nm 20, tree⟩,
   ⟨[], nm 21, tree⟩]
def trees : List (Name × LTree Nat) :=
  let t (u : LTree Nat) : LTree Nat := .name 9 (nm 1) (.bin 8 (.leaf [1, 2]) (.name 7 (nm 2) (.art u)))
  [(nm 20, t (.bin 6 (.leaf [3]) (.leaf [4]))), (nm 21, t (.bin 6 (.leaf [3]) (.leaf [4]))), (nm 20, t (.leaf [5])),
   (nm 20, t (.name 5 (nm 3) (.bin 4 (.leaf [6]) (.leaf [7, 8])))), (nm 21, t (.name 5 (nm 3) (.bin 4 (.leaf [6]) (.leaf [7, 8]))))]

theorem meets : Demands (fun _ => none) steps trees := by
  refine .cons rfl (.name (.bin .leaf (.name (.art rfl (.bin .leaf .leaf))))) ⟨by decide, by decide⟩ ?_
  refine .cons rfl (.name (.bin .leaf (.name (.art rfl (.bin .leaf .leaf))))) ⟨by decide, by decide⟩ ?_
  refine .cons rfl (.name (.bin .leaf (.name (.art rfl .leaf)))) ⟨by decide, by decide⟩ ?_
  refine .cons rfl (.name (.bin .leaf (.name (.art rfl (.name (.bin .leaf .leaf)))))) ⟨by decide, by decide⟩ ?_
  refine .cons rfl (.name (.bin .leaf (.name (.art rfl (.name (.bin .leaf .leaf)))))) ⟨by decide, by decide⟩ ?_
  exact .nil

example : (match runSession (env H opAt fs (fun _ => 0) (fun _ _ => 0)) 60 (steps.map (stepProg (nm 0))) (initSt true false) with
    | .ok vs _ => vs
    | _ => []) = [10, 4, 8, 24, 8].map CV.res := by decide +kernel

/-- The same as C89 says. -/
example : (trees.map fun d => d.2.foldUp (fs (opAt d.1)) none) = [10, 4, 8, 24, 8] := by decide

/-- The names must be distinct: `⟨name 1⟩ bin(⟨name 1⟩ bin([], []), [])` panics. -/
theorem C89_repeated_name_panics : (match runSession (env H opAt fs (fun _ => 0) (fun _ _ => 0)) 60
      [stepProg (nm 0) ⟨[], nm 20, .name 9 (nm 1) (.bin 8 (.name 7 (nm 1) (.bin 6 (.leaf []) (.leaf []))) (.leaf []))⟩] (initSt true false) with
    | .panic e _ => some e
    | _ => none) = some .unexpectedCycle := by decide +kernel
end Adapton.RecProg.Example89
