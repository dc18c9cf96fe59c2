import Verif.Engine.EditSession
import Verif.Collections.MergeProg
import Verif.Props.SortEngine
import Verif.Props.Sorting
import Verif.Props.TreeEngine
import Verif.Props.ListEngine
/-
C81: `mergesort_list_of_tree3` on the engine, for every history of edits.
-/
set_option linter.unusedSectionVars false
set_option linter.unusedVariables false
namespace Adapton.MergeProg
open Coll (NameElse Lst Tree)
open SortProg (LV TV lvNameOp AL AT nameOp nameOp_erase nameOp_val erase_nil erase_cons erase_name lm_nil lm_cons lm_name)
open Ref (Sig Kind Store Ctx Ext ES Means alloc)
open EditSession (World Below AncOk alloc_below Cells Edit applyAll cellAt)
open ListProg (limited)
variable {X : Type} [DecidableEq X] (H : NameHash) (le : X → X → Bool)

/-! ### The specification -/

/-- The tree `t` is what the value `v` stands for: the articulations in it are cells of the editor, and are replaced by what they hold. -/
inductive Unfolds (cs : Cells (CV X)) : TV X → Tree X → Prop
  | nil : Unfolds cs .nil .nil
  | leaf {x} : Unfolds cs (.leaf x) (.leaf x)
  | bin {lev l r l' r'} : Unfolds cs l l' → Unfolds cs r r' → Unfolds cs (.bin lev l r) (.bin lev l' r')
  | name {n lev l r l' r'} : Unfolds cs l l' → Unfolds cs r r' → Unfolds cs (.name n lev l r) (.name n lev l' r')
  | art {n v t} : cs n = some (.tree v) → Unfolds cs v t → Unfolds cs (.art (cellAt n)) (.art t)

/-- A step of the session: some edits, then a demand of the sorted elements of a tree, or of so many of its items. -/
structure Step (X : Type) where
  edits : List (Edit (CV X))
  stage : Name
  tree : TV X
  nm : Option Name
  limit : Option Nat

/-- What is demanded: a tree, the name given to the sort, the limit. -/
structure Dem (X : Type) where
  tree : Tree X
  nm : Option Name
  limit : Option Nat

/-- The demands of a session: the names in the tree, and the one given, must be independent of each other (none is made from another by forking). -/
inductive Demands : Cells (CV X) → List (Step X) → List (Dem X) → Prop
  | nil {cs} : Demands cs [] []
  | cons {cs cs' s ss t ds} : applyAll cs s.edits = some cs' → Unfolds cs' s.tree t → Coll.Independent (Coll.optNames s.nm ++ t.names) → Demands cs' ss ds →
      Demands cs (s :: ss) (⟨t, s.nm, s.limit⟩ :: ds)

/-- What a demand returns, in terms of the model of Collections/Model.lean. -/
def answer (d : Dem X) : CV X := .vec (limited d.limit (Coll.mergesort3 H le d.tree d.nm).items)

/-- The namespace of the program. -/
def rootNm : Name := ⟨0, .str "sorted"⟩

/-- The code of the editor for one step: the edits, and then
`ns("sorted", || get!(thunk!([Some(rn)]? { let s = ns(stage, || mergesort_list_of_tree3(t, nm)); vec_of_list(s, limit) })))`. -/
def stepProg (rn : Name) (s : Step X) : Prog (CV X) :=
  EditSession.editProg tyT s.edits <|
    .ns rootNm (.thunk tyV (.nominal rn) ppRoot fRoot (.root s.stage s.tree s.nm s.limit) fun l => .force tyV l none .ret) .ret

/-! ### The signature -/

def rootPath : Path := .child .empty rootNm
def stagePath (nm : Name) : Path := .child rootPath nm
def mergePath (H : NameHash) (nm : Name) : Path := .child (stagePath nm) (mergeNm H)

/-- The editor has cells; below the namespace of the program are the namespaces of sorts, and below those the thunks of merges. -/
def sigKind (l : Loc) : Kind :=
  match l.path with
  | .empty => .cell tyT
  | .child p _ => if p = .empty then .thunk tyV ppRoot fRoot else if p = rootPath then .thunk tyL ppSort3 fSort3 else .thunk tyL ppMerge fMerge
def sigM : Sig := { kind := sigKind }

theorem sig_stage (nm : Name) (id : ArtId) : sigM ⟨stagePath nm, id⟩ = .thunk tyL ppSort3 fSort3 := rfl
theorem sig_merge (nm : Name) (id : ArtId) : sigM ⟨mergePath H nm, id⟩ = .thunk tyL ppMerge fMerge := rfl
theorem sig_cellAt (n : Name) : sigM (cellAt n) = .cell tyT := rfl

/-- A location. -/
def at' (p : Path) (n : Name) : Loc := ⟨p, .nominal n⟩
theorem at_inj {p : Path} {n m : Name} (h : at' p n = at' p m) : n = m := by
  have := congrArg Loc.id h
  simpa [at'] using this

/-! ### Annotated functions -/

/-- What `list_merge` returns, and what it allocates when the result is demanded to the end. -/
def amerge (mp : Path) (n1 : Option Name) (l1 : AL X) (n2 : Option Name) (l2 : AL X) : AL X × List (Name × CV X) :=
  match hv1 : l1.strip with
  | .nil => (nameOp n2 l2, [])
  | .cons h1 t1 =>
    match hv2 : l2.strip with
    | .nil => (nameOp n1 (.cons h1 t1), [])
    | .cons h2 t2 =>
      if le h1 h2 then
        match n1 with
        | none =>
          let r := amerge mp none t1 n2 (.cons h2 t2)
          (.cons h1 r.1, r.2)
        | some n1 =>
          let r := amerge mp none t1 n2 (.cons h2 t2)
          (.name (nameFork H n1).2 (.cons h1 (.art (at' mp (nameFork H n1).1) r.1)),
            ((nameFork H n1).1, .margs none t1.val n2 (.cons h2 t2.val)) :: r.2)
      else
        match n2 with
        | none =>
          let r := amerge mp n1 (.cons h1 t1) none t2
          (.cons h2 r.1, r.2)
        | some n2 =>
          let r := amerge mp n1 (.cons h1 t1) none t2
          (.name (nameFork H n2).2 (.cons h2 (.art (at' mp (nameFork H n2).1) r.1)),
            ((nameFork H n2).1, .margs n1 (.cons h1 t1.val) none t2.val) :: r.2)
    | .name m2 t2 => amerge mp n1 (.cons h1 t1) (some m2) t2
    | .art _ _ => (.nil, [])
  | .name m1 t1 => amerge mp (some m1) t1 n2 l2
  | .art _ _ => (.nil, [])
termination_by l1.size + l2.size
decreasing_by
  all_goals try simp only [AL.size]
  · have := AL.strip_cons hv1; have := AL.strip_cons hv2; omega
  · have := AL.strip_cons hv1; have := AL.strip_cons hv2; omega
  · have := AL.strip_cons hv1; have := AL.strip_cons hv2; omega
  · have := AL.strip_cons hv1; have := AL.strip_cons hv2; omega
  · have := AL.strip_cons hv1; have := AL.strip_name hv2; omega
  · have := AL.strip_name hv1; omega


/-- What `mergesort_list_of_tree3` returns. -/
def asort (mp : Path) : AT X → Option Name → AL X
  | .nil, _ => .nil
  | .leaf x, nm => nameOp nm (.cons x .nil)
  | .bin _ l r, nm => (amerge H le mp none (asort mp l nm) none (asort mp r none)).1
  | .name n _ l r, nm => (amerge H le mp none (asort mp l nm) none (asort mp r (some n))).1
  | .art _ t, nm => asort mp t nm
/-- What it allocates for merges when the result is demanded to the end, with ranks: a thunk forces only thunks of smaller rank. -/
def aMerges (mp : Path) : AT X → Option Name → List (Name × CV X × Nat)
  | .nil, _ => []
  | .leaf _, _ => []
  | .bin lev l r, nm => aMerges mp l nm ++ aMerges mp r none ++
      (amerge H le mp none (asort H le mp l nm) none (asort H le mp r none)).2.map fun p => (p.1, p.2, 2 * (AT.bin lev l r).ht)
  | .name n lev l r, nm => aMerges mp l nm ++ aMerges mp r (some n) ++
      (amerge H le mp none (asort H le mp l nm) none (asort H le mp r (some n))).2.map fun p => (p.1, p.2, 2 * (AT.name n lev l r).ht)
  | .art _ t, nm => aMerges mp t nm
/-- What it allocates for the fold. -/
def aMemos : AT X → Option Name → List (Name × CV X × Nat)
  | .nil, _ => []
  | .leaf _, _ => []
  | .bin _ l r, nm => aMemos l nm ++ aMemos r none
  | .name n _ l r, nm => ((nameFork H n).1, .sargs l.val nm, 2 * l.ht + 1) :: aMemos l nm ++ ((nameFork H n).2, .sargs r.val (some n), 2 * r.ht + 1) :: aMemos r (some n)
  | .art _ t, nm => aMemos t nm

/-- The annotated merge is the merge of the model, and allocates at the names of `listMergeAllocs`. -/
theorem amerge_model (mp : Path) (n1 : Option Name) (l1 : AL X) (n2 : Option Name) (l2 : AL X) :
    (amerge H le mp n1 l1 n2 l2).1.erase = Coll.listMerge H le n1 l1.erase n2 l2.erase ∧
    (amerge H le mp n1 l1 n2 l2).2.map Prod.fst = Coll.listMergeAllocs H le n1 l1.erase n2 l2.erase := by
  fun_induction amerge H le mp n1 l1 n2 l2 with
  | case1 n1 l1 n2 l2 h =>
    rw [lm_nil H le (erase_nil h), Coll.allocs_nil H (erase_nil h), nameOp_erase]
    exact ⟨rfl, rfl⟩
  | case2 n1 l1 n2 l2 h1 t1 hv1 hv2 =>
    rw [lm_cons H le (erase_cons hv1), Coll.allocs_cons H (erase_cons hv1), erase_nil hv2, nameOp_erase]
    exact ⟨rfl, rfl⟩
  | case3 l1 n2 l2 h1 t1 hv1 h2 t2 hv2 hle r ih =>
    rw [lm_cons H le (erase_cons hv1), Coll.allocs_cons H (erase_cons hv1), erase_cons hv2]
    simp only [hle, if_true]
    exact ⟨congrArg (Lst.cons h1) ih.1, ih.2⟩
  | case4 l1 n2 l2 h1 t1 hv1 h2 t2 hv2 hle n1 r ih =>
    rw [lm_cons H le (erase_cons hv1), Coll.allocs_cons H (erase_cons hv1), erase_cons hv2]
    simp only [hle, if_true]
    exact ⟨congrArg (fun l => Lst.name (nameFork H n1).2 (.cons h1 (.art l))) ih.1, congrArg (List.cons _) ih.2⟩
  | case5 n1 l1 l2 h1 t1 hv1 h2 t2 hv2 hle r ih =>
    rw [lm_cons H le (erase_cons hv1), Coll.allocs_cons H (erase_cons hv1), erase_cons hv2]
    simp only [hle, Bool.false_eq_true, if_false]
    exact ⟨congrArg (Lst.cons h2) ih.1, ih.2⟩
  | case6 n1 l1 l2 h1 t1 hv1 h2 t2 hv2 hle n2 r ih =>
    rw [lm_cons H le (erase_cons hv1), Coll.allocs_cons H (erase_cons hv1), erase_cons hv2]
    simp only [hle, Bool.false_eq_true, if_false]
    exact ⟨congrArg (fun l => Lst.name (nameFork H n2).2 (.cons h2 (.art l))) ih.1, congrArg (List.cons _) ih.2⟩
  | case7 n1 l1 n2 l2 h1 t1 hv1 m2 t2 hv2 ih =>
    rw [lm_cons H le (erase_cons hv1), Coll.allocs_cons H (erase_cons hv1), erase_name hv2]
    exact ih
  | case8 n1 l1 n2 l2 h1 t1 hv1 a t2 hv2 => exact absurd hv2 AL.strip_art
  | case9 n1 l1 n2 l2 m1 t1 hv1 ih =>
    rw [lm_name H le (erase_name hv1), Coll.allocs_name H (erase_name hv1)]
    exact ih
  | case10 n1 l1 n2 l2 a t hv => exact absurd hv AL.strip_art


theorem asort_model (mp : Path) (t : AT X) : ∀ nm, (asort H le mp t nm).erase = Coll.mergesort3 H le t.erase nm := by
  induction t with
  | nil => intro nm; rfl
  | leaf x => intro nm; exact nameOp_erase nm _
  | art a t ih => exact ih
  | bin lev l r ihl ihr =>
    intro nm
    have m1 := (amerge_model H le mp none (asort H le mp l nm) none (asort H le mp r none)).1
    rw [ihl, ihr] at m1
    exact m1
  | name n lev l r ihl ihr =>
    intro nm
    have m1 := (amerge_model H le mp none (asort H le mp l nm) none (asort H le mp r (some n))).1
    rw [ihl, ihr] at m1
    exact m1
theorem aMerges_model (mp : Path) (t : AT X) : ∀ nm, (aMerges H le mp t nm).map Prod.fst = Coll.mergesort3Allocs H le t.erase nm := by
  induction t with
  | nil => intro nm; rfl
  | leaf x => intro nm; rfl
  | art a t ih => exact ih
  | bin lev l r ihl ihr =>
    intro nm
    have m2 := (amerge_model H le mp none (asort H le mp l nm) none (asort H le mp r none)).2
    rw [asort_model, asort_model] at m2
    simp only [aMerges, List.map_append, List.map_map]
    rw [ihl, ihr]
    show _ ++ _ ++ List.map Prod.fst _ = _
    rw [m2]; rfl
  | name n lev l r ihl ihr =>
    intro nm
    have m2 := (amerge_model H le mp none (asort H le mp l nm) none (asort H le mp r (some n))).2
    rw [asort_model, asort_model] at m2
    simp only [aMerges, List.map_append, List.map_map]
    rw [ihl, ihr]
    show _ ++ _ ++ List.map Prod.fst _ = _
    rw [m2]; rfl
theorem aMemos_model (t : AT X) : ∀ nm, (aMemos H t nm).map Prod.fst = Coll.memoAllocs H t.erase := by
  induction t with
  | nil => intro nm; rfl
  | leaf x => intro nm; rfl
  | art a t ih => exact ih
  | bin lev l r ihl ihr =>
    intro nm
    simp only [aMemos, List.map_append]
    rw [ihl, ihr]; rfl
  | name n lev l r ihl ihr =>
    intro nm
    simp only [aMemos, List.map_append, List.map_cons]
    rw [ihl, ihr]; rfl

/-! ### Convergence -/

variable {H le} {st : Name} {W : World (CV X)} {σ σ' : Store (CV X)} {hv : CV X → UInt64} {ha : ProgPt → CV X → UInt64}

/-- The thunks a merge will allocate are in the world at rank `k`. -/
def AllocOk (mp : Path) (W : World (CV X)) (k : Nat) (as : List (Name × CV X)) : Prop := ∀ x ∈ as, W (at' mp x.1) = some (x.2, k)

/-- The articulations of the list are in the store, all of rank below `r`; they are thunks of merges, of lists of which the same holds. -/
inductive Live (H : NameHash) (le : X → X → Bool) (st : Name) (W : World (CV X)) (σ : Store (CV X)) : Nat → AL X → Prop
  | nil {r} : Live H le st W σ r .nil
  | cons {r x l} : Live H le st W σ r l → Live H le st W σ r (.cons x l)
  | name {r n l} : Live H le st W σ r l → Live H le st W σ r (.name n l)
  | art {r a k n1 l1 n2 l2} : k < r → W (at' (mergePath H st) a) = some (.margs n1 l1.val n2 l2.val, k) → σ (at' (mergePath H st) a) = some (.margs n1 l1.val n2 l2.val) →
      Live H le st W σ k l1 → Live H le st W σ k l2 → AllocOk (mergePath H st) W k (amerge H le (mergePath H st) n1 l1 n2 l2).2 →
      (a :: (amerge H le (mergePath H st) n1 l1 n2 l2).2.map Prod.fst).Nodup → Live H le st W σ r (.art (at' (mergePath H st) a) (amerge H le (mergePath H st) n1 l1 n2 l2).1)

theorem Live.ext {r : Nat} {l : AL X} (h : Live H le st W σ r l) (he : Ext σ σ') : Live H le st W σ' r l := by
  induction h with
  | nil => exact .nil
  | cons _ ih => exact .cons ih
  | name _ ih => exact .name ih
  | art h1 h2 h3 _ _ h7 h8 ih1 ih2 => exact .art h1 h2 (he _ _ h3) ih1 ih2 h7 h8
theorem Live.mono {r r' : Nat} {l : AL X} (h : Live H le st W σ r l) (hr : r ≤ r') : Live H le st W σ r' l := by
  induction h with
  | nil => exact .nil
  | cons _ ih => exact .cons (ih hr)
  | name _ ih => exact .name (ih hr)
  | art h1 h2 h3 h5 h6 h7 h8 _ _ => exact .art (Nat.lt_of_lt_of_le h1 hr) h2 h3 h5 h6 h7 h8
theorem Live.inv_cons {r : Nat} {x : X} {l : AL X} (h : Live H le st W σ r (.cons x l)) : Live H le st W σ r l := by cases h; assumption
theorem Live.inv_name {r : Nat} {n : Name} {l : AL X} (h : Live H le st W σ r (.name n l)) : Live H le st W σ r l := by cases h; assumption

abbrev CP (H : NameHash) (le : X → X → Bool) (hv : CV X → UInt64) (ha : ProgPt → CV X → UInt64) (c : Ctx) (π : Path) (p : Prog (CV X)) (σ : Store (CV X))
    (Q : Store (CV X) → CV X → Prop) : Prop := Conv sigM (env H le hv ha) c π p σ Q

/-- Merging at rank `k` converges to the annotated merge. -/
def MergeOk (H : NameHash) (le : X → X → Bool) (hv : CV X → UInt64) (ha : ProgPt → CV X → UInt64) (st : Name) (W : World (CV X)) (k : Nat) : Prop :=
  ∀ n1 l1 n2 l2 c σ, AncOk W c k → Below σ W → Live H le st W σ k l1 → Live H le st W σ k l2 → AllocOk (mergePath H st) W k (amerge H le (mergePath H st) n1 l1 n2 l2).2 →
    ((amerge H le (mergePath H st) n1 l1 n2 l2).2.map Prod.fst).Nodup → (∀ x ∈ (amerge H le (mergePath H st) n1 l1 n2 l2).2, at' (mergePath H st) x.1 ≠ c.self) →
    CP H le hv ha c (mergePath H st) (merge H le n1 l1.val n2 l2.val) σ fun σ' v =>
      Ext σ σ' ∧ Below σ' W ∧ v = .lst (amerge H le (mergePath H st) n1 l1 n2 l2).1.val ∧ Live H le st W σ' (k + 1) (amerge H le (mergePath H st) n1 l1 n2 l2).1

/-- Looking at a list of rank `r`. -/
def ViewOk (H : NameHash) (le : X → X → Bool) (hv : CV X → UInt64) (ha : ProgPt → CV X → UInt64) (st : Name) (W : World (CV X)) (r : Nat) : Prop :=
  ∀ l c π σ, AncOk W c r → Below σ W → Live H le st W σ r l → CP H le hv ha c π (lview l.val) σ fun σ' v =>
    Ext σ σ' ∧ Below σ' W ∧ v = .lst l.strip.val ∧ Live H le st W σ' r l.strip

theorem viewOk_of {r : Nat} (hm : ∀ k, k < r → MergeOk H le hv ha st W k) : ViewOk H le hv ha st W r := by
  intro l
  induction l with
  | nil => intro c π σ hc hb hl; exact Conv.ret ⟨Ext.refl _, hb, rfl, hl⟩
  | cons x l ih => intro c π σ hc hb hl; exact Conv.ret ⟨Ext.refl _, hb, rfl, hl⟩
  | name n l ih => intro c π σ hc hb hl; exact Conv.ret ⟨Ext.refl _, hb, rfl, hl⟩
  | art a l ih =>
    intro c π σ hc hb hl
    generalize e : AL.art a l = q at hl
    cases hl with
    | nil => cases e
    | cons h => cases e
    | name h => cases e
    | @art _ a' k n1 l1 n2 l2 h1 h2 h3 h5 h6 h7 h8 =>
      cases e
      refine Conv.forceThunk (sig_merge H st _) (hc.not_mem h2 h1) h3 rfl ?_
      have hcode : (env H le hv ha).code fMerge (.margs n1 l1.val n2 l2.val) = merge H le n1 l1.val n2 l2.val := rfl
      rw [hcode]
      rw [List.nodup_cons] at h8
      refine (hm k h1 n1 l1 n2 l2 ⟨at' (mergePath H st) a', at' (mergePath H st) a' :: c.anc⟩ σ (hc.cons h2 (by omega)) hb h5 h6 h7 h8.2 ?_).mono ?_
      · intro x hx he
        exact h8.1 (at_inj he ▸ List.mem_map.2 ⟨x, hx, rfl⟩)
      · rintro σ1 v ⟨e1, b1, rfl, lv⟩
        refine Conv.call ?_
        have hcode : (env H le hv ha).code fLView (.lst (amerge H le (mergePath H st) n1 l1 n2 l2).1.val) = lview (amerge H le (mergePath H st) n1 l1 n2 l2).1.val := rfl
        rw [hcode]
        refine (ih c π σ1 hc b1 (lv.mono h1)).mono ?_
        rintro σ2 v ⟨e2, b2, rfl, lv2⟩
        exact Conv.ret ⟨e1.trans e2, b2, rfl, lv2⟩

/-- One step of looking at a list, inside a program. -/
theorem view {r : Nat} (hV : ViewOk H le hv ha st W r) {l : AL X} {c : Ctx} {π : Path} {k : LV X → Prog (CV X)} {Q : Store (CV X) → CV X → Prop}
    (hc : AncOk W c r) (hb : Below σ W) (hl : Live H le st W σ r l)
    (h : ∀ σ1, Ext σ σ1 → Below σ1 W → Live H le st W σ1 r l.strip → CP H le hv ha c π (k l.strip.val) σ1 Q) :
    CP H le hv ha c π (.call fLView (.lst l.val) (onLst k)) σ Q := by
  refine Conv.call ?_
  have hcode : (env H le hv ha).code fLView (.lst l.val) = lview l.val := rfl
  rw [hcode]
  refine (hV l c π σ hc hb hl).mono ?_
  rintro σ1 v ⟨e1, b1, rfl, lv⟩
  exact h σ1 e1 b1 lv

theorem callMerge {c : Ctx} {π : Path} {n1 n2 : Option Name} {l1 l2 : LV X} {k : CV X → Prog (CV X)} {Q : Store (CV X) → CV X → Prop}
    (h : CP H le hv ha c π (merge H le n1 l1 n2 l2) σ fun σ1 v1 => CP H le hv ha c π (k v1) σ1 Q) :
    CP H le hv ha c π (.call fMerge (.margs n1 l1 n2 l2) k) σ Q := Conv.call h

theorem live_nameOp {r : Nat} {n : Option Name} {l : AL X} (h : Live H le st W σ r l) : Live H le st W σ r (nameOp n l) := by
  cases n with
  | none => exact h
  | some n => exact .name h

theorem mergeOk_of {k : Nat} (hV : ViewOk H le hv ha st W k) : MergeOk H le hv ha st W k := by
  intro n1 l1 n2 l2
  fun_induction amerge H le (mergePath H st) n1 l1 n2 l2 with
  | case1 n1 l1 n2 l2 h =>
    intro c σ hc hb hl1 hl2 hal hnd hself
    refine view hV hc hb hl1 fun σ1 e1 b1 lv1 => ?_
    rw [h]
    exact Conv.ret ⟨e1, b1, by rw [nameOp_val], (live_nameOp (hl2.ext e1)).mono (by omega)⟩
  | case2 n1 l1 n2 l2 h1 t1 hv1 hv2 =>
    intro c σ hc hb hl1 hl2 hal hnd hself
    refine view hV hc hb hl1 fun σ1 e1 b1 lv1 => ?_
    rw [hv1] at lv1 ⊢
    refine view hV hc b1 (hl2.ext e1) fun σ2 e2 b2 lv2 => ?_
    rw [hv2]
    exact Conv.ret ⟨e1.trans e2, b2, by rw [nameOp_val]; rfl, (live_nameOp (lv1.ext e2)).mono (by omega)⟩
  | case3 l1 n2 l2 h1 t1 hv1 h2 t2 hv2 hle r ih =>
    intro c σ hc hb hl1 hl2 hal hnd hself
    refine view hV hc hb hl1 fun σ1 e1 b1 lv1 => ?_
    rw [hv1] at lv1 ⊢
    refine view hV hc b1 (hl2.ext e1) fun σ2 e2 b2 lv2 => ?_
    rw [hv2] at lv2 ⊢
    simp only [AL.val, hle, if_true]
    refine callMerge ?_
    refine (ih c σ2 hc b2 (lv1.inv_cons.ext e2) lv2 hal hnd hself).mono ?_
    rintro σ3 v ⟨e3, b3, rfl, lv3⟩
    exact Conv.ret ⟨(e1.trans e2).trans e3, b3, rfl, .cons lv3⟩
  | case4 l1 n2 l2 h1 t1 hv1 h2 t2 hv2 hle n1 r ih =>
    intro c σ hc hb hl1 hl2 hal hnd hself
    refine view hV hc hb hl1 fun σ1 e1 b1 lv1 => ?_
    rw [hv1] at lv1 ⊢
    refine view hV hc b1 (hl2.ext e1) fun σ2 e2 b2 lv2 => ?_
    rw [hv2] at lv2 ⊢
    simp only [AL.val, hle, if_true]
    have hw := hal _ (List.mem_cons_self ..)
    obtain ⟨σ3, ha3, e3, b3, h3⟩ := alloc_below b2 hw
    refine Conv.thunk (sig_merge H st _) (hself _ (List.mem_cons_self ..)) ha3 ?_
    refine Conv.ret ⟨(e1.trans e2).trans e3, b3, rfl, .name (.cons ?_)⟩
    exact .art (by omega) hw h3 ((lv1.inv_cons.ext e2).ext e3) (lv2.ext e3) (fun x hx => hal x (List.mem_cons_of_mem _ hx)) hnd
  | case5 n1 l1 l2 h1 t1 hv1 h2 t2 hv2 hle r ih =>
    intro c σ hc hb hl1 hl2 hal hnd hself
    refine view hV hc hb hl1 fun σ1 e1 b1 lv1 => ?_
    rw [hv1] at lv1 ⊢
    refine view hV hc b1 (hl2.ext e1) fun σ2 e2 b2 lv2 => ?_
    rw [hv2] at lv2 ⊢
    simp only [AL.val, hle, Bool.false_eq_true, if_false]
    refine callMerge ?_
    refine (ih c σ2 hc b2 (lv1.ext e2) lv2.inv_cons hal hnd hself).mono ?_
    rintro σ3 v ⟨e3, b3, rfl, lv3⟩
    exact Conv.ret ⟨(e1.trans e2).trans e3, b3, rfl, .cons lv3⟩
  | case6 n1 l1 l2 h1 t1 hv1 h2 t2 hv2 hle n2 r ih =>
    intro c σ hc hb hl1 hl2 hal hnd hself
    refine view hV hc hb hl1 fun σ1 e1 b1 lv1 => ?_
    rw [hv1] at lv1 ⊢
    refine view hV hc b1 (hl2.ext e1) fun σ2 e2 b2 lv2 => ?_
    rw [hv2] at lv2 ⊢
    simp only [AL.val, hle, Bool.false_eq_true, if_false]
    have hw := hal _ (List.mem_cons_self ..)
    obtain ⟨σ3, ha3, e3, b3, h3⟩ := alloc_below b2 hw
    refine Conv.thunk (sig_merge H st _) (hself _ (List.mem_cons_self ..)) ha3 ?_
    refine Conv.ret ⟨(e1.trans e2).trans e3, b3, rfl, .name (.cons ?_)⟩
    exact .art (by omega) hw h3 ((lv1.ext e2).ext e3) (lv2.inv_cons.ext e3) (fun x hx => hal x (List.mem_cons_of_mem _ hx)) hnd
  | case7 n1 l1 n2 l2 h1 t1 hv1 m2 t2 hv2 ih =>
    intro c σ hc hb hl1 hl2 hal hnd hself
    refine view hV hc hb hl1 fun σ1 e1 b1 lv1 => ?_
    rw [hv1] at lv1 ⊢
    refine view hV hc b1 (hl2.ext e1) fun σ2 e2 b2 lv2 => ?_
    rw [hv2] at lv2 ⊢
    refine callMerge ?_
    refine (ih c σ2 hc b2 (lv1.ext e2) lv2.inv_name hal hnd hself).mono ?_
    rintro σ3 v ⟨e3, b3, rfl, lv3⟩
    exact Conv.ret ⟨(e1.trans e2).trans e3, b3, rfl, lv3⟩
  | case8 n1 l1 n2 l2 h1 t1 hv1 a t2 hv2 => exact absurd hv2 AL.strip_art
  | case9 n1 l1 n2 l2 m1 t1 hv1 ih =>
    intro c σ hc hb hl1 hl2 hal hnd hself
    refine view hV hc hb hl1 fun σ1 e1 b1 lv1 => ?_
    rw [hv1] at lv1 ⊢
    refine callMerge ?_
    refine (ih c σ1 hc b1 lv1.inv_name (hl2.ext e1) hal hnd hself).mono ?_
    rintro σ3 v ⟨e3, b3, rfl, lv3⟩
    exact Conv.ret ⟨e1.trans e3, b3, rfl, lv3⟩
  | case10 n1 l1 n2 l2 a t hv => exact absurd hv AL.strip_art

theorem mergeOk (k : Nat) : MergeOk H le hv ha st W k := by
  induction k using Nat.strongRecOn with
  | ind k ih => exact mergeOk_of (viewOk_of ih)
theorem viewOk (r : Nat) : ViewOk H le hv ha st W r := viewOk_of fun k _ => mergeOk k


/-! ### Reading the list -/

theorem vecLoop_strip (lim : Option Nat) (l : AL X) (out : List (NameElse X)) : Coll.vecLoop lim l.erase out = Coll.vecLoop lim l.strip.erase out := by
  induction l with
  | art a l ih => exact ih
  | _ => rfl

theorem vecOk {π : Path} {lim : Option Nat} (r : Nat) : ∀ (m : Nat) (l : AL X) (out : List (NameElse X)) (c : Ctx) (σ : Store (CV X)), l.size ≤ m → AncOk W c r → Below σ W →
    Live H le st W σ r l → CP H le hv ha c π (vec l.val out lim) σ fun σ' v => Ext σ σ' ∧ Below σ' W ∧ v = .vec (Coll.vecLoop lim l.erase out) := by
  intro m
  induction m with
  | zero => intro l out c σ hm; cases l <;> simp [AL.size] at hm
  | succ m ih =>
    intro l out c σ hm hc hb hl
    refine view (viewOk r) hc hb hl fun σ1 e1 b1 lv1 => ?_
    rw [vecLoop_strip]
    rcases hs : l.strip with _ | ⟨x, t⟩ | ⟨n, t⟩ | ⟨a, t⟩
    · exact Conv.ret ⟨e1, b1, rfl⟩
    · rw [hs] at lv1
      simp only [AL.val, AL.erase, ListProg.vecLoop_cons]
      by_cases hlim : lim = some (out.length + 1)
      · rw [if_pos hlim, if_pos hlim]
        exact Conv.ret ⟨e1, b1, rfl⟩
      · rw [if_neg hlim, if_neg hlim]
        refine Conv.call ?_
        have hcode : (env H le hv ha).code fVec (.vargs t.val (out ++ [.elm x]) lim) = vec t.val (out ++ [.elm x]) lim := rfl
        rw [hcode]
        refine (ih t _ c σ1 (by have := AL.strip_cons hs; omega) hc b1 lv1.inv_cons).mono ?_
        rintro σ2 v ⟨e2, b2, rfl⟩
        exact Conv.ret ⟨e1.trans e2, b2, rfl⟩
    · rw [hs] at lv1
      simp only [AL.val, AL.erase, ListProg.vecLoop_name]
      by_cases hlim : lim = some (out.length + 1)
      · rw [if_pos hlim, if_pos hlim]
        exact Conv.ret ⟨e1, b1, rfl⟩
      · rw [if_neg hlim, if_neg hlim]
        refine Conv.call ?_
        have hcode : (env H le hv ha).code fVec (.vargs t.val (out ++ [.name n]) lim) = vec t.val (out ++ [.name n]) lim := rfl
        rw [hcode]
        refine (ih t _ c σ1 (by have := AL.strip_name hs; omega) hc b1 lv1.inv_name).mono ?_
        rintro σ2 v ⟨e2, b2, rfl⟩
        exact Conv.ret ⟨e1.trans e2, b2, rfl⟩
    · exact absurd hs AL.strip_art

/-! ### Sorting -/

/-- The articulations of the tree are cells in the store. -/
def LiveT (σ : Store (CV X)) : AT X → Prop
  | .nil => True
  | .leaf _ => True
  | .bin _ l r => LiveT σ l ∧ LiveT σ r
  | .name _ _ l r => LiveT σ l ∧ LiveT σ r
  | .art a t => sigM a = .cell tyT ∧ σ a = some (.tree t.val) ∧ LiveT σ t

theorem LiveT.ext {t : AT X} (h : LiveT σ t) (he : Ext σ σ') : LiveT σ' t := by
  induction t with
  | nil => trivial
  | leaf x => trivial
  | bin lev l r ihl ihr => exact ⟨ihl h.1, ihr h.2⟩
  | name n lev l r ihl ihr => exact ⟨ihl h.1, ihr h.2⟩
  | art a t ih => exact ⟨h.1, he _ _ h.2.1, ih h.2.2⟩
theorem LiveT.strip {t : AT X} (h : LiveT σ t) : LiveT σ t.strip := by
  induction t with
  | art a l ih => exact ih h.2.2
  | _ => exact h
theorem asort_strip (mp : Path) (t : AT X) (nm : Option Name) : asort H le mp t.strip nm = asort H le mp t nm := by
  induction t with
  | art a l ih => exact ih
  | _ => rfl
theorem aMerges_strip (mp : Path) (t : AT X) (nm : Option Name) : aMerges H le mp t.strip nm = aMerges H le mp t nm := by
  induction t with
  | art a l ih => exact ih
  | _ => rfl
theorem aMemos_strip (t : AT X) (nm : Option Name) : aMemos H t.strip nm = aMemos H t nm := by
  induction t with
  | art a l ih => exact ih
  | _ => rfl

/-- Looking at a tree. -/
theorem tviewOk {π : Path} (t : AT X) : ∀ (c : Ctx), LiveT σ t → CP H le hv ha c π (tview t.val) σ fun σ' v => σ' = σ ∧ v = .tree t.strip.val := by
  induction t with
  | art a t ih =>
    intro c h
    refine Conv.forceCell h.1 h.2.1 (Conv.call ?_)
    have hcode : (env H le hv ha).code fTView (.tree t.val) = tview t.val := rfl
    rw [hcode]
    refine (ih c h.2.2).mono ?_
    rintro σ1 v ⟨rfl, rfl⟩
    exact Conv.ret ⟨rfl, rfl⟩
  | _ => intro c h; exact Conv.ret ⟨rfl, rfl⟩

/-- The merge at the end of a sort. -/
theorem mergeAt {k : Nat} {n1 n2 : Option Name} {l1 l2 : AL X} {c : Ctx} (hc : AncOk W c (k + 1)) (hself : c.self ∈ c.anc) (hb : Below σ W)
    (h1 : Live H le st W σ k l1) (h2 : Live H le st W σ k l2)
    (hal : ∀ x ∈ (amerge H le (mergePath H st) n1 l1 n2 l2).2.map fun p => (p.1, p.2, k), W (at' (mergePath H st) x.1) = some x.2)
    (hnd : (((amerge H le (mergePath H st) n1 l1 n2 l2).2.map fun p => (p.1, p.2, k)).map Prod.fst).Nodup) :
    CP H le hv ha c (stagePath st) (mergeWrapper H n1 l1.val n2 l2.val) σ fun σ' v =>
      Ext σ σ' ∧ Below σ' W ∧ v = .lst (amerge H le (mergePath H st) n1 l1 n2 l2).1.val ∧ Live H le st W σ' (k + 1) (amerge H le (mergePath H st) n1 l1 n2 l2).1 := by
  have hal' : AllocOk (mergePath H st) W k (amerge H le (mergePath H st) n1 l1 n2 l2).2 := fun x hx => hal _ (List.mem_map.2 ⟨x, hx, rfl⟩)
  refine Conv.ns (callMerge ?_)
  refine (mergeOk k n1 l1 n2 l2 c σ (hc.mono (by omega)) hb h1 h2 hal' ?_ ?_).mono ?_
  · rw [List.map_map] at hnd; exact hnd
  · intro x hx he
    exact hc.not_mem (hal' x hx) (by omega) (he ▸ hself)
  · rintro σ3 v ⟨e3, b3, rfl, lv3⟩
    exact Conv.ret (Conv.ret ⟨e3, b3, rfl, lv3⟩)

/-- The recursive call of the sort through a thunk. -/
theorem memoAt {k : Nat} {n : Name} {t : AT X} {nm : Option Name} {c : Ctx} {Kc : LV X → Prog (CV X)} {Q : Store (CV X) → CV X → Prop}
    (hc : AncOk W c (k + 1)) (hself : c.self ∈ c.anc) (hk : 2 * t.ht + 1 ≤ k) (hb : Below σ W)
    (hal : W (at' (stagePath st) n) = some (.sargs t.val nm, 2 * t.ht + 1))
    (h : ∀ (c' : Ctx) σ1, AncOk W c' (2 * t.ht + 1) → c'.self ∈ c'.anc → Ext σ σ1 → Below σ1 W →
      CP H le hv ha c' (stagePath st) (sort3 H t.val nm) σ1 fun σ2 v => ∃ l, v = .lst l ∧ CP H le hv ha c (stagePath st) (Kc l) σ2 Q) :
    CP H le hv ha c (stagePath st) (.thunk tyL (.nominal n) ppSort3 fSort3 (.sargs t.val nm) fun a => .force tyL a none (onLst Kc)) σ Q := by
  obtain ⟨σ1, ha1, e1, b1, h1⟩ := alloc_below hb hal
  have hnot : at' (stagePath st) n ∉ c.anc := hc.not_mem hal (by omega)
  refine Conv.thunk (sig_stage st _) (fun e => hnot (by rw [show at' (stagePath st) n = c.self from e]; exact hself)) ha1 ?_
  refine Conv.forceThunk (sig_stage st _) hnot h1 rfl ?_
  have hcode : (env H le hv ha).code fSort3 (.sargs t.val nm) = sort3 H t.val nm := rfl
  rw [hcode]
  refine (h ⟨at' (stagePath st) n, at' (stagePath st) n :: c.anc⟩ σ1 (hc.cons hal (by omega)) (List.mem_cons_self ..) e1 b1).mono ?_
  rintro σ2 v ⟨l, rfl, h⟩
  exact h

theorem sortOk : ∀ (m : Nat) (t : AT X) (nm : Option Name) (c : Ctx) (σ : Store (CV X)), t.size ≤ m → AncOk W c (2 * t.ht + 1) → c.self ∈ c.anc → Below σ W → LiveT σ t →
    (∀ x ∈ aMemos H t nm, W (at' (stagePath st) x.1) = some x.2) → (∀ x ∈ aMerges H le (mergePath H st) t nm, W (at' (mergePath H st) x.1) = some x.2) →
    ((aMerges H le (mergePath H st) t nm).map Prod.fst).Nodup →
    CP H le hv ha c (stagePath st) (sort3 H t.val nm) σ fun σ' v =>
      Ext σ σ' ∧ Below σ' W ∧ v = .lst (asort H le (mergePath H st) t nm).val ∧ Live H le st W σ' (2 * t.ht + 1) (asort H le (mergePath H st) t nm) := by
  intro m
  induction m with
  | zero => intro t nm c σ hm; cases t <;> simp [AT.size] at hm
  | succ m ih =>
    intro t nm c σ hm hc hself hb hl hmm hal hnd
    rw [← aMerges_strip] at hal hnd
    rw [← aMemos_strip] at hmm
    rw [← asort_strip]
    rw [← AT.strip_ht] at hc ⊢
    refine Conv.call ?_
    have hcode : (env H le hv ha).code fTView (.tree t.val) = tview t.val := rfl
    rw [hcode]
    refine (tviewOk t c hl).mono ?_
    rintro σ0 v ⟨rfl, rfl⟩
    have hsz := t.strip_size
    have hl := hl.strip
    rcases hst : t.strip with _ | ⟨x⟩ | ⟨lev, l, r⟩ | ⟨n, lev, l, r⟩ | ⟨a, u⟩
    · exact Conv.ret ⟨Ext.refl _, hb, rfl, .nil⟩
    · refine Conv.ret ⟨Ext.refl _, hb, ?_, live_nameOp (.cons .nil)⟩
      show _ = CV.lst (nameOp nm (AL.cons x .nil)).val
      rw [nameOp_val]; rfl
    · rw [hst] at hal hnd hc hsz hl hmm
      simp only [AT.size] at hsz
      have hh : (AT.bin lev l r).ht = max l.ht r.ht + 1 := rfl
      simp only [aMerges, List.map_append] at hal hnd
      simp only [aMemos] at hmm
      have ha1 := fun x hx => hal x (List.mem_append_left _ (List.mem_append_left _ hx))
      have ha2 := fun x hx => hal x (List.mem_append_left _ (List.mem_append_right _ hx))
      have ha3 := fun x hx => hal x (List.mem_append_right _ hx)
      obtain ⟨hn12, hn3, _⟩ := List.nodup_append.1 hnd
      obtain ⟨hn1, hn2, _⟩ := List.nodup_append.1 hn12
      refine Conv.call ?_
      have hcode : (env H le hv ha).code fSort3 (.sargs l.val nm) = sort3 H l.val nm := rfl
      rw [hcode]
      refine (ih l nm c _ (by omega) (hc.mono (by omega)) hself hb hl.1 (fun x hx => hmm x (List.mem_append_left _ hx)) ha1 hn1).mono ?_
      rintro σ1 v ⟨e1, b1, rfl, lv1⟩
      refine Conv.call ?_
      have hcode : (env H le hv ha).code fSort3 (.sargs r.val none) = sort3 H r.val none := rfl
      rw [hcode]
      refine (ih r none c _ (by omega) (hc.mono (by omega)) hself b1 (hl.2.ext e1) (fun x hx => hmm x (List.mem_append_right _ hx)) ha2 hn2).mono ?_
      rintro σ2 v ⟨e2, b2, rfl, lv2⟩
      refine (mergeAt hc hself b2 ((lv1.ext e2).mono (by omega)) (lv2.mono (by omega)) ha3 hn3).mono ?_
      rintro σ3 v ⟨e3, b3, rfl, lv3⟩
      exact ⟨(e1.trans e2).trans e3, b3, rfl, lv3⟩
    · rw [hst] at hal hnd hc hsz hl hmm
      simp only [AT.size] at hsz
      have hh : (AT.name n lev l r).ht = max l.ht r.ht + 1 := rfl
      simp only [aMerges, List.map_append] at hal hnd
      simp only [aMemos] at hmm
      have ha1 := fun x hx => hal x (List.mem_append_left _ (List.mem_append_left _ hx))
      have ha2 := fun x hx => hal x (List.mem_append_left _ (List.mem_append_right _ hx))
      have ha3 := fun x hx => hal x (List.mem_append_right _ hx)
      have w1 : W (at' (stagePath st) (nameFork H n).1) = some (.sargs l.val nm, 2 * l.ht + 1) := hmm _ (List.mem_append_left _ (List.mem_cons_self ..))
      have w2 : W (at' (stagePath st) (nameFork H n).2) = some (.sargs r.val (some n), 2 * r.ht + 1) := hmm _ (List.mem_append_right _ (List.mem_cons_self ..))
      obtain ⟨hn12, hn3, _⟩ := List.nodup_append.1 hnd
      obtain ⟨hn1, hn2, _⟩ := List.nodup_append.1 hn12
      refine memoAt (t := l) hc hself (by omega) hb w1 fun c1 σ1 hc1 hs1 e1 b1 => ?_
      refine (ih l nm c1 _ (by omega) hc1 hs1 b1 (hl.1.ext e1) (fun x hx => hmm x (List.mem_append_left _ (List.mem_cons_of_mem _ hx))) ha1 hn1).mono ?_
      rintro σ2 v ⟨e2, b2, rfl, lv2⟩
      refine ⟨_, rfl, ?_⟩
      refine memoAt (t := r) hc hself (by omega) b2 w2 fun c3 σ3 hc3 hs3 e3 b3 => ?_
      refine (ih r (some n) c3 _ (by omega) hc3 hs3 b3 (((hl.2.ext e1).ext e2).ext e3) (fun x hx => hmm x (List.mem_append_right _ (List.mem_cons_of_mem _ hx))) ha2 hn2).mono ?_
      rintro σ4 v ⟨e4, b4, rfl, lv4⟩
      refine ⟨_, rfl, ?_⟩
      refine (mergeAt hc hself b4 (((lv2.ext e3).ext e4).mono (by omega)) (lv4.mono (by omega)) ha3 hn3).mono ?_
      rintro σ5 v ⟨e5, b5, rfl, lv5⟩
      exact ⟨(((e1.trans e2).trans e3).trans e4).trans e5, b5, rfl, lv5⟩
    · exact absurd hst AT.strip_art

/-- A demand, with the articulations of the tree. -/
structure AD (X : Type) where
  stage : Name
  tree : AT X
  nm : Option Name
  limit : Option Nat

def AD.dem (d : AD X) : Dem X := ⟨d.tree.erase, d.nm, d.limit⟩
def AD.arg (d : AD X) : CV X := .root d.stage d.tree.val d.nm d.limit
def AD.allocs (H : NameHash) (le : X → X → Bool) (d : AD X) : List (Loc × CV X × Nat) :=
  (aMemos H d.tree d.nm).map (fun x => (at' (stagePath d.stage) x.1, x.2)) ++
    (aMerges H le (mergePath H d.stage) d.tree d.nm).map (fun x => (at' (mergePath H d.stage) x.1, x.2))

theorem rootOk {d : AD X} {c : Ctx} {π : Path} (hπ : π = rootPath) (hg : Coll.Independent (Coll.optNames d.nm ++ d.tree.erase.names)) (hc : AncOk W c (2 * d.tree.ht + 1)) (hs : c.self ∈ c.anc)
    (hb : Below σ W) (hl : LiveT σ d.tree) (hal : ∀ x ∈ d.allocs H le, W x.1 = some x.2) :
    CP H le hv ha c π (root d.stage d.tree.val d.nm d.limit) σ fun σ' v => Ext σ σ' ∧ Below σ' W ∧ v = answer H le d.dem := by
  subst hπ
  refine Conv.ns (Conv.call ?_)
  have hcode : (env H le hv ha).code fSort3 (.sargs d.tree.val d.nm) = sort3 H d.tree.val d.nm := rfl
  rw [hcode]
  have hnd : ((aMerges H le (mergePath H d.stage) d.tree d.nm).map Prod.fst).Nodup := by
    rw [aMerges_model]
    exact (Coll.C62_mergesort3_names H le d.tree.erase d.nm hg).1
  refine (sortOk (st := d.stage) d.tree.size d.tree d.nm c σ (Nat.le_refl _) hc hs hb hl ?_ ?_ hnd).mono ?_
  · intro x hx
    exact hal _ (List.mem_append_left _ (List.mem_map.2 ⟨x, hx, rfl⟩))
  · intro x hx
    exact hal _ (List.mem_append_right _ (List.mem_map.2 ⟨x, hx, rfl⟩))
  rintro σ1 v ⟨e1, b1, rfl, lv1⟩
  refine Conv.ret (Conv.call ?_)
  have hcode : (env H le hv ha).code fVec (.vargs (asort H le (mergePath H d.stage) d.tree d.nm).val [] d.limit) = vec (asort H le (mergePath H d.stage) d.tree d.nm).val [] d.limit := rfl
  rw [hcode]
  refine (vecOk _ _ _ _ c σ1 (Nat.le_refl _) hc b1 lv1).mono ?_
  rintro σ2 v ⟨e2, b2, rfl⟩
  refine Conv.ret ⟨e1.trans e2, b2, ?_⟩
  rw [asort_model]
  show CV.vec (Coll.vecOfList (Coll.mergesort3 H le d.tree.erase d.nm) d.limit) = CV.vec (limited d.limit (Coll.mergesort3 H le d.tree.erase d.nm).items)
  congr 1
  have h := Coll.vec_of_list_items (Coll.mergesort3 H le d.tree.erase d.nm)
  rcases d.limit with _ | _ | k
  · exact h.1
  · exact Coll.list_demand_zero _
  · exact h.2 (k + 1) (by omega)

/-! ### The session -/

/-- The articulations of the tree are cells of the editor. -/
def LiveC (cs : Cells (CV X)) : AT X → Prop
  | .nil => True
  | .leaf _ => True
  | .bin _ l r => LiveC cs l ∧ LiveC cs r
  | .name _ _ l r => LiveC cs l ∧ LiveC cs r
  | .art a t => (∃ n, a = cellAt n ∧ cs n = some (.tree t.val)) ∧ LiveC cs t

theorem LiveC.live {cs : Cells (CV X)} {t : AT X} (h : LiveC cs t) (hcs : ∀ n v, cs n = some v → σ (cellAt n) = some v) : LiveT σ t := by
  induction t with
  | nil => trivial
  | leaf x => trivial
  | bin bs l r ihl ihr => exact ⟨ihl h.1, ihr h.2⟩
  | name n lev l r ihl ihr => exact ⟨ihl h.1, ihr h.2⟩
  | art a t ih =>
    obtain ⟨⟨n, rfl, h1⟩, h2⟩ := h
    exact ⟨sig_cellAt n, hcs _ _ h1, ih h2⟩
theorem LiveC.ext {cs cs' : Cells (CV X)} {t : AT X} (h : LiveC cs t) (he : ∀ n v, cs n = some v → cs' n = some v) : LiveC cs' t := by
  induction t with
  | nil => trivial
  | leaf x => trivial
  | bin bs l r ihl ihr => exact ⟨ihl h.1, ihr h.2⟩
  | name n lev l r ihl ihr => exact ⟨ihl h.1, ihr h.2⟩
  | art a t ih =>
    obtain ⟨⟨n, rfl, h1⟩, h2⟩ := h
    exact ⟨⟨n, rfl, he _ _ h1⟩, ih h2⟩
theorem LiveC.unique {cs : Cells (CV X)} {t : AT X} : ∀ {t' : AT X}, LiveC cs t → LiveC cs t' → t.val = t'.val → t = t' := by
  induction t with
  | nil => intro t' _ _ e; cases t' <;> simp [AT.val] at e ⊢
  | leaf x => intro t' _ _ e; cases t' <;> simp [AT.val] at e ⊢; exact e
  | bin lev l r ihl ihr =>
    intro t' h h' e
    cases t' <;> simp [AT.val] at e
    rename_i lev' l' r'
    obtain ⟨rfl, e1, e2⟩ := e
    rw [ihl h.1 (t' := l') h'.1 e1, ihr h.2 (t' := r') h'.2 e2]
  | name n lev l r ihl ihr =>
    intro t' h h' e
    cases t' <;> simp [AT.val] at e
    rename_i n' lev' l' r'
    obtain ⟨rfl, rfl, e1, e2⟩ := e
    rw [ihl h.1 (t' := l') h'.1 e1, ihr h.2 (t' := r') h'.2 e2]
  | art a t ih =>
    intro t' h h' e
    cases t' <;> simp [AT.val] at e
    rename_i a' t'
    subst e
    obtain ⟨⟨n, rfl, h1⟩, h2⟩ := h
    obtain ⟨⟨n', e', h1'⟩, h2'⟩ := h'
    have : n = n' := by simpa [cellAt] using e'
    subst this
    rw [h1] at h1'
    injection h1' with h1'
    injection h1' with h1'
    rw [ih h2 h2' h1']

theorem Unfolds.annot {cs : Cells (CV X)} {v : TV X} {t : Tree X} (h : Unfolds cs v t) : ∃ a : AT X, a.val = v ∧ a.erase = t ∧ LiveC cs a := by
  induction h with
  | nil => exact ⟨.nil, rfl, rfl, trivial⟩
  | leaf => exact ⟨.leaf _, rfl, rfl, trivial⟩
  | bin _ _ ihl ihr => obtain ⟨a, rfl, rfl, a3⟩ := ihl; obtain ⟨b, rfl, rfl, b3⟩ := ihr; exact ⟨.bin _ a b, rfl, rfl, a3, b3⟩
  | name _ _ ihl ihr => obtain ⟨a, rfl, rfl, a3⟩ := ihl; obtain ⟨b, rfl, rfl, b3⟩ := ihr; exact ⟨.name _ _ a b, rfl, rfl, a3, b3⟩
  | @art n v t hn _ ih =>
    obtain ⟨a, rfl, rfl, a3⟩ := ih
    exact ⟨.art (cellAt n) a, rfl, rfl, ⟨n, rfl, hn⟩, a3⟩

/-- The program as one that the editor demands. -/
def theRoot (H : NameHash) (le : X → X → Bool) (hv : CV X → UInt64) (ha : ProgPt → CV X → UInt64) (rn : Name) : EditSession.Root (CV X) where
  sig := sigM
  env := env H le hv ha
  ns := rootNm
  rn := rn
  ty := tyV
  pp := ppRoot
  fn := fRoot
  cty := tyT
  D := AD X
  arg d := d.arg
  res d := answer H le d.dem
  rank d := 2 * d.tree.ht + 1
  allocs d := d.allocs H le
  ok cs d := LiveC cs d.tree ∧ Coll.Independent (Coll.optNames d.nm ++ d.tree.erase.names)

theorem nodup_at {p : Path} {as : List (Name × CV X × Nat)} (h : (as.map Prod.fst).Nodup) : (as.map fun x => at' p x.1).Nodup := by
  rw [show (as.map fun x => at' p x.1) = (as.map Prod.fst).map (at' p) by rw [List.map_map]; rfl]
  exact List.pairwise_map.2 (List.Pairwise.imp (fun hab e => hab (at_inj e)) h)

theorem alloc_locs (d : AD X) : (d.allocs H le).map Prod.fst =
    (aMemos H d.tree d.nm).map (fun x => at' (stagePath d.stage) x.1) ++ (aMerges H le (mergePath H d.stage) d.tree d.nm).map (fun x => at' (mergePath H d.stage) x.1) := by
  unfold AD.allocs
  rw [List.map_append, List.map_map, List.map_map]
  rfl

theorem alloc_nodup {d : AD X} (h : Coll.Independent (Coll.optNames d.nm ++ d.tree.erase.names)) : ((d.allocs H le).map Prod.fst).Nodup := by
  rw [alloc_locs]
  have hn := Coll.C62_mergesort3_names H le d.tree.erase d.nm h
  refine List.nodup_append.2 ⟨nodup_at ?_, nodup_at ?_, ?_⟩
  · rw [aMemos_model]; exact hn.2.1
  · rw [aMerges_model]; exact hn.1
  · rintro l hl _ hl' rfl
    obtain ⟨x, _, rfl⟩ := List.mem_map.1 hl
    obtain ⟨y, _, e⟩ := List.mem_map.1 hl'
    have := congrArg Loc.path e
    simp [at', mergePath, stagePath, rootPath] at this
theorem alloc_away {d : AD X} (x : Loc × CV X × Nat) (hx : x ∈ d.allocs H le) {rn : Name} : x.1.path ≠ .empty ∧ x.1 ≠ (theRoot H le hv ha rn).loc ∧ x.1.isStruct = false := by
  have hx : x.1 ∈ (d.allocs H le).map Prod.fst := List.mem_map_of_mem hx
  rw [alloc_locs] at hx
  rcases List.mem_append.1 hx with hx | hx
  · obtain ⟨y, _, e⟩ := List.mem_map.1 hx
    rw [← e]
    refine ⟨by simp [at', stagePath], fun e => ?_, rfl⟩
    have := congrArg Loc.path e
    simp [at', stagePath, rootPath, EditSession.Root.loc, theRoot] at this
  · obtain ⟨y, _, e⟩ := List.mem_map.1 hx
    rw [← e]
    refine ⟨by simp [at', mergePath], fun e => ?_, rfl⟩
    have := congrArg Loc.path e
    simp [at', mergePath, stagePath, rootPath, EditSession.Root.loc, theRoot] at this

theorem lawful (rn : Name) : (theRoot H le hv ha rn).Lawful where
  mode := ⟨rfl, fun _ => rfl⟩
  sig_root := rfl
  sig_cell := sig_cellAt
  ext cs cs' d h hok := ⟨LiveC.ext hok.1 h, hok.2⟩
  unique cs d d' h h' e := by
    obtain ⟨st, t, nm, lim⟩ := d
    obtain ⟨st', t', nm', lim'⟩ := d'
    injection e with e1 e2 e3 e4
    have e1 : st = st' := e1
    have e3 : nm = nm' := e3
    have e4 : lim = lim' := e4
    have h1 : LiveC cs t := h.1
    rw [e1, e3, e4, h1.unique h'.1 e2]
  nodup cs d h := alloc_nodup h.2
  away cs d h x hx := alloc_away x hx
  conv cs d h W σ hcs hal hb hrt := by
    refine rootOk (d := d) rfl h.2 ?_ (List.mem_cons_self ..) hb (LiveC.live h.1 hcs) hal
    intro a ha
    rcases List.mem_cons.1 ha with rfl | ha
    · exact ⟨_, _, hrt, Nat.le_refl _⟩
    · cases ha

theorem demands {rn : Name} {ss : List (Step X)} : ∀ {cs : Cells (CV X)} {ds : List (Dem X)}, Demands cs ss ds →
    ∃ es, (theRoot H le hv ha rn).Demands cs (ss.map fun s => ⟨s.edits, .root s.stage s.tree s.nm s.limit⟩) es ∧
      es.map (theRoot H le hv ha rn).res = ds.map (answer H le) := by
  induction ss with
  | nil => intro cs ls h; cases h; exact ⟨[], .nil, rfl⟩
  | cons s ss ih =>
    intro cs ls h
    cases h with
    | @cons _ cs' _ _ t _ h1 h2 h3 h4 =>
      obtain ⟨ds, d1, d2⟩ := ih h4
      obtain ⟨a, a1, rfl, a3⟩ := h2.annot
      refine ⟨(⟨s.stage, a, s.nm, s.limit⟩ : AD X) :: ds, .cons h1 ⟨a3, h3⟩ ?_ d1, ?_⟩
      · show CV.root s.stage a.val s.nm s.limit = _
        rw [a1]
      · exact congrArg (List.cons _) d2

/-- The sessions have a meaning. -/
theorem merge_session_means (rn : Name) (ss : List (Step X)) (ds : List (Dem X)) (h : Demands (fun _ => none) ss ds) :
    Means sigM (env H le hv ha) (ss.map (stepProg rn)) (ds.map (answer H le)) := by
  obtain ⟨es, d1, d2⟩ := demands (H := H) (le := le) (hv := hv) (ha := ha) (rn := rn) h
  have := EditSession.means (lawful rn) _ es d1
  rw [d2, List.map_map] at this
  exact this

/-- **C81.** `mergesort_list_of_tree3` on the engine.  The editor edits cells that hold trees, in any way, and demands, again and again, the items of the sorted list, or the first few of them, for any tree
made of those cells, any name, any namespace of the sort.  If at each demand the articulations of the tree can be followed to the end and no name in it is made from another, then the engine
terminates without panic, and returns what sorting the tree as it is then returns from scratch. -/
theorem C81_mergesort3_session (rn : Name) (ss : List (Step X)) (ds : List (Dem X)) (h : Demands (fun _ => none) ss ds) (purity : Bool) :
    (∃ N s', ∀ n, N ≤ n → runSession (env H le hv ha) n (ss.map (stepProg rn)) (initSt purity false) = .ok (ds.map (answer H le)) s') ∧
    (∀ n err s', runSession (env H le hv ha) n (ss.map (stepProg rn)) (initSt purity false) ≠ .panic err s') ∧
    ∀ n vs' s', runSession (env H le hv ha) n (ss.map (stepProg rn)) (initSt purity false) = .ok vs' s' → vs' = ds.map (answer H le) := by
  have hm := merge_session_means (H := H) (le := le) (hv := hv) (ha := ha) rn ss ds h
  refine ⟨?_, ?_, ?_⟩
  · exact (C02_terminates_without_panic sigM (env H le hv ha) _ _ hm purity fun _ => rfl).1
  · exact (C02_terminates_without_panic sigM (env H le hv ha) _ _ hm purity fun _ => rfl).2
  · intro n vs' s' he
    exact C01_from_scratch_consistency sigM (env H le hv ha) _ _ hm purity (fun _ => rfl) n vs' s' he

/-- The answers of C81: without a limit, the elements are the leaves of the tree, sorted, in the order of the tree where they compare equal, and no name occurs twice; with a limit, the first items of that. -/
theorem C81_answers (ho : Coll.TotalOrder le) (t : Tree X) (nm : Option Name) (hi : Coll.Independent (Coll.optNames nm ++ t.names)) :
    ∃ items : List (NameElse X), Coll.SortOf le t.leaves (Coll.elmsOf items) ∧ (Coll.namesOf items).Nodup ∧
      answer H le ⟨t, nm, none⟩ = .vec items ∧ ∀ k, 0 < k → answer H le ⟨t, nm, some k⟩ = .vec (items.take k) := by
  refine ⟨(Coll.mergesort3 H le t nm).items, Coll.mergesort3_sorts H le ho t nm, ?_, rfl, ?_⟩
  · exact (Coll.C62_mergesort3_names H le t nm hi).2.2.2.1
  · intro k hk
    cases k with
    | zero => omega
    | succ k => rfl

end Adapton.MergeProg

/-! ### A session that meets the hypotheses -/
namespace Adapton.MergeProg.Example81
open Coll (Tree NameElse)
open EditSession (cellAt)
def H : NameHash := ⟨fun a b => a + 3 * b, fun n => n.toUInt64, fun _ => 0, fun _ => 7, fun h i => 5 * h + i.toUInt64⟩
def nm (n : Nat) : Name := nameOfUsize H n
def le (a b : Nat) : Bool := decide (a ≤ b)
/-- The tree: `name 1` over the cell 10 and a binary node. -/
def theTree : SortProg.TV Nat := .name (nm 1) 3 (.art (cellAt (nm 10))) (.bin 1 (.leaf 4) (.leaf 6))
def t1 : Tree Nat := .name (nm 1) 3 (.art (.name (nm 2) 2 (.leaf 7) (.leaf 2))) (.bin 1 (.leaf 4) (.leaf 6))
def t2 : Tree Nat := .name (nm 1) 3 (.art (.name (nm 2) 2 (.bin 1 (.leaf 5) (.art (.name (nm 3) 1 (.leaf 9) (.leaf 1)))) (.leaf 2))) (.bin 1 (.leaf 4) (.leaf 6))
def t3 : Tree Nat := .name (nm 1) 3 (.art .nil) (.bin 1 (.leaf 4) (.leaf 6))
def steps : List (Step Nat) :=
  [⟨[.cell (nm 10) (.tree (.name (nm 2) 2 (.leaf 7) (.leaf 2)))], nm 20, theTree, some (nm 0), none⟩,
   ⟨[.cell (nm 11) (.tree (.name (nm 3) 1 (.leaf 9) (.leaf 1))), .set (nm 10) (.tree (.name (nm 2) 2 (.bin 1 (.leaf 5) (.art (cellAt (nm 11)))) (.leaf 2)))], nm 20, theTree, some (nm 0), none⟩,
   ⟨[], nm 20, theTree, none, some 3⟩, ⟨[], nm 21, theTree, some (nm 0), some 4⟩, ⟨[.set (nm 10) (.tree .nil)], nm 20, theTree, some (nm 0), none⟩]
def dems : List (Dem Nat) := [⟨t1, some (nm 0), none⟩, ⟨t2, some (nm 0), none⟩, ⟨t2, none, some 3⟩, ⟨t2, some (nm 0), some 4⟩, ⟨t3, some (nm 0), none⟩]

theorem meets : Demands (fun _ => none) steps dems := by
  have hn : ∀ ns : List Nat, (((ns.map nm).map Name.sym)).Nodup → Coll.Independent (ns.map nm) := by
    intro ns h
    refine Coll.C62_plain_names h ?_
    intro n hn
    obtain ⟨m, _, rfl⟩ := List.mem_map.1 hn
    intro k
    constructor <;> intro e <;> cases e
  refine .cons rfl (.name (.art rfl (.name .leaf .leaf)) (.bin .leaf .leaf)) (hn [0, 2, 1] (by decide)) ?_
  refine .cons rfl (.name (.art rfl (.name (.bin .leaf (.art rfl (.name .leaf .leaf))) .leaf)) (.bin .leaf .leaf)) (hn [0, 3, 2, 1] (by decide)) ?_
  refine .cons rfl (.name (.art rfl (.name (.bin .leaf (.art rfl (.name .leaf .leaf))) .leaf)) (.bin .leaf .leaf)) (hn [3, 2, 1] (by decide)) ?_
  refine .cons rfl (.name (.art rfl (.name (.bin .leaf (.art rfl (.name .leaf .leaf))) .leaf)) (.bin .leaf .leaf)) (hn [0, 3, 2, 1] (by decide)) ?_
  exact .cons rfl (.name (.art rfl .nil) (.bin .leaf .leaf)) (hn [0, 1] (by decide)) .nil

def elems : CV Nat → List Nat
  | .vec v => Coll.elmsOf v
  | _ => []

example : (match runSession (env H le (fun _ => 0) (fun _ _ => 0)) 80 (steps.map (stepProg (nm 0))) (initSt true false) with
    | .ok vs _ => vs.map elems
    | _ => []) = [[2, 4, 6, 7], [1, 2, 4, 5, 6, 9], [1], [1, 2], [4, 6]] := by decide +kernel

def panicOf (ps : List (Prog (CV Nat))) : Option Err :=
  match runSession (env H le (fun _ => 0) (fun _ _ => 0)) 80 ps (initSt true false) with
  | .panic e _ => some e
  | _ => none

/-- The names must be independent: a name above itself, -/
theorem C81_repeated_name_panics : panicOf [stepProg (nm 0) ⟨[], nm 20, .name (nm 1) 3 (.name (nm 1) 3 (.leaf 4) (.leaf 7)) (.leaf 5), none, none⟩] = some .unexpectedCycle := by decide +kernel
/-- beside itself, -/
theorem C81_repeated_name_panics' :
    panicOf [stepProg (nm 0) ⟨[], nm 20, .bin 3 (.name (nm 1) 3 (.leaf 4) (.leaf 7)) (.name (nm 1) 3 (.leaf 5) (.leaf 8)), none, none⟩] = some .dupMiss := by decide +kernel
def itemsOf (ps : List (Prog (CV Nat))) : List (List Nat) :=
  match runSession (env H le (fun _ => 0) (fun _ _ => 0)) 80 ps (initSt true false) with
  | .ok vs _ => vs.map elems
  | _ => []
/-- and if the sort is given a name that is in the tree, then a merge can become part of its own rest: of the tree with the leaves 4, 9, 3 and 7 the first elements are 3, 4, 4, 4, 4, 4, … -/
theorem C81_given_name_in_tree_repeats_elements :
    itemsOf [stepProg (nm 0) ⟨[], nm 20, .name (nm 1) 3 (.bin 1 (.leaf 4) (.leaf 9)) (.bin 1 (.leaf 3) (.leaf 7)), some (nm 1), some 12⟩] = [[3, 4, 4, 4, 4, 4]] := by decide +kernel

end Adapton.MergeProg.Example81
