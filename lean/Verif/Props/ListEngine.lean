import Verif.Engine.EditSession
import Verif.Collections.ListProg
import Verif.Props.Lists
import Verif.Props.TreeEngine
/-
C75: the list functions of the catalog on the engine.  An editor edits the cells of a list and demands what a chain of `list_map_*`, `list_filter_*` and
`list_reverse` makes of it, again and again; every demand returns the items of the current list, treated by the functions of the chain.
-/
set_option linter.unusedSectionVars false
set_option linter.unusedVariables false
namespace Adapton.ListProg
open Coll (NameElse Lst elmsOf namesOf)
open SortProg (LV AL)
open Ref (Sig Kind Store Ctx Ext ES Means alloc)
open EditSession (World Below AncOk alloc_below Cells Edit applyAll cellAt)
variable {X : Type} [DecidableEq X] (H : NameHash)

/-! ### The specification -/

/-- What a function does to an item of the list. -/
def specItem (s : Style) (g : X → Option X) : NameElse X → Option (NameElse X)
  | .elm x => (g x).map .elm
  | .name n =>
    match s with
    | .lazy => none
    | .eager => some (.name n)
    | .eager2 => some (.name (nameFork3 H n).1)

/-- What a stage does to the items of the list; `list_reverse` moves the names to the front. -/
def specOp (g : Nat → X → Option X) : Op → List (NameElse X) → List (NameElse X)
  | .each s i, items => items.filterMap (specItem H s (g i))
  | .rev, items => (namesOf items).map .name ++ (elmsOf items).reverse.map .elm

/-- What a chain of stages does. -/
def specChain (opAt : Name → Op) (g : Nat → X → Option X) (nms : List Name) (items : List (NameElse X)) : List (NameElse X) :=
  nms.foldl (fun items nm => specOp H g (opAt nm) items) items

/-- What a limit does: zero is no limit. -/
def limited {A : Type} : Option Nat → List A → List A
  | some (k + 1), s => s.take (k + 1)
  | _, s => s

/-- The list `l` is what the value `v` stands for: the articulations in it are cells of the editor, and are replaced by what they hold. -/
inductive Unfolds (cs : Cells (CV X)) : LV X → Lst X → Prop
  | nil : Unfolds cs .nil .nil
  | cons {x v l} : Unfolds cs v l → Unfolds cs (.cons x v) (.cons x l)
  | name {n v l} : Unfolds cs v l → Unfolds cs (.name n v) (.name n l)
  | art {n v l} : cs n = some (.lst v) → Unfolds cs v l → Unfolds cs (.art (cellAt n)) (.art l)

/-- A name that `list_reverse` makes. -/
def isRev : NameSym → Bool
  | .pair a _ => decide (a = .str "rev")
  | _ => false

/-- The names in the list are distinct, and none is one that `list_reverse` makes. -/
def GoodNames (s : List (NameElse X)) : Prop := ((namesOf s).map Name.sym).Nodup ∧ ∀ n ∈ namesOf s, isRev n.sym = false

/-- A step of the session: some edits, then a demand of what the stages, each in the namespace given, make of the list. -/
structure Step (X : Type) where
  edits : List (Edit (CV X))
  stages : List Name
  list : LV X
  limit : Option Nat

/-- What is demanded in a session: the stages, the list, the limit. -/
inductive Demands : Cells (CV X) → List (Step X) → List (List Name × Lst X × Option Nat) → Prop
  | nil {cs} : Demands cs [] []
  | cons {cs cs' s ss l ls} : applyAll cs s.edits = some cs' → Unfolds cs' s.list l → GoodNames l.items → s.stages.Nodup → Demands cs' ss ls →
      Demands cs (s :: ss) ((s.stages, l, s.limit) :: ls)

/-- The namespace of the program. -/
def rootNm : Name := ⟨0, .str "list"⟩

/-- The code of the editor for one step: the edits, and then `ns("list", || get!(thunk!([Some(rn)]? { … })))`. -/
def stepProg (rn : Name) (s : Step X) : Prog (CV X) :=
  EditSession.editProg tyL s.edits <|
    .ns rootNm (.thunk tyV (.nominal rn) ppRoot fRoot (.root s.stages s.list s.limit) fun l => .force tyV l none .ret) .ret

/-! ### The signature -/

def rootPath : Path := .child .empty rootNm
def stagePath (nm : Name) : Path := .child rootPath nm

def isForkL : NameSym → Bool
  | .forkL _ => true
  | _ => false

def stageKind : Op → ArtId → Kind
  | .each .eager2 i, .nominal n => if isForkL n.sym then .thunk tyL (ppEach .eager2) (fEach .eager2 i) else .cell tyL
  | .each s i, .nominal _ => .thunk tyL (ppEach s) (fEach s i)
  | .rev, .nominal n => if isRev n.sym then .cell tyL else .thunk tyL ppRev fRev
  | _, .structural _ => .cell tyL

def sigKind (opAt : Name → Op) (l : Loc) : Kind :=
  match l.path with
  | .empty => .cell tyL
  | .child p nm => if l.path = rootPath then .thunk tyV ppRoot fRoot else if p = rootPath then stageKind (opAt nm) l.id else .cell tyL

def sigL (opAt : Name → Op) : Sig := { kind := sigKind opAt }

variable {opAt : Name → Op} {g : Nat → X → Option X}

theorem sig_stage (nm : Name) (id : ArtId) : sigL opAt ⟨stagePath nm, id⟩ = stageKind (opAt nm) id := by
  have h : stagePath nm ≠ rootPath := by simp [stagePath, rootPath]
  show sigKind opAt ⟨stagePath nm, id⟩ = _
  unfold sigKind
  show (if stagePath nm = rootPath then _ else if rootPath = rootPath then stageKind (opAt nm) id else _) = _
  rw [if_neg h, if_pos rfl]

theorem sig_each {nm n : Name} {s : Style} {i : Nat} (h : opAt nm = .each s i) (hs : s ≠ .eager2) :
    sigL opAt ⟨stagePath nm, .nominal n⟩ = .thunk tyL (ppEach s) (fEach s i) := by
  rw [sig_stage, h]; cases s <;> first | rfl | exact absurd rfl hs
theorem sig_eager2 {nm n : Name} {i : Nat} (h : opAt nm = .each .eager2 i) :
    sigL opAt ⟨stagePath nm, .nominal (nameFork3 H n).2.1⟩ = .thunk tyL (ppEach .eager2) (fEach .eager2 i) ∧
    sigL opAt ⟨stagePath nm, .nominal (nameFork3 H n).2.2⟩ = .cell tyL := by
  rw [sig_stage, sig_stage, h]; exact ⟨rfl, rfl⟩
theorem sig_rev {nm n : Name} (h : opAt nm = .rev) (hn : isRev n.sym = false) : sigL opAt ⟨stagePath nm, .nominal n⟩ = .thunk tyL ppRev fRev := by
  rw [sig_stage, h]; simp [stageKind, hn]
theorem sig_revNm {nm n : Name} (h : opAt nm = .rev) : sigL opAt ⟨stagePath nm, .nominal (revNm H n)⟩ = .cell tyL := by
  rw [sig_stage, h]; rfl

/-! ### The annotated functions -/

/-- What a map or a filter returns, and what it allocates when the result is demanded to the end, with ranks. -/
def aEach (s : Style) (g : X → Option X) (p : Path) (r : Nat) : AL X → AL X × List (Loc × CV X × Nat)
  | .nil => (.nil, [])
  | .cons x l =>
    match g x with
    | some y => (.cons y (aEach s g p r l).1, (aEach s g p r l).2)
    | none => aEach s g p r l
  | .name n l =>
    match s with
    | .lazy => (.art ⟨p, .nominal n⟩ (aEach s g p r l).1, (⟨p, .nominal n⟩, .lst l.val, r + l.size) :: (aEach s g p r l).2)
    | .eager => (.name n (.art ⟨p, .nominal n⟩ (aEach s g p r l).1), (⟨p, .nominal n⟩, .lst l.val, r + l.size) :: (aEach s g p r l).2)
    | .eager2 => (.name (nameFork3 H n).1 (.art ⟨p, .nominal (nameFork3 H n).2.2⟩ (aEach s g p r l).1),
        (⟨p, .nominal (nameFork3 H n).2.1⟩, .lst l.val, r + l.size) :: (⟨p, .nominal (nameFork3 H n).2.2⟩, .lst (aEach s g p r l).1.val, 0) :: (aEach s g p r l).2)
  | .art _ l => aEach s g p r l

/-- The same for `list_reverse`. -/
def aRev (p : Path) (r : Nat) : AL X → AL X → AL X × List (Loc × CV X × Nat)
  | .nil, rev => (rev, [])
  | .cons x l, rev => aRev p r l (.cons x rev)
  | .name n l, rev =>
    (.name n (.art ⟨p, .nominal n⟩ (aRev p r l (.art ⟨p, .nominal (revNm H n)⟩ rev)).1),
      (⟨p, .nominal (revNm H n)⟩, .lst rev.val, 0) :: (⟨p, .nominal n⟩, .rargs l.val (.art ⟨p, .nominal (revNm H n)⟩), r + l.size) ::
        (aRev p r l (.art ⟨p, .nominal (revNm H n)⟩ rev)).2)
  | .art _ l, rev => aRev p r l rev

def aOp (g : Nat → X → Option X) (op : Op) (p : Path) (r : Nat) (l : AL X) : AL X × List (Loc × CV X × Nat) :=
  match op with
  | .each s i => aEach H s (g i) p r l
  | .rev => aRev H p r l .nil

/-- The stages; the last component is the rank of the demand. -/
def aChain (opAt : Name → Op) (g : Nat → X → Option X) : List Name → Nat → AL X → AL X × List (Loc × CV X × Nat) × Nat
  | [], r, l => (l, [], r)
  | nm :: nms, r, l =>
    let a := aOp H g (opAt nm) (stagePath nm) r l
    let q := aChain opAt g nms (r + l.size) a.1
    (q.1, a.2 ++ q.2.1, q.2.2)

variable {H}

theorem aEach_strip {s : Style} {f : X → Option X} {p : Path} {r : Nat} (l : AL X) : aEach H s f p r l = aEach H s f p r l.strip := by
  induction l with
  | art a l ih => exact ih
  | _ => rfl
theorem aRev_strip {p : Path} {r : Nat} (l rev : AL X) : aRev H p r l rev = aRev H p r l.strip rev := by
  induction l with
  | art a l ih => exact ih
  | _ => rfl

/-! ### Lists that can be followed -/

variable {hv : CV X → UInt64} {ha : ProgPt → CV X → UInt64}

/-- Code of the program. -/
abbrev CP (H : NameHash) (opAt : Name → Op) (g : Nat → X → Option X) (hv : CV X → UInt64) (ha : ProgPt → CV X → UInt64) (c : Ctx) (π : Path) (p : Prog (CV X)) (σ : Store (CV X))
    (Q : Store (CV X) → CV X → Prop) : Prop := Conv (sigL opAt) (env H opAt g hv ha) c π p σ Q

/-- Forcing the articulations of the list, when the thunks being evaluated have rank at least `r`, yields what the annotation says. -/
def Live (H : NameHash) (opAt : Name → Op) (g : Nat → X → Option X) (hv : CV X → UInt64) (ha : ProgPt → CV X → UInt64) (W : World (CV X)) (r : Nat) : AL X → Store (CV X) → Prop
  | .nil, _ => True
  | .cons _ l, σ => Live H opAt g hv ha W r l σ
  | .name _ l, σ => Live H opAt g hv ha W r l σ
  | .art a l, σ => ∀ σ' c π (k : CV X → Prog (CV X)) Q, Ext σ σ' → Below σ' W → AncOk W c r → c.self ∈ c.anc →
      (∀ σ'', Ext σ' σ'' → Below σ'' W → Live H opAt g hv ha W r l σ'' → CP H opAt g hv ha c π (k (.lst l.val)) σ'' Q) →
      CP H opAt g hv ha c π (.force tyL a none k) σ' Q

variable {W : World (CV X)} {σ σ' : Store (CV X)} {r r' : Nat} {l : AL X}

theorem Live.ext (h : Live H opAt g hv ha W r l σ) (he : Ext σ σ') : Live H opAt g hv ha W r l σ' := by
  induction l with
  | nil => trivial
  | cons x l ih => exact ih h
  | name n l ih => exact ih h
  | art a l ih => exact fun σ1 c π k Q h1 => h σ1 c π k Q (he.trans h1)

theorem Live.mono (h : Live H opAt g hv ha W r l σ) (hr : r ≤ r') : Live H opAt g hv ha W r' l σ := by
  induction l generalizing σ with
  | nil => trivial
  | cons x l ih => exact ih h
  | name n l ih => exact ih h
  | art a l ih =>
    intro σ1 c π k Q h1 h2 h3 h4 h5
    exact h σ1 c π k Q h1 h2 (h3.mono hr) h4 fun σ2 e2 b2 l2 => h5 σ2 e2 b2 (ih l2)

/-- A cell. -/
theorem Live.cell {a : Loc} (hs : sigL opAt a = .cell tyL) (hl : σ a = some (.lst l.val)) (h : Live H opAt g hv ha W r l σ) : Live H opAt g hv ha W r (.art a l) σ := by
  intro σ1 c π k Q h1 h2 h3 h4 h5
  exact Conv.forceCell hs (h1 _ _ hl) (h5 σ1 (Ext.refl _) h2 (h.ext h1))

/-- A thunk. -/
theorem Live.thunk {a : Loc} {pp : ProgPt} {fn : FnId} {arg : CV X} {k : Nat} (hs : sigL opAt a = .thunk tyL pp fn) (hl : σ a = some arg) (hst : a.isStruct = false)
    (hw : W a = some (arg, k)) (hk : k < r)
    (h : ∀ σ1 c, Ext σ σ1 → Below σ1 W → AncOk W c k → c.self ∈ c.anc →
      CP H opAt g hv ha c a.path ((env H opAt g hv ha).code fn arg) σ1 fun σ2 v => Ext σ1 σ2 ∧ Below σ2 W ∧ v = .lst l.val ∧ Live H opAt g hv ha W r l σ2) :
    Live H opAt g hv ha W r (.art a l) σ := by
  intro σ1 c π kk Q h1 h2 h3 h4 h5
  refine Conv.forceThunk hs (h3.not_mem hw hk) (h1 _ _ hl) hst ?_
  refine (h σ1 ⟨a, a :: c.anc⟩ h1 h2 (h3.cons hw (Nat.le_of_lt hk)) (List.mem_cons_self ..)).mono ?_
  rintro σ2 v ⟨e2, b2, rfl, l2⟩
  exact h5 σ2 e2 b2 l2

/-- Looking at a list. -/
theorem viewOk (l : AL X) : ∀ (c : Ctx) (π : Path) (σ : Store (CV X)), AncOk W c r → c.self ∈ c.anc → Below σ W → Live H opAt g hv ha W r l σ →
    CP H opAt g hv ha c π (lview l.val) σ fun σ' v => Ext σ σ' ∧ Below σ' W ∧ v = .lst l.strip.val ∧ Live H opAt g hv ha W r l.strip σ' := by
  induction l with
  | nil => intro c π σ hc hs hb hl; exact Conv.ret ⟨Ext.refl _, hb, rfl, hl⟩
  | cons x l ih => intro c π σ hc hs hb hl; exact Conv.ret ⟨Ext.refl _, hb, rfl, hl⟩
  | name n l ih => intro c π σ hc hs hb hl; exact Conv.ret ⟨Ext.refl _, hb, rfl, hl⟩
  | art a l ih =>
    intro c π σ hc hs hb hl
    refine hl σ c π _ _ (Ext.refl _) hb hc hs fun σ1 e1 b1 l1 => Conv.call ?_
    have hcode : (env H opAt g hv ha).code fLView (.lst l.val) = lview l.val := rfl
    rw [hcode]
    refine (ih c π σ1 hc hs b1 l1).mono ?_
    rintro σ2 v ⟨e2, b2, rfl, l2⟩
    exact Conv.ret ⟨e1.trans e2, b2, rfl, l2⟩

/-- One step of looking at a list, inside a program. -/
theorem view {c : Ctx} {π : Path} {k : LV X → Prog (CV X)} {Q : Store (CV X) → CV X → Prop} (hc : AncOk W c r) (hs : c.self ∈ c.anc) (hb : Below σ W) (hl : Live H opAt g hv ha W r l σ)
    (h : ∀ σ1, Ext σ σ1 → Below σ1 W → Live H opAt g hv ha W r l.strip σ1 → CP H opAt g hv ha c π (k l.strip.val) σ1 Q) :
    CP H opAt g hv ha c π (.call fLView (.lst l.val) (onLst k)) σ Q := by
  refine Conv.call ?_
  have hcode : (env H opAt g hv ha).code fLView (.lst l.val) = lview l.val := rfl
  rw [hcode]
  refine (viewOk l c π σ hc hs hb hl).mono ?_
  rintro σ1 v ⟨e1, b1, rfl, lv⟩
  exact h σ1 e1 b1 lv

/-! ### Maps and filters -/

/-- What is to be shown of a function: from a list `l` it makes the list `o`, of rank `R'`. -/
def Post (H : NameHash) (opAt : Name → Op) (g : Nat → X → Option X) (hv : CV X → UInt64) (ha : ProgPt → CV X → UInt64) (W : World (CV X)) (R' : Nat) (o : AL X) (σ : Store (CV X)) :
    Store (CV X) → CV X → Prop := fun σ' v => Ext σ σ' ∧ Below σ' W ∧ v = .lst o.val ∧ Live H opAt g hv ha W R' o σ'

theorem eachOk {nm : Name} {s : Style} {i : Nat} (hop : opAt nm = .each s i) {R' : Nat} : ∀ (m : Nat) (l : AL X) (c : Ctx) (σ : Store (CV X)), l.size ≤ m → r + l.size ≤ R' →
    AncOk W c (r + l.size) → c.self ∈ c.anc → Below σ W → Live H opAt g hv ha W r l σ → (∀ x ∈ (aEach H s (g i) (stagePath nm) r l).2, W x.1 = some x.2) →
    CP H opAt g hv ha c (stagePath nm) (each H s i (g i) l.val) σ (Post H opAt g hv ha W R' (aEach H s (g i) (stagePath nm) r l).1 σ) := by
  intro m
  induction m with
  | zero => intro l c σ hm; cases l <;> simp [AL.size] at hm
  | succ m ih =>
    intro l c σ hm hR hc hs hb hl hal
    refine view (hc.mono (by omega)) hs hb hl fun σ1 e1 b1 l1 => ?_
    rw [aEach_strip] at hal ⊢
    rcases hst : l.strip with _ | ⟨x, t⟩ | ⟨n, t⟩ | ⟨a, t⟩
    · exact Conv.ret ⟨e1, b1, rfl, trivial⟩
    · rw [hst] at l1 hal
      have hsz := AL.strip_cons hst
      have l1 : Live H opAt g hv ha W r t σ1 := l1
      simp only [AL.val]
      rcases hg : g i x with _ | y
      · simp only [aEach, hg] at hal ⊢
        refine Conv.call ?_
        rw [show (env H opAt g hv ha).code (fEach s i) (.lst t.val) = each H s i (g i) t.val from code_each H opAt g s i t.val]
        refine (ih t c σ1 (by omega) (by omega) (hc.mono (by omega)) hs b1 l1 hal).mono ?_
        rintro σ2 v ⟨e2, b2, rfl, l2⟩
        exact Conv.ret ⟨e1.trans e2, b2, rfl, l2⟩
      · simp only [aEach, hg] at hal ⊢
        refine Conv.call ?_
        rw [show (env H opAt g hv ha).code (fEach s i) (.lst t.val) = each H s i (g i) t.val from code_each H opAt g s i t.val]
        refine (ih t c σ1 (by omega) (by omega) (hc.mono (by omega)) hs b1 l1 hal).mono ?_
        rintro σ2 v ⟨e2, b2, rfl, l2⟩
        exact Conv.ret ⟨e1.trans e2, b2, rfl, l2⟩
    · rw [hst] at l1 hal
      have hsz := AL.strip_name hst
      have l1 : Live H opAt g hv ha W r t σ1 := l1
      -- the thunk for the rest
      have key : ∀ {a : Loc} {σ2 : Store (CV X)}, a.path = stagePath nm → a.isStruct = false → sigL opAt a = .thunk tyL (ppEach s) (fEach s i) → Ext σ1 σ2 → Below σ2 W →
          W a = some (.lst t.val, r + t.size) → σ2 a = some (.lst t.val) → (∀ x ∈ (aEach H s (g i) (stagePath nm) r t).2, W x.1 = some x.2) →
          Live H opAt g hv ha W R' (.art a (aEach H s (g i) (stagePath nm) r t).1) σ2 := by
        intro a σ2 ap as ak e2 b2 aw a2 hal'
        refine Live.thunk ak a2 as aw (by omega) ?_
        intro σ3 c3 e3 b3 hc3 hs3
        rw [show (env H opAt g hv ha).code (fEach s i) (.lst t.val) = each H s i (g i) t.val from code_each H opAt g s i t.val, ap]
        exact ih t c3 σ3 (by omega) (by omega) hc3 hs3 b3 ((l1.ext e2).ext e3) hal'
      cases s with
      | lazy =>
        simp only [aEach, List.mem_cons, forall_eq_or_imp] at hal ⊢
        obtain ⟨hw, hal'⟩ := hal
        have hsig := sig_each (n := n) hop (by decide)
        obtain ⟨σ2, a2, e2, b2, h2⟩ := alloc_below b1 hw
        refine Conv.thunk hsig (fun e => hc.not_mem hw (by omega) (by rw [e]; exact hs)) a2 ?_
        exact Conv.ret ⟨e1.trans e2, b2, rfl, key rfl rfl hsig e2 b2 hw h2 hal'⟩
      | eager =>
        simp only [aEach, List.mem_cons, forall_eq_or_imp] at hal ⊢
        obtain ⟨hw, hal'⟩ := hal
        have hsig := sig_each (n := n) hop (by decide)
        obtain ⟨σ2, a2, e2, b2, h2⟩ := alloc_below b1 hw
        refine Conv.thunk hsig (fun e => hc.not_mem hw (by omega) (by rw [e]; exact hs)) a2 ?_
        have hlv := key rfl rfl hsig e2 b2 hw h2 hal'
        refine Conv.forceThunk hsig (hc.not_mem hw (by omega)) h2 rfl ?_
        rw [show (env H opAt g hv ha).code (fEach .eager i) (.lst t.val) = each H .eager i (g i) t.val from code_each H opAt g .eager i t.val]
        refine (ih t _ σ2 (by omega) (by omega) (hc.cons hw (by omega)) (List.mem_cons_self ..) b2 (l1.ext e2) hal').mono ?_
        rintro σ3 v ⟨e3, b3, rfl, l3⟩
        exact Conv.ret ⟨(e1.trans e2).trans e3, b3, rfl, hlv.ext e3⟩
      | eager2 =>
        simp only [aEach, List.mem_cons, forall_eq_or_imp] at hal ⊢
        obtain ⟨hw, hw2, hal'⟩ := hal
        obtain ⟨hsig, hsig2⟩ := sig_eager2 H (n := n) hop
        obtain ⟨σ2, a2, e2, b2, h2⟩ := alloc_below b1 hw
        refine Conv.thunk hsig (fun e => hc.not_mem hw (by omega) (by rw [e]; exact hs)) a2 ?_
        refine Conv.forceThunk hsig (hc.not_mem hw (by omega)) h2 rfl ?_
        rw [show (env H opAt g hv ha).code (fEach .eager2 i) (.lst t.val) = each H .eager2 i (g i) t.val from code_each H opAt g .eager2 i t.val]
        refine (ih t _ σ2 (by omega) (by omega) (hc.cons hw (by omega)) (List.mem_cons_self ..) b2 (l1.ext e2) hal').mono ?_
        rintro σ3 v ⟨e3, b3, rfl, l3⟩
        obtain ⟨σ4, a4, e4, b4, h4⟩ := alloc_below b3 hw2
        refine Conv.cell hsig2 a4 ?_
        exact Conv.ret ⟨((e1.trans e2).trans e3).trans e4, b4, rfl, Live.cell hsig2 h4 (l3.ext e4)⟩
    · exact absurd hst AL.strip_art

/-! ### Reversal -/

theorem revOk {nm : Name} (hop : opAt nm = .rev) {R' : Nat} : ∀ (m : Nat) (l rev : AL X) (c : Ctx) (σ : Store (CV X)), l.size ≤ m → r + l.size ≤ R' →
    AncOk W c (r + l.size) → c.self ∈ c.anc → Below σ W → Live H opAt g hv ha W r l σ → Live H opAt g hv ha W R' rev σ → (∀ n ∈ namesOf l.erase.items, isRev n.sym = false) →
    (∀ x ∈ (aRev H (stagePath nm) r l rev).2, W x.1 = some x.2) →
    CP H opAt g hv ha c (stagePath nm) (reverse H l.val rev.val) σ (Post H opAt g hv ha W R' (aRev H (stagePath nm) r l rev).1 σ) := by
  intro m
  induction m with
  | zero => intro l rev c σ hm; cases l <;> simp [AL.size] at hm
  | succ m ih =>
    intro l rev c σ hm hR hc hs hb hl hrev hnm hal
    refine view (hc.mono (by omega)) hs hb hl fun σ1 e1 b1 l1 => ?_
    rw [aRev_strip] at hal ⊢
    rcases hst : l.strip with _ | ⟨x, t⟩ | ⟨n, t⟩ | ⟨a, t⟩
    · exact Conv.ret ⟨e1, b1, rfl, hrev.ext e1⟩
    · rw [hst] at l1 hal
      have hsz := AL.strip_cons hst
      have l1 : Live H opAt g hv ha W r t σ1 := l1
      rw [Coll.view_cons_items (SortProg.erase_cons hst)] at hnm
      simp only [aRev] at hal ⊢
      refine Conv.call ?_
      have hcode : (env H opAt g hv ha).code fRev (.rargs t.val (.cons x rev.val)) = reverse H t.val (AL.cons x rev).val := rfl
      simp only [hcode]
      refine (ih t (.cons x rev) c σ1 (by omega) (by omega) (hc.mono (by omega)) hs b1 l1 (hrev.ext e1) hnm hal).mono ?_
      rintro σ2 v ⟨e2, b2, rfl, l2⟩
      exact Conv.ret ⟨e1.trans e2, b2, rfl, l2⟩
    · rw [hst] at l1 hal
      have hsz := AL.strip_name hst
      have l1 : Live H opAt g hv ha W r t σ1 := l1
      rw [Coll.view_name_items (SortProg.erase_name hst)] at hnm
      simp only [namesOf, List.mem_cons, forall_eq_or_imp] at hnm
      simp only [aRev, List.mem_cons, forall_eq_or_imp] at hal ⊢
      obtain ⟨hw1, hw2, hal'⟩ := hal
      obtain ⟨σ2, a2, e2, b2, h2⟩ := alloc_below b1 hw1
      have hsig1 := sig_revNm H (n := n) hop
      have hsig2 := sig_rev hop hnm.1
      refine Conv.cell hsig1 a2 ?_
      obtain ⟨σ3, a3, e3, b3, h3⟩ := alloc_below b2 hw2
      refine Conv.thunk hsig2 (fun e => hc.not_mem hw2 (by omega) (by rw [e]; exact hs)) a3 ?_
      have hrev3 : Live H opAt g hv ha W R' (.art ⟨stagePath nm, .nominal (revNm H n)⟩ rev) σ3 := Live.cell hsig1 (e3 _ _ h2) (((hrev.ext e1).ext e2).ext e3)
      have l3 := (l1.ext e2).ext e3
      have hrun : ∀ σ4 c4, Ext σ3 σ4 → Below σ4 W → AncOk W c4 (r + t.size) → c4.self ∈ c4.anc →
          CP H opAt g hv ha c4 (stagePath nm) ((env H opAt g hv ha).code fRev (.rargs t.val (.art ⟨stagePath nm, .nominal (revNm H n)⟩))) σ4
            (Post H opAt g hv ha W R' (aRev H (stagePath nm) r t (.art ⟨stagePath nm, .nominal (revNm H n)⟩ rev)).1 σ4) :=
        fun σ4 c4 e4 b4 hc4 hs4 => ih t (.art ⟨stagePath nm, .nominal (revNm H n)⟩ rev) c4 σ4 (by omega) (by omega) hc4 hs4 b4 (l3.ext e4) (hrev3.ext e4) hnm.2 hal'
      refine Conv.forceThunk hsig2 (hc.not_mem hw2 (by omega)) h3 rfl ?_
      refine (hrun σ3 _ (Ext.refl _) b3 (hc.cons hw2 (by omega)) (List.mem_cons_self ..)).mono ?_
      rintro σ4 v ⟨e4, b4, rfl, l4⟩
      refine Conv.ret ⟨((e1.trans e2).trans e3).trans e4, b4, rfl, ?_⟩
      exact Live.thunk hsig2 (e4 _ _ h3) rfl hw2 (by omega) fun σ5 c5 e5 b5 hc5 hs5 => hrun σ5 c5 (e4.trans e5) b5 hc5 hs5
    · exact absurd hst AL.strip_art

/-! ### Reading the list -/

theorem vecLoop_strip (lim : Option Nat) (l : AL X) (out : List (NameElse X)) : Coll.vecLoop lim l.erase out = Coll.vecLoop lim l.strip.erase out := by
  induction l with
  | art a l ih => exact ih
  | _ => rfl

theorem vecLoop_cons {lim : Option Nat} {l : Lst X} {out : List (NameElse X)} {x : X} :
    Coll.vecLoop lim (.cons x l) out = if lim = some (out.length + 1) then out ++ [.elm x] else Coll.vecLoop lim l (out ++ [.elm x]) := by
  cases lim with
  | none => simp [Coll.vecLoop]
  | some k =>
    by_cases h : out.length + 1 = k
    · simp [Coll.vecLoop, h]
    · have h' : ¬ k = out.length + 1 := fun e => h e.symm
      simp [Coll.vecLoop, h, h']
theorem vecLoop_name {lim : Option Nat} {l : Lst X} {out : List (NameElse X)} {n : Name} :
    Coll.vecLoop lim (.name n l) out = if lim = some (out.length + 1) then out ++ [.name n] else Coll.vecLoop lim l (out ++ [.name n]) := by
  cases lim with
  | none => simp [Coll.vecLoop]
  | some k =>
    by_cases h : out.length + 1 = k
    · simp [Coll.vecLoop, h]
    · have h' : ¬ k = out.length + 1 := fun e => h e.symm
      simp [Coll.vecLoop, h, h']

theorem vecOk {π : Path} {lim : Option Nat} : ∀ (m : Nat) (l : AL X) (out : List (NameElse X)) (c : Ctx) (σ : Store (CV X)), l.size ≤ m → AncOk W c r → c.self ∈ c.anc → Below σ W →
    Live H opAt g hv ha W r l σ → CP H opAt g hv ha c π (vec l.val out lim) σ fun σ' v => Ext σ σ' ∧ Below σ' W ∧ v = .vec (Coll.vecLoop lim l.erase out) := by
  intro m
  induction m with
  | zero => intro l out c σ hm; cases l <;> simp [AL.size] at hm
  | succ m ih =>
    intro l out c σ hm hc hself hb hl
    refine view hc hself hb hl fun σ1 e1 b1 lv1 => ?_
    rw [vecLoop_strip]
    rcases hs : l.strip with _ | ⟨x, t⟩ | ⟨n, t⟩ | ⟨a, t⟩
    · exact Conv.ret ⟨e1, b1, rfl⟩
    · rw [hs] at lv1
      simp only [AL.val, AL.erase, vecLoop_cons]
      by_cases hlim : lim = some (out.length + 1)
      · rw [if_pos hlim, if_pos hlim]
        exact Conv.ret ⟨e1, b1, rfl⟩
      · rw [if_neg hlim, if_neg hlim]
        refine Conv.call ?_
        have hcode : (env H opAt g hv ha).code fVec (.vargs t.val (out ++ [.elm x]) lim) = vec t.val (out ++ [.elm x]) lim := rfl
        rw [hcode]
        refine (ih t _ c σ1 (by have := AL.strip_cons hs; omega) hc hself b1 lv1).mono ?_
        rintro σ2 v ⟨e2, b2, rfl⟩
        exact Conv.ret ⟨e1.trans e2, b2, rfl⟩
    · rw [hs] at lv1
      simp only [AL.val, AL.erase, vecLoop_name]
      by_cases hlim : lim = some (out.length + 1)
      · rw [if_pos hlim, if_pos hlim]
        exact Conv.ret ⟨e1, b1, rfl⟩
      · rw [if_neg hlim, if_neg hlim]
        refine Conv.call ?_
        have hcode : (env H opAt g hv ha).code fVec (.vargs t.val (out ++ [.name n]) lim) = vec t.val (out ++ [.name n]) lim := rfl
        rw [hcode]
        refine (ih t _ c σ1 (by have := AL.strip_name hs; omega) hc hself b1 lv1).mono ?_
        rintro σ2 v ⟨e2, b2, rfl⟩
        exact Conv.ret ⟨e1.trans e2, b2, rfl⟩
    · exact absurd hs AL.strip_art

/-! ### The stages -/

theorem aEach_items {s : Style} {f : X → Option X} {p : Path} (l : AL X) : (aEach H s f p r l).1.erase.items = l.erase.items.filterMap (specItem H s f) := by
  induction l with
  | nil => rfl
  | cons x l ih =>
    rcases hf : f x with _ | y
    · simp [aEach, hf, AL.erase, Lst.items, specItem, ih]
    · simp [aEach, hf, AL.erase, Lst.items, specItem, ih]
  | name n l ih => cases s <;> simp [aEach, AL.erase, Lst.items, specItem, List.filterMap_cons, ih]
  | art a l ih => exact ih

theorem aRev_erase {p : Path} (l rev : AL X) : (aRev H p r l rev).1.erase = Coll.listReverse H l.erase rev.erase := by
  induction l generalizing rev with
  | nil => rfl
  | cons x l ih => exact ih (.cons x rev)
  | name n l ih => exact congrArg (fun q => Lst.name n (.art q)) (ih (.art ⟨p, .nominal (revNm H n)⟩ rev))
  | art a l ih => exact ih rev

theorem aOp_items {op : Op} {p : Path} (l : AL X) : (aOp H g op p r l).1.erase.items = specOp H g op l.erase.items := by
  cases op with
  | each s i => exact aEach_items l
  | rev =>
    show (aRev H p r l .nil).1.erase.items = _
    rw [aRev_erase]
    exact Coll.list_reverse_items H l.erase

theorem aChain_items {nms : List Name} : ∀ (r : Nat) (l : AL X), (aChain H opAt g nms r l).1.erase.items = specChain H opAt g nms l.erase.items := by
  induction nms with
  | nil => intro r l; rfl
  | cons nm nms ih => intro r l; show (aChain H opAt g nms _ _).1.erase.items = _; rw [ih, aOp_items]; rfl

theorem aChain_rank {nms : List Name} : ∀ (r : Nat) (l : AL X), r ≤ (aChain H opAt g nms r l).2.2 := by
  induction nms with
  | nil => intro r l; exact Nat.le_refl _
  | cons nm nms ih => intro r l; exact Nat.le_trans (Nat.le_add_right ..) (ih (r + l.size) _)

/-! #### Names -/

theorem namesOf_filterMap {s : Style} {f : X → Option X} (t : List (NameElse X)) : namesOf (t.filterMap (specItem H s f)) =
    match s with
    | .lazy => []
    | .eager => namesOf t
    | .eager2 => (namesOf t).map fun n => (nameFork3 H n).1 := by
  induction t with
  | nil => cases s <;> rfl
  | cons i t ih =>
    cases i with
    | elm x => rcases hf : f x with _ | y <;> simp [specItem, hf, namesOf, ih]
    | name n => cases s <;> simp [specItem, namesOf, List.filterMap_cons, ih]

theorem namesOf_names (ns : List Name) (t : List X) : namesOf (ns.map .name ++ t.map .elm) = ns := by
  rw [Coll.namesOf_append]
  have h1 : ∀ t : List X, namesOf (t.map .elm) = [] := fun t => by induction t with
    | nil => rfl
    | cons x t ih => exact ih
  rw [h1, List.append_nil]
  induction ns with
  | nil => rfl
  | cons n ns ih => exact congrArg (n :: ·) ih

theorem GoodNames.op {t : List (NameElse X)} (h : GoodNames t) (op : Op) : GoodNames (specOp H g op t) := by
  cases op with
  | rev => unfold GoodNames; rw [show namesOf (specOp H g .rev t) = namesOf t from namesOf_names _ _]; exact h
  | each s i =>
    unfold GoodNames
    rw [show namesOf (specOp H g (.each s i) t) = _ from namesOf_filterMap t]
    cases s with
    | lazy => exact ⟨List.nodup_nil, (fun _ h => by cases h)⟩
    | eager => exact h
    | eager2 =>
      refine ⟨?_, fun n hn => ?_⟩
      · have h1 := h.1
        simp only [List.map_map]
        have : (Name.sym ∘ fun n => (nameFork3 H n).1) = NameSym.forkL ∘ Name.sym := rfl
        rw [this, ← List.map_map]
        exact List.Pairwise.map _ (fun a b hab e => hab (by injection e)) h1
      · obtain ⟨m, _, rfl⟩ := List.mem_map.1 hn; rfl

/-! #### Allocations -/

theorem aEach_alloc {s : Style} {f : X → Option X} {p : Path} (l : AL X) : (aEach H s f p r l).2.map Prod.fst = (namesOf l.erase.items).flatMap fun n =>
    (match s with
    | .eager2 => [(nameFork3 H n).2.1, (nameFork3 H n).2.2]
    | _ => [n]).map fun n => (⟨p, .nominal n⟩ : Loc) := by
  induction l with
  | nil => rfl
  | cons x l ih => rcases hf : f x with _ | y <;> simp [aEach, hf, AL.erase, Lst.items, namesOf, ih]
  | name n l ih => cases s <;> simp [aEach, AL.erase, Lst.items, namesOf, ih]
  | art a l ih => exact ih

theorem aRev_alloc {p : Path} (l rev : AL X) : (aRev H p r l rev).2.map Prod.fst = (namesOf l.erase.items).flatMap fun n =>
    [revNm H n, n].map fun n => (⟨p, .nominal n⟩ : Loc) := by
  induction l generalizing rev with
  | nil => rfl
  | cons x l ih => exact ih _
  | name n l ih => simp [aRev, AL.erase, Lst.items, namesOf, ih]
  | art a l ih => exact ih _

/-- The names at which a stage allocates, for a name of its input. -/
def opNames (H : NameHash) : Op → Name → List Name
  | .each .eager2 _, n => [(nameFork3 H n).2.1, (nameFork3 H n).2.2]
  | .each _ _, n => [n]
  | .rev, n => [revNm H n, n]

theorem aOp_alloc {op : Op} {p : Path} (l : AL X) : (aOp H g op p r l).2.map Prod.fst = ((namesOf l.erase.items).flatMap (opNames H op)).map fun n => (⟨p, .nominal n⟩ : Loc) := by
  rw [List.map_flatMap]
  cases op with
  | each s i => show (aEach H s (g i) p r l).2.map Prod.fst = _; rw [aEach_alloc]; cases s <;> rfl
  | rev => show (aRev H p r l .nil).2.map Prod.fst = _; rw [aRev_alloc]; rfl

theorem flatMap_nodup {A B C : Type} (key : A → C) (f : A → List B) (as : List A) (h1 : (as.map key).Nodup) (h2 : ∀ a ∈ as, (f a).Nodup)
    (h3 : ∀ a ∈ as, ∀ b ∈ as, ∀ x, x ∈ f a → x ∈ f b → key a = key b) : (as.flatMap f).Nodup := by
  induction as with
  | nil => exact List.nodup_nil
  | cons a as ih =>
    rw [List.map_cons, List.nodup_cons] at h1
    rw [List.flatMap_cons, List.nodup_append]
    refine ⟨h2 a (List.mem_cons_self ..), ih h1.2 (fun b hb => h2 b (List.mem_cons_of_mem _ hb)) (fun b hb b' hb' => h3 b (List.mem_cons_of_mem _ hb) b' (List.mem_cons_of_mem _ hb')), ?_⟩
    intro x hx y hy e
    subst e
    obtain ⟨b, hb, hy⟩ := List.mem_flatMap.1 hy
    have := h3 a (List.mem_cons_self ..) b (List.mem_cons_of_mem _ hb) x hx hy
    exact h1.1 (this ▸ List.mem_map_of_mem hb)

theorem opNames_nodup {op : Op} {t : List (NameElse X)} (h : GoodNames t) : ((namesOf t).flatMap (opNames H op)).Nodup := by
  refine flatMap_nodup Name.sym _ _ h.1 ?_ ?_
  · intro n hn
    cases op with
    | each s i =>
      cases s with
      | eager2 =>
        have : (nameFork3 H n).2.1 ≠ (nameFork3 H n).2.2 := fun e => by have := congrArg Name.sym e; cases this
        simp [opNames, this]
      | lazy => simp [opNames]
      | eager => simp [opNames]
    | rev =>
      have : revNm H n ≠ n := fun e => by have := h.2 n hn; rw [← e] at this; cases this
      simp [opNames, this]
  · intro n hn m hm x hx hy
    cases op with
    | each s i =>
      cases s with
      | eager2 =>
        simp only [opNames, List.mem_cons, List.not_mem_nil, or_false] at hx hy
        rcases hx with rfl | rfl <;> rcases hy with e | e
        · have := congrArg Name.sym e; simpa [nameFork3, nameFork] using this
        · have := congrArg Name.sym e; cases this
        · have := congrArg Name.sym e; cases this
        · have := congrArg Name.sym e; simpa [nameFork3, nameFork] using this
      | lazy => simp [opNames] at hx hy; rw [← hx, ← hy]
      | eager => simp [opNames] at hx hy; rw [← hx, ← hy]
    | rev =>
      simp only [opNames, List.mem_cons, List.not_mem_nil, or_false] at hx hy
      have hn' := h.2 n hn
      have hm' := h.2 m hm
      rcases hx with rfl | rfl <;> rcases hy with e | e
      · have := congrArg Name.sym e; simpa [revNm, namePair] using this
      · rw [← e] at hm'; cases hm'
      · rw [e] at hn'; cases hn'
      · rw [e]

theorem aOp_nodup {op : Op} {p : Path} (h : GoodNames l.erase.items) : ((aOp H g op p r l).2.map Prod.fst).Nodup := by
  rw [aOp_alloc]
  exact List.Pairwise.map _ (fun a b hab e => hab (by simpa using e)) (opNames_nodup h)

theorem aChain_alloc {nms : List Name} : ∀ (r : Nat) (l : AL X), ∀ x ∈ (aChain H opAt g nms r l).2.1, ∃ nm n, nm ∈ nms ∧ x.1 = ⟨stagePath nm, .nominal n⟩ := by
  induction nms with
  | nil => intro r l x hx; cases hx
  | cons nm nms ih =>
    intro r l x hx
    rcases List.mem_append.1 hx with hx | hx
    · have : x.1 ∈ (aOp H g (opAt nm) (stagePath nm) r l).2.map Prod.fst := List.mem_map_of_mem hx
      rw [aOp_alloc] at this
      obtain ⟨n, _, e⟩ := List.mem_map.1 this
      exact ⟨nm, n, List.mem_cons_self .., e.symm⟩
    · obtain ⟨nm', n, h1, h2⟩ := ih _ _ x hx
      exact ⟨nm', n, List.mem_cons_of_mem _ h1, h2⟩

theorem aChain_nodup {nms : List Name} (hn : nms.Nodup) : ∀ (r : Nat) (l : AL X), GoodNames l.erase.items → ((aChain H opAt g nms r l).2.1.map Prod.fst).Nodup := by
  induction nms with
  | nil => intro r l h; exact List.nodup_nil
  | cons nm nms ih =>
    intro r l h
    rw [List.nodup_cons] at hn
    show (((aOp H g (opAt nm) (stagePath nm) r l).2 ++ (aChain H opAt g nms (r + l.size) (aOp H g (opAt nm) (stagePath nm) r l).1).2.1).map Prod.fst).Nodup
    rw [List.map_append, List.nodup_append]
    refine ⟨aOp_nodup h, ih hn.2 _ _ (by rw [aOp_items]; exact h.op _), ?_⟩
    intro x hx y hy e
    subst e
    rw [aOp_alloc] at hx
    obtain ⟨n, _, rfl⟩ := List.mem_map.1 hx
    obtain ⟨y, hy, e⟩ := List.mem_map.1 hy
    obtain ⟨nm', n', h1, h2⟩ := aChain_alloc _ _ y hy
    rw [h2] at e
    have := congrArg Loc.path e
    simp [stagePath] at this
    exact hn.1 (this ▸ h1)

/-! #### Convergence -/

theorem opOk {nm : Name} {c : Ctx} (hc : AncOk W c (r + l.size)) (hs : c.self ∈ c.anc) (hb : Below σ W) (hl : Live H opAt g hv ha W r l σ) (hn : GoodNames l.erase.items)
    (hal : ∀ x ∈ (aOp H g (opAt nm) (stagePath nm) r l).2, W x.1 = some x.2) :
    CP H opAt g hv ha c (stagePath nm) (opCall (opAt nm) l.val) σ (Post H opAt g hv ha W (r + l.size) (aOp H g (opAt nm) (stagePath nm) r l).1 σ) := by
  rcases hop : opAt nm with ⟨s, i⟩ | _
  · rw [hop] at hal
    refine Conv.call ?_
    rw [show (env H opAt g hv ha).code (fEach s i) (.lst l.val) = each H s i (g i) l.val from code_each H opAt g s i l.val]
    refine (eachOk hop l.size l c σ (Nat.le_refl _) (Nat.le_refl _) hc hs hb hl hal).mono ?_
    rintro σ2 v ⟨e2, b2, rfl, l2⟩
    exact Conv.ret ⟨e2, b2, rfl, l2⟩
  · rw [hop] at hal
    refine Conv.call ?_
    have hcode : (env H opAt g hv ha).code fRev (.rargs l.val .nil) = reverse H l.val (AL.nil : AL X).val := rfl
    rw [hcode]
    refine (revOk hop l.size l .nil c σ (Nat.le_refl _) (Nat.le_refl _) hc hs hb hl trivial hn.2 hal).mono ?_
    rintro σ2 v ⟨e2, b2, rfl, l2⟩
    exact Conv.ret ⟨e2, b2, rfl, l2⟩

theorem chainOk {lim : Option Nat} {π : Path} (hπ : π = rootPath) {nms : List Name} : ∀ (r : Nat) (l : AL X) (c : Ctx) (σ : Store (CV X)), AncOk W c (aChain H opAt g nms r l).2.2 → c.self ∈ c.anc →
    Below σ W → Live H opAt g hv ha W r l σ → GoodNames l.erase.items → (∀ x ∈ (aChain H opAt g nms r l).2.1, W x.1 = some x.2) →
    CP H opAt g hv ha c π (root opAt nms l.val lim) σ fun σ' v => Ext σ σ' ∧ Below σ' W ∧ v = .vec (Coll.vecOfList (aChain H opAt g nms r l).1.erase lim) := by
  induction nms with
  | nil =>
    intro r l c σ hc hs hb hl hn hal
    refine Conv.call ?_
    have hcode : (env H opAt g hv ha).code fVec (.vargs l.val [] lim) = vec l.val [] lim := rfl
    rw [hcode]
    refine (vecOk l.size l [] c σ (Nat.le_refl _) hc hs hb hl).mono ?_
    rintro σ2 v ⟨e2, b2, rfl⟩
    exact Conv.ret ⟨e2, b2, rfl⟩
  | cons nm nms ih =>
    intro r l c σ hc hs hb hl hn hal
    subst hπ
    refine Conv.ns ?_
    have hal1 : ∀ x ∈ (aOp H g (opAt nm) (stagePath nm) r l).2, W x.1 = some x.2 := fun x hx => hal x (List.mem_append_left _ hx)
    have hal2 : ∀ x ∈ (aChain H opAt g nms (r + l.size) (aOp H g (opAt nm) (stagePath nm) r l).1).2.1, W x.1 = some x.2 := fun x hx => hal x (List.mem_append_right _ hx)
    have hc' : AncOk W c (aChain H opAt g nms (r + l.size) (aOp H g (opAt nm) (stagePath nm) r l).1).2.2 := hc
    refine (opOk (hc'.mono (aChain_rank _ _)) hs hb hl hn hal1).mono ?_
    rintro σ2 v ⟨e2, b2, rfl, l2⟩
    refine (ih (r + l.size) _ c σ2 hc' hs b2 l2 (by rw [aOp_items]; exact hn.op _) hal2).mono ?_
    rintro σ3 v ⟨e3, b3, rfl⟩
    exact ⟨e2.trans e3, b3, rfl⟩

/-! ### The session -/

/-- The articulations of the list are cells of the editor. -/
def LiveC (cs : Cells (CV X)) : AL X → Prop
  | .nil => True
  | .cons _ l => LiveC cs l
  | .name _ l => LiveC cs l
  | .art a l => (∃ n, a = cellAt n ∧ cs n = some (.lst l.val)) ∧ LiveC cs l

theorem sig_cellAt (n : Name) : sigL opAt (cellAt n) = .cell tyL := rfl

theorem LiveC.live {cs : Cells (CV X)} (h : LiveC cs l) (hcs : ∀ n v, cs n = some v → σ (cellAt n) = some v) : Live H opAt g hv ha W r l σ := by
  induction l with
  | nil => trivial
  | cons x l ih => exact ih h
  | name n l ih => exact ih h
  | art a l ih =>
    obtain ⟨⟨n, rfl, h1⟩, h2⟩ := h
    exact Live.cell (sig_cellAt n) (hcs _ _ h1) (ih h2)

theorem LiveC.ext {cs cs' : Cells (CV X)} (h : LiveC cs l) (he : ∀ n v, cs n = some v → cs' n = some v) : LiveC cs' l := by
  induction l with
  | nil => trivial
  | cons x l ih => exact ih h
  | name n l ih => exact ih h
  | art a l ih =>
    obtain ⟨⟨n, rfl, h1⟩, h2⟩ := h
    exact ⟨⟨n, rfl, he _ _ h1⟩, ih h2⟩

theorem LiveC.unique {cs : Cells (CV X)} : ∀ {l' : AL X}, LiveC cs l → LiveC cs l' → l.val = l'.val → l = l' := by
  induction l with
  | nil => intro t' _ _ e; cases t' <;> simp [AL.val] at e ⊢
  | cons x l ih =>
    intro t' h h' e
    cases t' <;> simp [AL.val] at e
    rename_i y l'
    obtain ⟨rfl, e1⟩ := e
    rw [ih h (l' := l') h' e1]
  | name n l ih =>
    intro t' h h' e
    cases t' <;> simp [AL.val] at e
    rename_i y l'
    obtain ⟨rfl, e1⟩ := e
    rw [ih h (l' := l') h' e1]
  | art a t ih =>
    intro t' h h' e
    cases t' <;> simp [AL.val] at e
    rename_i a' t'
    subst e
    obtain ⟨⟨n, rfl, h1⟩, h2⟩ := h
    obtain ⟨⟨n', e', h1'⟩, h2'⟩ := h'
    have : n = n' := by simpa [cellAt] using e'
    subst this
    rw [h1] at h1'
    injection h1' with h1'
    injection h1' with h1'
    rw [ih h2 h2' h1']

theorem Unfolds.annot {cs : Cells (CV X)} {v : LV X} {l : Lst X} (h : Unfolds cs v l) : ∃ a : AL X, a.val = v ∧ a.erase = l ∧ LiveC cs a := by
  induction h with
  | nil => exact ⟨.nil, rfl, rfl, trivial⟩
  | cons _ ih => obtain ⟨a, rfl, rfl, a3⟩ := ih; exact ⟨.cons _ a, rfl, rfl, a3⟩
  | name _ ih => obtain ⟨a, rfl, rfl, a3⟩ := ih; exact ⟨.name _ a, rfl, rfl, a3⟩
  | @art n v t hn _ ih =>
    obtain ⟨a, rfl, rfl, a3⟩ := ih
    exact ⟨.art (cellAt n) a, rfl, rfl, ⟨n, rfl, hn⟩, a3⟩

/-- The program as one that the editor demands. -/
def theRoot (H : NameHash) (opAt : Name → Op) (g : Nat → X → Option X) (hv : CV X → UInt64) (ha : ProgPt → CV X → UInt64) (rn : Name) : EditSession.Root (CV X) where
  sig := sigL opAt
  env := env H opAt g hv ha
  ns := rootNm
  rn := rn
  ty := tyV
  pp := ppRoot
  fn := fRoot
  cty := tyL
  D := List Name × AL X × Option Nat
  arg d := .root d.1 d.2.1.val d.2.2
  res d := .vec (Coll.vecOfList (aChain H opAt g d.1 0 d.2.1).1.erase d.2.2)
  rank d := (aChain H opAt g d.1 0 d.2.1).2.2
  allocs d := (aChain H opAt g d.1 0 d.2.1).2.1
  ok cs d := LiveC cs d.2.1 ∧ GoodNames d.2.1.erase.items ∧ d.1.Nodup

theorem lawful (rn : Name) : (theRoot H opAt g hv ha rn).Lawful where
  mode := ⟨rfl, fun _ => rfl⟩
  sig_root := rfl
  sig_cell := sig_cellAt
  ext cs cs' d h hok := ⟨LiveC.ext hok.1 h, hok.2⟩
  unique cs d d' h h' e := by
    obtain ⟨n, l, k⟩ := d
    obtain ⟨n', l', k'⟩ := d'
    injection e with e1 e2 e3
    have e1 : n = n' := e1
    have e2 : l.val = l'.val := e2
    have e3 : k = k' := e3
    subst e1; subst e3
    have h1 : LiveC cs l := h.1
    rw [h1.unique h'.1 e2]
  nodup cs d h := aChain_nodup h.2.2 0 d.2.1 h.2.1
  away cs d h x hx := by
    obtain ⟨nm, n, _, e⟩ := aChain_alloc (nms := d.1) 0 d.2.1 x hx
    rw [e]
    refine ⟨by simp [stagePath], fun e => ?_, rfl⟩
    have := congrArg Loc.path e
    simp [stagePath, EditSession.Root.loc, rootPath] at this
  conv cs d h W σ hcs hal hb hrt := by
    refine chainOk rfl 0 d.2.1 _ σ ?_ (List.mem_cons_self ..) hb (LiveC.live h.1 hcs) h.2.1 hal
    intro a ha
    rcases List.mem_cons.1 ha with rfl | ha
    · exact ⟨_, _, hrt, Nat.le_refl _⟩
    · cases ha

/-- What is returned. -/
theorem res_eq {nms : List Name} {lim : Option Nat} : Coll.vecOfList (aChain H opAt g nms 0 l).1.erase lim = limited lim (specChain H opAt g nms l.erase.items) := by
  have h := Coll.vec_of_list_items (aChain H opAt g nms 0 l).1.erase
  rw [aChain_items] at h
  rcases lim with _ | _ | k
  · exact h.1
  · have := Coll.list_demand_zero (aChain H opAt g nms 0 l).1.erase
    rw [aChain_items] at this
    exact this
  · exact h.2 (k + 1) (by omega)

theorem demands {rn : Name} {ss : List (Step X)} : ∀ {cs : Cells (CV X)} {ls : List (List Name × Lst X × Option Nat)}, Demands cs ss ls →
    ∃ ds, (theRoot H opAt g hv ha rn).Demands cs (ss.map fun s => ⟨s.edits, .root s.stages s.list s.limit⟩) ds ∧
      ds.map (theRoot H opAt g hv ha rn).res = ls.map fun p => .vec (limited p.2.2 (specChain H opAt g p.1 p.2.1.items)) := by
  induction ss with
  | nil => intro cs ls h; cases h; exact ⟨[], .nil, rfl⟩
  | cons s ss ih =>
    intro cs ls h
    cases h with
    | cons h1 h2 h3 h4 h5 =>
      obtain ⟨ds, d1, d2⟩ := ih h5
      obtain ⟨a, a1, rfl, a3⟩ := h2.annot
      refine ⟨(s.stages, a, s.limit) :: ds, .cons h1 ⟨a3, h3, h4⟩ ?_ d1, ?_⟩
      · show CV.root s.stages a.val s.limit = _
        rw [a1]
      · exact congr (congrArg List.cons (congrArg CV.vec res_eq)) d2

/-- The sessions have a meaning. -/
theorem list_session_means (rn : Name) (ss : List (Step X)) (ls : List (List Name × Lst X × Option Nat)) (h : Demands (fun _ => none) ss ls) :
    Means (sigL opAt) (env H opAt g hv ha) (ss.map (stepProg rn)) (ls.map fun p => .vec (limited p.2.2 (specChain H opAt g p.1 p.2.1.items))) := by
  obtain ⟨ds, d1, d2⟩ := demands (H := H) (opAt := opAt) (g := g) (hv := hv) (ha := ha) (rn := rn) h
  have := EditSession.means (lawful rn) _ ds d1
  rw [d2, List.map_map] at this
  exact this

/-- **C75.** The list functions of the catalog on the engine.  The editor edits cells that hold lists, in any way, and demands, again and again,
`vec_of_list(f_k(… f_1(l)), limit)`, where each `f_i` is one of `list_map_lazy`, `list_filter_lazy`, `list_map_eager`, `list_filter_eager`, `list_map_eager2` (with any
body) and `list_reverse`, in a namespace of its own.  If at each demand the articulations of the list can be followed to the end, and the names in it are distinct
(and none is one that `list_reverse` makes), then the engine terminates without panic and returns the items of the list as it is then, treated by the functions, cut at the limit. -/
theorem C75_list_session (rn : Name) (ss : List (Step X)) (ls : List (List Name × Lst X × Option Nat)) (h : Demands (fun _ => none) ss ls) (purity : Bool) :
    (∃ N s', ∀ n, N ≤ n → runSession (env H opAt g hv ha) n (ss.map (stepProg rn)) (initSt purity false) =
      .ok (ls.map fun p => .vec (limited p.2.2 (specChain H opAt g p.1 p.2.1.items))) s') ∧
    (∀ n err s', runSession (env H opAt g hv ha) n (ss.map (stepProg rn)) (initSt purity false) ≠ .panic err s') ∧
    ∀ n vs' s', runSession (env H opAt g hv ha) n (ss.map (stepProg rn)) (initSt purity false) = .ok vs' s' →
      vs' = ls.map fun p => .vec (limited p.2.2 (specChain H opAt g p.1 p.2.1.items)) := by
  have hm := list_session_means (H := H) (opAt := opAt) (g := g) (hv := hv) (ha := ha) rn ss ls h
  refine ⟨?_, ?_, ?_⟩
  · exact (C02_terminates_without_panic (sigL opAt) (env H opAt g hv ha) _ _ hm purity fun _ => rfl).1
  · exact (C02_terminates_without_panic (sigL opAt) (env H opAt g hv ha) _ _ hm purity fun _ => rfl).2
  · intro n vs' s' he
    exact C01_from_scratch_consistency (sigL opAt) (env H opAt g hv ha) _ _ hm purity (fun _ => rfl) n vs' s' he

/-- What the functions do to items is what the model of them does (Collections/Model.lean). -/
theorem C75_spec_is_model (f : X → X) (p : X → Bool) (t : Lst X) :
    (Coll.listMapLazy f t).items = specOp H (fun _ x => some (f x)) (.each .lazy 0) t.items ∧
    (Coll.listMapEager f t).items = specOp H (fun _ x => some (f x)) (.each .eager 0) t.items ∧
    (Coll.listMapEager2 H f t).items = specOp H (fun _ x => some (f x)) (.each .eager2 0) t.items ∧
    (Coll.listFilterLazy p t).items = specOp H (fun _ x => if p x then some x else none) (.each .lazy 0) t.items ∧
    (Coll.listFilterEager p t).items = specOp H (fun _ x => if p x then some x else none) (.each .eager 0) t.items ∧
    (Coll.listReverse H t .nil).items = specOp H (fun _ x => some (f x)) .rev t.items := by
  refine ⟨?_, ?_, ?_, ?_, ?_, Coll.list_reverse_items H t⟩
  all_goals
    simp only [specOp]
    induction t with
    | nil => rfl
    | cons x t ih =>
      first
        | (simp [Coll.listMapLazy, Coll.listMapEager, Coll.listMapEager2, Lst.items, specItem, List.filterMap_cons, ih]; done)
        | (by_cases hp : p x = true <;> simp [Coll.listFilterLazy, Coll.listFilterEager, Lst.items, specItem, hp, ih]; done)
    | name n t ih => simp [Coll.listMapLazy, Coll.listMapEager, Coll.listMapEager2, Coll.listFilterLazy, Coll.listFilterEager, Coll.lcell, Lst.items, specItem, List.filterMap_cons, ih]
    | art t ih => simpa [Coll.listMapLazy, Coll.listMapEager, Coll.listMapEager2, Coll.listFilterLazy, Coll.listFilterEager, Lst.items] using ih

/-! ### A session that meets the hypotheses

The list `8, ⟨name 1⟩, [cell 10]`, of which the cells are edited between demands; the stages change too. -/
end Adapton.ListProg
namespace Adapton.ListProg.Example75
open Coll (Lst NameElse)
open EditSession (cellAt)
def H : NameHash := ⟨fun a b => a + 3 * b, fun n => n.toUInt64, fun _ => 0, fun _ => 7, fun h i => 5 * h + i.toUInt64⟩
def nm (n : Nat) : Name := nameOfUsize H n
/-- Body 0 adds one, body 1 keeps the odd numbers. -/
def g : Nat → Nat → Option Nat
  | 0, x => some (x + 1)
  | _, x => if x % 2 = 1 then some x else none
/-- The namespaces of the stages. -/
def opAt (n : Name) : Op :=
  if n = nm 20 then .each .lazy 0 else if n = nm 21 then .each .eager 1 else if n = nm 22 then .each .eager2 0 else if n = nm 23 then .each .lazy 1 else .rev
def theList : SortProg.LV Nat := .cons 8 (.name (nm 1) (.art (cellAt (nm 10))))
def steps : List (Step Nat) :=
  [⟨[.cell (nm 11) (.lst (.cons 7 .nil)), .cell (nm 10) (.lst (.cons 3 (.name (nm 2) (.art (cellAt (nm 11))))))], [nm 21, nm 24, nm 20], theList, none⟩,
   ⟨[.set (nm 11) (.lst (.cons 9 (.cons 1 .nil)))], [nm 21, nm 24, nm 20], theList, none⟩,
   ⟨[.cell (nm 12) (.lst (.cons 5 .nil)), .set (nm 11) (.lst (.name (nm 3) (.cons 2 (.art (cellAt (nm 12))))))], [nm 22, nm 24, nm 23], theList, none⟩,
   ⟨[.set (nm 10) (.lst (.art (cellAt (nm 12))))], [nm 22, nm 24, nm 23], theList, some 1⟩]
def lists : List (List Name × Lst Nat × Option Nat) :=
  [([nm 21, nm 24, nm 20], .cons 8 (.name (nm 1) (.art (.cons 3 (.name (nm 2) (.art (.cons 7 .nil)))))), none),
   ([nm 21, nm 24, nm 20], .cons 8 (.name (nm 1) (.art (.cons 3 (.name (nm 2) (.art (.cons 9 (.cons 1 .nil))))))), none),
   ([nm 22, nm 24, nm 23], .cons 8 (.name (nm 1) (.art (.cons 3 (.name (nm 2) (.art (.name (nm 3) (.cons 2 (.art (.cons 5 .nil))))))))), none),
   ([nm 22, nm 24, nm 23], .cons 8 (.name (nm 1) (.art (.art (.cons 5 .nil)))), some 1)]

theorem meets : Demands (fun _ => none) steps lists := by
  refine .cons rfl (.cons (.name (.art rfl (.cons (.name (.art rfl (.cons .nil))))))) ⟨by decide, by decide⟩ (by decide) ?_
  refine .cons rfl (.cons (.name (.art rfl (.cons (.name (.art rfl (.cons (.cons .nil)))))))) ⟨by decide, by decide⟩ (by decide) ?_
  refine .cons rfl (.cons (.name (.art rfl (.cons (.name (.art rfl (.name (.cons (.art rfl (.cons .nil)))))))))) ⟨by decide, by decide⟩ (by decide) ?_
  refine .cons rfl (.cons (.name (.art rfl (.art rfl (.cons .nil))))) ⟨by decide, by decide⟩ (by decide) ?_
  exact .nil

def elems : CV Nat → List Nat
  | .vec v => Coll.elmsOf v
  | _ => []

example : (match runSession (env H opAt g (fun _ => 0) (fun _ _ => 0)) 60 (steps.map (stepProg (nm 0))) (initSt true false) with
    | .ok vs _ => vs.map elems
    | _ => []) = [[8, 4], [2, 10, 4], [3, 9], [9]] := by decide +kernel

def panicOf (ps : List (Prog (CV Nat))) : Option Err :=
  match runSession (env H opAt g (fun _ => 0) (fun _ _ => 0)) 60 ps (initSt true false) with
  | .panic e _ => some e
  | _ => none

/-- The names must be distinct: on the list `8, ⟨name 1⟩, 3, ⟨name 1⟩, 5`, -/
theorem C75_repeated_name_panics :
    panicOf [stepProg (nm 0) ⟨[], [nm 21], .cons 8 (.name (nm 1) (.cons 3 (.name (nm 1) (.cons 5 .nil)))), none⟩] = some .unexpectedCycle := by decide +kernel
/-- and the stages must be in different namespaces: on the list `8, ⟨name 1⟩, 3`, `list_filter_eager` twice in the same one allocates the same thunk twice. -/
theorem C75_repeated_stage_panics :
    panicOf [stepProg (nm 0) ⟨[], [nm 21, nm 21], .cons 8 (.name (nm 1) (.cons 3 .nil)), none⟩] = some .dupMiss := by decide +kernel

end Adapton.ListProg.Example75
