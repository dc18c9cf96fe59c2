import Verif.Engine.EditSession
import Verif.Catalog.TrieProg
import Verif.Props.Tries
import Verif.Props.TreeEngine
import Verif.Props.Dirtying
import Verif.Engine.GeneralOps
/-
C80: tries on the engine.
-/
set_option linter.unusedSectionVars false
set_option linter.unusedVariables false
namespace Adapton.TrieProg
open Bits (BS)
open TrieM (Trie)
open Ref (Sig Kind Store Ctx Ext ES Means alloc)
open EditSession (World Below AncOk alloc_below Cells Edit applyAll cellAt)
variable {X R : Type} [DecidableEq X] [DecidableEq R] (H : NameHash)

/-! ### The specification -/

/-- The trie `t` is what the value `v` stands for: the articulations in it are cells of the editor, and are replaced by what they hold. -/
inductive Unfolds (cs : Cells (CV X R)) : TrV X → Trie X → Prop
  | nil {bs} : Unfolds cs (.nil bs) (.nil bs)
  | leaf {bs x} : Unfolds cs (.leaf bs x) (.leaf bs x)
  | bin {bs l r l' r'} : Unfolds cs l l' → Unfolds cs r r' → Unfolds cs (.bin bs l r) (.bin bs l' r')
  | root {d t t'} : Unfolds cs t t' → Unfolds cs (.root d t) (.root d t')
  | name {n t t'} : Unfolds cs t t' → Unfolds cs (.name n t) (.name n t')
  | art {n v t} : cs n = some (.trie v) → Unfolds cs v t → Unfolds cs (.art (cellAt n)) (.art t)

/-- The names in a trie. -/
def names : Trie X → List Name
  | .nil _ => []
  | .leaf _ _ => []
  | .bin _ l r => names l ++ names r
  | .root _ t => names t
  | .name n t => n :: names t
  | .art t => names t

/-- What is asked: a given trie must unfold; `Trie::empty` is the empty trie. -/
inductive SrcIs (H : NameHash) (opAt : Name → Option Nat) (cs : Cells (CV X R)) : Src X → Trie X → Prop
  | given {v t} : Unfolds cs v t → SrcIs H opAt cs (.given v) t
  | empty {nm d} : opAt nm = none → SrcIs H opAt cs (.empty nm d) (TrieM.empty H d)

/-- `trie_fold` needs the names to be distinct, and a namespace for its thunks. -/
def GoodQuery (opAt : Name → Option Nat) (t : Trie X) : Query X R → Prop
  | .trieFold nm _ => (names t).Nodup ∧ (opAt nm).isSome = true
  | _ => True

/-- A step of the session: some edits, then a demand. -/
structure Step (X R : Type) where
  edits : List (Edit (CV X R))
  src : Src X
  q : Query X R

/-- What is demanded in a session. -/
inductive Demands (H : NameHash) (opAt : Name → Option Nat) : Cells (CV X R) → List (Step X R) → List (Trie X × Query X R) → Prop
  | nil {cs} : Demands H opAt cs [] []
  | cons {cs cs' s ss t ds} : applyAll cs s.edits = some cs' → SrcIs H opAt cs' s.src t → GoodQuery opAt t s.q → Demands H opAt cs' ss ds → Demands H opAt cs (s :: ss) ((t, s.q) :: ds)

/-- What a query returns, in terms of the model of Catalog/Trie.lean. -/
def answer (opAt : Name → Option Nat) (fs : Fns X R) (t : Trie X) : Query X R → CV X R
  | .find elt i => .opt (TrieM.find t elt i)
  | .mem elt => .bool (TrieM.mem fs.hash t elt)
  | .isEmpty => .bool (TrieM.isEmpty t)
  | .fold i r => .res (TrieM.fold (fs.f i) t r)
  | .trieFold nm r => .res (TrieM.fold (fs.f ((opAt nm).getD 0)) t r)

/-- The namespace of the program. -/
def rootNm : Name := ⟨0, .str "trie"⟩

/-- The code of the editor for one step: the edits, and then `ns("trie", || get!(thunk!([Some(rn)]? { … })))`. -/
def stepProg (rn : Name) (s : Step X R) : Prog (CV X R) :=
  EditSession.editProg tyT s.edits <|
    .ns rootNm (.thunk tyV (.nominal rn) ppMain fMain (.root s.src s.q) fun l => .force tyV l none .ret) .ret

/-! ### The signature -/

def rootPath : Path := .child .empty rootNm
def stagePath (nm : Name) : Path := .child rootPath nm

/-- What is allocated in a namespace: the thunks of `Trie::empty`, or those of `trie_fold`. -/
def stageKind (H : NameHash) : Option Nat → ArtId → Kind
  | none, id => if id = .nominal (emptyNames H).2 then .thunk tyT ppNil fNil else .thunk tyT ppRootC fRootC
  | some i, _ => .thunk tyR ppTFold (fTFold i)

def sigKind (H : NameHash) (opAt : Name → Option Nat) (l : Loc) : Kind :=
  match l.path with
  | .empty => .cell tyT
  | .child _ nm => if l.path = rootPath then .thunk tyV ppMain fMain else stageKind H (opAt nm) l.id

def sigT (H : NameHash) (opAt : Name → Option Nat) : Sig := { kind := sigKind H opAt }

variable {H} {opAt : Name → Option Nat} {fs : Fns X R}

theorem sig_stage (nm : Name) (id : ArtId) : sigT H opAt ⟨stagePath nm, id⟩ = stageKind H (opAt nm) id := by
  have h : stagePath nm ≠ rootPath := by simp [stagePath, rootPath]
  show sigKind H opAt ⟨stagePath nm, id⟩ = _
  unfold sigKind
  show (if stagePath nm = rootPath then _ else stageKind H (opAt nm) id) = _
  rw [if_neg h]

/-! ### Tries with their articulations -/

/-- A trie, of which the articulations have both a location and what is in it. -/
inductive ATr (X : Type) where
  | nil (bs : BS)
  | leaf (bs : BS) (x : X)
  | bin (bs : BS) (l r : ATr X)
  | root (minDepth : Int) (t : ATr X)
  | name (n : Name) (t : ATr X)
  | art (a : Loc) (t : ATr X)

namespace ATr
def val : ATr X → TrV X
  | .nil bs => .nil bs
  | .leaf bs x => .leaf bs x
  | .bin bs l r => .bin bs l.val r.val
  | .root d t => .root d t.val
  | .name n t => .name n t.val
  | .art a _ => .art a
def erase : ATr X → Trie X
  | .nil bs => .nil bs
  | .leaf bs x => .leaf bs x
  | .bin bs l r => .bin bs l.erase r.erase
  | .root d t => .root d t.erase
  | .name n t => .name n t.erase
  | .art _ t => .art t.erase
def strip : ATr X → ATr X
  | .art _ t => t.strip
  | t => t
def size : ATr X → Nat
  | .nil _ => 1
  | .leaf _ _ => 1
  | .bin _ l r => l.size + r.size + 1
  | .root _ t => t.size + 1
  | .name _ t => t.size + 1
  | .art _ t => t.size + 1

theorem strip_art {t : ATr X} {a : Loc} {u : ATr X} : t.strip ≠ .art a u := by
  induction t with
  | art b t ih => exact ih
  | _ => simp [strip]
theorem strip_size (t : ATr X) : t.strip.size ≤ t.size := by
  induction t with
  | art b t ih => simp only [strip, size]; omega
  | _ => exact Nat.le_refl _
end ATr

/-- Code of the program. -/
abbrev CP (H : NameHash) (opAt : Name → Option Nat) (fs : Fns X R) (hv : CV X R → UInt64) (ha : ProgPt → CV X R → UInt64) (c : Ctx) (π : Path) (p : Prog (CV X R)) (σ : Store (CV X R))
    (Q : Store (CV X R) → CV X R → Prop) : Prop := Conv (sigT H opAt) (env H opAt fs hv ha) c π p σ Q

variable {hv : CV X R → UInt64} {ha : ProgPt → CV X R → UInt64} {W : World (CV X R)} {σ σ' : Store (CV X R)}

/-- The articulation is a cell that holds the trie, or a thunk that only returns it. -/
def Holds (H : NameHash) (opAt : Name → Option Nat) (fs : Fns X R) (W : World (CV X R)) (σ : Store (CV X R)) (a : Loc) (t : ATr X) : Prop :=
  (sigT H opAt a = .cell tyT ∧ σ a = some (.trie t.val)) ∨
  ∃ pp fn arg, sigT H opAt a = .thunk tyT pp fn ∧ σ a = some arg ∧ W a = some (arg, 0) ∧ a.isStruct = false ∧ code H opAt fs fn arg = .ret (.trie t.val)

/-- The articulations of the trie can be followed. -/
def Live (H : NameHash) (opAt : Name → Option Nat) (fs : Fns X R) (W : World (CV X R)) (σ : Store (CV X R)) : ATr X → Prop
  | .nil _ => True
  | .leaf _ _ => True
  | .bin _ l r => Live H opAt fs W σ l ∧ Live H opAt fs W σ r
  | .root _ t => Live H opAt fs W σ t
  | .name _ t => Live H opAt fs W σ t
  | .art a t => Holds H opAt fs W σ a t ∧ Live H opAt fs W σ t

theorem Live.ext {t : ATr X} (h : Live H opAt fs W σ t) (he : Ext σ σ') : Live H opAt fs W σ' t := by
  induction t with
  | nil bs => trivial
  | leaf bs x => trivial
  | bin bs l r ihl ihr => exact ⟨ihl h.1, ihr h.2⟩
  | root d t ih => exact ih h
  | name n t ih => exact ih h
  | art a t ih =>
    refine ⟨?_, ih h.2⟩
    rcases h.1 with ⟨h1, h2⟩ | ⟨pp, fn, arg, h1, h2, h3⟩
    · exact .inl ⟨h1, he _ _ h2⟩
    · exact .inr ⟨pp, fn, arg, h1, he _ _ h2, h3⟩
theorem Live.strip {t : ATr X} (h : Live H opAt fs W σ t) : Live H opAt fs W σ t.strip := by
  induction t with
  | art a l ih => exact ih h.2
  | _ => exact h

theorem viewOk (t : ATr X) : ∀ (c : Ctx) (π : Path), AncOk W c 1 → Live H opAt fs W σ t → CP H opAt fs hv ha c π (view t.val) σ fun σ' v => σ' = σ ∧ v = .trie t.strip.val := by
  induction t with
  | art a t ih =>
    intro c π hc h
    have hk : CP H opAt fs hv ha c π (.call fView (.trie t.val) .ret) σ fun σ' v => σ' = σ ∧ v = .trie t.strip.val := by
      refine Conv.call ?_
      have hcode : (env H opAt fs hv ha).code fView (.trie t.val) = view t.val := rfl
      rw [hcode]
      refine (ih c π hc h.2).mono ?_
      rintro σ1 v ⟨rfl, rfl⟩
      exact Conv.ret ⟨rfl, rfl⟩
    rcases h.1 with ⟨h1, h2⟩ | ⟨pp, fn, arg, h1, h2, h3, h4, h5⟩
    · exact Conv.forceCell h1 h2 hk
    · refine Conv.forceThunk h1 (hc.not_mem h3 (by omega)) h2 h4 ?_
      have hcode : (env H opAt fs hv ha).code fn arg = .ret (.trie t.val) := h5
      rw [hcode]
      exact Conv.ret hk
  | _ => intro c π hc h; exact Conv.ret ⟨rfl, rfl⟩

/-- Looking at a trie, inside a program. -/
theorem onView {t : ATr X} {c : Ctx} {π : Path} {k : TrV X → Prog (CV X R)} {Q : Store (CV X R) → CV X R → Prop} (hc : AncOk W c 1) (hl : Live H opAt fs W σ t)
    (h : CP H opAt fs hv ha c π (k t.strip.val) σ Q) : CP H opAt fs hv ha c π (.call fView (.trie t.val) (onTrie k)) σ Q := by
  refine Conv.call ?_
  have hcode : (env H opAt fs hv ha).code fView (.trie t.val) = view t.val := rfl
  rw [hcode]
  refine (viewOk t c π hc hl).mono ?_
  rintro σ1 v ⟨rfl, rfl⟩
  exact h

/-! ### `find`, `is_empty` and `SetElim::fold`: nothing is allocated -/

theorem find_strip (t : ATr X) (elt : X) (i : Int) : TrieM.find t.erase elt i = TrieM.find t.strip.erase elt i := by
  induction t with
  | art a t ih => exact ih
  | _ => rfl
theorem isEmpty_strip (t : ATr X) : TrieM.isEmpty t.erase = TrieM.isEmpty t.strip.erase := by
  induction t with
  | art a t ih => exact ih
  | _ => rfl
theorem fold_strip (f : X → R → R) (t : ATr X) (r : R) : TrieM.fold f t.erase r = TrieM.fold f t.strip.erase r := by
  induction t with
  | art a t ih => exact ih
  | _ => rfl

theorem findOk : ∀ (m : Nat) (t : ATr X) (elt : X) (i : Int) (c : Ctx) (π : Path), t.size ≤ m → AncOk W c 1 → Live H opAt fs W σ t →
    CP H opAt fs hv ha c π (find t.val elt i) σ fun σ' v => σ' = σ ∧ v = .opt (TrieM.find t.erase elt i) := by
  intro m
  induction m with
  | zero => intro t elt i c π hm; cases t <;> simp [ATr.size] at hm
  | succ m ih =>
    intro t elt i c π hm hc hl
    refine onView hc hl ?_
    have hsz := t.strip_size
    have hl := hl.strip
    rw [find_strip]
    have step : ∀ (u : ATr X) (j : Int), u.size ≤ m → Live H opAt fs W σ u → CP H opAt fs hv ha c π (.call fFind (.findArgs u.val elt j) .ret) σ fun σ' v => σ' = σ ∧ v = .opt (TrieM.find u.erase elt j) := by
      intro u j hu hlu
      refine Conv.call ?_
      have hcode : (env H opAt fs hv ha).code fFind (.findArgs u.val elt j) = find u.val elt j := rfl
      rw [hcode]
      refine (ih u elt j c π hu hc hlu).mono ?_
      rintro σ1 v ⟨rfl, rfl⟩
      exact Conv.ret ⟨rfl, rfl⟩
    rcases hst : t.strip with bs | ⟨bs, x⟩ | ⟨bs, l, r⟩ | ⟨d, u⟩ | ⟨n, u⟩ | ⟨a, u⟩
    · exact Conv.ret ⟨rfl, rfl⟩
    · exact Conv.ret ⟨rfl, rfl⟩
    · rw [hst] at hsz hl
      simp only [ATr.size] at hsz
      simp only [ATr.val, ATr.erase, TrieM.find]
      by_cases hi : i.tmod 2 = 0
      · rw [if_pos hi, if_pos hi]
        exact step l _ (by omega) hl.1
      · rw [if_neg hi, if_neg hi]
        exact step r _ (by omega) hl.2
    · rw [hst] at hsz hl
      simp only [ATr.size] at hsz
      exact step u _ (by omega) hl
    · rw [hst] at hsz hl
      simp only [ATr.size] at hsz
      exact step u _ (by omega) hl
    · exact absurd hst ATr.strip_art

theorem isEmptyOk : ∀ (m : Nat) (t : ATr X) (c : Ctx) (π : Path), t.size ≤ m → AncOk W c 1 → Live H opAt fs W σ t →
    CP H opAt fs hv ha c π (isEmpty t.val) σ fun σ' v => σ' = σ ∧ v = .bool (TrieM.isEmpty t.erase) := by
  intro m
  induction m with
  | zero => intro t c π hm; cases t <;> simp [ATr.size] at hm
  | succ m ih =>
    intro t c π hm hc hl
    refine onView hc hl ?_
    have hsz := t.strip_size
    have hl := hl.strip
    rw [isEmpty_strip]
    have step : ∀ u : ATr X, u.size ≤ m → Live H opAt fs W σ u → CP H opAt fs hv ha c π (.call fEmpty (.trie u.val) .ret) σ fun σ' v => σ' = σ ∧ v = .bool (TrieM.isEmpty u.erase) := by
      intro u hu hlu
      refine Conv.call ?_
      have hcode : (env H opAt fs hv ha).code fEmpty (.trie u.val) = isEmpty u.val := rfl
      rw [hcode]
      refine (ih u c π hu hc hlu).mono ?_
      rintro σ1 v ⟨rfl, rfl⟩
      exact Conv.ret ⟨rfl, rfl⟩
    rcases hst : t.strip with bs | ⟨bs, x⟩ | ⟨bs, l, r⟩ | ⟨d, u⟩ | ⟨n, u⟩ | ⟨a, u⟩
    · exact Conv.ret ⟨rfl, rfl⟩
    · exact Conv.ret ⟨rfl, rfl⟩
    · exact Conv.ret ⟨rfl, rfl⟩
    · rw [hst] at hsz hl
      simp only [ATr.size] at hsz
      exact step u (by omega) hl
    · rw [hst] at hsz hl
      simp only [ATr.size] at hsz
      exact step u (by omega) hl
    · exact absurd hst ATr.strip_art

theorem foldOk (i : Nat) : ∀ (m : Nat) (t : ATr X) (r : R) (c : Ctx) (π : Path), t.size ≤ m → AncOk W c 1 → Live H opAt fs W σ t →
    CP H opAt fs hv ha c π (fold (fs.f i) (fFold i) t.val r) σ fun σ' v => σ' = σ ∧ v = .res (TrieM.fold (fs.f i) t.erase r) := by
  intro m
  induction m with
  | zero => intro t r c π hm; cases t <;> simp [ATr.size] at hm
  | succ m ih =>
    intro t r c π hm hc hl
    refine onView hc hl ?_
    have hsz := t.strip_size
    have hl := hl.strip
    rw [fold_strip]
    have step : ∀ (u : ATr X) (r : R) (k : CV X R → Prog (CV X R)) (Q : Store (CV X R) → CV X R → Prop), u.size ≤ m → Live H opAt fs W σ u →
        CP H opAt fs hv ha c π (k (.res (TrieM.fold (fs.f i) u.erase r))) σ Q → CP H opAt fs hv ha c π (.call (fFold i) (.foldArgs u.val r) k) σ Q := by
      intro u r k Q hu hlu hk
      refine Conv.call ?_
      have hcode : (env H opAt fs hv ha).code (fFold i) (.foldArgs u.val r) = fold (fs.f i) (fFold i) u.val r := code_fold H opAt fs i _
      rw [hcode]
      refine (ih u r c π hu hc hlu).mono ?_
      rintro σ1 v ⟨rfl, rfl⟩
      exact hk
    rcases hst : t.strip with bs | ⟨bs, x⟩ | ⟨bs, l, rt⟩ | ⟨d, u⟩ | ⟨n, u⟩ | ⟨a, u⟩
    · exact Conv.ret ⟨rfl, rfl⟩
    · exact Conv.ret ⟨rfl, rfl⟩
    · rw [hst] at hsz hl
      simp only [ATr.size] at hsz
      exact step l r _ _ (by omega) hl.1 (step rt _ _ _ (by omega) hl.2 (Conv.ret ⟨rfl, rfl⟩))
    · rw [hst] at hsz hl
      simp only [ATr.size] at hsz
      exact step u r _ _ (by omega) hl (Conv.ret ⟨rfl, rfl⟩)
    · rw [hst] at hsz hl
      simp only [ATr.size] at hsz
      exact step u r _ _ (by omega) hl (Conv.ret ⟨rfl, rfl⟩)
    · exact absurd hst ATr.strip_art

/-! ### `trie_fold` -/

/-- The number of names on the longest path, which bounds the nesting of the thunks. -/
def ATr.ht : ATr X → Nat
  | .nil _ => 0
  | .leaf _ _ => 0
  | .bin _ l r => max l.ht r.ht
  | .root _ t => t.ht
  | .name _ t => t.ht + 1
  | .art _ t => t.ht
theorem ATr.strip_ht (t : ATr X) : t.strip.ht = t.ht := by
  induction t with
  | art a t ih => exact ih
  | _ => rfl

/-- What has been allocated, with ranks. -/
abbrev Allocs (X R : Type) := List (Loc × CV X R × Nat)

/-- What `trie_fold` allocates, in the namespace `p`. -/
def aFold (f : X → R → R) (p : Path) : ATr X → R → Allocs X R
  | .nil _, _ => []
  | .leaf _ _, _ => []
  | .bin _ l rt, r => aFold f p l r ++ aFold f p rt (TrieM.fold f l.erase r)
  | .root _ t, r => aFold f p t r
  | .name n t, r => (⟨p, .nominal n⟩, .foldArgs t.val r, t.ht + 1) :: aFold f p t r
  | .art _ t, r => aFold f p t r

theorem aFold_strip {f : X → R → R} {p : Path} (t : ATr X) (r : R) : aFold f p t r = aFold f p t.strip r := by
  induction t with
  | art a t ih => exact ih
  | _ => rfl

theorem aFold_locs {f : X → R → R} {p : Path} (t : ATr X) : ∀ r : R, (aFold f p t r).map Prod.fst = (names t.erase).map fun n => ⟨p, .nominal n⟩ := by
  induction t with
  | nil bs => intro r; rfl
  | leaf bs x => intro r; rfl
  | bin bs l rt ihl ihr => intro r; simp only [aFold, ATr.erase, names, List.map_append, ihl, ihr]
  | root d t ih => intro r; exact ih r
  | name n t ih => intro r; simp only [aFold, ATr.erase, names, List.map_cons, ih]
  | art a t ih => intro r; exact ih r

theorem trieFoldOk {nm : Name} {i : Nat} (hop : opAt nm = some i) : ∀ (m : Nat) (t : ATr X) (r : R) (c : Ctx) (σ : Store (CV X R)), t.size ≤ m → AncOk W c (t.ht + 1) → c.self ∈ c.anc →
    Below σ W → Live H opAt fs W σ t → (∀ x ∈ aFold (fs.f i) (stagePath nm) t r, W x.1 = some x.2) →
    CP H opAt fs hv ha c (stagePath nm) (trieFold (fs.f i) (fTFold i) t.val r) σ fun σ' v => Ext σ σ' ∧ Below σ' W ∧ v = .res (TrieM.fold (fs.f i) t.erase r) := by
  intro m
  induction m with
  | zero => intro t r c σ hm; cases t <;> simp [ATr.size] at hm
  | succ m ih =>
    intro t r c σ hm hc hs hb hl hal
    refine onView (hc.mono (by omega)) hl ?_
    have hsz := t.strip_size
    rw [← ATr.strip_ht] at hc
    have hl := hl.strip
    rw [aFold_strip] at hal
    rw [fold_strip]
    have hcode : ∀ (u : ATr X) (r : R), (env H opAt fs hv ha).code (fTFold i) (.foldArgs u.val r) = trieFold (fs.f i) (fTFold i) u.val r := fun u r => code_tfold H opAt fs i _
    rcases hst : t.strip with bs | ⟨bs, x⟩ | ⟨bs, l, rt⟩ | ⟨d, u⟩ | ⟨n, u⟩ | ⟨a, u⟩
    · exact Conv.ret ⟨Ext.refl _, hb, rfl⟩
    · exact Conv.ret ⟨Ext.refl _, hb, rfl⟩
    · rw [hst] at hsz hc hl hal
      simp only [ATr.size] at hsz
      have hh : (ATr.bin bs l rt).ht = max l.ht rt.ht := rfl
      refine Conv.call ?_
      rw [hcode]
      refine (ih l r c σ (by omega) (hc.mono (by omega)) hs hb hl.1 fun x hx => hal x (List.mem_append_left _ hx)).mono ?_
      rintro σ1 v ⟨e1, b1, rfl⟩
      refine Conv.call ?_
      rw [hcode]
      refine (ih rt _ c σ1 (by omega) (hc.mono (by omega)) hs b1 (hl.2.ext e1) fun x hx => hal x (List.mem_append_right _ hx)).mono ?_
      rintro σ2 v ⟨e2, b2, rfl⟩
      exact Conv.ret ⟨e1.trans e2, b2, rfl⟩
    · rw [hst] at hsz hc hl hal
      simp only [ATr.size] at hsz
      refine Conv.call ?_
      rw [hcode]
      refine (ih u r c σ (by omega) hc hs hb hl hal).mono ?_
      rintro σ1 v ⟨e1, b1, rfl⟩
      exact Conv.ret ⟨e1, b1, rfl⟩
    · rw [hst] at hsz hc hl hal
      simp only [ATr.size] at hsz
      have hh : (ATr.name n u).ht = u.ht + 1 := rfl
      have hw : W ⟨stagePath nm, .nominal n⟩ = some (.foldArgs u.val r, u.ht + 1) := hal _ (List.mem_cons_self ..)
      have hsig : sigT H opAt ⟨stagePath nm, .nominal n⟩ = .thunk tyR ppTFold (fTFold i) := by rw [sig_stage, hop]; rfl
      obtain ⟨σ1, a1, e1, b1, g1⟩ := alloc_below hb hw
      have hnm : (⟨stagePath nm, .nominal n⟩ : Loc) ∉ c.anc := hc.not_mem hw (by omega)
      refine Conv.thunk hsig (fun e => hnm (e ▸ hs)) a1 ?_
      refine Conv.forceThunk hsig hnm g1 rfl ?_
      rw [hcode]
      refine (ih u r _ σ1 (by omega) (hc.cons hw (by omega)) (List.mem_cons_self ..) b1 (hl.ext e1) fun x hx => hal x (List.mem_cons_of_mem _ hx)).mono ?_
      rintro σ2 v ⟨e2, b2, rfl⟩
      exact Conv.ret ⟨e1.trans e2, b2, rfl⟩
    · exact absurd hst ATr.strip_art

/-! ### `Trie::empty` -/

/-- The trie that `Trie::empty` returns, in the namespace `p`. -/
def aEmpty (X : Type) (H : NameHash) (p : Path) (d : Int) : ATr X :=
  .name (emptyNames H).1 (.art ⟨p, .nominal (emptyNames H).1⟩ (.root (minDepthOf d) (.name (emptyNames H).2 (.art ⟨p, .nominal (emptyNames H).2⟩ (.nil ⟨0, 0⟩)))))
/-- What it allocates. -/
def aEmptyAllocs (X R : Type) (H : NameHash) (p : Path) (d : Int) : Allocs X R :=
  [(⟨p, .nominal (emptyNames H).2⟩, .bs ⟨0, 0⟩, 0),
   (⟨p, .nominal (emptyNames H).1⟩, .rootArgs (minDepthOf d) (.name (emptyNames H).2 (.art ⟨p, .nominal (emptyNames H).2⟩)), 0)]

theorem emptyNames_ne : (emptyNames H).1 ≠ (emptyNames H).2 := by simp [emptyNames, nameFork]

theorem aEmpty_erase (p : Path) (d : Int) : (aEmpty X H p d).erase = TrieM.empty H d := rfl

theorem emptyOk {nm : Name} {d : Int} (hop : opAt nm = none) {c : Ctx} {k : TrV X → Prog (CV X R)} {Q : Store (CV X R) → CV X R → Prop} (hc : AncOk W c 1) (hs : c.self ∈ c.anc)
    (hb : Below σ W) (hal : ∀ x ∈ aEmptyAllocs X R H (stagePath nm) d, W x.1 = some x.2)
    (hk : ∀ σ1, Ext σ σ1 → Below σ1 W → Live H opAt fs W σ1 (aEmpty X H (stagePath nm) d) → CP H opAt fs hv ha c (stagePath nm) (k (aEmpty X H (stagePath nm) d).val) σ1 Q) :
    CP H opAt fs hv ha c (stagePath nm) (empty H d k) σ Q := by
  have hw2 : W ⟨stagePath nm, .nominal (emptyNames H).2⟩ = some (.bs ⟨0, 0⟩, 0) := hal _ (List.mem_cons_self ..)
  have hw1 : W ⟨stagePath nm, .nominal (emptyNames H).1⟩ = some (.rootArgs (minDepthOf d) (.name (emptyNames H).2 (.art ⟨stagePath nm, .nominal (emptyNames H).2⟩)), 0) :=
    hal _ (List.mem_cons_of_mem _ (List.mem_cons_self ..))
  have s2 : sigT H opAt ⟨stagePath nm, .nominal (emptyNames H).2⟩ = .thunk tyT ppNil fNil := by
    rw [sig_stage, hop]
    simp [stageKind]
  have s1 : sigT H opAt ⟨stagePath nm, .nominal (emptyNames H).1⟩ = .thunk tyT ppRootC fRootC := by
    rw [sig_stage, hop]
    simp [stageKind, emptyNames_ne]
  obtain ⟨σ1, a1, e1, b1, g1⟩ := alloc_below hb hw2
  refine Conv.thunk s2 (fun e => hc.not_mem hw2 (by omega) (e ▸ hs)) a1 ?_
  obtain ⟨σ2, a2, e2, b2, g2⟩ := alloc_below b1 hw1
  refine Conv.thunk s1 (fun e => hc.not_mem hw1 (by omega) (e ▸ hs)) a2 ?_
  exact hk σ2 (e1.trans e2) b2 ⟨.inr ⟨_, _, _, s1, g2, hw1, rfl, rfl⟩, .inr ⟨_, _, _, s2, e2 _ _ g1, hw2, rfl, rfl⟩, trivial⟩

/-! ### The program -/

/-- Where the trie comes from, with its articulations. -/
inductive ASrc (X : Type) where
  | given (t : ATr X)
  | empty (nm : Name) (d : Int)
def ASrc.val : ASrc X → Src X
  | .given t => .given t.val
  | .empty nm d => .empty nm d
def ASrc.trie (H : NameHash) : ASrc X → ATr X
  | .given t => t
  | .empty nm d => aEmpty X H (stagePath nm) d
def ASrc.allocs (R : Type) (H : NameHash) : ASrc X → Allocs X R
  | .given _ => []
  | .empty nm d => aEmptyAllocs X R H (stagePath nm) d
/-- What a query allocates. -/
def qAllocs (opAt : Name → Option Nat) (fs : Fns X R) (t : ATr X) : Query X R → Allocs X R
  | .trieFold nm r => aFold (fs.f ((opAt nm).getD 0)) (stagePath nm) t r
  | _ => []

theorem queryOk {t : ATr X} {q : Query X R} {c : Ctx} {π : Path} (hπ : π = rootPath) (hg : GoodQuery opAt t.erase q) (hc : AncOk W c (t.ht + 1)) (hs : c.self ∈ c.anc) (hb : Below σ W)
    (hl : Live H opAt fs W σ t) (hal : ∀ x ∈ qAllocs opAt fs t q, W x.1 = some x.2) :
    CP H opAt fs hv ha c π (query opAt fs t.val q) σ fun σ' v => Ext σ σ' ∧ Below σ' W ∧ v = answer opAt fs t.erase q := by
  subst hπ
  have hc1 := hc.mono (show 1 ≤ t.ht + 1 by omega)
  have hf : ∀ elt i, (env H opAt fs hv ha).code fFind (.findArgs t.val elt i) = find t.val elt i := fun _ _ => rfl
  have he : (env H opAt fs hv ha).code fEmpty (.trie t.val) = isEmpty t.val := rfl
  rcases q with ⟨elt, i⟩ | elt | _ | ⟨i, r⟩ | ⟨nm, r⟩
  · refine Conv.call ?_
    rw [hf]
    refine (findOk t.size t elt i c rootPath (Nat.le_refl _) hc1 hl).mono ?_
    rintro σ1 v ⟨rfl, rfl⟩
    exact Conv.ret ⟨Ext.refl _, hb, rfl⟩
  · refine Conv.call ?_
    rw [hf]
    refine (findOk t.size t elt _ c rootPath (Nat.le_refl _) hc1 hl).mono ?_
    rintro σ1 v ⟨rfl, rfl⟩
    simp only [answer, TrieM.mem]
    rcases TrieM.find t.erase elt (fs.hash elt) with _ | y
    · exact Conv.ret ⟨Ext.refl _, hb, rfl⟩
    · exact Conv.ret ⟨Ext.refl _, hb, rfl⟩
  · refine Conv.call ?_
    rw [he]
    refine (isEmptyOk t.size t c rootPath (Nat.le_refl _) hc1 hl).mono ?_
    rintro σ1 v ⟨rfl, rfl⟩
    exact Conv.ret ⟨Ext.refl _, hb, rfl⟩
  · refine Conv.call ?_
    have hcode : (env H opAt fs hv ha).code (fFold i) (.foldArgs t.val r) = fold (fs.f i) (fFold i) t.val r := code_fold H opAt fs i _
    rw [hcode]
    refine (foldOk i t.size t r c rootPath (Nat.le_refl _) hc1 hl).mono ?_
    rintro σ1 v ⟨rfl, rfl⟩
    exact Conv.ret ⟨Ext.refl _, hb, rfl⟩
  · obtain ⟨i, hi⟩ := Option.isSome_iff_exists.1 hg.2
    have hd : (opAt nm).getD 0 = i := by rw [hi]; rfl
    refine Conv.ns ?_
    refine Conv.call ?_
    simp only [qAllocs, hd] at hal
    rw [hd]
    have hcode : (env H opAt fs hv ha).code (fTFold i) (.foldArgs t.val r) = trieFold (fs.f i) (fTFold i) t.val r := code_tfold H opAt fs i _
    rw [hcode]
    refine (trieFoldOk hi t.size t r c σ (Nat.le_refl _) hc hs hb hl hal).mono ?_
    rintro σ1 v ⟨e1, b1, rfl⟩
    refine Conv.ret (Conv.ret ⟨e1, b1, ?_⟩)
    simp only [answer, hd]

theorem mainOk {s : ASrc X} {q : Query X R} {c : Ctx} {π : Path} (hπ : π = rootPath) (hs0 : ∀ nm d, s = .empty nm d → opAt nm = none) (hg : GoodQuery opAt (s.trie H).erase q)
    (hc : AncOk W c ((s.trie H).ht + 1)) (hs : c.self ∈ c.anc) (hb : Below σ W) (hl : ∀ t, s = .given t → Live H opAt fs W σ t)
    (hal : ∀ x ∈ s.allocs R H ++ qAllocs opAt fs (s.trie H) q, W x.1 = some x.2) :
    CP H opAt fs hv ha c π (main H opAt fs s.val q) σ fun σ' v => Ext σ σ' ∧ Below σ' W ∧ v = answer opAt fs (s.trie H).erase q := by
  have hal1 := fun x hx => hal x (List.mem_append_left _ hx)
  have hal2 := fun x hx => hal x (List.mem_append_right _ hx)
  rcases s with t | ⟨nm, d⟩
  · exact queryOk hπ hg hc hs hb (hl t rfl) hal2
  · subst hπ
    refine Conv.ns ?_
    refine emptyOk (hs0 nm d rfl) (hc.mono (by omega)) hs hb hal1 ?_
    intro σ1 e1 b1 l1
    refine Conv.ret ?_
    refine (queryOk rfl hg hc hs b1 l1 hal2).mono ?_
    rintro σ2 v ⟨e2, b2, rfl⟩
    exact ⟨e1.trans e2, b2, rfl⟩

/-! ### The session -/

/-- The articulations of the trie are cells of the editor. -/
def LiveC (cs : Cells (CV X R)) : ATr X → Prop
  | .nil _ => True
  | .leaf _ _ => True
  | .bin _ l r => LiveC cs l ∧ LiveC cs r
  | .root _ t => LiveC cs t
  | .name _ t => LiveC cs t
  | .art a t => (∃ n, a = cellAt n ∧ cs n = some (.trie t.val)) ∧ LiveC cs t

theorem sig_cellAt (n : Name) : sigT H opAt (cellAt n) = .cell tyT := rfl

theorem LiveC.live {cs : Cells (CV X R)} {t : ATr X} (h : LiveC cs t) (hcs : ∀ n v, cs n = some v → σ (cellAt n) = some v) : Live H opAt fs W σ t := by
  induction t with
  | nil bs => trivial
  | leaf bs x => trivial
  | bin bs l r ihl ihr => exact ⟨ihl h.1, ihr h.2⟩
  | root d t ih => exact ih h
  | name n t ih => exact ih h
  | art a t ih =>
    obtain ⟨⟨n, rfl, h1⟩, h2⟩ := h
    exact ⟨.inl ⟨sig_cellAt n, hcs _ _ h1⟩, ih h2⟩
theorem LiveC.ext {cs cs' : Cells (CV X R)} {t : ATr X} (h : LiveC cs t) (he : ∀ n v, cs n = some v → cs' n = some v) : LiveC cs' t := by
  induction t with
  | nil bs => trivial
  | leaf bs x => trivial
  | bin bs l r ihl ihr => exact ⟨ihl h.1, ihr h.2⟩
  | root d t ih => exact ih h
  | name n t ih => exact ih h
  | art a t ih =>
    obtain ⟨⟨n, rfl, h1⟩, h2⟩ := h
    exact ⟨⟨n, rfl, he _ _ h1⟩, ih h2⟩
theorem LiveC.unique {cs : Cells (CV X R)} {t : ATr X} : ∀ {t' : ATr X}, LiveC cs t → LiveC cs t' → t.val = t'.val → t = t' := by
  induction t with
  | nil bs => intro t' _ _ e; cases t' <;> simp [ATr.val] at e ⊢; exact e
  | leaf bs x => intro t' _ _ e; cases t' <;> simp [ATr.val] at e ⊢; exact e
  | bin bs l r ihl ihr =>
    intro t' h h' e
    cases t' <;> simp [ATr.val] at e
    rename_i y l' r'
    obtain ⟨rfl, e1, e2⟩ := e
    rw [ihl h.1 (t' := l') h'.1 e1, ihr h.2 (t' := r') h'.2 e2]
  | root d t ih =>
    intro t' h h' e
    cases t' <;> simp [ATr.val] at e
    rename_i d' t'
    obtain ⟨rfl, e1⟩ := e
    rw [ih h (t' := t') h' e1]
  | name d t ih =>
    intro t' h h' e
    cases t' <;> simp [ATr.val] at e
    rename_i d' t'
    obtain ⟨rfl, e1⟩ := e
    rw [ih h (t' := t') h' e1]
  | art a t ih =>
    intro t' h h' e
    cases t' <;> simp [ATr.val] at e
    rename_i a' t'
    subst e
    obtain ⟨⟨n, rfl, h1⟩, h2⟩ := h
    obtain ⟨⟨n', e', h1'⟩, h2'⟩ := h'
    have : n = n' := by simpa [cellAt] using e'
    subst this
    rw [h1] at h1'
    injection h1' with h1'
    injection h1' with h1'
    rw [ih h2 h2' h1']

theorem Unfolds.annot {cs : Cells (CV X R)} {v : TrV X} {t : Trie X} (h : Unfolds cs v t) : ∃ a : ATr X, a.val = v ∧ a.erase = t ∧ LiveC cs a := by
  induction h with
  | nil => exact ⟨.nil _, rfl, rfl, trivial⟩
  | leaf => exact ⟨.leaf _ _, rfl, rfl, trivial⟩
  | bin _ _ ihl ihr => obtain ⟨a, rfl, rfl, a3⟩ := ihl; obtain ⟨b, rfl, rfl, b3⟩ := ihr; exact ⟨.bin _ a b, rfl, rfl, a3, b3⟩
  | root _ ih => obtain ⟨a, rfl, rfl, a3⟩ := ih; exact ⟨.root _ a, rfl, rfl, a3⟩
  | name _ ih => obtain ⟨a, rfl, rfl, a3⟩ := ih; exact ⟨.name _ a, rfl, rfl, a3⟩
  | @art n v t hn _ ih =>
    obtain ⟨a, rfl, rfl, a3⟩ := ih
    exact ⟨.art (cellAt n) a, rfl, rfl, ⟨n, rfl, hn⟩, a3⟩

/-- The source is as the cells of the editor say. -/
def SrcOk (opAt : Name → Option Nat) (cs : Cells (CV X R)) : ASrc X → Prop
  | .given t => LiveC cs t
  | .empty nm _ => opAt nm = none

/-- The program as one that the editor demands. -/
def theRoot (H : NameHash) (opAt : Name → Option Nat) (fs : Fns X R) (hv : CV X R → UInt64) (ha : ProgPt → CV X R → UInt64) (rn : Name) : EditSession.Root (CV X R) where
  sig := sigT H opAt
  env := env H opAt fs hv ha
  ns := rootNm
  rn := rn
  ty := tyV
  pp := ppMain
  fn := fMain
  cty := tyT
  D := ASrc X × Query X R
  arg d := .root d.1.val d.2
  res d := answer opAt fs (d.1.trie H).erase d.2
  rank d := (d.1.trie H).ht + 1
  allocs d := d.1.allocs R H ++ qAllocs opAt fs (d.1.trie H) d.2
  ok cs d := SrcOk opAt cs d.1 ∧ GoodQuery opAt (d.1.trie H).erase d.2

/-- Where things are allocated. -/
theorem alloc_at {s : ASrc X} {q : Query X R} {cs : Cells (CV X R)} (hs : SrcOk opAt cs s) (hg : GoodQuery opAt (s.trie H).erase q) :
    ((s.allocs R H ++ qAllocs opAt fs (s.trie H) q).map Prod.fst).Nodup ∧ ∀ l ∈ (s.allocs R H ++ qAllocs opAt fs (s.trie H) q).map Prod.fst, ∃ nm n, l = ⟨stagePath nm, .nominal n⟩ := by
  have h1 : ((s.allocs R H).map Prod.fst).Nodup ∧ ∀ l ∈ (s.allocs R H).map Prod.fst, ∃ nm n, l = ⟨stagePath nm, .nominal n⟩ ∧ opAt nm = none := by
    rcases s with t | ⟨nm, d⟩
    · exact ⟨List.nodup_nil, fun l hl => by cases hl⟩
    · refine ⟨by simp [ASrc.allocs, aEmptyAllocs, emptyNames_ne.symm], fun l hl => ?_⟩
      simp [ASrc.allocs, aEmptyAllocs] at hl
      rcases hl with rfl | rfl
      · exact ⟨nm, _, rfl, hs⟩
      · exact ⟨nm, _, rfl, hs⟩
  have h2 : ((qAllocs opAt fs (s.trie H) q).map Prod.fst).Nodup ∧ ∀ l ∈ (qAllocs opAt fs (s.trie H) q).map Prod.fst, ∃ nm n, l = ⟨stagePath nm, .nominal n⟩ ∧ (opAt nm).isSome = true := by
    rcases q with ⟨elt, i⟩ | elt | _ | ⟨i, r⟩ | ⟨nm, r⟩
    iterate 4 exact ⟨List.nodup_nil, fun l hl => by cases hl⟩
    simp only [qAllocs, aFold_locs]
    refine ⟨?_, fun l hl => ?_⟩
    · refine List.pairwise_map.2 (List.Pairwise.imp ?_ hg.1)
      intro a b hab e
      exact hab (by simpa using e)
    · obtain ⟨n, _, rfl⟩ := List.mem_map.1 hl
      exact ⟨nm, n, rfl, hg.2⟩
  rw [List.map_append]
  refine ⟨List.nodup_append.2 ⟨h1.1, h2.1, ?_⟩, fun l hl => ?_⟩
  · rintro l hl _ hl' rfl
    obtain ⟨nm, n, e, h⟩ := h1.2 l hl
    obtain ⟨nm', n', e', h'⟩ := h2.2 l hl'
    rw [e] at e'
    simp [stagePath] at e'
    rw [← e'.1, h] at h'
    cases h'
  · rcases List.mem_append.1 hl with hl | hl
    · obtain ⟨nm, n, e, _⟩ := h1.2 l hl; exact ⟨nm, n, e⟩
    · obtain ⟨nm, n, e, _⟩ := h2.2 l hl; exact ⟨nm, n, e⟩

theorem lawful (rn : Name) : (theRoot H opAt fs hv ha rn).Lawful where
  mode := ⟨rfl, fun _ => rfl⟩
  sig_root := rfl
  sig_cell := sig_cellAt
  ext cs cs' d h hok := by
    refine ⟨?_, hok.2⟩
    have h1 : SrcOk opAt cs d.1 := hok.1
    rcases hd : d.1 with t | ⟨nm, k⟩
    · rw [hd] at h1; exact LiveC.ext h1 h
    · rw [hd] at h1; exact h1
  unique cs d d' h h' e := by
    obtain ⟨s, q⟩ := d
    obtain ⟨s', q'⟩ := d'
    injection e with e1 e2
    have e1 : s.val = s'.val := e1
    have e2 : q = q' := e2
    subst e2
    have h1 : SrcOk opAt cs s := h.1
    have h1' : SrcOk opAt cs s' := h'.1
    have : s = s' := by
      rcases s with t | ⟨nm, k⟩ <;> rcases s' with t' | ⟨nm', k'⟩ <;> simp [ASrc.val] at e1
      · have h2 : LiveC cs t := h1
        rw [h2.unique h1' e1]
      · rw [e1.1, e1.2]
    rw [this]
  nodup cs d h := (alloc_at h.1 h.2).1
  away cs d h x hx := by
    obtain ⟨nm, n, e⟩ := (alloc_at (fs := fs) h.1 h.2).2 x.1 (List.mem_map_of_mem hx)
    rw [e]
    refine ⟨by simp [stagePath], fun e => ?_, rfl⟩
    have := congrArg Loc.path e
    simp [stagePath, EditSession.Root.loc, rootPath] at this
  conv cs d h W σ hcs hal hb hrt := by
    refine mainOk (s := d.1) (q := d.2) rfl ?_ h.2 ?_ (List.mem_cons_self ..) hb ?_ hal
    · intro nm k e
      have h1 : SrcOk opAt cs d.1 := h.1
      rw [e] at h1; exact h1
    · intro a ha
      rcases List.mem_cons.1 ha with rfl | ha
      · exact ⟨_, _, hrt, Nat.le_refl _⟩
      · cases ha
    · intro t e
      have h1 : SrcOk opAt cs d.1 := h.1
      rw [e] at h1
      exact LiveC.live h1 hcs

theorem demands {rn : Name} {ss : List (Step X R)} : ∀ {cs : Cells (CV X R)} {ds : List (Trie X × Query X R)}, Demands H opAt cs ss ds →
    ∃ es, (theRoot H opAt fs hv ha rn).Demands cs (ss.map fun s => ⟨s.edits, .root s.src s.q⟩) es ∧
      es.map (theRoot H opAt fs hv ha rn).res = ds.map fun d => answer opAt fs d.1 d.2 := by
  induction ss with
  | nil => intro cs ls h; cases h; exact ⟨[], .nil, rfl⟩
  | cons s ss ih =>
    intro cs ls h
    cases h with
    | @cons _ cs' _ _ t _ h1 h2 h3 h4 =>
      obtain ⟨ds, d1, d2⟩ := ih h4
      have key : ∃ a : ASrc X, a.val = s.src ∧ (a.trie H).erase = t ∧ SrcOk opAt cs' a := by
        generalize s.src = src at h2
        cases h2 with
        | given hu =>
          obtain ⟨a, rfl, rfl, a3⟩ := hu.annot
          exact ⟨.given a, rfl, rfl, a3⟩
        | empty hn => exact ⟨.empty _ _, rfl, rfl, hn⟩
      obtain ⟨a, a1, rfl, a3⟩ := key
      refine ⟨(a, s.q) :: ds, .cons h1 ⟨a3, h3⟩ ?_ d1, ?_⟩
      · show CV.root a.val s.q = _
        rw [a1]
      · exact congrArg (List.cons _) d2

/-- The sessions have a meaning. -/
theorem trie_session_means (rn : Name) (ss : List (Step X R)) (ds : List (Trie X × Query X R)) (h : Demands H opAt (fun _ => none) ss ds) :
    Means (sigT H opAt) (env H opAt fs hv ha) (ss.map (stepProg rn)) (ds.map fun d => answer opAt fs d.1 d.2) := by
  obtain ⟨es, d1, d2⟩ := demands (H := H) (fs := fs) (hv := hv) (ha := ha) (rn := rn) h
  have := EditSession.means (lawful rn) _ es d1
  rw [d2, List.map_map] at this
  exact this

/-- **C80.** Tries on the engine.  The editor edits cells that hold tries, in any way, and asks, again and again, `find`, `mem`, `is_empty`, `fold` or `trie_fold` of a trie
made of those cells or of `Trie::empty(meta)`.  If at each demand the articulations of the trie can be followed to the end (and, for `trie_fold`, the names in it are distinct, and `Trie::empty` was
called in another namespace), then the engine terminates without panic, and answers as of the trie as it is then. -/
theorem C80_trie_session (rn : Name) (ss : List (Step X R)) (ds : List (Trie X × Query X R)) (h : Demands H opAt (fun _ => none) ss ds) (purity : Bool) :
    (∃ N s', ∀ n, N ≤ n → runSession (env H opAt fs hv ha) n (ss.map (stepProg rn)) (initSt purity false) = .ok (ds.map fun d => answer opAt fs d.1 d.2) s') ∧
    (∀ n err s', runSession (env H opAt fs hv ha) n (ss.map (stepProg rn)) (initSt purity false) ≠ .panic err s') ∧
    ∀ n vs' s', runSession (env H opAt fs hv ha) n (ss.map (stepProg rn)) (initSt purity false) = .ok vs' s' → vs' = ds.map fun d => answer opAt fs d.1 d.2 := by
  have hm := trie_session_means (H := H) (fs := fs) (hv := hv) (ha := ha) rn ss ds h
  refine ⟨?_, ?_, ?_⟩
  · exact (C02_terminates_without_panic (sigT H opAt) (env H opAt fs hv ha) _ _ hm purity fun _ => rfl).1
  · exact (C02_terminates_without_panic (sigT H opAt) (env H opAt fs hv ha) _ _ hm purity fun _ => rfl).2
  · intro n vs' s' he
    exact C01_from_scratch_consistency (sigT H opAt) (env H opAt fs hv ha) _ _ hm purity (fun _ => rfl) n vs' s' he

/-- The answers of C80 in terms of the elements of the trie: in a trie in which every element is where its hash says, `mem` answers whether the element is there; `is_empty` answers `true` only if there are
no elements; both folds combine the elements from left to right. -/
theorem C80_answers (t : Trie X) :
    (∀ e, TrieM.Placed fs.hash t 0 0 → answer opAt fs t (.mem e) = .bool (decide (e ∈ t.elems))) ∧
    (answer opAt fs t .isEmpty = .bool true → t.elems = []) ∧
    (∀ i r, answer opAt fs t (.fold i r) = .res (t.elems.foldl (fun r x => fs.f i x r) r)) ∧
    (∀ nm i r, opAt nm = some i → answer opAt fs t (.trieFold nm r) = .res (t.elems.foldl (fun r x => fs.f i x r) r)) := by
  refine ⟨fun e hp => ?_, fun h => ?_, fun i r => ?_, fun nm i r h => ?_⟩
  · have := TrieM.mem_placed fs.hash t hp e
    simp only [answer]
    congr 1
    rw [Bool.eq_iff_iff, this]
    simp
  · simp only [answer] at h
    injection h with h
    exact (TrieM.is_empty_iff t).1 h
  · simp only [answer, TrieM.fold_eq]
  · simp only [answer, TrieM.fold_eq, h, Option.getD_some]

end Adapton.TrieProg

/-! ### `trie_fold` of `Trie::empty` in the same namespace -/
namespace Adapton.TrieProg
variable {V : Type} [DecidableEq V] [UEq V]

/-- What is at the location of a thunk that has just been allocated. -/
theorem thunk_at {ty : Ty} {nm : Name} {pp : ProgPt} {fn : FnId} {arg : V} {l : Loc} {s s' : St V} (h : thunkNominal ty nm pp fn arg s = .ok l s') :
    s'.path = s.path ∧ s'.ignoreNominal = s.ignoreNominal ∧ ∃ c, s'.table.get ⟨s.path, .nominal nm⟩ = some (.comp c) ∧ c.ty = ty ∧ c.pp = pp := by
  have hg : Res false 0 0 s (thunkNominal ty nm pp fn arg s) := thunkNominal_gen 0 ty nm pp fn arg s
  rw [h] at hg
  have hok : Ok false 0 0 s s' := hg
  refine ⟨hok.path, hok.ign, ?_⟩
  unfold thunkNominal at h
  rw [M.bind_ok (M.get_def s)] at h
  rcases hg : s.table.get (⟨s.path, .nominal nm⟩ : Loc) with _ | n0
  · simp only [hg] at h
    rw [M.bind_ok (m := evBegin _ _ _) rfl, M.bind_ok (m := evEnd) rfl] at h
    obtain ⟨_, s1, h1, h⟩ := M.bind_inv h
    rw [M.bind_ok (m := putNode _ _) rfl] at h
    cases h
    exact ⟨_, Table.get_put_self .., rfl, rfl⟩
  · simp only [hg] at h
    replace h := M.bind_inv h
    obtain ⟨nd, s1, h1, h⟩ := h
    obtain ⟨rfl, g1, g2⟩ := resNode_inv h1
    match nd with
    | .pure _ => cases h
    | .mut _ =>
      simp only [] at h
      rw [M.bind_ok (m := evBegin _ _ _) rfl] at h
      obtain ⟨_, s2, h2, h⟩ := M.bind_inv h
      rw [M.bind_ok (m := evEnd) rfl] at h
      obtain ⟨_, s3, h3, h⟩ := M.bind_inv h
      rw [M.bind_ok (m := putNode _ _) rfl] at h
      cases h
      exact ⟨_, Table.get_put_self .., rfl, rfl⟩
    | .comp c =>
      simp only [] at h
      by_cases hpp : c.pp = pp
      · rw [if_pos hpp] at h
        by_cases ha : c.arg ≈ᵤ arg
        · rw [if_pos ha, M.bind_ok (m := evBegin _ _ _) rfl, M.bind_ok (m := evEnd) rfl] at h
          obtain ⟨_, s3, h3, h⟩ := M.bind_inv h
          cases h
          rw [recordEdge_table _ _ _ _ _ h3]
          exact ⟨c, g1, g2, hpp⟩
        · rw [if_neg ha, M.bind_ok (m := putNode _ _) rfl, M.bind_ok (m := evBegin _ _ _) rfl] at h
          obtain ⟨_, s2, h2, h⟩ := M.bind_inv h
          rw [M.bind_ok (m := evEnd) rfl] at h
          obtain ⟨_, s3, h3, h⟩ := M.bind_inv h
          cases h
          rw [recordEdge_table _ _ _ _ _ h3]
          have hup := (dirtyAlloc_general _ _).ok h2
          have := hup.tbl ⟨s1.path, .nominal nm⟩
          rw [show St.table _ = s1.table.put ⟨s1.path, .nominal nm⟩ (.comp { c with arg := arg, res := none }) from rfl, Table.get_put_self] at this
          obtain ⟨es, e, _⟩ := this.comp_left
          exact ⟨_, e, g2, hpp⟩
      · rw [if_neg hpp] at h; cases h

/-- **C80 (violated).** `trie_fold` of the trie that `Trie::empty` has just returned, in the same namespace (for example both at the top level): it never returns, whatever the state of the engine, the
metadata, the function and the result to start with.  (`Trie::empty` allocates its outer thunk, the root, under the name that it also puts into the trie, and `trie_fold` allocates a thunk of its own, of
another function, under the name that it finds in the trie.) -/
theorem C80_trie_fold_of_empty_never_returns {X R : Type} [DecidableEq X] [DecidableEq R] (H : NameHash) (opAt : Name → Option Nat) (fs : Fns X R) (hv : CV X R → UInt64)
    (ha : ProgPt → CV X R → UInt64) (n : Nat) (s : St (CV X R)) (hi : s.ignoreNominal = false) (d : Int) (i : Nat) (r : R) (k : CV X R → Prog (CV X R)) (v : CV X R) (s' : St (CV X R)) :
    exec (env H opAt fs hv ha) n (empty H d fun t => .call (fTFold i) (.foldArgs t r) k) s ≠ .ok v s' := by
  intro h
  unfold exec empty runProg at h
  obtain ⟨a, s1, h1, h⟩ := M.bind_inv h
  have e1 : opThunk (env H opAt fs hv ha) tyT (.nominal (emptyNames H).2) ppNil fNil (.bs ⟨0, 0⟩) s = thunkNominal tyT (emptyNames H).2 ppNil fNil (.bs ⟨0, 0⟩) s := by
    unfold opThunk
    rw [M.bind_ok (M.get_def s)]
    simp only [hi, Bool.false_eq_true, if_false]
  rw [e1] at h1
  obtain ⟨p1, i1, -⟩ := thunk_at h1
  have hi1 : s1.ignoreNominal = false := i1.trans hi
  unfold runProg at h
  obtain ⟨b, s2, h2, h⟩ := M.bind_inv h
  unfold opThunk at h2
  rw [M.bind_ok (M.get_def s1)] at h2
  simp only [hi1, Bool.false_eq_true, if_false] at h2
  obtain ⟨p2, i2, c, c1, c2, c3⟩ := thunk_at h2
  have hi2 : s2.ignoreNominal = false := i2.trans hi1
  rw [← p2] at c1
  unfold runProg at h
  obtain ⟨w, s3, h3, -⟩ := M.bind_inv h
  cases n with
  | zero => cases h3
  | succ n =>
    have e3 : (env H opAt fs hv ha).code (fTFold i) (.foldArgs (.name (emptyNames H).1 (.art b)) r) = trieFold (fs.f i) (fTFold i) (.name (emptyNames H).1 (.art b)) r := code_tfold H opAt fs i _
    have h3 : runProg (env H opAt fs hv ha) (recN (env H opAt fs hv ha) n) ((env H opAt fs hv ha).code (fTFold i) (.foldArgs (.name (emptyNames H).1 (.art b)) r)) s2 = .ok w s3 := h3
    rw [e3] at h3
    unfold trieFold runProg at h3
    obtain ⟨u, s4, h4, h3⟩ := M.bind_inv h3
    cases n with
    | zero => cases h4
    | succ n =>
      have h4 : Out.ok (CV.trie (.name (emptyNames H).1 (.art b))) s2 = .ok u s4 := h4
      cases h4
      simp only [onTrie] at h3
      unfold runProg at h3
      obtain ⟨l, s5, h5, -⟩ := M.bind_inv h3
      unfold opThunk at h5
      rw [M.bind_ok (M.get_def s2)] at h5
      simp only [hi2, Bool.false_eq_true, if_false] at h5
      unfold thunkNominal at h5
      rw [M.bind_ok (M.get_def s2)] at h5
      simp only [c1] at h5
      obtain ⟨nd, s6, h6, h5⟩ := M.bind_inv h5
      obtain ⟨rfl, g1, g2⟩ := resNode_inv h6
      rw [c1] at g1
      cases g1
      have g2 : c.ty = tyR := g2
      rw [c2] at g2
      exact absurd g2 (by decide)

end Adapton.TrieProg

/-! ### A session that meets the hypotheses -/
namespace Adapton.TrieProg.Example80
open TrieM (Trie)
open EditSession (cellAt)
def H : NameHash := ⟨fun a b => a + 3 * b, fun n => n.toUInt64, fun _ => 0, fun _ => 7, fun h i => 5 * h + i.toUInt64⟩
def nm (n : Nat) : Name := nameOfUsize H n
/-- Digits and sums. -/
def fs : Fns Nat Nat := ⟨fun x => x, fun i x r => if i = 0 then 10 * r + x else r + x⟩
/-- The namespaces: 20 and 21 for `trie_fold`, the others for `Trie::empty`. -/
def opAt (n : Name) : Option Nat := if n = nm 20 then some 0 else if n = nm 21 then some 1 else none
def theTrie : TrV Nat := .name (nm 1) (.art (cellAt (nm 10)))
def t1 : Trie Nat := .name (nm 1) (.art (.root 1 (.bin ⟨0, 0⟩ (.name (nm 2) (.leaf ⟨1, 0⟩ 4)) (.art (.leaf ⟨1, 1⟩ 7)))))
def t2 : Trie Nat := .name (nm 1) (.art (.root 1 (.bin ⟨0, 0⟩ (.name (nm 2) (.leaf ⟨1, 0⟩ 4)) (.art (.leaf ⟨1, 1⟩ 9)))))
def t3 : Trie Nat := .name (nm 1) (.art (.nil ⟨0, 0⟩))
def steps : List (Step Nat Nat) :=
  [⟨[.cell (nm 11) (.trie (.leaf ⟨1, 1⟩ 7)), .cell (nm 10) (.trie (.root 1 (.bin ⟨0, 0⟩ (.name (nm 2) (.leaf ⟨1, 0⟩ 4)) (.art (cellAt (nm 11))))))], .given theTrie, .trieFold (nm 20) 0⟩,
   ⟨[], .given theTrie, .mem 7⟩, ⟨[.set (nm 11) (.trie (.leaf ⟨1, 1⟩ 9))], .given theTrie, .mem 7⟩, ⟨[], .given theTrie, .trieFold (nm 20) 0⟩, ⟨[], .given theTrie, .trieFold (nm 21) 5⟩,
   ⟨[], .given theTrie, .find 9 3⟩, ⟨[], .given theTrie, .fold 1 0⟩, ⟨[], .given theTrie, .isEmpty⟩, ⟨[.set (nm 10) (.trie (.nil ⟨0, 0⟩))], .given theTrie, .isEmpty⟩,
   ⟨[], .empty (nm 30) 1, .isEmpty⟩, ⟨[], .empty (nm 30) 100, .trieFold (nm 20) 3⟩, ⟨[], .given theTrie, .trieFold (nm 20) 6⟩]
def dems : List (Trie Nat × Query Nat Nat) :=
  [(t1, .trieFold (nm 20) 0), (t1, .mem 7), (t2, .mem 7), (t2, .trieFold (nm 20) 0), (t2, .trieFold (nm 21) 5), (t2, .find 9 3), (t2, .fold 1 0), (t2, .isEmpty), (t3, .isEmpty),
   (TrieM.empty H 1, .isEmpty), (TrieM.empty H 100, .trieFold (nm 20) 3), (t3, .trieFold (nm 20) 6)]

theorem meets : Demands H opAt (fun _ => none) steps dems := by
  refine .cons rfl (.given (.name (.art rfl (.root (.bin (.name .leaf) (.art rfl .leaf)))))) ⟨by decide, rfl⟩ ?_
  refine .cons rfl (.given (.name (.art rfl (.root (.bin (.name .leaf) (.art rfl .leaf)))))) trivial ?_
  refine .cons rfl (.given (.name (.art rfl (.root (.bin (.name .leaf) (.art rfl .leaf)))))) trivial ?_
  refine .cons rfl (.given (.name (.art rfl (.root (.bin (.name .leaf) (.art rfl .leaf)))))) ⟨by decide, rfl⟩ ?_
  refine .cons rfl (.given (.name (.art rfl (.root (.bin (.name .leaf) (.art rfl .leaf)))))) ⟨by decide, rfl⟩ ?_
  refine .cons rfl (.given (.name (.art rfl (.root (.bin (.name .leaf) (.art rfl .leaf)))))) trivial ?_
  refine .cons rfl (.given (.name (.art rfl (.root (.bin (.name .leaf) (.art rfl .leaf)))))) trivial ?_
  refine .cons rfl (.given (.name (.art rfl (.root (.bin (.name .leaf) (.art rfl .leaf)))))) trivial ?_
  refine .cons rfl (.given (.name (.art rfl .nil))) trivial ?_
  refine .cons rfl (.empty rfl) trivial ?_
  refine .cons rfl (.empty rfl) ⟨by decide, rfl⟩ ?_
  exact .cons rfl (.given (.name (.art rfl .nil))) ⟨by decide, rfl⟩ .nil

def show1 : CV Nat Nat → List Nat
  | .opt (some x) => [1, x]
  | .opt none => [0]
  | .bool b => [if b then 1 else 0]
  | .res r => [r]
  | _ => []

example : (match runSession (env H opAt fs (fun _ => 0) (fun _ _ => 0)) 60 (steps.map (stepProg (nm 0))) (initSt true false) with
    | .ok vs _ => vs.map show1
    | _ => []) = [[47], [1], [0], [49], [18], [1, 9], [13], [0], [1], [1], [3], [6]] := by decide +kernel

def panicOf (p : Prog (CV Nat Nat)) : Option Err :=
  match exec (env H opAt fs (fun _ => 0) (fun _ _ => 0)) 60 p (initSt true false) with
  | .panic e _ => some e
  | _ => none

/-- On a new engine, at the top level, `trie_fold(Trie::empty(meta), 0, f)` panics. -/
theorem C80_trie_fold_of_empty_panics : panicOf (empty H 1 fun t => .call (fTFold 0) (.foldArgs t 0) .ret) = some .typeError := by decide +kernel
/-- The names in a trie must be distinct for `trie_fold`. -/
theorem C80_repeated_name_panics : panicOf (.call (fTFold 0) (.foldArgs (.name (nm 1) (.name (nm 1) (.leaf ⟨0, 0⟩ 5))) 0) .ret) = some .unexpectedCycle := by decide +kernel

end Adapton.TrieProg.Example80
