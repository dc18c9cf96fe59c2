import Verif.Catalog.Trie
import Verif.Engine.Model
/-
Tries as programs of the engine: an articulation is a location, forcing it is an engine call, and the `thunk!` and `memo!` of the source are allocations.
Source: /repo/src/catalog/trie.rs; line numbers refer to that file.  `Trie::extend` is not here: it panics before it does anything (see C52).
-/
namespace Adapton.TrieProg
open Bits (BS)

/-- `Trie<X>` with `Meta`, 17-32. -/
inductive TrV (X : Type) where
  | nil (bs : BS)
  | leaf (bs : BS) (x : X)
  | bin (bs : BS) (l r : TrV X)
  | root (minDepth : Int) (t : TrV X)
  | name (n : Name) (t : TrV X)
  | art (a : Loc)
deriving DecidableEq, Repr

/-- What is asked of a trie. -/
inductive Query (X R : Type) where
  | find (elt : X) (i : Int)
  | mem (elt : X)
  | isEmpty
  /-- `SetElim::fold` with the function number `i` -/
  | fold (i : Nat) (r : R)
  /-- `trie_fold`, in the namespace `nm` -/
  | trieFold (nm : Name) (r : R)
deriving DecidableEq, Repr

/-- Where the trie comes from: it is given, or it is `Trie::empty(meta)`, made in the namespace `nm`. -/
inductive Src (X : Type) where
  | given (t : TrV X)
  | empty (nm : Name) (minDepth : Int)
deriving DecidableEq, Repr

/-- The values of the program: contents of cells, arguments and results of functions. -/
inductive CV (X R : Type) where
  | trie (t : TrV X)
  | opt (o : Option X)
  | bool (b : Bool)
  | res (r : R)
  /-- the argument of `Self::nil` -/
  | bs (b : BS)
  /-- the arguments of `Self::root` -/
  | rootArgs (minDepth : Int) (t : TrV X)
  | findArgs (t : TrV X) (elt : X) (i : Int)
  | foldArgs (t : TrV X) (r : R)
  /-- the arguments of the program that the editor demands -/
  | root (src : Src X) (q : Query X R)
deriving DecidableEq, Repr

/-- Result types. -/
def tyT : Ty := 0
def tyR : Ty := 1
def tyV : Ty := 2
/-- The functions. -/
def fView : FnId := 0
def fFind : FnId := 1
def fEmpty : FnId := 2
def fNil : FnId := 3
def fRootC : FnId := 4
def fMain : FnId := 5
def fFold (i : Nat) : FnId := 2 * i + 6
def fTFold (i : Nat) : FnId := 2 * i + 7
/-- The program points (`prog_pt!(stringify!(f))`). -/
def ppNil : ProgPt := 0
def ppRootC : ProgPt := 1
def ppTFold : ProgPt := 2
def ppMain : ProgPt := 3

variable {X R : Type} [DecidableEq X] (H : NameHash)

/-- Continue with a trie. -/
def onTrie (k : TrV X → Prog (CV X R)) : CV X R → Prog (CV X R)
  | .trie t => k t
  | _ => .panic
/-- Continue with a result. -/
def onRes (k : R → Prog (CV X R)) : CV X R → Prog (CV X R)
  | .res r => k r
  | _ => .panic
/-- Continue with an option. -/
def onOpt (k : Option X → Prog (CV X R)) : CV X R → Prog (CV X R)
  | .opt o => k o
  | _ => .panic

/-- The pattern match of `elim`, 347-371, `elim_arg`, 373-399, and `elim_ref`, 401-424: an articulation is forced and its content matched. -/
def view : TrV X → Prog (CV X R)
  | .art a => .force tyT a none fun v => .call fView v .ret
  | t => .ret (.trie t)

/-- `find`, 301-312. -/
def find (t : TrV X) (elt : X) (i : Int) : Prog (CV X R) :=
  .call fView (.trie t) <| onTrie fun
  | .nil _ => .ret (.opt none)
  | .leaf _ x => .ret (.opt (if elt = x then some x else none))
  | .bin _ l r => if i.tmod 2 = 0 then .call fFind (.findArgs l elt (i / 2)) .ret else .call fFind (.findArgs r elt (i / 2)) .ret
  | .root _ t => .call fFind (.findArgs t elt i) .ret
  | .name _ t => .call fFind (.findArgs t elt i) .ret
  | .art _ => .panic

/-- `is_empty`, 314-321. -/
def isEmpty (t : TrV X) : Prog (CV X R) :=
  .call fView (.trie t) <| onTrie fun
  | .nil _ => .ret (.bool true)
  | .leaf _ _ => .ret (.bool false)
  | .bin _ _ _ => .ret (.bool false)
  | .root _ t => .call fEmpty (.trie t) .ret
  | .name _ t => .call fEmpty (.trie t) .ret
  | .art _ => .panic

/-- `SetElim::fold`, 460-472; no allocations. -/
def fold (f : X → R → R) (fn : FnId) (t : TrV X) (r : R) : Prog (CV X R) :=
  .call fView (.trie t) <| onTrie fun
  | .nil _ => .ret (.res r)
  | .leaf _ x => .ret (.res (f x r))
  | .bin _ l rt => .call fn (.foldArgs l r) <| onRes fun r => .call fn (.foldArgs rt r) .ret
  | .root _ t => .call fn (.foldArgs t r) .ret
  | .name _ t => .call fn (.foldArgs t r) .ret
  | .art _ => .panic

/-- `trie_fold`, 476-487: `memo!` at names. -/
def trieFold (f : X → R → R) (fn : FnId) (t : TrV X) (r : R) : Prog (CV X R) :=
  .call fView (.trie t) <| onTrie fun
  | .nil _ => .ret (.res r)
  | .leaf _ x => .ret (.res (f x r))
  | .bin _ l rt => .call fn (.foldArgs l r) <| onRes fun r => .call fn (.foldArgs rt r) .ret
  | .root _ t => .call fn (.foldArgs t r) .ret
  | .name n t => .thunk tyR (.nominal n) ppTFold fn (.foldArgs t r) fun a => .force tyR a none .ret
  | .art _ => .panic

/-- The two names of `Trie::empty`, 250-251. -/
def emptyNames : Name × Name := nameFork H (nameOfStr H "empty")
/-- `min(meta.min_depth, BS::MAX_LEN)`, 248. -/
def minDepthOf (minDepth : Int) : Int := if minDepth ≤ Bits.maxLen then minDepth else Bits.maxLen

/-- `Trie::empty`, 242-260.  (What is printed if `min_depth` is too large is left out.) -/
def empty (minDepth : Int) (k : TrV X → Prog (CV X R)) : Prog (CV X R) :=
  .thunk tyT (.nominal (emptyNames H).2) ppNil fNil (.bs ⟨0, 0⟩) fun nilArt =>
  .thunk tyT (.nominal (emptyNames H).1) ppRootC fRootC (.rootArgs (minDepthOf minDepth) (.name (emptyNames H).2 (.art nilArt))) fun rootArt =>
  k (.name (emptyNames H).1 (.art rootArt))

/-- `SetElim::mem`, 451-458; `hash e` is `hasher.finish() as i64`. -/
def mem (hash : X → Int) (t : TrV X) (elt : X) : Prog (CV X R) :=
  .call fFind (.findArgs t elt (hash elt)) <| onOpt fun
  | some _ => .ret (.bool true)
  | none => .ret (.bool false)

/-- What is passed: the hash of elements, and the functions to fold with (number `i`). -/
structure Fns (X R : Type) where
  hash : X → Int
  f : Nat → X → R → R

/-- A query. -/
def query (opAt : Name → Option Nat) (fs : Fns X R) (t : TrV X) : Query X R → Prog (CV X R)
  | .find elt i => .call fFind (.findArgs t elt i) .ret
  | .mem elt => mem fs.hash t elt
  | .isEmpty => .call fEmpty (.trie t) .ret
  | .fold i r => .call (fFold i) (.foldArgs t r) .ret
  | .trieFold nm r => .ns nm (.call (fTFold ((opAt nm).getD 0)) (.foldArgs t r) .ret) .ret

/-- The program that the editor demands: get the trie, then ask. -/
def main (opAt : Name → Option Nat) (fs : Fns X R) (src : Src X) (q : Query X R) : Prog (CV X R) :=
  match src with
  | .given t => query opAt fs t q
  | .empty nm d => .ns nm (empty H d fun t => .ret (.trie t)) (onTrie fun t => query opAt fs t q)

/-- The code of the folds. -/
def foldCode (fs : Fns X R) (k i : Nat) (v : CV X R) : Prog (CV X R) :=
  match k, v with
  | 0, .foldArgs t r => fold (fs.f i) (fFold i) t r
  | 1, .foldArgs t r => trieFold (fs.f i) (fTFold i) t r
  | _, _ => .panic

/-- The code of the functions; `Self::nil` and `Self::root` are 222-234. -/
def code (opAt : Name → Option Nat) (fs : Fns X R) (fn : FnId) (v : CV X R) : Prog (CV X R) :=
  if 6 ≤ fn then foldCode fs ((fn - 6) % 2) ((fn - 6) / 2) v
  else
    match v with
    | .trie t => if fn = fView then view t else if fn = fEmpty then isEmpty t else .panic
    | .findArgs t elt i => if fn = fFind then find t elt i else .panic
    | .bs b => if fn = fNil then .ret (.trie (.nil b)) else .panic
    | .rootArgs d t => if fn = fRootC then .ret (.trie (.root d t)) else .panic
    | .root src q => if fn = fMain then main H opAt fs src q else .panic
    | _ => .panic

/-- The environment; no structural names are used, so the hashes do not matter. -/
def env (opAt : Name → Option Nat) (fs : Fns X R) (hv : CV X R → UInt64) (ha : ProgPt → CV X R → UInt64) : Env (CV X R) := ⟨code H opAt fs, hv, ha⟩

theorem code_fold (opAt : Name → Option Nat) (fs : Fns X R) (i : Nat) (v : CV X R) : code H opAt fs (fFold i) v = foldCode fs 0 i v := by
  have h1 : 6 ≤ (2 * i + 6 : Nat) := by omega
  have h3 : (2 * i + 6 - 6 : Nat) % 2 = 0 := by omega
  have h4 : (2 * i + 6 - 6 : Nat) / 2 = i := by omega
  unfold code
  rw [if_pos (show 6 ≤ fFold i from h1)]
  show foldCode fs ((2 * i + 6 - 6 : Nat) % 2) ((2 * i + 6 - 6 : Nat) / 2) v = _
  rw [h3, h4]
theorem code_tfold (opAt : Name → Option Nat) (fs : Fns X R) (i : Nat) (v : CV X R) : code H opAt fs (fTFold i) v = foldCode fs 1 i v := by
  have h1 : 6 ≤ (2 * i + 7 : Nat) := by omega
  have h3 : (2 * i + 7 - 6 : Nat) % 2 = 1 := by omega
  have h4 : (2 * i + 7 - 6 : Nat) / 2 = i := by omega
  unfold code
  rw [if_pos (show 6 ≤ fTFold i from h1)]
  show foldCode fs ((2 * i + 7 - 6 : Nat) % 2) ((2 * i + 7 - 6 : Nat) / 2) v = _
  rw [h3, h4]

end Adapton.TrieProg
