import Verif.Engine.Basic
/-
The reference semantics: what a program *means*, with no memo table, no dependency graph, no caching, no dirtying.

* The store maps every allocated location to its content: the value of a cell, or the argument of a thunk.
* Forcing a thunk runs its code, every time, from scratch.
* Within one evaluation the store is write-once: allocating a location twice is fine when the content is the same, in the
  sense of the `PartialEq` of the user's type (`≈ᵤ`; for derived equality, the same value).
* An editor program may change the content of a location; whatever thunks allocated before is then forgotten.
* A location that is identified structurally (by a hash of its content) keeps its content for ever.

The definitions follow the documentation of the library (/repo/src/lib.rs:100-420, engine.rs:2330-2560), not the
engine code.  `none` means that the reference gives the program no meaning; the causes are listed at each rule.
-/
namespace Adapton.Ref
open Adapton
variable {V : Type} [UEq V]

/-- What a location is used for.  A program has a *signature*: each location is always used for one kind of thing. -/
inductive Kind where
  | cell (ty : Ty)
  | thunk (ty : Ty) (pp : ProgPt) (fn : FnId)
deriving DecidableEq

/-- A signature: the kind of every location; `pu`: structural thunks must be pure, i.e. use structural locations only (this is what the
purity optimisation relies on, see `C16`); `mode`: the naming mode in which demands are made and thunks are evaluated (`false`: names count;
`true`: the environment variable ADAPTON_STRUCTURAL is set, see `C65` for why there is one mode for all thunks); `only`: the thunks that may
be evaluated (all of them, unless we want to say that an evaluation can do without some of them, see `C69`). -/
structure Sig where
  kind : Loc → Kind
  pu : Bool := true
  mode : Bool := false
  only : Loc → Bool := fun _ => true

instance : CoeFun Sig fun _ => Loc → Kind := ⟨Sig.kind⟩

/-- Cell values and thunk arguments. -/
abbrev Store (V : Type) := Loc → Option V

/-- Store update. -/
def upd (σ : Store V) (l : Loc) (v : V) : Store V := fun x => if x = l then some v else σ x

/-- Write-once allocation. -/
def alloc (σ : Store V) (l : Loc) (v : V) : Option (Store V) :=
  match σ l with
  | none => some (upd σ l v)
  | some w => if w ≈ᵤ v then some σ else none

/-- What one run of a thunk has observed so far: `(l, false)` if `l` was forced, `(l, true)` if it is a cell
whose first observation went through `force_map`. -/
abbrev Obs := List (Loc × Bool)

/-- State of the evaluation of one thunk. -/
structure RS (V : Type) where
  store : Store V
  obs : Obs

/-- The thunk being evaluated and the thunks waiting for it (innermost first, including itself). -/
structure Ctx where
  self : Loc
  anc : List Loc

/-- Meaning of forcing a thunk and of calling a function, at the next lower recursion depth. -/
structure Rec (V : Type) where
  frc : List Loc → Store V → Loc → Option (Store V × V)
  call : Ctx → Bool → Path → FnId → V → RS V → Option (RS V × V)

/-- The location of a cell allocated in naming mode `m`: by its name, or by the hash of its value. -/
def cellLoc (env : Env V) (m : Bool) (π : Path) (n : Name) (v : V) : Loc :=
  ⟨π, if m then .structural (env.hashVal v) else .nominal n⟩

/-- The location of a thunk allocated in naming mode `m`: by its name, or by the hash of program point and argument.
No meaning for eager and naive thunks. -/
def thunkLoc (env : Env V) (m : Bool) (π : Path) (nc : NameChoice) (pp : ProgPt) (arg : V) : Option Loc :=
  match nc with
  | .nominal n => some ⟨π, if m then .structural (env.hashApp pp arg) else .nominal n⟩
  | .structural => some ⟨π, .structural (env.hashApp pp arg)⟩
  | _ => none

/-- The thunk `self` may use `l`: a structural thunk that must be pure uses structural locations only. -/
def MayUse (sig : Sig) (self l : Loc) : Prop := sig.pu = true → self.isStruct = true → l.isStruct = true
instance (sig : Sig) (self l : Loc) : Decidable (MayUse sig self l) := inferInstanceAs (Decidable (_ → _))

/-- Forcing a location inside a thunk: a cell yields its content, a thunk its result.
No meaning if the location does not exist, has another type, if the thunk is already being evaluated (a cycle), if the naming mode is
not that of the thunks (see `C65`), or if the cell was already observed, in this run, through `force_map` (see `C15`). -/
def observe (sig : Sig) (R : Rec V) (c : Ctx) (m : Bool) (ty : Ty) (l : Loc) (r : RS V) : Option (RS V × V) :=
  match sig l with
  | .cell ty' =>
    if ty' = ty ∧ (l, true) ∉ r.obs ∧ MayUse sig c.self l then
      match r.store l with
      | some v => some ({ r with obs := (l, false) :: r.obs }, v)
      | none => none
    else none
  | .thunk ty' _ _ =>
    if ty' = ty ∧ l ∉ c.anc ∧ m = sig.mode ∧ MayUse sig c.self l then
      match R.frc c.anc r.store l with
      | some (σ', v) => some (⟨σ', r.obs⟩, v)
      | none => none
    else none

/-- Forcing through a map: the map of the content.  On a cell, the same cell may not be observed through two maps in one
run (see `C15`). -/
def observeMap (sig : Sig) (R : Rec V) (c : Ctx) (m : Bool) (ty : Ty) (l : Loc) (f : V → V) (r : RS V) :
    Option (RS V × V) :=
  match sig l with
  | .cell ty' =>
    if ty' = ty ∧ (l, true) ∉ r.obs ∧ MayUse sig c.self l then
      match r.store l with
      | some v => some ({ r with obs := if (l, false) ∈ r.obs then r.obs else (l, true) :: r.obs }, f v)
      | none => none
    else none
  | .thunk _ _ _ =>
    match observe sig R c m ty l r with
    | some (r', v) => some (r', f v)
    | none => none

/-- Code running inside a thunk, in a naming mode and a namespace.  No meaning for: editing (`set`), eager/naive thunks, `force_abs`
(see `C17`), panics, and a thunk that allocates its own name. -/
def eval (sig : Sig) (env : Env V) (R : Rec V) (c : Ctx) : Bool → Path → Prog V → RS V → Option (RS V × V)
  | _, _, .ret v, r => some (r, v)
  | m, π, .force ty l _ k, r =>
    match observe sig R c m ty l r with
    | some (r', v) => eval sig env R c m π (k v) r'
    | none => none
  | m, π, .forceMap ty l f k, r =>
    match observeMap sig R c m ty l f r with
    | some (r', v) => eval sig env R c m π (k v) r'
    | none => none
  | _, _, .forceAbs _ _ _ _, _ => none
  | m, π, .cell ty n v k, r =>
    let l := cellLoc env m π n v
    if sig l = .cell ty ∧ MayUse sig c.self l then
      match alloc r.store l v with
      | some σ' => eval sig env R c m π (k l) { r with store := σ' }
      | none => none
    else none
  | m, π, .thunk ty nc pp fn arg k, r =>
    match thunkLoc env m π nc pp arg with
    | some l =>
      if sig l = .thunk ty pp fn ∧ l ≠ c.self ∧ MayUse sig c.self l then
        match alloc r.store l arg with
        | some σ' => eval sig env R c m π (k l) { r with store := σ' }
        | none => none
      else none
    | none => none
  | _, _, .set _ _ _ _, _ => none
  | m, π, .ns n body k, r =>
    match eval sig env R c m (.child π n) body r with
    | some (r', v) => eval sig env R c m π (k v) r'
    | none => none
  | m, π, .structural body k, r =>
    match eval sig env R c true π body r with
    | some (r', v) => eval sig env R c m π (k v) r'
    | none => none
  | m, π, .call fn arg k, r =>
    match R.call c m π fn arg r with
    | some (r', v) => eval sig env R c m π (k v) r'
    | none => none
  | _, _, .panic, _ => none

/-- The meaning with recursion depth at most `n`.  Forcing a thunk that may not be evaluated (`Sig.only`) has no meaning. -/
def recN (sig : Sig) (env : Env V) : Nat → Rec V
  | 0 => ⟨fun _ _ _ => none, fun _ _ _ _ _ _ => none⟩
  | n + 1 =>
    let R := recN sig env n
    { frc := fun anc σ l =>
        match sig l, σ l, sig.only l with
        | .thunk _ _ fn, some arg, true =>
          match eval sig env R ⟨l, l :: anc⟩ sig.mode l.path (env.code fn arg) ⟨σ, []⟩ with
          | some (r, v) => some (r.store, v)
          | none => none
        | _, _, _ => none
      call := fun c m π fn arg r => eval sig env R c m π (env.code fn arg) r }

/-- State of the editor: `base` is what the editor itself has allocated and set, and every structural allocation, which is for ever;
`cur` also has what the thunks forced since the last change have allocated. -/
structure ES (V : Type) where
  base : Store V
  cur : Store V

/-- The editor gives location `l` the content `v`.  A change forgets what thunks have allocated. -/
def edit (e : ES V) (l : Loc) (v : V) : ES V :=
  let base' := upd e.base l v
  { base := base'
    cur := match e.cur l with
      | none => upd e.cur l v
      | some w => if w ≈ᵤ v then upd e.cur l v else base' }

/-- Structural locations do not change their content (a collision of hashes has no meaning, see `C55`). -/
def mayEdit (e : ES V) (l : Loc) (v : V) : Bool :=
  !l.isStruct || match e.cur l with
    | none => true
    | some w => decide (w ≈ᵤ v)

/-- `base`, with the structural locations of `cur`. -/
def keepStruct (base cur : Store V) : Store V := fun l => if l.isStruct then cur l else base l

/-- Forcing a thunk by the editor: it is run against everything allocated since the last change; if that has no meaning
(because two demands use one name for different contents), against the editor's own allocations only. -/
def editorForce (R : Rec V) (l : Loc) (e : ES V) : Option (Store V × V) :=
  match R.frc [] e.cur l with
  | some r => some r
  | none => R.frc [] e.base l

/-- Forcing by the editor. -/
def demand (sig : Sig) (R : Rec V) (m : Bool) (ty : Ty) (l : Loc) (e : ES V) : Option (ES V × V) :=
  match sig l with
  | .cell ty' =>
    if ty' = ty then
      match e.cur l with
      | some v => some (e, v)
      | none => none
    else none
  | .thunk ty' _ _ =>
    if ty' = ty ∧ m = sig.mode then
      match editorForce R l e with
      | some (σ', v) => some ({ base := keepStruct e.base σ', cur := σ' }, v)
      | none => none
    else none

/-- Editor programs: arbitrary interleavings of allocation, mutation and demand, chosen adaptively.  `call` runs the
closure as editor code, with `callE` its meaning. -/
def evalEd (sig : Sig) (env : Env V) (R : Rec V) (callE : Bool → Path → FnId → V → ES V → Option (ES V × V)) :
    Bool → Path → Prog V → ES V → Option (ES V × V)
  | _, _, .ret v, e => some (e, v)
  | m, π, .force ty l _ k, e =>
    match demand sig R m ty l e with
    | some (e', v) => evalEd sig env R callE m π (k v) e'
    | none => none
  | m, π, .forceMap ty l f k, e =>
    match demand sig R m ty l e with
    | some (e', v) => evalEd sig env R callE m π (k (f v)) e'
    | none => none
  | m, π, .forceAbs ty l f k, e =>
    match demand sig R m ty l e with
    | some (e', v) => evalEd sig env R callE m π (k (f v)) e'
    | none => none
  | m, π, .cell ty n v k, e =>
    let l := cellLoc env m π n v
    if sig l = .cell ty ∧ mayEdit e l v then evalEd sig env R callE m π (k l) (edit e l v) else none
  | m, π, .thunk ty nc pp fn arg k, e =>
    match thunkLoc env m π nc pp arg with
    | some l => if sig l = .thunk ty pp fn ∧ mayEdit e l arg then evalEd sig env R callE m π (k l) (edit e l arg) else none
    | none => none
  | m, π, .set ty l v k, e =>
    if sig l = .cell ty ∧ e.cur l ≠ none ∧ l.isStruct = false then evalEd sig env R callE m π k (edit e l v) else none
  | m, π, .ns n body k, e =>
    match evalEd sig env R callE m (.child π n) body e with
    | some (e', v) => evalEd sig env R callE m π (k v) e'
    | none => none
  | m, π, .structural body k, e =>
    match evalEd sig env R callE true π body e with
    | some (e', v) => evalEd sig env R callE m π (k v) e'
    | none => none
  | m, π, .call fn arg k, e =>
    match callE m π fn arg e with
    | some (e', v) => evalEd sig env R callE m π (k v) e'
    | none => none
  | _, _, .panic, _ => none

/-- Editor calls with recursion depth at most `n`. -/
def callEN (sig : Sig) (env : Env V) : Nat → Bool → Path → FnId → V → ES V → Option (ES V × V)
  | 0, _, _, _, _, _ => none
  | n + 1, m, π, fn, arg, e => evalEd sig env (recN sig env n) (callEN sig env n) m π (env.code fn arg) e

/-- The empty store. -/
def emptyES : ES V := ⟨fun _ => none, fun _ => none⟩

/-- A session: the editor runs one program after the other; the results are collected. -/
def session (sig : Sig) (env : Env V) (n : Nat) : List (Prog V) → ES V → Option (ES V × List V)
  | [], e => some (e, [])
  | p :: ps, e =>
    match evalEd sig env (recN sig env n) (callEN sig env n) sig.mode .empty p e with
    | some (e', v) =>
      match session sig env n ps e' with
      | some (e'', vs) => some (e'', v :: vs)
      | none => none
    | none => none

/-- The meaning of a session started on an empty store: the results of its programs, in order. -/
def Means (sig : Sig) (env : Env V) (ps : List (Prog V)) (vs : List V) : Prop :=
  ∃ n e, session sig env n ps emptyES = some (e, vs)

end Adapton.Ref
