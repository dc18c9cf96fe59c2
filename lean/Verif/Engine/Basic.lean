/-
Basic data of the engine: names, paths, locations, graph nodes, the memo table,
engine state, user programs.

Source: /repo/src/engine.rs.  Line numbers refer to that file unless another file is named.
-/
namespace Adapton

/-- Result type tag of a node / an operation.
Models `TypeId` of the Rust result type (engine.rs:12, 800-816). -/
abbrev Ty := Nat

/-- A program point, macros.rs:27-43 (`ProgPt{symbol}`); the symbol string is abstracted to a number. -/
abbrev ProgPt := Nat

/-- Identity of a Rust closure together with its spurious arguments:
`fn_box` and `spurious` of `App` (engine.rs:720-725).  Closures are not comparable in Rust; here they are
identified by a number and their code is looked up in `Env.code`. -/
abbrev FnId := Nat

/-- Name symbols, engine.rs:429-439. `usize`/`isize` are modelled by unbounded `Nat`/`Int`. -/
inductive NameSym where
  | unit
  | hash64
  | str (s : String)
  | usize (n : Nat)
  | isize (i : Int)
  | pair (a b : NameSym)
  | forkL (a : NameSym)
  | forkR (a : NameSym)
deriving DecidableEq, Repr, Inhabited

/-- First-class names, engine.rs:296-300: the stored hash and the symbol; `PartialEq` is derived (both fields). -/
structure Name where
  hash : UInt64
  sym : NameSym
deriving DecidableEq, Repr, Inhabited

/-- Namespaces, engine.rs:455-459. -/
inductive Path where
  | empty
  | child (p : Path) (n : Name)
deriving DecidableEq, Repr, Inhabited

/-- Identity of an articulation inside its namespace, engine.rs:340-346. -/
inductive ArtId where
  | structural (h : UInt64)
  | nominal (n : Name)
deriving DecidableEq, Repr, Inhabited

/-- Locations, engine.rs:311-316.  The `hash` field is dropped: it is always `my_hash(&(path,id))`
(engine.rs:1274-1277, 1547), a function of the two other fields, so derived equality is the same. -/
structure Loc where
  path : Path
  id : ArtId
deriving DecidableEq, Repr, Inhabited

/-- The location is identified by a hash (`ArtId::Structural`, engine.rs:341-343), not by a name. -/
def Loc.isStruct (l : Loc) : Bool :=
  match l.id with
  | .structural _ => true
  | .nominal _ => false

/-- engine.rs:556-560. -/
inductive Effect where
  | observe
  | allocate
deriving DecidableEq, Repr, Inhabited

/-- The dependency objects stored on edges (implementations of `DCGDep`, engine.rs:581-585).
* `allocStruct`  – `AllocStructuralThunk` (1029-1035)
* `allocNom a`   – `AllocNominalThunk` (1037-1043)
* `allocCell v`  – `AllocCell` (1045-1051)
* `force ty r`   – `ForceDep<ty>{res:r}` (1056, 1209-1259)
* `forceMap ty f r` – `ForceMapDep` (1061, 1182-1195); the art argument of `mapf` is folded into `f`
* `forceAbs`     – `ForceAbsDep` (1116-1153); its family is never consulted by the engine. -/
inductive Dep (V : Type) where
  | allocStruct
  | allocNom (arg : V)
  | allocCell (v : V)
  | force (ty : Ty) (res : V)
  | forceMap (ty : Ty) (f : V → V) (res : V)
  | forceAbs

/-- Successor edges, engine.rs:510-516. -/
structure Succ (V : Type) where
  dirty : Bool
  loc : Loc
  effect : Effect
  dep : Dep V

/-- Predecessor edges, engine.rs:518-530. -/
structure Pred (V : Type) where
  loc : Loc
  effect : Effect
  dep : Option (Dep V)

/-- `MutNode`, engine.rs:656-659, with the result type tag of `Node<Res>`. -/
structure MutNode (V : Type) where
  ty : Ty
  preds : List (Pred V)
  val : V

/-- `CompNode`, engine.rs:666-671, with the producer `App{prog_pt,fn_box+spurious,arg}` (720-725) inlined. -/
structure CompNode (V : Type) where
  ty : Ty
  preds : List (Pred V)
  succs : List (Succ V)
  pp : ProgPt
  fn : FnId
  arg : V
  res : Option V

/-- `PureNode`, engine.rs:647-649. -/
structure PureNode (V : Type) where
  ty : Ty
  val : V

/-- `Node<Res>`, engine.rs:606-610. -/
inductive Node (V : Type) where
  | comp (nd : CompNode V)
  | pure (nd : PureNode V)
  | mut (nd : MutNode V)

/-- `res_typeid`, engine.rs:832-834. -/
def Node.ty {V} : Node V → Ty
  | .comp nd => nd.ty
  | .pure nd => nd.ty
  | .mut nd => nd.ty

/-- Stack frames, engine.rs:496-499: the running location and the edges recorded so far, each with the
dependency object handed to the target's predecessor edge. -/
structure Frame (V : Type) where
  loc : Loc
  succs : List (Succ V × Option (Dep V))

/-- `AllocCase`, `ChangeFlag`: reflect.rs:285-299 (`trace`). -/
inductive AllocCase where
  | locFresh
  | locExists (diff : Bool)
deriving DecidableEq, Repr

/-- `AllocKind`, reflect.rs:301-306. -/
inductive AllocKind where
  | refCell
  | thunk
deriving DecidableEq, Repr

/-- `ForceCase`, reflect.rs:312-326. -/
inductive ForceCase where
  | compCacheMiss
  | compCacheHit
  | refGet
deriving DecidableEq, Repr

/-- Trace effects, reflect.rs:337-410. (`Debug` effects are not modelled.) -/
inductive TEff where
  | alloc (c : AllocCase) (k : AllocKind)
  | force (c : ForceCase)
  | dirty
  | cleanRec
  | cleanEdge
  | cleanEval
  | remove
deriving DecidableEq, Repr

/-- What the macros `dcg_effect_begin!` / `dcg_effect_end!` / `dcg_effect!` (engine.rs:180-265) emit,
in order of emission.  The source is the location issuing the effect, if any. -/
inductive Ev where
  | begin (e : TEff) (src : Option Loc) (tgt : Loc)
  | end_
  | eff (e : TEff) (src : Option Loc) (tgt : Loc)
deriving DecidableEq, Repr

/-- `NameChoice`, engine.rs:694-703. -/
inductive NameChoice where
  | naive
  | eager
  | structural
  | nominal (n : Name)
deriving DecidableEq, Repr

/-- The memo table `HashMap<Rc<Loc>, Box<dyn GraphNode>>`, engine.rs:391, as an association list. -/
abbrev Table (V : Type) := List (Loc × Node V)

/-- `HashMap::get`. -/
def Table.get {V} : Table V → Loc → Option (Node V)
  | [], _ => none
  | (k, n) :: t, l => if k = l then some n else Table.get t l

/-- `HashMap::insert` (replaces an existing entry), also used for in-place mutation of a node. -/
def Table.put {V} : Table V → Loc → Node V → Table V
  | [], l, n => [(l, n)]
  | (k, m) :: t, l, n => if k = l then (k, n) :: t else (k, m) :: Table.put t l n

/-- Engine state `DCG`, engine.rs:389-397.
`purity`/`ignoreNominal` are the two flags that change behaviour (359-370).
The debugging flags (`check_dcg_is_wf`, `write_dcg`, `gmlog_dcg`), off unless an environment variable is set,
and the counters `dcg_count`/`dcg_hash` are not part of the state.
`stack` has the top frame first.  `log` is a ghost copy of what the trace macros emit (latest first);
`runs` is a ghost list of the thunk locations whose producer has been invoked (latest first). -/
structure St (V : Type) where
  table : Table V
  stack : List (Frame V)
  path : Path
  purity : Bool
  ignoreNominal : Bool
  log : List Ev
  runs : List Loc

/-- Panics of the engine code. -/
inductive Err where
  | dangling          -- lookup_abs, 786
  | typeError         -- assert_graphnode_res_type, 800-816
  | noSuccs           -- succs_mut on a non-Comp, 875
  | tgtDangling       -- get_succ_mut, 1303
  | purePreds         -- `Node::Pure(_) => unreachable!()` in 836-868
  | selfEdge          -- assert!(&pred_loc != loc), 1320, 1340
  | mapOnNonCell      -- unreachable!() in check_force_map_dep, 1178
  | setNonCell        -- unreachable!() in set_, 1390
  | setInThunk        -- assert!(self.stack.is_empty()), 1622
  | eagerUnreachable  -- unreachable!() in `thunk`, 2434
  | naiveUnimplemented -- unimplemented!() in `thunk`, 1653
  | thunkOverPure     -- unreachable!() in `thunk`, 1727
  | progPtMismatch    -- "Memozied functions not equal!", 1750
  | unexpectedCycle   -- 1998
  | dupMiss           -- assert_eq!(is_dup,false), 2029
  | resMissing        -- unreachable!() in force, 2054-2060
  | stackBroken       -- 968-972
  | dirtyFresh        -- 974-977
  | internal          -- `_ => panic!("internal error")`, 953, 986
  | user              -- a panic in user code
deriving DecidableEq, Repr

/-- Outcome of running an operation: normal return, panic (with the state left behind), or out of fuel. -/
inductive Out (V α : Type) where
  | ok (a : α) (s : St V)
  | panic (e : Err) (s : St V)
  | oof

/-- State monad with panics and fuel. -/
abbrev M (V α : Type) := St V → Out V α

namespace M
variable {V α β : Type}

@[inline] def pure (a : α) : M V α := fun s => .ok a s
@[inline] def bind (m : M V α) (f : α → M V β) : M V β := fun s =>
  match m s with
  | .ok a s' => f a s'
  | .panic e s' => .panic e s'
  | .oof => .oof
/-- abort -/
def panic (e : Err) : M V α := fun s => .panic e s
/-- read the state -/
def get : M V (St V) := fun s => .ok s s
/-- write the state -/
def set (s' : St V) : M V Unit := fun _ => .ok () s'
/-- modify the state -/
def modify (f : St V → St V) : M V Unit := fun s => .ok () (f s)

instance : Monad (M V) where
  pure := M.pure
  bind := M.bind
end M

/-- User code between two engine calls, as seen by the engine: a tree of calls of the public API
(engine.rs:2330-2560).  `Art`s that are locations appear as `Loc`; `put` and immutable arts need no engine call.
* `call fn a k` runs the closure `fn` on `a` in place (ordinary function calls and recursion, naive thunks such as
  those of `thunk_map`, engine.rs:2449-2467) and continues with `k`.
* `set` may only be used by the editor.
* `panic` is a panic of user code. -/
inductive Prog (V : Type) where
  | ret (v : V)
  | force (ty : Ty) (l : Loc) (cyc : Option V) (k : V → Prog V)
  | forceMap (ty : Ty) (l : Loc) (f : V → V) (k : V → Prog V)
  | forceAbs (ty : Ty) (l : Loc) (f : V → V) (k : V → Prog V)
  | cell (ty : Ty) (n : Name) (v : V) (k : Loc → Prog V)
  | thunk (ty : Ty) (nc : NameChoice) (pp : ProgPt) (fn : FnId) (arg : V) (k : Loc → Prog V)
  | set (ty : Ty) (l : Loc) (v : V) (k : Prog V)
  | ns (n : Name) (body : Prog V) (k : V → Prog V)
  | structural (body : Prog V) (k : V → Prog V)
  | call (fn : FnId) (arg : V) (k : V → Prog V)
  | panic

/-- The user's `PartialEq` on values (results, contents of cells, arguments of thunks).  The engine uses values in no other way
than by comparing them with `==`; which comparison that is, is up to the user's type. -/
class UEq (V : Type) where
  eqv : V → V → Prop
  dec : DecidableRel eqv

/-- `a == b` in the user's sense. -/
infix:50 " ≈ᵤ " => UEq.eqv

instance {V : Type} [UEq V] (a b : V) : Decidable (a ≈ᵤ b) := UEq.dec a b

/-- Derived `PartialEq`: values are equal if they are the same.  All theorems about types `V` with `[DecidableEq V]` are about
this equality. -/
@[reducible] instance (priority := 10000) UEq.ofDec {V : Type} [d : DecidableEq V] : UEq V := ⟨Eq, d⟩

theorem ueq_eq {V : Type} [DecidableEq V] (a b : V) : (a ≈ᵤ b) = (a = b) := rfl
theorem ueq_pos {V α : Type} [DecidableEq V] {a b : V} (h : a = b) (x y : α) : (if a ≈ᵤ b then x else y) = x := if_pos h
theorem ueq_neg {V α : Type} [DecidableEq V] {a b : V} (h : a ≠ b) (x y : α) : (if a ≈ᵤ b then x else y) = y := if_neg h
theorem ueq_self {V α : Type} [DecidableEq V] (a : V) (x y : α) : (if a ≈ᵤ a then x else y) = x := if_pos rfl

/-- What the engine is parametric in: the code of closures, and the hash functions used for structural
identities (`my_hash(&val)` engine.rs:1543, `my_hash(&(&prog_pt,&arg))` 1659). -/
structure Env (V : Type) where
  code : FnId → V → Prog V
  hashVal : V → UInt64
  hashApp : ProgPt → V → UInt64

end Adapton
