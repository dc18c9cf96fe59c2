import Verif.Engine.Manage
import Verif.Reflect.ParseVal
/-
The reflected DCG, `dcg_reflect_now`: /repo/src/engine.rs:126-138, 328-338, 399-414, 460-471, 501-575, 611-643, 673-689, and
/repo/src/reflect.rs:123-275.
-/
namespace Adapton.RDcg
open Reflect (Val RLoc)
variable {V : Type}

/-- `name_of_hash64`, engine.rs:2263-2267. -/
def nameOfHash64 (h : UInt64) : Name := ⟨h, .hash64⟩

/-- `Reflect<reflect::Path> for Path`, engine.rs:460-471. -/
def path : Path → List Name
  | .empty => []
  | .child p n => path p ++ [n]

/-- `Reflect<reflect::Loc> for Loc`, engine.rs:328-338. -/
def loc (l : Loc) : RLoc :=
  ⟨path l.path, match l.id with
    | .structural h => nameOfHash64 h
    | .nominal n => n⟩

/-- `reflect::Effect`, reflect.rs:144-156. -/
inductive REff where
  | force | alloc
deriving DecidableEq

/-- `Reflect<reflect::Effect> for Effect`, engine.rs:561-570. -/
def eff : Effect → REff
  | .observe => .force
  | .allocate => .alloc

/-- `reflect::Succ`, reflect.rs:158-181; the value `none` is `ValTODO`. -/
structure RSucc where
  dirty : Bool
  loc : RLoc
  effect : REff
  value : Option Val
  isDup : Bool

/-- `Reflect<reflect::Succ> for Succ`, engine.rs:532-542. -/
def succ (e : Succ V) : RSucc := ⟨e.dirty, loc e.loc, eff e.effect, none, false⟩

/-- `reflect::Pred`, reflect.rs:193-200. -/
structure RPred where
  loc : RLoc
  effect : REff

/-- `Reflect<Vec<reflect::Pred>> for Vec<Pred>`, engine.rs:673-681. -/
def pred (p : Pred V) : RPred := ⟨loc p.loc, eff p.effect⟩

/-- `reflect::Node`, reflect.rs:202-233, with its three kinds. -/
inductive RNode where
  | comp (preds : List RPred) (succs : List RSucc) (pp : ProgPt) (value : Option Val)
  | ref (preds : List RPred) (value : Val)
  | pure (value : Val)

/-- `Reflect<reflect::Node> for Node<X>`, engine.rs:611-643; `pv` is `parse_val` of the `Debug` text, `none` is a panic in it. -/
def node (pv : V → Option Val) : Node V → Option RNode
  | .comp nd =>
    match nd.res with
    | some v => (pv v).map fun w => .comp (nd.preds.map pred) (nd.succs.map succ) nd.pp (some w)
    | none => some (.comp (nd.preds.map pred) (nd.succs.map succ) nd.pp none)
  | .pure nd => (pv nd.val).map .pure
  | .mut nd => (pv nd.val).map fun w => .ref (nd.preds.map pred) w

/-- `succs_of_node`, reflect.rs:236-243. -/
def succsOf : RNode → Option (List RSucc)
  | .comp _ es _ _ => some es
  | _ => none

/-- `preds_of_node`, reflect.rs:245-252. -/
def predsOf : RNode → Option (List RPred)
  | .comp ps _ _ _ => some ps
  | .ref ps _ => some ps
  | .pure _ => none

/-- `reflect::Frame`, reflect.rs:254-259. -/
structure RFrame where
  loc : RLoc
  succs : List RSucc

/-- `Reflect<reflect::Frame> for Frame`, engine.rs:501-508, 550-554. -/
def frame (f : Frame V) : RFrame := ⟨loc f.loc, f.succs.map fun e => succ e.1⟩

/-- The reflected memo table, `HashMap<Loc, Node>`, as a map. -/
abbrev RTable := RLoc → Option RNode

/-- `HashMap::insert`. -/
def insert (t : RTable) (l : RLoc) (n : RNode) : RTable := fun x => if x = l then some n else t x

/-- `reflect::DCG`, reflect.rs:261-272. -/
structure RDCG where
  table : RTable
  stack : List RFrame
  path : List Name

/-- The loop over the table, engine.rs:402-407; `order` is the order in which the hash map presents its keys. -/
def table (pv : V → Option Val) (t : Table V) : List Loc → RTable → Option RTable
  | [], acc => some acc
  | l :: ls, acc =>
    match t.get l with
    | none => table pv t ls acc
    | some n => (node pv n).bind fun rn => table pv t ls (insert acc (loc l) rn)

/-- `Reflect<reflect::DCG> for DCG`, engine.rs:399-414.  The first frame of the vector is the bottom one. -/
def dcg (pv : V → Option Val) (order : List Loc) (s : St V) : Option RDCG :=
  (table pv s.table order fun _ => none).map fun t => ⟨t, s.stack.reverse.map frame, path s.path⟩

/-- `dcg_reflect_now`, engine.rs:126-138: a panic (outer `none`), `None` under the naive engine, else the reflected DCG. -/
def reflectNow (pv : V → Option Val) (order : List Loc) (g : Globals V) : Option (Option RDCG) :=
  match g.engine with
  | .dcg s => (dcg pv order s).map some
  | .naive => some none

end Adapton.RDcg
