import Verif.Macros.Model
import Verif.Trace.Count
import Verif.Catalog.BitString
/-
The tests of the repository, run on the model by the kernel.  These are evidence that the model is faithful, not claims: each says that the model does on a test's inputs what the test asserts
of the program.

Sources: /repo/tests/engine.rs, the tests in /repo/src/macros.rs:863-938 and /repo/src/catalog/bitstring.rs:84-126.  (`test_cycles` of engine.rs is `C73_documentation` in Props/Cycles.lean, for all
graphs; `avoid_divide_by_zero` is `C69_division_example` in Props/Demand.lean, for all histories; the tests of collections.rs are discussed with C42 and C63, those of tests/triesets.rs with C52: they panic.)
-/
namespace Adapton.Validation
open Adapton.Macros

/-- The values of the tests. -/
inductive Val where
  | unit
  | num (n : Int)
  | pair (a b : Int)
  | some_ (n : Int)
  | none_
  | loc (l : Loc)
deriving DecidableEq, Repr

/-- Some hash function; the tests do not depend on it. -/
def H : NameHash := ⟨fun a b => a + 3 * b, fun n => n.toUInt64, fun _ => 0, fun s => s.length.toUInt64, fun h i => 5 * h + i.toUInt64⟩
/-- Some numbering of program points. -/
def pt (s : String) : ProgPt := s.length
/-- The result types: `usize` and the other numbers, pairs, `()`, `Art<i32>`, `Option<usize>`. -/
def tyN : Ty := 0
def tyP : Ty := 1
def tyU : Ty := 2
def tyA : Ty := 3
def tyO : Ty := 4

def env (code : FnId → Val → Prog Val) : Env Val := ⟨code, fun _ => 0, fun _ _ => 0⟩
def onNum (k : Int → Prog Val) : Val → Prog Val
  | .num n => k n
  | _ => .panic
def onPair (k : Int → Int → Prog Val) : Val → Prog Val
  | .pair a b => k a b
  | _ => .panic
def onLoc (k : Loc → Prog Val) : Val → Prog Val
  | .loc l => k l
  | _ => .panic

/-- What a session of the editor does: its results, or its panic. -/
def outcome (code : FnId → Val → Prog Val) (ps : List (Prog Val)) : List Val ⊕ Option Err :=
  match runSession (env code) 100 ps (initSt true false) with
  | .ok vs _ => .inl vs
  | .panic e _ => .inr (some e)
  | .oof => .inr none

/-- The `n`-th art made with a name from the counter (`cell!(…)`, `thunk![…]`), at the top level. -/
def ctr (n : Nat) : Loc := ⟨.empty, .nominal (nameOfUsize H n)⟩
/-- An art with the name of a variable or string, at the top level. -/
def named (s : String) : Loc := ⟨.empty, .nominal (nameOfStr H s)⟩

/-- `engine_dynamic_type_error_as_editor`, tests/engine.rs:7-15: should panic. -/
theorem engine_dynamic_type_error_as_editor :
    outcome (fun _ _ => .panic) [.cell tyN (nameOfStr H "cell") (.num 1) fun _ => .cell tyP (nameOfStr H "cell") (.pair 2 3) fun _ => .ret .unit] = .inr (some .typeError) := by decide +kernel

/-- `engine_dynamic_type_error_as_archivist`, 17-37: should panic. -/
def typeErrCode : FnId → Val → Prog Val
  | 0, _ => thunkNamedBody H pt tyU "t1" "" 1 .unit fun t1 => thunkNamedBody H pt tyU "t2" "" 2 .unit fun t2 => Macros.get tyU t1 fun _ => Macros.get tyU t2 fun _ => .ret .unit
  | 1, _ => .cell tyN (nameOfStr H "cell") (.num 1) fun _ => .ret .unit
  | 2, _ => .cell tyP (nameOfStr H "cell") (.pair 2 3) fun _ => .ret .unit
  | _, _ => .panic
theorem engine_dynamic_type_error_as_archivist :
    outcome typeErrCode [thunkNamedBody H pt tyU "t" "" 0 .unit fun t => Macros.get tyU t .ret] = .inr (some .typeError) := by decide +kernel

/-- `avoid_divide_by_zero`, 48-73.  The counter gives the names 0 … 3 to `num`, `den`, `div`, `check`. -/
def divCode : FnId → Val → Prog Val
  | 0, _ => Macros.get tyN (ctr 0) <| onNum fun a => Macros.get tyN (ctr 1) <| onNum fun b => if b = 0 then .panic else .ret (.num (a / b))
  | 1, _ => Macros.get tyN (ctr 1) <| onNum fun b => if b = 0 then .ret .none_ else Macros.get tyN (ctr 2) <| onNum fun q => .ret (.some_ q)
  | _, _ => .panic
theorem avoid_divide_by_zero :
    outcome divCode
      [cellCounter H tyN 0 (.num 42) fun _ => cellCounter H tyN 1 (.num 2) fun _ => thunkCounter H pt tyN 2 "div" 0 .unit fun _ => thunkCounter H pt tyO 3 "check" 1 .unit fun _ => .ret .unit,
       Macros.get tyO (ctr 3) .ret,
       .set tyN (ctr 1) (.num 0) <| Macros.get tyO (ctr 3) .ret,
       .set tyN (ctr 1) (.num 2) <| Macros.get tyO (ctr 3) .ret] = .inl [.unit, .some_ 21, .none_, .some_ 21] := by decide +kernel

/-- `avoid_expensive_subcomp`, 75-110, with some function in place of the hash; `assert!(get!(iter) < 100)` is a panic of the program. -/
def hashIter (x : Int) (n : Int) : Int := n.toNat.fold (fun _ _ h => 31 * h + x + 7) 0
def expCode : FnId → Val → Prog Val
  | 0, _ => Macros.get tyN (ctr 2) <| onNum fun x => Macros.get tyN (ctr 1) <| onNum fun n => if 100 ≤ n then .panic else .ret (.num (hashIter x n))
  | 1, _ => Macros.get tyN (ctr 0) <| onNum fun b => if b = 1 then Macros.get tyN (named "iter_hash") .ret else Macros.get tyN (ctr 2) .ret
  | _, _ => .panic
theorem avoid_expensive_subcomp :
    outcome expCode
      [cellCounter H tyN 0 (.num 1) fun _ => cellCounter H tyN 1 (.num 3) fun _ => cellCounter H tyN 2 (.num 42) fun _ =>
         thunkNamedBody H pt tyN "iter_hash" "" 0 .unit fun _ => thunkNamedBody H pt tyN "root" "" 1 .unit fun _ => .ret .unit,
       Macros.get tyN (named "root") .ret, Macros.get tyN (ctr 2) .ret,
       .set tyN (ctr 0) (.num 0) <| .set tyN (ctr 1) (.num 999999999) <| .ret .unit,
       Macros.get tyN (named "root") .ret, Macros.get tyN (ctr 2) .ret] = .inl [.unit, .num (hashIter 42 3), .num 42, .unit, .num 42, .num 42] ∧ hashIter 42 3 ≠ 42 := by
  constructor <;> decide +kernel

/-- `force_cell`, 117-126. -/
theorem force_cell : outcome (fun _ _ => .panic) [cellCounter H tyN 0 (.num 1234) fun b => .force tyN b none .ret] = .inl [.num 1234] := by decide +kernel
/-- `force_map_cell`, 128-137. -/
theorem force_map_cell : outcome (fun _ _ => .panic) [cellCounter H tyN 0 (.num 1234) fun b => .forceMap tyN b id .ret] = .inl [.num 1234] := by decide +kernel
/-- `force_map_cell_project`, 139-150. -/
def fst : Val → Val
  | .pair a _ => .num a
  | v => v
def snd : Val → Val
  | .pair _ b => .num b
  | v => v
theorem force_map_cell_project : outcome (fun _ _ => .panic) [cellCounter H tyP 0 (.pair 1234 5678) fun _ => .ret .unit, .forceMap tyP (ctr 0) fst .ret, .forceMap tyP (ctr 0) snd .ret] =
    .inl [.unit, .num 1234, .num 5678] := by decide +kernel

/-- `force_map_prunes_dirty_traversal`, 152-174: the results, and the counts of dirtying in the recorded trace. -/
def pruneCode : FnId → Val → Prog Val
  | 0, _ => .forceMap tyP (named "pair") fst <| onNum fun a => .ret (.num (a + 100))
  | _, _ => .panic
def pruneSession : List (Prog Val) :=
  [.cell tyP (nameOfStr H "pair") (.pair 1234 5678) fun _ => thunkCounter H pt tyN 0 "t" 0 .unit fun t => .force tyN t none .ret,
   .cell tyP (nameOfStr H "pair") (.pair 1234 8765) fun _ => .force tyN (ctr 0) none .ret]
def dirtyCount : Option (Nat × Nat) :=
  match runSession (env pruneCode) 100 pruneSession (initSt true false) with
  | .ok _ s => do
    let tr ← Trace.runs s.log.reverse [[]]
    let (_, ts) ← Trace.reflectEnd (some tr)
    let c ← Trace.traceCount (Trace.toCL ts) (some 1)
    some c.dirty
  | _ => none
theorem force_map_prunes_dirty_traversal : outcome pruneCode pruneSession = .inl [.num 1334, .num 1334] ∧ dirtyCount = some (0, 0) := by constructor <;> decide +kernel

/-- `force_map_thunk`, 176-185. -/
theorem force_map_thunk : outcome (fun _ _ => .ret (.num 1234)) [thunkCounter H pt tyN 0 "a" 0 .unit fun b => .forceMap tyN b id .ret] = .inl [.num 1234] := by decide +kernel

/-- `test_let_cell_let_thunk_macros`, macros.rs:863-890, and `test_memo_macros`, 911-938: the same graph, with `let_thunk!` and `get!` or with `let_memo!`; the tests only demand it three times.  What the cell
`c` holds is added here. -/
def graphCode (memo : Bool) : FnId → Val → Prog Val
  | 0, _ =>
    if memo then letMemo H pt tyA "g" "" 1 .unit fun _ _ => letMemo H pt tyA "h" "" 2 .unit fun _ c => .ret c
    else letThunk H pt tyA "g" "" 1 .unit fun g => Macros.get tyA g fun _ => letThunk H pt tyA "h" "" 2 .unit fun h => Macros.get tyA h fun c => .ret c
  | 1, _ => Macros.get tyN (named "a") <| onNum fun x => letCell H tyN "b" (.num (x * x)) fun b => .ret (.loc b)
  | 2, _ => Macros.get tyN (named "b") <| onNum fun x => letCell H tyN "c" (.num (if x < 100 then x else 100)) fun c => .ret (.loc c)
  | _, _ => .panic
def demandGraph (memo : Bool) (x : Int) : Prog Val :=
  .cell tyN (nameOfStr H "a") (.num x) fun _ =>
    if memo then letMemo H pt tyA "f" "" 0 .unit fun _ c => onLoc (fun l => Macros.get tyN l .ret) c
    else letThunk H pt tyA "f" "" 0 .unit fun f => Macros.get tyA f <| onLoc fun l => Macros.get tyN l .ret
theorem test_let_cell_let_thunk_macros : outcome (graphCode false) ([2, -2, 3].map (demandGraph false)) = .inl [.num 4, .num 4, .num 9] := by decide +kernel
theorem test_memo_macros : outcome (graphCode true) ([2, -2, 3].map (demandGraph true)) = .inl [.num 4, .num 4, .num 9] := by decide +kernel

/-! catalog/bitstring.rs, 84-126 -/
open Bits in
theorem test_bitstrings :
    (pow 0 0 = some 1 ∧ pow 42 0 = some 1 ∧ pow (-2) 0 = some 1 ∧ pow 2 4 = some 16 ∧ pow (-2) 3 = some (-8)) ∧
    (flip 0 0 = some 1 ∧ flip 2 0 = some 4 ∧ flip 1 7 = some 5 ∧ flip 3 7 = some 15) ∧
    (isSet 4 0 = some false ∧ isSet 0 0 = some false ∧ isSet 0 1 = some true ∧ isSet 1 2 = some true ∧ isSet 0 2 = some false) ∧
    (prepend 0 ⟨0, 0⟩ = some ⟨1, 0⟩ ∧ prepend 1 ⟨0, 0⟩ = some ⟨1, 1⟩ ∧ prepend 1 ⟨1, 1⟩ = some ⟨2, 3⟩ ∧ prepend 0 ⟨1, 1⟩ = some ⟨2, 1⟩ ∧ prepend 1 ⟨2, 1⟩ = some ⟨3, 5⟩) ∧
    (shiftLeft ⟨1, 0⟩ 1 = some ⟨1, 0⟩ ∧ shiftLeft ⟨1, 1⟩ 1 = some ⟨1, 0⟩ ∧ shiftLeft ⟨2, 1⟩ 1 = some ⟨2, 2⟩ ∧ shiftLeft ⟨2, 3⟩ 1 = some ⟨2, 2⟩ ∧ shiftLeft ⟨4, 2⟩ 2 = some ⟨4, 8⟩) := by
  refine ⟨⟨?_, ?_, ?_, ?_, ?_⟩, ⟨?_, ?_, ?_, ?_⟩, ⟨?_, ?_, ?_, ?_, ?_⟩, ⟨?_, ?_, ?_, ?_, ?_⟩, ⟨?_, ?_, ?_, ?_, ?_⟩⟩ <;> decide +kernel

end Adapton.Validation
