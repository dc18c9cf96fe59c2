import Verif.Engine.Basic
/-
The naive engine: the API of /repo/src/engine.rs:2327-2559 when the current engine is `Engine::Naive`.
Its arts are `EnumArt::Rc` (cells) and `EnumArt::Force` (thunks); it has no state.
-/
namespace Adapton
variable {W : Type}

/-- `EnumArt<T>`, engine.rs:2115-2123, as the naive engine makes them (2368, 2442-2448): `Rc(val)`, and `Force` of a `NaiveThunk`
(2169-2175).  Locations (`Loc`) belong to the DCG engine. -/
inductive NArt (W : Type) where
  | rc (v : W)
  | force (id : NameChoice) (pp : ProgPt) (fn : FnId) (arg : W)

/-- User code between two engine calls, with naive arts.  Compare `Prog`, the same with locations. -/
inductive NProg (W : Type) where
  | ret (v : W)
  | force (a : NArt W) (cyc : Option W) (k : W → NProg W)
  | forceMap (a : NArt W) (f : W → W) (k : W → NProg W)
  | forceAbs (a : NArt W) (f : W → W) (k : W → NProg W)
  | cell (n : Name) (v : W) (k : NArt W → NProg W)
  | thunk (nc : NameChoice) (pp : ProgPt) (fn : FnId) (arg : W) (k : NArt W → NProg W)
  | set (a : NArt W) (v : W) (k : NProg W)
  | ns (n : Name) (body : NProg W) (k : W → NProg W)
  | structural (body : NProg W) (k : W → NProg W)
  | call (fn : FnId) (arg : W) (k : W → NProg W)
  | panic

/-- Outcome of naive code: a value, a panic, or recursion deeper than the bound. -/
inductive NOut (W : Type) where
  | ok (v : W)
  | panic
  | oof

def NOut.bind (m : NOut W) (k : W → NOut W) : NOut W :=
  match m with
  | .ok v => k v
  | .panic => .panic
  | .oof => .oof

/-- `force` on a naive art, 2472-2475, and `NaiveThunk::force`, 2181-2183: a thunk runs its code, every time. -/
def nforce (rec : FnId → W → NOut W) : NArt W → NOut W
  | .rc v => .ok v
  | .force _ _ fn arg => rec fn arg

/-- The API under the naive engine.
* `force`, `force_cycle`: 2472-2475, 2500-2503; `cycle_out` is not used
* `force_map`: 2528-2531; `force_abs`: 2553-2556
* `cell`: 2368; `thunk`: 2442-2448
* `set`: 2376-2377, a panic for both kinds of naive art
* `ns`, `structural`: 2332, 2343, just the body -/
def nrun (rec : FnId → W → NOut W) : NProg W → NOut W
  | .ret v => .ok v
  | .force a _ k => (nforce rec a).bind fun v => nrun rec (k v)
  | .forceMap a f k => (nforce rec a).bind fun v => nrun rec (k (f v))
  | .forceAbs a f k => (nforce rec a).bind fun v => nrun rec (k (f v))
  | .cell _ v k => nrun rec (k (.rc v))
  | .thunk nc pp fn arg k => nrun rec (k (.force nc pp fn arg))
  | .set _ _ _ => .panic
  | .ns _ body k => (nrun rec body).bind fun v => nrun rec (k v)
  | .structural body k => (nrun rec body).bind fun v => nrun rec (k v)
  | .call fn arg k => (rec fn arg).bind fun v => nrun rec (k v)
  | .panic => .panic

/-- Calls, to recursion depth `n`; `code` is the code of the closures. -/
def ncall (code : FnId → W → NProg W) : Nat → FnId → W → NOut W
  | 0, _, _ => .oof
  | n + 1, fn, arg => nrun (ncall code n) (code fn arg)

end Adapton
