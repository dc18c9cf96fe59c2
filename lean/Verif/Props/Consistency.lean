import Verif.Engine.Editor
import Verif.Engine.SigMono
import Verif.Engine.Mono
/-
C01, C02: the engine computes what the reference semantics (Verif/Engine/Spec.lean) says.
-/
set_option linter.unusedSectionVars false
namespace Adapton
open Ref (Sig Kind Means)
variable {V : Type} [DecidableEq V]

/-- The engine agrees with the session, in the naming mode of the session; `sig.pu` is needed for the purity optimisation only. -/
theorem session_engine {sig : Sig} {env : Env V} {ps : List (Prog V)} {vs : List V} (h : Means sig env ps vs) (purity : Bool)
    (hp : purity = true → sig.pu = true) :
    ∃ e N s', (∀ n, N ≤ n → runSession env n ps (initSt purity sig.mode) = .ok vs s') ∧ EInv (sig.withPu purity) env s' e := by
  obtain ⟨k, e, hk⟩ := h.withPu hp
  obtain ⟨s', N, h1, h2, _⟩ := session_ok ps vs (initSt purity sig.mode) Ref.emptyES e hk (EInv.init (sig.withPu purity) env) rfl rfl
  exact ⟨e, N, s', h1, h2⟩

/-- **C01.** From-scratch consistency.  For every editor session to which the cache-free reference semantics gives the
results `vs` — every sequence of allocations, mutations, namespaces, demands, through `force`, `force_cycle`, `force_map`,
of arbitrarily nested, recursive, dynamically allocating thunks, nominal or structural, in an engine where names count or
(ADAPTON_STRUCTURAL) where they do not — whatever the incremental engine returns, at any recursion depth, is `vs`; without the
purity optimisation in any case, with it if structural thunks are pure (`sig.pu`). -/
theorem C01_from_scratch_consistency (sig : Sig) (env : Env V) (ps : List (Prog V)) (vs : List V)
    (h : Means sig env ps vs) (purity : Bool) (hp : purity = true → sig.pu = true) (n : Nat) (vs' : List V) (s' : St V)
    (hr : runSession env n ps (initSt purity sig.mode) = .ok vs' s') : vs' = vs := by
  obtain ⟨_, N, s2, h1, _⟩ := session_engine h purity hp
  have h2 := h1 (max n N) (Nat.le_max_right ..)
  have h3 := runSession_mono env (Nat.le_max_left n N) ps (initSt purity sig.mode) (by rw [hr]; simp)
  rw [h2, hr] at h3
  cases h3
  rfl

/-- **C02.** Change propagation terminates and raises no panic: for every session that has a meaning, the engine, given
enough recursion depth, returns normally, and at no depth does it panic. -/
theorem C02_terminates_without_panic (sig : Sig) (env : Env V) (ps : List (Prog V)) (vs : List V)
    (h : Means sig env ps vs) (purity : Bool) (hp : purity = true → sig.pu = true) :
    (∃ N s', ∀ n, N ≤ n → runSession env n ps (initSt purity sig.mode) = .ok vs s') ∧
    ∀ n err s', runSession env n ps (initSt purity sig.mode) ≠ .panic err s' := by
  obtain ⟨_, N, s2, h1, _⟩ := session_engine h purity hp
  refine ⟨⟨N, s2, h1⟩, ?_⟩
  intro n err s' hpn
  have h2 := h1 (max n N) (Nat.le_max_right ..)
  have h3 := runSession_mono env (Nat.le_max_left n N) ps (initSt purity sig.mode) (by rw [hpn]; simp)
  rw [h2, hpn] at h3
  cases h3

/-- In one naming mode, the reference semantics gives a session at most one meaning, whatever depth and signature it is computed with. -/
theorem Means_unique (sig sig' : Sig) (hm : sig'.mode = sig.mode) (env : Env V) (ps : List (Prog V)) (vs vs' : List V)
    (h : Means sig env ps vs) (h' : Means sig' env ps vs') : vs = vs' := by
  obtain ⟨⟨N, s', hN⟩, _⟩ := C02_terminates_without_panic sig env ps vs h false (fun h => by cases h)
  refine C01_from_scratch_consistency sig' env ps vs' h' false (fun h => by cases h) N vs s' ?_
  rw [hm]
  exact hN N (Nat.le_refl N)

/-! ### A session that meets the hypotheses

Two cells `a`, `b`; a thunk `t` that runs in a namespace, allocates an inner thunk whose result is `force a`, forces it, and
reads `b` only if that is positive, through a map.  The editor demands `t`, edits both cells, re-allocates, and demands again. -/
namespace Example1

def nm (n : Nat) : Name := ⟨0, .usize n⟩
def at_ (n : Nat) : Loc := ⟨.empty, .nominal (nm n)⟩
def inner : Loc := ⟨.child .empty (nm 9), .nominal (nm 3)⟩

/-- closure 1: the outer thunk; closure 2: the inner one; closure 3: an ordinary function. -/
def code : FnId → Nat → Prog Nat
  | 1, _ => .ns (nm 9) (.thunk 0 (.nominal (nm 3)) 12 2 7 fun l => .force 0 l none fun x => .ret x) fun x =>
      if x = 0 then .ret 100
      else .forceMap 0 (at_ 1) (· / 10) fun y => .call 3 (x + y) fun z => .ret z
  | 2, arg => .force 0 (at_ 0) none fun x => .ret (x * arg)
  | 3, n => .ret (n + 1000)
  | _, _ => .panic

def env : Env Nat := ⟨code, fun _ => 0, fun _ _ => 0⟩

def sig : Sig :=
  { kind := fun l => if l = at_ 2 then .thunk 0 11 1 else if l = inner then .thunk 0 12 2 else .cell 0 }

def ps : List (Prog Nat) :=
  [ .cell 0 (nm 0) 1 fun _ => .cell 0 (nm 1) 25 fun _ => .thunk 0 (.nominal (nm 2)) 11 1 0 fun l => .force 0 l none .ret,
    .set 0 (at_ 1) 29 (.force 0 (at_ 2) none .ret),
    .set 0 (at_ 0) 0 (.force 0 (at_ 2) none .ret),
    .cell 0 (nm 1) 31 fun _ => .cell 0 (nm 0) 2 fun _ => .force 0 (at_ 2) none .ret ]

example : Means sig env ps [1009, 1009, 100, 1017] := ⟨10, _, rfl⟩

end Example1

/-! ### Structural thunks, and the engine-wide structural mode

`sum` is a recursive function on numbers, memoised by structural thunks, which uses structural cells as well; a nominal thunk adds the
value of a cell that the editor changes.  The second session is the same program text in an engine with ADAPTON_STRUCTURAL set: there the
"changed" cell is another cell, and the thunk, allocated again, another thunk. -/
namespace Example2
open Example1 (nm at_)

/-- closure 1: the nominal thunk; closure 2: the sum of the numbers below its argument. -/
def code : FnId → Nat → Prog Nat
  | 1, n => .thunk 0 .structural 12 2 n fun l => .force 0 l none fun x => .force 0 (at_ 0) none fun y => .ret (x + y)
  | 2, 0 => .structural (.cell 0 (nm 5) 7 fun c => .force 0 c none .ret) .ret
  | 2, n + 1 => .thunk 0 .structural 12 2 n fun l => .force 0 l none fun x => .structural (.cell 0 (nm 5) (x + n) fun c => .forceMap 0 c (· + 1) .ret) .ret
  | _, _ => .panic

def env : Env Nat := ⟨code, fun v => .ofNat (2 * v), fun _ v => .ofNat (2 * v + 1)⟩

def kind (l : Loc) : Kind :=
  match l.id with
  | .structural h => if h % 2 = 1 then .thunk 0 12 2 else .cell 0
  | .nominal _ => if l = at_ 1 then .thunk 0 11 1 else .cell 0

def ps : List (Prog Nat) :=
  [ .cell 0 (nm 0) 100 fun _ => .thunk 0 (.nominal (nm 1)) 11 1 3 fun l => .force 0 l none .ret,
    .set 0 (at_ 0) 200 (.force 0 (at_ 1) none .ret),
    .thunk 0 (.nominal (nm 1)) 11 1 4 fun l => .force 0 l none .ret ]

example : Means { kind := kind } env ps [113, 213, 217] := ⟨12, _, rfl⟩

/-- closure 1: forces its structural argument cell, given by its value. -/
def code' : FnId → Nat → Prog Nat
  | 1, n => .cell 0 (nm 0) (n + 1) fun c => .force 0 c none fun x => .ret (x * 10)
  | _, _ => .panic

def env' : Env Nat := ⟨code', fun v => .ofNat (2 * v), fun _ v => .ofNat (2 * v + 1)⟩

def kind' (l : Loc) : Kind :=
  match l.id with
  | .structural h => if h % 2 = 1 then .thunk 0 11 1 else .cell 0
  | .nominal _ => .cell 0

def ps' : List (Prog Nat) :=
  [ .cell 0 (nm 0) 100 fun _ => .thunk 0 (.nominal (nm 1)) 11 1 3 fun l => .force 0 l none .ret,
    .thunk 0 (.nominal (nm 1)) 11 1 4 fun l => .force 0 l none .ret,
    .thunk 0 (.nominal (nm 2)) 11 1 3 fun l => .force 0 l none .ret ]

example : Means { kind := kind', mode := true } env' ps' [40, 50, 40] := ⟨12, _, rfl⟩

end Example2
end Adapton
