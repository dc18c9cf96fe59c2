import Verif.Props.Firewall
import Verif.Props.TraceCount
/-
C83: the "Nominal memoization" and the `force_map` examples of the documentation (/repo/src/lib.rs:558-742), for all functions, all names and arguments, and all histories:
what is returned, what is run, and what `trace_count` says of the recorded trace.
-/
set_option linter.unusedSectionVars false
set_option linter.unusedVariables false
set_option linter.unusedSimpArgs false
namespace Adapton.MemoCount
open Adapton Macros Trace
variable {V : Type} [DecidableEq V] (pt : String → ProgPt)

/-! ### The program -/

/-- lib.rs:624-626: `fn sum(x:usize, y:usize)`; the pair of the arguments is one value, and `f` stands for any function that does not use the engine. -/
def code (f : V → V) : FnId → V → Prog V
  | 1, x => .ret (f x)
  | _, _ => .panic

def env (f : V → V) (hv : V → UInt64) (ha : ProgPt → V → UInt64) : Env V := ⟨code f, hv, ha⟩

/-- `get!(thunk!([n] sum; x:…, y:…))`, lib.rs:670-679: a name and the arguments. -/
def call (c : Name × V) : Prog V := thunkFun pt 0 (some c.1) "sum" 1 c.2 fun t => Macros.get 0 t .ret

/-! ### Specification -/

/-- What the documentation says of a call. -/
inductive Kind where
  /-- "allocated": the first call with this name -/
  | fresh
  /-- "allocated without changing it": the last call with this name had the same arguments -/
  | same
  /-- "allocated by changing it": the last call with this name had other arguments -/
  | diff
deriving DecidableEq

/-- The arguments of the last call with the name `n`; the calls made so far, the last one first. -/
def lastArg (n : Name) : List (Name × V) → Option V
  | [] => none
  | (m, x) :: before => if m = n then some x else lastArg n before

/-- The kind of a call after the calls `before` (the last one first). -/
def kind (before : List (Name × V)) (c : Name × V) : Kind :=
  match lastArg c.1 before with
  | none => .fresh
  | some x => if x = c.2 then .same else .diff

/-- The kinds of a sequence of calls after the calls `before`. -/
def kinds (before : List (Name × V)) : List (Name × V) → List Kind
  | [] => []
  | c :: cs => kind before c :: kinds (c :: before) cs

/-- The thunk with the name `n`. -/
def loc (n : Name) : Loc := ⟨.empty, .nominal n⟩

/-- The calls that are evaluated: those that are not a repetition of the last one with the same name. -/
def evaluated (before : List (Name × V)) : List (Name × V) → List Loc
  | [] => []
  | c :: cs => if kind before c = .same then evaluated (c :: before) cs else loc c.1 :: evaluated (c :: before) cs

/-! ### Proof -/

/-- The traces of a call. -/
def traces (before : List (Name × V)) (c : Name × V) : List Tree :=
  match kind before c with
  | .fresh => [.node (.alloc .locFresh .thunk) none (loc c.1) [], .node (.force .compCacheMiss) none (loc c.1) []]
  | .same => [.node (.alloc (.locExists false) .thunk) none (loc c.1) [], .node (.force .compCacheHit) none (loc c.1) []]
  | .diff => [.node (.alloc (.locExists true) .thunk) none (loc c.1) [], .node (.force .compCacheMiss) none (loc c.1) []]

/-- The state after the calls `before`. -/
structure Inv (f : V → V) (before : List (Name × V)) (s : St V) : Prop where
  stack : s.stack = []
  path : s.path = .empty
  mode : s.ignoreNominal = false
  table : ∀ n, s.table.get (loc n) = (lastArg n before).map fun x => .comp ⟨0, [], [], pt "sum", 1, x, some (f x)⟩

/-- An extent with nothing in it. -/
theorem parses2 (e e' : TEff) (a : Option Loc) (b : Loc) : Parses [.begin e a b, .end_, .begin e' a b, .end_] [.node e a b [], .node e' a b []] :=
  .ext (inner := []) (rest := [.begin e' a b, .end_]) .nil (.ext (inner := []) (rest := []) .nil .nil)

attribute [local simp] ueq_eq exec runProg opForce opThunk thunkNominal M.bind_def M.pure_def M.modify_def M.get_def M.panic_def evBegin evEnd recordEdge putNode resNode
  lookupAbs produceBody revokeSuccs installPreds Node.ty topLoc dirtyAlloc dirtyPredsTop dirtyPreds dirtyLoop Node.predsObs Node.predsAlloc cleanForceBody cleanLoop
  dirtyAllocLoop step recN Table.get_put_self env code call thunkFun optChoice Macros.get loc

theorem call_step (f : V → V) (hv : V → UInt64) (ha : ProgPt → V → UInt64) (n : Nat) (before : List (Name × V)) (s : St V) (h : Inv pt f before s) (c : Name × V) :
    ∃ s' evs, exec (env f hv ha) (n + 4) (call pt c) s = .ok (f c.2) s' ∧ Inv pt f (c :: before) s' ∧ s'.log = evs.reverse ++ s.log ∧ Parses evs (traces before c) ∧
      s'.runs = (if kind before c = .same then [] else [loc c.1]) ++ s.runs := by
  obtain ⟨table, stack, path, purity, mode, log, runs⟩ := s
  obtain ⟨h1, h2, h3, h4⟩ := h
  simp only at h1 h2 h3 h4
  subst h1 h2 h3
  obtain ⟨m, x⟩ := c
  have ht := h4 m
  have hinv : ∀ (t : Table V), (∀ k, t.get (loc k) = if k = m then some (.comp ⟨0, [], [], pt "sum", 1, x, some (f x)⟩) else table.get (loc k)) → ∀ log' runs',
      Inv pt f ((m, x) :: before) ⟨t, [], .empty, purity, false, log', runs'⟩ := by
    intro t h log' runs'
    refine ⟨rfl, rfl, rfl, fun k => ?_⟩
    simp only []
    rw [h k, lastArg]
    by_cases e : k = m
    · subst e; rw [if_pos rfl, if_pos rfl]; rfl
    · rw [if_neg e, if_neg (Ne.symm e), h4]
  have hput : ∀ (t : Table V) (nd : Node V) (k : Name), (t.put ⟨Path.empty, ArtId.nominal m⟩ nd).get (loc k) = if k = m then some nd else t.get (loc k) := by
    intro t nd k
    by_cases e : k = m
    · subst e; rw [if_pos rfl]; exact Table.get_put_self _ _ _
    · rw [if_neg e, Table.get_put_ne _ _ (by intro h; cases h; exact e rfl)]
  rcases hl : lastArg m before with _ | y
  · rw [hl] at ht
    simp only [Option.map_none, loc] at ht
    have hk : kind before (m, x) = .fresh := by rw [kind]; simp only [hl]
    simp only [traces, hk]
    refine ⟨_, [.begin (.alloc .locFresh .thunk) none (loc m), .end_, .begin (.force .compCacheMiss) none (loc m), .end_], by simp [ht]; rfl, ?_, rfl, parses2 _ _ _ _, rfl⟩
    apply hinv
    intro k
    rw [hput, hput, hput]
    by_cases e : k = m
    · rw [if_pos e, if_pos e]
    · simp only [if_neg e]
  · rw [hl] at ht
    simp only [Option.map_some, loc] at ht
    by_cases hy : y = x
    · subst hy
      have hk : kind before (m, y) = .same := by rw [kind]; simp only [hl, if_true]
      simp only [traces, hk]
      refine ⟨_, [.begin (.alloc (.locExists false) .thunk) none (loc m), .end_, .begin (.force .compCacheHit) none (loc m), .end_], by simp [ht]; rfl, ?_, rfl, parses2 _ _ _ _, rfl⟩
      apply hinv
      intro k
      by_cases e : k = m
      · subst e; rw [if_pos rfl]; exact ht
      · rw [if_neg e]
    · have hk : kind before (m, x) = .diff := by rw [kind]; simp only [hl, if_neg hy]
      simp only [traces, hk]
      refine ⟨_, [.begin (.alloc (.locExists true) .thunk) none (loc m), .end_, .begin (.force .compCacheMiss) none (loc m), .end_], by simp [ht, hy]; rfl, ?_, rfl, parses2 _ _ _ _, rfl⟩
      apply hinv
      intro k
      rw [hput, hput, hput]
      by_cases e : k = m
      · rw [if_pos e, if_pos e]
      · simp only [if_neg e]

/-- The traces of a sequence of calls. -/
def allTraces (before : List (Name × V)) : List (Name × V) → List Tree
  | [] => []
  | c :: cs => traces before c ++ allTraces (c :: before) cs

theorem history (f : V → V) (hv : V → UInt64) (ha : ProgPt → V → UInt64) (n : Nat) : ∀ (cs : List (Name × V)) (before : List (Name × V)) (s : St V), Inv pt f before s →
    ∃ s' evs, runSession (env f hv ha) (n + 4) (cs.map (call pt)) s = .ok (cs.map fun c => f c.2) s' ∧ Inv pt f (cs.reverse ++ before) s' ∧ s'.log = evs.reverse ++ s.log ∧
      Parses evs (allTraces before cs) ∧ s'.runs = (evaluated before cs).reverse ++ s.runs := by
  intro cs
  induction cs with
  | nil => intro before s h; exact ⟨s, [], rfl, h, rfl, .nil, rfl⟩
  | cons c cs ih =>
    intro before s h
    obtain ⟨s1, e1, h1, h2, h3, h4, h5⟩ := call_step pt f hv ha n before s h c
    obtain ⟨s2, e2, g1, g2, g3, g4, g5⟩ := ih (c :: before) s1 h2
    refine ⟨s2, e1 ++ e2, ?_, by simpa using g2, by rw [g3, h3]; simp, h4.append g4, ?_⟩
    · simp only [List.map_cons, runSession]
      rw [M.bind_ok (m := exec _ _ _) h1, M.bind_ok g1]; rfl
    · rw [g5, h5, evaluated]
      by_cases hk : kind before c = .same
      · rw [if_pos hk, if_pos hk]; rfl
      · rw [if_neg hk, if_neg hk]; simp

/-- Counting the traces of a sequence of calls. -/
theorem count_traces (cs : List (Name × V)) : ∀ (before : List (Name × V)) (c : Count), countRecL .editor (toCL (allTraces before cs)) c =
    some { c with archivist := c.archivist + cs.length, fresh := (c.fresh.1 + (kinds before cs).count .fresh, c.fresh.2), nochange := (c.nochange.1 + (kinds before cs).count .same, c.nochange.2), change := (c.change.1 + (kinds before cs).count .diff, c.change.2) } := by
  induction cs with
  | nil => intro before c; rfl
  | cons d cs ih =>
    rintro before ⟨u, a, r1, r2, cl, d0, ⟨f1, f2⟩, ⟨n1, n2⟩, ⟨c1, c2⟩⟩
    simp only [allTraces, traces, kinds]
    cases hk : kind before d <;>
      simp [toCL, Tree.toC, countRecL, countRec, countDirtyL, ih, bump] <;> omega

/-! ### C83 -/

/-- **C83.** Memoized calls of a function, with arbitrary names and arguments, in arbitrary order: every call returns the value of the function at the
arguments of this call; the calls that are evaluated are those that do not repeat the last call with the same name (in this order); and
`trace_count` of the recorded trace says: one demand per call, as many fresh allocations as there are first calls with a name, as many unchanged
allocations as there are repetitions, as many changed ones as there are calls with other arguments; nothing by the archivist, nothing dirtied, nothing
cleaned. -/
theorem C83_memo_calls (f : V → V) (hv : V → UInt64) (ha : ProgPt → V → UInt64) (n : Nat) (purity : Bool) (calls : List (Name × V)) (total : Option Nat) :
    ∃ s tr ts, runSession (env f hv ha) (n + 4) (calls.map (call pt)) (initSt purity false) = .ok (calls.map fun c => f c.2) s ∧
      s.runs.reverse = evaluated [] calls ∧
      runs s.log.reverse [[]] = some tr ∧ reflectEnd (some tr) = some (none, ts) ∧
      traceCount (toCL ts) total = some { updates := total.getD 1, archivist := calls.length, reevalNochange := 0, reevalChange := 0, cleanRec := 0, dirty := (0, 0), fresh := ((kinds [] calls).count .fresh, 0), nochange := ((kinds [] calls).count .same, 0), change := ((kinds [] calls).count .diff, 0) } := by
  have h0 : Inv pt f [] (initSt (V := V) purity false) := ⟨rfl, rfl, rfl, fun _ => rfl⟩
  obtain ⟨s, evs, h1, h2, h3, h4, h5⟩ := history pt f hv ha n calls [] _ h0
  have hr := runs_parses h4 [] [] []
  refine ⟨s, [(allTraces [] calls).reverse], allTraces [] calls, h1, by rw [h5]; simp [initSt], ?_, by simp [reflectEnd], ?_⟩
  · rw [h3]; simpa [initSt, runs] using hr
  · rw [traceCount, count_traces]; simp [Count.zero]

/-- **C83.** The number of fresh allocations is the number of different names: if `D` lists the names of the calls, each once, it is the length of `D`. -/
theorem C83_fresh_is_number_of_names (calls : List (Name × V)) (D : List Name) (hD : D.Nodup) (hm : ∀ n, n ∈ D ↔ ∃ x, (n, x) ∈ calls) :
    (kinds [] calls).count .fresh = D.length := by
  have key : ∀ (cs before : List (Name × V)) (D : List Name), D.Nodup → (∀ n, n ∈ D ↔ (∃ x, (n, x) ∈ cs) ∧ ¬ ∃ x, (n, x) ∈ before) →
      (kinds before cs).count .fresh = D.length := by
    intro cs
    induction cs with
    | nil =>
      intro before D _ hm
      cases D with
      | nil => rfl
      | cons n D => exact absurd ((hm n).1 (List.mem_cons_self ..)).1 (by rintro ⟨x, hx⟩; cases hx)
    | cons c cs ih =>
      intro before D hD hm
      have hl : ∀ (n : Name) (b : List (Name × V)), lastArg n b = none ↔ ¬ ∃ x, (n, x) ∈ b := by
        intro n b
        induction b with
        | nil => exact ⟨fun _ ⟨x, hx⟩ => (by cases hx), fun _ => rfl⟩
        | cons d b ihb =>
          obtain ⟨m, y⟩ := d
          rw [lastArg]
          by_cases e : m = n
          · subst e
            rw [if_pos rfl]
            exact ⟨fun h => (by cases h), fun h => absurd ⟨y, List.mem_cons_self ..⟩ h⟩
          · rw [if_neg e, ihb]
            constructor
            · rintro h ⟨x, hx⟩
              rcases List.mem_cons.1 hx with hx | hx
              · cases hx; exact e rfl
              · exact h ⟨x, hx⟩
            · rintro h ⟨x, hx⟩
              exact h ⟨x, List.mem_cons_of_mem _ hx⟩
      have hk : kind before c = .fresh ↔ ¬ ∃ x, (c.1, x) ∈ before := by
        rw [← hl, kind]
        cases h : lastArg c.1 before with
        | none => simp
        | some x => by_cases e : x = c.2 <;> simp [e]
      rw [kinds]
      by_cases hf : ∃ x, (c.1, x) ∈ before
      · have hne : kind before c ≠ .fresh := fun h => hk.1 h hf
        rw [List.count_cons_of_ne hne]
        refine ih (c :: before) D hD fun n => ?_
        rw [hm n]
        constructor
        · rintro ⟨⟨x, hx⟩, h2⟩
          rcases List.mem_cons.1 hx with hx | hx
          · subst hx; exact absurd hf h2
          · refine ⟨⟨x, hx⟩, ?_⟩
            rintro ⟨y, hy⟩
            rcases List.mem_cons.1 hy with hy | hy
            · subst hy; exact h2 hf
            · exact h2 ⟨y, hy⟩
        · rintro ⟨⟨x, hx⟩, h2⟩
          exact ⟨⟨x, List.mem_cons_of_mem _ hx⟩, fun ⟨y, hy⟩ => h2 ⟨y, List.mem_cons_of_mem _ hy⟩⟩
      · rw [hk.2 hf, List.count_cons_self]
        have hin : c.1 ∈ D := (hm c.1).2 ⟨⟨c.2, List.mem_cons_self ..⟩, hf⟩
        rw [ih (c :: before) (D.erase c.1) (hD.erase _) fun n => ?_, List.length_erase_of_mem hin]
        · have := List.length_pos_of_mem hin; omega
        · rw [hD.mem_erase_iff, hm n]
          constructor
          · rintro ⟨hn, ⟨x, hx⟩, h2⟩
            rcases List.mem_cons.1 hx with hx | hx
            · subst hx; exact absurd rfl hn
            · refine ⟨⟨x, hx⟩, ?_⟩
              rintro ⟨y, hy⟩
              rcases List.mem_cons.1 hy with hy | hy
              · subst hy; exact hn rfl
              · exact h2 ⟨y, hy⟩
          · rintro ⟨⟨x, hx⟩, h2⟩
            refine ⟨?_, ⟨x, List.mem_cons_of_mem _ hx⟩, fun ⟨y, hy⟩ => h2 ⟨y, List.mem_cons_of_mem _ hy⟩⟩
            rintro rfl
            exact h2 ⟨c.2, List.mem_cons_self ..⟩
  exact key calls [] D hD fun n => by rw [hm n]; exact ⟨fun h => ⟨h, fun ⟨x, hx⟩ => (by cases hx)⟩, fun h => h.1⟩

/-- The four calls of the documentation, lib.rs:670-679: two fresh, one repetition, one with other arguments; three are evaluated. -/
example (a b : Name) (hab : a ≠ b) : kinds [] [(a, (42, 43)), (a, (42, 43)), (b, (42, 43)), (b, ((55, 66) : Nat × Nat))] = [.fresh, .same, .fresh, .diff] ∧
    evaluated [] [(a, (42, 43)), (a, (42, 43)), (b, (42, 43)), (b, ((55, 66) : Nat × Nat))] = [loc a, loc b, loc b] := by
  simp [kinds, kind, lastArg, evaluated, hab, Ne.symm hab]

end Adapton.MemoCount
