import Verif.Props.MemoCount
/-
C84: the `force_map` example of the documentation (/repo/src/lib.rs:563-612), for all projections, all contents and all histories of edits and demands:
what is returned, what is run, what is dirtied, and what `trace_count` says of the recorded trace.
-/
set_option linter.unusedSectionVars false
set_option linter.unusedVariables false
set_option linter.unusedSimpArgs false
namespace Adapton.ForceMapCount
open Adapton Macros Trace
variable {V : Type} [DecidableEq V] (pt : String → ProgPt) (P T : Name)

/-! ### The program -/

/-- The articulation with the name `n`. -/
def loc (n : Name) : Loc := ⟨.empty, .nominal n⟩

/-- lib.rs:591-595: `{ let fst = force_map(&pair, |_,x| x.0); fst + 100 }`; `proj` is the projection, `post` the rest. -/
def code (proj post : V → V) : FnId → V → Prog V
  | 1, _ => .forceMap 0 (loc P) proj fun x => .ret (post x)
  | _, _ => .panic

def env (proj post : V → V) (hv : V → UInt64) (ha : ProgPt → V → UInt64) : Env V := ⟨code P proj post, hv, ha⟩

/-- lib.rs:588-595: the cell and the thunk (the macros take both names from the name counter). -/
def build (v unit : V) : Prog V := .cell 0 P v fun _ => thunkBody pt 0 (some T) "body" 1 unit fun _ => .ret unit

/-- What the editor does then. -/
inductive Op (V : Type) where
  /-- `set(&pair1, v)` -/
  | set (v : V)
  /-- `get!(t)` -/
  | get

def Op.prog (unit : V) : Op V → Prog V
  | .set v => .set 0 (loc P) v (.ret unit)
  | .get => Macros.get 0 (loc T) .ret

/-! ### Specification -/

/-- What the editor has done so far. -/
structure Hist (V : Type) where
  /-- the content of the cell -/
  content : V
  /-- the projection of the content at the last demand, if there was one -/
  image : Option V
  /-- has an edit since then given the cell a content with another projection? -/
  stale : Bool

variable (proj post : V → V)

/-- The history after one more operation. -/
def Hist.after (h : Hist V) : Op V → Hist V
  | .set v => { h with content := v, stale := h.stale || h.image.any fun r => r ≠ proj v }
  | .get => { h with image := some (proj h.content), stale := false }

/-- A demand returns what follows from the projection of the current content. -/
def Hist.answer (unit : V) (h : Hist V) : Op V → V
  | .set _ => unit
  | .get => post (proj h.content)

/-- The operation dirties the thunk: an edit after a demand, the first since then whose projection is not that of the last demand. -/
def Hist.dirties (h : Hist V) : Op V → Bool
  | .set v => !h.stale && h.image.any fun r => r ≠ proj v
  | .get => false

/-- The operation checks the dirty thunk. -/
def Hist.checks (h : Hist V) : Op V → Bool
  | .set _ => false
  | .get => h.stale

/-- The operation runs the thunk again. -/
def Hist.reruns (h : Hist V) : Op V → Bool
  | .set _ => false
  | .get => h.image.any fun r => r ≠ proj h.content

/-- The operation runs the thunk: for the first time, or because the projection is not that of the last demand. -/
def Hist.runs (h : Hist V) : Op V → Bool
  | .set _ => false
  | .get => h.image ≠ some (proj h.content)

/-- The operations and what the editor has done before each of them. -/
def Hist.steps (h : Hist V) : List (Op V) → List (Hist V × Op V)
  | [] => []
  | op :: ops => (h, op) :: (h.after proj op).steps ops

def Op.isGet : Op V → Bool
  | .get => true
  | .set _ => false

/-! ### Proof -/

attribute [local simp] ueq_eq exec runProg opCell opForce opForceMap opThunk thunkNominal cellTable cellRecord
  M.bind_def M.pure_def M.modify_def M.get_def M.panic_def evBegin evEnd evEff recordEdge putNode Table.get Table.put resNode
  lookupAbs produceBody revokeSuccs removePred installPreds installPred Node.predsInsert Node.predsRemove
  Node.ty initSt topLoc opSet setCell dirtyAlloc dirtyPredsTop dirtyPreds dirtyLoop dirtyObserver dirtyStop checkForceMapDep
  Node.predsObs Node.predsAlloc cleanForceBody cleanLoop cleanDep succDirty setSuccDirty Succ.matches setFirst step recN
  tableClean cleanCount Node.succsList dirtyAllocLoop dirtyAllocator loc env code build Op.prog Macros.get thunkBody optChoice

/-- The state of the engine after a history. -/
def st (unit : V) (h : Hist V) (purity : Bool) (log : List Ev) (runs : List Loc) : St V :=
  ⟨match h.image with
    | none => [(loc P, .mut ⟨0, [], h.content⟩), (loc T, .comp ⟨0, [], [], pt "body", 1, unit, none⟩)]
    | some r => [(loc P, .mut ⟨0, [⟨loc T, .observe, some (.forceMap 0 proj r)⟩], h.content⟩),
        (loc T, .comp ⟨0, [], [⟨h.stale, loc P, .observe, .forceMap 0 proj r⟩], pt "body", 1, unit, some (post r)⟩)],
    [], .empty, purity, false, log, runs⟩

/-- The histories that occur. -/
structure Hist.Ok (h : Hist V) : Prop where
  fresh : h.image = none → h.stale = false
  clean : ∀ r, h.image = some r → h.stale = false → r = proj h.content

theorem Hist.Ok.after {h : Hist V} (hk : h.Ok proj) (op : Op V) : (h.after proj op).Ok proj := by
  obtain ⟨c, i, s⟩ := h
  obtain ⟨h1, h2⟩ := hk
  simp only at h1 h2
  cases op with
  | get => exact ⟨fun h => by simp [Hist.after] at h, fun r h _ => by simp [Hist.after] at h ⊢; exact h.symm⟩
  | set v =>
    constructor
    · intro h
      simp only [Hist.after] at h ⊢
      subst h
      simp [h1 rfl]
    · intro r h hs
      simp only [Hist.after] at h hs ⊢
      subst h
      simpa using (Bool.or_eq_false_iff.1 hs).2

/-- The traces of an operation. -/
def traces (h : Hist V) : Op V → List Tree
  | .set v => if h.dirties proj (.set v) then [.node .dirty (some (loc T)) (loc P) []] else []
  | .get =>
    if h.image = none then [.node (.force .compCacheMiss) none (loc T) [.node (.force .refGet) (some (loc T)) (loc P) []]]
    else if h.stale then
      if h.reruns proj .get then
        [.node (.force .compCacheHit) none (loc T) [.node .cleanRec (some (loc T)) (loc P) [.node .cleanEval (some (loc T)) (loc P)
          [.node .remove (some (loc T)) (loc P) [], .node (.force .refGet) (some (loc T)) (loc P) []]]]]
      else [.node (.force .compCacheHit) none (loc T) [.node .cleanRec (some (loc T)) (loc P) [.node .cleanEdge (some (loc T)) (loc P) []]]]
    else [.node (.force .compCacheHit) none (loc T) []]

/-- The events of a trace. -/
def evs : Hist V → Op V → List Ev := fun h op => match op with
  | .set v => if h.dirties proj (.set v) then [.begin .dirty (some (loc T)) (loc P), .end_] else []
  | .get =>
    if h.image = none then [.begin (.force .compCacheMiss) none (loc T), .eff (.force .refGet) (some (loc T)) (loc P), .end_]
    else if h.stale then
      if h.reruns proj .get then
        [.begin (.force .compCacheHit) none (loc T), .begin .cleanRec (some (loc T)) (loc P), .begin .cleanEval (some (loc T)) (loc P),
          .eff .remove (some (loc T)) (loc P), .eff (.force .refGet) (some (loc T)) (loc P), .end_, .end_, .end_]
      else [.begin (.force .compCacheHit) none (loc T), .begin .cleanRec (some (loc T)) (loc P), .eff .cleanEdge (some (loc T)) (loc P), .end_, .end_]
    else [.begin (.force .compCacheHit) none (loc T), .end_]

theorem op_step (hPT : P ≠ T) (unit : V) (hv : V → UInt64) (ha : ProgPt → V → UInt64) (n : Nat) (h : Hist V) (hk : h.Ok proj) (op : Op V) (purity : Bool) (log : List Ev) (runs : List Loc) :
    exec (env P proj post hv ha) (n + 4) (op.prog P T unit) (st pt P T proj post unit h purity log runs) =
      .ok (h.answer proj post unit op) (st pt P T proj post unit (h.after proj op) purity ((evs P T proj h op).reverse ++ log)
        ((if h.runs proj op then [loc T] else []) ++ runs)) := by
  obtain ⟨c, i, s⟩ := h
  obtain ⟨h1, h2⟩ := hk
  simp only at h1 h2
  have hTP := Ne.symm hPT
  cases i with
  | none =>
    obtain rfl := h1 rfl
    cases op with
    | set v =>
      by_cases e : c = v
      · subst e; simp [st, Hist.after, Hist.answer, evs, Hist.dirties, Hist.runs, hPT, hTP]
      · simp [st, Hist.after, Hist.answer, evs, Hist.dirties, Hist.runs, hPT, hTP, e]
    | get => simp [st, Hist.after, Hist.answer, evs, Hist.dirties, Hist.runs, hPT, hTP]
  | some r =>
    cases s with
    | false =>
      obtain rfl := h2 r rfl rfl
      cases op with
      | set v =>
        by_cases e : c = v
        · subst e; simp [st, Hist.after, Hist.answer, evs, Hist.dirties, Hist.runs, hPT, hTP]
        · by_cases e2 : proj c = proj v
          · simp [st, Hist.after, Hist.answer, evs, Hist.dirties, Hist.runs, hPT, hTP, e, e2]
          · simp [st, Hist.after, Hist.answer, evs, Hist.dirties, Hist.runs, hPT, hTP, e, e2]
      | get => simp [st, Hist.after, Hist.answer, evs, Hist.dirties, Hist.runs, hPT, hTP]
    | true =>
      cases op with
      | set v =>
        by_cases e : c = v
        · subst e; simp [st, Hist.after, Hist.answer, evs, Hist.dirties, Hist.runs, hPT, hTP]
        · by_cases e2 : r = proj v
          · simp [st, Hist.after, Hist.answer, evs, Hist.dirties, Hist.runs, hPT, hTP, e, e2]
          · simp [st, Hist.after, Hist.answer, evs, Hist.dirties, Hist.runs, hPT, hTP, e, e2]
      | get =>
        by_cases e2 : r = proj c
        · simp [st, Hist.after, Hist.answer, evs, Hist.dirties, Hist.runs, Hist.reruns, hPT, hTP, e2]
        · simp [st, Hist.after, Hist.answer, evs, Hist.dirties, Hist.runs, Hist.reruns, hPT, hTP, e2]

theorem evs_parses (h : Hist V) (op : Op V) : Parses (evs P T proj h op) (traces P T proj h op) := by
  have e0 : ∀ (e : TEff) (a : Option Loc) (b : Loc), Parses [.begin e a b, .end_] [.node e a b []] := fun e a b => .ext (inner := []) (rest := []) .nil .nil
  cases op with
  | set v =>
    by_cases hd : h.dirties proj (.set v) = true
    · simp only [evs, traces, if_pos hd]; exact e0 _ _ _
    · simp only [evs, traces, if_neg hd]; exact .nil
  | get =>
    simp only [evs, traces]
    by_cases h1 : h.image = none
    · rw [if_pos h1, if_pos h1]
      exact .ext (inner := [.eff _ _ _]) (rest := []) (.eff .nil) .nil
    · rw [if_neg h1, if_neg h1]
      by_cases h2 : h.stale = true
      · rw [if_pos h2, if_pos h2]
        by_cases h3 : h.reruns proj .get = true
        · rw [if_pos h3, if_pos h3]
          exact .ext (inner := [.begin _ _ _, .begin _ _ _, .eff _ _ _, .eff _ _ _, .end_, .end_]) (rest := [])
            (.ext (inner := [.begin _ _ _, .eff _ _ _, .eff _ _ _, .end_]) (rest := []) (.ext (inner := [.eff _ _ _, .eff _ _ _]) (rest := []) (.eff (.eff .nil)) .nil) .nil) .nil
        · rw [if_neg h3, if_neg h3]
          exact .ext (inner := [.begin _ _ _, .eff _ _ _, .end_]) (rest := []) (.ext (inner := [.eff _ _ _]) (rest := []) (.eff .nil) .nil) .nil
      · rw [if_neg h2, if_neg h2]; exact e0 _ _ _

theorem history (hPT : P ≠ T) (unit : V) (hv : V → UInt64) (ha : ProgPt → V → UInt64) (n : Nat) (purity : Bool) : ∀ (ops : List (Op V)) (h : Hist V) (hk : h.Ok proj) (log : List Ev) (runs : List Loc),
    ∃ (h' : Hist V) (es : List Ev), runSession (env P proj post hv ha) (n + 4) (ops.map (Op.prog P T unit)) (st pt P T proj post unit h purity log runs) =
        .ok ((h.steps proj ops).map fun x => x.1.answer proj post unit x.2)
          (st pt P T proj post unit h' purity (es.reverse ++ log) (((h.steps proj ops).flatMap fun x => if x.1.runs proj x.2 then [loc T] else []).reverse ++ runs)) ∧
      Parses es ((h.steps proj ops).flatMap fun x => traces P T proj x.1 x.2) := by
  intro ops
  induction ops with
  | nil => intro h hk log runs; exact ⟨h, [], rfl, .nil⟩
  | cons op ops ih =>
    intro h hk log runs
    have h1 := op_step pt P T proj post hPT unit hv ha n h hk op purity log runs
    obtain ⟨h', es, g1, g2⟩ := ih (h.after proj op) (hk.after proj op) ((evs P T proj h op).reverse ++ log) ((if h.runs proj op then [loc T] else []) ++ runs)
    refine ⟨h', evs P T proj h op ++ es, ?_, by rw [Hist.steps, List.flatMap_cons]; exact (evs_parses P T proj h op).append g2⟩
    simp only [List.map_cons, runSession]
    rw [M.bind_ok (m := exec _ _ _) h1, M.bind_ok g1]
    rw [Hist.steps]
    simp only [M.pure_def, List.map_cons, List.flatMap_cons, List.reverse_append, List.append_assoc]
    by_cases hr : h.runs proj op = true
    · rw [if_pos hr]; rfl
    · rw [if_neg hr]; rfl

/-- Counting the traces of a history. -/
theorem count_traces (ops : List (Op V)) : ∀ (h : Hist V) (hk : h.Ok proj) (c : Count), countRecL .editor (toCL ((h.steps proj ops).flatMap fun x => traces P T proj x.1 x.2)) c =
    some { c with archivist := c.archivist + ops.countP Op.isGet, reevalNochange := c.reevalNochange + (h.steps proj ops).countP fun x => x.1.reruns proj x.2, cleanRec := c.cleanRec + (h.steps proj ops).countP fun x => x.1.checks x.2, dirty := (c.dirty.1 + (h.steps proj ops).countP fun x => x.1.dirties proj x.2, c.dirty.2) } := by
  induction ops with
  | nil => intro h hk c; rfl
  | cons op ops ih =>
    rintro h hk ⟨u, a, r1, r2, cl, ⟨d1, d2⟩, f, n1, c1⟩
    have ih := ih (h.after proj op) (hk.after proj op)
    rw [Hist.steps, List.flatMap_cons]
    generalize (h.after proj op).steps proj ops = rest at ih
    generalize (rest.flatMap fun x => traces P T proj x.1 x.2) = L at ih
    have happ : ∀ (x y : List Tree) (c : Count), countRecL .editor (toCL (x ++ y)) c = (countRecL .editor (toCL x) c).bind (countRecL .editor (toCL y)) := by
      intro x y
      induction x with
      | nil => intro c; rfl
      | cons t ts iht =>
        intro c
        show (countRec .editor t.toC c).bind (countRecL .editor (toCL (ts ++ y))) = ((countRec .editor t.toC c).bind (countRecL .editor (toCL ts))).bind _
        cases countRec .editor t.toC c with
        | none => rfl
        | some c => exact iht c
    rw [happ]
    cases op with
    | set v =>
      by_cases hd : h.dirties proj (.set v) = true
      · simp [traces, hd, toCL, Tree.toC, countRecL, countRec, countDirty, countDirtyL, ih, bump, Op.isGet, Hist.reruns, Hist.checks]; omega
      · simp [traces, hd, toCL, Tree.toC, countRecL, countRec, countDirty, countDirtyL, ih, bump, Op.isGet, Hist.reruns, Hist.checks]
    | get =>
      obtain ⟨co, im, st⟩ := h
      obtain ⟨k1, k2⟩ := hk
      simp only at k1 k2
      cases im with
      | none =>
        obtain rfl := k1 rfl
        simp [traces, toCL, Tree.toC, countRecL, countRec, countDirtyL, ih, bump, List.countP_cons, Op.isGet, Hist.reruns, Hist.checks, Hist.dirties]; omega
      | some r =>
        cases st with
        | false =>
          obtain rfl := k2 r rfl rfl
          simp [traces, toCL, Tree.toC, countRecL, countRec, countDirtyL, ih, bump, List.countP_cons, Op.isGet, Hist.reruns, Hist.checks, Hist.dirties]; omega
        | true =>
          by_cases e : r = proj co
          · simp [traces, toCL, Tree.toC, countRecL, countRec, countDirtyL, ih, bump, List.countP_cons, Op.isGet, Hist.reruns, Hist.checks, Hist.dirties, e]; omega
          · simp [traces, toCL, Tree.toC, countRecL, countRec, countDirtyL, ih, bump, List.countP_cons, Op.isGet, Hist.reruns, Hist.checks, Hist.dirties, e, isChange, CTree.eff]; omega

/-! ### C84 -/

/-- **C84.** The example for all histories: every demand returns what follows from the projection of the current content; the thunk runs at the first
demand and at those where the projection is not that of the last one, and nothing else runs; `trace_count` of the whole trace counts two fresh
allocations, a dirtying for every `Hist.dirties`, a check for every demand of a dirty thunk, a re-evaluation for every demand where the projection has
changed, and nothing else. -/
theorem C84_force_map (hPT : P ≠ T) (unit v : V) (ops : List (Op V)) (hv : V → UInt64) (ha : ProgPt → V → UInt64) (n : Nat) (purity : Bool) (total : Option Nat) :
    let hs := (⟨v, none, false⟩ : Hist V).steps proj ops
    ∃ s tr ts, runSession (env P proj post hv ha) (n + 4) (build pt P T v unit :: ops.map (Op.prog P T unit)) (initSt purity false) =
        .ok (unit :: hs.map fun x => x.1.answer proj post unit x.2) s ∧
      s.runs.reverse = (hs.flatMap fun x => if x.1.runs proj x.2 then [loc T] else []) ∧
      runs s.log.reverse [[]] = some tr ∧ reflectEnd (some tr) = some (none, ts) ∧
      traceCount (toCL ts) total = some { updates := total.getD 1, archivist := ops.countP Op.isGet, reevalNochange := hs.countP (fun x => x.1.reruns proj x.2), reevalChange := 0, cleanRec := hs.countP (fun x => x.1.checks x.2), dirty := (hs.countP (fun x => x.1.dirties proj x.2), 0), fresh := (2, 0), nochange := (0, 0), change := (0, 0) } := by
  intro hs
  have hk : (⟨v, none, false⟩ : Hist V).Ok proj := ⟨fun _ => rfl, fun r h => by cases h⟩
  have h0 : exec (env P proj post hv ha) (n + 4) (build pt P T v unit) (initSt purity false) = .ok unit (st pt P T proj post unit ⟨v, none, false⟩ purity
      [.end_, .begin (.alloc .locFresh .thunk) none (loc T), .end_, .begin (.alloc .locFresh .refCell) none (loc P)] []) := by
    simp [st, hPT, Ne.symm hPT]
  obtain ⟨h', es, g1, g2⟩ := history pt P T proj post hPT unit hv ha n purity ops _ hk
    [.end_, .begin (.alloc .locFresh .thunk) none (loc T), .end_, .begin (.alloc .locFresh .refCell) none (loc P)] []
  have g3 : Parses ([.begin (.alloc .locFresh .refCell) none (loc P), .end_, .begin (.alloc .locFresh .thunk) none (loc T), .end_] ++ es)
      ([.node (.alloc .locFresh .refCell) none (loc P) [], .node (.alloc .locFresh .thunk) none (loc T) []] ++ hs.flatMap fun x => traces P T proj x.1 x.2) :=
    Parses.append (.ext (inner := []) (rest := [.begin _ _ _, .end_]) .nil (.ext (inner := []) (rest := []) .nil .nil)) g2
  have hr := runs_parses g3 [] [] []
  have hrun := fun {vs s} (g : runSession (env P proj post hv ha) (n + 4) (ops.map (Op.prog P T unit)) _ = .ok vs s) =>
    show runSession (env P proj post hv ha) (n + 4) (build pt P T v unit :: ops.map (Op.prog P T unit)) (initSt purity false) = .ok (unit :: vs) s by
      simp only [runSession]
      rw [M.bind_ok (m := exec _ _ _) h0, M.bind_ok g]; rfl
  have hrun := hrun g1
  refine ⟨_, [([Tree.node (.alloc .locFresh .refCell) none (loc P) [], .node (.alloc .locFresh .thunk) none (loc T) []] ++ hs.flatMap fun (x : Hist V × Op V) => traces P T proj x.1 x.2).reverse], _, hrun, ?_, ?_, rfl, ?_⟩
  · simp [st]; rfl
  · rw [show ([Ev.begin (.alloc .locFresh .refCell) none (loc P), .end_, .begin (.alloc .locFresh .thunk) none (loc T), .end_] ++ es ++ []) =
        (es.reverse ++ [Ev.end_, .begin (.alloc .locFresh .thunk) none (loc T), .end_, .begin (.alloc .locFresh .refCell) none (loc P)]).reverse from by simp] at hr
    rw [List.append_nil] at hr
    exact hr
  · rw [List.reverse_reverse]
    show countRecL .editor (toCL ([.node (.alloc .locFresh .refCell) none (loc P) [], .node (.alloc .locFresh .thunk) none (loc T) []] ++ hs.flatMap fun x => traces P T proj x.1 x.2)) _ = _
    have := count_traces P T proj ops ⟨v, none, false⟩ hk { Count.zero with updates := total.getD 1, fresh := (2, 0) }
    simp only [List.cons_append, List.nil_append, toCL, Tree.toC, countRecL, countRec, Option.bind_some]
    exact this.trans (by simp [Count.zero, hs])

/-- What the documentation says, lib.rs:569-571, for all histories: as long as the edits do not change the projection, nothing is dirtied and nothing is
run again. -/
theorem C84_same_projection (v : V) (ops : List (Op V)) (hsame : ∀ w, Op.set w ∈ ops → proj w = proj v) :
    ∀ x ∈ (⟨v, none, false⟩ : Hist V).steps proj ops, x.1.dirties proj x.2 = false ∧ x.1.checks x.2 = false ∧ x.1.reruns proj x.2 = false := by
  have key : ∀ (ops : List (Op V)) (h : Hist V), (∀ w, Op.set w ∈ ops → proj w = proj v) → proj h.content = proj v → (∀ r, h.image = some r → r = proj v) → h.stale = false →
      ∀ x ∈ h.steps proj ops, x.1.dirties proj x.2 = false ∧ x.1.checks x.2 = false ∧ x.1.reruns proj x.2 = false := by
    intro ops
    induction ops with
    | nil => intro h _ _ _ _ x hx; cases hx
    | cons op ops ih =>
      intro h hs hc hi hst x hx
      have hs' : ∀ w, Op.set w ∈ ops → proj w = proj v := fun w hw => hs w (List.mem_cons_of_mem _ hw)
      have hany : ∀ w, proj w = proj v → (h.image.any fun r => r ≠ proj w) = false := by
        intro w hw
        cases him : h.image with
        | none => rfl
        | some r => simp [hi r him, hw]
      rcases List.mem_cons.1 hx with rfl | hx
      · cases op with
        | set w => exact ⟨by simp only [Hist.dirties, hany w (hs w (List.mem_cons_self ..)), Bool.and_false], rfl, rfl⟩
        | get => exact ⟨rfl, hst, hany _ hc⟩
      · refine ih _ hs' ?_ ?_ ?_ x hx
        · cases op with
          | set w => exact hs w (List.mem_cons_self ..)
          | get => exact hc
        · cases op with
          | set w => exact hi
          | get => intro r hr; cases hr; exact hc
        · cases op with
          | set w => simp only [Hist.after, hst, hany w (hs w (List.mem_cons_self ..)), Bool.or_self]
          | get => rfl
  exact key ops ⟨v, none, false⟩ hsame rfl (fun r h => by cases h) rfl

/-- The session of the documentation (lib.rs:588-610) extended by two edits of the first component and an edit back: the answers, and for each operation
whether it dirties, checks, re-evaluates. -/
example : ((⟨(1234, 5678), none, false⟩ : Hist (Nat × Nat)).steps (fun x => (x.1, 0))
      [.get, .set (1234, 8765), .get, .set (1, 0), .set (2, 0), .get, .set (3, 0), .set (2, 7), .get]).map
      (fun x => (x.1.answer (fun x => (x.1, 0)) (fun x => (x.1 + 100, 0)) (0, 0) x.2, x.1.dirties (fun x => (x.1, 0)) x.2, x.1.checks x.2, x.1.reruns (fun x => (x.1, 0)) x.2)) =
    [((1334, 0), false, false, false), ((0, 0), false, false, false), ((1334, 0), false, false, false), ((0, 0), true, false, false), ((0, 0), false, false, false),
      ((102, 0), false, true, true), ((0, 0), true, false, false), ((0, 0), false, false, false), ((102, 0), false, true, false)] := by decide +kernel

end Adapton.ForceMapCount
