import Verif.Props.Macros
/-
C72: the "Nominal Firewalls" example of the documentation (/repo/src/lib.rs:867-1005), for all contents of the input cell, all functions in place of
squaring and formatting, and all histories of edits and demands.
-/
set_option linter.unusedSectionVars false
set_option linter.unusedVariables false
set_option linter.unusedSimpArgs false
namespace Adapton.Firewall
open Adapton Macros
variable {V : Type} [DecidableEq V] (H : NameHash) (pt : String → ProgPt)

/-! ### The program -/

/-- The articulation named `s`. -/
def loc (s : String) : Loc := ⟨.empty, .nominal (nameOfStr H s)⟩

/-- lib.rs:889-897.  Closure 1 is the body of `f`, closure 2 that of `g`, closure 3 that of `h`.  `sq` stands for `x * x`, `fmt` for `format!`, `bArt`
for the articulation `b` as a value: all that is known of it is that it is always the same. -/
def code (sq fmt : V → V) (unit bArt : V) : FnId → V → Prog V
  | 1, _ => letMemo H pt 0 "g" "" 2 unit fun _ _ => letMemo H pt 0 "h" "" 3 unit fun _ c => .ret c
  | 2, _ => get 0 (loc H "a") fun x => cellNamed H 0 "b" (sq x) fun _ => .ret bArt
  | 3, _ => get 0 (loc H "b") fun x => .ret (fmt x)
  | _, _ => .panic

def env (sq fmt : V → V) (unit bArt : V) (hv : V → UInt64) (ha : ProgPt → V → UInt64) : Env V := ⟨code H pt sq fmt unit bArt, hv, ha⟩

/-- `demand_graph`, lib.rs:889-897. -/
def demandGraph (unit : V) : Prog V := letMemo H pt 0 "f" "" 1 unit fun _ d => .ret d
/-- The editor gives `a` the content `y`: `let_cell!{a = y; a}`. -/
def edit (y unit : V) : Prog V := letCell H 0 "a" y fun _ => .ret unit
/-- The first run: `demand_graph(let_cell!{a = x; a})`, lib.rs:957. -/
def run (x unit : V) : Prog V := letCell H 0 "a" x fun _ => demandGraph H pt unit

/-! ### Specification -/

/-- What the editor does after the first run. -/
inductive Op (V : Type) where
  | edit (y : V)
  | demand

def Op.prog (unit : V) : Op V → Prog V
  | .edit y => Firewall.edit H y unit
  | .demand => demandGraph H pt unit

/-- The content of `a` after the history, if it is `y` before. -/
def now (y : V) : List (Op V) → V
  | [] => y
  | .edit z :: ops => now z ops
  | .demand :: ops => now y ops

/-- The content of `a` at the last demand of the history, if it is `y` now and was `x` at the last demand before. -/
def seen (y x : V) : List (Op V) → V
  | [] => x
  | .edit z :: ops => seen z x ops
  | .demand :: ops => seen y y ops

/-- What the operations return: a demand returns the string for the square of the current content. -/
def answers (sq fmt : V → V) (unit : V) (y : V) : List (Op V) → List V
  | [] => []
  | .edit z :: ops => unit :: answers sq fmt unit z ops
  | .demand :: ops => fmt (sq y) :: answers sq fmt unit y ops

/-- What a demand runs (the last first), if the content is `y` and was `x` at the last demand. -/
def ran (sq fmt : V → V) (y x : V) : List Loc :=
  if y = x then [] else if sq y = sq x then [loc H "g"] else if fmt (sq y) = fmt (sq x) then [loc H "h", loc H "g"] else [loc H "f", loc H "h", loc H "g"]

/-- The event has `l` as its source or its target. -/
def mentions (l : Loc) : Ev → Bool
  | .begin _ src tgt => decide (src = some l ∨ tgt = l)
  | .eff _ src tgt => decide (src = some l ∨ tgt = l)
  | .end_ => false

/-- The thunk `l` has a dirty dependency. -/
def IsDirty (s : St V) (l : Loc) : Prop := ∃ nd, s.table.get l = some (.comp nd) ∧ ∃ e ∈ nd.succs, e.dirty = true

/-! ### Proof -/

attribute [local simp] ueq_eq runSession exec runProg opCell opForce opThunk thunkNominal cellTable cellRecord
  M.bind_def M.pure_def M.modify_def M.get_def M.panic_def evBegin evEnd evEff recordEdge putNode Table.get Table.put resNode
  lookupAbs produceBody revokeSuccs removePred installPreds installPred Node.predsInsert Node.predsRemove
  Node.ty initSt topLoc opSet setCell dirtyAlloc dirtyPredsTop dirtyPreds dirtyLoop dirtyObserver dirtyStop checkForceMapDep
  Node.predsObs Node.predsAlloc cleanForceBody cleanLoop cleanDep succDirty setSuccDirty Succ.matches setFirst step recN
  tableClean cleanCount Node.succsList dirtyAllocLoop dirtyAllocator loc env code demandGraph run letMemo letCell cellNamed thunkNamedBody Macros.get nameOfStr


/-- The table: `a` holds `y`, the last demand was made when it held `x`; `d`: the dependencies on `a` are dirty; `o`: the order of the two edges that
end at `b`. -/
def tbl (sq fmt : V → V) (unit bArt : V) (o d : Bool) (y x : V) : Table V :=
  [ (loc H "a", .mut ⟨0, [⟨loc H "g", .observe, none⟩], y⟩),
    (loc H "f", .comp ⟨0, [], [⟨false, loc H "g", .allocate, .allocNom unit⟩, ⟨d, loc H "g", .observe, .force 0 bArt⟩,
      ⟨false, loc H "h", .allocate, .allocNom unit⟩, ⟨false, loc H "h", .observe, .force 0 (fmt (sq x))⟩], pt "$fun", 1, unit, some (fmt (sq x))⟩),
    (loc H "g", .comp ⟨0, [⟨loc H "f", .allocate, none⟩, ⟨loc H "f", .observe, none⟩],
      [⟨d, loc H "a", .observe, .force 0 x⟩, ⟨false, loc H "b", .allocate, .allocCell (sq x)⟩], pt "$fun", 2, unit, some bArt⟩),
    (loc H "b", .mut ⟨0, if o then [⟨loc H "g", .allocate, none⟩, ⟨loc H "h", .observe, none⟩]
      else [⟨loc H "h", .observe, none⟩, ⟨loc H "g", .allocate, none⟩], sq x⟩),
    (loc H "h", .comp ⟨0, [⟨loc H "f", .allocate, none⟩, ⟨loc H "f", .observe, none⟩],
      [⟨false, loc H "b", .observe, .force 0 (sq x)⟩], pt "$fun", 3, unit, some (fmt (sq x))⟩)]


def st (sq fmt : V → V) (unit bArt : V) (o d : Bool) (y x : V) (purity : Bool) (log : List Ev) (runs : List Loc) : St V :=
  ⟨tbl H pt sq fmt unit bArt o d y x, [], .empty, purity, false, log, runs⟩

variable (sq fmt : V → V) (unit bArt : V) (hv : V → UInt64) (ha : ProgPt → V → UInt64)

attribute [local simp] tbl st edit cellDiff mentions

theorem edit_step (o d : Bool) (y x z : V) (purity : Bool) (log : List Ev) (runs : List Loc) (n : Nat) (hd : d = false → y = x) :
    ∃ log', exec (env H pt sq fmt unit bArt hv ha) (n + 8) (edit H z unit) (st H pt sq fmt unit bArt o d y x purity log runs) =
      .ok unit (st H pt sq fmt unit bArt o (d || decide (y ≠ z)) z x purity log' runs) ∧
        log'.countP (mentions (loc H "h")) = log.countP (mentions (loc H "h")) := by
  by_cases hyz : y = z
  · subst hyz
    simp
  · cases d
    · obtain rfl := hd rfl
      simp [hyz, Ne.symm hyz]
    · simp [hyz]

theorem demand_clean (o : Bool) (x : V) (purity : Bool) (log : List Ev) (runs : List Loc) (n : Nat) :
    ∃ log', exec (env H pt sq fmt unit bArt hv ha) (n + 8) (demandGraph H pt unit) (st H pt sq fmt unit bArt o false x x purity log runs) =
      .ok (fmt (sq x)) (st H pt sq fmt unit bArt o false x x purity log' runs) ∧
        log'.countP (mentions (loc H "h")) = log.countP (mentions (loc H "h")) := by
  simp

theorem demand_undo (o : Bool) (x : V) (purity : Bool) (log : List Ev) (runs : List Loc) (n : Nat) :
    ∃ log', exec (env H pt sq fmt unit bArt hv ha) (n + 8) (demandGraph H pt unit) (st H pt sq fmt unit bArt o true x x purity log runs) =
      .ok (fmt (sq x)) (st H pt sq fmt unit bArt o false x x purity log' runs) ∧
        log'.countP (mentions (loc H "h")) = log.countP (mentions (loc H "h")) := by
  simp

theorem demand_g (o : Bool) (y x : V) (hyx : y ≠ x) (hs : sq y = sq x) (purity : Bool) (log : List Ev) (runs : List Loc) (n : Nat) :
    ∃ log', exec (env H pt sq fmt unit bArt hv ha) (n + 8) (demandGraph H pt unit) (st H pt sq fmt unit bArt o true y x purity log runs) =
      .ok (fmt (sq x)) (st H pt sq fmt unit bArt false false y y purity log' (loc H "g" :: runs)) ∧ log'.countP (mentions (loc H "h")) = log.countP (mentions (loc H "h")) := by
  cases o <;> simp [hyx, hs, Ne.symm hyx]


theorem demand_gh (o : Bool) (y x : V) (hyx : y ≠ x) (hs : sq y ≠ sq x) (hf : fmt (sq y) = fmt (sq x)) (purity : Bool) (log : List Ev) (runs : List Loc) (n : Nat) :
    ∃ log', exec (env H pt sq fmt unit bArt hv ha) (n + 8) (demandGraph H pt unit) (st H pt sq fmt unit bArt o true y x purity log runs) =
      .ok (fmt (sq x)) (st H pt sq fmt unit bArt true false y y purity log' (loc H "h" :: loc H "g" :: runs)) := by
  cases o <;> simp [hyx, hs, Ne.symm hyx, Ne.symm hs, hf]

theorem demand_ghf (o : Bool) (y x : V) (hyx : y ≠ x) (hs : sq y ≠ sq x) (hf : fmt (sq y) ≠ fmt (sq x)) (purity : Bool) (log : List Ev) (runs : List Loc) (n : Nat) :
    ∃ log', exec (env H pt sq fmt unit bArt hv ha) (n + 8) (demandGraph H pt unit) (st H pt sq fmt unit bArt o true y x purity log runs) =
      .ok (fmt (sq y)) (st H pt sq fmt unit bArt true false y y purity log' (loc H "f" :: loc H "h" :: loc H "g" :: runs)) := by
  cases o <;> simp [hyx, hs, Ne.symm hyx, Ne.symm hs, hf, Ne.symm hf]

theorem first_run (x : V) (purity : Bool) (n : Nat) :
    ∃ log', exec (env H pt sq fmt unit bArt hv ha) (n + 8) (run H pt x unit) (initSt purity false) =
      .ok (fmt (sq x)) (st H pt sq fmt unit bArt true false x x purity log' [loc H "h", loc H "g", loc H "f"]) := by
  simp


/-- The editor's view of the state after a history. -/
structure After (y x : V) (s : St V) (purity : Bool) : Prop where
  state : ∃ o d log runs, s = st H pt sq fmt unit bArt o d y x purity log runs ∧ (d = false → y = x)

theorem demand_step (y x : V) (s : St V) (purity : Bool) (h : After H pt sq fmt unit bArt y x s purity) (n : Nat) :
    ∃ s', exec (env H pt sq fmt unit bArt hv ha) (n + 8) (demandGraph H pt unit) s = .ok (fmt (sq y)) s' ∧ s'.runs = ran H sq fmt y x ++ s.runs ∧
      (sq y = sq x → s'.log.countP (mentions (loc H "h")) = s.log.countP (mentions (loc H "h"))) ∧ After H pt sq fmt unit bArt y y s' purity := by
  obtain ⟨o, d, log, runs, rfl, hd⟩ := h
  by_cases hyx : y = x
  · subst hyx
    cases d
    · obtain ⟨log', h1, h2⟩ := demand_clean H pt sq fmt unit bArt hv ha o y purity log runs n
      exact ⟨_, h1, by rw [ran, if_pos rfl]; rfl, fun _ => h2, ⟨_, _, _, _, rfl, fun _ => rfl⟩⟩
    · obtain ⟨log', h1, h2⟩ := demand_undo H pt sq fmt unit bArt hv ha o y purity log runs n
      exact ⟨_, h1, by rw [ran, if_pos rfl]; rfl, fun _ => h2, ⟨_, _, _, _, rfl, fun _ => rfl⟩⟩
  · obtain rfl : d = true := by cases d; exact absurd (hd rfl) hyx; rfl
    by_cases hs : sq y = sq x
    · obtain ⟨log', h1, h2⟩ := demand_g H pt sq fmt unit bArt hv ha o y x hyx hs purity log runs n
      exact ⟨_, by rw [hs]; exact h1, by rw [ran, if_neg hyx, if_pos hs]; rfl, fun _ => h2, ⟨_, _, _, _, rfl, fun _ => rfl⟩⟩
    · by_cases hf : fmt (sq y) = fmt (sq x)
      · obtain ⟨log', h1⟩ := demand_gh H pt sq fmt unit bArt hv ha o y x hyx hs hf purity log runs n
        exact ⟨_, by rw [hf]; exact h1, by rw [ran, if_neg hyx, if_neg hs, if_pos hf]; rfl, fun h => absurd h hs, ⟨_, _, _, _, rfl, fun _ => rfl⟩⟩
      · obtain ⟨log', h1⟩ := demand_ghf H pt sq fmt unit bArt hv ha o y x hyx hs hf purity log runs n
        exact ⟨_, h1, by rw [ran, if_neg hyx, if_neg hs, if_neg hf]; rfl, fun h => absurd h hs, ⟨_, _, _, _, rfl, fun _ => rfl⟩⟩

theorem edit_after (y x z : V) (s : St V) (purity : Bool) (h : After H pt sq fmt unit bArt y x s purity) (n : Nat) :
    ∃ s', exec (env H pt sq fmt unit bArt hv ha) (n + 8) (edit H z unit) s = .ok unit s' ∧ s'.runs = s.runs ∧
      s'.log.countP (mentions (loc H "h")) = s.log.countP (mentions (loc H "h")) ∧ After H pt sq fmt unit bArt z x s' purity := by
  obtain ⟨o, d, log, runs, rfl, hd⟩ := h
  obtain ⟨log', h1, h2⟩ := edit_step H pt sq fmt unit bArt hv ha o d y x z purity log runs n hd
  refine ⟨_, h1, rfl, h2, ⟨_, _, _, _, rfl, fun hh => ?_⟩⟩
  rw [Bool.or_eq_false_iff] at hh
  have : y = z := by
    have := hh.2
    simp at this
    exact this
  rw [← this]; exact hd hh.1

theorem history (n : Nat) (purity : Bool) : ∀ (ops : List (Op V)) (y x : V) (s : St V), After H pt sq fmt unit bArt y x s purity →
    ∃ s', runSession (env H pt sq fmt unit bArt hv ha) (n + 8) (ops.map (Op.prog H pt unit)) s = .ok (answers sq fmt unit y ops) s' ∧
      After H pt sq fmt unit bArt (now y ops) (seen y x ops) s' purity := by
  intro ops
  induction ops with
  | nil => intro y x s h; exact ⟨s, rfl, h⟩
  | cons op ops ih =>
    intro y x s h
    simp only [List.map_cons, runSession]
    cases op with
    | edit z =>
      obtain ⟨s1, h1, _, _, h2⟩ := edit_after H pt sq fmt unit bArt hv ha y x z s purity h n
      obtain ⟨s2, h3, h4⟩ := ih z x s1 h2
      refine ⟨s2, ?_, h4⟩
      simp only [Op.prog]
      rw [M.bind_ok (m := exec _ _ _) h1, M.bind_ok h3]; rfl
    | demand =>
      obtain ⟨s1, h1, _, _, h2⟩ := demand_step H pt sq fmt unit bArt hv ha y x s purity h n
      obtain ⟨s2, h3, h4⟩ := ih y y s1 h2
      refine ⟨s2, ?_, h4⟩
      simp only [Op.prog]
      rw [M.bind_ok (m := exec _ _ _) h1, M.bind_ok h3]; rfl

theorem session (x : V) (ops : List (Op V)) (n : Nat) (purity : Bool) :
    ∃ s, runSession (env H pt sq fmt unit bArt hv ha) (n + 8) (run H pt x unit :: ops.map (Op.prog H pt unit)) (initSt purity false) =
      .ok (fmt (sq x) :: answers sq fmt unit x ops) s ∧ After H pt sq fmt unit bArt (now x ops) (seen x x ops) s purity := by
  obtain ⟨log, h1⟩ := first_run H pt sq fmt unit bArt hv ha x purity n
  obtain ⟨s, h2, h3⟩ := history H pt sq fmt unit bArt hv ha n purity ops x x _ ⟨_, _, _, _, rfl, fun _ => rfl⟩
  refine ⟨s, ?_, h3⟩
  simp only [runSession]
  rw [M.bind_ok (m := exec _ _ _) h1, M.bind_ok h2]; rfl

/-! ### C72 -/

/-- **C72.** In every history of edits of `a` and demands of the graph, every demand returns the string for the square of the current content. -/
theorem C72_answers (x : V) (ops : List (Op V)) (n : Nat) (purity : Bool) :
    ∃ s, runSession (env H pt sq fmt unit bArt hv ha) (n + 8) (run H pt x unit :: ops.map (Op.prog H pt unit)) (initSt purity false) =
      .ok (fmt (sq x) :: answers sq fmt unit x ops) s := by
  obtain ⟨s, h, _⟩ := session H pt sq fmt unit bArt hv ha x ops n purity
  exact ⟨s, h⟩

/-- **C72.** After every history, an edit runs nothing and does not dirty `h`, whatever the content; if the content is not the one that the last
demand has seen, `f` and `g` are dirty. -/
theorem C72_edit_does_not_dirty_h (x : V) (ops : List (Op V)) (n : Nat) (purity : Bool) (vs : List V) (s : St V)
    (hr : runSession (env H pt sq fmt unit bArt hv ha) (n + 8) (run H pt x unit :: ops.map (Op.prog H pt unit)) (initSt purity false) = .ok vs s)
    (z : V) :
    ∃ s', exec (env H pt sq fmt unit bArt hv ha) (n + 8) (edit H z unit) s = .ok unit s' ∧ s'.runs = s.runs ∧
      s'.log.countP (mentions (loc H "h")) = s.log.countP (mentions (loc H "h")) ∧ ¬ IsDirty s' (loc H "h") ∧
      (z ≠ seen x x ops → IsDirty s' (loc H "f") ∧ IsDirty s' (loc H "g")) := by
  obtain ⟨s1, h1, h2⟩ := session H pt sq fmt unit bArt hv ha x ops n purity
  rw [h1] at hr; cases hr
  obtain ⟨s2, h3, h4, h5, h6⟩ := edit_after H pt sq fmt unit bArt hv ha _ _ z s purity h2 n
  refine ⟨s2, h3, h4, h5, ?_, ?_⟩
  · obtain ⟨o, d, log, runs, rfl, hd⟩ := h6
    rintro ⟨nd, g1, e, g2, g3⟩
    simp at g1
    subst g1
    simp at g2
    subst g2
    cases g3
  · intro hz
    obtain ⟨o, d, log, runs, rfl, hd⟩ := h6
    obtain rfl : d = true := by cases d; exact absurd (hd rfl) hz; rfl
    constructor
    · simp [IsDirty]
    · simp [IsDirty]

/-- **C72.** After every history, a demand runs `g` if the content is not the one that the last demand has seen, `h` if the square is another one,
`f` if the string is another one; in this order, and nothing else.  If the square is the same, `h` is neither dirtied nor cleaned nor forced: no
event of the trace mentions it. -/
theorem C72_demand_runs (x : V) (ops : List (Op V)) (n : Nat) (purity : Bool) (vs : List V) (s : St V)
    (hr : runSession (env H pt sq fmt unit bArt hv ha) (n + 8) (run H pt x unit :: ops.map (Op.prog H pt unit)) (initSt purity false) = .ok vs s) :
    ∃ s', exec (env H pt sq fmt unit bArt hv ha) (n + 8) (demandGraph H pt unit) s = .ok (fmt (sq (now x ops))) s' ∧
      s'.runs = ran H sq fmt (now x ops) (seen x x ops) ++ s.runs ∧
      (sq (now x ops) = sq (seen x x ops) → s'.log.countP (mentions (loc H "h")) = s.log.countP (mentions (loc H "h"))) := by
  obtain ⟨s1, h1, h2⟩ := session H pt sq fmt unit bArt hv ha x ops n purity
  rw [h1] at hr; cases hr
  obtain ⟨s2, h3, h4, h5, _⟩ := demand_step H pt sq fmt unit bArt hv ha _ _ s purity h2 n
  exact ⟨s2, h3, h4, h5⟩

/-- The three runs of the documentation (lib.rs:956-963), with `x * x` and decimal digits: what they return, and what the two demands run. -/
example : answers (V := Int) (fun x => x * x) id 0 2 [.edit (-2), .demand, .edit 3, .demand] = [0, 4, 0, 9] ∧
    ran H (fun x => x * x) id (-2 : Int) 2 = [loc H "g"] ∧ ran H (fun x => x * x) id (3 : Int) (-2) = [loc H "f", loc H "h", loc H "g"] :=
  ⟨rfl, rfl, rfl⟩

/-- The variant of lib.rs:995-998: "if we had placed the code for `format!("{:?}",get!(b))` in thunk `f`". -/
def codeAlt (sq fmt : V → V) (unit bArt : V) : FnId → V → Prog V
  | 1, _ => letMemo H pt 0 "g" "" 2 unit fun _ _ => get 0 (loc H "b") fun x => .ret (fmt x)
  | 2, _ => get 0 (loc H "a") fun x => cellNamed H 0 "b" (sq x) fun _ => .ret bArt
  | _, _ => .panic

/-- **C72 (the documentation is wrong here).** In the variant, "Adapton would have re-executed this step when `a` changes": it does not, if the square
is the same: `f` is dirtied, then found to be clean after `g` has run. -/
theorem C72_without_firewall (x y : V) (hxy : x ≠ y) (hs : sq x = sq y) (n : Nat) (purity : Bool) :
    ∃ s s', runSession ⟨codeAlt H pt sq fmt unit bArt, hv, ha⟩ (n + 8) [run H pt x unit, edit H y unit] (initSt purity false) = .ok [fmt (sq x), unit] s ∧
      IsDirty s (loc H "f") ∧
      exec ⟨codeAlt H pt sq fmt unit bArt, hv, ha⟩ (n + 8) (demandGraph H pt unit) s = .ok (fmt (sq y)) s' ∧ s'.runs = loc H "g" :: s.runs := by
  simp [codeAlt, IsDirty, hxy, Ne.symm hxy, hs]

end Adapton.Firewall
