import Verif.Props.Amortised
import Verif.Props.Rerun
import Verif.Props.Macros
import Verif.Props.Prune
/-
C93: the cost of cleaning.  A demand may examine edges before it trusts or re-runs a thunk.  In every history that has a meaning, each edge that is examined was dirty, is examined once, and is then
clean or gone: so cleaning examines no more edges than dirtying has walked over.  With C91, change propagation as a whole (dirtying and cleaning) is paid for by the demands that thunks make.
-/
set_option linter.unusedSectionVars false
set_option linter.unusedVariables false
set_option linter.unusedSimpArgs false
namespace Adapton
open Ref (Sig Means ES)
variable {V : Type}

section Spec
/-- The events of the trace that say that cleaning examines an edge (`begin clean_rec`, engine.rs:1005), counted independently of how the engine works. -/
def isExamined : Ev → Bool
  | .begin .cleanRec _ _ => true
  | _ => false
/-- The events of the trace that say that dirtying walks over an edge (`begin dirty`, engine.rs:1318 and 1340). -/
def isWalked : Ev → Bool
  | .begin .dirty _ _ => true
  | _ => false
/-- Edges examined by cleaning in a part of the trace. -/
def examined (tr : List Ev) : Nat := tr.countP isExamined
/-- Edges walked over by dirtying in a part of the trace. -/
def walked (tr : List Ev) : Nat := tr.countP isWalked
/-- The dirty edges of the graph. -/
def dirtyEdges (s : St V) : Nat := (s.table.map fun p => p.2.succsList.countP (·.dirty)).foldr (· + ·) 0
end Spec

theorem cleanRecs_eq (tr : List Ev) : cleanRecs tr = examined tr := by
  unfold examined
  induction tr with
  | nil => rfl
  | cons e tr ih =>
    rw [List.countP_cons, ← ih]
    cases e with
    | «begin» t a b => cases t <;> simp [cleanRecs, isExamined]
    | end_ => simp [cleanRecs, isExamined]
    | eff t a b => simp [cleanRecs, isExamined]

theorem dirtyVisits_eq (tr : List Ev) : dirtyVisits tr = walked tr := by
  unfold walked
  induction tr with
  | nil => rfl
  | cons e tr ih =>
    rw [List.countP_cons, ← ih]
    cases e with
    | «begin» t a b => cases t <;> simp [dirtyVisits, isWalked]
    | end_ => simp [dirtyVisits, isWalked]
    | eff t a b => simp [dirtyVisits, isWalked]

variable [DecidableEq V]

theorem dirtyCount_eq (es : List (Succ V)) : dirtyCount es = es.countP (·.dirty) := by
  induction es with
  | nil => rfl
  | cons e es ih => rw [List.countP_cons, dirtyCount, ih]; omega

theorem tableDirty_eq (s : St V) : tableDirty s.table = dirtyEdges s := by
  unfold dirtyEdges
  induction s.table with
  | nil => rfl
  | cons p t ih => simp only [tableDirty, List.map_cons, List.foldr_cons, ih, dirtyCount_eq]

theorem Ref.session_split {sig : Sig} {env : Env V} {n : Nat} (qs : List (Prog V)) : ∀ (ps : List (Prog V)) (us : List V) (e e2 : ES V),
    Ref.session sig env n (ps ++ qs) e = some (e2, us) →
    ∃ e1 vs ws, Ref.session sig env n ps e = some (e1, vs) ∧ Ref.session sig env n qs e1 = some (e2, ws) ∧ us = vs ++ ws := by
  intro ps
  induction ps with
  | nil => intro us e e2 h; exact ⟨e, [], us, rfl, h, rfl⟩
  | cons p ps ih =>
    intro us e e2 h
    simp only [List.cons_append, Ref.session] at h ⊢
    rcases h1 : Ref.evalEd sig env (Ref.recN sig env n) (Ref.callEN sig env n) sig.mode .empty p e with _ | ⟨e1, v⟩
    · rw [h1] at h; cases h
    · rw [h1] at h
      simp only at h ⊢
      rcases h2 : Ref.session sig env n (ps ++ qs) e1 with _ | ⟨e3, ws⟩
      · rw [h2] at h; cases h
      · rw [h2] at h
        cases h
        obtain ⟨e4, vs, ws', g1, g2, rfl⟩ := ih _ _ _ h2
        rw [g1]
        exact ⟨e4, v :: vs, ws', rfl, g2, rfl⟩

/-- The accounts of two consecutive parts of a history that has a meaning. -/
theorem parts_paid (sig : Sig) (env : Env V) (ps qs : List (Prog V)) (us : List V)
    (h : Means sig env (ps ++ qs) us) (purity : Bool) (hp : purity = true → sig.pu = true)
    (n m : Nat) (vs ws : List V) (s s' : St V)
    (hr : runSession env n ps (initSt purity sig.mode) = .ok vs s) (hq : runSession env m qs s = .ok ws s') : Dues s s' := by
  obtain ⟨k, e2, hk⟩ := h.withPu hp
  obtain ⟨e1, vs1, ws1, h1, h2, _⟩ := Ref.session_split qs ps us _ _ hk
  obtain ⟨s1, N, g1, g2, g3, g4⟩ := session_ok ps vs1 (initSt purity sig.mode) Ref.emptyES e1 h1 (EInv.init (sig.withPu purity) env) rfl rfl
  have hs : s1 = s := by
    have h2 := g1 (max n N) (Nat.le_max_right ..)
    have h3 := runSession_mono env (Nat.le_max_left n N) ps (initSt purity sig.mode) (by rw [hr]; simp)
    rw [h2, hr] at h3
    cases h3; rfl
  subst hs
  obtain ⟨s2, N2, r1, _, _, _, r5⟩ := session_ok_paid qs ws1 s1 e1 e2 h2 g2 g3 g4
  have hs : s2 = s' := by
    have h2 := r1 (max m N2) (Nat.le_max_right ..)
    have h3 := runSession_mono env (Nat.le_max_left m N2) qs s1 (by rw [hq]; simp)
    rw [h2, hq] at h3
    cases h3; rfl
  subst hs
  exact r5

/-- **C93.** Let a history `ps ++ qs` have a meaning.  Then while `qs` runs, cleaning examines at most as many edges as were dirty when `qs` began, plus those that dirtying walks over meanwhile; and
what is examined is used up: the edges still dirty in the end count against the bound. -/
theorem C93_cost_of_cleaning (sig : Sig) (env : Env V) (ps qs : List (Prog V)) (us : List V)
    (h : Means sig env (ps ++ qs) us) (purity : Bool) (hp : purity = true → sig.pu = true)
    (n m : Nat) (vs ws : List V) (s s' : St V)
    (hr : runSession env n ps (initSt purity sig.mode) = .ok vs s) (hq : runSession env m qs s = .ok ws s') :
    ∃ tr, s'.log = tr ++ s.log ∧ examined tr + dirtyEdges s' ≤ dirtyEdges s + walked tr := by
  have h1 := (parts_paid sig env ps qs us h purity hp n m vs ws s s' hr hq).1
  have hg := runSession_gen env m qs s
  rw [hq] at hg
  obtain ⟨tr, htr, _⟩ := hg.log
  refine ⟨tr, htr, ?_⟩
  unfold Paid at h1
  rw [tableDirty_eq, tableDirty_eq, cleanRecs_eq, dirtyVisits_eq, cleanRecs_eq, dirtyVisits_eq, htr] at h1
  simp only [examined, walked, List.countP_append] at h1 ⊢
  omega

/-- **C93.** From a new engine: in every history that has a meaning, cleaning has examined no more edges than dirtying has walked over, and the difference pays for all dirty edges that are left. -/
theorem C93_from_start (sig : Sig) (env : Env V) (ps : List (Prog V)) (us : List V)
    (h : Means sig env ps us) (purity : Bool) (hp : purity = true → sig.pu = true)
    (n : Nat) (vs : List V) (s : St V) (hr : runSession env n ps (initSt purity sig.mode) = .ok vs s) :
    examined s.log + dirtyEdges s ≤ walked s.log := by
  obtain ⟨tr, h1, h2⟩ := C93_cost_of_cleaning sig env [] ps us h purity hp n n [] vs (initSt purity sig.mode) s rfl hr
  have h3 : s.log = tr := by rw [h1]; exact List.append_nil _
  have h4 : dirtyEdges (initSt (V := V) purity sig.mode) = 0 := rfl
  rw [h3]
  omega

/-- **C93.** When no edge is dirty, a later part of the history that makes none dirty examines none: demands of thunks that are up to date, and first demands of new thunks, pay nothing for change propagation. -/
theorem C93_nothing_dirty (sig : Sig) (env : Env V) (ps qs : List (Prog V)) (us : List V)
    (h : Means sig env (ps ++ qs) us) (purity : Bool) (hp : purity = true → sig.pu = true)
    (n m : Nat) (vs ws : List V) (s s' : St V)
    (hr : runSession env n ps (initSt purity sig.mode) = .ok vs s) (hq : runSession env m qs s = .ok ws s')
    (hd : dirtyEdges s = 0) (hw : walked s'.log = walked s.log) : examined s'.log = examined s.log ∧ dirtyEdges s' = 0 := by
  obtain ⟨tr, h1, h2⟩ := C93_cost_of_cleaning sig env ps qs us h purity hp n m vs ws s s' hr hq
  rw [h1] at hw ⊢
  simp only [walked, List.countP_append] at hw
  simp only [examined, walked, List.countP_append] at h2 ⊢
  omega

/-- **C91 and C93.** Change propagation as a whole: in every history that has a meaning, the edges examined by cleaning and walked over by dirtying are together at most twice the forces and allocations
made by thunks, the edges found clean, and the new structural locations. -/
theorem C93_change_propagation (sig : Sig) (env : Env V) (ps : List (Prog V)) (us : List V)
    (h : Means sig env ps us) (purity : Bool) (hp : purity = true → sig.pu = true)
    (n : Nat) (vs : List V) (s : St V) (hr : runSession env n ps (initSt purity sig.mode) = .ok vs s) :
    examined s.log + walked s.log ≤ 2 * (demands s.log + cleanings s.log + structurals s.table) := by
  have h1 := C93_from_start sig env ps us h purity hp n vs s hr
  have h2 := C91_amortised_from_start env n ps purity sig.mode s (.inl ⟨vs, hr⟩)
  rw [dirtyVisits_eq] at h2
  omega

/-! ### A concrete history -/
namespace CleanCostEx
open AmortEx

def sig : Sig := { kind := fun l => if l = at_ 0 ∨ l = at_ 1 then .cell 0 else if l = at_ 2 then .thunk 0 0 0 else .thunk 0 1 1 }
def one : Prog Int := .set 0 (at_ 1) 9 (.ret 0)
def hist : List (Prog Int) := [start, sets, ask, one, ask, ask]

def counts (ps : List (Prog Int)) : List Int × Nat × Nat × Nat :=
  match runSession env 10 ps (initSt true false) with
  | .ok vs s => (vs, examined s.log, walked s.log, dirtyEdges s)
  | _ => ([], 0, 0, 0)

-- The history has a meaning.
theorem means : Means sig env hist [30, 0, 30, 0, 100, 100] := by
  refine ⟨10, ((Ref.session sig env 10 hist Ref.emptyES).getD (Ref.emptyES, [])).1, ?_⟩
  kernel_rfl
-- Six sets make three edges dirty, the demand examines the three; one set makes two edges dirty, the demand examines the two (and runs both thunks); the last demand examines none.
example : counts [start] = ([30], 0, 0, 0) := by decide +kernel
example : counts [start, sets] = ([30, 0], 0, 3, 3) := by decide +kernel
example : counts [start, sets, ask] = ([30, 0, 30], 3, 3, 0) := by decide +kernel
example : counts [start, sets, ask, one] = ([30, 0, 30, 0], 3, 5, 2) := by decide +kernel
example : counts hist = ([30, 0, 30, 0, 100, 100], 5, 5, 0) := by decide +kernel
-- The theorem, for this history: the bound is met with equality.
example (n : Nat) (vs : List Int) (s : St Int) (hr : runSession env n hist (initSt true false) = .ok vs s) : examined s.log + dirtyEdges s ≤ walked s.log :=
  C93_from_start sig env hist _ means true (fun _ => rfl) n vs s hr
end CleanCostEx

/-! ### Histories without a meaning -/
namespace CycleCostEx
open AmortEx (nm at_)

/-- `A` forces `B`; `B` forces the cell, and if it is 1, `A` (answering 7 should that be a cycle). -/
def code : FnId → Int → Prog Int
  | 0, _ => .force 0 (at_ 2) (some 5) fun a => .ret a
  | _, _ => .force 0 (at_ 0) none fun a => if a = 0 then .ret 0 else .force 0 (at_ 1) (some 7) fun b => .ret b
def env : Env Int := ⟨code, fun _ => 0, fun _ _ => 0⟩
def start : Prog Int := .cell 0 (nm 0) 0 fun _ => .thunk 0 (.nominal (nm 1)) 0 0 0 fun _ => .thunk 0 (.nominal (nm 2)) 1 1 0 fun _ => .force 0 (at_ 1) none .ret
def one : Prog Int := .set 0 (at_ 0) 1 (.ret 0)
def ask : Prog Int := .force 0 (at_ 1) none .ret
def counts (ps : List (Prog Int)) : List Int × Nat × Nat × Nat :=
  match runSession env 20 ps (initSt true false) with
  | .ok vs s => (vs, examined s.log, walked s.log, dirtyEdges s)
  | .panic e _ => ([], 99, 0, 0)
  | _ => ([], 0, 0, 0)
/-- **C93.** The bound needs the meaning: when an edit turns two thunks into a cycle, the demand examines the edge from `A` to `B` twice (once on its own account, once for the demand of `A` that `B`
makes while it is run to see whether it changes), and three edges are examined although two were dirty. -/
theorem C93_needs_meaning :
    counts [start] = ([0], 0, 0, 0) ∧ counts [start, one] = ([0, 0], 0, 2, 2) ∧ counts [start, one, ask] = ([0, 0, 0], 3, 2, 0) := by
  decide +kernel
end CycleCostEx

end Adapton
