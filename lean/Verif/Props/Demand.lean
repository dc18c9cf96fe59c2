import Verif.Props.Rerun
/-
C69: what is not demanded is not run.  If the evaluation from scratch of a demanded thunk does not need a thunk, then the incremental
evaluation of the demand does not run it either, whatever the history of edits and demands.
-/
set_option linter.unusedSectionVars false
set_option linter.unusedVariables false
set_option linter.unusedSimpArgs false
namespace Adapton
open Ref (Sig Kind Store ES Means)
variable {V : Type} [DecidableEq V]

/-! ### Specification -/

/-- The signature in which only the thunks in `P` may be evaluated: in the reference semantics, forcing any other thunk has no meaning. -/
def Ref.Sig.restrict (sig : Sig) (P : Loc → Bool) : Sig := { sig with only := P }

/-- The evaluation from scratch of `l`, after the session `ps`, has a meaning in which only thunks in `P` are evaluated. -/
def Suffices (sig : Sig) (env : Env V) (ps : List (Prog V)) (ty : Ty) (l : Loc) (P : Loc → Bool) : Prop :=
  ∃ n m e us e' v, Ref.session sig env n ps Ref.emptyES = some (e, us) ∧
    Ref.demand (sig.restrict P) (Ref.recN (sig.restrict P) env m) sig.mode ty l e = some (e', v)

/-- The evaluation from scratch of `l`, after the session `ps`, does not evaluate the thunk `x`. -/
def DoesNotNeed (sig : Sig) (env : Env V) (ps : List (Prog V)) (ty : Ty) (l x : Loc) : Prop :=
  Suffices sig env ps ty l (fun y => decide (y ≠ x))

/-! ### The invariant does not depend on which thunks may be evaluated -/

section
variable {sig : Sig} {env : Env V}

theorem Replay.restrict {P : Loc → Bool} {t : Table V} {m π p pre es v} (hr : Replay sig env t m π p pre es v) :
    Replay (sig.restrict P) env t m π p pre es v := by
  induction hr with
  | ret => exact .ret
  | force h1 _ ih => exact .force h1 ih
  | forceDup h1 _ ih => exact .forceDup h1 ih
  | forcePure h1 _ ih => exact .forcePure h1 ih
  | mapCell h1 _ ih => exact .mapCell h1 ih
  | mapThunk h1 h2 _ ih => exact .mapThunk h1 h2 ih
  | mapThunkDup h1 h2 _ ih => exact .mapThunkDup h1 h2 ih
  | mapPure h1 _ ih => exact .mapPure h1 ih
  | cell _ ih => exact .cell ih
  | cellPure h1 _ ih => exact .cellPure h1 ih
  | thunk h1 _ ih => exact .thunk h1 ih
  | thunkNew h1 h2 _ ih => exact .thunkNew h1 h2 ih
  | thunkOld h1 h2 _ ih => exact .thunkOld h1 h2 ih
  | ns _ _ ih1 ih2 => exact .ns ih1 ih2
  | structural _ _ ih1 ih2 => exact .structural ih1 ih2
  | call _ _ ih1 ih2 => exact .call ih1 ih2

theorem Inv.restrict {s : St V} {σ : Store V} {D : Loc → Prop} (h : Inv sig env s σ D) (P : Loc → Bool) : Inv (sig.restrict P) env s σ D where
  graph := ⟨h.graph.wf, h.graph.fwd, h.graph.bwd, h.graph.edge, h.graph.first, h.graph.cnt⟩
  clean := h.clean
  nodup := h.nodup
  stk := h.stk
  replay := fun p nd v h1 h2 h3 => (h.replay p nd v h1 h2 h3).restrict
  store := h.store
  settled := h.settled
  pur := h.pur
  acyc := h.acyc
  fixed := h.fixed
  pureRes := h.pureRes

theorem EInv.restrict {s : St V} {e : ES V} (h : EInv sig env s e) (P : Loc → Bool) : EInv (sig.restrict P) env s e :=
  ⟨h.inv.imp fun _ h => h.restrict P, h.ext, h.same, h.stack⟩
end

/-! ### C69 -/

/-- **C69.** Let the evaluation from scratch of `l`, after the session `ps`, need thunks in `P` only.  Then the incremental evaluation of the
demand of `l` runs thunks in `P` only. -/
theorem C69_runs_only_what_is_needed (sig : Sig) (env : Env V) (ps : List (Prog V)) (ty : Ty) (l : Loc) (cyc : Option V) (P : Loc → Bool)
    (h : Suffices sig env ps ty l P) (purity : Bool) (hp : purity = true → sig.pu = true)
    (n m : Nat) (vs : List V) (v : V) (s s' : St V)
    (hr : runSession env n ps (initSt purity sig.mode) = .ok vs s) (hf : exec env m (.force ty l cyc .ret) s = .ok v s') :
    ∃ rs, s'.runs = rs ++ s.runs ∧ ∀ x ∈ rs, P x = true := by
  obtain ⟨k, k', e, us, e', w, h1, h2⟩ := h
  have hle : Ref.SigLe sig (sig.withPu purity) := ⟨fun _ => rfl, rfl, hp, fun _ => id⟩
  have h1' := Ref.session_le hle env k ps _ _ _ h1 (Ref.Ext.refl _)
  obtain ⟨s1, N, g1, g2, g3, g4⟩ := session_ok ps us (initSt purity sig.mode) Ref.emptyES e h1' (EInv.init (sig.withPu purity) env) rfl rfl
  have hs : s1 = s := by
    have h2 := g1 (max n N) (Nat.le_max_right ..)
    have h3 := runSession_mono env (Nat.le_max_left n N) ps (initSt purity sig.mode) (by rw [hr]; simp)
    rw [h2, hr] at h3
    cases h3; rfl
  subst hs
  have hle' : Ref.SigLe (sig.restrict P) ((sig.withPu purity).restrict P) := ⟨fun _ => rfl, rfl, hp, fun _ => id⟩
  have h2' := (Ref.demand_le hle' g2.ext h2).1
  obtain ⟨s2, σ0, D0, σ2, D2, rs, ⟨N2, r1⟩, r2, r3, r4, r5, r6⟩ := editor_demand_ran h2' (g2.restrict P) g4 cyc
  have hex : ∀ m, N2 + 1 ≤ m → exec env m (.force ty l cyc .ret) s1 = .ok w s2 := by
    intro m hm
    have := r1 m (by omega)
    show runProg env (recN env m) _ _ = _
    simp only [runProg]
    rw [M.bind_ok this]; rfl
  have hs2 : s2 = s' := by
    have h2 := hex (max m (N2 + 1)) (Nat.le_max_right ..)
    have h3 := exec_mono env (Nat.le_max_left m (N2 + 1)) (.force ty l cyc .ret) s1 (by rw [hf]; simp)
    rw [h2, hf] at h3
    cases h3; rfl
  subst hs2
  exact ⟨rs, r4.runs, fun x hx => (r4.once x hx).2.2⟩

/-- **C69.** A thunk that the evaluation from scratch does not need is not run. -/
theorem C69_undemanded_is_not_run (sig : Sig) (env : Env V) (ps : List (Prog V)) (ty : Ty) (l x : Loc) (cyc : Option V)
    (h : DoesNotNeed sig env ps ty l x) (purity : Bool) (hp : purity = true → sig.pu = true)
    (n m : Nat) (vs : List V) (v : V) (s s' : St V)
    (hr : runSession env n ps (initSt purity sig.mode) = .ok vs s) (hf : exec env m (.force ty l cyc .ret) s = .ok v s') :
    s'.runs.count x = s.runs.count x := by
  obtain ⟨rs, h1, h2⟩ := C69_runs_only_what_is_needed sig env ps ty l cyc _ h purity hp n m vs v s s' hr hf
  rw [h1, List.count_append, List.count_eq_zero_of_not_mem, Nat.zero_add]
  intro hm
  simpa using h2 x hm

/-! ### The division example of the documentation (lib.rs:300-420), for every history

Two cells `num` and `den`, a thunk `div` that divides (and panics if `den` is zero), a thunk `check` that forces `div` unless `den` is zero. -/
namespace DivEx

def nm (n : Nat) : Name := ⟨0, .usize n⟩
def at_ (n : Nat) : Loc := ⟨.empty, .nominal (nm n)⟩
def num : Loc := at_ 0
def den : Loc := at_ 1
def div : Loc := at_ 2
def check : Loc := at_ 3

/-- lib.rs:332: `get!(num) / get!(den)`; integer division by zero panics. -/
def divide : Option Nat → Option Nat → Prog (Option Nat)
  | some a, some (b + 1) => .ret (some (a / (b + 1)))
  | _, _ => .panic

/-- lib.rs:333: `if get!(den2) == 0 { None } else { Some(get!(div)) }`. -/
def choose : Option Nat → Prog (Option Nat)
  | some 0 => .ret none
  | _ => .force 0 div none .ret

def code : FnId → Option Nat → Prog (Option Nat)
  | 1, _ => .force 0 num none fun x => .force 0 den none fun y => divide x y
  | 2, _ => .force 0 den none choose
  | _, _ => .panic

def env : Env (Option Nat) := ⟨code, fun _ => 0, fun _ _ => 0⟩

def kind (l : Loc) : Kind :=
  if l = div then .thunk 0 1 1 else if l = check then .thunk 0 2 2 else .cell 0
def sig : Sig := { kind := kind }

/-- lib.rs:322-333. -/
def start (a b : Nat) : Prog (Option Nat) :=
  .cell 0 (nm 0) (some a) fun _ => .cell 0 (nm 1) (some b) fun _ => .thunk 0 (.nominal (nm 2)) 1 1 none fun _ =>
    .thunk 0 (.nominal (nm 3)) 2 2 none fun _ => .ret none

/-- What the editor does: change one of the cells, or demand `check` (or nothing else). -/
inductive Op where
  | num (a : Nat)
  | den (b : Nat)
  | check

def Op.prog : Op → Prog (Option Nat)
  | .num a => .set 0 DivEx.num (some a) (.ret none)
  | .den b => .set 0 DivEx.den (some b) (.ret none)
  | .check => .force 0 DivEx.check none .ret

/-- What a demand of `check` must return. -/
def quotient (a b : Nat) : Option Nat := if b = 0 then none else some (a / b)

/-- What a history must return. -/
def answers : Nat → Nat → List Op → List (Option Nat)
  | _, _, [] => []
  | a, b, .num a' :: ops => none :: answers a' b ops
  | a, b, .den b' :: ops => none :: answers a b' ops
  | a, b, .check :: ops => quotient a b :: answers a b ops

/-- The contents of the cells after a history. -/
def final : Nat → Nat → List Op → Nat × Nat
  | a, b, [] => (a, b)
  | _, b, .num a' :: ops => final a' b ops
  | a, _, .den b' :: ops => final a b' ops
  | a, b, .check :: ops => final a b ops

/-- The store when the cells hold `a` and `b`. -/
def store (a b : Nat) : Store (Option Nat) := fun x =>
  if x = num then some (some a) else if x = den then some (some b) else if x = div then some none else if x = check then some none else none
def es (a b : Nat) : ES (Option Nat) := ⟨store a b, store a b⟩

theorem store_num (a b : Nat) : store a b num = some (some a) := rfl
theorem store_den (a b : Nat) : store a b den = some (some b) := rfl
theorem store_div (a b : Nat) : store a b div = some none := rfl
theorem store_check (a b : Nat) : store a b check = some none := rfl
theorem kind_num : sig.kind num = .cell 0 := rfl
theorem kind_den : sig.kind den = .cell 0 := rfl
theorem kind_div : sig.kind div = .thunk 0 1 1 := rfl
theorem kind_check : sig.kind check = .thunk 0 2 2 := rfl

theorem edit_num (a b a' : Nat) : Ref.edit (es a b) num (some a') = es a' b := by
  have h : Ref.upd (store a b) num (some a') = store a' b := by
    funext x
    by_cases hx : x = num
    · subst hx; simp [Ref.upd, store_num]
    · simp [Ref.upd, store, hx]
  unfold Ref.edit
  simp only [es, store_num, h]
  split <;> rfl

theorem edit_den (a b b' : Nat) : Ref.edit (es a b) den (some b') = es a b' := by
  have hne : den ≠ num := by decide
  have h : Ref.upd (store a b) den (some b') = store a b' := by
    funext x
    by_cases hx : x = den
    · subst hx; simp [Ref.upd, store_den]
    · simp [Ref.upd, store, hx]
  unfold Ref.edit
  simp only [es, store_den, h]
  split <;> rfl

theorem keep (a b : Nat) : Ref.keepStruct (store a b) (store a b) = store a b := by
  funext x; unfold Ref.keepStruct; split <;> rfl

theorem frc_zero (a n : Nat) : (Ref.recN sig env (n + 1)).frc [] (store a 0) check = some (store a 0, none) := rfl

theorem frc_succ (a b n : Nat) :
    (Ref.recN sig env (n + 2)).frc [] (store a (b + 1)) check = some (store a (b + 1), some (a / (b + 1))) := rfl

theorem frc_zero_without (a n : Nat) :
    (Ref.recN (sig.restrict fun y => decide (y ≠ div)) env (n + 1)).frc [] (store a 0) check = some (store a 0, none) := rfl

theorem frc_check (a b n : Nat) : (Ref.recN sig env (n + 2)).frc [] (store a b) check = some (store a b, quotient a b) := by
  cases b with
  | zero => exact frc_zero a (n + 1)
  | succ b => exact frc_succ a b n

theorem start_ok (a b n : Nat) : Ref.evalEd sig env (Ref.recN sig env n) (Ref.callEN sig env n) false .empty (start a b) Ref.emptyES =
    some (es a b, none) := by
  have e : Ref.edit (Ref.edit (Ref.edit (Ref.edit (Ref.emptyES (V := Option Nat)) num (some a)) den (some b)) div none) check none = es a b := by
    have h : Ref.upd (Ref.upd (Ref.upd (Ref.upd (fun _ => none) num (some a)) den (some b)) div none) check none = store a b := by
      funext x
      by_cases h0 : x = num
      · subst h0; rfl
      by_cases h1 : x = den
      · subst h1; rfl
      by_cases h2 : x = div
      · subst h2; rfl
      by_cases h3 : x = check
      · subst h3; rfl
      simp [Ref.upd, store, h0, h1, h2, h3]
    show (⟨Ref.upd (Ref.upd (Ref.upd (Ref.upd (fun _ => none) num (some a)) den (some b)) div none) check none,
      Ref.upd (Ref.upd (Ref.upd (Ref.upd (fun _ => none) num (some a)) den (some b)) div none) check none⟩ : ES (Option Nat)) = _
    rw [h]; rfl
  rw [← e]; rfl

theorem history (n : Nat) : ∀ (ops : List Op) (a b : Nat),
    Ref.session sig env (n + 2) (ops.map Op.prog) (es a b) = some (es (final a b ops).1 (final a b ops).2, answers a b ops) := by
  intro ops
  induction ops with
  | nil => intro a b; rfl
  | cons op ops ih =>
    intro a b
    cases op with
    | num a' =>
      have h : Ref.evalEd sig env (Ref.recN sig env (n + 2)) (Ref.callEN sig env (n + 2)) sig.mode .empty (Op.num a').prog (es a b) =
          some (es a' b, none) := by rw [← edit_num a b a']; rfl
      simp only [List.map_cons, Ref.session, h, ih a' b]; rfl
    | den b' =>
      have h : Ref.evalEd sig env (Ref.recN sig env (n + 2)) (Ref.callEN sig env (n + 2)) sig.mode .empty (Op.den b').prog (es a b) =
          some (es a b', none) := by rw [← edit_den a b b']; rfl
      simp only [List.map_cons, Ref.session, h, ih a b']; rfl
    | check =>
      have h : Ref.evalEd sig env (Ref.recN sig env (n + 2)) (Ref.callEN sig env (n + 2)) sig.mode .empty Op.check.prog (es a b) =
          some (es a b, quotient a b) := by
        have h1 : Ref.demand sig (Ref.recN sig env (n + 2)) sig.mode 0 check (es a b) = some (es a b, quotient a b) := by
          unfold Ref.demand Ref.editorForce
          simp only [show sig.kind check = .thunk 0 2 2 from rfl, es, frc_check, keep]
          rfl
        simp only [Op.prog, Ref.evalEd, h1]
      simp only [List.map_cons, Ref.session, h, ih a b]; rfl

theorem means (a b : Nat) (ops : List Op) : Ref.session sig env 2 (start a b :: ops.map Op.prog) Ref.emptyES =
    some (es (final a b ops).1 (final a b ops).2, none :: answers a b ops) := by
  simp only [Ref.session, start_ok, history 0 ops a b, show sig.mode = false from rfl]

/-- `DoesNotNeed` is not a matter of course: while the divisor is not zero, `check` needs `div`. -/
example (a b : Nat) : ¬ DoesNotNeed sig env [start a (b + 1)] 0 check div := by
  rintro ⟨n, m, e, us, e', v, h1, h2⟩
  simp only [Ref.session, start_ok, show sig.mode = false from rfl] at h1
  cases h1
  match m with
  | 0 => cases h2
  | 1 => cases h2
  | m + 2 => cases h2

end DivEx

open DivEx in
/-- **C69 (the division example of the documentation).** Whatever the contents of the two cells and whatever the editor does -- any sequence of changes
of the two cells and demands of `check` -- every demand returns the quotient of the current contents, or `None` if the current divisor is
zero; the division by zero, which would panic, never happens. -/
theorem C69_division_example (a b : Nat) (ops : List Op) (purity : Bool) :
    ∃ N, ∀ n, N ≤ n → ∃ s, runSession env n (start a b :: ops.map Op.prog) (initSt purity false) = .ok (none :: answers a b ops) s := by
  obtain ⟨_, N, s, h, _⟩ := session_engine (sig := sig) ⟨2, _, means a b ops⟩ purity (fun _ => rfl)
  exact ⟨N, fun n hn => ⟨s, h n hn⟩⟩

open DivEx in
/-- **C69 (the division example of the documentation).** In any history, a demand of `check` while `den` is zero does not run `div`. -/
theorem C69_division_not_run (a b : Nat) (ops : List Op) (h0 : (final a b ops).2 = 0) (purity : Bool)
    (n m : Nat) (vs : List (Option Nat)) (v : Option Nat) (s s' : St (Option Nat))
    (hr : runSession env n (start a b :: ops.map Op.prog) (initSt purity false) = .ok vs s)
    (hf : exec env m Op.check.prog s = .ok v s') : s'.runs.count div = s.runs.count div := by
  refine C69_undemanded_is_not_run sig env _ 0 check div none ?_ purity (fun _ => rfl) n m vs v s s' hr hf
  refine ⟨2, 2, _, _, es (final a b ops).1 0, none, means a b ops, ?_⟩
  rw [h0]
  unfold Ref.demand Ref.editorForce
  simp only [show (sig.restrict fun y => decide (y ≠ div)).kind check = .thunk 0 2 2 from rfl, es, frc_zero_without, keep]
  rfl

open DivEx in
attribute [local simp] ueq_eq runSession exec runProg opCell opForce opThunk thunkNominal cellTable cellRecord
  M.bind_def M.pure_def M.modify_def M.get_def M.panic_def evBegin evEnd evEff recordEdge putNode Table.get Table.put resNode
  lookupAbs produceBody revokeSuccs removePred installPreds installPred Node.predsInsert Node.predsRemove
  Node.ty initSt topLoc opSet setCell dirtyAlloc dirtyPredsTop dirtyPreds dirtyLoop dirtyObserver dirtyStop checkForceMapDep
  Node.predsObs Node.predsAlloc cleanForceBody cleanLoop cleanDep succDirty setSuccDirty Succ.matches setFirst step recN
  tableClean cleanCount Node.succsList dirtyAllocLoop dirtyAllocator at_ nm env code start Op.prog num den div check divide choose in
/-- **C69 (switching, lib.rs:336-365).** The three steps of the documentation, for all contents: `check` is demanded with a divisor that is not zero; the
divisor is set to zero and `check` is demanded; the divisor is set back and `check` is demanded.  The first demand runs `check` and `div`, the second `check`
only, the third `check` only: the division is reused. -/
theorem C69_switching_example (a b : Nat) (purity : Bool) (n : Nat) :
    ∃ s, runSession env (n + 8) [start a (b + 1), Op.check.prog, (Op.den 0).prog, Op.check.prog, (Op.den (b + 1)).prog, Op.check.prog] (initSt purity false) =
      .ok [none, some (a / (b + 1)), none, none, none, some (a / (b + 1))] s ∧ s.runs = [check, check, div, check] := by
  simp

end Adapton
