import Verif.Props.Rerun
import Verif.Props.Deviations
import Verif.Engine.Naive
import Verif.Macros.Model
/-
C70, C71: what the thunk and memo macros do with the code they are given, and without a name.
-/
set_option linter.unusedSectionVars false
set_option linter.unusedVariables false
set_option linter.unusedSimpArgs false
namespace Adapton
open Ref (Sig Kind Means ES)
open Macros
variable {V : Type} [DecidableEq V]

/-! ### Specification -/

/-- The state has a thunk at the name `n`, in the current namespace. -/
def HasThunk (s : St V) (n : Name) : Prop := ∃ nd, s.table.get ⟨s.path, .nominal n⟩ = some (.comp nd)

/-- A memoization point: a thunk is allocated at the name and forced at once. -/
def memoPoint (ty : Ty) (nm : Name) (pp : ProgPt) (fn : FnId) (arg : V) : Prog V :=
  .thunk ty (.nominal nm) pp fn arg fun t => .force ty t none .ret

/-! ### C70 -/

/-- **C70 (violated).** In every state in which the name already has a thunk, allocating a thunk with other code is the same as allocating
it with the old code: whatever follows, the engine does not use the code, nor the variables that it captures, nor the arguments after `;;`. -/
theorem C70_code_is_ignored (env : Env V) (n : Nat) (s : St V) (hi : s.ignoreNominal = false) (nm : Name) (h : HasThunk s nm) (ty : Ty) (pp : ProgPt)
    (fn1 fn2 : FnId) (arg : V) (k : Loc → Prog V) :
    exec env n (.thunk ty (.nominal nm) pp fn1 arg k) s = exec env n (.thunk ty (.nominal nm) pp fn2 arg k) s := by
  obtain ⟨nd, hnd⟩ := h
  have key : ∀ fn, opThunk env ty (.nominal nm) pp fn arg s = thunkNominal ty nm pp fn arg s := by
    intro fn
    simp [opThunk, M.bind_def, M.get_def, hi]
  have key2 : thunkNominal ty nm pp fn1 arg s = thunkNominal ty nm pp fn2 arg s := by
    unfold thunkNominal
    rw [M.bind_ok (M.get_def s), M.bind_ok (M.get_def s)]
    simp only [hnd]
    by_cases ht : (Node.comp nd).ty = ty
    · rw [M.bind_ok (resNode_ok hnd ht), M.bind_ok (resNode_ok hnd ht)]
    · have : ∃ e, resNode ty ⟨s.path, .nominal nm⟩ s = .panic e s := by
        simp only [Node.ty] at ht
        simp [resNode, lookupAbs, M.bind_def, M.get_def, hnd, ht, M.panic_def, Node.ty]
      obtain ⟨e, he⟩ := this
      rw [M.bind_def, M.bind_def, he]
  show runProg env (recN env n) _ s = runProg env (recN env n) _ s
  simp only [runProg]
  rw [M.bind_def, M.bind_def, key, key, key2]

theorem Ref.session_append {sig : Sig} {env : Env V} {n : Nat} {p : Prog V} {v : V} : ∀ {ps : List (Prog V)} {us : List V} {e e1 e2 : ES V},
    Ref.session sig env n ps e = some (e1, us) →
    Ref.evalEd sig env (Ref.recN sig env n) (Ref.callEN sig env n) sig.mode .empty p e1 = some (e2, v) →
    Ref.session sig env n (ps ++ [p]) e = some (e2, us ++ [v]) := by
  intro ps
  induction ps with
  | nil =>
    intro us e e1 e2 h1 h2
    cases h1
    simp only [List.nil_append, Ref.session, h2]
  | cons q ps ih =>
    intro us e e1 e2 h1 h2
    simp only [List.cons_append, Ref.session] at h1 ⊢
    rcases h3 : Ref.evalEd sig env (Ref.recN sig env n) (Ref.callEN sig env n) sig.mode .empty q e with _ | ⟨e3, w⟩
    · rw [h3] at h1; cases h1
    · rw [h3] at h1
      simp only at h1 ⊢
      rcases h4 : Ref.session sig env n ps e3 with _ | ⟨e4, ws⟩
      · rw [h4] at h1; cases h1
      · rw [h4] at h1; cases h1
        rw [ih h4 h2]; rfl

/-- In the reference, a memoization point that is repeated has the value it had. -/
theorem memoPoint_again {sig : Sig} {env : Env V} {n : Nat} {ty : Ty} {nm : Name} {pp : ProgPt} {fn : FnId} {arg v : V} {e e' : ES V}
    {c : Bool → Path → FnId → V → ES V → Option (ES V × V)} (hm : sig.mode = false)
    (h : Ref.evalEd sig env (Ref.recN sig env n) c sig.mode .empty (memoPoint ty nm pp fn arg) e = some (e', v)) :
    sig ⟨.empty, .nominal nm⟩ = .thunk ty pp fn ∧ e'.cur ⟨.empty, .nominal nm⟩ = some arg ∧
    ∃ e'', Ref.evalEd sig env (Ref.recN sig env n) c sig.mode .empty (memoPoint ty nm pp fn arg) e' = some (e'', v) := by
  have hl : Ref.thunkLoc env sig.mode .empty (.nominal nm) pp arg = some ⟨.empty, .nominal nm⟩ := by
    rw [hm]; rfl
  unfold memoPoint at h ⊢
  simp only [Ref.evalEd, hl] at h ⊢
  have hk : sig ⟨.empty, .nominal nm⟩ = .thunk ty pp fn := by
    by_cases hk : sig ⟨.empty, .nominal nm⟩ = .thunk ty pp fn
    · exact hk
    · rw [if_neg (fun hh => hk hh.1)] at h; cases h
  have hme : ∀ e : ES V, Ref.mayEdit e ⟨.empty, .nominal nm⟩ arg = true := fun e => rfl
  rw [if_pos ⟨hk, hme e⟩] at h
  rw [if_pos ⟨hk, hme e'⟩]
  rcases hd : Ref.demand sig (Ref.recN sig env n) sig.mode ty ⟨.empty, .nominal nm⟩ (Ref.edit e ⟨.empty, .nominal nm⟩ arg) with _ | ⟨e3, w⟩
  · rw [hd] at h; cases h
  rw [hd] at h
  cases h
  refine ⟨hk, ?_⟩
  simp only [Ref.demand, hk, true_and, if_true] at hd ⊢
  rcases hf : Ref.editorForce (Ref.recN sig env n) ⟨.empty, .nominal nm⟩ (Ref.edit e ⟨.empty, .nominal nm⟩ arg) with _ | ⟨σ', w⟩
  · rw [hf] at hd; cases hd
  rw [hf] at hd
  cases hd
  have hcur : (Ref.edit e ⟨.empty, .nominal nm⟩ arg).cur ⟨.empty, .nominal nm⟩ = some arg := by
    rw [Ref.edit_dec]
    simp only
    split <;> simp [Ref.upd]
  have hbase : (Ref.edit e ⟨.empty, .nominal nm⟩ arg).base ⟨.empty, .nominal nm⟩ = some arg := by
    rw [Ref.edit_dec]; simp [Ref.upd]
  have hag : σ' ⟨.empty, .nominal nm⟩ = some arg ∧ (Ref.recN sig env n).frc [] σ' ⟨.empty, .nominal nm⟩ = some (σ', v) := by
    unfold Ref.editorForce at hf
    rcases h1 : (Ref.recN sig env n).frc [] (Ref.edit e ⟨.empty, .nominal nm⟩ arg).cur ⟨.empty, .nominal nm⟩ with _ | r
    · rw [h1] at hf
      exact ⟨(Ref.recN_ok sig env n).frcExt _ _ _ _ _ hf _ _ hbase, Ref.frc_again hf⟩
    · rw [h1] at hf; cases hf
      exact ⟨(Ref.recN_ok sig env n).frcExt _ _ _ _ _ h1 _ _ hcur, Ref.frc_again h1⟩
  refine ⟨hag.1, ?_⟩
  have hcur2 : (Ref.edit ⟨Ref.keepStruct (Ref.edit e ⟨.empty, .nominal nm⟩ arg).base σ', σ'⟩ ⟨.empty, .nominal nm⟩ arg).cur = σ' := by
    rw [Ref.edit_dec]
    simp only
    rw [if_pos (.inr hag.1), upd_of_some hag.1]
  unfold Ref.editorForce
  rw [hcur2, hag.2]
  exact ⟨_, rfl⟩

theorem runSession_append (env : Env V) (n : Nat) : ∀ (ps qs : List (Prog V)) (s : St V),
    runSession env n (ps ++ qs) s = (runSession env n ps >>= fun vs => runSession env n qs >>= fun ws => pure (vs ++ ws)) s := by
  intro ps
  induction ps with
  | nil =>
    intro qs s
    simp only [List.nil_append, runSession, M.bind_def, M.pure_def]
    rcases runSession env n qs s with _ | _ | _ <;> rfl
  | cons p ps ih =>
    intro qs s
    simp only [List.cons_append, runSession, M.bind_def, M.pure_def]
    rcases exec env n p s with ⟨v, s1⟩ | _ | _
    · simp only [ih, M.bind_def, M.pure_def]
      rcases runSession env n ps s1 with ⟨vs, s2⟩ | _ | _
      · simp only
        rcases runSession env n qs s2 with _ | _ | _ <;> rfl
      · rfl
      · rfl
    · rfl
    · rfl

/-- Allocating again a thunk that the editor has just demanded, whatever the code, and forcing it: the cached result. -/
theorem memoPoint_settled (env : Env V) (n : Nat) (s : St V) (nm : Name) (nd : CompNode V) (v : V) (fn : FnId) (hst : s.stack = [])
    (hi : s.ignoreNominal = false) (hl : s.table.get ⟨s.path, .nominal nm⟩ = some (.comp nd)) (hv : nd.res = some v) (hc : AllClean nd.succs) :
    ∃ s', exec env (n + 1) (memoPoint nd.ty nm nd.pp fn nd.arg) s = .ok v s' ∧ NoChange s s' := by
  have h1 : opThunk env nd.ty (.nominal nm) nd.pp fn nd.arg s = .ok ⟨s.path, .nominal nm⟩
      { s with log := .end_ :: .begin (.alloc (.locExists false) .thunk) (topLoc s) ⟨s.path, .nominal nm⟩ :: s.log } := by
    simp [opThunk, thunkNominal, M.bind_def, M.get_def, M.modify_def, M.pure_def, hi, hl, resNode, lookupAbs, Node.ty, ueq_eq, evBegin, evEnd, recordEdge, hst]
  obtain ⟨s2, h2, h3⟩ := force_settled env n
    { s with log := .end_ :: .begin (.alloc (.locExists false) .thunk) (topLoc s) ⟨s.path, .nominal nm⟩ :: s.log } ⟨s.path, .nominal nm⟩ nd v none hst hl hv hc
  refine ⟨s2, ?_, (NoChange.log _ _).trans h3⟩
  show runProg env (recN env (n + 1)) _ s = _
  unfold memoPoint
  simp only [runProg]
  rw [M.bind_ok h1]
  exact h2

/-- **C70 (violated).** After any session in which a memoization point has the value `v`, the same memoization point with any other code has the
value `v`: nothing is run, and the graph stays as it is. -/
theorem C70_memo_point_ignores_its_body (sig : Sig) (hm : sig.mode = false) (env : Env V) (ps : List (Prog V)) (ty : Ty) (nm : Name) (pp : ProgPt)
    (fn1 fn2 : FnId) (arg : V) (us : List V) (h : Means sig env (ps ++ [memoPoint ty nm pp fn1 arg]) us) (purity : Bool)
    (hp : purity = true → sig.pu = true) :
    ∃ N vs v s s', us = vs ++ [v] ∧ (∀ n, N ≤ n → runSession env n (ps ++ [memoPoint ty nm pp fn1 arg]) (initSt purity false) = .ok us s) ∧
      (∀ n, 1 ≤ n → exec env n (memoPoint ty nm pp fn2 arg) s = .ok v s') ∧ NoChange s s' := by
  obtain ⟨k, e2, hk⟩ := h.withPu hp
  obtain ⟨e1, vs1, v1, h1, h2, h3⟩ := Ref.session_snoc hk
  obtain ⟨a1, a2, _⟩ := memoPoint_again (sig := sig.withPu purity) hm h2
  obtain ⟨s1, N1, b1, b2, b3, b4⟩ := session_ok _ _ (initSt purity sig.mode) Ref.emptyES e1 h1 (EInv.init (sig.withPu purity) env) rfl rfl
  obtain ⟨s2, ⟨N2, c1⟩, c2, c3, c4⟩ := editor_ok h2 b2 b3 b4
  have hset : ∃ nd, s2.table.get ⟨.empty, .nominal nm⟩ = some (.comp nd) ∧ nd.res = some v1 ∧ AllClean nd.succs := by
    have hl : Ref.thunkLoc env (sig.withPu purity).mode .empty (.nominal nm) pp arg = some ⟨.empty, .nominal nm⟩ := by
      rw [show (sig.withPu purity).mode = false from hm]; rfl
    unfold memoPoint at h2
    simp only [Ref.evalEd, hl] at h2
    have hme : Ref.mayEdit e1 ⟨.empty, .nominal nm⟩ arg = true := rfl
    rw [if_pos ⟨a1, hme⟩] at h2
    rcases hd : Ref.demand (sig.withPu purity) (Ref.recN (sig.withPu purity) env k) (sig.withPu purity).mode ty ⟨.empty, .nominal nm⟩
        (Ref.edit e1 ⟨.empty, .nominal nm⟩ arg) with _ | ⟨e3, w⟩
    · rw [hd] at h2; cases h2
    rw [hd] at h2
    cases h2
    have hq : Ref.evalEd (sig.withPu purity) env (Ref.recN (sig.withPu purity) env k) (Ref.callEN (sig.withPu purity) env k) (sig.withPu purity).mode .empty
        (.thunk ty (.nominal nm) pp fn1 arg fun t => if t = ⟨.empty, .nominal nm⟩ then .ret arg else .panic) e1 =
        some (Ref.edit e1 ⟨.empty, .nominal nm⟩ arg, arg) := by
      simp only [Ref.evalEd, hl]
      rw [if_pos ⟨a1, hme⟩]
      simp only [if_true, Ref.evalEd]
    obtain ⟨s3, ⟨N3, d1⟩, d2, d3, d4⟩ := editor_ok hq b2 b3 b4
    have d5 : opThunk env ty (.nominal nm) pp fn1 arg s1 = .ok ⟨.empty, .nominal nm⟩ s3 := by
      have d1 := d1 N3 (Nat.le_refl _)
      simp only [runProg] at d1
      rw [M.bind_def] at d1
      rcases ho : opThunk env ty (.nominal nm) pp fn1 arg s1 with ⟨t, s4⟩ | _ | _
      · rw [ho] at d1
        simp only at d1
        by_cases ht : t = ⟨.empty, .nominal nm⟩
        · rw [if_pos ht] at d1
          cases d1
          rw [ht]
        · rw [if_neg ht] at d1; cases d1
      · rw [ho] at d1; cases d1
      · rw [ho] at d1; cases d1
    obtain ⟨s5, σ0, D0, σ2, D2, rs, ⟨N4, r1⟩, r2, r3, r4, r5, r6, r7⟩ := editor_demand_ran hd d2 d4 none
    have hs : s5 = s2 := by
      have g1 := r1 (max N2 N4) (Nat.le_max_right ..)
      have g2 := c1 (max N2 N4) (Nat.le_max_left ..)
      unfold memoPoint at g2
      simp only [runProg] at g2
      rw [M.bind_ok d5, M.bind_ok g1] at g2
      cases g2; rfl
    subst hs
    obtain ⟨nd, q1, q2, q3, _⟩ := r7 _ _ _ a1
    exact ⟨nd, q1, q2, q3⟩
  obtain ⟨nd, g1, g2, g3⟩ := hset
  obtain ⟨D, hI⟩ := c2.inv
  obtain ⟨nd', j1, j2, j3, j4, j5⟩ := hI.storeThunk a1 a2
  rw [g1] at j1; cases j1
  have hi : s2.ignoreNominal = false := c4.trans hm
  have hth : s2.table.get ⟨s2.path, .nominal nm⟩ = some (.comp nd) := by rw [c3]; exact g1
  obtain ⟨s', q1, q2⟩ := memoPoint_settled env 0 s2 nm nd v1 fn2 c2.stack hi hth g2 g3
  refine ⟨max N1 N2, vs1, v1, s2, s', h3, fun n hn => ?_, fun n hn => ?_, q2⟩
  · have d1 := b1 n (by omega)
    rw [hm] at d1
    rw [runSession_append, M.bind_ok d1, h3]
    have d2 : exec env n (memoPoint ty nm pp fn1 arg) s1 = .ok v1 s2 := c1 n (by omega)
    simp [runSession, M.bind_def, M.pure_def, d2]
  · rw [← j2, ← j3, ← j5]
    exact (exec_mono env hn _ _ (by rw [q1]; simp)).trans q1

/-- The macros that make memoization points: `memo!(nm =>> fun, ..)`, `memo!([Some(nm)]? fun ; ..)`, `let_memo!`; the body's text does not count in the
last one. -/
theorem memoPoint_macros (H : NameHash) (pt : String → ProgPt) (ty : Ty) (nm : Name) (thk text : String) (fn : FnId) (arg : V) :
    memoNamed pt ty nm text fn arg .ret = memoPoint ty nm (pt text) fn arg ∧
    memo pt ty (some nm) text fn arg (fun _ v => .ret v) = memoPoint ty nm (pt text) fn arg ∧
    letMemo H pt ty thk text fn arg (fun _ v => .ret v) = memoPoint ty (nameOfStr H thk) (pt "$fun") fn arg := ⟨rfl, rfl, rfl⟩

/-- **C70 (violated), `let_memo!`.** In every history: the value of `let_memo!{x = (thk) = body; x}` is that of the first body that was demanded under
the name `thk`, whatever the text of the later body. -/
theorem C70_let_memo_keeps_the_first_body (H : NameHash) (pt : String → ProgPt) (sig : Sig) (hm : sig.mode = false) (env : Env V)
    (ps : List (Prog V)) (ty : Ty) (thk text1 text2 : String) (fn1 fn2 : FnId) (unit : V) (us : List V)
    (h : Means sig env (ps ++ [letMemo H pt ty thk text1 fn1 unit fun _ v => .ret v]) us) (purity : Bool) (hp : purity = true → sig.pu = true) :
    ∃ N vs v s s', us = vs ++ [v] ∧
      (∀ n, N ≤ n → runSession env n (ps ++ [letMemo H pt ty thk text1 fn1 unit fun _ v => .ret v]) (initSt purity false) = .ok us s) ∧
      (∀ n, 1 ≤ n → exec env n (letMemo H pt ty thk text2 fn2 unit fun _ v => .ret v) s = .ok v s') ∧ NoChange s s' :=
  C70_memo_point_ignores_its_body sig hm env ps ty (nameOfStr H thk) (pt "$fun") fn1 fn2 unit us h purity hp

/-- What a memoization point is in a new engine: the value of its body, if the body just returns one. -/
theorem C70_new_engine_runs_the_body (env : Env V) (n : Nat) (purity : Bool) (ty : Ty) (nm : Name) (pp : ProgPt) (fn : FnId) (arg v : V)
    (hc : env.code fn arg = .ret v) : Answers env (n + 2) purity [memoPoint ty nm pp fn arg] [v] := by
  simp [Answers, memoPoint, runSession, exec, runProg, opForce, opThunk, thunkNominal, M.bind_def, M.pure_def, M.modify_def, M.get_def, M.panic_def,
    evBegin, evEnd, evEff, recordEdge, putNode, Table.get, Table.put, resNode, lookupAbs, produceBody, revokeSuccs, removePred, installPreds, installPred,
    Node.ty, initSt, topLoc, step, recN, hc]

/-- **C70 (violated).** A body that captures a variable: `clo x` is the closure.  After the variable has changed from `x` to `y`, the memoization point
still has the value for `x`; in a new engine it has the value for `y`. -/
theorem C70_captured_variable_is_stale (env : Env V) (n : Nat) (purity : Bool) (ty : Ty) (nm : Name) (pp : ProgPt) (unit : V) (clo : V → FnId) (f : V → V)
    (hc : ∀ x, env.code (clo x) unit = .ret (f x)) (x y : V) :
    Answers env (n + 2) purity [memoPoint ty nm pp (clo x) unit, memoPoint ty nm pp (clo y) unit] [f x, f x] ∧
    Answers env (n + 2) purity [memoPoint ty nm pp (clo y) unit] [f y] := by
  refine ⟨?_, C70_new_engine_runs_the_body env n purity ty nm pp _ _ _ (hc y)⟩
  simp [Answers, memoPoint, runSession, exec, runProg, opForce, opThunk, thunkNominal, M.bind_def, M.pure_def, M.modify_def, M.get_def, M.panic_def,
    evBegin, evEnd, evEff, recordEdge, putNode, Table.get, Table.put, resNode, lookupAbs, produceBody, revokeSuccs, removePred, installPreds, installPred,
    Node.ty, initSt, topLoc, step, recN, hc, ueq_eq, cleanForceBody, cleanLoop, Node.succsList]

/-- **C70 (the half that holds).** A variable that is passed as an argument is tracked. -/
theorem C70_argument_is_tracked (env : Env V) (n : Nat) (purity : Bool) (ty : Ty) (nm : Name) (pp : ProgPt) (fn : FnId) (f : V → V)
    (hc : ∀ x, env.code fn x = .ret (f x)) (x y : V) :
    Answers env (n + 2) purity [memoPoint ty nm pp fn x, memoPoint ty nm pp fn y] [f x, f y] := by
  by_cases hxy : x = y
  · subst hxy
    simp [Answers, memoPoint, runSession, exec, runProg, opForce, opThunk, thunkNominal, M.bind_def, M.pure_def, M.modify_def, M.get_def, M.panic_def,
      evBegin, evEnd, evEff, recordEdge, putNode, Table.get, Table.put, resNode, lookupAbs, produceBody, revokeSuccs, removePred, installPreds, installPred,
      Node.ty, initSt, topLoc, step, recN, hc, ueq_eq, cleanForceBody, cleanLoop, Node.succsList]
  · simp [Answers, memoPoint, runSession, exec, runProg, opForce, opThunk, thunkNominal, M.bind_def, M.pure_def, M.modify_def, M.get_def, M.panic_def,
      evBegin, evEnd, evEff, recordEdge, putNode, Table.get, Table.put, resNode, lookupAbs, produceBody, revokeSuccs, removePred, installPreds, installPred,
      Node.ty, initSt, topLoc, step, recN, hc, ueq_eq, cleanForceBody, cleanLoop, Node.succsList, hxy, dirtyAlloc, dirtyAllocLoop, dirtyPredsTop,
      dirtyPreds, dirtyLoop, Node.predsObs, Node.predsAlloc, tableClean, cleanCount]

/-- **C70 (violated).** A name that is used for another function, with another text, as the documentation says it may: the engine panics. -/
theorem C70_other_function_panics (env : Env V) (n : Nat) (purity : Bool) (ty : Ty) (nm : Name) (pt : String → ProgPt) (text1 text2 : String)
    (hpt : pt text1 ≠ pt text2) (fn1 fn2 : FnId) (x y v : V) (hc : env.code fn1 x = .ret v) :
    Fails env (n + 2) purity [memoNamed pt ty nm text1 fn1 x .ret, memoNamed pt ty nm text2 fn2 y .ret] .progPtMismatch := by
  simp [Fails, memoNamed, thunkFun, optChoice, Macros.get, runSession, exec, runProg, opForce, opThunk, thunkNominal, M.bind_def, M.pure_def, M.modify_def,
    M.get_def, M.panic_def, evBegin, evEnd, evEff, recordEdge, putNode, Table.get, Table.put, resNode, lookupAbs, produceBody, revokeSuccs, removePred,
    installPreds, installPred, Node.ty, initSt, topLoc, step, recN, hc, hpt]

/-! ### C71 -/

/-- **C71 (violated).** A memoization point, or a thunk, without a name: in the DCG engine, in every state, it panics, whatever the function. -/
theorem C71_unnamed_panics (env : Env V) (pt : String → ProgPt) (n : Nat) (s : St V) (ty : Ty) (text : String) (fn : FnId) (arg : V) :
    (∀ k, exec env n (memo pt ty none text fn arg k) s = .panic .eagerUnreachable s) ∧
    (∀ k, exec env n (thunkFun pt ty none text fn arg k) s = .panic .eagerUnreachable s) ∧
    (∀ k, exec env n (thunkBody pt ty none text fn arg k) s = .panic .eagerUnreachable s) := by
  refine ⟨fun k => ?_, fun k => ?_, fun k => ?_⟩ <;>
    simp [memo, thunkFun, thunkBody, optChoice, exec, runProg, opThunk, M.bind_def, M.get_def, M.panic_def]

/-- **C71 (the half that holds).** In the naive engine a memoization point without a name is an ordinary call; so is one with a name. -/
theorem C71_naive_memo_is_a_call (rec : FnId → V → NOut V) (nmop : Option Name) (pp : ProgPt) (fn : FnId) (arg : V) (k : V → NProg V) :
    nrun rec (.thunk (optChoice nmop) pp fn arg fun t => .force t none k) = nrun rec (.call fn arg k) := rfl

/-- What an ordinary call is in the DCG engine: the code runs in the caller, nothing is recorded. -/
theorem C71_ordinary_call (env : Env V) (n : Nat) (s : St V) (fn : FnId) (arg v : V) (s' : St V) (h : exec env n (env.code fn arg) s = .ok v s')
    (k : V → Prog V) : exec env (n + 1) (.call fn arg k) s = runProg env (recN env (n + 1)) (k v) s' := by
  show runProg env (recN env (n + 1)) (.call fn arg k) s = _
  simp only [runProg]
  rw [M.bind_ok (m := (recN env (n + 1)).run _) h]

/-! ### A session that meets the hypotheses

`let_memo!{x = (t) = { get!(a) + 1 }; x}` after `let_cell!{a = 4; ..}`; the later body is `{ get!(a) * 10 }`.  Closure 1 is the first body, closure 2 the
other one. -/
namespace MacrosEx

def H : NameHash := ⟨fun a b => a * 31 + b, fun n => UInt64.ofNat n, fun _ => 3, fun s => UInt64.ofNat s.length, fun a b => a * 37 + UInt64.ofNat b⟩
def a : Loc := ⟨.empty, .nominal (nameOfStr H "a")⟩
def env : Env Nat where
  code fn _ := .force 0 a none fun v => .ret (if fn = 1 then v + 1 else v * 10)
  hashVal n := UInt64.ofNat n
  hashApp pp n := UInt64.ofNat (pp * 1000 + n)
def sig : Sig := ⟨fun l => if l = a then .cell 0 else .thunk 0 9 1, true, false, fun _ => true⟩
def start : Prog Nat := letCell H 0 "a" 4 fun _ => .ret 0
def first : Prog Nat := letMemo H (fun _ => 9) 0 "tt" "get!(a) + 1" 1 0 fun _ v => .ret v

example : Means sig env ([start] ++ [first]) [0, 5] := ⟨3, _, rfl⟩

end MacrosEx

end Adapton
