import Verif.Engine.Run
import Verif.Engine.Earn
/-
Editor programs: every interleaving of allocation, mutation and demand agrees with the reference semantics.
-/
set_option linter.unusedSectionVars false
set_option linter.unusedVariables false
namespace Adapton
open Ref (Sig Kind Store Ext upd ES)
variable {V : Type} [DecidableEq V]
variable {sig : Sig} {env : Env V} {s s' s'' : St V} {σ σ' σ'' : Store V} {D D' D'' : Loc → Prop} {anc : List Loc}
variable {e e' : ES V}

/-- The engine state agrees with the state of the editor. -/
structure EInv (sig : Sig) (env : Env V) (s : St V) (e : ES V) : Prop where
  inv : ∃ D, Inv sig env s e.cur D
  ext : Ext e.base e.cur
  same : Ref.SameS e.base e.cur
  stack : s.stack = []

theorem Inv.shrink (h : Inv sig env s σ D) (hs : Ext σ' σ) (hss : Ref.SameS σ' σ) : Inv sig env s σ' (fun _ => False) :=
  { h with
    store := fun l v hl => h.store l v (hs l v hl)
    settled := fun x hx => hx.elim
    fixed := fun l n hl hn => (hss l hl).trans (h.fixed l n hl hn)
    pureRes := fun hp l nd w hl hn hr => by
      obtain ⟨k, hk⟩ := h.pureRes hp l nd w hl hn hr
      exact ⟨k, Ref.frc_same (sig := sig.full) hp hl hk (fun x hx => (hss x hx).symm)⟩ }

theorem AncOK.top (hs : s.stack = []) : AncOK s σ [] where
  stk := by unfold St.locs; rw [hs]; exact fun l h => h
  dom := fun b h => by cases h

theorem upd_of_some {l : Loc} {v : V} (h : σ l = some v) : upd σ l v = σ := by
  funext x
  unfold upd
  split
  · subst_vars; exact h.symm
  · rfl

/-- An edit is an allocation in a smaller store. -/
theorem EInv.edit (h : EInv sig env s e) (l : Loc) (v : V) (hm : Ref.mayEdit e l v = true) :
    ∃ σ0 D0, Inv sig env s σ0 D0 ∧ Ref.alloc σ0 l v = some (Ref.edit e l v).cur ∧
      Ext (Ref.edit e l v).base (Ref.edit e l v).cur ∧ Ref.SameS (Ref.edit e l v).base (Ref.edit e l v).cur := by
  obtain ⟨D, hI⟩ := h.inv
  simp only [Ref.edit_dec]
  by_cases hc : e.cur l = none ∨ e.cur l = some v
  · rw [if_pos hc]
    refine ⟨e.cur, D, hI, ?_, ?_, ?_⟩
    · rcases hc with hc | hc
      · rw [Ref.alloc_dec]; rw [hc]
      · rw [Ref.alloc_dec]; rw [hc]; simp only [if_true]; rw [upd_of_some hc]
    · intro x w hx
      unfold upd at hx ⊢
      split
      · rename_i hxl; rw [if_pos hxl] at hx; exact hx
      · rename_i hxl; rw [if_neg hxl] at hx; exact h.ext x w hx
    · intro x hx
      unfold upd
      split
      · rfl
      · exact h.same x hx
  · rw [if_neg hc]
    have hnom : l.isStruct = false := by
      unfold Ref.mayEdit at hm
      cases hl : l.isStruct
      · rfl
      · rw [hl] at hm
        rcases hcl : e.cur l with _ | w
        · exact absurd (.inl hcl) hc
        · rw [hcl] at hm
          simp only [Bool.not_true, Bool.false_or, decide_eq_true_eq, ueq_eq] at hm
          exact absurd (.inr (by rw [hcl, hm])) hc
    refine ⟨fun x => if x = l then none else e.base x, fun _ => False, hI.shrink ?_ ?_, ?_, Ext.refl _, fun _ _ => rfl⟩
    · intro x w hx
      simp only at hx
      split at hx
      · cases hx
      · exact h.ext x w hx
    · intro x hx
      simp only
      split
      · subst_vars; rw [hnom] at hx; cases hx
      · exact h.same x hx
    · rw [Ref.alloc_dec]
      simp only [if_true]
      congr 1
      funext x
      unfold upd
      split
      · rfl
      · rename_i hne; simp only; rw [if_neg hne]

theorem pushEdge_nil (hs : s.stack = []) (q : Succ V × Option (Dep V)) : pushEdge s.stack q = s.stack := by rw [hs]; rfl

/-- `set` by the editor. -/
theorem setCell_post (h : Inv sig env s σ D) (hanc : AncOK s σ anc) {l : Loc} {ty : Ty} {v : V} {n : Node V}
    (hk : sig l = .cell ty) (hnom : l.isStruct = false) (hg : s.table.get l = some n) (ha : Ref.alloc σ l v = some σ') :
    ∃ s', setCell ty l v s = .ok () s' ∧ Post sig env anc s σ D s' σ' D ∧ s'.stack = s.stack := by
  have hvis : Vis sig l := fun _ _ hs => by rw [hnom] at hs; cases hs
  obtain ⟨nd, rfl, hty⟩ := h.getCell hk hvis hg
  by_cases hv : nd.val = v
  · refine ⟨s, ?_, Post.extend h hg (by rw [← hv]; rfl) ha, rfl⟩
    unfold setCell
    rw [M.bind_ok (resNode_ok hg hty)]
    simp only []; rw [ueq_pos hv]; rfl
  · have hσ : σ l = none := by
      cases hσ : σ l with
      | none => rfl
      | some w =>
        obtain ⟨nd', g1, _, g2⟩ := h.storeCell hk hvis hσ
        rw [hg] at g1; cases g1
        rw [Ref.alloc_dec] at ha
        rw [hσ] at ha
        simp only at ha
        split at ha
        · subst_vars; exact absurd rfl hv
        · cases ha
    obtain ⟨s2, g1, g2, g3⟩ := change_post (n' := .mut { nd with val := v }) h hanc hg hσ ha rfl
      (fun he => hv (by simpa [Node.cont] using he))
      ⟨by simpa [hty] using hk, hvis⟩ rfl (.inr ⟨nd, _, rfl, rfl⟩) s.log
    refine ⟨s2, ?_, g2, g3⟩
    unfold setCell
    rw [M.bind_ok (resNode_ok hg hty)]
    simp only []
    rw [ueq_neg hv, M.bind_ok (m := putNode _ _) rfl, ← g1]

/-- Forcing by the editor. -/
theorem editor_demand_paid {n : Nat} {m : Bool} {ty : Ty} {l : Loc} {v : V}
    (hd : Ref.demand sig (Ref.recN sig env n) m ty l e = some (e', v)) (h : EInv sig env s e) (hi : s.ignoreNominal = m) :
    ((∃ nd, s.table.get l = some (.mut nd) ∧ nd.ty = ty ∧ nd.val = v ∧ e' = e) ∨
     (∃ nd, s.table.get l = some (.comp nd) ∧ nd.ty = ty) ∨
     (∃ nd, s.table.get l = some (.pure nd) ∧ nd.ty = ty)) ∧
    ∀ cyc, ∃ s', Runs env (fun R => opForce R ty l cyc) s v s' ∧ EInv sig env s' e' ∧ s'.path = s.path ∧
      s'.ignoreNominal = s.ignoreNominal ∧ Dues s s' := by
  obtain ⟨D, hI⟩ := h.inv
  have hnd : ∀ x, dupOf s x = false := fun x => by unfold dupOf; rw [h.stack]
  unfold Ref.demand at hd
  cases hk : sig l with
  | cell ty' =>
    rw [hk] at hd
    simp only at hd
    by_cases hty : ty' = ty
    · rw [if_pos hty] at hd
      subst hty
      rcases hσ : e.cur l with _ | c
      · rw [hσ] at hd; cases hd
      · rw [hσ] at hd
        cases hd
        by_cases hpv : l.isStruct = true ∧ sig.pu = true
        · obtain ⟨nd, g1, g2, g3⟩ := hI.storePure hk hpv.1 hpv.2 hσ
          subst g3
          exact ⟨.inr (.inr ⟨nd, g1, g2⟩), fun cyc => ⟨_, Runs.ofEq (fun R => opForce_pure R cyc g1 g2),
            ⟨⟨D, hI.congr rfl rfl rfl⟩, h.ext, h.same, h.stack⟩, rfl, rfl, Nat.le_refl _, Nat.le_refl _⟩⟩
        have hvis : Vis sig l := fun _ _ h1 => by
          cases hp : sig.pu
          · rfl
          · exact absurd ⟨h1, hp⟩ hpv
        obtain ⟨nd, g1, g2, g3⟩ := hI.storeCell hk hvis hσ
        subst g3
        refine ⟨.inl ⟨nd, g1, g2, rfl, rfl⟩, fun cyc => ?_⟩
        refine ⟨_, Runs.ofEq (fun R => opForce_cell R cyc g1 g2), ?_, ?_, ?_, ?_⟩
        · rw [hnd]
          refine ⟨⟨D, hI.congr rfl ?_ rfl⟩, h.ext, h.same, ?_⟩
          · exact pushEdge_locs _ _
          · simp only [recObs, Bool.false_eq_true, if_false]
            rw [h.stack]; rfl
        · rw [hnd]; rfl
        · rw [hnd]; rfl
        · rw [hnd]; exact ⟨Nat.le_refl _, by unfold Earn EarnTo spent earned St.locs; simp only [recObs, Bool.false_eq_true, if_false]; rw [h.stack]; exact Nat.le_refl _⟩
    · rw [if_neg hty] at hd; cases hd
  | thunk ty' pp fn =>
    rw [hk] at hd
    simp only at hd
    by_cases hty : ty' = ty ∧ m = sig.mode
    · rw [if_pos hty] at hd
      obtain ⟨rfl, hm⟩ := hty
      rcases hf : Ref.editorForce (Ref.recN sig env n) l e with _ | ⟨σ', v'⟩
      · rw [hf] at hd; cases hd
      · rw [hf] at hd
        cases hd
        obtain ⟨σ0, D0, hI0, hf0, hext0⟩ : ∃ σ0 D0, Inv sig env s σ0 D0 ∧ (Ref.recN sig env n).frc [] σ0 l = some (σ', v) ∧
            Ext e.base σ0 := by
          unfold Ref.editorForce at hf
          rcases hc : (Ref.recN sig env n).frc [] e.cur l with _ | r
          · rw [hc] at hf
            exact ⟨e.base, _, hI.shrink h.ext h.same, hf, Ext.refl _⟩
          · rw [hc] at hf
            cases hf
            exact ⟨e.cur, D, hI, hc, h.ext⟩
        refine ⟨.inr (.inl ?_), fun cyc => ?_⟩
        · cases n with
          | zero => simp only [Ref.recN] at hf0; cases hf0
          | succ n =>
            obtain ⟨_, _, _, arg, _, h1, h2, _⟩ := Ref.frc_succ hf0
            rw [hk] at h1; cases h1
            obtain ⟨nd, j1, j2, _⟩ := hI0.storeThunk hk h2
            exact ⟨nd, j1, j2⟩
        · obtain ⟨s1, D1, hid, _, h1, h2⟩ := opForce_thunk (spec_all sig env n).1 hf0 hk hI0 (AncOK.top h.stack) (fun h => by cases h)
            (hi.trans hm) (fun hd => by rw [hnd] at hd; cases hd) cyc
          rw [hnd] at h2
          have hst1 : s1.stack = [] := h1.stack.trans h.stack
          have hst : (if hid = true then s1 else recObs s1 false (⟨false, l, .observe, .force ty' v⟩, none)) = s1 := by
            cases hid
            · simp only [recObs, Bool.false_eq_true, if_false]
              rw [hst1]; cases s1; cases hst1; rfl
            · rfl
          rw [hst] at h2
          have hearn : Earn s s1 := by
            obtain ⟨rs, hrs⟩ := h1.post.ran
            obtain ⟨N, hN⟩ := h2
            exact (opForce_earns (recN_earns env N) ty' l cyc).top (hN N (Nat.le_refl _)) h.stack hrs.runs hrs.nodup
          refine ⟨_, h2, ⟨⟨D1, h1.post.inv⟩, ?_, ?_, hst1⟩, h1.post.path, h1.post.ign, h1.post.cost, hearn⟩
          · intro x w hx
            simp only [Ref.keepStruct] at hx ⊢
            split at hx
            · exact hx
            · exact (hext0.trans h1.post.smono) x w hx
          · intro x hx
            simp only [Ref.keepStruct, hx, if_true]
    · rw [if_neg hty] at hd; cases hd

/-- Forcing by the editor, without the cost. -/
theorem editor_demand {n : Nat} {m : Bool} {ty : Ty} {l : Loc} {v : V}
    (hd : Ref.demand sig (Ref.recN sig env n) m ty l e = some (e', v)) (h : EInv sig env s e) (hi : s.ignoreNominal = m) :
    ((∃ nd, s.table.get l = some (.mut nd) ∧ nd.ty = ty ∧ nd.val = v ∧ e' = e) ∨
     (∃ nd, s.table.get l = some (.comp nd) ∧ nd.ty = ty) ∨
     (∃ nd, s.table.get l = some (.pure nd) ∧ nd.ty = ty)) ∧
    ∀ cyc, ∃ s', Runs env (fun R => opForce R ty l cyc) s v s' ∧ EInv sig env s' e' ∧ s'.path = s.path ∧
      s'.ignoreNominal = s.ignoreNominal := by
  obtain ⟨h1, h2⟩ := editor_demand_paid hd h hi
  exact ⟨h1, fun cyc => by obtain ⟨s', a, b, c, d, _⟩ := h2 cyc; exact ⟨s', a, b, c, d⟩⟩

/-- Editor programs, given their calls. -/
theorem editor_step_paid {n : Nat} {callE : Bool → Path → FnId → V → ES V → Option (ES V × V)}
    (hcall : ∀ m π fn arg e e' v s, callE m π fn arg e = some (e', v) → EInv sig env s e → s.path = π → s.ignoreNominal = m →
      ∃ s', Runs env (fun R => R.run (env.code fn arg)) s v s' ∧ EInv sig env s' e' ∧ s'.path = π ∧ s'.ignoreNominal = m ∧ Dues s s') (p : Prog V) :
    ∀ m π e e' v s, Ref.evalEd sig env (Ref.recN sig env n) callE m π p e = some (e', v) → EInv sig env s e → s.path = π → s.ignoreNominal = m →
      ∃ s', Runs env (fun R => runProg env R p) s v s' ∧ EInv sig env s' e' ∧ s'.path = π ∧ s'.ignoreNominal = m ∧ Dues s s' := by
  induction p with
  | ret v0 =>
    intro m π e e' v s he h hp hi
    simp only [Ref.evalEd] at he
    cases he
    exact ⟨s, Runs.pure, h, hp, hi, Dues.refl _⟩
  | force ty l cyc k ih =>
    intro m π e e' v s he h hp hi
    simp only [Ref.evalEd] at he
    rcases hd : Ref.demand sig (Ref.recN sig env n) m ty l e with _ | ⟨e1, w⟩
    · rw [hd] at he; cases he
    · rw [hd] at he
      obtain ⟨_, hrun⟩ := editor_demand_paid hd h hi
      obtain ⟨s1, a1, a2, a3, a4, a5⟩ := hrun cyc
      obtain ⟨s2, b1, b2, b3, b4, b5⟩ := ih w m π e1 e' v s1 he a2 (a3.trans hp) (a4.trans hi)
      exact ⟨s2, a1.bind b1, b2, b3, b4, a5.trans b5⟩
  | forceMap ty l f k ih =>
    intro m π e e' v s he h hp hi
    simp only [Ref.evalEd] at he
    rcases hd : Ref.demand sig (Ref.recN sig env n) m ty l e with _ | ⟨e1, w⟩
    · rw [hd] at he; cases he
    · rw [hd] at he
      obtain ⟨hcase, hrun⟩ := editor_demand_paid hd h hi
      have : ∃ s1, Runs env (fun R => opForceMap R ty l f) s (f w) s1 ∧ EInv sig env s1 e1 ∧ s1.path = s.path ∧ s1.ignoreNominal = s.ignoreNominal ∧ Dues s s1 := by
        rcases hcase with ⟨nd, g1, g2, rfl, rfl⟩ | ⟨nd, g1, g2⟩ | ⟨nd, g1, g2⟩
        · refine ⟨{ s with log := .eff (.force .refGet) (topLoc s) l :: s.log }, Runs.ofEq (fun R => ?_), ?_, rfl, rfl, Nat.le_refl _, Nat.le_refl _⟩
          · simp only [opForceMap]
            rw [M.bind_ok (M.get_def s), M.bind_ok (resNode_ok g1 g2)]
            simp only []
            rw [M.bind_ok (m := evEff _ _ _) rfl, M.bind_ok (recordEdge_eq _ _ _)]
            simp only [h.stack, pushEdge]
            rfl
          · obtain ⟨D, hI⟩ := h.inv
            exact ⟨⟨D, hI.congr rfl rfl rfl⟩, h.ext, h.same, h.stack⟩
        · obtain ⟨s1, ⟨N, hN⟩, a2, a3⟩ := hrun none
          refine ⟨s1, ⟨N, fun m hm => ?_⟩, a2, a3⟩
          simp only [opForceMap]
          rw [M.bind_ok (M.get_def s), M.bind_ok (resNode_ok g1 g2)]
          simp only []
          rw [M.bind_ok (hN m hm)]
          rfl
        · obtain ⟨s1, ⟨N, hN⟩, a2, a3⟩ := hrun none
          refine ⟨s1, ⟨N, fun m hm => ?_⟩, a2, a3⟩
          simp only [opForceMap]
          rw [M.bind_ok (M.get_def s), M.bind_ok (resNode_ok g1 g2)]
          simp only []
          rw [M.bind_ok (hN m hm)]
          rfl
      obtain ⟨s1, a1, a2, a3, a4, a5⟩ := this
      obtain ⟨s2, b1, b2, b3, b4, b5⟩ := ih (f w) m π e1 e' v s1 he a2 (a3.trans hp) (a4.trans hi)
      exact ⟨s2, a1.bind b1, b2, b3, b4, a5.trans b5⟩
  | forceAbs ty l f k ih =>
    intro m π e e' v s he h hp hi
    simp only [Ref.evalEd] at he
    rcases hd : Ref.demand sig (Ref.recN sig env n) m ty l e with _ | ⟨e1, w⟩
    · rw [hd] at he; cases he
    · rw [hd] at he
      obtain ⟨hcase, hrun⟩ := editor_demand_paid hd h hi
      have : ∃ s1, Runs env (fun R => opForceAbs R ty l f) s (f w) s1 ∧ EInv sig env s1 e1 ∧ s1.path = s.path ∧ s1.ignoreNominal = s.ignoreNominal ∧ Dues s s1 := by
        rcases hcase with ⟨nd, g1, g2, rfl, rfl⟩ | ⟨nd, g1, g2⟩ | ⟨nd, g1, g2⟩
        · refine ⟨{ s with log := .eff (.force .refGet) (topLoc s) l :: s.log }, Runs.ofEq (fun R => ?_), ?_, rfl, rfl, Nat.le_refl _, Nat.le_refl _⟩
          · simp only [opForceAbs]
            rw [M.bind_ok (M.get_def s), M.bind_ok (resNode_ok g1 g2)]
            simp only []
            rw [M.bind_ok (m := evEff _ _ _) rfl, M.bind_ok (recordEdge_eq _ _ _)]
            simp only [h.stack, pushEdge]
            rfl
          · obtain ⟨D, hI⟩ := h.inv
            exact ⟨⟨D, hI.congr rfl rfl rfl⟩, h.ext, h.same, h.stack⟩
        · obtain ⟨s1, ⟨N, hN⟩, a2, a3⟩ := hrun none
          refine ⟨s1, ⟨N, fun m hm => ?_⟩, a2, a3⟩
          simp only [opForceAbs]
          rw [M.bind_ok (M.get_def s), M.bind_ok (resNode_ok g1 g2)]
          simp only []
          rw [M.bind_ok (hN m hm)]
          rfl
        · obtain ⟨s1, ⟨N, hN⟩, a2, a3⟩ := hrun none
          refine ⟨s1, ⟨N, fun m hm => ?_⟩, a2, a3⟩
          simp only [opForceAbs]
          rw [M.bind_ok (M.get_def s), M.bind_ok (resNode_ok g1 g2)]
          simp only []
          rw [M.bind_ok (hN m hm)]
          rfl
      obtain ⟨s1, a1, a2, a3, a4, a5⟩ := this
      obtain ⟨s2, b1, b2, b3, b4, b5⟩ := ih (f w) m π e1 e' v s1 he a2 (a3.trans hp) (a4.trans hi)
      exact ⟨s2, a1.bind b1, b2, b3, b4, a5.trans b5⟩
  | cell ty nm c k ih =>
    intro m π e e' v s he h hp hi
    simp only [Ref.evalEd] at he
    generalize hl : Ref.cellLoc env m π nm c = l at he
    by_cases hk : sig l = .cell ty ∧ Ref.mayEdit e l c = true
    · rw [if_pos hk] at he
      obtain ⟨σ0, D0, i1, i2, i3, i4⟩ := h.edit l c hk.2
      obtain ⟨s1, a2, a3, hcase⟩ := opCell_post (env := env) (anc := []) (n := nm) i1 (AncOK.top h.stack)
        (by rw [hi, hp]; exact hl.symm) hk.1 i2
      have hst : s1.stack = [] := a3.trans h.stack
      have a1 : opCell env ty nm c s = .ok l s1 := by
        rcases hcase with ⟨_, a1⟩ | ⟨_, a1⟩
        · rw [pushEdge_nil hst] at a1; exact a1
        · exact a1
      obtain ⟨s2, b1, b2, b3, b4, b5⟩ := ih l m π _ e' v s1 he ⟨⟨D0, a2.inv⟩, i3, i4, hst⟩ (a2.path.trans hp) (a2.ign.trans hi)
      obtain ⟨rs, hrs⟩ := a2.ran
      exact ⟨s2, (Runs.const a1).bind b1, b2, b3, b4, Dues.trans ⟨a2.cost, (opCell_earns env ty nm c).top a1 h.stack hrs.runs hrs.nodup⟩ b5⟩
    · rw [if_neg hk] at he; cases he
  | thunk ty nc pp fn arg k ih =>
    intro m π e e' v s he h hp hi
    simp only [Ref.evalEd] at he
    rcases hl : Ref.thunkLoc env m π nc pp arg with _ | l
    · rw [hl] at he; cases he
    rw [hl] at he
    simp only at he
    by_cases hk : sig l = .thunk ty pp fn ∧ Ref.mayEdit e l arg = true
    · rw [if_pos hk] at he
      obtain ⟨σ0, D0, i1, i2, i3, i4⟩ := h.edit l arg hk.2
      obtain ⟨s1, a2, a3, hcase⟩ := opThunk_post (env := env) (anc := []) i1 (AncOK.top h.stack)
        (by rw [hi, hp]; exact hl) hk.1 i2
      have hst : s1.stack = [] := a3.trans h.stack
      have a1 : opThunk env ty nc pp fn arg s = .ok l s1 := by
        rcases hcase with ⟨_, a1⟩ | ⟨_, a1 | a1⟩
        · rw [pushEdge_nil hst] at a1; exact a1
        · rw [pushEdge_nil hst] at a1; exact a1
        · exact a1
      obtain ⟨s2, b1, b2, b3, b4, b5⟩ := ih l m π _ e' v s1 he ⟨⟨D0, a2.inv⟩, i3, i4, hst⟩ (a2.path.trans hp) (a2.ign.trans hi)
      obtain ⟨rs, hrs⟩ := a2.ran
      exact ⟨s2, (Runs.const a1).bind b1, b2, b3, b4, Dues.trans ⟨a2.cost, (opThunk_earns env ty nc pp fn arg).top a1 h.stack hrs.runs hrs.nodup⟩ b5⟩
    · rw [if_neg hk] at he; cases he
  | set ty l v0 k ih =>
    intro m π e e' v s he h hp hi
    simp only [Ref.evalEd] at he
    by_cases hk : sig l = .cell ty ∧ e.cur l ≠ none ∧ l.isStruct = false
    · rw [if_pos hk] at he
      obtain ⟨hk, hne, hnom⟩ := hk
      obtain ⟨σ0, D0, i1, i2, i3, i4⟩ := h.edit l v0 (by unfold Ref.mayEdit; rw [hnom]; rfl)
      obtain ⟨n', hn'⟩ : ∃ n', s.table.get l = some n' := by
        obtain ⟨D, hI⟩ := h.inv
        cases hc : e.cur l with
        | none => exact absurd hc hne
        | some c => obtain ⟨m, g1, _⟩ := hI.store l c hc; exact ⟨m, g1⟩
      obtain ⟨s1, a1, a2, a3⟩ := setCell_post (anc := []) i1 (AncOK.top h.stack) hk hnom hn' i2
      have hst : s1.stack = [] := a3.trans h.stack
      obtain ⟨s2, b1, b2, b3, b4, b5⟩ := ih m π _ e' v s1 he ⟨⟨D0, a2.inv⟩, i3, i4, hst⟩ (a2.path.trans hp) (a2.ign.trans hi)
      have hset : opSet ty l v0 s = .ok () s1 := by
        unfold opSet
        rw [M.bind_ok (M.get_def s)]
        simp only [h.stack, List.isEmpty_nil, if_true]
        exact a1
      obtain ⟨rs, hrs⟩ := a2.ran
      exact ⟨s2, (Runs.const hset).bind (g := fun R _ => runProg env R k) b1, b2, b3, b4, Dues.trans ⟨a2.cost, (opSet_earns ty l v0).top hset h.stack hrs.runs hrs.nodup⟩ b5⟩
    · rw [if_neg hk] at he; cases he
  | ns nm body k ihb ihk =>
    intro m π e e' v s he h hp hi
    simp only [Ref.evalEd] at he
    rcases hb : Ref.evalEd sig env (Ref.recN sig env n) callE m (.child π nm) body e with _ | ⟨e1, w⟩
    · rw [hb] at he; cases he
    · rw [hb] at he
      obtain ⟨D, hI⟩ := h.inv
      obtain ⟨s1, ⟨N1, h1⟩, a2, a3, a4, a5⟩ := ihb m (.child π nm) e e1 w { s with path := .child s.path nm } hb
        ⟨⟨D, hI.congr rfl rfl rfl⟩, h.ext, h.same, h.stack⟩ (by simp only [hp]) hi
      obtain ⟨D1, hI1⟩ := a2.inv
      obtain ⟨s2, ⟨N2, h2⟩, b2, b3, b4, b5⟩ := ihk w m π e1 e' v { s1 with path := s.path } he
        ⟨⟨D1, hI1.congr rfl rfl rfl⟩, a2.ext, a2.same, a2.stack⟩ hp a4
      refine ⟨s2, ⟨max N1 N2, fun m hm => ?_⟩, b2, b3, b4, Dues.trans (b := s1) a5 b5⟩
      simp only [runProg]
      rw [M.bind_ok (M.get_def s), M.bind_ok (m := M.modify _) rfl, M.bind_ok (h1 m (by omega)),
        M.bind_ok (m := M.modify _) rfl]
      exact h2 m (by omega)
  | structural body k ihb ihk =>
    intro m π e e' v s he h hp hi
    simp only [Ref.evalEd] at he
    rcases hb : Ref.evalEd sig env (Ref.recN sig env n) callE true π body e with _ | ⟨e1, w⟩
    · rw [hb] at he; cases he
    · rw [hb] at he
      obtain ⟨D, hI⟩ := h.inv
      obtain ⟨s1, ⟨N1, h1⟩, a2, a3, a4, a5⟩ := ihb true π e e1 w { s with ignoreNominal := true } hb
        ⟨⟨D, hI.congr rfl rfl rfl⟩, h.ext, h.same, h.stack⟩ hp rfl
      obtain ⟨D1, hI1⟩ := a2.inv
      obtain ⟨s2, ⟨N2, h2⟩, b2, b3, b4, b5⟩ := ihk w m π e1 e' v { s1 with ignoreNominal := s.ignoreNominal } he
        ⟨⟨D1, hI1.congr rfl rfl rfl⟩, a2.ext, a2.same, a2.stack⟩ a3 hi
      refine ⟨s2, ⟨max N1 N2, fun m hm => ?_⟩, b2, b3, b4, Dues.trans (b := s1) a5 b5⟩
      simp only [runProg]
      rw [M.bind_ok (M.get_def s), M.bind_ok (m := M.modify _) rfl, M.bind_ok (h1 m (by omega)),
        M.bind_ok (m := M.modify _) rfl]
      exact h2 m (by omega)
  | call fn arg k ih =>
    intro m π e e' v s he h hp hi
    simp only [Ref.evalEd] at he
    rcases hb : callE m π fn arg e with _ | ⟨e1, w⟩
    · rw [hb] at he; cases he
    · rw [hb] at he
      obtain ⟨s1, a1, a2, a3, a4, a5⟩ := hcall m π fn arg e e1 w s hb h hp hi
      obtain ⟨s2, b1, b2, b3, b4, b5⟩ := ih w m π e1 e' v s1 he a2 a3 a4
      exact ⟨s2, a1.bind b1, b2, b3, b4, a5.trans b5⟩
  | panic =>
    intro m π e e' v s he
    simp only [Ref.evalEd] at he
    cases he

/-- Editor calls. -/
theorem editor_call_paid (sig : Sig) (env : Env V) : ∀ n m π fn arg e e' v s,
    Ref.callEN sig env n m π fn arg e = some (e', v) → EInv sig env s e → s.path = π → s.ignoreNominal = m →
      ∃ s', Runs env (fun R => R.run (env.code fn arg)) s v s' ∧ EInv sig env s' e' ∧ s'.path = π ∧ s'.ignoreNominal = m ∧ Dues s s' := by
  intro n
  induction n with
  | zero => intro m π fn arg e e' v s h; simp only [Ref.callEN] at h; cases h
  | succ n ih =>
    intro m π fn arg e e' v s h h1 h2 h3
    simp only [Ref.callEN] at h
    obtain ⟨s', a1, a2⟩ := editor_step_paid ih _ m π e e' v s h h1 h2 h3
    exact ⟨s', a1.run, a2⟩

/-- Editor programs agree with the reference from any state that agrees with it. -/
theorem editor_ok_paid {n : Nat} {m : Bool} {π : Path} {p : Prog V} {v : V}
    (h : Ref.evalEd sig env (Ref.recN sig env n) (Ref.callEN sig env n) m π p e = some (e', v)) (hs : EInv sig env s e) (hp : s.path = π)
    (hi : s.ignoreNominal = m) :
    ∃ s', Runs env (fun R => runProg env R p) s v s' ∧ EInv sig env s' e' ∧ s'.path = π ∧ s'.ignoreNominal = m ∧ Dues s s' :=
  editor_step_paid (editor_call_paid sig env n) p m π e e' v s h hs hp hi

theorem editor_call (sig : Sig) (env : Env V) : ∀ n m π fn arg e e' v s,
    Ref.callEN sig env n m π fn arg e = some (e', v) → EInv sig env s e → s.path = π → s.ignoreNominal = m →
      ∃ s', Runs env (fun R => R.run (env.code fn arg)) s v s' ∧ EInv sig env s' e' ∧ s'.path = π ∧ s'.ignoreNominal = m := by
  intro n m π fn arg e e' v s h1 h2 h3 h4
  obtain ⟨s', a, b, c, d, _⟩ := editor_call_paid sig env n m π fn arg e e' v s h1 h2 h3 h4
  exact ⟨s', a, b, c, d⟩

theorem editor_ok {n : Nat} {m : Bool} {π : Path} {p : Prog V} {v : V}
    (h : Ref.evalEd sig env (Ref.recN sig env n) (Ref.callEN sig env n) m π p e = some (e', v)) (hs : EInv sig env s e) (hp : s.path = π)
    (hi : s.ignoreNominal = m) :
    ∃ s', Runs env (fun R => runProg env R p) s v s' ∧ EInv sig env s' e' ∧ s'.path = π ∧ s'.ignoreNominal = m := by
  obtain ⟨s', a, b, c, d, _⟩ := editor_ok_paid h hs hp hi
  exact ⟨s', a, b, c, d⟩

theorem EInv.init (sig : Sig) (env : Env V) : EInv sig env (initSt sig.pu sig.mode) Ref.emptyES where
  inv := by
    refine ⟨fun _ => False, ⟨⟨?_, ?_, ?_, ?_, ?_, fun _ _ _ _ h => by cases h⟩, ?_, ?_, ?_, ?_, ?_, ?_, rfl, ?acyc, ?fixed, ?pureRes⟩⟩
    case fixed => intro l n _ h; cases h
    case pureRes => intro _ l nd w _ h; cases h
    case acyc => intro p; exact ⟨p, by rintro x ⟨nd, e, h, _⟩; cases h⟩
    · intro l n h; cases h
    · intro p nd e h; cases h
    · intro p nd e h; cases h
    · intro p nd e h; cases h
    · intro p nd h; cases h
    · intro p nd e h; cases h
    · exact List.nodup_nil
    · intro l h; cases h
    · intro p nd v h; cases h
    · intro l v h; cases h
    · intro x h; exact h.elim
  ext := Ext.refl _
  same := fun _ _ => rfl
  stack := rfl

theorem session_ok_paid {n : Nat} : ∀ (ps : List (Prog V)) (vs : List V) (s : St V) (e e' : ES V),
    Ref.session sig env n ps e = some (e', vs) → EInv sig env s e → s.path = .empty → s.ignoreNominal = sig.mode →
    ∃ s' N, (∀ m, N ≤ m → runSession env m ps s = .ok vs s') ∧ EInv sig env s' e' ∧ s'.path = .empty ∧ s'.ignoreNominal = sig.mode ∧ Dues s s' := by
  intro ps
  induction ps with
  | nil =>
    intro vs s e e' h hs hp hi
    cases h
    exact ⟨s, 0, fun _ _ => rfl, hs, hp, hi, Dues.refl _⟩
  | cons p ps ih =>
    intro vs s e e' h hs hp hi
    simp only [Ref.session] at h
    rcases h1 : Ref.evalEd sig env (Ref.recN sig env n) (Ref.callEN sig env n) sig.mode .empty p e with _ | ⟨e1, v⟩
    · rw [h1] at h; cases h
    · rw [h1] at h
      simp only at h
      rcases h2 : Ref.session sig env n ps e1 with _ | ⟨e2, vs1⟩
      · rw [h2] at h; cases h
      · rw [h2] at h
        cases h
        obtain ⟨s1, ⟨N1, a1⟩, a2, a3, a4, a5⟩ := editor_ok_paid h1 hs hp hi
        obtain ⟨s2, N2, b1, b2, b3, b4, b5⟩ := ih vs1 s1 e1 e' h2 a2 a3 a4
        refine ⟨s2, max N1 N2, fun m hm => ?_, b2, b3, b4, a5.trans b5⟩
        simp only [runSession]
        rw [M.bind_ok (m := exec env m p) (a1 m (by omega)), M.bind_ok (b1 m (by omega))]
        rfl

theorem session_ok {n : Nat} (ps : List (Prog V)) (vs : List V) (s : St V) (e e' : ES V)
    (h : Ref.session sig env n ps e = some (e', vs)) (hs : EInv sig env s e) (hp : s.path = .empty) (hi : s.ignoreNominal = sig.mode) :
    ∃ s' N, (∀ m, N ≤ m → runSession env m ps s = .ok vs s') ∧ EInv sig env s' e' ∧ s'.path = .empty ∧ s'.ignoreNominal = sig.mode := by
  obtain ⟨s', N, a, b, c, d, _⟩ := session_ok_paid ps vs s e e' h hs hp hi
  exact ⟨s', N, a, b, c, d⟩

end Adapton
