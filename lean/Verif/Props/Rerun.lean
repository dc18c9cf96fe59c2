import Verif.Props.Consistency
import Verif.Props.Forcing
/-
C66: which thunks are run by a demand.  Each at most once, and only for a reason: it has no cached result, its argument has
changed, a value it has observed has changed, or something it has allocated was overwritten; and such a reason can be traced back
to its root.  A second demand runs nothing.
-/
set_option linter.unusedSectionVars false
set_option linter.unusedVariables false
namespace Adapton
open Ref (Sig Kind Means Store Ext ES)
variable {V : Type} [DecidableEq V]

/-! ### The specification -/

/-- The value that an observer of `x` gets: the content of a cell, the cached result of a thunk. -/
def St.value (s : St V) (x : Loc) : Option V :=
  match s.table.get x with
  | some (.mut nd) => some nd.val
  | some (.pure nd) => some nd.val
  | some (.comp nd) => nd.res
  | none => none

/-- What was allocated at `x`: the content of a cell, the argument of a thunk. -/
def St.contentAt (s : St V) (x : Loc) : Option V :=
  match s.table.get x with
  | some (.mut nd) => some nd.val
  | some (.pure nd) => some nd.val
  | some (.comp nd) => some nd.arg
  | none => none

/-- The value `w` is not what the recorded observation `e` has seen: `force` records the value, `force_map` its image. -/
def Differs (e : Succ V) (w : V) : Prop :=
  match e.dep with
  | .force _ v => v ≠ w
  | .forceMap _ f r => r ≠ f w
  | _ => True

/-- The reasons for running the code of the thunk `x` in a demand that leads from `s` to `s'` and runs the thunks `rs`. -/
inductive Cause (s s' : St V) (rs : List Loc) : Loc → Prop
  /-- It is new, or has no cached result. -/
  | unevaluated {x} (h : ∀ nd, s.table.get x = some (.comp nd) → nd.res = none) : Cause s s' rs x
  /-- It was allocated again with another argument. -/
  | argument {x} (h : s.contentAt x ≠ s'.contentAt x) : Cause s s' rs x
  /-- Its last run has allocated something that is flagged as overwritten, or overwritten in this demand. -/
  | overwritten {x nd e} (h : s.table.get x = some (.comp nd)) (he : e ∈ nd.succs) (ha : e.effect = .allocate)
      (hd : e.dirty = true ∨ s.contentAt e.loc ≠ s'.contentAt e.loc) : Cause s s' rs x
  /-- Its last run has observed another value of something that is not run in this demand. -/
  | changed {x nd e w} (h : s.table.get x = some (.comp nd)) (he : e ∈ nd.succs) (ha : e.effect = .observe)
      (hw : s'.value e.loc = some w) (hd : Differs e w) (hn : e.loc ∉ rs) : Cause s s' rs x
  /-- Its last run has observed another value of a thunk that is run in this demand, for a reason. -/
  | caused {x nd e w} (h : s.table.get x = some (.comp nd)) (he : e ∈ nd.succs) (ha : e.effect = .observe)
      (hw : s'.value e.loc = some w) (hd : Differs e w) (hn : e.loc ∈ rs) (hc : Cause s s' rs e.loc) : Cause s s' rs x

/-! ### Proof -/

theorem differs_of_not_ok {e : Succ V} {w : V} (h : ¬ e.dep.okVal w) : Differs e w := by
  unfold Differs
  cases hd : e.dep <;> rw [hd] at h <;> first | exact h | trivial

theorem Ref.session_snoc {sig : Sig} {env : Env V} {n : Nat} {p : Prog V} : ∀ {ps : List (Prog V)} {us : List V} {e e2 : ES V},
    Ref.session sig env n (ps ++ [p]) e = some (e2, us) → ∃ e1 vs v, Ref.session sig env n ps e = some (e1, vs) ∧
      Ref.evalEd sig env (Ref.recN sig env n) (Ref.callEN sig env n) sig.mode .empty p e1 = some (e2, v) ∧ us = vs ++ [v] := by
  intro ps
  induction ps with
  | nil =>
    intro us e e2 h
    simp only [List.nil_append, Ref.session] at h
    rcases h1 : Ref.evalEd sig env (Ref.recN sig env n) (Ref.callEN sig env n) sig.mode .empty p e with _ | ⟨e1, v⟩
    · rw [h1] at h; cases h
    · rw [h1] at h; cases h
      exact ⟨e, [], v, rfl, h1, rfl⟩
  | cons q ps ih =>
    intro us e e2 h
    simp only [List.cons_append, Ref.session] at h
    rcases h1 : Ref.evalEd sig env (Ref.recN sig env n) (Ref.callEN sig env n) sig.mode .empty q e with _ | ⟨e1, v⟩
    · rw [h1] at h; cases h
    · rw [h1] at h
      simp only at h
      rcases h2 : Ref.session sig env n (ps ++ [p]) e1 with _ | ⟨e3, vs1⟩
      · rw [h2] at h; cases h
      · rw [h2] at h; cases h
        obtain ⟨e4, vs, w, k1, k2, k3⟩ := ih h2
        refine ⟨e4, v :: vs, w, ?_, k2, by rw [k3]; rfl⟩
        simp only [Ref.session, h1, k1]

/-- Forcing, by the editor, a thunk with a cached result and without dirty dependencies. -/
theorem force_settled (env : Env V) (n : Nat) (s : St V) (l : Loc) (nd : CompNode V) (v : V) (cyc : Option V) (hst : s.stack = [])
    (hl : s.table.get l = some (.comp nd)) (hv : nd.res = some v) (hc : AllClean nd.succs) :
    ∃ s', exec env (n + 1) (.force nd.ty l cyc .ret) s = .ok v s' ∧ NoChange s s' := by
  have key : ∃ s', opForce (recN env (n + 1)) nd.ty l cyc s = .ok v s' ∧ NoChange s s' := by
    unfold opForce
    rw [M.bind_ok (M.get_def s), M.bind_ok (resNode_ok (ty := nd.ty) hl rfl)]
    simp only []
    have hcy : (s.stack.any fun fr => decide (fr.loc = l)) = false := by rw [hst]; rfl
    rw [hcy]
    simp only [Bool.false_eq_true, if_false, hv]
    rw [M.bind_ok (m := evBegin _ _ _) rfl]
    have hcl : (recN env (n + 1)).cleanForce nd.ty v l { s with log := .begin (.force .compCacheHit) (topLoc s) l :: s.log } =
        .ok (decide (v ≠ v)) { s with log := .begin (.force .compCacheHit) (topLoc s) l :: s.log } :=
      cleanForce_clean (s := { s with log := .begin (.force .compCacheHit) (topLoc s) l :: s.log }) hl rfl hc hv _
    rw [M.bind_ok hcl, M.bind_ok (m := evEnd) rfl,
      M.bind_ok (resNode_ok (ty := nd.ty) (n := .comp nd)
        (s := { s with log := .end_ :: .begin (.force .compCacheHit) (topLoc s) l :: s.log }) hl rfl)]
    simp only [hv]
    obtain ⟨s', h1, h2⟩ := fin_noChange (match l.id with
      | .structural _ => decide (nd.succs.length = 0) && s.purity
      | .nominal _ => false) (dupOf s l) l nd.ty v
      { s with log := .end_ :: .begin (.force .compCacheHit) (topLoc s) l :: s.log }
    exact ⟨s', h1, (NoChange.log _ _).trans h2⟩
  obtain ⟨s', h1, h2⟩ := key
  exact ⟨s', exec_force _ _ _ _ _ _ _ _ h1, h2⟩

/-- Forcing by the editor: what is run. -/
theorem editor_demand_ran_cur {sig : Sig} {env : Env V} {s : St V} {e e' : ES V} {n : Nat} {m : Bool} {ty : Ty} {l : Loc} {v : V}
    (hd : Ref.demand sig (Ref.recN sig env n) m ty l e = some (e', v)) (h : EInv sig env s e) (hi : s.ignoreNominal = m) (cyc : Option V) :
    ∃ s' σ0 D0 σ' D' rs, Runs env (fun R => opForce R ty l cyc) s v s' ∧ Inv sig env s σ0 D0 ∧ Inv sig env s' σ' D' ∧
      RunsOK sig s D0 s' σ' D' rs ∧ s'.stack = [] ∧ σ' = e'.cur ∧
      (∀ k cyc', ∃ s'', exec env (k + 1) (.force ty l cyc' .ret) s' = .ok v s'' ∧ NoChange s' s'') ∧
      ∀ ty' pp fn, sig l = .thunk ty' pp fn → ∃ nd, s'.table.get l = some (.comp nd) ∧ nd.res = some v ∧ AllClean nd.succs ∧ D' l := by
  obtain ⟨D, hI⟩ := h.inv
  have hnd : ∀ x, dupOf s x = false := fun x => by unfold dupOf; rw [h.stack]
  unfold Ref.demand at hd
  cases hk : sig l with
  | cell ty' =>
    rw [hk] at hd
    simp only at hd
    by_cases hty : ty' = ty
    · rw [if_pos hty] at hd
      subst hty
      rcases hσ : e.cur l with _ | c
      · rw [hσ] at hd; cases hd
      · rw [hσ] at hd
        cases hd
        by_cases hpv : l.isStruct = true ∧ sig.pu = true
        · obtain ⟨nd, g1, g2, g3⟩ := hI.storePure hk hpv.1 hpv.2 hσ
          subst g3
          have hI' : Inv sig env { s with log := .eff (.force .refGet) (topLoc s) l :: s.log } e.cur D := hI.congr rfl rfl rfl
          exact ⟨_, e.cur, D, e.cur, D, [], Runs.ofEq (fun R => opForce_pure R cyc g1 g2), hI, hI',
            RunsOK.idle rfl rfl, h.stack, rfl, fun k cyc' => ⟨_, exec_force _ _ _ _ _ _ _ _
              (opForce_pure (s := { s with log := .eff (.force .refGet) (topLoc s) l :: s.log }) _ cyc' g1 g2), NoChange.log _ _⟩,
            fun _ _ _ h => by cases h⟩
        have hvis : Vis sig l := fun _ _ h1 => by
          cases hp : sig.pu
          · rfl
          · exact absurd ⟨h1, hp⟩ hpv
        obtain ⟨nd, g1, g2, g3⟩ := hI.storeCell hk hvis hσ
        subst g3
        have hst : ∀ (s : St V), s.stack = [] → (recObs { s with log := .eff (.force .refGet) (topLoc s) l :: s.log } (dupOf s l)
            (⟨false, l, .observe, .force ty' nd.val⟩, none)) = { s with log := .eff (.force .refGet) (topLoc s) l :: s.log } := by
          intro s hs
          have hnd : dupOf s l = false := by unfold dupOf; rw [hs]
          rw [hnd]
          simp only [recObs, Bool.false_eq_true, if_false]
          rw [hs]; rfl
        have hrun := fun R cyc => opForce_cell (s := s) R cyc g1 g2
        rw [hst s h.stack] at hrun
        have hrun' := fun R cyc => opForce_cell (s := { s with log := .eff (.force .refGet) (topLoc s) l :: s.log }) R cyc g1 g2
        rw [hst { s with log := .eff (.force .refGet) (topLoc s) l :: s.log } h.stack] at hrun'
        have hI' : Inv sig env { s with log := .eff (.force .refGet) (topLoc s) l :: s.log } e.cur D := hI.congr rfl rfl rfl
        exact ⟨_, e.cur, D, e.cur, D, [], Runs.ofEq (fun R => hrun R cyc), hI, hI',
            RunsOK.idle rfl rfl, h.stack, rfl, fun k cyc' => ⟨_, exec_force _ _ _ _ _ _ _ _ (hrun' _ cyc'), NoChange.log _ _⟩,
            fun _ _ _ h => by cases h⟩
    · rw [if_neg hty] at hd; cases hd
  | thunk ty' pp fn =>
    rw [hk] at hd
    simp only at hd
    by_cases hty : ty' = ty ∧ m = sig.mode
    · rw [if_pos hty] at hd
      obtain ⟨rfl, hm⟩ := hty
      rcases hf : Ref.editorForce (Ref.recN sig env n) l e with _ | ⟨σ', v'⟩
      · rw [hf] at hd; cases hd
      · rw [hf] at hd
        cases hd
        obtain ⟨σ0, D0, hI0, hf0⟩ : ∃ σ0 D0, Inv sig env s σ0 D0 ∧ (Ref.recN sig env n).frc [] σ0 l = some (σ', v) := by
          unfold Ref.editorForce at hf
          rcases hc : (Ref.recN sig env n).frc [] e.cur l with _ | r
          · rw [hc] at hf
            exact ⟨e.base, _, hI.shrink h.ext h.same, hf⟩
          · rw [hc] at hf
            cases hf
            exact ⟨e.cur, D, hI, hc⟩
        obtain ⟨s1, D1, hid, _, h1, h2⟩ := opForce_thunk (spec_all sig env n).1 hf0 hk hI0 (AncOK.top h.stack) (fun h => by cases h)
          (hi.trans hm) (fun hd => by rw [hnd] at hd; cases hd) cyc
        rw [hnd] at h2
        have hst1 : s1.stack = [] := h1.stack.trans h.stack
        have hst : (if hid = true then s1 else recObs s1 false (⟨false, l, .observe, .force ty' v⟩, none)) = s1 := by
          cases hid
          · simp only [recObs, Bool.false_eq_true, if_false]
            rw [hst1]; cases s1; cases hst1; rfl
          · rfl
        rw [hst] at h2
        obtain ⟨rs, hr⟩ := h1.post.ran
        refine ⟨s1, σ0, D0, σ', D1, rs, h2, hI0, h1.post.inv, hr, hst1, rfl, ?_⟩
        obtain ⟨nd, k1, _, _, _, k5, _⟩ := h1.post.inv.settled l h1.done
        obtain ⟨nd', j1, j2⟩ := h1.res
        rw [k1] at j1; cases j1
        have := h1.post.inv.thunkKind k1
        rw [hk] at this; cases this
        exact ⟨fun k cyc' => force_settled env k s1 l nd v cyc' hst1 k1 j2 k5, fun _ _ _ _ => ⟨nd, k1, j2, k5, h1.done⟩⟩
    · rw [if_neg hty] at hd; cases hd

theorem editor_demand_ran {sig : Sig} {env : Env V} {s : St V} {e e' : ES V} {n : Nat} {m : Bool} {ty : Ty} {l : Loc} {v : V}
    (hd : Ref.demand sig (Ref.recN sig env n) m ty l e = some (e', v)) (h : EInv sig env s e) (hi : s.ignoreNominal = m) (cyc : Option V) :
    ∃ s' σ0 D0 σ' D' rs, Runs env (fun R => opForce R ty l cyc) s v s' ∧ Inv sig env s σ0 D0 ∧ Inv sig env s' σ' D' ∧
      RunsOK sig s D0 s' σ' D' rs ∧ s'.stack = [] ∧
      (∀ k cyc', ∃ s'', exec env (k + 1) (.force ty l cyc' .ret) s' = .ok v s'' ∧ NoChange s' s'') ∧
      ∀ ty' pp fn, sig l = .thunk ty' pp fn → ∃ nd, s'.table.get l = some (.comp nd) ∧ nd.res = some v ∧ AllClean nd.succs ∧ D' l := by
  obtain ⟨s', σ0, D0, σ', D', rs, h1, h2, h3, h4, h5, _, h6⟩ := editor_demand_ran_cur hd h hi cyc
  exact ⟨s', σ0, D0, σ', D', rs, h1, h2, h3, h4, h5, h6⟩

/-- Every run has a cause. -/
theorem RunsOK.cause {sig : Sig} {env : Env V} {s s' : St V} {σ0 σ' : Store V} {D0 D' : Loc → Prop} {rs : List Loc}
    (h : RunsOK sig s D0 s' σ' D' rs) (hI : Inv sig env s σ0 D0) (hI' : Inv sig env s' σ' D') :
    ∀ x ∈ rs, Cause s s' rs x := by
  have hcont : ∀ y c, σ' y = some c → s'.contentAt y = some c := by
    intro y c hy
    obtain ⟨n, g1, g2⟩ := hI'.store y c hy
    unfold St.contentAt
    rw [g1]
    cases n <;> exact g2
  intro x
  induction hI.acyc x with
  | intro x _ ih =>
    intro hx
    rcases hg : s.table.get x with _ | n
    · exact .unevaluated (fun nd hn => by rw [hg] at hn; cases hn)
    obtain ⟨nd', k1, k2, k3, _⟩ := hI'.settled x (h.once x hx).2.1
    match n with
    | .mut nd => exact .unevaluated (fun nd hn => by rw [hg] at hn; cases hn)
    | .pure nd => exact .unevaluated (fun nd hn => by rw [hg] at hn; cases hn)
    | .comp nd =>
    rcases h.why x hx nd hg with h0 | h0 | ⟨e, he, ⟨h1, h2⟩ | ⟨h1, h2⟩⟩
    · exact .unevaluated (fun nd' hn => by rw [hg] at hn; cases hn; exact h0)
    · refine .argument ?_
      cases hv : σ' x with
      | none => exact absurd hv k3
      | some a =>
        rw [hcont x a hv, ← hv]
        unfold St.contentAt
        rw [hg]
        exact fun h => h0 h.symm
    · obtain ⟨c, g1, g2⟩ := h2
      have hval : ∃ w, s'.value e.loc = some w ∧ ¬ e.dep.okVal w := by
        cases hk : sig e.edge.loc with
        | cell ty =>
          rw [hk] at g2
          refine ⟨c, ?_, g2⟩
          obtain ⟨n, j1, j2⟩ := hI'.store _ c g1
          have j1 : s'.table.get e.loc = some n := j1
          unfold St.value
          rw [j1]
          match n with
          | .mut nd => exact j2
          | .pure nd => exact j2
          | .comp nd => have := hI'.thunkKind j1; rw [show sig e.loc = _ from hk] at this; cases this
        | thunk ty pp fn =>
          rw [hk] at g2
          obtain ⟨_, nd2, w, j1, j2, j3⟩ := g2
          have j1 : s'.table.get e.loc = _ := j1
          refine ⟨w, ?_, j3⟩
          unfold St.value
          rw [j1]; exact j2
      obtain ⟨w, j1, j2⟩ := hval
      by_cases hm : e.loc ∈ rs
      · exact .caused hg he h1 j1 (differs_of_not_ok j2) hm (ih e.loc ⟨nd, e, hg, he, h1, rfl⟩ hm)
      · exact .changed hg he h1 j1 (differs_of_not_ok j2) hm
    · rcases h2 with ⟨e2, h2, h3⟩ | ⟨n, c, g1, g2, g3⟩
      · have hm := Succ.matches_iff.1 (List.find?_some h2)
        exact .overwritten hg (List.mem_of_find?_eq_some h2) hm.1 (.inl h3)
      · refine .overwritten hg he h1 (.inr ?_)
        rw [hcont _ c g2]
        unfold St.contentAt
        rw [g1]
        match n with
        | .mut nd => exact g3
        | .pure nd => exact g3
        | .comp nd => exact g3

theorem demand_ran (sig : Sig) (env : Env V) (ps : List (Prog V)) (ty : Ty) (l : Loc) (cyc : Option V) (us : List V)
    (h : Means sig env (ps ++ [.force ty l cyc .ret]) us) (purity : Bool) (hp : purity = true → sig.pu = true)
    (n m : Nat) (vs : List V) (v : V) (s s' : St V)
    (hr : runSession env n ps (initSt purity sig.mode) = .ok vs s) (hf : exec env m (.force ty l cyc .ret) s = .ok v s') :
    ∃ σ0 D0 σ2 D2 rs, Inv (sig.withPu purity) env s σ0 D0 ∧ Inv (sig.withPu purity) env s' σ2 D2 ∧
      RunsOK (sig.withPu purity) s D0 s' σ2 D2 rs ∧ s'.stack = [] ∧
      (∀ k cyc', ∃ s'', exec env (k + 1) (.force ty l cyc' .ret) s' = .ok v s'' ∧ NoChange s' s'') ∧
      ∀ ty' pp fn, sig l = .thunk ty' pp fn → D2 l ∧ ∃ nd, s'.table.get l = some (.comp nd) ∧ nd.res = some v := by
  obtain ⟨k, e2, hk⟩ := h.withPu hp
  obtain ⟨e1, vs1, v1, h1, h2, rfl⟩ := Ref.session_snoc hk
  obtain ⟨s1, N, g1, g2, g3, g4⟩ := session_ok ps vs1 (initSt purity sig.mode) Ref.emptyES e1 h1 (EInv.init (sig.withPu purity) env) rfl rfl
  have hs : s1 = s := by
    have h2 := g1 (max n N) (Nat.le_max_right ..)
    have h3 := runSession_mono env (Nat.le_max_left n N) ps (initSt purity sig.mode) (by rw [hr]; simp)
    rw [h2, hr] at h3
    cases h3; rfl
  subst hs
  simp only [Ref.evalEd] at h2
  rcases hd : Ref.demand (sig.withPu purity) (Ref.recN (sig.withPu purity) env k) (sig.withPu purity).mode ty l e1 with _ | ⟨e3, w⟩
  · rw [hd] at h2; cases h2
  rw [hd] at h2
  cases h2
  obtain ⟨s2, σ0, D0, σ2, D2, rs, ⟨N2, r1⟩, r2, r3, r4, r5, r6⟩ := editor_demand_ran hd g2 g4 cyc
  have hex : ∀ m, N2 + 1 ≤ m → exec env m (.force ty l cyc .ret) s1 = .ok v1 s2 := by
    intro m hm
    have := r1 m (by omega)
    show runProg env (recN env m) _ _ = _
    simp only [runProg]
    rw [M.bind_ok this]; rfl
  have hs2 : s2 = s' ∧ v1 = v := by
    have h2 := hex (max m (N2 + 1)) (Nat.le_max_right ..)
    have h3 := exec_mono env (Nat.le_max_left m (N2 + 1)) (.force ty l cyc .ret) s1 (by rw [hf]; simp)
    rw [h2, hf] at h3
    cases h3; exact ⟨rfl, rfl⟩
  obtain ⟨rfl, rfl⟩ := hs2
  refine ⟨σ0, D0, σ2, D2, rs, r2, r3, r4, r5, r6.1, fun ty' pp fn hk => ?_⟩
  obtain ⟨nd, q1, q2, _, q3⟩ := r6.2 ty' pp fn hk
  exact ⟨q3, nd, q1, q2⟩


/-- **C66.** Let a session `ps` followed by a demand of `l` have a meaning.  Then, in the state `s` that `ps` leads to, the demand
runs the code of each thunk at most once (`rs` has no duplicates), and of a thunk only if there is a cause. -/
theorem C66_each_thunk_at_most_once (sig : Sig) (env : Env V) (ps : List (Prog V)) (ty : Ty) (l : Loc) (cyc : Option V) (us : List V)
    (h : Means sig env (ps ++ [.force ty l cyc .ret]) us) (purity : Bool) (hp : purity = true → sig.pu = true)
    (n m : Nat) (vs : List V) (v : V) (s s' : St V)
    (hr : runSession env n ps (initSt purity sig.mode) = .ok vs s) (hf : exec env m (.force ty l cyc .ret) s = .ok v s') :
    ∃ rs, s'.runs = rs ++ s.runs ∧ rs.Nodup ∧ ∀ x ∈ rs, Cause s s' rs x := by
  obtain ⟨_, _, _, _, rs, h2, h3, h4, _⟩ := demand_ran sig env ps ty l cyc us h purity hp n m vs v s s' hr hf
  exact ⟨rs, h4.runs, h4.nodup, h4.cause h2 h3⟩

/-- **C66.** After the demand of `l`, a demand of a thunk that it has run, or of `l` itself, returns a cached result, runs nothing, and leaves the
graph as it is. -/
theorem C66_second_demand_is_free (sig : Sig) (env : Env V) (ps : List (Prog V)) (ty : Ty) (l : Loc) (cyc : Option V) (us : List V)
    (h : Means sig env (ps ++ [.force ty l cyc .ret]) us) (purity : Bool) (hp : purity = true → sig.pu = true)
    (n m : Nat) (vs : List V) (v : V) (s s' : St V)
    (hr : runSession env n ps (initSt purity sig.mode) = .ok vs s) (hf : exec env m (.force ty l cyc .ret) s = .ok v s')
    (k : Nat) (cyc' : Option V) :
    (∃ s'', exec env (k + 1) (.force ty l cyc' .ret) s' = .ok v s'' ∧ NoChange s' s'') ∧
    ∀ rs, s'.runs = rs ++ s.runs → ∀ x ∈ rs, ∃ nd w s'', s'.table.get x = some (.comp nd) ∧ nd.res = some w ∧
      exec env (k + 1) (.force nd.ty x cyc' .ret) s' = .ok w s'' ∧ NoChange s' s'' := by
  obtain ⟨σ0, D0, σ2, D2, rs, h2, h3, h4, h5, h6, _⟩ := demand_ran sig env ps ty l cyc us h purity hp n m vs v s s' hr hf
  constructor
  · exact h6 k cyc'
  · intro rs' hrs x hx
    rw [h4.runs] at hrs
    have := List.append_cancel_right hrs
    subst this
    obtain ⟨nd, g1, g2, g3, g4, g5, g6⟩ := h3.settled x (h4.once x hx).2.1
    rcases hw : nd.res with _ | w
    · exact absurd hw g4
    · obtain ⟨s'', k1, k2⟩ := force_settled env k s' x nd w cyc' h5 g1 hw g5
      exact ⟨nd, w, s'', g1, hw, k1, k2⟩

/-! ### A session that meets the hypotheses

A diamond: `top` (name 4) forces `left` and `right` (names 2, 3), both force `shared` (name 1), which reads the cell 0; `right` looks at its sign
only.  After the cell has changed from 5 to 6, the demand of `top` runs `shared` once, although two thunks depend on it, then `left`, then
`top`, and not `right`, whose dependency `sign` (name 5) has kept its value. -/
namespace RerunEx

def nm (n : Nat) : Name := ⟨0, .usize n⟩
def at_ (n : Nat) : Loc := ⟨.empty, .nominal (nm n)⟩

def code : FnId → Nat → Prog Nat
  | 1, _ => .force 0 (at_ 0) none fun x => .ret (x + 1)
  | 2, _ => .force 0 (at_ 1) none fun x => .ret (x * 2)
  | 3, _ => .force 0 (at_ 5) none fun x => .ret (x + 100)
  | 4, _ => .force 0 (at_ 3) none fun x => .force 0 (at_ 2) none fun y => .ret (x + y)
  | 5, _ => .force 0 (at_ 1) none fun x => .ret (min x 1)
  | _, _ => .panic

def env : Env Nat := ⟨code, fun _ => 0, fun _ _ => 0⟩

def kind (l : Loc) : Kind :=
  if l = at_ 0 then .cell 0 else if l = at_ 1 then .thunk 0 1 1 else if l = at_ 2 then .thunk 0 2 2
  else if l = at_ 3 then .thunk 0 3 3 else if l = at_ 4 then .thunk 0 4 4 else .thunk 0 5 5

def sig : Sig := { kind := kind }

def ps : List (Prog Nat) :=
  [ .cell 0 (nm 0) 5 fun _ => .thunk 0 (.nominal (nm 1)) 1 1 0 fun _ => .thunk 0 (.nominal (nm 2)) 2 2 0 fun _ =>
      .thunk 0 (.nominal (nm 3)) 3 3 0 fun _ => .thunk 0 (.nominal (nm 5)) 5 5 0 fun _ =>
      .thunk 0 (.nominal (nm 4)) 4 4 0 fun l => .force 0 l none .ret,
    .set 0 (at_ 0) 6 (.ret 0) ]

def demand : Prog Nat := .force 0 (at_ 4) none .ret

example : Means sig env (ps ++ [demand]) [113, 0, 115] := ⟨10, _, rfl⟩

/-- The result, if the run is successful. -/
def result {α : Type} : Out Nat α → Option α
  | .ok a _ => some a
  | _ => none

def st : St Nat := match runSession env 10 ps (initSt false false) with | .ok _ s => s | _ => initSt false false
def st' : St Nat := match exec env 10 demand st with | .ok _ s => s | _ => st

example : result (runSession env 10 ps (initSt false false)) = some [113, 0] := by decide +kernel
example : result (exec env 10 demand st) = some 115 := by decide +kernel
example : st.runs = [at_ 2, at_ 1, at_ 5, at_ 3, at_ 4] := by decide +kernel
/-- Each thunk once; `right` is not among them. -/
example : st'.runs = [at_ 4, at_ 2, at_ 5, at_ 1] ++ st.runs := by decide +kernel

end RerunEx

end Adapton
