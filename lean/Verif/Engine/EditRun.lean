import Verif.Engine.EditSession
import Verif.Props.Rerun
import Verif.Props.Macros
import Verif.Props.OnlyDemanded
/-
What a step of an edit session runs: the edits, the allocation of the demanded thunk, and the demand, with what each leaves as it was.
-/
set_option linter.unusedSectionVars false
set_option linter.unusedVariables false
namespace Adapton.EditSession
open Ref (Sig Kind Store Ctx Ext ES Means alloc)
variable {V : Type} [DecidableEq V]

/-- From `s` to `s'` no code was run, and outside of `E` thunks keep argument, result and dependencies, cells keep their content, and allocations are not flagged. -/
structure Frame (E : Loc → Prop) (s s' : St V) : Prop where
  runs : s'.runs = s.runs
  keep : ∀ x, ¬ E x → ∀ nd, s.table.get x = some (.comp nd) → ∃ nd', s'.table.get x = some (.comp nd') ∧ nd'.arg = nd.arg ∧ nd'.res = nd.res ∧
    nd'.succs.map Succ.edge = nd.succs.map Succ.edge ∧ ∀ y, ¬ E y → KeyDirty nd'.succs .allocate y → KeyDirty nd.succs .allocate y
  cont : ∀ y, ¬ E y → ∀ n', s'.table.get y = some n' → ∃ n, s.table.get y = some n ∧ n'.cont = n.cont

theorem Frame.same {E : Loc → Prop} {s s' : St V} (ht : s'.table = s.table) (hr : s'.runs = s.runs) : Frame E s s' :=
  ⟨hr, fun x _ nd h => ⟨nd, by rw [ht]; exact h, rfl, rfl, rfl, fun _ _ h => h⟩, fun y _ n h => ⟨n, by rw [← ht]; exact h, rfl⟩⟩

theorem Frame.trans {E : Loc → Prop} {a b c : St V} (h1 : Frame E a b) (h2 : Frame E b c) : Frame E a c := by
  refine ⟨h2.runs.trans h1.runs, fun x hx nd h => ?_, fun y hy n h => ?_⟩
  rotate_left
  · obtain ⟨n1, a1, a2⟩ := h2.cont y hy n h
    obtain ⟨n2, b1, b2⟩ := h1.cont y hy n1 a1
    exact ⟨n2, b1, a2.trans b2⟩
  obtain ⟨n1, a1, a2, a3, a4, a5⟩ := h1.keep x hx nd h
  obtain ⟨n2, b1, b2, b3, b4, b5⟩ := h2.keep x hx n1 a1
  exact ⟨n2, b1, b2.trans a2, b3.trans a3, b4.trans a4, fun y hy h => a5 y hy (b5 y hy h)⟩

theorem alloc_else {σ σ' : Store V} {l x : Loc} {v : V} (h : alloc σ l v = some σ') (hx : x ≠ l) : σ' x = σ x := by
  rw [Ref.alloc_dec] at h
  rcases hl : σ l with _ | w
  · rw [hl] at h; cases h; simp [Ref.upd, hx]
  · rw [hl] at h
    simp only at h
    split at h
    · cases h; rfl
    · cases h

theorem Frame.mono {E E' : Loc → Prop} {s s' : St V} (h : Frame E s s') (he : ∀ x, E x → E' x) : Frame E' s s' := by
  refine ⟨h.runs, fun x hx nd hn => ?_, fun y hy => h.cont y fun h => hy (he y h)⟩
  obtain ⟨nd', a1, a2, a3, a4, a5⟩ := h.keep x (fun h => hx (he x h)) nd hn
  exact ⟨nd', a1, a2, a3, a4, fun y hy => a5 y (fun h => hy (he y h))⟩

/-- An allocation by the editor. -/
theorem Frame.ofPost {sig : Sig} {env : Env V} {E : Loc → Prop} {s s' : St V} {σ σ' : Store V} {D : Loc → Prop} {l : Loc} {v : V} {anc : List Loc} (hI : Inv sig env s σ D)
    (ha : alloc σ l v = some σ') (hp : Post sig env anc s σ D s' σ' D) (hE : E l ∨ ∃ nd, s.table.get l = some (.comp nd) ∧ nd.arg = v) : Frame E s s' := by
  obtain ⟨rs, hr⟩ := hp.ran
  have hrs : rs = [] := by
    rcases rs with _ | ⟨x, rs⟩
    · rfl
    · have := hr.once x (List.mem_cons_self ..)
      exact absurd this.2.1 this.1
  subst hrs
  refine ⟨hr.runs, fun x hx nd h => ?_, fun y hy n' h => ?_⟩
  rotate_left
  · by_cases hyl : y = l
    · subst hyl
      rcases hE with hE | ⟨nd1, e1, e2⟩
      · exact absurd hE hy
      · obtain ⟨n, g1, g2⟩ := hp.inv.store y v (Ref.alloc_ext ha).2
        rw [h] at g1; cases g1
        exact ⟨_, e1, by rw [g2, ← e2]; rfl⟩
    · rcases hs : σ' y with _ | c
      · exact hr.old y n' h hs
      · obtain ⟨n, g1, g2⟩ := hp.inv.store y c hs
        rw [h] at g1; cases g1
        rw [alloc_else ha hyl] at hs
        obtain ⟨m, k1, k2⟩ := hI.store y c hs
        exact ⟨m, k1, by rw [g2, k2]⟩
  obtain ⟨nd', h1, h2⟩ := hr.keep x (fun h => by cases h) nd h
  refine ⟨nd', h1, ?_⟩
  rcases h2 with ⟨h2, h3⟩ | ⟨h2, h3, h4, h5⟩
  · exfalso
    have hxl : x ≠ l := by
      rintro rfl
      rcases hE with hE | ⟨nd1, e1, e2⟩
      · exact hx hE
      · rw [h] at e1; cases e1
        rw [(Ref.alloc_ext ha).2, e2] at h3
        exact h3 rfl
    rw [alloc_else ha hxl] at h2 h3
    rcases hs : σ x with _ | c
    · exact h2 hs
    · obtain ⟨n, g1, g2⟩ := hI.store x c hs
      rw [h] at g1; cases g1
      rw [hs] at h3
      exact h3 g2.symm
  · refine ⟨h2, h3, h4, fun y hy hd => ?_⟩
    rcases h5 y hd with h6 | ⟨n, c, g1, g2, g3⟩
    · exact h6
    · exfalso
      have hyl : y ≠ l := by
        rintro rfl
        rcases hE with hE | ⟨nd1, e1, e2⟩
        · exact hy hE
        · rw [g1] at e1; cases e1
          rw [(Ref.alloc_ext ha).2] at g2; cases g2
          exact g3 (congrArg some e2)
      rw [alloc_else ha hyl] at g2
      obtain ⟨n', k1, k2⟩ := hI.store y c g2
      rw [g1] at k1; cases k1
      exact g3 k2

/-- The edits of a step. -/
theorem edits_frame {sig : Sig} {env : Env V} {E : Loc → Prop} (hE : ∀ l : Loc, l.path = .empty → E l) {cty : Ty} {k : Prog V} {n : Nat}
    {callE : Bool → Path → FnId → V → ES V → Option (ES V × V)} {r : ES V × V} (es : List (Edit V)) : ∀ (e : ES V) (s : St V),
    Ref.evalEd sig env (Ref.recN sig env n) callE false .empty (editProg cty es k) e = some r → EInv sig env s e → s.path = .empty → s.ignoreNominal = false →
    ∃ s1 e1, Ref.evalEd sig env (Ref.recN sig env n) callE false .empty k e1 = some r ∧ EInv sig env s1 e1 ∧ s1.path = .empty ∧ s1.ignoreNominal = false ∧ Frame E s s1 ∧
      ∀ v s', Runs env (fun R => runProg env R k) s1 v s' → Runs env (fun R => runProg env R (editProg cty es k)) s v s' := by
  induction es with
  | nil => intro e s he h hp hi; exact ⟨s, e, he, h, hp, hi, Frame.same rfl rfl, fun _ _ h => h⟩
  | cons ed es ih =>
    intro e s he h hp hi
    cases ed with
    | cell nm c =>
      simp only [editProg, Ref.evalEd] at he
      generalize hl : Ref.cellLoc env false .empty nm c = l at he
      by_cases hk : sig l = .cell cty ∧ Ref.mayEdit e l c = true
      · rw [if_pos hk] at he
        obtain ⟨σ0, D0, i1, i2, i3, i4⟩ := h.edit l c hk.2
        obtain ⟨s1, a2, a3, hcase⟩ := opCell_post (env := env) (anc := []) (n := nm) i1 (AncOK.top h.stack) (by rw [hi, hp]; exact hl.symm) hk.1 i2
        have hst : s1.stack = [] := a3.trans h.stack
        have a1 : opCell env cty nm c s = .ok l s1 := by
          rcases hcase with ⟨_, a1⟩ | ⟨_, a1⟩
          · rw [pushEdge_nil hst] at a1; exact a1
          · exact a1
        obtain ⟨s2, e2, b1, b2, b3, b4, b5, b6⟩ := ih _ s1 he ⟨⟨D0, a2.inv⟩, i3, i4, hst⟩ (a2.path.trans hp) (a2.ign.trans hi)
        refine ⟨s2, e2, b1, b2, b3, b4, (Frame.ofPost i1 i2 a2 (.inl (hE _ (by rw [← hl]; rfl)))).trans b5, fun v s' hr => ?_⟩
        exact (Runs.const a1).bind (b6 v s' hr)
      · rw [if_neg hk] at he; cases he
    | set nm c =>
      simp only [editProg, Ref.evalEd] at he
      by_cases hk : sig (cellAt nm) = .cell cty ∧ e.cur (cellAt nm) ≠ none ∧ (cellAt nm).isStruct = false
      · rw [if_pos hk] at he
        obtain ⟨hk, hne, hnom⟩ := hk
        obtain ⟨σ0, D0, i1, i2, i3, i4⟩ := h.edit (cellAt nm) c (by unfold Ref.mayEdit; rw [hnom]; rfl)
        obtain ⟨n', hn'⟩ : ∃ n', s.table.get (cellAt nm) = some n' := by
          obtain ⟨D, hI⟩ := h.inv
          cases hc : e.cur (cellAt nm) with
          | none => exact absurd hc hne
          | some c => obtain ⟨m, g1, _⟩ := hI.store _ c hc; exact ⟨m, g1⟩
        obtain ⟨s1, a1, a2, a3⟩ := setCell_post (anc := []) i1 (AncOK.top h.stack) hk hnom hn' i2
        have hst : s1.stack = [] := a3.trans h.stack
        obtain ⟨s2, e2, b1, b2, b3, b4, b5, b6⟩ := ih _ s1 he ⟨⟨D0, a2.inv⟩, i3, i4, hst⟩ (a2.path.trans hp) (a2.ign.trans hi)
        have hset : opSet cty (cellAt nm) c s = .ok () s1 := by
          unfold opSet
          rw [M.bind_ok (M.get_def s)]
          simp only [h.stack, List.isEmpty_nil, if_true]
          exact a1
        refine ⟨s2, e2, b1, b2, b3, b4, (Frame.ofPost i1 i2 a2 (.inl (hE _ rfl))).trans b5, fun v s' hr => ?_⟩
        exact (Runs.const hset).bind (g := fun R _ => runProg env R (editProg cty es k)) (b6 v s' hr)
      · rw [if_neg hk] at he; cases he

/-- A step: `s1` is the state in which the thunk is forced. -/
theorem step_ran {sig : Sig} {env : Env V} {E : Loc → Prop} (hE : ∀ l : Loc, l.path = .empty → E l) {cty : Ty} {nsn rn : Name}
    {ty : Ty} {pp : ProgPt} {fn : FnId} {arg : V} {es : List (Edit V)} {n : Nat} {callE : Bool → Path → FnId → V → ES V → Option (ES V × V)} {e e' : ES V} {s : St V} {v : V}
    (hE' : E ⟨.child .empty nsn, .nominal rn⟩ ∨ ∃ nd, s.table.get ⟨.child .empty nsn, .nominal rn⟩ = some (.comp nd) ∧ nd.arg = arg)
    (he : Ref.evalEd sig env (Ref.recN sig env n) callE false .empty
      (editProg cty es <| .ns nsn (.thunk ty (.nominal rn) pp fn arg fun l => .force ty l none .ret) .ret) e = some (e', v))
    (h : EInv sig env s e) (hp : s.path = .empty) (hi : s.ignoreNominal = false) :
    ∃ s1 s' σ0 D0 D' rs, Runs env (fun R => runProg env R (editProg cty es <| .ns nsn (.thunk ty (.nominal rn) pp fn arg fun l => .force ty l none .ret) .ret)) s v s' ∧
      Frame E s s1 ∧ Inv sig env s1 σ0 D0 ∧ Inv sig env s' e'.cur D' ∧ RunsOK sig s1 D0 s' e'.cur D' rs ∧ D' ⟨.child .empty nsn, .nominal rn⟩ ∧
      ∀ x ∈ rs, Leads s' ⟨.child .empty nsn, .nominal rn⟩ x ∨ (sig.pu = true ∧ x.isStruct = true) := by
  obtain ⟨s1, e1, b1, b2, b3, b4, b5, b6⟩ := edits_frame hE es e s he h hp hi
  clear he
  simp only [Ref.evalEd] at b1
  have hl : Ref.thunkLoc env false (.child .empty nsn) (.nominal rn) pp arg = some ⟨.child .empty nsn, .nominal rn⟩ := rfl
  rw [hl] at b1
  generalize hL : (⟨.child .empty nsn, .nominal rn⟩ : Loc) = L at *
  simp only at b1
  by_cases hk : sig L = .thunk ty pp fn ∧ Ref.mayEdit e1 L arg = true
  · rw [if_pos hk] at b1
    generalize hs2 : ({ s1 with path := .child s1.path nsn } : St V) = s2
    have hI2 : EInv sig env s2 e1 := by
      obtain ⟨D, hI⟩ := b2.inv
      rw [← hs2]
      exact ⟨⟨D, hI.congr rfl rfl rfl⟩, b2.ext, b2.same, b2.stack⟩
    have hst2 : s2.stack = [] := hI2.stack
    obtain ⟨σ0, D0, i1, i2, i3, i4⟩ := hI2.edit L arg hk.2
    obtain ⟨s3, a2, a3, hcase⟩ := opThunk_post (env := env) (anc := []) i1 (AncOK.top hst2) (nc := .nominal rn)
      (by rw [← hs2]; simp only [b3, b4]; exact hl) hk.1 i2
    have hst : s3.stack = [] := a3.trans hst2
    have a1 : opThunk env ty (.nominal rn) pp fn arg s2 = .ok L s3 := by
      rcases hcase with ⟨_, a1⟩ | ⟨_, a1 | a1⟩
      · rw [pushEdge_nil hst] at a1; exact a1
      · rw [pushEdge_nil hst] at a1; exact a1
      · exact a1
    have hI3 : EInv sig env s3 (Ref.edit e1 L arg) := ⟨⟨D0, a2.inv⟩, i3, i4, hst⟩
    rcases hd : Ref.demand sig (Ref.recN sig env n) false ty L (Ref.edit e1 L arg) with _ | ⟨e4, w⟩
    · rw [hd] at b1; cases b1
    rw [hd] at b1
    cases b1
    have hi3 : s3.ignoreNominal = false := by rw [a2.ign, ← hs2]; exact b4
    obtain ⟨s4, σ4, D4, σ5, D5, rs, ⟨N, r1⟩, r2, r3, r4, r5, rfl, r6, r7⟩ := editor_demand_ran_cur hd hI3 hi3 none
    obtain ⟨_, _, _, _, hD⟩ := r7 _ _ _ hk.1
    have hleads := demand_leads hd hI3 hi3 none ⟨N, r1⟩ r4.runs
    refine ⟨s3, { s4 with path := s1.path }, σ4, D4, D5, rs, b6 _ _ ⟨N, fun m hm => ?_⟩, ?_, r2, r3.congr rfl rfl rfl, ?_, hD,
      fun x hx => (hleads x hx).imp (fun h => Leads.congr (s := s4) (s' := { s4 with path := s1.path }) rfl h) id⟩
    · simp only [runProg]
      rw [M.bind_ok (M.get_def s1), M.bind_ok (m := M.modify _) rfl]
      have hrun : runProg env (recN env m) (.thunk ty (.nominal rn) pp fn arg fun l => .force ty l none .ret) s2 = .ok v s4 := by
        simp only [runProg]
        rw [M.bind_ok a1, M.bind_ok (r1 m hm)]
        rfl
      rw [← hs2] at hrun
      simp only [runProg] at hrun
      rw [M.bind_ok hrun]
      rfl
    · refine (b5.trans (Frame.same (by rw [← hs2]) (by rw [← hs2]))).trans (Frame.ofPost i1 i2 a2 ?_)
      by_cases hEL : E L
      · exact .inl hEL
      · rcases hE' with hE' | ⟨nd, e1, e2⟩
        · exact absurd hE' hEL
        · obtain ⟨nd', f1, f2, _⟩ := b5.keep L hEL nd e1
          exact .inr ⟨nd', by rw [← hs2]; exact f1, f2.trans e2⟩
    · exact ⟨r4.runs, r4.nodup, r4.once, r4.why, r4.keep, r4.old⟩
  · rw [if_neg hk] at b1; cases b1

/-! ### Two demands in a row -/

section
variable {R : Root V} (hR : R.Lawful) {sig' : Sig} (hle : Ref.SigLe R.sig sig')

/-- Between two steps. -/
structure At (R : Root V) (sig' : Sig) (cs : Cells V) (e : ES V) (s : St V) : Prop where
  ed : EdOk R cs e
  inv : EInv sig' R.env s e
  path : s.path = .empty
  ign : s.ignoreNominal = false

/-- After the demand `d`; `D` are the thunks that are up to date. -/
structure Done (R : Root V) (sig' : Sig) (cs : Cells V) (d : R.D) (e : ES V) (s : St V) (D : Loc → Prop) : Prop where
  at_ : At R sig' cs e s
  inv : Inv sig' R.env s e.cur D
  root : D R.loc
  arg : e.base R.loc = some (R.arg d)
  ok : R.ok (cellsIn e.base) d
  below : Below e.cur (R.world e.base d)

/-- The locations of the editor. -/
def Own (R : Root V) (l : Loc) : Prop := l.path = .empty ∨ l = R.loc

include hR hle in
theorem step_done {cs cs' : Cells V} {e : ES V} {s : St V} {st : Step V} {d : R.D} (h : At R sig' cs e s) (h1 : applyAll cs st.edits = some cs') (h2 : R.ok cs' d)
    (h3 : R.arg d = st.arg) {E : Loc → Prop} (hE : ∀ l : Loc, l.path = .empty → E l) (hE' : E R.loc ∨ ∃ nd, s.table.get R.loc = some (.comp nd) ∧ nd.arg = st.arg) :
    ∃ e' s' D' s1 σ0 D0 rs, Runs R.env (fun r => runProg R.env r (R.stepProg st)) s (R.res d) s' ∧ Done R sig' cs' d e' s' D' ∧
      Frame E s s1 ∧ Inv sig' R.env s1 σ0 D0 ∧ RunsOK sig' s1 D0 s' e'.cur D' rs ∧ ∀ x ∈ rs, Leads s' R.loc x ∨ (sig'.pu = true ∧ x.isStruct = true) := by
  obtain ⟨N, e', g1, ⟨g2, g3, g4⟩, g5⟩ := step_ok hR h.ed h1 h2 h3
  have hm : sig'.mode = false := hle.mode.trans hR.mode.1
  obtain ⟨g6, _⟩ := Ref.evalEd_le hle (Ref.callEN_le hle R.env N) _ _ _ _ _ _ (g5 N (Nat.le_refl _)) h.ed.ext
  obtain ⟨s1, s', σ0, D0, D', rs, r1, r2, r3, r4, r5, r6, r7⟩ := step_ran hE hE' g6 h.inv h.path h.ign
  obtain ⟨s'', k1, k2, k3, k4⟩ := editor_ok g6 h.inv h.path h.ign
  obtain ⟨_, rfl⟩ := k1.det r1
  exact ⟨e', s'', D', s1, σ0, D0, rs, r1, ⟨⟨g1, k2, k3, k4⟩, r4, r6, g2, g3, g4⟩, r2, r3, r5, r7⟩

theorem applyAll_append (es fs : List (Edit V)) : ∀ cs : Cells V, applyAll cs (es ++ fs) = (applyAll cs es).bind fun cs' => applyAll cs' fs := by
  induction es with
  | nil => intro cs; rfl
  | cons x es ih =>
    intro cs
    simp only [List.cons_append, applyAll]
    rcases x.apply cs with _ | cs1
    · rfl
    · exact ih cs1

include hR hle in
theorem session_at (ss : List (Step V)) : ∀ (cs : Cells V) (ds : List R.D) (e : ES V) (s : St V), R.Demands cs ss ds → At R sig' cs e s →
    ∃ cs' e' s' N, (∀ n, N ≤ n → runSession R.env n (ss.map R.stepProg) s = .ok (ds.map R.res) s') ∧ At R sig' cs' e' s' ∧ applyAll cs (ss.flatMap Step.edits) = some cs' := by
  induction ss with
  | nil => intro cs ds e s h ha; cases h; exact ⟨cs, e, s, 0, fun _ _ => rfl, ha, rfl⟩
  | cons st ss ih =>
    intro cs ds e s h ha
    cases h with
    | cons h1 h2 h3 h4 =>
      obtain ⟨e1, s1, D1, _, _, _, _, ⟨N1, r1⟩, r2, _⟩ := step_done hR hle ha h1 h2 h3 (E := fun _ => True) (fun _ _ => trivial) (.inl trivial)
      obtain ⟨cs2, e2, s2, N2, q1, q2, q3⟩ := ih _ _ _ _ h4 r2.at_
      refine ⟨cs2, e2, s2, max N1 N2, fun n hn => ?_, q2, ?_⟩
      · simp only [List.map_cons, runSession]
        have : exec R.env n (R.stepProg st) s = .ok _ s1 := r1 n (by omega)
        rw [M.bind_ok this, M.bind_ok (q1 n (by omega))]
        rfl
      · rw [List.flatMap_cons, applyAll_append, h1]; exact q3

include hR hle in
/-- After any session, a demand and another one. -/
theorem two_steps {ss : List (Step V)} {ds : List R.D} {st1 st2 : Step V} {d1 d2 : R.D} {cs1 cs2 : Cells V} (h0 : R.Demands (fun _ => none) ss ds)
    (h1 : applyAll (fun _ => none) ((ss ++ [st1]).flatMap Step.edits) = some cs1) (ok1 : R.ok cs1 d1) (ha1 : R.arg d1 = st1.arg)
    (h2 : applyAll cs1 st2.edits = some cs2) (ok2 : R.ok cs2 d2) (ha2 : R.arg d2 = st2.arg) :
    ∃ N s1 e1 D1 s s2 e2 D2 σ0 D0 rs, (∀ n, N ≤ n → runSession R.env n ((ss ++ [st1]).map R.stepProg) (initSt sig'.pu sig'.mode) = .ok (ds.map R.res ++ [R.res d1]) s1 ∧
        exec R.env n (R.stepProg st2) s1 = .ok (R.res d2) s2) ∧
      Done R sig' cs1 d1 e1 s1 D1 ∧ Frame (fun l => l.path = .empty ∨ (l = R.loc ∧ R.arg d1 ≠ R.arg d2)) s1 s ∧ Inv sig' R.env s σ0 D0 ∧ RunsOK sig' s D0 s2 e2.cur D2 rs ∧ Done R sig' cs2 d2 e2 s2 D2 := by
  have hm : sig'.mode = false := hle.mode.trans hR.mode.1
  have he : At R sig' (fun _ => none) (Ref.emptyES : ES V) (initSt sig'.pu sig'.mode) :=
    ⟨⟨(fun _ _ h => by cases h), fun _ _ _ => rfl, (fun _ _ h => by cases h), .inl rfl⟩, EInv.init sig' R.env, rfl, hm⟩
  obtain ⟨cs, e, s0, N0, q1, q2, q3⟩ := session_at hR hle ss _ ds _ _ h0 he
  have h1' : applyAll cs st1.edits = some cs1 := by
    rw [List.flatMap_append, applyAll_append, q3] at h1
    simpa using h1
  obtain ⟨e1, s1, D1, _, _, _, _, ⟨N1, r1⟩, r2, _, _⟩ := step_done hR hle q2 h1' ok1 ha1 (E := fun _ => True) (fun _ _ => trivial) (.inl trivial)
  obtain ⟨e2, s2, D2, s, σ0, D0, rs, ⟨N2, t1⟩, t2, t3, t5, t4, _⟩ := step_done hR hle r2.at_ h2 ok2 ha2 (E := fun l => l.path = .empty ∨ (l = R.loc ∧ R.arg d1 ≠ R.arg d2)) (fun l hl => .inl hl) (by
    by_cases he : R.arg d1 = R.arg d2
    · obtain ⟨nd, g1, _⟩ := r2.inv.settled _ r2.root
      obtain ⟨n, k1, k2⟩ := r2.inv.store R.loc _ (r2.at_.ed.ext _ _ r2.arg)
      rw [g1] at k1; cases k1
      refine .inr ⟨nd, g1, ?_⟩
      rw [← ha2, ← he]
      injection k2
    · exact .inl (.inr ⟨rfl, he⟩))
  refine ⟨max N0 (max N1 N2), s1, e1, D1, s, s2, e2, D2, σ0, D0, rs, fun n hn => ⟨?_, t1 n (by omega)⟩, r2, t3, t5, t4, t2⟩
  rw [List.map_append, runSession_append, M.bind_ok (q1 n (by omega))]
  simp only [List.map_cons, List.map_nil, runSession]
  have : exec R.env n (R.stepProg st1) s0 = .ok _ s1 := r1 n (by omega)
  rw [M.bind_def, M.bind_ok this]
  rfl

include hR hle in
/-- After any session, a demand: what it runs, it uses. -/
theorem one_step {ss : List (Step V)} {ds : List R.D} {st1 : Step V} {d1 : R.D} {cs1 : Cells V} (h0 : R.Demands (fun _ => none) ss ds)
    (h1 : applyAll (fun _ => none) ((ss ++ [st1]).flatMap Step.edits) = some cs1) (ok1 : R.ok cs1 d1) (ha1 : R.arg d1 = st1.arg) :
    ∃ N s0 s1 e1 D1 rs, (∀ n, N ≤ n → runSession R.env n (ss.map R.stepProg) (initSt sig'.pu sig'.mode) = .ok (ds.map R.res) s0 ∧
        exec R.env n (R.stepProg st1) s0 = .ok (R.res d1) s1) ∧
      Done R sig' cs1 d1 e1 s1 D1 ∧ s1.runs = rs ++ s0.runs ∧ rs.Nodup ∧ (∀ x ∈ rs, D1 x) ∧ ∀ x ∈ rs, Leads s1 R.loc x ∨ (sig'.pu = true ∧ x.isStruct = true) := by
  have hm : sig'.mode = false := hle.mode.trans hR.mode.1
  have he : At R sig' (fun _ => none) (Ref.emptyES : ES V) (initSt sig'.pu sig'.mode) :=
    ⟨⟨(fun _ _ h => by cases h), fun _ _ _ => rfl, (fun _ _ h => by cases h), .inl rfl⟩, EInv.init sig' R.env, rfl, hm⟩
  obtain ⟨cs, e, s0, N0, q1, q2, q3⟩ := session_at hR hle ss _ ds _ _ h0 he
  have h1' : applyAll cs st1.edits = some cs1 := by
    rw [List.flatMap_append, applyAll_append, q3] at h1
    simpa using h1
  obtain ⟨e1, s1, D1, s, σ0, D0, rs, ⟨N1, r1⟩, r2, r3, r4, r5, r6⟩ := step_done hR hle q2 h1' ok1 ha1 (E := fun _ => True) (fun _ _ => trivial) (.inl trivial)
  exact ⟨max N0 N1, s0, s1, e1, D1, rs, fun n hn => ⟨q1 n (by omega), r1 n (by omega)⟩, r2, by rw [r5.runs, r3.runs], r5.nodup, fun x hx => (r5.once x hx).2.1, r6⟩

include hR hle in
/-- What is up to date is the demanded thunk, or a thunk that the demand allocates (or one at the root namespace). -/
theorem Done.ran {cs : Cells V} {d : R.D} {e : ES V} {s : St V} {D : Loc → Prop} (h : Done R sig' cs d e s D) {x : Loc} (hx : D x) :
    x = R.loc ∨ (x.path = .empty ∧ ∃ ty pp fn, sig' x = .thunk ty pp fn) ∨ ∃ a ∈ R.allocs d, a.1 = x := by
  obtain ⟨nd, g1, _, g2, _⟩ := h.inv.settled x hx
  rcases hc : e.cur x with _ | v
  · exact absurd hc g2
  · obtain ⟨k, hk⟩ := h.below x v hc
    rcases hb : e.base x with _ | w
    · exact .inr (.inr (world_none hb hk))
    · by_cases hl : x = R.loc
      · exact .inl hl
      · refine .inr (.inl ⟨?_, _, _, _, h.inv.thunkKind g1⟩)
        by_cases hp : x.path = .empty
        · exact hp
        · have := h.at_.ed.clear x hl hp
          rw [hb] at this; cases this

end

end Adapton.EditSession
