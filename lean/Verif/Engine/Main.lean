import Verif.Engine.Lockstep
/-
Forcing in the engine agrees with forcing in the reference semantics, at every depth.
-/
set_option linter.unusedSectionVars false
set_option linter.unusedVariables false
namespace Adapton
open Ref (Sig Kind Store Ext upd)
variable {V : Type} [DecidableEq V]
variable {sig : Sig} {env : Env V} {s s' s'' : St V} {σ σ' σ'' : Store V} {D D' D'' : Loc → Prop} {anc : List Loc}
variable {l : Loc} {E pre es : List (Edge V)} {cache res : V} {ty : Ty} {obs obs' : Ref.Obs} {Q : Prop}

theorem decide_ne_comm (a b : V) : decide (a ≠ b) = decide (b ≠ a) := by
  by_cases h : a = b
  · subst h; rfl
  · have : b ≠ a := fun h' => h h'.symm
    simp [h, this]

theorem Done.left {s0 : St V} {v : V} (hI : Inv sig env s0 σ D) (h : Done sig env anc s σ D s' σ' D' l v)
    (ht : s.table = s0.table) (hl : s.stack = s0.stack) (hi : s.ignoreNominal = s0.ignoreNominal) (hp : s.path = s0.path)
    (hpu : s.purity = s0.purity := by rfl) (hr : s.runs = s0.runs := by rfl) (hlog : LogPaid s0.log s.log := by log_paid) :
    Done sig env anc s0 σ D s' σ' D' l v :=
  ⟨Post.left hI h.post ht (by unfold St.locs; rw [hl]) hi hp hpu hr hlog, h.stack.trans hl, h.done, h.res⟩

theorem Done.right {v : V} (h : Done sig env anc s σ D s' σ' D' l v) (lg : List Ev) (hlog : LogPaid s'.log lg := by log_paid) :
    Done sig env anc s σ D { s' with log := lg } σ' D' l v :=
  ⟨h.post.right rfl rfl rfl rfl rfl rfl hlog, h.stack, h.done, h.res⟩

/-- Cleaning a thunk, from evaluation at the same depth and from smaller depths. -/
theorem clean_ok {n : Nat} (hP : PSpec sig env n) (hF : ∀ m, m ≤ n → FSpec sig env m) {v : V} {pp fn}
    (hf : (Ref.recN sig env (n+1)).frc anc σ l = some (σ', v)) (hk : sig l = .thunk ty pp fn)
    (h : Inv sig env s σ D) (hanc : AncOK s σ anc) (hl : l ∉ anc) (hi : s.ignoreNominal = sig.mode) (res0 : V) :
    ∃ s' D', Runs env (fun R => cleanForceBody R ty res0 l) s (decide (res0 ≠ v)) s' ∧
      Done sig env anc s σ D s' σ' D' l v := by
  obtain ⟨ty', pp', fn', arg, obs', k1, k2, k3, _⟩ := Ref.frc_succ hf
  rw [hk] at k1; cases k1
  obtain ⟨nd, j1, j2, j3, j4, j5⟩ := h.storeThunk hk k2
  have hσl : σ l ≠ none := by rw [k2]; simp
  have hlk : l ∉ s.locs := fun hm => hl (hanc.stk l hm)
  rcases hres : nd.res with _ | cache
  · -- no cached result
    have hinv' : Inv sig env { s with log := .begin .cleanEval none l :: s.log } σ D := h.congr rfl rfl rfl
    obtain ⟨s1, D1, h1, h2, _⟩ := produce_ok hP hf hk hinv' (hanc.post rfl (Ext.refl _)) hl hi j1 (.inl hres) (.inl hres)
    refine ⟨{ s1 with log := .end_ :: s1.log }, D1, ?_, (h2.left h rfl rfl rfl rfl).right _⟩
    obtain ⟨N, hN⟩ := h1.produce
    refine ⟨N, fun m hm => ?_⟩
    simp only [cleanForceBody]
    rw [M.bind_ok (resNode_ok j1 j2)]
    simp only [hres]
    rw [M.bind_ok (m := evBegin _ _ _) rfl, M.bind_ok (hN m hm), M.bind_ok (m := evEnd) rfl]
    rfl
  · have hrep := h.replay l nd cache j1 hlk hres
    rw [j4, j5] at hrep
    have hcs : CleanSt sig env s.table anc l (nd.succs.map Succ.edge) cache s σ D [] :=
      ⟨h, hanc, hl, hσl, ⟨nd, j1, hres, rfl, fun e he => by cases he⟩, fun e he => (by cases he), hi, SMono.refl _ _⟩
    have ho : ObsRel (V := V) sig [] [] := (emptyFrame sig s.table σ D l).obs
    have hout := lockstep (ty := ty) (res := res0) hrep n hF s σ D [] σ' obs' v [] k3 hcs (by simp) ho
    rcases hout with ⟨s1, D1, rfl, p1, st1, c1, o1, r1⟩ | ⟨s1, σ1, D1, p1, e1, st1, ⟨nd1, eff, x, g1, g2, g3⟩, r1⟩
    · -- everything is up to date
      rw [List.nil_append] at c1
      obtain ⟨nd1, g1, g2, g3, g4⟩ := c1.node
      have hsub : ∀ e ∈ nd1.succs, e.edge ∈ nd.succs.map Succ.edge := by
        intro e he; rw [← g3]; exact List.mem_map_of_mem he
      have hp2 : Post sig env anc s1 σ' D1 s1 σ' (fun x => x = l ∨ D1 x) :=
        Post.settle c1.inv g1 (fun hm => hl (c1.ctx.stk l hm)) c1.dom (by rw [g2]; simp)
          (fun e he => g4 _ (hsub e he)) (fun e he => c1.ok _ (hsub e he))
      refine ⟨s1, fun x => x = l ∨ D1 x, ?_, ⟨p1.trans hp2, st1, .inl rfl, ⟨nd1, g1, g2⟩⟩⟩
      have hloop := r1 nd.succs [] none s1 rfl (Runs.ofEq (fun R => rfl))
      rw [List.append_nil] at hloop
      obtain ⟨N, hN⟩ := hloop
      refine ⟨N, fun m hm => ?_⟩
      simp only [cleanForceBody]
      rw [M.bind_ok (resNode_ok j1 j2)]
      simp only [hres]
      rw [M.bind_ok (hN m hm)]
      rfl
    · -- re-evaluation
      obtain ⟨τ', t1, t2, t3⟩ := (Ref.recN_ok sig env (n+1)).frcStab _ _ _ _ _ σ1 σ' hf p1.smono e1 (Ext.refl _)
      have : τ' = σ' := t3.antisymm t2
      subst this
      have hanc1 := hanc.post p1.locs p1.smono
      obtain ⟨s2, D2, h1, h2, h3⟩ := produce_ok hP t1 hk p1.inv hanc1 hl (p1.ign.trans hi) g1 (.inr ⟨eff, x, g2⟩) (.inr g3)
      refine ⟨{ s2 with log := .end_ :: .end_ :: s2.log }, D2, ?_, ?_⟩
      · have hloop := r1 nd.succs [] v s2 rfl h1.produce
        rw [List.append_nil] at hloop
        obtain ⟨N, hN⟩ := hloop
        refine ⟨N, fun m hm => ?_⟩
        simp only [cleanForceBody]
        rw [M.bind_ok (resNode_ok j1 j2)]
        simp only [hres]
        rw [M.bind_ok (hN m hm)]
        simp only [decide_ne_comm v res0]
        rfl
      · refine Done.right ⟨(p1.trans h2.post).relog (lg := s.log) (lg' := s2.log) ?_, h2.stack.trans st1, h2.done, h2.res⟩ _
        have q1 : cleanRecs s1.log + dirtyVisits s.log + tableDirty s1.table ≤ cleanRecs s.log + 1 + dirtyVisits s1.log + tableDirty s.table := p1.cost
        have q2 := dirtyCount_pos g2
        show cleanRecs s2.log + dirtyVisits s.log + tableDirty s2.table ≤ cleanRecs s.log + dirtyVisits s2.log + tableDirty s.table
        omega

/-! ### The operations of a running thunk -/

/-- The state after recording an observation of `x`. -/
def recObs (s : St V) (dup : Bool) (q : Succ V × Option (Dep V)) : St V :=
  if dup then s else { s with stack := pushEdge s.stack q }

/-- Forcing a cell. -/
theorem opForce_cell (R : Rec V) {x : Loc} {nd : MutNode V} (cyc : Option V) (hn : s.table.get x = some (.mut nd)) (hty : nd.ty = ty) :
    opForce R ty x cyc s = .ok nd.val (recObs { s with log := .eff (.force .refGet) (topLoc s) x :: s.log } (dupOf s x)
      (⟨false, x, .observe, .force ty nd.val⟩, none)) := by
  simp only [opForce]
  rw [M.bind_ok (M.get_def s), M.bind_ok (resNode_ok hn hty)]
  simp only []
  rw [M.bind_ok (m := evEff _ _ _) rfl]
  show (if dupOf s x then (Pure.pure nd.val : M V V) else _) _ = _
  cases hd : dupOf s x
  · simp only [Bool.false_eq_true, if_false]
    rw [M.bind_ok (recordEdge_eq _ _ _)]
    rfl
  · rfl

/-- Forcing a pure cell. -/
theorem opForce_pure (R : Rec V) {x : Loc} {nd : PureNode V} (cyc : Option V) (hn : s.table.get x = some (.pure nd)) (hty : nd.ty = ty) :
    opForce R ty x cyc s = .ok nd.val { s with log := .eff (.force .refGet) (topLoc s) x :: s.log } := by
  simp only [opForce]
  rw [M.bind_ok (M.get_def s), M.bind_ok (resNode_ok hn hty)]
  rfl

/-- Is the observation of the thunk not recorded because the thunk counts as pure? -/
def hidOf (s : St V) (x : Loc) (nd : CompNode V) : Bool :=
  match x.id with
  | .structural _ => decide (nd.succs.length = 0) && s.purity
  | .nominal _ => false

theorem hidOf_true {x : Loc} {nd : CompNode V} (h : hidOf s x nd = true) : x.isStruct = true ∧ s.purity = true := by
  unfold hidOf at h
  unfold Loc.isStruct
  cases hx : x.id with
  | nominal n => rw [hx] at h; cases h
  | structural n => rw [hx] at h; simp only [Bool.and_eq_true] at h; exact ⟨rfl, h.2⟩

/-- Forcing a thunk that is not being evaluated. -/
theorem opForce_thunk {n : Nat} (hF : FSpec sig env n) {x : Loc} {w : V} {pp fn}
    (hf : (Ref.recN sig env n).frc anc σ x = some (σ', w)) (hk : sig x = .thunk ty pp fn)
    (h : Inv sig env s σ D) (hanc : AncOK s σ anc) (hx : x ∉ anc) (hi : s.ignoreNominal = sig.mode)
    (hdup : dupOf s x = true → D x) (cyc : Option V) :
    ∃ s1 D1, ∃ hid : Bool, (hid = true → x.isStruct = true ∧ sig.pu = true) ∧ Done sig env anc s σ D s1 σ' D1 x w ∧
      Runs env (fun R => opForce R ty x cyc) s w
        (if hid then s1 else recObs s1 (dupOf s x) (⟨false, x, .observe, .force ty w⟩, none)) := by
  obtain ⟨arg, harg⟩ : ∃ arg, σ x = some arg := by
    cases n with
    | zero => simp only [Ref.recN] at hf; cases hf
    | succ n =>
      obtain ⟨_, _, _, arg, _, _, h2, _⟩ := Ref.frc_succ hf
      exact ⟨arg, h2⟩
  obtain ⟨nd, j1, j2, j3, j4, j5⟩ := h.storeThunk hk harg
  have hhid : hidOf s x nd = true → x.isStruct = true ∧ sig.pu = true := fun hh => by
    have := hidOf_true hh
    rw [h.pur] at this; exact this
  have hcyc : (s.stack.any fun fr => decide (fr.loc = x)) = false := by
    cases hb : s.stack.any fun fr => decide (fr.loc = x)
    · rfl
    · exfalso
      rw [List.any_eq_true] at hb
      obtain ⟨fr, h1, h2⟩ := hb
      have h2 : fr.loc = x := by simpa using h2
      exact hx (hanc.stk x (List.mem_map.2 ⟨fr, h1, h2⟩))
  have hrec : ∀ (R : Rec V) (s2 : St V),
      (if hidOf s x nd then (Pure.pure w : M V V) else if dupOf s x then (Pure.pure w : M V V) else do
        recordEdge ⟨false, x, .observe, .force ty w⟩ none; Pure.pure w) s2 =
      .ok w (if hidOf s x nd then s2 else recObs s2 (dupOf s x) (⟨false, x, .observe, .force ty w⟩, none)) := by
    intro R s2
    cases hh : hidOf s x nd
    case true => rfl
    simp only [Bool.false_eq_true, if_false]
    cases hd : dupOf s x
    · simp only [Bool.false_eq_true, if_false]
      rw [M.bind_ok (recordEdge_eq _ _ _)]
      rfl
    · rfl
  rcases hres : nd.res with _ | cache
  · have hnd : dupOf s x = false := by
      cases hd : dupOf s x
      · rfl
      · obtain ⟨nd', g1, g2, g3, g4, _⟩ := h.settled x (hdup hd)
        rw [j1] at g1; cases g1
        exact absurd hres g4
    have hinv' : Inv sig env { s with log := .begin (.force .compCacheMiss) (topLoc s) x :: s.log } σ D := h.congr rfl rfl rfl
    obtain ⟨s1, D1, h1, h2⟩ := (hF anc _ σ D x σ' w _ _ _ hf hk hinv' (hanc.post rfl (Ext.refl _)) hx hi).1 nd j1 hres
    refine ⟨{ s1 with log := .end_ :: s1.log }, D1, hidOf s x nd, hhid, (h2.left h rfl rfl rfl rfl).right _, ?_⟩
    obtain ⟨N, hN⟩ := h1.produce
    refine ⟨N, fun m hm => ?_⟩
    simp only [opForce]
    rw [M.bind_ok (M.get_def s), M.bind_ok (resNode_ok j1 j2)]
    simp only [hres, hcyc, Bool.false_eq_true, if_false]
    rw [M.bind_ok (m := evBegin _ _ _) rfl]
    show (if dupOf s x = true then M.panic .dupMiss else _) _ = _
    rw [if_neg (by rw [hnd]; simp)]
    rw [M.bind_ok (hN m hm), M.bind_ok (m := evEnd) rfl]
    exact hrec (recN env m) { s1 with log := .end_ :: s1.log }
  · have hinv' : Inv sig env { s with log := .begin (.force .compCacheHit) (topLoc s) x :: s.log } σ D := h.congr rfl rfl rfl
    obtain ⟨s1, D1, h1, h2⟩ := (hF anc _ σ D x σ' w _ _ _ hf hk hinv' (hanc.post rfl (Ext.refl _)) hx hi).2 cache
    obtain ⟨nd1, g1, g2⟩ := h2.res
    have hty1 : nd1.ty = ty := by
      have := h2.post.inv.thunkKind g1
      rw [hk] at this; cases this; rfl
    refine ⟨{ s1 with log := .end_ :: s1.log }, D1, hidOf s x nd, hhid, (h2.left h rfl rfl rfl rfl).right _, ?_⟩
    obtain ⟨N, hN⟩ := h1.cleanForce
    refine ⟨N, fun m hm => ?_⟩
    simp only [opForce]
    rw [M.bind_ok (M.get_def s), M.bind_ok (resNode_ok j1 j2)]
    simp only [hres, hcyc, Bool.false_eq_true, if_false]
    rw [M.bind_ok (m := evBegin _ _ _) rfl]
    rw [M.bind_ok (hN m hm), M.bind_ok (m := evEnd) rfl,
      M.bind_ok (resNode_ok (s := { s1 with log := .end_ :: s1.log }) g1 hty1)]
    simp only [g2]
    exact hrec (recN env m) { s1 with log := .end_ :: s1.log }

end Adapton
