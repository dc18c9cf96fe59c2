import Verif.Engine.General
/-
What holds of every program and every state: the engine operations that run user code.
-/
set_option linter.unusedSectionVars false
set_option linter.unusedVariables false
set_option linter.unusedSimpArgs false
namespace Adapton
variable {V α β : Type} [UEq V]

/-! ### Allocation -/

theorem cellTable_gen (b : Bool) (i : Nat) (ty : Ty) (l : Loc) (v : V) (pu : Bool) : Gen b i i (cellTable ty l v pu) := by
  intro s
  refine Res.bind (j := i) (Ok.refl b i s) fun s0 s1 h0 => ?_
  cases h0
  rcases hg : s.table.get l with _ | n0
  · simp only [hg]
    refine Res.bind (Gen.evBegin b i _ _ _ s) fun _ s1 h1 => Res.bind (Gen.evEnd b i s1) fun _ s2 h2 => ?_
    cases h1; cases h2
    refine Ok.put (fun n hn => ?_) (fun hs nd hnd => ?_)
    · simp only [hg] at hn; cases hn
    · cases pu <;> cases hnd
  · simp only [hg]
    refine Res.bind ((resNode_reads ty l).gen b i s) fun n s1 h1 => ?_
    refine Gen.bind (Gen.evBegin b i _ _ _) (fun _ => ?_) s1
    match n with
    | .mut nd => exact Gen.bind (setCell_gen b (i+1) ty l v) fun _ => Gen.evEnd b i
    | .comp nd =>
      exact Gen.bind (dirtyAlloc_gen b (i+1) l) fun _ => Gen.bind (revokeSuccs_gen b (i+1) l nd.succs) fun _ => Gen.evEnd b i
    | .pure nd => exact Gen.evEnd b i

theorem opCell_gen (env : Env V) (i : Nat) (ty : Ty) (nm : Name) (v : V) : Gen false i i (opCell env ty nm v) := by
  refine Gen.bind (Gen.get _ _) fun s => Gen.bind (cellTable_gen _ _ _ _ _ _) fun _ => Gen.bind ?_ fun _ => Gen.pure _ _ _
  unfold cellRecord
  exact Gen.ite (Gen.pure _ _ _) (recordAlloc_gen _ _ _ rfl rfl)

theorem putNode_gen (b : Bool) (i : Nat) {s : St V} {l : Loc} {n' : Node V} (hty : ∀ n, s.table.get l = some n → n'.ty = n.ty ∧ n.KindOk n')
    (hsh : ShapeT s.table → ∀ nd, n' = .comp nd → ForceFirst (nd.succs.map Succ.edge) ∧ OnlyFirst nd.succs) :
    Res b i i s (putNode l n' s) := Ok.put hty hsh

theorem fresh_shape {nd : CompNode V} (h : nd.succs = []) : ForceFirst (nd.succs.map Succ.edge) ∧ OnlyFirst nd.succs := by
  rw [h]; exact ⟨.nil, .nil⟩

theorem recordEdge_table (e : Succ V) (d : Option (Dep V)) (s s' : St V) (u : Unit) (h : recordEdge e d s = .ok u s') :
    s'.table = s.table := by
  unfold recordEdge at h
  rw [M.modify_def] at h
  rcases hs : s.stack with _ | ⟨fr, K⟩ <;> simp only [hs] at h <;> cases h <;> rfl

/-- The type of a node survives dirtying. -/
theorem dirtyAlloc_ty {l : Loc} {s s' : St V} {u : Unit} (h : dirtyAlloc l s = .ok u s') (x : Loc) {n : Node V}
    (hn : s.table.get x = some n) : ∃ n', s'.table.get x = some n' ∧ n'.ty = n.ty ∧ n.KindOk n' := by
  have := dirtyAlloc_gen true 0 l s
  rw [h] at this
  exact (show Ok true 0 0 s s' from this).grow x n hn

theorem thunkStructural_gen (env : Env V) (i : Nat) (ty : Ty) (pp : ProgPt) (fn : FnId) (arg : V) :
    Gen false i i (thunkStructural env ty pp fn arg) := by
  intro s
  refine Res.bind (j := i) (Ok.refl false i s) fun s0 s1 h0 => ?_
  cases h0
  rcases hg : s.table.get (⟨s.path, .structural (env.hashApp pp arg)⟩ : Loc) with _ | n0
  · simp only [hg]
    refine Res.bind (recordAlloc_gen i _ _ rfl rfl s) fun u s1 h1 => ?_
    have ht := recordEdge_table _ _ _ _ _ h1
    refine Res.bind (j := i) (putNode_gen false i (fun n hn => ?_) (fun hs nd hnd => ?_)) fun _ s2 _ => Ok.refl _ _ _
    · rw [ht, hg] at hn; cases hn
    · cases hnd; exact fresh_shape rfl
  · simp only [hg]; exact Ok.refl _ _ _

theorem thunkNominal_gen (i : Nat) (ty : Ty) (nm : Name) (pp : ProgPt) (fn : FnId) (arg : V) :
    Gen false i i (thunkNominal ty nm pp fn arg) := by
  intro s
  refine Res.bind (j := i) (Ok.refl false i s) fun s0 s1 h0 => ?_
  cases h0
  rcases hg : s.table.get (⟨s.path, .nominal nm⟩ : Loc) with _ | n0
  · simp only [hg]
    refine Res.bind (Gen.evBegin false i _ _ _ s) fun _ s1 h1 => Res.bind (Gen.evEnd false i s1) fun _ s2 h2 => ?_
    cases h1; cases h2
    refine Res.bind (recordAlloc_gen i _ _ rfl rfl _) fun u s3 h3 => ?_
    have ht := recordEdge_table _ _ _ _ _ h3
    refine Res.bind (j := i) (putNode_gen false i (fun n hn => ?_) (fun hs nd hnd => ?_)) fun _ s2 _ => Ok.refl _ _ _
    · rw [ht] at hn; simp only [hg] at hn; cases hn
    · cases hnd; exact fresh_shape rfl
  · simp only [hg]
    refine Res.bind ((resNode_reads ty _).gen false i s) fun n s1 h1 => ?_
    obtain ⟨rfl, h1, h2⟩ := resNode_inv h1
    match n with
    | .pure _ => exact Pk.refl _
    | .mut mn =>
      simp only []
      refine Res.bind (Gen.evBegin false i _ _ _ _) fun _ s2 g2 => ?_
      cases g2
      refine Res.bind (dirtyAlloc_gen false (i+1) _ _) fun _ s3 g3 => Res.bind (Gen.evEnd false i s3) fun _ s4 g4 =>
        Res.bind (recordAlloc_gen i _ _ rfl rfl _) fun u s5 g5 =>
        Res.bind (j := i) (putNode_gen false i (fun n hn => ?_) (fun hs nd hnd => ?_)) fun _ s2 _ => Ok.refl _ _ _
      · have ht := recordEdge_table _ _ _ _ _ g5
        cases g4
        rw [ht] at hn
        obtain ⟨n', k1, k2, k3⟩ := dirtyAlloc_ty g3 _ (n := .mut mn) h1
        simp only at hn
        rw [k1] at hn
        obtain rfl : n' = n := Option.some.inj hn
        refine ⟨by rw [k2]; exact h2.symm, ?_⟩
        match n', k3 with
        | .mut _, _ => trivial
        | .comp _, _ => trivial
        | .pure _, k3 => exact k3.elim
      · cases hnd; exact fresh_shape rfl
    | .comp c =>
      simp only []
      by_cases hpp : c.pp = pp
      · rw [if_pos hpp]
        by_cases ha : c.arg ≈ᵤ arg
        · rw [if_pos ha]
          exact Gen.bind (Gen.evBegin false i _ _ _) (fun _ => Gen.bind (Gen.evEnd false i) fun _ =>
            Gen.bind (recordAlloc_gen i _ _ rfl rfl) fun _ => Gen.pure _ _ _) _
        · rw [if_neg ha]
          refine Res.bind (putNode_gen false i (fun n hn => ?_) (fun hs nd hnd => ?_)) fun _ s2 _ => ?_
          · rw [h1] at hn; cases hn; exact ⟨rfl, trivial⟩
          · cases hnd; exact hs _ c h1
          · exact Gen.bind (Gen.evBegin false i _ _ _) (fun _ => Gen.bind (dirtyAlloc_gen false (i+1) _) fun _ =>
              Gen.bind (Gen.evEnd false i) fun _ => Gen.bind (recordAlloc_gen i _ _ rfl rfl) fun _ => Gen.pure _ _ _) _
      · rw [if_neg hpp]; exact Pk.refl _

theorem opThunk_gen (env : Env V) (i : Nat) (ty : Ty) (nc : NameChoice) (pp : ProgPt) (fn : FnId) (arg : V) :
    Gen false i i (opThunk env ty nc pp fn arg) := by
  refine Gen.bind (Gen.get _ _) fun s => ?_
  match nc with
  | .eager => exact Gen.panic _ _ _ _
  | .naive => exact Gen.panic _ _ _ _
  | .structural => exact thunkStructural_gen _ _ _ _ _ _
  | .nominal nm => exact Gen.ite (thunkStructural_gen _ _ _ _ _ _) (thunkNominal_gen _ _ _ _ _ _)

/-! ### Forcing -/

/-- What the recursive calls guarantee. -/
structure RGen (R : Rec V) : Prop where
  produce : ∀ ty l, Gen true 0 0 (R.produce ty l)
  cleanForce : ∀ ty r l, Gen true 0 0 (R.cleanForce ty r l)
  run : ∀ p, Gen false 0 0 (R.run p)

theorem Ok.stackEq {i j : Nat} {s s' : St V} (h : Ok true i j s s') : s'.stack = s.stack := by
  rcases h.stack with h | ⟨h, _⟩
  · exact h
  · cases h

theorem record_gen (i : Nat) (s s' : St V) (hs : s'.stack = s.stack) (l : Loc) (ty : Ty) (r : V) :
    Res false i i s' ((if dupOf s l then (Pure.pure r : M V V) else do
        recordEdge ⟨false, l, .observe, .force ty r⟩ none; Pure.pure r) s') := by
  cases hd : dupOf s l
  · simp only [Bool.false_eq_true, if_false]
    refine Res.bind (recordEdge_gen i _ _ s' rfl ?_) fun _ s2 _ => Ok.refl _ _ _
    intro _ _ fr K hk q hq hc
    rw [hs] at hk
    unfold dupOf at hd
    rw [hk] at hd
    simp only [List.any_eq_false] at hd
    exact hd q hq (by simpa using hc)
  · simp only [if_true]; exact Ok.refl _ _ _

theorem opForce_gen {R : Rec V} (hR : RGen R) (i : Nat) (ty : Ty) (l : Loc) (cyc : Option V) :
    Gen false i i (opForce R ty l cyc) := by
  intro s
  refine Res.bind (j := i) (Ok.refl false i s) fun s0 s1 h0 => ?_
  cases h0
  refine Res.bind ((resNode_reads ty _).gen false i s) fun n s1 h1 => ?_
  obtain ⟨rfl, h1, h2⟩ := resNode_inv h1
  match n with
  | .pure nd => exact Gen.bind (Gen.evEff _ _ _ _ _) (fun _ => Gen.pure _ _ _) _
  | .mut nd =>
    refine Res.bind (Gen.evEff false i _ _ _ _) fun _ s2 g2 => ?_
    cases g2
    exact record_gen i s1 _ (by rfl) l ty nd.val
  | .comp nd =>
    simp only []
    have hfin : ∀ (c : Bool) (r : V) (s' : St V), s'.stack = s1.stack → Res false i i s'
        ((if c then (Pure.pure r : M V V) else (if dupOf s1 l then (Pure.pure r : M V V) else do
          recordEdge ⟨false, l, .observe, .force ty r⟩ none; Pure.pure r)) s') := by
      intro c r s' hs'
      cases c
      · exact record_gen i s1 s' hs' l ty r
      · exact Ok.refl _ _ _
    generalize hcyc : (s1.stack.any fun fr => decide (fr.loc = l)) = isCyc
    cases isCyc
    · simp only [Bool.false_eq_true, if_false]
      rcases hres : nd.res with _ | r
      · simp only []
        refine Res.bind (Gen.evBegin false i _ _ _ _) fun _ s2 g2 => ?_
        have hs2 : s2.stack = s1.stack := by cases g2; rfl
        show Res false (i+1) i s2 ((if dupOf s1 l = true then M.panic .dupMiss else _) s2)
        split
        · exact Pk.refl _
        · refine Res.bind ((hR.produce ty l).up (i+1) |>.weaken false |> fun h => h s2) fun r s3 g3 =>
            Res.bind (Gen.evEnd false i s3) fun _ s4 g4 => ?_
          have hs4 : s4.stack = s1.stack := by
            cases g4
            have := hR.produce ty l s2
            rw [g3] at this
            exact (Ok.stackEq (show Ok true 0 0 s2 s3 from this)).trans hs2
          exact hfin _ r s4 hs4
      · simp only []
        refine Res.bind (Gen.evBegin false i _ _ _ _) fun _ s2 g2 => ?_
        have hs2 : s2.stack = s1.stack := by cases g2; rfl
        refine Res.bind ((hR.cleanForce ty r l).up (i+1) |>.weaken false |> fun h => h s2) fun b s3 g3 =>
            Res.bind (Gen.evEnd false i s3) fun _ s4 g4 => ?_
        have hs4 : s4.stack = s1.stack := by
          cases g4
          have := hR.cleanForce ty r l s2
          rw [g3] at this
          exact (Ok.stackEq (show Ok true 0 0 s2 s3 from this)).trans hs2
        refine Res.bind ((resNode_reads ty l).gen false i s4) fun n' s5 g5 => ?_
        obtain ⟨rfl, k1, k2⟩ := resNode_inv g5
        match n' with
        | .comp nd' =>
          rcases hr' : nd'.res with _ | r'
          · simp only [hr']; exact Pk.refl _
          · simp only [hr']; exact hfin _ r' s5 hs4
        | .mut _ => exact Pk.refl _
        | .pure _ => exact Pk.refl _
    · simp only [if_true]
      match cyc with
      | none => exact Pk.refl _
      | some out =>
        refine Res.bind (Gen.evBegin false i _ _ _ _) fun _ s2 g2 => Res.bind (Gen.evEnd false i s2) fun _ s4 g4 => ?_
        cases g2; cases g4
        exact hfin _ out _ rfl

theorem opForceMap_gen {R : Rec V} (hR : RGen R) (i : Nat) (ty : Ty) (l : Loc) (f : V → V) :
    Gen false i i (opForceMap R ty l f) := by
  refine Gen.bind (Gen.get _ _) fun s => Gen.bind ((resNode_reads ty l).gen false i) fun n => ?_
  match n with
  | .mut nd => exact Gen.bind (Gen.evEff _ _ _ _ _) fun _ => Gen.bind (recordAlloc_gen _ _ _ rfl rfl) fun _ => Gen.pure _ _ _
  | .comp nd => exact Gen.bind (opForce_gen hR _ _ _ _) fun _ => Gen.pure _ _ _
  | .pure nd => exact Gen.bind (opForce_gen hR _ _ _ _) fun _ => Gen.pure _ _ _

theorem opForceAbs_gen {R : Rec V} (hR : RGen R) (i : Nat) (ty : Ty) (l : Loc) (f : V → V) :
    Gen false i i (opForceAbs R ty l f) := by
  refine Gen.bind (Gen.get _ _) fun s => Gen.bind ((resNode_reads ty l).gen false i) fun n => ?_
  match n with
  | .mut nd => exact Gen.bind (Gen.evEff _ _ _ _ _) fun _ => Gen.bind (recordAlloc_gen _ _ _ rfl rfl) fun _ => Gen.pure _ _ _
  | .comp nd => exact Gen.bind (opForce_gen hR _ _ _ _) fun _ => Gen.pure _ _ _
  | .pure nd => exact Gen.bind (opForce_gen hR _ _ _ _) fun _ => Gen.pure _ _ _

/-! ### User code -/

theorem runProg_gen (env : Env V) {R : Rec V} (hR : RGen R) (p : Prog V) : Gen false 0 0 (runProg env R p) := by
  induction p with
  | ret v => exact Gen.pure _ _ _
  | force ty l cyc k ih => exact Gen.bind (opForce_gen hR _ _ _ _) ih
  | forceMap ty l f k ih => exact Gen.bind (opForceMap_gen hR _ _ _ _) ih
  | forceAbs ty l f k ih => exact Gen.bind (opForceAbs_gen hR _ _ _ _) ih
  | cell ty n v k ih => exact Gen.bind (opCell_gen _ _ _ _ _) ih
  | thunk ty nc pp fn arg k ih => exact Gen.bind (opThunk_gen _ _ _ _ _ _ _) ih
  | set ty l v k ih => exact Gen.bind (opSet_gen _ _ _ _ _) fun _ => ih
  | ns n body k ihb ih =>
    intro s
    have hb := ihb { s with path := .child s.path n }
    show Res false 0 0 s ((M.get >>= fun s0 => _) s)
    rw [M.bind_ok (M.get_def s), M.bind_ok (m := M.modify _) rfl, M.bind_def]
    rcases hr : runProg env R body { s with path := .child s.path n } with ⟨v, s2⟩ | ⟨e, s2⟩ | _
    · rw [hr] at hb
      simp only []
      rw [M.bind_ok (m := M.modify _) rfl]
      have hb : Ok false 0 0 { s with path := .child s.path n } s2 := hb
      have h1 : Ok false 0 0 s { s2 with path := s.path } :=
        ⟨rfl, hb.ign, hb.purity, hb.stack, hb.grow, hb.log, hb.runs, hb.tbl, hb.top⟩
      have h2 := ih v { s2 with path := s.path }
      revert h2
      generalize runProg env R (k v) { s2 with path := s.path } = o
      intro h2
      match o with
      | .ok a s3 => exact h1.trans h2
      | .panic e s3 => exact h1.pk.trans h2
      | .oof => trivial
    · rw [hr] at hb
      have hb : Pk { s with path := .child s.path n } s2 := hb
      exact ⟨hb.purity, hb.grow, hb.log, hb.runs, hb.stack⟩
    · trivial
  | structural body k ihb ih =>
    intro s
    have hb := ihb { s with ignoreNominal := true }
    show Res false 0 0 s ((M.get >>= fun s0 => _) s)
    rw [M.bind_ok (M.get_def s), M.bind_ok (m := M.modify _) rfl, M.bind_def]
    rcases hr : runProg env R body { s with ignoreNominal := true } with ⟨v, s2⟩ | ⟨e, s2⟩ | _
    · rw [hr] at hb
      simp only []
      rw [M.bind_ok (m := M.modify _) rfl]
      have hb : Ok false 0 0 { s with ignoreNominal := true } s2 := hb
      have h1 : Ok false 0 0 s { s2 with ignoreNominal := s.ignoreNominal } :=
        ⟨hb.path, rfl, hb.purity, hb.stack, hb.grow, hb.log, hb.runs, hb.tbl, hb.top⟩
      have h2 := ih v { s2 with ignoreNominal := s.ignoreNominal }
      revert h2
      generalize runProg env R (k v) { s2 with ignoreNominal := s.ignoreNominal } = o
      intro h2
      match o with
      | .ok a s3 => exact h1.trans h2
      | .panic e s3 => exact h1.pk.trans h2
      | .oof => trivial
    · rw [hr] at hb
      have hb : Pk { s with ignoreNominal := true } s2 := hb
      exact ⟨hb.purity, hb.grow, hb.log, hb.runs, hb.stack⟩
    · trivial
  | call fn arg k ih => exact Gen.bind (hR.run _) ih
  | panic => exact Gen.panic _ _ _ _

/-! ### Re-evaluation -/

theorem installPreds_gen (b : Bool) (i : Nat) (l : Loc) (es : List (Succ V × Option (Dep V))) : Gen b i i (installPreds l es) := by
  induction es with
  | nil => exact Gen.pure _ _ _
  | cons q es ih =>
    obtain ⟨e, d⟩ := q
    refine Gen.bind (fun s => ?_) fun _ => ih
    unfold installPred
    split
    · exact Pk.refl _
    · refine Res.bind ((lookupAbs_reads _).gen b i s) fun n s' h => ?_
      obtain ⟨rfl, h⟩ := lookupAbs_inv h
      match n with
      | .comp nd =>
        refine Ok.put (fun n hn => ?_) (fun hs nd' hnd => ?_)
        · rw [h] at hn; cases hn; exact ⟨rfl, trivial⟩
        · cases hnd; exact hs _ nd h
      | .mut nd =>
        refine Ok.put (fun n hn => ?_) (fun hs nd' hnd => ?_)
        · rw [h] at hn; cases hn; exact ⟨rfl, trivial⟩
        · cases hnd
      | .pure nd => exact Pk.refl _

theorem Res.trans {b : Bool} {i j k : Nat} {s s1 : St V} {o : Out V α} (h1 : Ok b i j s s1) (h2 : Res b j k s1 o) :
    Res b i k s o := by
  match o with
  | .ok a s3 => exact h1.trans h2
  | .panic e s3 => exact h1.pk.trans h2
  | .oof => trivial

theorem Ok.runsCons {b : Bool} {i : Nat} (s : St V) (l : Loc) : Ok b i i s { s with runs := l :: s.runs } :=
  { Ok.refl b i s with runs := ⟨[l], rfl⟩ }

theorem produceBody_gen (env : Env V) {R : Rec V} (hR : RGen R) (ty : Ty) (l : Loc) :
    Gen true 0 0 (produceBody env R ty l) := by
  intro s
  refine Res.bind ((resNode_reads ty l).gen true 0 s) fun n s1 h1 => ?_
  obtain ⟨rfl, h1, h2⟩ := resNode_inv h1
  match n with
  | .mut _ => exact Pk.refl _
  | .pure _ => exact Pk.refl _
  | .comp nd =>
    refine Res.bind (putNode_gen true 0 (fun n hn => ?_) (fun hs nd' hnd => ?_)) fun _ s2 g2 => ?_
    · rw [h1] at hn; cases hn; exact ⟨rfl, trivial⟩
    · cases hnd; exact fresh_shape rfl
    refine Res.bind (revokeSuccs_gen true 0 l nd.succs s2) fun _ s3 g3 => ?_
    rw [M.bind_ok (M.get_def s3), M.bind_ok (m := M.modify _) rfl]
    generalize hs4 : ({ s3 with stack := ⟨l, []⟩ :: s3.stack, path := l.path } : St V) = s4
    have ht4 : s4.table = s3.table := by rw [← hs4]
    have hl4 : s4.log = s3.log := by rw [← hs4]
    have hr4 : s4.runs = s3.runs := by rw [← hs4]
    have hp4 : s4.purity = s3.purity := by rw [← hs4]
    have hi4 : s4.ignoreNominal = s3.ignoreNominal := by rw [← hs4]
    have hk4 : s4.stack = ⟨l, []⟩ :: s3.stack := by rw [← hs4]
    have hpk : ∀ s', Pk s4 s' → Pk s3 s' := fun s' h =>
      ⟨h.purity.trans hp4, by rw [← ht4]; exact h.grow, by rw [← hl4]; exact h.log, by rw [← hr4]; exact h.runs,
        List.IsSuffix.trans (by rw [hk4]; exact List.suffix_cons _ _) h.stack⟩
    rw [M.bind_def]
    rcases hrn : resNode ty l s4 with ⟨n5, s5⟩ | ⟨e, s5⟩ | _
    · obtain ⟨rfl, k1, k2⟩ := resNode_inv hrn
      simp only []
      match n5 with
      | .mut _ => exact hpk _ (Pk.refl _)
      | .pure _ => exact hpk _ (Pk.refl _)
      | .comp nd5 =>
        simp only []
        rw [M.bind_ok (m := M.modify _) rfl, M.bind_def]
        have hrun := Res.trans (Ok.runsCons (b := false) (i := 0) s5 l) (hR.run (env.code nd5.fn nd5.arg) { s5 with runs := l :: s5.runs })
        revert hrun
        generalize R.run (env.code nd5.fn nd5.arg) { s5 with runs := l :: s5.runs } = o
        intro hrun
        match o with
        | .oof => trivial
        | .panic e s6 => exact hpk _ hrun
        | .ok res s6 =>
          have hrun : Ok false 0 0 s5 s6 := hrun
          simp only []
          rw [M.bind_ok (m := M.modify _) rfl, M.bind_ok (M.get_def _)]
          have hst := hrun.stack
          have : ∃ new, s6.stack = ⟨l, new⟩ :: s3.stack := by
            rcases hst with h | ⟨_, fr, K0, new, h, h'⟩
            · exact ⟨[], by rw [h, hk4]⟩
            · rw [hk4] at h; cases h
              exact ⟨_, h'⟩
          obtain ⟨new, hst6⟩ := this
          simp only [hst6]
          rw [M.bind_ok (m := M.modify _) rfl]
          simp only [if_true]
          generalize hs7 : ({ s6 with path := s3.path, stack := s3.stack } : St V) = s7
          have hfr : ForceFirst (new.map (·.1.edge)) ∧ (∀ q ∈ new, q.1.dirty = false) := by
            refine (hrun.top ?_) ⟨l, new⟩ _ hst6
            intro f K0 hf
            rw [hk4] at hf
            cases hf
            exact ⟨.nil, fun q hq => by cases hq⟩
          have h37 : Ok true 0 0 s3 s7 := by
            subst hs7
            exact ⟨rfl, hrun.ign.trans hi4, hrun.purity.trans hp4, .inl rfl, by rw [← ht4]; exact hrun.grow,
              by rw [← hl4]; exact hrun.log, by rw [← hr4]; exact hrun.runs, by rw [← ht4]; exact hrun.tbl, fun h => h⟩
          refine Res.trans h37 ?_
          refine Res.bind (installPreds_gen true 0 l new s7) fun _ s8 g8 => ?_
          refine Res.bind ((resNode_reads ty l).gen true 0 s8) fun n9 s9 g9 => ?_
          obtain ⟨rfl, j1, j2⟩ := resNode_inv g9
          match n9 with
          | .mut _ => exact Pk.refl _
          | .pure _ => exact Pk.refl _
          | .comp nd9 =>
            simp only []
            refine Res.bind (j := 0) (putNode_gen true 0 (fun n hn => ?_) (fun hs ndp hp => ?_)) fun _ _ _ => Ok.refl _ _ _
            · rw [j1] at hn; cases hn; exact ⟨rfl, trivial⟩
            · cases hp
              refine ⟨?_, onlyFirst_of_clean ?_⟩
              · simp only [List.map_map]; exact hfr.1
              · intro e he
                obtain ⟨q, hq, rfl⟩ := List.mem_map.1 he
                exact hfr.2 q hq
    · simp only []
      have := (resNode_reads ty l).gen true 0 s4
      rw [hrn] at this
      exact hpk _ this
    · trivial

theorem cleanDep_gen {R : Rec V} (hR : RGen R) (d : Dep V) (l : Loc) : Gen true 0 0 (cleanDep R d l) := by
  match d with
  | .allocStruct => exact Gen.pure _ _ _
  | .allocNom _ => exact Gen.pure _ _ _
  | .allocCell _ => exact Gen.pure _ _ _
  | .force ty res => exact hR.cleanForce _ _ _
  | .forceMap ty f res => exact (checkForceMapDep_reads _ _ _ _).gen _ _
  | .forceAbs => exact Gen.pure _ _ _

theorem cleanLoop_gen {R : Rec V} (hR : RGen R) (ty : Ty) (res : V) (l : Loc) (es : List (Succ V)) :
    Gen true 0 0 (cleanLoop R ty res l es) := by
  induction es with
  | nil => exact Gen.pure _ _ _
  | cons e es ih =>
    refine Gen.bind ((succDirty_reads _ _ _).gen _ _) fun d => Gen.ite ?_ ih
    refine Gen.bind (Gen.evBegin true 0 _ _ _) fun _ => Gen.bind ((cleanDep_gen hR _ _).up 1) fun ch => Gen.ite ?_ ?_
    · exact Gen.bind (Gen.evBegin true 1 _ _ _) fun _ => Gen.bind ((hR.produce _ _).up 2) fun _ =>
        Gen.bind (Gen.evEnd true 1) fun _ => Gen.bind (Gen.evEnd true 0) fun _ => Gen.pure _ _ _
    · exact Gen.bind (setSuccDirty_gen _ _ _ _ _ _) fun _ => Gen.bind (Gen.evEff _ _ _ _ _) fun _ =>
        Gen.bind (Gen.evEnd true 0) fun _ => ih

theorem cleanForceBody_gen {R : Rec V} (hR : RGen R) (ty : Ty) (res : V) (l : Loc) :
    Gen true 0 0 (cleanForceBody R ty res l) := by
  refine Gen.bind ((resNode_reads _ _).gen _ _) fun n => ?_
  match n with
  | .pure _ => exact Gen.pure _ _ _
  | .mut _ => exact Gen.pure _ _ _
  | .comp nd =>
    show Gen true 0 0 (match nd.res with | some cache => _ | none => _)
    rcases nd.res with _ | cache
    · exact Gen.bind (Gen.evBegin true 0 _ _ _) fun _ => Gen.bind ((hR.produce _ _).up 1) fun _ =>
        Gen.bind (Gen.evEnd true 0) fun _ => Gen.pure _ _ _
    · refine Gen.bind (cleanLoop_gen hR _ _ _ _) fun r => ?_
      match r with
      | some ch => exact Gen.pure _ _ _
      | none => exact Gen.pure _ _ _

theorem recN_gen (env : Env V) : ∀ n, RGen (recN env n)
  | 0 => ⟨fun _ _ _ => trivial, fun _ _ _ _ => trivial, fun _ _ => trivial⟩
  | n + 1 => ⟨produceBody_gen env (recN_gen env n), cleanForceBody_gen (recN_gen env n), runProg_gen env (recN_gen env n)⟩

/-- Every execution of every program, from every state. -/
theorem exec_gen (env : Env V) (n : Nat) (p : Prog V) : Gen false 0 0 (exec env n p) := runProg_gen env (recN_gen env n) p

theorem runSession_gen (env : Env V) (n : Nat) (ps : List (Prog V)) : Gen false 0 0 (runSession env n ps) := by
  induction ps with
  | nil => exact Gen.pure _ _ _
  | cons p ps ih => exact Gen.bind (exec_gen env n p) fun _ => Gen.bind ih fun _ => Gen.pure _ _ _

end Adapton
