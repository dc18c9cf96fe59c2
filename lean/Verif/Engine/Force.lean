import Verif.Engine.Produce
/-
Evaluating and cleaning thunks agree with the reference semantics.
-/
set_option linter.unusedSectionVars false
set_option linter.unusedVariables false
namespace Adapton
open Ref (Sig Kind Store Ext upd)
variable {V : Type} [DecidableEq V]
variable {sig : Sig} {env : Env V} {s s' s'' : St V} {σ σ' σ'' : Store V} {D D' D'' : Loc → Prop} {anc : List Loc}

/-- Outcome of evaluating or cleaning the thunk `l`, whose value is `v`. -/
structure Done (sig : Sig) (env : Env V) (anc : List Loc) (s : St V) (σ : Store V) (D : Loc → Prop)
    (s' : St V) (σ' : Store V) (D' : Loc → Prop) (l : Loc) (v : V) : Prop where
  post : Post sig env anc s σ D s' σ' D'
  stack : s'.stack = s.stack
  done : D' l
  res : ∃ nd, s'.table.get l = some (.comp nd) ∧ nd.res = some v

/-- Forcing at reference depth `n` is matched by the engine. -/
def FSpec (sig : Sig) (env : Env V) (n : Nat) : Prop :=
  ∀ anc s σ D l σ' v ty pp fn, (Ref.recN sig env n).frc anc σ l = some (σ', v) → sig l = .thunk ty pp fn →
    Inv sig env s σ D → AncOK s σ anc → l ∉ anc → s.ignoreNominal = sig.mode →
    (∀ nd, s.table.get l = some (.comp nd) → nd.res = none →
      ∃ s' D', Runs env (fun R => produceBody env R ty l) s v s' ∧ Done sig env anc s σ D s' σ' D' l v) ∧
    (∀ res0, ∃ s' D', Runs env (fun R => cleanForceBody R ty res0 l) s (decide (res0 ≠ v)) s' ∧
      Done sig env anc s σ D s' σ' D' l v)

/-- Running the code of a thunk at reference depth `n` is matched by the engine. -/
def PSpec (sig : Sig) (env : Env V) (n : Nat) : Prop :=
  ∀ (p : Prog V) anc me m π s σ D obs σ' obs' v fs K,
    Ref.eval sig env (Ref.recN sig env n) ⟨me, anc⟩ m π p ⟨σ, obs⟩ = some (⟨σ', obs'⟩, v) →
    Inv sig env s σ D → AncOK s σ anc → me ∈ anc → s.stack = ⟨me, fs⟩ :: K → s.path = π → s.ignoreNominal = m →
    FrameOK sig s.table σ D me obs fs →
    ∃ s' D' new, Runs env (fun R => runProg env R p) s v s' ∧ Post sig env anc s σ D s' σ' D' ∧
      s'.stack = ⟨me, fs ++ new⟩ :: K ∧ FrameOK sig s'.table σ' D' me obs' (fs ++ new) ∧
      Replay sig env s'.table m π p (fs.map (·.1.edge)) (new.map (·.1.edge)) v

theorem emptyFrame (sig : Sig) (t : Table V) (σ : Store V) (D : Loc → Prop) (me : Loc) : FrameOK sig t σ D me [] [] where
  dirty := fun q h => by cases h
  pdep := fun q h => by cases h
  noself := fun q h => by cases h
  wf := fun q h => by cases h
  ok := fun q h => by cases h
  first := fun x e1 hf => by cases hf
  obs := by
    intro x ty b _ _
    constructor
    · intro h; cases h
    · rintro ⟨e, h, _⟩; cases h

theorem removePred_sameRuns {l x : Loc} {s s' : St V} (h : removePred l x s = .ok () s') : s'.runs = s.runs := by
  unfold removePred at h
  rw [M.bind_ok (m := evEff _ _ _) rfl] at h
  rcases hx : s.table.get x with _ | n
  · have he : lookupAbs x { s with log := Ev.eff .remove (some l) x :: s.log } = .panic .dangling { s with log := Ev.eff .remove (some l) x :: s.log } := by
      simp [lookupAbs, hx]
    rw [M.bind_def, he] at h; cases h
  · rw [M.bind_ok (lookupAbs_ok (s := { s with log := Ev.eff .remove (some l) x :: s.log }) hx)] at h
    rcases hr : n.predsRemove l with _ | n'
    · rw [hr] at h; cases h
    · rw [hr] at h; cases h; rfl

theorem revokeSuccs_sameRuns {l : Loc} {es : List (Succ V)} : ∀ {s s' : St V}, revokeSuccs l es s = .ok () s' → s'.runs = s.runs := by
  induction es with
  | nil => intro s s' h; cases h; rfl
  | cons e es ih =>
    intro s s' h
    unfold revokeSuccs at h
    rcases h1 : removePred l e.loc s with s1 | s1 | s1
    · rw [M.bind_ok h1] at h
      exact (ih h).trans (removePred_sameRuns h1)
    · rw [M.bind_def, h1] at h; cases h
    · rw [M.bind_def, h1] at h; cases h

theorem installPreds_sameRuns {l : Loc} {fs : List (Succ V × Option (Dep V))} :
    ∀ {s s' : St V}, installPreds l fs s = .ok () s' → s'.runs = s.runs := by
  induction fs with
  | nil => intro s s' h; cases h; rfl
  | cons q fs ih =>
    intro s s' h
    unfold installPreds at h
    have hone : ∀ s1, installPred l q.1 q.2 s = .ok () s1 → s1.runs = s.runs := by
      intro s1 h1
      unfold installPred at h1
      by_cases hd : q.1.dirty = true
      · rw [if_pos hd] at h1; cases h1
      · rw [if_neg hd] at h1
        rcases hx : s.table.get q.1.loc with _ | n
        · have he : lookupAbs q.1.loc s = .panic .dangling s := by simp [lookupAbs, hx]
          rw [M.bind_def, he] at h1; cases h1
        · rw [M.bind_ok (lookupAbs_ok hx)] at h1
          rcases hr : n.predsInsert q.1.effect l q.2 with _ | n'
          · rw [hr] at h1; cases h1
          · rw [hr] at h1; cases h1; rfl
    rcases h1 : installPred l q.1 q.2 s with s1 | s1 | s1
    · rw [M.bind_ok h1] at h
      exact (ih h).trans (hone _ h1)
    · rw [M.bind_def, h1] at h; cases h
    · rw [M.bind_def, h1] at h; cases h

/-- Producing the value of a thunk. -/
theorem produce_ok {n : Nat} (hP : PSpec sig env n) {l : Loc} {σ' : Store V} {v : V} {ty pp fn}
    (hf : (Ref.recN sig env (n+1)).frc anc σ l = some (σ', v)) (hk : sig l = .thunk ty pp fn)
    (h : Inv sig env s σ D) (hanc : AncOK s σ anc) (hl : l ∉ anc) (hm : s.ignoreNominal = sig.mode) {nd : CompNode V}
    (hn : s.table.get l = some (.comp nd)) (hd : nd.res = none ∨ ∃ eff x, KeyDirty nd.succs eff x)
    (hwhy : nd.res = none ∨ Why sig s.table nd.succs s.table σ D) :
    ∃ s' D', Runs env (fun R => produceBody env R ty l) s v s' ∧ Done sig env anc s σ D s' σ' D' l v ∧
      cleanRecs s'.log + dirtyVisits s.log + tableDirty s'.table + dirtyCount nd.succs ≤ cleanRecs s.log + dirtyVisits s'.log + tableDirty s.table := by
  obtain ⟨ty', pp', fn', arg, obs', k1, k2, k3, konly⟩ := Ref.frc_succ hf
  rw [hk] at k1; cases k1
  have hlk : l ∉ s.locs := fun hm => hl (hanc.stk l hm)
  have hσl : σ l ≠ none := by rw [k2]; simp
  obtain ⟨nd', j1, j2, j3, j4, j5⟩ := h.storeThunk hk k2
  rw [hn] at j1; cases j1
  subst j2; subst j3; subst j4; subst j5
  -- start
  obtain ⟨s1, ps, a1, a2, a3, a8, a4, a5, a6, a7⟩ := start_inv h hlk hn hd
  generalize hs2 : ({ s1 with
    stack := ⟨l, []⟩ :: s1.stack
    path := l.path
    runs := l :: s1.runs } : St V) = s2
  have hlocs2 : s2.locs = l :: s.locs := by rw [← hs2]; unfold St.locs; simp only [List.map]; rw [a2]
  have ht2 : s2.table = s1.table := by rw [← hs2]
  obtain ⟨hinv2, himm2⟩ := a7 s2 ht2 hlocs2 (by rw [← hs2])
  have hanc2 : AncOK s2 σ (l :: anc) := by
    refine ⟨?_, (hanc.cons hσl).dom⟩
    rw [hlocs2]
    intro x hx
    rcases List.mem_cons.1 hx with rfl | hx
    · exact List.mem_cons_self ..
    · exact List.mem_cons_of_mem _ (hanc.stk x hx)
  -- run
  obtain ⟨s3, D3, new, b1, b2, b3, b4, b5⟩ := hP (env.code nd.fn nd.arg) (l :: anc) l sig.mode l.path s2 σ D [] σ' obs' v [] s.stack
    k3 hinv2 hanc2 (List.mem_cons_self ..) (by rw [← hs2]; simp only; rw [a2]) (by rw [← hs2])
    (by rw [← hs2]; simp only; rw [a8, hm])
    (emptyFrame sig s2.table σ D l)
  simp only [List.nil_append] at b3 b4
  simp only [List.map_nil] at b5
  obtain ⟨nd3, c1, c2, c3, c4, c5⟩ := b2.keepA l (List.mem_cons_self ..) _ (by rw [ht2]; exact a4)
  have hlocs3 : s3.locs = l :: s.locs := b2.locs.trans hlocs2
  have hk3 := b2.inv.thunkKind c1
  rw [hk] at hk3
  have harg3 : nd3.arg = nd.arg := by
    obtain ⟨m, e1, e2⟩ := b2.inv.store l nd.arg (b2.smono _ _ k2)
    rw [c1] at e1; cases e1
    simpa [Node.cont] using e2
  simp only [Kind.thunk.injEq] at hk3
  obtain ⟨hty3, hpp3, hfn3⟩ := hk3
  have hagain := Ref.frc_again hf
  have hpr : sig.pu = true → l.isStruct = true → ∀ w, nd3.res = some w → w = v := by
    intro hp hls w hw
    rw [c2] at hw
    obtain ⟨k, hk'⟩ := h.pureRes hp l nd w hls hn hw
    have := Ref.frc_det (Ref.frc_larger hk' b2.smono) (Ref.frc_full hagain)
    cases this; rfl
  -- finish
  generalize hs4 : ({ s3 with path := s.path, stack := s.stack } : St V) = s4
  obtain ⟨s5, nd5, d1, d2, d3, d4, d5, d7, d6⟩ := finish_inv (s := s4) b2.inv hlocs3 b4
    (by intro h0; have := b2.smono _ _ k2; rw [h0] at this; cases this) c1 (v := v) (by rw [← hfn3, harg3]; exact b5)
    (by rw [← hs4]) (by rw [← hs4]; rfl) (by rw [← hs4]) hpr ⟨_, Ref.frc_full hagain⟩
  obtain ⟨f1, f0, f2, f3⟩ := d6 _ rfl
  generalize hs6 : ({ s5 with table := s5.table.put l (.comp { nd5 with succs := new.map (·.1), res := some v }) } : St V) = s6
    at f1 f0 f2 f3
  have hcost : cleanRecs s6.log + dirtyVisits s.log + tableDirty s6.table + dirtyCount nd.succs ≤ cleanRecs s.log + dirtyVisits s6.log + tableDirty s.table := by
    have q1 := tableDirty_put s.table l _ (.comp { nd with succs := [] }) hn
    have q2 := revokeSuccs_paid a1
    have q3 := b2.cost
    have q4 := installPreds_paid d1
    have q5 := tableDirty_put s5.table l _ (.comp { nd5 with succs := new.map (·.1), res := some v }) d2
    have q6 : dirtyCount (new.map (·.1)) = 0 := by
      refine dirtyCount_clean _ ?_
      intro e he
      obtain ⟨q, hq, rfl⟩ := List.mem_map.1 he
      exact b4.dirty q hq
    simp only [Node.succsList, dirtyCount, q6] at q1 q5
    unfold Paid at q2 q3 q4
    rw [← hs2] at q3
    rw [← hs4] at q4
    rw [← hs6]
    simp only [] at q2 q3 q4 ⊢
    omega
  refine ⟨s6, fun x => x = l ∨ D3 x, ?_, ⟨?_, ?_, .inl rfl, ?_⟩, hcost⟩
  · obtain ⟨N, hN⟩ := b1.run
    refine ⟨N, fun m hm => ?_⟩
    have hrun := hN m hm
    simp only [produceBody]
    rw [M.bind_ok (resNode_ok (ty := nd.ty) hn rfl)]
    simp only []
    rw [M.bind_ok (m := putNode _ _) rfl, M.bind_ok a1, M.bind_ok (M.get_def _), M.bind_ok (m := M.modify _) rfl]
    have hn2 : resNode nd.ty l { s1 with stack := ⟨l, []⟩ :: s1.stack, path := l.path } =
        .ok (.comp { nd with succs := [], preds := ps }) { s1 with stack := ⟨l, []⟩ :: s1.stack, path := l.path } :=
      resNode_ok a4 rfl
    rw [M.bind_ok hn2]
    simp only []
    rw [M.bind_ok (m := M.modify _) rfl]
    simp only []
    rw [hs2, M.bind_ok hrun, M.bind_ok (m := M.modify _) rfl, M.bind_ok (M.get_def _)]
    simp only [b3]
    rw [M.bind_ok (m := M.modify _) rfl]
    simp only [if_true]
    rw [a3, hs4, M.bind_ok d1, M.bind_ok (resNode_ok d2 (by show nd5.ty = _; rw [d3, ← hty3]))]
    simp only []
    rw [M.bind_ok (m := putNode _ _) rfl, ← hs6]
    rfl
  · have hal : ∀ b ∈ anc, b ≠ l := fun b hb he => hl (he ▸ hb)
    have hD3l : ∀ x, D x → x ≠ l := fun x hx he => a6 (he ▸ hx)
    have hkD1 : ∀ x, D x → ∀ nd, s.table.get x = some (.comp nd) →
        ∃ nd', s2.table.get x = some (.comp nd') ∧ nd'.res = nd.res := by
      intro x hx nd hxn
      obtain ⟨ps', g1⟩ := a5.comp (hD3l x hx) hxn
      rw [← ht2] at g1
      exact ⟨_, g1, rfl⟩
    have hlocs6 : s6.locs = s.locs := by
      rw [← hs6]; unfold St.locs; simp only; rw [d4, ← hs4]
    have hD3n : ¬ D3 l := by
      intro hD
      obtain ⟨_, _, g2, _⟩ := b2.inv.settled l hD
      exact g2 (by rw [hlocs3]; exact List.mem_cons_self ..)
    have hk36 : ∀ x, D3 x → ∀ nd, s3.table.get x = some (.comp nd) →
        ∃ nd', s6.table.get x = some (.comp nd') ∧ nd'.res = nd.res := by
      intro x hx nd hxn
      obtain ⟨ps', g⟩ := f2.comp (fun he => hD3n (he ▸ hx)) hxn
      exact ⟨_, g, rfl⟩
    have hkD6 : ∀ x, D x → ∀ nd, s.table.get x = some (.comp nd) →
        ∃ nd', s6.table.get x = some (.comp nd') ∧ nd'.res = nd.res := by
      intro x hx nd hxn
      obtain ⟨nd1, g1, g2⟩ := hkD1 x hx nd hxn
      obtain ⟨nd2, g3, g4⟩ := b2.keepD x hx nd1 g1
      obtain ⟨nd3, g5, g6⟩ := hk36 x (b2.dmono x hx) nd2 g3
      exact ⟨nd3, g5, g6.trans (g4.trans g2)⟩
    have hre : ∀ y, Realloc s2.table σ' y → Realloc s.table σ' y := by
      rintro y ⟨n, c, h1, h2, h3⟩
      by_cases hyl : y = l
      · subst hyl
        rw [ht2, a4] at h1; cases h1
        exact ⟨_, c, hn, h2, h3⟩
      · rw [ht2] at h1
        obtain ⟨n0, k1, k2⟩ := a5.fixed hyl h1
        exact ⟨n0, c, k1, h2, by rw [k2]; exact h3⟩
    have hruns2 : s2.runs = l :: s.runs := by
      rw [← hs2]; simp only; rw [revokeSuccs_sameRuns a1]
    have hruns6 : s6.runs = s3.runs := by
      rw [← hs6]; simp only; rw [installPreds_sameRuns d1, ← hs4]
    have hran : ∃ rs, RunsOK sig s D s6 σ' (fun x => x = l ∨ D3 x) rs := by
      obtain ⟨rs, hr⟩ := b2.ran
      have hnl : l ∉ rs := fun hm => hD3n (hr.once l hm).2.1
      refine ⟨rs ++ [l], ?_, ?_, ?_, ?_, ?_, ?_⟩
      · rw [hruns6, hr.runs, hruns2]; simp
      · rw [List.nodup_append]
        refine ⟨hr.nodup, by simp, ?_⟩
        intro a ha b hb he
        simp at hb
        exact hnl (by rw [← hb, ← he]; exact ha)
      · intro x hx
        rcases List.mem_append.1 hx with hx | hx
        · exact ⟨(hr.once x hx).1, .inr (hr.once x hx).2.1, (hr.once x hx).2.2⟩
        · simp at hx; subst hx; exact ⟨a6, .inl rfl, konly⟩
      · intro x hx ndx hxn
        rcases List.mem_append.1 hx with hx | hx
        · have hxl : x ≠ l := fun he => hnl (he ▸ hx)
          obtain ⟨ps', g1⟩ := a5.comp hxl hxn
          rw [← ht2] at g1
          rcases hr.why x hx _ g1 with h | h | h
          · exact .inl h
          · exact .inr (.inl h)
          · exact .inr (.inr ((h.mono (Ext.refl _) (fun _ h => .inr h) hk36).back rfl (fun y hy => .inl hy) hre))
        · simp at hx; subst hx
          rw [hn] at hxn; cases hxn
          rcases hwhy with h | h
          · exact .inl h
          · exact .inr (.inr (h.mono b2.smono (fun x hx => .inr (b2.dmono x hx)) hkD6))
      · intro x hx ndx hxn
        have hxl : x ≠ l := fun he => hx (by rw [he]; simp)
        have hxr : x ∉ rs := fun he => hx (List.mem_append_left _ he)
        obtain ⟨ps', g1⟩ := a5.comp hxl hxn
        rw [← ht2] at g1
        obtain ⟨nd', g2, g3⟩ := hr.keep x hxr _ g1
        obtain ⟨ps'', g4⟩ := f2.comp hxl g2
        refine ⟨_, g4, ?_⟩
        rcases g3 with g3 | ⟨g5, g6, g7, g8⟩
        · exact .inl g3
        · exact .inr ⟨g5, g6, g7, fun y hy => (g8 y hy).imp id (hre y)⟩
      · intro x m hm hv
        have hxl : x ≠ l := by
          rintro rfl
          have := b2.smono _ _ k2
          rw [hv] at this; cases this
        obtain ⟨n3, j1, j2⟩ := f2.fixed hxl hm
        obtain ⟨n2, j3, j4⟩ := hr.old x n3 j1 hv
        rw [ht2] at j3
        obtain ⟨n1, j5, j6⟩ := a5.fixed hxl j3
        exact ⟨n1, j5, by rw [← j2, j4, j6]⟩
    refine ⟨f1, hlocs6, ?_, ?_, himm2.trans (b2.imm.trans f0), b2.smono, fun x hx => .inr (b2.dmono x hx), ?_, hran, (by unfold Paid; omega), ?_⟩
    · rw [← hs6]; simp only; rw [d5, ← hs4]
    · rw [← hs6]; simp only; rw [d7, ← hs4]; simp only; rw [b2.ign, ← hs2]; exact a8
    · intro x hx nd hxn
      obtain ⟨nd1, g1, g2⟩ := hkD1 x hx nd hxn
      obtain ⟨nd2, g3, g4⟩ := b2.keepD x hx nd1 g1
      obtain ⟨ps', g5⟩ := f2.comp (hD3l x hx) g3
      exact ⟨_, g5, g4.trans g2⟩
    · intro b hb nd hbn
      obtain ⟨ps', g1⟩ := a5.comp (hal b hb) hbn
      rw [← ht2] at g1
      obtain ⟨nd2, g2, g3, g4, g5, g6⟩ := b2.keepA b (List.mem_cons_of_mem _ hb) _ g1
      obtain ⟨ps'', g7⟩ := f2.comp (hal b hb) g2
      refine ⟨_, g7, g3, g4, g5, ?_⟩
      intro e he hok hkc
      exact g6 e he (hok.mono (Ext.refl _) (fun _ h => h) hkD1) hkc
  · rw [← hs6]; simp only; rw [d4, ← hs4]
  · exact ⟨_, f3, rfl⟩

end Adapton
