import Verif.Engine.Main
/-
Running the code of a thunk agrees with the reference semantics, at every depth.
-/
set_option linter.unusedSectionVars false
set_option linter.unusedVariables false
namespace Adapton
open Ref (Sig Kind Store Ext upd)
variable {V : Type} [DecidableEq V]
variable {sig : Sig} {env : Env V} {s s' s'' : St V} {σ σ' σ'' : Store V} {D D' D'' : Loc → Prop} {anc : List Loc}
variable {l me : Loc} {ty : Ty} {obs obs' : Ref.Obs} {fs : List (Succ V × Option (Dep V))} {K : List (Frame V)}

theorem firstSub_append {pre : List (Edge V)} {e : Edge V} (h : FirstSub pre)
    (he : ∀ e1, e.effect = .observe → pre.find? (Edge.matches .observe e.loc) = some e1 →
      ∀ v, e1.dep.okVal v → e.dep.okVal v) : FirstSub (pre ++ [e]) := by
  intro x e1 hf e' he' hm v hv
  rw [find_append_single] at hf
  rw [List.mem_append, List.mem_singleton] at he'
  rcases hp : pre.find? (Edge.matches .observe x) with _ | e2
  · rw [hp] at hf
    rcases he' with he' | rfl
    · rw [List.find?_eq_none] at hp
      exact absurd hm (hp e' he')
    · rw [hm] at hf
      simp only [Option.none_or, if_true] at hf
      cases hf
      exact hv
  · rw [hp] at hf
    simp only [Option.some_or] at hf
    cases hf
    rcases he' with he' | rfl
    · exact h x e1 hp e' he' hm v hv
    · obtain ⟨h1, h2⟩ := Edge.matches_iff.1 hm
      exact he e1 h1 (by rw [h2]; exact hp) v hv

theorem FrameOK.post (hf : FrameOK sig s.table σ D me obs fs) (h : Post sig env anc s σ D s' σ' D') :
    FrameOK sig s'.table σ' D' me obs fs :=
  { hf with ok := fun q hq => h.edgeOK (hf.ok q hq) }

theorem FrameOK.push {t : Table V} (hf : FrameOK sig t σ D me obs fs) {x : Loc} {eff : Effect} {d : Dep V}
    (hx : x ≠ me) (hw : EdgeWf sig ⟨x, eff, d⟩) (hk : EdgeOK sig t σ D ⟨x, eff, d⟩)
    (hfs : ∀ e1, eff = .observe → (fs.map (·.1.edge)).find? (Edge.matches .observe x) = some e1 →
      ∀ v, e1.dep.okVal v → d.okVal v)
    (ho : ObsRel sig obs' (fs.map (·.1.edge) ++ [⟨x, eff, d⟩])) :
    FrameOK sig t σ D me obs' (fs ++ [(⟨false, x, eff, d⟩, predDep d)]) := by
  have key : ∀ {P : Succ V × Option (Dep V) → Prop}, (∀ q ∈ fs, P q) → P (⟨false, x, eff, d⟩, predDep d) →
      ∀ q ∈ fs ++ [(⟨false, x, eff, d⟩, predDep d)], P q := by
    intro P h1 h2 q hq
    rw [List.mem_append, List.mem_singleton] at hq
    rcases hq with hq | rfl
    · exact h1 q hq
    · exact h2
  refine ⟨key hf.dirty rfl, key hf.pdep rfl, key hf.noself hx, key hf.wf hw, key hf.ok hk, ?_, ?_⟩
  · rw [List.map_append]
    exact firstSub_append hf.first hfs
  · rw [List.map_append]; exact ho

theorem dupOf_find {x : Loc} (hs : s.stack = ⟨me, fs⟩ :: K) :
    dupOf s x = true ↔ ∃ e, (fs.map (·.1.edge)).find? (Edge.matches .observe x) = some e := by
  unfold dupOf
  rw [hs]
  simp only []
  rw [List.any_eq_true]
  constructor
  · rintro ⟨q, h1, h2⟩
    have h2 : q.1.loc = x ∧ q.1.effect = .observe := by simpa using h2
    rcases hp : (fs.map (·.1.edge)).find? (Edge.matches .observe x) with _ | e
    · rw [List.find?_eq_none] at hp
      exact absurd (Edge.matches_iff.2 ⟨h2.2, h2.1⟩) (hp q.1.edge (List.mem_map_of_mem (f := fun q => q.1.edge) h1))
    · exact ⟨e, hp⟩
  · rintro ⟨e, he⟩
    have h1 := List.mem_of_find?_eq_some he
    have h2 := List.find?_some he
    obtain ⟨q, hq, rfl⟩ := List.mem_map.1 h1
    obtain ⟨h3, h4⟩ := Edge.matches_iff.1 h2
    exact ⟨q, hq, by simpa using ⟨h4, h3⟩⟩

/-- The outcome of an observation by a running thunk. -/
def ObsOut (sig : Sig) (env : Env V) (anc : List Loc) (s : St V) (σ : Store V) (D : Loc → Prop) (me : Loc)
    (fs : List (Succ V × Option (Dep V))) (K : List (Frame V)) (f : Rec V → M V V) (w : V)
    (σ' : Store V) (obs' : Ref.Obs) (new : List (Succ V × Option (Dep V))) : Prop :=
  ∃ s' D', Runs env f s w s' ∧ Post sig env anc s σ D s' σ' D' ∧ s'.stack = ⟨me, fs ++ new⟩ :: K ∧
    FrameOK sig s'.table σ' D' me obs' (fs ++ new)

theorem edge_eta {e : Edge V} {x : Loc} {eff : Effect} {d : Dep V} (h1 : e.loc = x) (h2 : e.effect = eff) (h3 : e.dep = d) :
    e = ⟨x, eff, d⟩ := by cases e; cases h1; cases h2; cases h3; rfl

theorem mem_find {es : List (Edge V)} {x : Loc} {e : Edge V} (h : es.find? (Edge.matches .observe x) = some e) :
    e ∈ es ∧ e.effect = .observe ∧ e.loc = x :=
  ⟨List.mem_of_find?_eq_some h, (Edge.matches_iff.1 (List.find?_some h)).1, (Edge.matches_iff.1 (List.find?_some h)).2⟩

/-- The outcome of an observation that records nothing: the location is pure. -/
def PureOut (sig : Sig) (env : Env V) (anc : List Loc) (s : St V) (σ : Store V) (D : Loc → Prop) (me : Loc)
    (fs : List (Succ V × Option (Dep V))) (K : List (Frame V)) (f : Rec V → M V V) (x : Loc) (w r : V)
    (σ' : Store V) (obs' : Ref.Obs) : Prop :=
  ∃ s' D', Runs env f s r s' ∧ Post sig env anc s σ D s' σ' D' ∧ s'.stack = ⟨me, fs⟩ :: K ∧
    FrameOK sig s'.table σ' D' me obs' fs ∧ PureVal sig s'.table x w

/-- Observing a pure cell, by a running thunk. -/
theorem frame_pure {x : Loc} {c : V} {ty' : Ty} (hk : sig x = .cell ty') (hst : x.isStruct = true) (hpu : sig.pu = true) (hσ : σ x = some c)
    (h : Inv sig env s σ D) (hs : s.stack = ⟨me, fs⟩ :: K) (hfr : FrameOK sig s.table σ D me obs fs)
    (ho : ObsRel sig obs' (fs.map (·.1.edge))) (cyc : Option V) :
    PureOut sig env anc s σ D me fs K (fun R => opForce R ty' x cyc) x c c σ obs' := by
  obtain ⟨nd, g1, g2, g3⟩ := h.storePure hk hst hpu hσ
  subst g3; subst g2
  refine ⟨_, D, Runs.ofEq (fun R => opForce_pure R cyc g1 rfl), Post.idle h rfl rfl rfl rfl, hs, { hfr with obs := ho }, hst, hpu, _, g1, rfl⟩

/-- Forcing by a running thunk. -/
theorem frame_force {n : Nat} (hF : FSpec sig env n) {x : Loc} {w : V} {m : Bool}
    (ho : Ref.observe sig (Ref.recN sig env n) ⟨me, anc⟩ m ty x ⟨σ, obs⟩ = some (⟨σ', obs'⟩, w))
    (h : Inv sig env s σ D) (hanc : AncOK s σ anc) (hme : me ∈ anc) (hs : s.stack = ⟨me, fs⟩ :: K)
    (hi : s.ignoreNominal = m) (hfr : FrameOK sig s.table σ D me obs fs) (cyc : Option V) :
    ((∃ ty', (fs.map (·.1.edge)).find? (Edge.matches .observe x) = some ⟨x, .observe, .force ty' w⟩) ∧
      ObsOut sig env anc s σ D me fs K (fun R => opForce R ty x cyc) w σ' obs' []) ∨
    ((fs.map (·.1.edge)).find? (Edge.matches .observe x) = none ∧
      ObsOut sig env anc s σ D me fs K (fun R => opForce R ty x cyc) w σ' obs'
        [(⟨false, x, .observe, .force ty w⟩, none)]) ∨
    PureOut sig env anc s σ D me fs K (fun R => opForce R ty x cyc) x w w σ' obs' := by
  have hmeK : me ∈ s.locs := by unfold St.locs; rw [hs]; exact List.mem_cons_self ..
  -- an earlier edge
  have hedge : ∀ e, (fs.map (·.1.edge)).find? (Edge.matches .observe x) = some e →
      EdgeWf sig e ∧ EdgeOK sig s.table σ D e ∧ e.effect = .observe ∧ e.loc = x := by
    intro e he
    obtain ⟨g1, g2, g3⟩ := mem_find he
    obtain ⟨q, hq, rfl⟩ := List.mem_map.1 g1
    exact ⟨hfr.wf q hq, hfr.ok q hq, g2, g3⟩
  unfold Ref.observe at ho
  cases hk : sig x with
  | cell ty' =>
    rw [hk] at ho
    simp only at ho
    by_cases hc : ty' = ty ∧ (x, true) ∉ obs ∧ Ref.MayUse sig me x
    · rw [if_pos hc] at ho
      obtain ⟨hty, hno, _⟩ := hc
      rcases hσ : σ x with _ | c
      · rw [hσ] at ho; cases ho
      · rw [hσ] at ho
        cases ho
        by_cases hpv : x.isStruct = true ∧ sig.pu = true
        · subst hty
          exact .inr (.inr (frame_pure hk hpv.1 hpv.2 hσ h hs hfr (hfr.obs.hidden (not_vis hk hpv.1 hpv.2)) cyc))
        have hvis : Vis sig x := fun _ _ h1 => by
          cases hp : sig.pu
          · rfl
          · exact absurd ⟨h1, hp⟩ hpv
        obtain ⟨nd, g1, g2, g3⟩ := h.storeCell hk hvis hσ
        subst g3; subst hty
        have hrun : Runs env (fun R => opForce R ty' x cyc) s nd.val _ := Runs.ofEq (fun R => opForce_cell R cyc g1 g2)
        rcases hfd : (fs.map (·.1.edge)).find? (Edge.matches .observe x) with _ | e
        · right; left
          refine ⟨hfd, _, D, hrun, ?_, ?_, ?_⟩
          · have hd : dupOf s x = false := by
              cases hd : dupOf s x
              · rfl
              · obtain ⟨e, he⟩ := (dupOf_find hs).1 hd
                rw [hfd] at he; cases he
            rw [hd]
            exact Post.idle h rfl (pushEdge_locs _ _) rfl rfl
          · have hd : dupOf s x = false := by
              cases hd : dupOf s x
              · rfl
              · obtain ⟨e, he⟩ := (dupOf_find hs).1 hd
                rw [hfd] at he; cases he
            rw [hd]
            simp only [recObs, Bool.false_eq_true, if_false]
            rw [hs]; rfl
          · have ht : ∀ b q, (recObs { s with log := .eff (.force .refGet) (topLoc s) x :: s.log } b q).table = s.table := by
              intro b q; cases b <;> rfl
            rw [ht]
            refine hfr.push (d := .force ty' nd.val) ?_ ?_ ?_ ?_ ?_
            · rintro rfl
              obtain ⟨nd', k1, _⟩ := h.stk _ hmeK
              rw [g1] at k1; cases k1
            · refine ⟨hvis, ?_⟩; simp only [hk]; exact .inl ⟨_, rfl⟩
            · refine ⟨nd.val, hσ, ?_⟩
              simp only [hk]
              rfl
            · intro e1 _ he1; rw [hfd] at he1; cases he1
            · exact hfr.obs.new (d := .force ty' nd.val) hfd
        · left
          obtain ⟨k1, k2, k3, k4⟩ := hedge e hfd
          have hd : dupOf s x = true := (dupOf_find hs).2 ⟨e, hfd⟩
          rw [hd] at hrun
          have hmap : e.dep.isMap = false := by
            cases hm : e.dep.isMap
            · rfl
            · exact absurd ((hfr.obs x ty' true hk hvis).2 ⟨e, hfd, hm⟩) hno
          have hdep : e.dep = .force ty' nd.val := by
            replace k1 := k1.2
            rw [k3, k4, hk] at k1
            obtain ⟨c, j1, j2⟩ := k2
            rw [k4, hσ] at j1; cases j1
            rw [k3, k4] at j2
            simp only [hk] at j2
            rcases k1 with ⟨w, k1⟩ | ⟨f, r, k1⟩
            · rw [k1] at j2 ⊢
              simp only [Dep.okVal] at j2
              rw [j2]
            · rw [k1] at hmap; cases hmap
          refine ⟨⟨ty', ?_⟩, _, D, hrun, ?_, ?_, ?_⟩
          · rw [hfd, ← edge_eta k4 k3 hdep]
          · exact Post.idle h rfl rfl rfl rfl
          · simp only [recObs, if_true, List.append_nil]; exact hs
          · rw [List.append_nil]
            exact { hfr with obs := hfr.obs.again hfd hmap }
    · rw [if_neg hc] at ho; cases ho
  | thunk ty' pp fn =>
    rw [hk] at ho
    simp only at ho
    by_cases hc : ty' = ty ∧ x ∉ anc ∧ m = sig.mode ∧ Ref.MayUse sig me x
    · rw [if_pos hc] at ho
      obtain ⟨rfl, hxa, hm, _⟩ := hc
      rcases hfv : (Ref.recN sig env n).frc anc σ x with _ | ⟨σ1, v1⟩
      · rw [hfv] at ho; cases ho
      · rw [hfv] at ho
        cases ho
        have hDx : dupOf s x = true → D x := by
          intro hd
          obtain ⟨e, he⟩ := (dupOf_find hs).1 hd
          obtain ⟨k1, k2, k3, k4⟩ := hedge e he
          have := (k2.settled k3).2
          rw [k4] at this
          exact this _ _ _ hk
        obtain ⟨s1, D1, hid, hhid, h1, h2⟩ := opForce_thunk hF hfv hk h hanc hxa (hi.trans hm) hDx cyc
        obtain ⟨nd, r1, r2⟩ := h1.res
        have hσ1 : ∃ c, σ' x = some c := by
          obtain ⟨nd', q1, q2, q3, _⟩ := h1.post.inv.settled x h1.done
          cases hc : σ' x with
          | none => exact absurd hc q3
          | some c => exact ⟨c, rfl⟩
        cases hid with
        | true =>
          obtain ⟨q1, q2⟩ := hhid rfl
          exact .inr (.inr ⟨s1, D1, h2, h1.post, h1.stack.trans hs, hfr.post h1.post, q1, q2, _, r1, r2⟩)
        | false =>
        simp only [Bool.false_eq_true, if_false] at h2
        rcases hfd : (fs.map (·.1.edge)).find? (Edge.matches .observe x) with _ | e
        · right; left
          have hd : dupOf s x = false := by
            cases hd : dupOf s x
            · rfl
            · obtain ⟨e, he⟩ := (dupOf_find hs).1 hd
              rw [hfd] at he; cases he
          rw [hd] at h2
          simp only [recObs, Bool.false_eq_true, if_false] at h2
          refine ⟨hfd, _, D1, h2, h1.post.push _, ?_, ?_⟩
          · simp only; rw [h1.stack, hs]; rfl
          · refine (hfr.post h1.post).push (d := .force ty' w) ?_ ?_ ?_ ?_ ?_
            · rintro rfl; exact hxa hme
            · refine ⟨.thunk hk, ?_⟩; simp only [hk]; exact ⟨_, rfl⟩
            · obtain ⟨c, hc⟩ := hσ1
              refine ⟨c, hc, ?_⟩
              simp only [hk]
              exact ⟨h1.done, nd, w, r1, r2, rfl⟩
            · intro e1 _ he1; rw [hfd] at he1; cases he1
            · exact hfr.obs.thunk hk
        · left
          obtain ⟨k1, k2, k3, k4⟩ := hedge e hfd
          have hd : dupOf s x = true := (dupOf_find hs).2 ⟨e, hfd⟩
          rw [hd] at h2
          have k2' := h1.post.edgeOK k2
          obtain ⟨ty'', hdep⟩ : ∃ ty'', e.dep = .force ty'' w := by
            replace k1 := k1.2
            rw [k3, k4, hk] at k1
            obtain ⟨w', k1⟩ := k1
            obtain ⟨c, j1, j2⟩ := k2'
            rw [k3, k4] at j2
            simp only [hk] at j2
            obtain ⟨_, nd', w'', j3, j4, j5⟩ := j2
            rw [r1] at j3; cases j3
            rw [r2] at j4; cases j4
            rw [k1] at j5
            simp only [Dep.okVal] at j5
            rw [j5] at k1
            exact ⟨_, k1⟩
          refine ⟨⟨ty'', ?_⟩, _, D1, h2, h1.post, ?_, ?_⟩
          · rw [hfd, ← edge_eta k4 k3 hdep]
          · simp only [recObs, if_true, List.append_nil]; exact h1.stack.trans hs
          · rw [List.append_nil]
            have hfr' := hfr.post h1.post
            exact hfr'
    · rw [if_neg hc] at ho; cases ho


/-- Observing a cell through a map, by a running thunk. -/
theorem frame_mapCell {R : Ref.Rec V} {x : Loc} {w : V} {f : V → V} {ty' : Ty} {m : Bool} (hk : sig x = .cell ty') (hvis : Vis sig x)
    (ho : Ref.observeMap sig R ⟨me, anc⟩ m ty x f ⟨σ, obs⟩ = some (⟨σ', obs'⟩, w))
    (h : Inv sig env s σ D) (hs : s.stack = ⟨me, fs⟩ :: K) (hfr : FrameOK sig s.table σ D me obs fs) :
    ObsOut sig env anc s σ D me fs K (fun R => opForceMap R ty x f) w σ' obs'
        [(⟨false, x, .observe, .forceMap ty f w⟩, some (.forceMap ty f w))] := by
  have hmeK : me ∈ s.locs := by unfold St.locs; rw [hs]; exact List.mem_cons_self ..
  unfold Ref.observeMap at ho
  rw [hk] at ho
  simp only at ho
  by_cases hc : ty' = ty ∧ (x, true) ∉ obs ∧ Ref.MayUse sig me x
  · rw [if_pos hc] at ho
    obtain ⟨hty, hno, _⟩ := hc
    subst hty
    rcases hσ : σ x with _ | c
    · rw [hσ] at ho; cases ho
    · rw [hσ] at ho
      obtain ⟨nd, g1, g2, g3⟩ := h.storeCell hk hvis hσ
      subst g3
      simp only [Option.some.injEq, Prod.mk.injEq, Ref.RS.mk.injEq] at ho
      obtain ⟨⟨rfl, hobs⟩, rfl⟩ := ho
      have hfirst : ∀ e1, (fs.map (·.1.edge)).find? (Edge.matches .observe x) = some e1 →
          e1.dep = .force ty' nd.val := by
        intro e he
        obtain ⟨q1, k3, k4⟩ := mem_find he
        obtain ⟨q, hq, rfl⟩ := List.mem_map.1 q1
        have k1 := hfr.wf q hq
        have k2 := hfr.ok q hq
        have hmap : q.1.edge.dep.isMap = false := by
          cases hm : q.1.edge.dep.isMap
          · rfl
          · exact absurd ((hfr.obs x ty' true hk hvis).2 ⟨_, he, hm⟩) hno
        replace k1 := k1.2
        rw [k3, k4, hk] at k1
        obtain ⟨c, j1, j2⟩ := k2
        rw [k4, hσ] at j1; cases j1
        rw [k3, k4] at j2
        simp only [hk] at j2
        rcases k1 with ⟨w, k1⟩ | ⟨f, r, k1⟩
        · rw [k1] at j2 ⊢
          simp only [Dep.okVal] at j2
          rw [j2]
        · rw [k1] at hmap; cases hmap
      refine ⟨{ s with
          log := .eff (.force .refGet) (topLoc s) x :: s.log
          stack := pushEdge s.stack (⟨false, x, .observe, .forceMap ty' f (f nd.val)⟩, some (.forceMap ty' f (f nd.val))) },
          D, Runs.ofEq ?_, ?_, ?_, ?_⟩
      · intro R
        simp only [opForceMap]
        rw [M.bind_ok (M.get_def s), M.bind_ok (resNode_ok g1 g2)]
        simp only []
        rw [M.bind_ok (m := evEff _ _ _) rfl, M.bind_ok (recordEdge_eq _ _ _)]
        rfl
      · exact Post.idle h rfl (pushEdge_locs _ _) rfl rfl
      · simp only; rw [hs]; rfl
      · refine hfr.push (d := .forceMap ty' f (f nd.val)) ?_ ?_ ?_ ?_ ?_
        · rintro rfl
          obtain ⟨nd', k1, _⟩ := h.stk _ hmeK
          rw [g1] at k1; cases k1
        · refine ⟨hvis, ?_⟩; simp only [hk]; exact .inr ⟨_, _, rfl⟩
        · refine ⟨nd.val, hσ, ?_⟩
          simp only [hk]
          rfl
        · intro e1 _ he1 v hv
          rw [hfirst e1 he1] at hv
          simp only [Dep.okVal] at hv ⊢
          rw [hv]
        · rw [← hobs]
          rcases hfd : (fs.map (·.1.edge)).find? (Edge.matches .observe x) with _ | e1
          · have : (x, false) ∉ obs := by
              intro hm
              obtain ⟨e, he, _⟩ := (hfr.obs x ty' false hk hvis).1 hm
              rw [hfd] at he; cases he
            rw [if_neg this]
            exact hfr.obs.new (d := .forceMap ty' f (f nd.val)) hfd
          · have : (x, false) ∈ obs := (hfr.obs x ty' false hk hvis).2 ⟨e1, hfd, by rw [hfirst e1 hfd]; rfl⟩
            rw [if_pos this]
            refine hfr.obs.skip ?_
            intro y _ _ hy
            have := (Edge.matches_iff.1 hy).2
            simp only at this
            subst this
            rw [hfd]; simp
  · rw [if_neg hc] at ho; cases ho

/-- Observing a pure cell through a map, by a running thunk. -/
theorem frame_mapPure {n : Nat} {x : Loc} {w : V} {f : V → V} {ty' : Ty} {m : Bool} (hk : sig x = .cell ty') (hst : x.isStruct = true)
    (hpu : sig.pu = true)
    (ho : Ref.observeMap sig (Ref.recN sig env n) ⟨me, anc⟩ m ty x f ⟨σ, obs⟩ = some (⟨σ', obs'⟩, w))
    (h : Inv sig env s σ D) (hs : s.stack = ⟨me, fs⟩ :: K) (hfr : FrameOK sig s.table σ D me obs fs) :
    ∃ c, w = f c ∧ PureOut sig env anc s σ D me fs K (fun R => opForceMap R ty x f) x c w σ' obs' := by
  unfold Ref.observeMap at ho
  rw [hk] at ho
  simp only at ho
  by_cases hc : ty' = ty ∧ (x, true) ∉ obs ∧ Ref.MayUse sig me x
  · rw [if_pos hc] at ho
    obtain ⟨rfl, hno, _⟩ := hc
    rcases hσ : σ x with _ | c
    · rw [hσ] at ho; cases ho
    · rw [hσ] at ho
      simp only [Option.some.injEq, Prod.mk.injEq, Ref.RS.mk.injEq] at ho
      obtain ⟨⟨rfl, hobs⟩, rfl⟩ := ho
      refine ⟨c, rfl, ?_⟩
      have hor : ObsRel sig obs' (fs.map (·.1.edge)) := by
        rw [← hobs]
        split
        · exact hfr.obs
        · exact hfr.obs.hidden (not_vis hk hst hpu)
      obtain ⟨nd, g1, g2, g3⟩ := h.storePure hk hst hpu hσ
      obtain ⟨s1, D1, ⟨N, hN⟩, a2⟩ := frame_pure (anc := anc) (K := K) hk hst hpu hσ h hs hfr hor none
      refine ⟨s1, D1, ⟨N, fun m hm => ?_⟩, a2⟩
      simp only [opForceMap]
      rw [M.bind_ok (M.get_def s), M.bind_ok (resNode_ok g1 g2)]
      simp only []
      rw [M.bind_ok (hN m hm)]
      rfl
  · rw [if_neg hc] at ho; cases ho

theorem FrameOK.allocEdge {t : Table V} (hf : FrameOK sig t σ D me obs fs) {x : Loc} {d : Dep V} {v : V}
    (hx : x ≠ me) (hw : EdgeWf sig ⟨x, .allocate, d⟩) (hσ : σ x = some v) (hd : d.allocOk v) (hp : predDep d = none) :
    FrameOK sig t σ D me obs (fs ++ [(⟨false, x, .allocate, d⟩, none)]) := by
  rw [← hp]
  refine hf.push hx hw ⟨v, hσ, hd⟩ (fun _ h => by cases h) hf.obs.alloc

/-- Running the code of a thunk, from forcing at the same depth and running at smaller depths. -/
theorem run_ok {n : Nat} (hF : FSpec sig env n) (hP : ∀ m, n = m + 1 → PSpec sig env m) : PSpec sig env n := by
  intro p
  induction p with
  | ret v0 =>
    intro anc me m π s σ D obs σ' obs' v fs K he h hanc hme hs hpath hign hfr
    simp only [Ref.eval] at he
    cases he
    exact ⟨s, D, [], Runs.pure, Post.idle h rfl rfl rfl rfl, by rw [List.append_nil]; exact hs,
      by rw [List.append_nil]; exact hfr, .ret⟩
  | force ty l cyc k ih =>
    intro anc me m π s σ D obs σ' obs' v fs K he h hanc hme hs hpath hign hfr
    simp only [Ref.eval] at he
    rcases ho : Ref.observe sig (Ref.recN sig env n) ⟨me, anc⟩ m ty l ⟨σ, obs⟩ with _ | ⟨⟨σ1, obs1⟩, w⟩
    · rw [ho] at he; cases he
    · rw [ho] at he
      simp only at he
      have hgo : ∀ new0, ObsOut sig env anc s σ D me fs K (fun R => opForce R ty l cyc) w σ1 obs1 new0 →
          ∃ s' D' new, Runs env (fun R => runProg env R (.force ty l cyc k)) s v s' ∧ Post sig env anc s σ D s' σ' D' ∧
            s'.stack = ⟨me, (fs ++ new0) ++ new⟩ :: K ∧ FrameOK sig s'.table σ' D' me obs' ((fs ++ new0) ++ new) ∧
            Replay sig env s'.table m π (k w) ((fs ++ new0).map (·.1.edge)) (new.map (·.1.edge)) v := by
        rintro new0 ⟨s1, D1, a1, a2, a3, a4⟩
        obtain ⟨s2, D2, new, b1, b2, b3, b4, b5⟩ := ih w anc me m π s1 σ1 D1 obs1 σ' obs' v (fs ++ new0) K he a2.inv
          (hanc.post a2.locs a2.smono) hme a3 (a2.path.trans hpath) (a2.ign.trans hign) a4
        exact ⟨s2, D2, new, a1.bind b1, a2.trans b2, b3, b4, b5⟩
      rcases frame_force hF ho h hanc hme hs hign hfr cyc with ⟨⟨ty', hfd⟩, hout⟩ | ⟨hfd, hout⟩ | hout
      · obtain ⟨s2, D2, new, b1, b2, b3, b4, b5⟩ := hgo _ hout
        rw [List.append_nil] at b3 b4 b5
        exact ⟨s2, D2, new, b1, b2, b3, b4, .forceDup hfd b5⟩
      · obtain ⟨s2, D2, new, b1, b2, b3, b4, b5⟩ := hgo _ hout
        refine ⟨s2, D2, _, b1, b2, by rw [List.append_assoc] at b3; exact b3, by rw [List.append_assoc] at b4; exact b4, ?_⟩
        rw [List.map_append] at b5
        exact .force hfd b5
      · obtain ⟨s1, D1, a1, a2, a3, a4, a5⟩ := hout
        obtain ⟨s2, D2, new, b1, b2, b3, b4, b5⟩ := ih w anc me m π s1 σ1 D1 obs1 σ' obs' v fs K he a2.inv
          (hanc.post a2.locs a2.smono) hme a3 (a2.path.trans hpath) (a2.ign.trans hign) a4
        exact ⟨s2, D2, new, a1.bind b1, a2.trans b2, b3, b4, .forcePure (b2.imm.pureVal a5) b5⟩
  | forceMap ty l f k ih =>
    intro anc me m π s σ D obs σ' obs' v fs K he h hanc hme hs hpath hign hfr
    simp only [Ref.eval] at he
    rcases ho : Ref.observeMap sig (Ref.recN sig env n) ⟨me, anc⟩ m ty l f ⟨σ, obs⟩ with _ | ⟨⟨σ1, obs1⟩, w⟩
    · rw [ho] at he; cases he
    · rw [ho] at he
      simp only at he
      have hgo : ∀ new0, ObsOut sig env anc s σ D me fs K (fun R => opForceMap R ty l f) w σ1 obs1 new0 →
          ∃ s' D' new, Runs env (fun R => runProg env R (.forceMap ty l f k)) s v s' ∧ Post sig env anc s σ D s' σ' D' ∧
            s'.stack = ⟨me, (fs ++ new0) ++ new⟩ :: K ∧ FrameOK sig s'.table σ' D' me obs' ((fs ++ new0) ++ new) ∧
            Replay sig env s'.table m π (k w) ((fs ++ new0).map (·.1.edge)) (new.map (·.1.edge)) v := by
        rintro new0 ⟨s1, D1, a1, a2, a3, a4⟩
        obtain ⟨s2, D2, new, b1, b2, b3, b4, b5⟩ := ih w anc me m π s1 σ1 D1 obs1 σ' obs' v (fs ++ new0) K he a2.inv
          (hanc.post a2.locs a2.smono) hme a3 (a2.path.trans hpath) (a2.ign.trans hign) a4
        exact ⟨s2, D2, new, a1.bind b1, a2.trans b2, b3, b4, b5⟩
      have hgoP : ∀ c, w = f c → PureOut sig env anc s σ D me fs K (fun R => opForceMap R ty l f) l c w σ1 obs1 →
          ∃ s' D' new, Runs env (fun R => runProg env R (.forceMap ty l f k)) s v s' ∧ Post sig env anc s σ D s' σ' D' ∧
            s'.stack = ⟨me, fs ++ new⟩ :: K ∧ FrameOK sig s'.table σ' D' me obs' (fs ++ new) ∧
            Replay sig env s'.table m π (.forceMap ty l f k) (fs.map (·.1.edge)) (new.map (·.1.edge)) v := by
        rintro c rfl ⟨s1, D1, a1, a2, a3, a4, a5⟩
        obtain ⟨s2, D2, new, b1, b2, b3, b4, b5⟩ := ih (f c) anc me m π s1 σ1 D1 obs1 σ' obs' v fs K he a2.inv
          (hanc.post a2.locs a2.smono) hme a3 (a2.path.trans hpath) (a2.ign.trans hign) a4
        exact ⟨s2, D2, new, a1.bind b1, a2.trans b2, b3, b4, .mapPure (b2.imm.pureVal a5) b5⟩
      cases hk : sig l with
      | cell ty' =>
        by_cases hpv : l.isStruct = true ∧ sig.pu = true
        · obtain ⟨c, hc, hout⟩ := frame_mapPure hk hpv.1 hpv.2 ho h hs hfr
          exact hgoP c hc hout
        have hvis : Vis sig l := fun _ _ h1 => by
          cases hp : sig.pu
          · rfl
          · exact absurd ⟨h1, hp⟩ hpv
        have hout := frame_mapCell (env := env) hk hvis ho h hs hfr
        obtain ⟨s2, D2, new, b1, b2, b3, b4, b5⟩ := hgo _ hout
        refine ⟨s2, D2, _, b1, b2, by rw [List.append_assoc] at b3; exact b3, by rw [List.append_assoc] at b4; exact b4, ?_⟩
        rw [List.map_append] at b5
        exact .mapCell hk b5
      | thunk ty' pp fn =>
        unfold Ref.observeMap at ho
        rw [hk] at ho
        simp only at ho
        rcases ho' : Ref.observe sig (Ref.recN sig env n) ⟨me, anc⟩ m ty l ⟨σ, obs⟩ with _ | ⟨r1, w1⟩
        · rw [ho'] at ho; cases ho
        · rw [ho'] at ho
          simp only [Option.some.injEq, Prod.mk.injEq] at ho
          obtain ⟨rfl, rfl⟩ := ho
          -- `force_map` of a thunk is `force`
          have hnode : ∃ nd, s.table.get l = some (.comp nd) ∧ nd.ty = ty := by
            unfold Ref.observe at ho'
            rw [hk] at ho'
            simp only at ho'
            by_cases hc : ty' = ty ∧ l ∉ anc ∧ m = sig.mode ∧ Ref.MayUse sig me l
            · rw [if_pos hc] at ho'
              obtain ⟨rfl, _⟩ := hc
              cases n with
              | zero => simp only [Ref.recN] at ho'; cases ho'
              | succ n =>
                rcases hfv : (Ref.recN sig env (n+1)).frc anc σ l with _ | ⟨σ2, v2⟩
                · rw [hfv] at ho'; cases ho'
                · obtain ⟨_, _, _, arg, _, h1, h2, _⟩ := Ref.frc_succ hfv
                  rw [hk] at h1; cases h1
                  obtain ⟨nd, j1, j2, _⟩ := h.storeThunk hk h2
                  exact ⟨nd, j1, j2⟩
            · rw [if_neg hc] at ho'; cases ho'
          obtain ⟨nd, j1, j2⟩ := hnode
          have hmap : ∀ new0, ObsOut sig env anc s σ D me fs K (fun R => opForce R ty l none) w1 σ1 obs1 new0 →
              ObsOut sig env anc s σ D me fs K (fun R => opForceMap R ty l f) (f w1) σ1 obs1 new0 := by
            rintro new0 ⟨s1, D1, ⟨N, hN⟩, a2⟩
            refine ⟨s1, D1, ⟨N, fun m hm => ?_⟩, a2⟩
            simp only [opForceMap]
            rw [M.bind_ok (M.get_def s), M.bind_ok (resNode_ok j1 j2)]
            simp only []
            rw [M.bind_ok (hN m hm)]
            rfl
          rcases frame_force hF ho' h hanc hme hs hign hfr none with ⟨⟨ty', hfd⟩, hout⟩ | ⟨hfd, hout⟩ | hout
          · obtain ⟨s2, D2, new, b1, b2, b3, b4, b5⟩ := hgo _ (hmap _ hout)
            rw [List.append_nil] at b3 b4 b5
            exact ⟨s2, D2, new, b1, b2, b3, b4, .mapThunkDup hk hfd b5⟩
          · obtain ⟨s2, D2, new, b1, b2, b3, b4, b5⟩ := hgo _ (hmap _ hout)
            refine ⟨s2, D2, _, b1, b2, by rw [List.append_assoc] at b3; exact b3, by rw [List.append_assoc] at b4; exact b4, ?_⟩
            rw [List.map_append] at b5
            exact .mapThunk hk hfd b5
          · refine hgoP w1 rfl ?_
            obtain ⟨s1, D1, ⟨N, hN⟩, a2⟩ := hout
            refine ⟨s1, D1, ⟨N, fun m hm => ?_⟩, a2⟩
            simp only [opForceMap]
            rw [M.bind_ok (M.get_def s), M.bind_ok (resNode_ok j1 j2)]
            simp only []
            rw [M.bind_ok (hN m hm)]
            rfl
  | forceAbs ty l f k ih =>
    intro anc me m π s σ D obs σ' obs' v fs K he
    simp only [Ref.eval] at he
    cases he
  | cell ty nm c k ih =>
    intro anc me m π s σ D obs σ' obs' v fs K he h hanc hme hs hpath hign hfr
    simp only [Ref.eval] at he
    generalize hl : Ref.cellLoc env m π nm c = l at he
    by_cases hk : sig l = .cell ty ∧ Ref.MayUse sig me l
    · rw [if_pos hk] at he
      replace hk := hk.1
      rcases ha : Ref.alloc σ l c with _ | σ1
      · rw [ha] at he; cases he
      · rw [ha] at he
        simp only at he
        obtain ⟨s1, a2, a3, hcase⟩ := opCell_post (env := env) (n := nm) h hanc (by rw [hign, hpath]; exact hl.symm) hk ha
        have hne : l ≠ me := by
          rintro rfl
          obtain ⟨nd, k1, _⟩ := h.stk _ (by unfold St.locs; rw [hs]; exact List.mem_cons_self ..)
          have := h.thunkKind k1
          rw [hk] at this; cases this
        rcases hcase with ⟨hvis, a1⟩ | ⟨hkn, a1⟩
        · have hfr1 : FrameOK sig s1.table σ1 D me obs _ := (hfr.post a2).allocEdge (d := .allocCell c) hne
            ⟨hvis, by simp only [hk]; exact ⟨_, rfl⟩⟩ (Ref.alloc_ext ha).2 rfl rfl
          have hp := a2.push (⟨false, l, .allocate, .allocCell c⟩, none)
          obtain ⟨s2, D2, new, b1, b2, b3, b4, b5⟩ := ih l anc me m π _ σ1 D obs σ' obs' v
            (fs ++ [(⟨false, l, .allocate, .allocCell c⟩, none)]) K he hp.inv
            (hanc.post hp.locs hp.smono) hme (by simp only; rw [a3, hs]; rfl) (hp.path.trans hpath) (hp.ign.trans hign) hfr1
          refine ⟨s2, D2, (⟨false, l, .allocate, .allocCell c⟩, none) :: new, (Runs.const a1).bind b1, hp.trans b2,
            by rw [List.append_assoc] at b3; exact b3, by rw [List.append_assoc] at b4; exact b4, ?_⟩
          rw [List.map_append] at b5
          subst hl
          exact .cell b5
        · obtain ⟨s2, D2, new, b1, b2, b3, b4, b5⟩ := ih l anc me m π s1 σ1 D obs σ' obs' v fs K he a2.inv
            (hanc.post a2.locs a2.smono) hme (a3.trans hs) (a2.path.trans hpath) (a2.ign.trans hign) (hfr.post a2)
          subst hl
          exact ⟨s2, D2, new, (Runs.const a1).bind b1, a2.trans b2, b3, b4, .cellPure (b2.imm.known hkn) b5⟩
    · rw [if_neg hk] at he; cases he
  | thunk ty nc pp fn arg k ih =>
    intro anc me m π s σ D obs σ' obs' v fs K he h hanc hme hs hpath hign hfr
    simp only [Ref.eval] at he
    rcases hl : Ref.thunkLoc env m π nc pp arg with _ | l
    · rw [hl] at he; cases he
    rw [hl] at he
    simp only at he
    by_cases hk : sig l = .thunk ty pp fn ∧ l ≠ me ∧ Ref.MayUse sig me l
    · rw [if_pos hk] at he
      obtain ⟨hk, hne, _⟩ := hk
      rcases ha : Ref.alloc σ l arg with _ | σ1
      · rw [ha] at he; cases he
      · rw [ha] at he
        simp only at he
        obtain ⟨s1, a2, a3, hcase⟩ := opThunk_post (env := env) h hanc (by rw [hign, hpath]; exact hl) hk ha
        have hedge : ∀ d : Dep V, EdgeWf sig ⟨l, .allocate, d⟩ → d.allocOk arg → predDep d = none →
            opThunk env ty nc pp fn arg s = .ok l { s1 with stack := pushEdge s1.stack (⟨false, l, .allocate, d⟩, none) } →
            ∃ s2 D2 new, Runs env (fun R => runProg env R (.thunk ty nc pp fn arg k)) s v s2 ∧ Post sig env anc s σ D s2 σ' D2 ∧
              s2.stack = ⟨me, fs ++ ((⟨false, l, .allocate, d⟩, none) :: new)⟩ :: K ∧
              FrameOK sig s2.table σ' D2 me obs' (fs ++ ((⟨false, l, .allocate, d⟩, none) :: new)) ∧
              SMono sig s1.table s2.table ∧
              Replay sig env s2.table m π (k l) (fs.map (·.1.edge) ++ [⟨l, .allocate, d⟩]) (new.map (·.1.edge)) v := by
          intro d hw hd hpd a1
          have hfr1 : FrameOK sig s1.table σ1 D me obs _ := (hfr.post a2).allocEdge hne hw (Ref.alloc_ext ha).2 hd hpd
          have hp := a2.push (⟨false, l, .allocate, d⟩, none)
          obtain ⟨s2, D2, new, b1, b2, b3, b4, b5⟩ := ih l anc me m π _ σ1 D obs σ' obs' v
            (fs ++ [(⟨false, l, .allocate, d⟩, none)]) K he hp.inv
            (hanc.post hp.locs hp.smono) hme (by simp only; rw [a3, hs]; rfl) (hp.path.trans hpath) (hp.ign.trans hign) hfr1
          rw [List.map_append] at b5
          exact ⟨s2, D2, new, (Runs.const a1).bind b1, hp.trans b2,
            by rw [List.append_assoc] at b3; exact b3, by rw [List.append_assoc] at b4; exact b4, b2.imm, b5⟩
        rcases hcase with ⟨hns, a1⟩ | ⟨hkn, a1 | a1⟩
        · obtain ⟨s2, D2, new, b1, b2, b3, b4, _, b5⟩ := hedge (.allocNom arg) ⟨.thunk hk, by simp [hk, hns]⟩ rfl rfl a1
          exact ⟨s2, D2, _, b1, b2, b3, b4, .thunk hl b5⟩
        · obtain ⟨s2, D2, new, b1, b2, b3, b4, hi2, b5⟩ := hedge .allocStruct ⟨.thunk hk, by simp [hk, hkn.1]⟩ trivial rfl a1
          exact ⟨s2, D2, _, b1, b2, b3, b4, .thunkNew hl (hi2.known hkn) b5⟩
        · obtain ⟨s2, D2, new, b1, b2, b3, b4, b5⟩ := ih l anc me m π s1 σ1 D obs σ' obs' v fs K he a2.inv
            (hanc.post a2.locs a2.smono) hme (a3.trans hs) (a2.path.trans hpath) (a2.ign.trans hign) (hfr.post a2)
          exact ⟨s2, D2, new, (Runs.const a1).bind b1, a2.trans b2, b3, b4, .thunkOld hl (b2.imm.known hkn) b5⟩
    · rw [if_neg hk] at he; cases he
  | set ty l v0 k ih =>
    intro anc me m π s σ D obs σ' obs' v fs K he
    simp only [Ref.eval] at he
    cases he
  | ns nm body k ihb ihk =>
    intro anc me m π s σ D obs σ' obs' v fs K he h hanc hme hs hpath hign hfr
    simp only [Ref.eval] at he
    rcases hb : Ref.eval sig env (Ref.recN sig env n) ⟨me, anc⟩ m (.child π nm) body ⟨σ, obs⟩ with _ | ⟨⟨σ1, obs1⟩, w⟩
    · rw [hb] at he; cases he
    · rw [hb] at he
      simp only at he
      obtain ⟨s1, D1, new1, a1, a2, a3, a4, a5⟩ := ihb anc me m (.child π nm) { s with path := .child s.path nm } σ D obs σ1 obs1 w
        fs K hb (h.congr rfl rfl rfl) (hanc.post rfl (Ext.refl _)) hme hs (by simp only [hpath]) hign hfr
      have hp1 : Post sig env anc s σ D { s1 with path := s.path } σ1 D1 := by
        have hl : ({ s with path := .child s.path nm } : St V).locs = s.locs := rfl
        exact { inv := a2.inv.congr rfl rfl rfl, locs := a2.locs, path := rfl, ign := a2.ign, imm := a2.imm, smono := a2.smono, dmono := a2.dmono,
                keepD := a2.keepD, keepA := a2.keepA, cost := a2.cost, ran := by obtain ⟨rs, r⟩ := a2.ran; exact ⟨rs, r.runs, r.nodup, r.once, r.why, r.keep, r.old⟩ }
      obtain ⟨s2, D2, new, b1, b2, b3, b4, b5⟩ := ihk w anc me m π { s1 with path := s.path } σ1 D1 obs1 σ' obs' v
        (fs ++ new1) K he hp1.inv (hanc.post hp1.locs hp1.smono) hme a3 hpath (a2.ign.trans hign) a4
      refine ⟨s2, D2, new1 ++ new, ?_, hp1.trans b2, by rw [List.append_assoc] at b3; exact b3,
        by rw [List.append_assoc] at b4; exact b4, ?_⟩
      · obtain ⟨N1, h1⟩ := a1
        obtain ⟨N2, h2⟩ := b1
        refine ⟨max N1 N2, fun m hm => ?_⟩
        simp only [runProg]
        rw [M.bind_ok (M.get_def s), M.bind_ok (m := M.modify _) rfl, M.bind_ok (h1 m (by omega)),
          M.bind_ok (m := M.modify _) rfl]
        exact h2 m (by omega)
      · rw [List.map_append] at b5 ⊢
        exact .ns (a5.mono b2.imm) b5
  | structural body k ihb ihk =>
    intro anc me m π s σ D obs σ' obs' v fs K he h hanc hme hs hpath hign hfr
    simp only [Ref.eval] at he
    rcases hb : Ref.eval sig env (Ref.recN sig env n) ⟨me, anc⟩ true π body ⟨σ, obs⟩ with _ | ⟨⟨σ1, obs1⟩, w⟩
    · rw [hb] at he; cases he
    · rw [hb] at he
      simp only at he
      obtain ⟨s1, D1, new1, a1, a2, a3, a4, a5⟩ := ihb anc me true π { s with ignoreNominal := true } σ D obs σ1 obs1 w
        fs K hb (h.congr rfl rfl rfl) (hanc.post rfl (Ext.refl _)) hme hs hpath rfl hfr
      have hp1 : Post sig env anc s σ D { s1 with ignoreNominal := s.ignoreNominal } σ1 D1 := by
        exact { inv := a2.inv.congr rfl rfl rfl, locs := a2.locs, path := a2.path, ign := rfl, imm := a2.imm, smono := a2.smono, dmono := a2.dmono,
                keepD := a2.keepD, keepA := a2.keepA, cost := a2.cost, ran := by obtain ⟨rs, r⟩ := a2.ran; exact ⟨rs, r.runs, r.nodup, r.once, r.why, r.keep, r.old⟩ }
      obtain ⟨s2, D2, new, b1, b2, b3, b4, b5⟩ := ihk w anc me m π { s1 with ignoreNominal := s.ignoreNominal } σ1 D1 obs1 σ' obs' v
        (fs ++ new1) K he hp1.inv (hanc.post hp1.locs hp1.smono) hme a3 (a2.path.trans hpath) hign a4
      refine ⟨s2, D2, new1 ++ new, ?_, hp1.trans b2, by rw [List.append_assoc] at b3; exact b3,
        by rw [List.append_assoc] at b4; exact b4, ?_⟩
      · obtain ⟨N1, h1⟩ := a1
        obtain ⟨N2, h2⟩ := b1
        refine ⟨max N1 N2, fun m hm => ?_⟩
        simp only [runProg]
        rw [M.bind_ok (M.get_def s), M.bind_ok (m := M.modify _) rfl, M.bind_ok (h1 m (by omega)),
          M.bind_ok (m := M.modify _) rfl]
        exact h2 m (by omega)
      · rw [List.map_append] at b5 ⊢
        exact .structural (a5.mono b2.imm) b5
  | call fn arg k ih =>
    intro anc me m π s σ D obs σ' obs' v fs K he h hanc hme hs hpath hign hfr
    simp only [Ref.eval] at he
    rcases hb : (Ref.recN sig env n).call ⟨me, anc⟩ m π fn arg ⟨σ, obs⟩ with _ | ⟨⟨σ1, obs1⟩, w⟩
    · rw [hb] at he; cases he
    · rw [hb] at he
      simp only at he
      cases n with
      | zero => simp only [Ref.recN] at hb; cases hb
      | succ n =>
        obtain ⟨s1, D1, new1, a1, a2, a3, a4, a5⟩ := hP n rfl (env.code fn arg) anc me m π s σ D obs σ1 obs1 w
          fs K hb h hanc hme hs hpath hign hfr
        obtain ⟨s2, D2, new, b1, b2, b3, b4, b5⟩ := ih w anc me m π s1 σ1 D1 obs1 σ' obs' v
          (fs ++ new1) K he a2.inv (hanc.post a2.locs a2.smono) hme a3 (a2.path.trans hpath) (a2.ign.trans hign) a4
        refine ⟨s2, D2, new1 ++ new, a1.run.bind b1, a2.trans b2, by rw [List.append_assoc] at b3; exact b3,
          by rw [List.append_assoc] at b4; exact b4, ?_⟩
        rw [List.map_append] at b5 ⊢
        exact .call (a5.mono b2.imm) b5
  | panic =>
    intro anc me m π s σ D obs σ' obs' v fs K he
    simp only [Ref.eval] at he
    cases he

/-- The engine agrees with the reference semantics at every depth. -/
theorem spec_all (sig : Sig) (env : Env V) : ∀ n, FSpec sig env n ∧ PSpec sig env n := by
  intro n
  induction n using Nat.strongRecOn with
  | ind n ih =>
    have hF : FSpec sig env n := by
      cases n with
      | zero =>
        intro anc s σ D l σ' v ty pp fn hf
        simp only [Ref.recN] at hf; cases hf
      | succ n =>
        intro anc s σ D l σ' v ty pp fn hf hk h hanc hl hi
        have hP := (ih n (Nat.lt_succ_self n)).2
        exact ⟨fun nd hn hd => by obtain ⟨s', D', h1, h2, _⟩ := produce_ok hP hf hk h hanc hl hi hn (.inl hd) (.inl hd); exact ⟨s', D', h1, h2⟩,
          fun res0 => clean_ok hP (fun m hm => (ih m (Nat.lt_succ_of_le hm)).1) hf hk h hanc hl hi res0⟩
    exact ⟨hF, run_ok hF (fun m hm => (ih m (by omega)).2)⟩

end Adapton
