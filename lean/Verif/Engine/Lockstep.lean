import Verif.Engine.Clean
/-
The cleaning loop in lockstep with the reference evaluation: as long as the recorded answers are still right, the recorded
edges are those the code would record now; at the first wrong answer the thunk is re-evaluated.
-/
set_option linter.unusedSectionVars false
set_option linter.unusedVariables false
namespace Adapton
open Ref (Sig Kind Store Ext upd)
variable {V : Type} [DecidableEq V]
variable {sig : Sig} {env : Env V} {s s' s'' : St V} {σ σ' σ'' : Store V} {D D' D'' : Loc → Prop} {anc : List Loc}

/-- State while cleaning the thunk `l` with recorded edges `E`, when the edges `pre` have been found up to date; `t` is the table when the
cleaning started. -/
structure CleanSt (sig : Sig) (env : Env V) (t : Table V) (anc : List Loc) (l : Loc) (E : List (Edge V)) (cache : V)
    (s : St V) (σ : Store V) (D : Loc → Prop) (pre : List (Edge V)) : Prop where
  inv : Inv sig env s σ D
  ctx : AncOK s σ anc
  self : l ∉ anc
  dom : σ l ≠ none
  node : ∃ nd, s.table.get l = some (.comp nd) ∧ nd.res = some cache ∧ nd.succs.map Succ.edge = E ∧
    ∀ e ∈ pre, KeyClean nd.succs e.effect e.loc
  ok : ∀ e ∈ pre, EdgeOK sig s.table σ D e
  ign : s.ignoreNominal = sig.mode
  imm : SMono sig t s.table

/-- Outcome of cleaning the edges `es` after `pre`: either all are up to date (and `Q` holds), or the thunk is about to be
re-evaluated; then the last edge that was examined is not yet paid for. -/
def Outcome (sig : Sig) (env : Env V) (t : Table V) (anc : List Loc) (l : Loc) (E : List (Edge V)) (cache : V) (ty : Ty) (res : V)
    (s : St V) (σ : Store V) (D : Loc → Prop) (pre es : List (Edge V)) (σ' : Store V) (obs' : Ref.Obs) (Q : Prop) : Prop :=
  (∃ s1 D1, Q ∧ Post sig env anc s σ D s1 σ' D1 ∧ s1.stack = s.stack ∧
    CleanSt sig env t anc l E cache s1 σ' D1 (pre ++ es) ∧ ObsRel sig obs' (pre ++ es) ∧
    ∀ snap rest b s2, snap.map Succ.edge = es → Runs env (fun R => cleanLoop R ty res l rest) s1 b s2 →
      Runs env (fun R => cleanLoop R ty res l (snap ++ rest)) s b s2) ∨
  (∃ s1 σ1 D1, Post sig env anc { s with log := .begin .cleanRec none l :: s.log } σ D s1 σ1 D1 ∧ Ext σ1 σ' ∧ s1.stack = s.stack ∧
    (∃ nd eff x, s1.table.get l = some (.comp nd) ∧ KeyDirty nd.succs eff x ∧ Why sig s1.table nd.succs s1.table σ1 D1) ∧
    ∀ snap rest v1 s2, snap.map Succ.edge = es → Runs env (fun R => R.produce ty l) s1 v1 s2 →
      Runs env (fun R => cleanLoop R ty res l (snap ++ rest)) s (some (decide (v1 ≠ res)))
        { s2 with log := .end_ :: .end_ :: s2.log })

variable {t : Table V} {l : Loc} {E pre es : List (Edge V)} {cache res : V} {ty : Ty} {obs obs' : Ref.Obs} {Q : Prop}

theorem map_append_split {α β : Type} {f : α → β} {xs : List α} {a b : List β} (h : xs.map f = a ++ b) :
    ∃ u w, xs = u ++ w ∧ u.map f = a ∧ w.map f = b := by
  rw [List.map_eq_append_iff] at h
  obtain ⟨u, w, h1, h2, h3⟩ := h
  exact ⟨u, w, h1, h2, h3⟩

/-- Sequencing. -/
theorem Outcome.seq {es1 es2 : List (Edge V)} {σ1 : Store V} {obs1 : Ref.Obs} {Q1 : Prop}
    (h1 : Outcome sig env t anc l E cache ty res s σ D pre es1 σ1 obs1 Q1) (hext : Ext σ1 σ')
    (h2 : Q1 → ∀ s1 D1, CleanSt sig env t anc l E cache s1 σ1 D1 (pre ++ es1) → ObsRel sig obs1 (pre ++ es1) →
      Outcome sig env t anc l E cache ty res s1 σ1 D1 (pre ++ es1) es2 σ' obs' Q) :
    Outcome sig env t anc l E cache ty res s σ D pre (es1 ++ es2) σ' obs' Q := by
  rcases h1 with ⟨s1, D1, q1, p1, st1, c1, o1, r1⟩ | ⟨s1, σ1', D1, p1, e1, st1, k1, r1⟩
  · rcases h2 q1 s1 D1 c1 o1 with ⟨s2, D2, q2, p2, st2, c2, o2, r2⟩ | ⟨s2, σ2', D2, p2, e2, st2, k2, r2⟩
    · left
      refine ⟨s2, D2, q2, p1.trans p2, st2.trans st1, by rw [← List.append_assoc]; exact c2,
        by rw [← List.append_assoc]; exact o2, ?_⟩
      intro snap rest b s3 hs hr
      obtain ⟨u, w, rfl, hu, hw⟩ := map_append_split hs
      rw [List.append_assoc]
      exact r1 u _ b s3 hu (r2 w rest b s3 hw hr)
    · right
      refine ⟨s2, σ2', D2, (p1.shift none l).trans p2, e2, st2.trans st1, k2, ?_⟩
      intro snap rest v1 s3 hs hr
      obtain ⟨u, w, rfl, hu, hw⟩ := map_append_split hs
      rw [List.append_assoc]
      exact r1 u _ _ _ hu (r2 w rest v1 s3 hw hr)
  · right
    refine ⟨s1, σ1', D1, p1, e1.trans hext, st1, k1, ?_⟩
    intro snap rest v1 s3 hs hr
    obtain ⟨u, w, rfl, hu, hw⟩ := map_append_split hs
    rw [List.append_assoc]
    exact r1 u _ _ _ hu hr

/-- Nothing to clean. -/
theorem Outcome.nil (hc : CleanSt sig env t anc l E cache s σ D pre) (ho : ObsRel sig obs pre) (hq : Q) {D1 : Loc → Prop}
    (hp : Post sig env (l :: anc) s σ D s σ' D1) :
    Outcome sig env t anc l E cache ty res s σ D pre [] σ' obs Q := by
  left
  obtain ⟨nd, g1, g2, g3, g4⟩ := hc.node
  refine ⟨s, D1, hq, hp.weaken (fun x hx => List.mem_cons_of_mem _ hx), rfl, ⟨hp.inv, hc.ctx.post rfl hp.smono, hc.self, ?_, ?_, ?_, hc.ign, hc.imm⟩, ?_, ?_⟩
  · intro h0
    cases hv : σ l with
    | none => exact hc.dom hv
    | some v => rw [hp.smono _ _ hv] at h0; cases h0
  · rw [List.append_nil]; exact ⟨nd, g1, g2, g3, g4⟩
  · rw [List.append_nil]; exact fun e he => hp.edgeOK (hc.ok e he)
  · rw [List.append_nil]; exact ho
  · intro snap rest b s2 hs hr
    cases snap with
    | nil => exact hr
    | cons a as => cases hs

/-- Cleaning one edge. -/
theorem step_edge {σ1 : Store V} {obs1 : Ref.Obs} {e : Edge V} {tail : List (Edge V)}
    (hc : CleanSt sig env t anc l E cache s σ D pre) (hE : E = pre ++ e :: tail)
    (hclean : ∀ nd, s.table.get l = some (.comp nd) → KeyClean nd.succs e.effect e.loc →
      Q ∧ ∃ D1, Post sig env (l :: anc) s σ D s σ1 D1 ∧ EdgeOK sig s.table σ1 D1 e)
    (hdirty : ∀ nd, s.table.get l = some (.comp nd) → KeyDirty nd.succs e.effect e.loc → ∀ lg, ∃ ch s1 σ1' D1,
      Runs env (fun R => cleanDep R e.dep e.loc) { s with log := lg } ch s1 ∧ Post sig env (l :: anc) { s with log := lg } σ D s1 σ1' D1 ∧
      s1.stack = s.stack ∧ ((ch = true ∧ Ext σ1' σ1 ∧ (e.effect = .allocate ∨ EdgeChanged sig s1.table σ1' D1 e)) ∨
        (ch = false ∧ σ1' = σ1 ∧ Q ∧ EdgeOK sig s1.table σ1 D1 e ∧ (e.effect = .observe ∨ e.dep = .allocStruct))))
    (hobs : Q → ObsRel sig obs1 (pre ++ [e])) :
    Outcome sig env t anc l E cache ty res s σ D pre [e] σ1 obs1 Q := by
  obtain ⟨nd, g1, g2, g3, g4⟩ := hc.node
  have hmem : e ∈ nd.succs.map Succ.edge := by rw [g3, hE]; simp
  obtain ⟨e0, he0, hee⟩ := List.mem_map.1 hmem
  have hl0 : e0.loc = e.loc := congrArg Edge.loc hee
  have hf0 : e0.effect = e.effect := congrArg Edge.effect hee
  obtain ⟨e1, hfind⟩ := find_of_mem he0
  rw [hl0, hf0] at hfind
  have hdom : ∀ {σ2 : Store V}, Ext σ σ2 → σ2 l ≠ none := by
    intro σ2 hext h0
    cases hv : σ l with
    | none => exact hc.dom hv
    | some v => rw [hext _ _ hv] at h0; cases h0
  -- shape of the loop on a list starting with this edge
  have hsnap : ∀ snap : List (Succ V), snap.map Succ.edge = [e] → ∃ a, snap = [a] ∧ a.edge = e := by
    intro snap hs
    match snap, hs with
    | [a], hs => simp at hs; exact ⟨a, rfl, hs⟩
  cases hdb : e1.dirty
  · -- clean
    left
    obtain ⟨q, D1, hp, hok⟩ := hclean nd g1 ⟨e1, hfind, hdb⟩
    refine ⟨s, D1, q, hp.weaken (fun x hx => List.mem_cons_of_mem _ hx), rfl,
      ⟨hp.inv, hc.ctx.post rfl hp.smono, hc.self, hdom hp.smono, ⟨nd, g1, g2, g3, ?_⟩, ?_, hc.ign, hc.imm⟩, hobs q, ?_⟩
    · intro e' he'
      rcases List.mem_append.1 he' with he' | he'
      · exact g4 e' he'
      · simp at he'; subst he'; exact ⟨e1, hfind, hdb⟩
    · intro e' he'
      rcases List.mem_append.1 he' with he' | he'
      · exact hp.edgeOK (hc.ok e' he')
      · simp at he'; subst he'; exact hok
    · intro snap rest b s2 hs hr
      obtain ⟨a, rfl, ha⟩ := hsnap snap hs
      have hal : a.loc = e.loc := congrArg Edge.loc ha
      have haf : a.effect = e.effect := congrArg Edge.effect ha
      obtain ⟨N, hN⟩ := hr
      refine ⟨N, fun m hm => ?_⟩
      simp only [List.cons_append, List.nil_append, cleanLoop]
      rw [hal, haf, M.bind_ok (succDirty_ok g1 hfind)]
      simp only [hdb, Bool.false_eq_true, if_false]
      exact hN m hm
  · -- dirty
    obtain ⟨ch, s1, σ1', D1, hr1, hp1, hst1, hcase⟩ := hdirty nd g1 ⟨e1, hfind, hdb⟩
      (.begin .cleanRec (some l) e.loc :: s.log)
    obtain ⟨nd1, k1, k2, k3, k4, k5⟩ := hp1.keepA l (List.mem_cons_self ..) nd g1
    have hkd1 := k4 _ _ (⟨e1, hfind, hdb⟩ : KeyDirty nd.succs e.effect e.loc)
    rcases hcase with ⟨rfl, hext, hch⟩ | ⟨rfl, rfl, q, hok, hob⟩
    · right
      refine ⟨{ s1 with log := .begin .cleanEval (some l) e.loc :: s1.log }, σ1', D1,
        (hp1.weaken (fun x hx => List.mem_cons_of_mem _ hx)).relog (lg := .begin .cleanRec none l :: s.log) hp1.cost, hext, hst1, ⟨nd1, _, _, k1, hkd1, ?_⟩, ?_⟩
      · have hmem1 : e ∈ nd1.succs.map Succ.edge := by rw [k3]; exact hmem
        obtain ⟨e2, he2, hee2⟩ := List.mem_map.1 hmem1
        have hl2 : e2.loc = e.loc := congrArg Edge.loc hee2
        have hf2 : e2.effect = e.effect := congrArg Edge.effect hee2
        refine ⟨e2, he2, ?_⟩
        rw [hl2, hf2, hee2]
        by_cases ha : e.effect = .allocate
        · rw [ha] at hkd1
          exact .inr ⟨ha, .inl hkd1⟩
        · left
          refine ⟨?_, hch.resolve_left ha⟩
          cases hef : e.effect
          · rfl
          · exact absurd hef ha
      intro snap rest v1 s2 hs hr
      obtain ⟨a, rfl, ha⟩ := hsnap snap hs
      have hal : a.loc = e.loc := congrArg Edge.loc ha
      have haf : a.effect = e.effect := congrArg Edge.effect ha
      have had : a.dep = e.dep := congrArg Edge.dep ha
      obtain ⟨N1, hN1⟩ := hr1
      obtain ⟨N2, hN2⟩ := hr
      refine ⟨max N1 N2, fun m hm => ?_⟩
      simp only [List.cons_append, List.nil_append, cleanLoop]
      rw [hal, haf, had, M.bind_ok (succDirty_ok g1 hfind)]
      simp only [hdb, if_true]
      rw [M.bind_ok (m := evBegin _ _ _) rfl]
      rw [M.bind_ok (hN1 m (by omega))]
      simp only [if_true]
      rw [M.bind_ok (m := evBegin _ _ _) rfl, M.bind_ok (hN2 m (by omega)), M.bind_ok (m := evEnd) rfl,
        M.bind_ok (m := evEnd) rfl]
      rfl
    · left
      obtain ⟨e2, hf2, hd2⟩ := hkd1
      have hee2 : e2.edge = e := by
        have hE1 : (nd1.succs.map Succ.edge).find? (Edge.matches e.effect e.loc) = some e2.edge := by
          rw [find_edge, hf2]; rfl
        rw [k3, g3, hE] at hE1
        have hpre : pre.find? (Edge.matches e.effect e.loc) = none := by
          rw [List.find?_eq_none]
          intro e' he' hm
          have hm := Edge.matches_iff.1 hm
          have hkc := g4 e' he'
          rw [hm.1, hm.2] at hkc
          exact not_clean_of_dirty ⟨e1, hfind, hdb⟩ hkc
        rw [List.find?_append, hpre] at hE1
        have hme : e.matches e.effect e.loc = true := Edge.matches_iff.2 ⟨rfl, rfl⟩
        simp only [List.find?, hme, Option.none_or, Option.some.injEq] at hE1
        exact hE1.symm
      have hlk : l ∉ s1.locs := by
        rw [hp1.locs]; exact fun hm => hc.self (hc.ctx.stk l hm)
      generalize hs3 : ({ s1 with
        table := s1.table.put l (.comp { nd1 with succs := setFirst e.effect e.loc false nd1.succs })
        log := .end_ :: .eff .cleanEdge (some l) e.loc :: s1.log } : St V) = s3
      have hp2 : Post sig env anc s1 σ1' D1 s3 σ1' D1 := by
        rw [← hs3]
        exact cleanKey_post hp1.inv k1 hlk hc.self hf2
          (hob.imp id fun h => (congrArg Edge.dep hee2).trans h) (by rw [hee2]; exact hok) hd2 _
      have hself3 : s3.table.get l = some (.comp { nd1 with succs := setFirst e.effect e.loc false nd1.succs }) := by
        rw [← hs3]; exact Table.get_put_self _ _ _
      have hp : Post sig env anc s σ D s3 σ1' D1 := by
        refine ((hp1.weaken (fun x hx => List.mem_cons_of_mem (a := x) l hx)).trans hp2).relog (lg := s.log) (lg' := s3.log) ?_
        have q1 := hp1.cost
        unfold Paid at q1
        have q2 := tableDirty_put s1.table l _ (.comp { nd1 with succs := setFirst e.effect e.loc false nd1.succs }) k1
        have q3 := setFirst_cleaned e.effect e.loc nd1.succs hf2 hd2
        simp only [Node.succsList] at q2
        rw [← hs3]
        show cleanRecs s1.log + dirtyVisits s.log + tableDirty (s1.table.put l _) ≤ cleanRecs s.log + dirtyVisits s1.log + tableDirty s.table
        have q1 : cleanRecs s1.log + dirtyVisits s.log + tableDirty s1.table ≤ cleanRecs s.log + 1 + dirtyVisits s1.log + tableDirty s.table := q1
        omega
      refine ⟨s3, D1, q, hp, by rw [← hs3]; exact hst1,
        ⟨hp2.inv, hc.ctx.post hp.locs hp.smono, hc.self, hdom hp.smono,
          ⟨_, hself3, k2.trans g2, by simp only [setFirst_edges]; exact k3.trans g3, ?_⟩, ?_, hp.ign.trans hc.ign, hc.imm.trans hp.imm⟩, hobs q, ?_⟩
      · intro e' he'
        rcases List.mem_append.1 he' with he' | he'
        · -- an earlier edge
          have hem : e' ∈ nd.succs.map Succ.edge := by rw [g3, hE]; exact List.mem_append_left _ he'
          obtain ⟨e'0, j1, j2⟩ := List.mem_map.1 hem
          have hle' : e'0.loc = e'.loc := congrArg Edge.loc j2
          have hfe' : e'0.effect = e'.effect := congrArg Edge.effect j2
          have := k5 e'0 j1 (by rw [j2]; exact hc.ok e' he') (by rw [hle', hfe']; exact g4 e' he')
          rw [hle', hfe'] at this
          exact keyClean_setFalse this
        · simp at he'; subst he'
          exact ⟨_, setFirst_find _ _ false _ hf2, rfl⟩
      · intro e' he'
        rcases List.mem_append.1 he' with he' | he'
        · exact hp.edgeOK (hc.ok e' he')
        · simp at he'; subst he'; exact hp2.edgeOK hok
      · intro snap rest b s2 hs hr
        obtain ⟨a, rfl, ha⟩ := hsnap snap hs
        have hal : a.loc = e.loc := congrArg Edge.loc ha
        have haf : a.effect = e.effect := congrArg Edge.effect ha
        have had : a.dep = e.dep := congrArg Edge.dep ha
        obtain ⟨N1, hN1⟩ := hr1
        obtain ⟨N2, hN2⟩ := hr
        refine ⟨max N1 N2, fun m hm => ?_⟩
        simp only [List.cons_append, List.nil_append, cleanLoop]
        rw [hal, haf, had, M.bind_ok (succDirty_ok g1 hfind)]
        simp only [hdb, if_true]
        rw [M.bind_ok (m := evBegin _ _ _) rfl]
        rw [M.bind_ok (hN1 m (by omega))]
        simp only [Bool.false_eq_true, if_false]
        rw [M.bind_ok (setSuccDirty_ok false k1 hf2), M.bind_ok (m := evEff _ _ _) rfl, M.bind_ok (m := evEnd) rfl]
        have := hN2 m (by omega)
        rw [← hs3] at this
        exact this

/-! ### The record of observations -/

theorem find_append_single {pre : List (Edge V)} {e : Edge V} {x : Loc} :
    (pre ++ [e]).find? (Edge.matches .observe x) =
      (pre.find? (Edge.matches .observe x)).or (if e.matches .observe x then some e else none) := by
  rw [List.find?_append]
  congr 1
  simp only [List.find?]
  cases e.matches .observe x <;> rfl

theorem ObsRel.new (h : ObsRel sig obs pre) {x : Loc} {d : Dep V} (hf : pre.find? (Edge.matches .observe x) = none) :
    ObsRel sig ((x, d.isMap) :: obs) (pre ++ [⟨x, .observe, d⟩]) := by
  intro y ty b hk hv
  rw [find_append_single, List.mem_cons, h y ty b hk hv]
  by_cases hy : y = x
  · subst hy
    have hm : (⟨y, .observe, d⟩ : Edge V).matches .observe y = true := Edge.matches_iff.2 ⟨rfl, rfl⟩
    rw [hf, hm]
    simp only [Option.none_or, if_true]
    constructor
    · rintro (hh | ⟨e, h1, _⟩)
      · exact ⟨_, rfl, (congrArg Prod.snd hh).symm⟩
      · cases h1
    · rintro ⟨e, h1, h2⟩
      cases h1
      left; rw [← h2]
  · have hm : (⟨x, .observe, d⟩ : Edge V).matches .observe y = false := by
      simp only [Edge.matches, decide_eq_false_iff_not]
      rintro ⟨_, h2⟩; exact hy h2.symm
    rw [hm]
    simp only [Bool.false_eq_true, if_false, Option.or_none]
    constructor
    · rintro (hh | hh)
      · exact absurd (congrArg Prod.fst hh) hy
      · exact hh
    · exact .inr

theorem ObsRel.skip (h : ObsRel sig obs pre) {e : Edge V}
    (hf : ∀ x ty, sig x = .cell ty → e.matches .observe x = true → pre.find? (Edge.matches .observe x) ≠ none) :
    ObsRel sig obs (pre ++ [e]) := by
  intro y ty b hk hv
  rw [find_append_single, h y ty b hk hv]
  rcases hp : pre.find? (Edge.matches .observe y) with _ | e1
  · cases hm : e.matches .observe y
    · simp
    · exact absurd hp (hf y ty hk hm)
  · simp

theorem ObsRel.alloc (h : ObsRel sig obs pre) {x : Loc} {d : Dep V} : ObsRel sig obs (pre ++ [⟨x, .allocate, d⟩]) := by
  refine h.skip ?_
  intro y _ _ hy
  have := (Edge.matches_iff.1 hy).1
  cases this

/-- Observations of thunks are not in the reference's record. -/
theorem ObsRel.thunk (h : ObsRel sig obs pre) {x : Loc} {d : Dep V} {ty pp fn} (hk : sig x = .thunk ty pp fn) :
    ObsRel sig obs (pre ++ [⟨x, .observe, d⟩]) := by
  refine h.skip ?_
  intro y ty' hy hm
  have h2 : x = y := (Edge.matches_iff.1 hm).2
  subst h2
  rw [hk] at hy; cases hy

theorem ObsRel.again (h : ObsRel sig obs pre) {x : Loc} {e1 : Edge V} (hf : pre.find? (Edge.matches .observe x) = some e1) {b : Bool}
    (hb : e1.dep.isMap = b) : ObsRel sig ((x, b) :: obs) pre := by
  intro y ty b' hk hv
  rw [List.mem_cons, h y ty b' hk hv]
  constructor
  · rintro (hh | hh)
    · cases hh; exact ⟨e1, hf, hb⟩
    · exact hh
  · exact .inr

/-- Observations of pure cells are not recorded. -/
theorem ObsRel.hidden (h : ObsRel sig obs pre) {x : Loc} (hx : ¬ Vis sig x) {b : Bool} : ObsRel sig ((x, b) :: obs) pre := by
  intro y ty b' hk hv
  rw [List.mem_cons, h y ty b' hk hv]
  constructor
  · rintro (hh | hh)
    · cases hh; exact absurd hv hx
    · exact hh
  · exact .inr

theorem not_vis {x : Loc} {ty : Ty} (hk : sig x = .cell ty) (hs : x.isStruct = true) (hp : sig.pu = true) : ¬ Vis sig x := by
  intro hv
  have := hv ty hk hs
  rw [hp] at this; cases this

/-- Observing a pure location. -/
theorem Inv.observePure {n : Nat} {c : Ref.Ctx} {m : Bool} {ty1 : Ty} {x : Loc} {w w' : V} {σ1 : Store V} {obs1 : Ref.Obs}
    (h : Inv sig env s σ D) (hp : PureVal sig s.table x w) (ho : ObsRel sig obs pre)
    (hob : Ref.observe sig (Ref.recN sig env n) c m ty1 x ⟨σ, obs⟩ = some (⟨σ1, obs1⟩, w')) :
    σ1 = σ ∧ w' = w ∧ ObsRel sig obs1 pre := by
  obtain ⟨hs, hpu, nd, hn, hpv⟩ := hp
  unfold Ref.observe at hob
  rcases hk : sig x with ty' | ⟨ty', pp, fn⟩
  · rw [hk] at hob
    simp only at hob
    split at hob
    · rcases hσ : σ x with _ | c
      · rw [hσ] at hob; cases hob
      · rw [hσ] at hob
        cases hob
        obtain ⟨nd', j1, j2, j3⟩ := h.storePure hk hs hpu hσ
        rw [hn] at j1; cases j1
        cases hpv
        exact ⟨rfl, j3.symm, ho.hidden (not_vis hk hs hpu)⟩
    · cases hob
  · rw [hk] at hob
    simp only at hob
    split at hob
    · rcases hf : (Ref.recN sig env n).frc c.anc σ x with _ | ⟨σ2, w2⟩
      · rw [hf] at hob; cases hob
      · rw [hf] at hob
        cases hob
        obtain ⟨nd', rfl, _⟩ := h.getThunk hk hn
        obtain ⟨k, hk'⟩ := h.pureRes hpu x nd' w hs hn hpv
        have := Ref.frc_det (Ref.frc_full hf) hk'
        cases this
        exact ⟨rfl, rfl, ho⟩
    · cases hob

theorem Inv.observeMapPure {n : Nat} {c : Ref.Ctx} {m : Bool} {ty1 : Ty} {x : Loc} {f : V → V} {w w' : V} {σ1 : Store V} {obs1 : Ref.Obs}
    (h : Inv sig env s σ D) (hp : PureVal sig s.table x w) (ho : ObsRel sig obs pre)
    (hob : Ref.observeMap sig (Ref.recN sig env n) c m ty1 x f ⟨σ, obs⟩ = some (⟨σ1, obs1⟩, w')) :
    σ1 = σ ∧ w' = f w ∧ ObsRel sig obs1 pre := by
  unfold Ref.observeMap at hob
  rcases hk : sig x with ty' | ⟨ty', pp, fn⟩
  · rw [hk] at hob
    simp only at hob
    split at hob
    · rcases hσ : σ x with _ | c
      · rw [hσ] at hob; cases hob
      · rw [hσ] at hob
        obtain ⟨hs, hpu, nd, hn, hpv⟩ := hp
        obtain ⟨nd', j1, j2, j3⟩ := h.storePure hk hs hpu hσ
        rw [hn] at j1; cases j1
        cases hpv
        cases hob
        refine ⟨rfl, by rw [j3], ?_⟩
        split
        · exact ho
        · exact ho.hidden (not_vis hk hs hpu)
    · cases hob
  · rw [hk] at hob
    simp only at hob
    rcases ho2 : Ref.observe sig (Ref.recN sig env n) c m ty1 x ⟨σ, obs⟩ with _ | ⟨⟨σ2, obs2⟩, w2⟩
    · rw [ho2] at hob; cases hob
    · rw [ho2] at hob
      cases hob
      obtain ⟨h1, h2, h3⟩ := h.observePure hp ho ho2
      exact ⟨h1, by rw [h2], h3⟩

/-! ### A clean thunk needs no work -/

theorem cleanLoop_clean {nd : CompNode V} (hn : s.table.get l = some (.comp nd)) (hc : AllClean nd.succs) (R : Rec V)
    (es : List (Succ V)) (hes : ∀ e ∈ es, e ∈ nd.succs) : cleanLoop R ty res l es s = .ok none s := by
  induction es with
  | nil => rfl
  | cons e es ih =>
    obtain ⟨e1, h1, h2⟩ := hc e (hes e (List.mem_cons_self ..))
    unfold cleanLoop
    rw [M.bind_ok (succDirty_ok hn h1)]
    simp only [h2, Bool.false_eq_true, if_false]
    exact ih (fun e he => hes e (List.mem_cons_of_mem _ he))

theorem cleanForce_clean {nd : CompNode V} (hn : s.table.get l = some (.comp nd)) (hty : nd.ty = ty)
    (hc : AllClean nd.succs) {w : V} (hw : nd.res = some w) (R : Rec V) :
    cleanForceBody R ty res l s = .ok (decide (res ≠ w)) s := by
  unfold cleanForceBody
  rw [M.bind_ok (resNode_ok hn hty)]
  simp only [hw]
  rw [M.bind_ok (cleanLoop_clean hn hc R nd.succs (fun _ h => h))]
  rfl

/-- Forcing, in the reference, a thunk that is settled: same value, no change of the engine state. -/
theorem settled_force {n : Nat} (hF : FSpec sig env n) {x : Loc} {σ1 : Store V} {w' w : V} {ty' pp fn}
    (hf : (Ref.recN sig env n).frc (l :: anc) σ x = some (σ1, w')) (hk : sig x = .thunk ty' pp fn)
    (h : Inv sig env s σ D) (hanc : AncOK s σ (l :: anc)) (hx : x ∉ l :: anc) (hi : s.ignoreNominal = sig.mode) {nd : CompNode V}
    (hn : s.table.get x = some (.comp nd)) (hc : AllClean nd.succs) (hw : nd.res = some w) :
    w' = w ∧ ∃ D1, Post sig env (l :: anc) s σ D s σ1 D1 ∧ D1 x := by
  have hkx := h.thunkKind hn
  rw [hk] at hkx; cases hkx
  obtain ⟨s', D', h1, h2⟩ := (hF (l :: anc) s σ D x σ1 w' _ _ _ hf hk h hanc hx hi).2 w
  have h3 : Runs env (fun R => cleanForceBody R nd.ty w x) s (decide (w ≠ w)) s :=
    Runs.ofEq (fun R => cleanForce_clean hn rfl hc hw R)
  obtain ⟨h4, h5⟩ := h1.det h3
  subst h5
  refine ⟨?_, D', h2.post, h2.done⟩
  have h4' : decide (w ≠ w') = false := by rw [h4]; simp
  exact (Classical.not_not.1 (of_decide_eq_false h4')).symm

theorem CleanSt.ancl (hc : CleanSt sig env t anc l E cache s σ D pre) : AncOK s σ (l :: anc) := hc.ctx.cons hc.dom

theorem CleanSt.good {e : Edge V} (hc : CleanSt sig env t anc l E cache s σ D pre) (hE : e ∈ E) {nd : CompNode V}
    (hn : s.table.get l = some (.comp nd)) (hk : KeyClean nd.succs e.effect e.loc) : Good s.table s.locs e := by
  obtain ⟨nd', g1, g2, g3, g4⟩ := hc.node
  rw [hn] at g1; cases g1
  rw [← g3] at hE
  obtain ⟨e0, he0, rfl⟩ := List.mem_map.1 hE
  rcases hc.inv.clean l nd e0 hn he0 hk with hg | hg
  · exact hg.elim
  · exact hg

/-- Cleaning an edge that observes a thunk. -/
theorem thunk_step {n : Nat} (hF : FSpec sig env n) (hc : CleanSt sig env t anc l E cache s σ D pre) {x : Loc} {w : V}
    {tail : List (Edge V)} {ty' pp fn} (hE : E = pre ++ ⟨x, .observe, .force ty' w⟩ :: tail)
    (hk : sig x = .thunk ty' pp fn) (hx : x ∉ l :: anc) {σ1 : Store V} {w' : V}
    (hf : (Ref.recN sig env n).frc (l :: anc) σ x = some (σ1, w')) (ho : ObsRel sig obs pre) :
    Outcome sig env t anc l E cache ty res s σ D pre [⟨x, .observe, .force ty' w⟩] σ1 obs (w' = w) := by
  refine step_edge hc hE ?_ ?_ (fun _ => ho.thunk hk)
  · intro nd hn hkc
    have hg := hc.good (by rw [hE]; simp) hn hkc
    obtain ⟨arg, harg⟩ : ∃ arg, σ x = some arg := by
      cases n with
      | zero => simp only [Ref.recN] at hf; cases hf
      | succ n =>
        obtain ⟨_, _, _, arg, _, _, h2, _⟩ := Ref.frc_succ hf
        exact ⟨arg, h2⟩
    obtain ⟨ndx, j1, j2, _⟩ := hc.inv.storeThunk hk harg
    unfold Good at hg
    simp only [j1] at hg
    obtain ⟨_, ⟨w0, g2, g3⟩, g4⟩ := hg
    have g3 : w = w0 := g3
    subst g3
    obtain ⟨hw, D1, hpost, hD1⟩ := settled_force hF hf hk hc.inv hc.ancl hx hc.ign j1 g4 g2
    refine ⟨hw, D1, hpost, arg, hpost.smono _ _ harg, ?_⟩
    simp only [hk]
    exact ⟨hD1, ndx, w, j1, g2, rfl⟩
  · intro nd hn hkd lg
    have hinv' : Inv sig env { s with log := lg } σ D := hc.inv.congr rfl rfl rfl
    obtain ⟨s1, D1, h1, h2⟩ := (hF (l :: anc) { s with log := lg } σ D x σ1 w' _ _ _ hf hk hinv'
      (hc.ancl.post rfl (Ext.refl _)) hx hc.ign).2 w
    refine ⟨_, s1, σ1, D1, h1.cleanForce, h2.post, h2.stack, ?_⟩
    by_cases hw : w = w'
    · right
      obtain ⟨ndx, j1, j2⟩ := h2.res
      refine ⟨by simp [hw], rfl, hw.symm, ?_, .inl rfl⟩
      obtain ⟨nd', k1, k2, k3, k4, k5, k6⟩ := h2.post.inv.settled x h2.done
      cases hv : σ1 x with
      | none => exact absurd hv k3
      | some arg =>
        refine ⟨arg, hv, ?_⟩
        simp only [hk]
        exact ⟨h2.done, ndx, w', j1, j2, hw⟩
    · left
      refine ⟨by simp [hw], Ext.refl _, .inr ?_⟩
      obtain ⟨ndx, j1, j2⟩ := h2.res
      obtain ⟨nd', k1, k2, k3, k4, k5, k6⟩ := h2.post.inv.settled x h2.done
      cases hv : σ1 x with
      | none => exact absurd hv k3
      | some arg =>
        refine ⟨arg, hv, ?_⟩
        simp only [hk]
        exact ⟨h2.done, ndx, w', j1, j2, hw⟩

/-- Observing again, in one run, a thunk. -/
theorem thunk_dup {n : Nat} (hF : FSpec sig env n) (hc : CleanSt sig env t anc l E cache s σ D pre) {x : Loc} {w : V}
    {ty' pp fn ty''} (hk : sig x = .thunk ty' pp fn) (hx : x ∉ l :: anc) {σ1 : Store V} {w' : V}
    (hf : (Ref.recN sig env n).frc (l :: anc) σ x = some (σ1, w'))
    (hp : pre.find? (Edge.matches .observe x) = some ⟨x, .observe, .force ty'' w⟩) :
    w' = w ∧ ∃ D1, Post sig env (l :: anc) s σ D s σ1 D1 := by
  obtain ⟨c, h1, h2⟩ := hc.ok _ (List.mem_of_find?_eq_some hp)
  simp only [hk] at h2
  obtain ⟨hD, nd, w0, h3, h4, h5⟩ := h2
  have h5 : w = w0 := h5
  subst h5
  obtain ⟨nd', k1, k2, k3, k4, k5, k6⟩ := hc.inv.settled x hD
  rw [h3] at k1; cases k1
  obtain ⟨hw, D1, hpost, _⟩ := settled_force hF hf hk hc.inv hc.ancl hx hc.ign h3 k5 h4
  exact ⟨hw, D1, hpost⟩

theorem CleanSt.edgeWf {e : Edge V} (hc : CleanSt sig env t anc l E cache s σ D pre) (hE : e ∈ E) : EdgeWf sig e := by
  obtain ⟨nd, g1, g2, g3, g4⟩ := hc.node
  rw [← g3] at hE
  obtain ⟨e0, he0, rfl⟩ := List.mem_map.1 hE
  exact (hc.inv.graph.edge l nd e0 g1 he0).2

/-- Cleaning an edge that observes a cell. -/
theorem cell_step (hc : CleanSt sig env t anc l E cache s σ D pre) {x : Loc} {d : Dep V} {tail : List (Edge V)} {ty' : Ty}
    (hE : E = pre ++ ⟨x, .observe, d⟩ :: tail) (hk : sig x = .cell ty') {c : V} (hσ : σ x = some c)
    (hQ : d.okVal c → Q) (hrun : ∀ lg, ∃ ch, Runs env (fun R => cleanDep R d x) { s with log := lg } ch { s with log := lg } ∧
      (ch = false ↔ d.okVal c)) (hobs : Q → ObsRel sig obs' (pre ++ [⟨x, .observe, d⟩])) :
    Outcome sig env t anc l E cache ty res s σ D pre [⟨x, .observe, d⟩] σ obs' Q := by
  have hvis : Vis sig x := (hc.edgeWf (e := ⟨x, .observe, d⟩) (by rw [hE]; simp)).1
  obtain ⟨ndx, j1, j2, j3⟩ := hc.inv.storeCell hk hvis hσ
  refine step_edge hc hE ?_ ?_ hobs
  · intro nd hn hkc
    have hg := hc.good (e := ⟨x, .observe, d⟩) (by rw [hE]; simp) hn hkc
    unfold Good at hg
    simp only [j1] at hg
    rw [j3] at hg
    exact ⟨hQ hg, D, Post.idle hc.inv rfl rfl rfl rfl, c, hσ, by simp only [hk]; exact hg⟩
  · intro nd hn hkd lg
    obtain ⟨ch, h1, h2⟩ := hrun lg
    refine ⟨ch, _, σ, D, h1, Post.idle (hc.inv.congr rfl rfl rfl) rfl rfl rfl rfl, rfl, ?_⟩
    cases ch
    · right
      exact ⟨rfl, rfl, hQ (h2.1 rfl), ⟨c, hσ, by simp only [hk]; exact h2.1 rfl⟩, .inl rfl⟩
    · left
      refine ⟨rfl, Ext.refl _, .inr ⟨c, hσ, ?_⟩⟩
      simp only [hk]
      intro hv
      exact absurd (h2.2 hv) (by simp)

/-- Cleaning an allocation edge. -/
theorem alloc_step (hc : CleanSt sig env t anc l E cache s σ D pre) {x : Loc} {d : Dep V} {c : V} {tail : List (Edge V)}
    (hd : d = .allocCell c ∨ d = .allocNom c) {σ1 : Store V} (ha : Ref.alloc σ x c = some σ1)
    (hE : E = pre ++ ⟨x, .allocate, d⟩ :: tail) (ho : ObsRel sig obs pre) :
    Outcome sig env t anc l E cache ty res s σ D pre [⟨x, .allocate, d⟩] σ1 obs True := by
  have hdv : ∀ c', d.allocOk c' → c' = c := by rcases hd with rfl | rfl <;> exact fun c' h => Eq.symm h
  have hdc : d.allocOk c := by rcases hd with rfl | rfl <;> rfl
  refine step_edge hc hE ?_ ?_ (fun _ => ho.alloc)
  · intro nd hn hkc
    have hg := hc.good (e := ⟨x, .allocate, d⟩) (by rw [hE]; simp) hn hkc
    obtain ⟨m, c', g1, g2, g3⟩ := hg
    have g1 : s.table.get x = some m := g1
    rw [hdv c' g3] at g2
    exact ⟨trivial, D, Post.extend hc.inv g1 g2 ha, c, (Ref.alloc_ext ha).2, hdc⟩
  · intro nd hn hkd lg
    refine ⟨true, { s with log := lg }, σ, D, ?_, Post.idle (hc.inv.congr rfl rfl rfl) rfl rfl rfl rfl, rfl, .inl ⟨rfl, (Ref.alloc_ext ha).1, .inl rfl⟩⟩
    rcases hd with rfl | rfl <;> exact Runs.ofEq (fun R => rfl)

/-- Cleaning the edge that a new structural thunk has recorded. -/
theorem struct_step (hc : CleanSt sig env t anc l E cache s σ D pre) {x : Loc} {c : V} {tail : List (Edge V)}
    (hkn : KnownS s.table x c) {σ1 : Store V} (ha : Ref.alloc σ x c = some σ1)
    (hE : E = pre ++ ⟨x, .allocate, .allocStruct⟩ :: tail) (ho : ObsRel sig obs pre) :
    Outcome sig env t anc l E cache ty res s σ D pre [⟨x, .allocate, .allocStruct⟩] σ1 obs True := by
  obtain ⟨rfl, hσ⟩ := hc.inv.allocKnown hkn ha
  refine step_edge hc hE ?_ ?_ (fun _ => ho.alloc)
  · intro nd hn hkc
    exact ⟨trivial, D, Post.idle hc.inv rfl rfl rfl rfl, c, hσ, trivial⟩
  · intro nd hn hkd lg
    exact ⟨false, { s with log := lg }, σ1, D, Runs.ofEq (fun R => rfl), Post.idle (hc.inv.congr rfl rfl rfl) rfl rfl rfl rfl, rfl,
      .inr ⟨rfl, rfl, trivial, ⟨c, hσ, trivial⟩, .inr rfl⟩⟩

theorem cleanForce_cell {nd : MutNode V} {x : Loc} (hn : s.table.get x = some (.mut nd)) (hty : nd.ty = ty) (R : Rec V) :
    cleanForceBody R ty res x s = .ok (decide (nd.val ≠ res)) s := by
  unfold cleanForceBody
  rw [M.bind_ok (resNode_ok hn hty)]
  rfl

/-- The cleaning loop follows the reference evaluation. -/
theorem lockstep {m : Bool} {π : Path} {p : Prog V} {pre es : List (Edge V)} {v0 : V} (hr : Replay sig env t m π p pre es v0) :
    ∀ n, (∀ m, m ≤ n → FSpec sig env m) → ∀ s σ D obs σ' obs' v tail,
    Ref.eval sig env (Ref.recN sig env n) ⟨l, l :: anc⟩ m π p ⟨σ, obs⟩ = some (⟨σ', obs'⟩, v) →
    CleanSt sig env t anc l E cache s σ D pre → E = pre ++ es ++ tail → ObsRel sig obs pre →
    Outcome sig env t anc l E cache ty res s σ D pre es σ' obs' (v = v0) := by
  induction hr with
  | ret =>
    intro n hF s σ D obs σ' obs' v tail he hc hE ho
    simp only [Ref.eval] at he
    cases he
    exact Outcome.nil hc ho rfl (Post.idle hc.inv rfl rfl rfl rfl)
  | @force m π ty1 x cyc k w pre es v0 hfind hrep ih =>
    intro n hF s σ D obs σ' obs' v tail he hc hE ho
    simp only [Ref.eval] at he
    rcases hob : Ref.observe sig (Ref.recN sig env n) ⟨l, l :: anc⟩ m ty1 x ⟨σ, obs⟩ with _ | ⟨⟨σ1, obs1⟩, w'⟩
    · rw [hob] at he; cases he
    · rw [hob] at he
      simp only at he
      have hext := Ref.eval_ext (Ref.recN_ok sig env n) _ _ _ _ _ _ _ he
      have hstep : Outcome sig env t anc l E cache ty res s σ D pre [⟨x, .observe, .force ty1 w⟩] σ1 obs1 (w' = w) := by
        have hE' : E = pre ++ ⟨x, .observe, .force ty1 w⟩ :: (es ++ tail) := by rw [hE]; simp
        unfold Ref.observe at hob
        rcases hk : sig x with ty' | ⟨ty', pp, fn⟩
        · rw [hk] at hob
          simp only at hob
          split at hob
          · rename_i hcond
            rcases hσ : σ x with _ | c
            · rw [hσ] at hob; cases hob
            · rw [hσ] at hob
              cases hob
              obtain ⟨rfl, hnm, hmu⟩ := hcond
              obtain ⟨ndx, j1, j2, j3⟩ := hc.inv.storeCell hk (hc.edgeWf (e := ⟨x, .observe, .force ty' w⟩) (by rw [hE']; simp)).1 hσ
              refine cell_step hc hE' hk hσ (fun h => h.symm) ?_ (fun _ => ho.new (d := .force ty' w) hfind)
              intro lg
              refine ⟨decide (ndx.val ≠ w), ?_, ?_⟩
              · refine Runs.cleanForce (Runs.ofEq (fun R => ?_))
                exact cleanForce_cell (s := { s with log := lg }) j1 j2 R
              · rw [← j3]
                constructor
                · intro hch
                  exact (Classical.not_not.1 (of_decide_eq_false hch)).symm
                · intro hv
                  have hv : w = ndx.val := hv
                  simp [hv]
          · cases hob
        · rw [hk] at hob
          simp only at hob
          split at hob
          · rename_i hcond
            rcases hf : (Ref.recN sig env n).frc (l :: anc) σ x with _ | ⟨σ2, w2⟩
            · rw [hf] at hob; cases hob
            · rw [hf] at hob
              cases hob
              obtain ⟨rfl, hnm, hmode, hmu⟩ := hcond
              exact thunk_step (hF n (Nat.le_refl _)) hc hE' hk hnm hf ho
          · cases hob
      refine Outcome.seq (es1 := [_]) hstep hext ?_
      rintro rfl s1 D1 hc1 ho1
      exact ih n hF s1 σ1 D1 obs1 σ' obs' v tail he hc1 (by rw [hE]; simp) ho1
  | @forceDup m π ty1 x cyc k w pre es v0 ty2 hfind hrep ih =>
    intro n hF s σ D obs σ' obs' v tail he hc hE ho
    simp only [Ref.eval] at he
    rcases hob : Ref.observe sig (Ref.recN sig env n) ⟨l, l :: anc⟩ m ty1 x ⟨σ, obs⟩ with _ | ⟨⟨σ1, obs1⟩, w'⟩
    · rw [hob] at he; cases he
    · rw [hob] at he
      simp only at he
      have hext := Ref.eval_ext (Ref.recN_ok sig env n) _ _ _ _ _ _ _ he
      have hstep : Outcome sig env t anc l E cache ty res s σ D pre [] σ1 obs1 (w' = w) := by
        unfold Ref.observe at hob
        rcases hk : sig x with ty' | ⟨ty', pp, fn⟩
        · rw [hk] at hob
          simp only at hob
          split at hob
          · rename_i hcond
            rcases hσ : σ x with _ | c
            · rw [hσ] at hob; cases hob
            · rw [hσ] at hob
              cases hob
              obtain ⟨c', h1, h2⟩ := hc.ok _ (List.mem_of_find?_eq_some hfind)
              simp only [hk] at h2
              have h1 : σ x = some c' := h1
              rw [hσ] at h1; cases h1
              have h2 : w = w' := h2
              exact Outcome.nil hc (ho.again hfind rfl) h2.symm (Post.idle hc.inv rfl rfl rfl rfl)
          · cases hob
        · rw [hk] at hob
          simp only at hob
          split at hob
          · rename_i hcond
            rcases hf : (Ref.recN sig env n).frc (l :: anc) σ x with _ | ⟨σ2, w2⟩
            · rw [hf] at hob; cases hob
            · rw [hf] at hob
              cases hob
              obtain ⟨rfl, hnm, hmode, hmu⟩ := hcond
              obtain ⟨hw, D1, hpost⟩ := thunk_dup (hF n (Nat.le_refl _)) hc hk hnm hf hfind
              exact Outcome.nil hc ho hw hpost
          · cases hob
      refine Outcome.seq (es1 := []) hstep hext ?_
      rintro rfl s1 D1 hc1 ho1
      rw [List.append_nil] at hc1 ho1 ⊢
      exact ih n hF s1 σ1 D1 obs1 σ' obs' v tail he hc1 hE ho1
  | @mapCell m π ty1 x f k r pre es v0 ty2 hk hrep ih =>
    intro n hF s σ D obs σ' obs' v tail he hc hE ho
    simp only [Ref.eval] at he
    rcases hob : Ref.observeMap sig (Ref.recN sig env n) ⟨l, l :: anc⟩ m ty1 x f ⟨σ, obs⟩ with _ | ⟨⟨σ1, obs1⟩, w'⟩
    · rw [hob] at he; cases he
    · rw [hob] at he
      simp only at he
      have hext := Ref.eval_ext (Ref.recN_ok sig env n) _ _ _ _ _ _ _ he
      have hstep : Outcome sig env t anc l E cache ty res s σ D pre [⟨x, .observe, .forceMap ty1 f r⟩] σ1 obs1 (w' = r) := by
        have hE' : E = pre ++ ⟨x, .observe, .forceMap ty1 f r⟩ :: (es ++ tail) := by rw [hE]; simp
        unfold Ref.observeMap at hob
        rw [hk] at hob
        simp only at hob
        split at hob
        · rename_i hcond
          rcases hσ : σ x with _ | c
          · rw [hσ] at hob; cases hob
          · rw [hσ] at hob
            obtain ⟨rfl, hnm, hmu⟩ := hcond
            have hvis : Vis sig x := (hc.edgeWf (e := ⟨x, .observe, .forceMap ty2 f r⟩) (by rw [hE']; simp)).1
            obtain ⟨ndx, j1, j2, j3⟩ := hc.inv.storeCell hk hvis hσ
            cases hob
            refine cell_step hc hE' hk hσ (fun h => h.symm) ?_ ?_
            · intro lg
              refine ⟨decide (r ≠ f ndx.val), Runs.ofEq (fun R => ?_), ?_⟩
              · show checkForceMapDep ty2 f r x _ = _
                unfold checkForceMapDep
                rw [M.bind_ok (resNode_ok (s := { s with log := lg }) j1 j2)]
                rfl
              · rw [← j3]
                constructor
                · intro hch
                  have h0 : ¬ (r ≠ f ndx.val) := of_decide_eq_false hch
                  exact Classical.not_not.1 h0
                · intro hv
                  have hv : r = f ndx.val := hv
                  simp [hv]
            · intro _
              by_cases hm : (x, false) ∈ obs
              · rw [if_pos hm]
                obtain ⟨e1, g1, _⟩ := (ho x _ false hk hvis).1 hm
                refine ho.skip ?_
                intro y _ _ hy
                have : x = y := (Edge.matches_iff.1 hy).2
                subst this
                rw [g1]; simp
              · rw [if_neg hm]
                refine ho.new (d := .forceMap ty2 f r) ?_
                rcases hp : pre.find? (Edge.matches .observe x) with _ | e1
                · rfl
                · exfalso
                  have := (ho x _ e1.dep.isMap hk hvis).2 ⟨e1, hp, rfl⟩
                  cases hb : e1.dep.isMap <;> rw [hb] at this
                  · exact hm this
                  · exact hnm this
        · cases hob
      refine Outcome.seq (es1 := [_]) hstep hext ?_
      rintro rfl s1 D1 hc1 ho1
      exact ih n hF s1 σ1 D1 obs1 σ' obs' v tail he hc1 (by rw [hE]; simp) ho1
  | @mapThunk m π ty1 x f k w pre es v0 ty2 pp fn hk hfind hrep ih =>
    intro n hF s σ D obs σ' obs' v tail he hc hE ho
    simp only [Ref.eval] at he
    rcases hob : Ref.observeMap sig (Ref.recN sig env n) ⟨l, l :: anc⟩ m ty1 x f ⟨σ, obs⟩ with _ | ⟨⟨σ1, obs1⟩, w'⟩
    · rw [hob] at he; cases he
    · rw [hob] at he
      simp only at he
      have hext := Ref.eval_ext (Ref.recN_ok sig env n) _ _ _ _ _ _ _ he
      have hstep : Outcome sig env t anc l E cache ty res s σ D pre [⟨x, .observe, .force ty1 w⟩] σ1 obs1 (w' = f w) := by
        have hE' : E = pre ++ ⟨x, .observe, .force ty1 w⟩ :: (es ++ tail) := by rw [hE]; simp
        unfold Ref.observeMap Ref.observe at hob
        simp only [hk] at hob
        by_cases hcond : ty2 = ty1 ∧ x ∉ l :: anc ∧ m = sig.mode ∧ Ref.MayUse sig l x
        · simp only [if_pos hcond] at hob
          rcases hf : (Ref.recN sig env n).frc (l :: anc) σ x with _ | ⟨σ2, w2⟩
          · rw [hf] at hob; cases hob
          · rw [hf] at hob
            cases hob
            obtain ⟨rfl, hnm, hmode, hmu⟩ := hcond
            have := thunk_step (ty := ty) (res := res) (hF n (Nat.le_refl _)) hc hE' hk hnm hf ho
            rcases this with ⟨a, b, rfl, c⟩ | h
            · exact .inl ⟨a, b, rfl, c⟩
            · exact .inr h
        · simp only [if_neg hcond] at hob; cases hob
      refine Outcome.seq (es1 := [_]) hstep hext ?_
      rintro rfl s1 D1 hc1 ho1
      exact ih n hF s1 σ1 D1 obs1 σ' obs' v tail he hc1 (by rw [hE]; simp) ho1
  | @mapThunkDup m π ty1 x f k w pre es v0 ty2 pp fn ty3 hk hfind hrep ih =>
    intro n hF s σ D obs σ' obs' v tail he hc hE ho
    simp only [Ref.eval] at he
    rcases hob : Ref.observeMap sig (Ref.recN sig env n) ⟨l, l :: anc⟩ m ty1 x f ⟨σ, obs⟩ with _ | ⟨⟨σ1, obs1⟩, w'⟩
    · rw [hob] at he; cases he
    · rw [hob] at he
      simp only at he
      have hext := Ref.eval_ext (Ref.recN_ok sig env n) _ _ _ _ _ _ _ he
      have hstep : Outcome sig env t anc l E cache ty res s σ D pre [] σ1 obs1 (w' = f w) := by
        unfold Ref.observeMap Ref.observe at hob
        simp only [hk] at hob
        by_cases hcond : ty2 = ty1 ∧ x ∉ l :: anc ∧ m = sig.mode ∧ Ref.MayUse sig l x
        · simp only [if_pos hcond] at hob
          rcases hf : (Ref.recN sig env n).frc (l :: anc) σ x with _ | ⟨σ2, w2⟩
          · rw [hf] at hob; cases hob
          · rw [hf] at hob
            cases hob
            obtain ⟨rfl, hnm, hmode, hmu⟩ := hcond
            obtain ⟨hw, D1, hpost⟩ := thunk_dup (hF n (Nat.le_refl _)) hc hk hnm hf hfind
            exact Outcome.nil hc ho (by rw [hw]) hpost
        · simp only [if_neg hcond] at hob; cases hob
      refine Outcome.seq (es1 := []) hstep hext ?_
      rintro rfl s1 D1 hc1 ho1
      rw [List.append_nil] at hc1 ho1 ⊢
      exact ih n hF s1 σ1 D1 obs1 σ' obs' v tail he hc1 hE ho1
  | @forcePure m π ty1 x cyc k w pre es v0 hpv hrep ih =>
    intro n hF s σ D obs σ' obs' v tail he hc hE ho
    simp only [Ref.eval] at he
    rcases hob : Ref.observe sig (Ref.recN sig env n) ⟨l, l :: anc⟩ m ty1 x ⟨σ, obs⟩ with _ | ⟨⟨σ1, obs1⟩, w'⟩
    · rw [hob] at he; cases he
    · rw [hob] at he
      simp only at he
      obtain ⟨rfl, rfl, ho1⟩ := hc.inv.observePure (hc.imm.pureVal hpv) ho hob
      exact ih n hF s σ1 D obs1 σ' obs' v tail he hc hE ho1
  | @mapPure m π ty1 x f k w pre es v0 hpv hrep ih =>
    intro n hF s σ D obs σ' obs' v tail he hc hE ho
    simp only [Ref.eval] at he
    rcases hob : Ref.observeMap sig (Ref.recN sig env n) ⟨l, l :: anc⟩ m ty1 x f ⟨σ, obs⟩ with _ | ⟨⟨σ1, obs1⟩, w'⟩
    · rw [hob] at he; cases he
    · rw [hob] at he
      simp only at he
      obtain ⟨rfl, rfl, ho1⟩ := hc.inv.observeMapPure (hc.imm.pureVal hpv) ho hob
      exact ih n hF s σ1 D obs1 σ' obs' v tail he hc hE ho1
  | @cell m π ty1 nm c k pre es v0 hrep ih =>
    intro n hF s σ D obs σ' obs' v tail he hc hE ho
    simp only [Ref.eval] at he
    split at he
    · rcases ha : Ref.alloc σ (Ref.cellLoc env m π nm c) c with _ | σ1
      · rw [ha] at he; cases he
      · rw [ha] at he
        simp only at he
        have hext := Ref.eval_ext (Ref.recN_ok sig env n) _ _ _ _ _ _ _ he
        have hstep := alloc_step (ty := ty) (res := res) hc (.inl rfl) ha
          (by rw [hE]; simp : E = pre ++ ⟨Ref.cellLoc env m π nm c, .allocate, .allocCell c⟩ :: (es ++ tail)) ho
        refine Outcome.seq (es1 := [_]) hstep hext ?_
        rintro _ s1 D1 hc1 ho1
        exact ih n hF s1 σ1 D1 obs σ' obs' v tail he hc1 (by rw [hE]; simp) ho1
    · cases he
  | @cellPure m π ty1 nm c k pre es v0 hkn hrep ih =>
    intro n hF s σ D obs σ' obs' v tail he hc hE ho
    simp only [Ref.eval] at he
    split at he
    · rcases ha : Ref.alloc σ (Ref.cellLoc env m π nm c) c with _ | σ1
      · rw [ha] at he; cases he
      · rw [ha] at he
        simp only at he
        obtain ⟨rfl, _⟩ := hc.inv.allocKnown (hc.imm.known hkn) ha
        exact ih n hF s σ1 D obs σ' obs' v tail he hc hE ho
    · cases he
  | @thunk m π ty1 nc pp fn arg k x pre es v0 hloc hrep ih =>
    intro n hF s σ D obs σ' obs' v tail he hc hE ho
    simp only [Ref.eval, hloc] at he
    split at he
    · rcases ha : Ref.alloc σ x arg with _ | σ1
      · rw [ha] at he; cases he
      · rw [ha] at he
        simp only at he
        have hext := Ref.eval_ext (Ref.recN_ok sig env n) _ _ _ _ _ _ _ he
        have hstep := alloc_step (ty := ty) (res := res) hc (.inr rfl) ha
          (by rw [hE]; simp : E = pre ++ ⟨x, .allocate, .allocNom arg⟩ :: (es ++ tail)) ho
        refine Outcome.seq (es1 := [_]) hstep hext ?_
        rintro _ s1 D1 hc1 ho1
        exact ih n hF s1 σ1 D1 obs σ' obs' v tail he hc1 (by rw [hE]; simp) ho1
    · cases he
  | @thunkNew m π ty1 nc pp fn arg k x pre es v0 hloc hkn hrep ih =>
    intro n hF s σ D obs σ' obs' v tail he hc hE ho
    simp only [Ref.eval, hloc] at he
    split at he
    · rcases ha : Ref.alloc σ x arg with _ | σ1
      · rw [ha] at he; cases he
      · rw [ha] at he
        simp only at he
        have hext := Ref.eval_ext (Ref.recN_ok sig env n) _ _ _ _ _ _ _ he
        have hstep := struct_step (ty := ty) (res := res) hc (hc.imm.known hkn) ha
          (by rw [hE]; simp : E = pre ++ ⟨x, .allocate, .allocStruct⟩ :: (es ++ tail)) ho
        refine Outcome.seq (es1 := [_]) hstep hext ?_
        rintro _ s1 D1 hc1 ho1
        exact ih n hF s1 σ1 D1 obs σ' obs' v tail he hc1 (by rw [hE]; simp) ho1
    · cases he
  | @thunkOld m π ty1 nc pp fn arg k x pre es v0 hloc hkn hrep ih =>
    intro n hF s σ D obs σ' obs' v tail he hc hE ho
    simp only [Ref.eval, hloc] at he
    split at he
    · rcases ha : Ref.alloc σ x arg with _ | σ1
      · rw [ha] at he; cases he
      · rw [ha] at he
        simp only at he
        obtain ⟨rfl, _⟩ := hc.inv.allocKnown (hc.imm.known hkn) ha
        exact ih n hF s σ1 D obs σ' obs' v tail he hc hE ho
    · cases he
  | @ns m π nm body k pre es1 v1 es2 v0 hrep1 hrep2 ih1 ih2 =>
    intro n hF s σ D obs σ' obs' v tail he hc hE ho
    simp only [Ref.eval] at he
    rcases hb : Ref.eval sig env (Ref.recN sig env n) ⟨l, l :: anc⟩ m (.child π nm) body ⟨σ, obs⟩ with _ | ⟨⟨σ1, obs1⟩, w'⟩
    · rw [hb] at he; cases he
    · rw [hb] at he
      simp only at he
      have hext := Ref.eval_ext (Ref.recN_ok sig env n) _ _ _ _ _ _ _ he
      have hstep := ih1 n hF s σ D obs σ1 obs1 w' (es2 ++ tail) hb hc (by rw [hE]; simp) ho
      refine Outcome.seq hstep hext ?_
      rintro rfl s1 D1 hc1 ho1
      exact ih2 n hF s1 σ1 D1 obs1 σ' obs' v tail he hc1 (by rw [hE]; simp) ho1
  | @structural m π body k pre es1 v1 es2 v0 hrep1 hrep2 ih1 ih2 =>
    intro n hF s σ D obs σ' obs' v tail he hc hE ho
    simp only [Ref.eval] at he
    rcases hb : Ref.eval sig env (Ref.recN sig env n) ⟨l, l :: anc⟩ true π body ⟨σ, obs⟩ with _ | ⟨⟨σ1, obs1⟩, w'⟩
    · rw [hb] at he; cases he
    · rw [hb] at he
      simp only at he
      have hext := Ref.eval_ext (Ref.recN_ok sig env n) _ _ _ _ _ _ _ he
      have hstep := ih1 n hF s σ D obs σ1 obs1 w' (es2 ++ tail) hb hc (by rw [hE]; simp) ho
      refine Outcome.seq hstep hext ?_
      rintro rfl s1 D1 hc1 ho1
      exact ih2 n hF s1 σ1 D1 obs1 σ' obs' v tail he hc1 (by rw [hE]; simp) ho1
  | @call m π fn arg k pre es1 v1 es2 v0 hrep1 hrep2 ih1 ih2 =>
    intro n hF s σ D obs σ' obs' v tail he hc hE ho
    simp only [Ref.eval] at he
    rcases hb : (Ref.recN sig env n).call ⟨l, l :: anc⟩ m π fn arg ⟨σ, obs⟩ with _ | ⟨⟨σ1, obs1⟩, w'⟩
    · rw [hb] at he; cases he
    · rw [hb] at he
      simp only at he
      have hext := Ref.eval_ext (Ref.recN_ok sig env n) _ _ _ _ _ _ _ he
      have hstep : Outcome sig env t anc l E cache ty res s σ D pre es1 σ1 obs1 (w' = v1) := by
        cases n with
        | zero => simp only [Ref.recN] at hb; cases hb
        | succ m =>
          simp only [Ref.recN] at hb
          exact ih1 m (fun j hj => hF j (by omega)) s σ D obs σ1 obs1 w' (es2 ++ tail) hb hc (by rw [hE]; simp) ho
      refine Outcome.seq hstep hext ?_
      rintro rfl s1 D1 hc1 ho1
      exact ih2 n hF s1 σ1 D1 obs1 σ' obs' v tail he hc1 (by rw [hE]; simp) ho1

end Adapton
