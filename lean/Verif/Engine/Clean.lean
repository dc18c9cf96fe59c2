import Verif.Engine.Force
/-
Marking an edge clean.
-/
set_option linter.unusedSectionVars false
set_option linter.unusedVariables false
namespace Adapton
open Ref (Sig Kind Store Ext upd)
variable {V : Type} [DecidableEq V]
variable {sig : Sig} {env : Env V} {s s' s'' : St V} {σ σ' σ'' : Store V} {D D' D'' : Loc → Prop} {anc : List Loc}

/-- Same edges, up to dirty bits. -/
theorem mem_of_edges {es es' : List (Succ V)} (h : es'.map Succ.edge = es.map Succ.edge) {e' : Succ V} (he : e' ∈ es') :
    ∃ e ∈ es, e.edge = e'.edge := by
  have : e'.edge ∈ es'.map Succ.edge := List.mem_map_of_mem he
  rw [h, List.mem_map] at this
  exact this

/-- Changing dirty bits of `l` keeps the graph. -/
theorem Graph.setDirty {t : Table V} (hg : Graph sig t) {l : Loc} {nd : CompNode V} (hn : t.get l = some (.comp nd))
    {es : List (Succ V)} (hes : es.map Succ.edge = nd.succs.map Succ.edge) :
    Graph sig (t.put l (.comp { nd with succs := es })) := by
  have hold : ∀ p nd', (t.put l (.comp { nd with succs := es })).get p = some (.comp nd') →
      ∃ nd0, t.get p = some (.comp nd0) ∧ nd'.succs.map Succ.edge = nd0.succs.map Succ.edge := by
    intro p nd' h
    rw [Table.get_put] at h
    split at h
    · cases h; subst_vars; exact ⟨nd, hn, hes⟩
    · exact ⟨nd', h, rfl⟩
  have hnew : ∀ p nd0, t.get p = some (.comp nd0) →
      ∃ nd', (t.put l (.comp { nd with succs := es })).get p = some (.comp nd') ∧
        nd'.succs.map Succ.edge = nd0.succs.map Succ.edge := by
    intro p nd0 h
    by_cases hp : p = l
    · subst hp
      rw [hn] at h; cases h
      exact ⟨_, Table.get_put_self _ _ _, hes⟩
    · exact ⟨nd0, by rw [Table.get_put_ne _ _ hp]; exact h, rfl⟩
  have hnode : ∀ x n, t.get x = some n → ∃ n', (t.put l (.comp { nd with succs := es })).get x = some n' ∧ n'.preds = n.preds := by
    intro x n h
    by_cases hx : x = l
    · subst hx
      rw [hn] at h; cases h
      exact ⟨_, Table.get_put_self _ _ _, rfl⟩
    · exact ⟨n, by rw [Table.get_put_ne _ _ hx]; exact h, rfl⟩
  have hnode' : ∀ x n', (t.put l (.comp { nd with succs := es })).get x = some n' → ∃ n, t.get x = some n ∧ n'.preds = n.preds := by
    intro x n' h
    rw [Table.get_put] at h
    split at h
    · cases h; subst_vars; exact ⟨_, hn, rfl⟩
    · exact ⟨n', h, rfl⟩
  refine ⟨?_, ?_, ?_, ?_, ?_, ?cnt⟩
  case cnt =>
    refine hg.cnt.congr hnode' ?_
    intro p x eff
    rw [Table.get_put]
    by_cases hp : p = l
    · subst hp
      rw [if_pos rfl, hn]; unfold succCount; simp only [Node.succsList]; rw [hes]
    · rw [if_neg hp]
  · intro x n' h
    rw [Table.get_put] at h
    split at h
    · cases h; subst_vars
      have hw := hg.wf _ _ hn
      exact hw
    · exact hg.wf _ _ h
  · intro p nd' e' h he
    obtain ⟨nd0, h0, h1⟩ := hold p nd' h
    obtain ⟨e, he0, hee⟩ := mem_of_edges h1 he
    obtain ⟨n, g1, g2⟩ := hg.fwd p nd0 e h0 he0
    obtain ⟨n', g3, g4⟩ := hnode _ _ g1
    have hl : e.loc = e'.loc := congrArg Edge.loc hee
    have hf : e.effect = e'.effect := congrArg Edge.effect hee
    have hd : e.dep = e'.dep := congrArg Edge.dep hee
    exact ⟨n', by rw [← hl]; exact g3, by rw [g4, ← hf, ← hd]; exact g2⟩
  · intro x n' q h hq
    obtain ⟨n, g1, g2⟩ := hnode' x n' h
    rw [g2] at hq
    obtain ⟨nd0, g3, e, g4, g5, g6, g7⟩ := hg.bwd x n q g1 hq
    obtain ⟨nd', g8, g9⟩ := hnew _ _ g3
    obtain ⟨e', he', hee⟩ := mem_of_edges g9.symm g4
    exact ⟨nd', g8, e', he', (congrArg Edge.loc hee).trans g5, (congrArg Edge.effect hee).trans g6,
      (congrArg (fun e => predDep e.dep) hee).trans g7⟩
  · intro p nd' e' h he
    obtain ⟨nd0, h0, h1⟩ := hold p nd' h
    obtain ⟨e, he0, hee⟩ := mem_of_edges h1 he
    obtain ⟨g1, g2⟩ := hg.edge p nd0 e h0 he0
    have hl : e.loc = e'.loc := congrArg Edge.loc hee
    exact ⟨by rw [← hl]; exact g1, hee ▸ g2⟩
  · intro p nd' h
    obtain ⟨nd0, h0, h1⟩ := hold p nd' h
    rw [h1]; exact hg.first p nd0 h0

theorem keyClean_setFalse {es : List (Succ V)} {eff : Effect} {x : Loc} {eff' : Effect} {y : Loc}
    (h : KeyClean es eff' y) : KeyClean (setFirst eff x false es) eff' y := by
  by_cases hk : eff' = eff ∧ y = x
  · obtain ⟨rfl, rfl⟩ := hk
    obtain ⟨e, h1, h2⟩ := h
    exact ⟨_, setFirst_find eff' y false es h1, rfl⟩
  · exact (setFirst_keyClean_ne hk).2 h

theorem allClean_setFalse {es : List (Succ V)} {eff : Effect} {x : Loc} (h : AllClean es) :
    AllClean (setFirst eff x false es) := by
  intro e' he'
  obtain ⟨e, he, hee⟩ := mem_of_edges (setFirst_edges eff x false es) he'
  have hl : e.loc = e'.loc := congrArg Edge.loc hee
  have hf : e.effect = e'.effect := congrArg Edge.effect hee
  rw [← hl, ← hf]
  exact keyClean_setFalse (h e he)

theorem find_edge {es : List (Succ V)} {eff : Effect} {x : Loc} :
    (es.map Succ.edge).find? (Edge.matches eff x) = (es.find? (Succ.matches eff x)).map Succ.edge := by
  rw [List.find?_map]; rfl

/-- Marking clean an edge that is up to date. -/
theorem cleanKey_post (h : Inv sig env s σ D) {l : Loc} {nd : CompNode V} (hn : s.table.get l = some (.comp nd))
    (hl : l ∉ s.locs) (hla : l ∉ anc) {eff : Effect} {x : Loc} {e1 : Succ V} (hf : nd.succs.find? (Succ.matches eff x) = some e1)
    (heff : eff = .observe ∨ e1.dep = .allocStruct)
    (hok : EdgeOK sig s.table σ D e1.edge) (hdt : e1.dirty = true) (lg : List Ev) (hlog : LogPaid s.log lg := by log_paid) :
    Post sig env anc s σ D { s with
      table := s.table.put l (.comp { nd with succs := setFirst eff x false nd.succs })
      log := lg } σ D := by
  have hm1 := List.mem_of_find?_eq_some hf
  have hmt := Succ.matches_iff.1 (List.find?_some hf)
  have hxl : x ≠ l := by rw [← hmt.2]; exact (h.graph.edge l nd e1 hn hm1).1
  generalize hs1 : ({ s with
      table := s.table.put l (.comp { nd with succs := setFirst eff x false nd.succs })
      log := lg } : St V) = s1
  have ht1 : s1.table = s.table.put l (.comp { nd with succs := setFirst eff x false nd.succs }) := by rw [← hs1]
  have hk1 : s1.locs = s.locs := by rw [← hs1]; rfl
  have hself : s1.table.get l = some (.comp { nd with succs := setFirst eff x false nd.succs }) := by
    rw [ht1]; exact Table.get_put_self _ _ _
  have hother : ∀ y, y ≠ l → s1.table.get y = s.table.get y := by
    intro y hy; rw [ht1]; exact Table.get_put_ne _ _ hy
  have hkeep : ∀ y nd0, s.table.get y = some (.comp nd0) → ∃ nd', s1.table.get y = some (.comp nd') ∧ nd'.res = nd0.res := by
    intro y nd0 hy
    by_cases hyl : y = l
    · subst hyl; rw [hn] at hy; cases hy; exact ⟨_, hself, rfl⟩
    · exact ⟨nd0, by rw [hother y hyl]; exact hy, rfl⟩
  have hvis1 := (h.graph.edge l nd e1 hn hm1).2.1
  have hgood1 := hok.good h hvis1
  have himm : SMono sig s.table s1.table := by
    intro y n hy hyn
    by_cases hyl : y = l
    · subst hyl; rw [hn] at hyn; cases hyn; exact ⟨_, hself, rfl, fun _ _ h => h⟩
    · exact ⟨n, by rw [hother y hyl]; exact hyn, rfl, fun _ _ h => h⟩
  -- justified edges stay justified
  have hgood : ∀ e : Edge V, Good s.table s.locs e → Good s1.table s1.locs e := by
    intro e hg
    by_cases hel : e.loc = l
    · unfold Good at hg ⊢
      rw [hel, hn] at hg
      rw [hel, hself, hk1]
      cases hef : e.effect
      · rw [hef] at hg
        exact ⟨hg.1, hg.2.1, allClean_setFalse hg.2.2⟩
      · rw [hef] at hg
        obtain ⟨n, c, g1, g2⟩ := hg
        cases g1
        exact ⟨_, c, rfl, g2⟩
    · rw [hk1]
      exact hg.congr (hother _ hel)
  refine ⟨⟨?_, ?_, by rw [hk1]; exact h.nodup, ?_, ?_, ?_, ?_, ?_, ?acyc, ?fixed, ?pureRes⟩, hk1, ?_, by rw [← hs1], himm, Ext.refl _,
    fun _ h => h, fun y _ nd0 hy => hkeep y nd0 hy, ⟨[], ?ran⟩, ?cost, ?_⟩
  case cost =>
    have h1 := tableDirty_put s.table l _ (.comp { nd with succs := setFirst eff x false nd.succs }) hn
    have h2 := setFirst_cleaned eff x nd.succs hf hdt
    simp only [Node.succsList] at h1
    unfold LogPaid at hlog
    rw [← hs1]
    show cleanRecs lg + dirtyVisits s.log + tableDirty (s.table.put l _) ≤ _ + dirtyVisits lg + _
    omega
  case ran =>
    refine ⟨by rw [← hs1]; rfl, List.nodup_nil, fun x hx => (by cases hx), fun x hx => (by cases hx), ?_, ?_⟩
    · intro y _ nd0 hy
      by_cases hyl : y = l
      · subst hyl
        rw [hn] at hy; cases hy
        refine ⟨_, hself, .inr ⟨rfl, rfl, setFirst_edges .., fun z hz => .inl ?_⟩⟩
        obtain ⟨e', he', hd'⟩ := hz
        obtain ⟨e, he, hee⟩ := mem_of_edges (setFirst_edges eff x false nd.succs) (List.mem_of_find?_eq_some he')
        have hm := Succ.matches_iff.1 (List.find?_some he')
        have hel : e.loc = z := (congrArg Edge.loc hee).trans hm.2
        have hef : e.effect = .allocate := (congrArg Edge.effect hee).trans hm.1
        obtain ⟨e2, hf2⟩ := find_of_mem he
        rw [hel, hef] at hf2
        cases hdb : e2.dirty
        · exact absurd (keyClean_setFalse (eff := eff) (x := x) ⟨e2, hf2, hdb⟩) (not_clean_of_dirty ⟨e', he', hd'⟩)
        · exact ⟨e2, hf2, hdb⟩
      · exact ⟨nd0, by rw [hother y hyl]; exact hy, .inr ⟨rfl, rfl, rfl, fun _ h => .inl h⟩⟩
    · intro y m hm _
      by_cases hyl : y = l
      · subst hyl
        rw [hself] at hm; cases hm
        exact ⟨_, hn, rfl⟩
      · exact ⟨m, by rw [← hother y hyl]; exact hm, rfl⟩
  case fixed =>
    intro y n hy hyn
    by_cases hyl : y = l
    · subst hyl
      rw [hself] at hyn; cases hyn
      exact h.fixed y (.comp nd) hy hn
    · rw [hother y hyl] at hyn; exact h.fixed y n hy hyn
  case pureRes =>
    intro hp y nd' w hy hyn hr
    by_cases hyl : y = l
    · subst hyl
      rw [hself] at hyn; cases hyn
      exact h.pureRes hp y nd w hy hn hr
    · rw [hother y hyl] at hyn; exact h.pureRes hp y nd' w hy hyn hr
  case acyc =>
    refine h.acyc.sub ?_
    rintro p y ⟨nd', e', hp, he, hef, hel⟩
    by_cases hpl : p = l
    · subst hpl
      rw [hself] at hp; cases hp
      obtain ⟨e, he0, hee⟩ := mem_of_edges (setFirst_edges eff x false nd.succs) he
      exact ⟨nd, e, hn, he0, (congrArg Edge.effect hee).trans hef, (congrArg Edge.loc hee).trans hel⟩
    · rw [hother p hpl] at hp
      exact ⟨nd', e', hp, he, hef, hel⟩
  · rw [ht1]; exact h.graph.setDirty hn (setFirst_edges ..)
  · intro p nd' e' hp he hkc
    right
    by_cases hpl : p = l
    · subst hpl
      rw [hself] at hp; cases hp
      obtain ⟨e, he0, hee⟩ := mem_of_edges (setFirst_edges eff x false nd.succs) he
      rw [← hee]
      have hle : e.loc = e'.loc := congrArg Edge.loc hee
      have hfe : e.effect = e'.effect := congrArg Edge.effect hee
      rw [← hle, ← hfe] at hkc
      by_cases hkey : e.effect = eff ∧ e.loc = x
      · -- the key made clean
        apply hgood
        cases eff with
        | allocate =>
          have hd1 : e1.dep = .allocStruct := by
            rcases heff with h | h
            · cases h
            · exact h
          have hw1 := (h.graph.edge p nd e1 hn hm1).2.2
          have hw := (h.graph.edge p nd e hn he0).2.2
          have hke : e.edge.effect = .allocate ∧ e.edge.loc = x := hkey
          have hke1 : e1.edge.effect = .allocate ∧ e1.edge.loc = x := hmt
          have hd1' : e1.edge.dep = .allocStruct := hd1
          rw [hke1.1, hke1.2, hd1'] at hw1
          rw [hke.1, hke.2] at hw
          have hd : e.edge.dep = .allocStruct := by
            cases hk : sig x with
            | cell ty => rw [hk] at hw1; obtain ⟨v, hv⟩ := hw1; cases hv
            | thunk ty pp fn =>
              rw [hk] at hw1 hw
              simp only at hw1 hw
              by_cases hxs : x.isStruct = true
              · rw [if_pos hxs] at hw; exact hw
              · rw [if_neg hxs] at hw1; obtain ⟨v, hv⟩ := hw1; cases hv
          unfold Good at hgood1 ⊢
          rw [hke1.1, hke1.2] at hgood1
          rw [hke.1, hke.2, hd]
          obtain ⟨n, c, k1, k2, _⟩ := hgood1
          exact ⟨n, c, k1, k2, trivial⟩
        | observe =>
        have hfs := h.graph.first p nd hn x e1.edge (by rw [find_edge, hf]; rfl) e.edge
          (List.mem_map_of_mem he0) (Edge.matches_iff.2 hkey)
        have hke : e.edge.effect = .observe ∧ e.edge.loc = x := hkey
        have hk1' : e1.edge.effect = .observe ∧ e1.edge.loc = x := hmt
        unfold Good at hgood1 ⊢
        rw [hk1'.1, hk1'.2] at hgood1
        rw [hke.1, hke.2]
        simp only at hgood1 ⊢
        match hgx : s.table.get x with
        | some (.mut m) => rw [hgx] at hgood1; exact hfs _ hgood1
        | some (.comp m) =>
          rw [hgx] at hgood1
          obtain ⟨g1, ⟨w, g2, g3⟩, g4⟩ := hgood1
          exact ⟨g1, ⟨w, g2, hfs _ g3⟩, g4⟩
        | some (.pure m) => rw [hgx] at hgood1; exact hgood1
        | none => rw [hgx] at hgood1; exact hgood1
      · rw [setFirst_keyClean_ne hkey] at hkc
        rcases h.clean p nd e hn he0 hkc with hg | hg
        · exact hg.elim
        · exact hgood _ hg
    · rw [hother p hpl] at hp
      rcases h.clean p nd' e' hp he hkc with hg | hg
      · exact hg.elim
      · exact hgood _ hg
  · intro y hy
    rw [hk1] at hy
    obtain ⟨nd', g1, g2⟩ := h.stk y hy
    exact ⟨nd', by rw [hother y (fun he => hl (he ▸ hy))]; exact g1, g2⟩
  · intro p nd' v hp hpk hr
    rw [hk1] at hpk
    by_cases hpl : p = l
    · subst hpl
      rw [hself] at hp; cases hp
      simp only [setFirst_edges]
      exact (h.replay p nd v hn hpk hr).mono himm
    · rw [hother p hpl] at hp
      exact (h.replay p nd' v hp hpk hr).mono himm
  · intro y v hy
    obtain ⟨n, g1, g2⟩ := h.store y v hy
    by_cases hyl : y = l
    · subst hyl
      rw [hn] at g1; cases g1
      exact ⟨_, hself, g2⟩
    · exact ⟨n, by rw [hother y hyl]; exact g1, g2⟩
  · intro y hy
    obtain ⟨nd', g1, g2, g3, g4, g5, g6⟩ := h.settled y hy
    have hm : ∀ e, EdgeOK sig s.table σ D e → EdgeOK sig s1.table σ D e :=
      fun e he => he.mono (Ext.refl _) (fun _ h => h) (fun z _ nd0 hz => hkeep z nd0 hz)
    by_cases hyl : y = l
    · subst hyl
      rw [hn] at g1; cases g1
      refine ⟨_, hself, by rw [hk1]; exact g2, g3, g4, allClean_setFalse g5, ?_⟩
      intro e' he'
      obtain ⟨e, he, hee⟩ := mem_of_edges (setFirst_edges eff x false nd.succs) he'
      rw [← hee]; exact hm _ (g6 e he)
    · exact ⟨nd', by rw [hother y hyl]; exact g1, by rw [hk1]; exact g2, g3, g4, g5, fun e he => hm _ (g6 e he)⟩
  · rw [← hs1]; exact h.pur
  · rw [← hs1]
  · intro b hb nd0 hbn
    have hbl : b ≠ l := fun he => hla (he ▸ hb)
    exact ⟨nd0, by rw [hother b hbl]; exact hbn, rfl, rfl, fun _ _ h => h, fun _ _ _ h => h⟩

end Adapton
