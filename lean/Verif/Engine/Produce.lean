import Verif.Engine.Ops
/-
Starting and finishing the evaluation of a thunk: the bookkeeping of `loc_produce` around the run of the user's code.
-/
set_option linter.unusedSectionVars false
set_option linter.unusedVariables false
namespace Adapton
open Ref (Sig Kind Store Ext upd)
variable {V : Type} [DecidableEq V]
variable {sig : Sig} {env : Env V} {s s' s'' : St V} {σ σ' σ'' : Store V} {D D' D'' : Loc → Prop} {anc : List Loc}

/-- Change the predecessor edges of a node. -/
def Node.mapPreds (f : List (Pred V) → List (Pred V)) : Node V → Node V
  | .comp nd => .comp { nd with preds := f nd.preds }
  | .mut nd => .mut { nd with preds := f nd.preds }
  | .pure nd => .pure nd

theorem Node.mapPreds_cont (f : List (Pred V) → List (Pred V)) (n : Node V) : (n.mapPreds f).cont = n.cont := by
  cases n <;> rfl
theorem Node.mapPreds_wf {f : List (Pred V) → List (Pred V)} {n : Node V} {l : Loc} :
    NodeWf sig l (n.mapPreds f) ↔ NodeWf sig l n := by
  cases n <;> exact Iff.rfl
theorem Node.mapPreds_mapPreds (f g : List (Pred V) → List (Pred V)) (n : Node V) :
    (n.mapPreds f).mapPreds g = n.mapPreds (fun ps => g (f ps)) := by
  cases n <;> rfl
theorem Node.mapPreds_id (n : Node V) : n.mapPreds (fun ps => ps) = n := by cases n <;> rfl
theorem Node.mapPreds_pv (f : List (Pred V) → List (Pred V)) (n : Node V) : (n.mapPreds f).pv = n.pv := by
  cases n <;> rfl
/-- The node can have predecessors. -/
def Node.Linked (n : Node V) : Prop := ∀ nd, n ≠ .pure nd
theorem NodeWf.linked {n : Node V} {l : Loc} (hw : NodeWf sig l n) (hv : Vis sig l) : n.Linked := by
  rintro nd rfl; exact hw.pure_vis hv
theorem Node.Linked.mapPreds {n : Node V} (h : n.Linked) (f : List (Pred V) → List (Pred V)) : (n.mapPreds f).Linked := by
  cases n with
  | pure nd => exact absurd rfl (h nd)
  | comp _ => intro nd h; cases h
  | «mut» _ => intro nd h; cases h
theorem Node.mapPreds_preds {f : List (Pred V) → List (Pred V)} {n : Node V} (hw : n.Linked) :
    (n.mapPreds f).preds = f n.preds := by
  match n with
  | .comp _ => rfl
  | .mut _ => rfl
  | .pure nd => exact absurd rfl (hw nd)
theorem Node.mapPreds_mem {f : List (Pred V) → List (Pred V)} {n : Node V} {q : Pred V} (h : q ∈ (n.mapPreds f).preds) :
    q ∈ f n.preds := by
  match n with
  | .comp _ => exact h
  | .mut _ => exact h
  | .pure nd => cases h

theorem mapPreds_comp {f : List (Pred V) → List (Pred V)} {o : Option (Node V)} {nd' : CompNode V}
    (h : o.map (Node.mapPreds f) = some (.comp nd')) :
    ∃ nd, o = some (.comp nd) ∧ nd' = { nd with preds := f nd.preds } := by
  match o with
  | some (.comp nd) => simp only [Option.map, Node.mapPreds, Option.some.injEq, Node.comp.injEq] at h; exact ⟨nd, rfl, h.symm⟩
  | some (.mut nd) => simp [Node.mapPreds] at h
  | some (.pure nd) => simp [Node.mapPreds] at h
  | none => simp at h

/-- Same table up to predecessor edges, except at `l`. -/
def SamePreds (l : Loc) (t t' : Table V) : Prop :=
  ∀ x, x ≠ l → ∃ f, t'.get x = (t.get x).map (Node.mapPreds f)

theorem SamePreds.comp {l : Loc} {t t' : Table V} (h : SamePreds l t t') {x : Loc} (hx : x ≠ l) {nd : CompNode V}
    (hn : t.get x = some (.comp nd)) : ∃ ps, t'.get x = some (.comp { nd with preds := ps }) := by
  obtain ⟨f, hf⟩ := h x hx
  rw [hn] at hf
  exact ⟨_, hf⟩

theorem SamePreds.comp' {l : Loc} {t t' : Table V} (h : SamePreds l t t') {x : Loc} (hx : x ≠ l) {nd' : CompNode V}
    (hn : t'.get x = some (.comp nd')) : ∃ ps, t.get x = some (.comp { nd' with preds := ps }) := by
  obtain ⟨f, hf⟩ := h x hx
  rw [hn] at hf
  obtain ⟨nd, h1, rfl⟩ := mapPreds_comp hf.symm
  exact ⟨nd.preds, h1⟩

theorem SamePreds.exists_ {l : Loc} {t t' : Table V} (h : SamePreds l t t') {x : Loc} (hx : x ≠ l) {n : Node V}
    (hn : t.get x = some n) : ∃ n', t'.get x = some n' ∧ n'.cont = n.cont := by
  obtain ⟨f, hf⟩ := h x hx
  rw [hn] at hf
  exact ⟨_, hf, Node.mapPreds_cont f n⟩

theorem SamePreds.wf {l : Loc} {t t' : Table V} (h : SamePreds l t t') {x : Loc} (hx : x ≠ l) {n' : Node V}
    (hn : t'.get x = some n') (hw : ∀ n, t.get x = some n → NodeWf sig x n) : NodeWf sig x n' := by
  obtain ⟨f, hf⟩ := h x hx
  rw [hn] at hf
  rcases hg : t.get x with _ | n
  · rw [hg] at hf; cases hf
  · rw [hg] at hf
    cases hf
    exact Node.mapPreds_wf.2 (hw n hg)

theorem SamePreds.smono {l : Loc} {t t' : Table V} (h : SamePreds l t t')
    (hl : l.isStruct = true → ∀ n, t.get l = some n → ∃ n', t'.get l = some n' ∧ n'.cont = n.cont ∧
      (sig.pu = true → ∀ w, n.pv = some w → n'.pv = some w)) : SMono sig t t' := by
  intro x n hx hn
  by_cases hxl : x = l
  · subst hxl; exact hl hx n hn
  · obtain ⟨f, hf⟩ := h x hxl
    rw [hn] at hf
    exact ⟨_, hf, Node.mapPreds_cont f n, fun _ w hw => by rw [Node.mapPreds_pv]; exact hw⟩

theorem SamePreds.fixed {l : Loc} {t t' : Table V} (h : SamePreds l t t') {x : Loc} (hx : x ≠ l) {n' : Node V}
    (hn : t'.get x = some n') : ∃ n, t.get x = some n ∧ n.cont = n'.cont := by
  obtain ⟨f, hf⟩ := h x hx
  rw [hn] at hf
  rcases hg : t.get x with _ | n
  · rw [hg] at hf; cases hf
  · rw [hg] at hf
    cases hf
    exact ⟨n, rfl, (Node.mapPreds_cont f n).symm⟩

/-- `Good` of an edge to another node. -/
theorem SamePreds.good {l : Loc} {t t' : Table V} (h : SamePreds l t t') {K K' : List Loc} {e : Edge V} (he : e.loc ≠ l)
    (hK : e.loc ∉ K → e.loc ∉ K') (hg : Good t K e) : Good t' K' e := by
  obtain ⟨f, hf⟩ := h e.loc he
  unfold Good at *
  rw [hf]
  cases hef : e.effect
  · rw [hef] at hg
    match ht : t.get e.loc with
    | none => rw [ht] at hg; exact hg
    | some (.comp nd) => rw [ht] at hg; exact ⟨hK hg.1, hg.2⟩
    | some (.mut nd) => rw [ht] at hg; exact hg
    | some (.pure nd) => rw [ht] at hg; exact hg
  · rw [hef] at hg
    obtain ⟨n, c, h1, h2⟩ := hg
    exact ⟨n.mapPreds f, c, by rw [h1]; rfl, by rw [Node.mapPreds_cont]; exact h2⟩

/-! ### Revoking and installing edges -/

/-- The effect of `preds_remove`. -/
def dropPred (src : Loc) (ps : List (Pred V)) : List (Pred V) := ps.filter fun p => decide (p.loc ≠ src)

theorem mem_dropPred {src : Loc} {ps : List (Pred V)} {q : Pred V} : q ∈ dropPred src ps ↔ q ∈ ps ∧ q.loc ≠ src := by
  simp [dropPred]

theorem dropPred_idem (src : Loc) (ps : List (Pred V)) : dropPred src (dropPred src ps) = dropPred src ps := by
  simp [dropPred, List.filter_filter]

theorem revokeSuccs_ok (l : Loc) (es : List (Succ V)) : ∀ s : St V,
    (∀ e ∈ es, ∃ n, s.table.get e.loc = some n ∧ n.Linked) →
    ∃ s', revokeSuccs l es s = .ok () s' ∧ s'.stack = s.stack ∧ s'.path = s.path ∧ s'.ignoreNominal = s.ignoreNominal ∧
      s'.purity = s.purity ∧
      ∀ x, s'.table.get x = (s.table.get x).map (Node.mapPreds (if x ∈ es.map (·.loc) then dropPred l else fun ps => ps)) := by
  induction es with
  | nil =>
    intro s _
    refine ⟨s, rfl, rfl, rfl, rfl, rfl, fun x => ?_⟩
    rcases s.table.get x with _ | n
    · rfl
    · simp [Node.mapPreds_id]
  | cons e es ih =>
    intro s h
    obtain ⟨n, h1, h2⟩ := h e (List.mem_cons_self ..)
    have hrm : n.predsRemove l = some (n.mapPreds (dropPred l)) := by
      match n with
      | .comp _ => rfl
      | .mut _ => rfl
      | .pure nd => exact absurd rfl (h2 nd)
    generalize hs1 : ({ s with
      log := Ev.eff .remove (some l) e.loc :: s.log
      table := s.table.put e.loc (n.mapPreds (dropPred l)) } : St V) = s1
    have hone : removePred l e.loc s = .ok () s1 := by
      unfold removePred
      rw [M.bind_ok (m := evEff _ _ _) rfl]
      rw [M.bind_ok (lookupAbs_ok (s := { s with log := Ev.eff .remove (some l) e.loc :: s.log }) h1)]
      simp only [hrm]
      rw [← hs1]; rfl
    have ht1 : ∀ x, s1.table.get x = (s.table.get x).map (Node.mapPreds (if x = e.loc then dropPred l else fun ps => ps)) := by
      intro x
      rw [← hs1]
      simp only [Table.get_put]
      split
      · rename_i hx; rw [hx, h1]; rfl
      · rcases s.table.get x with _ | n
        · rfl
        · simp [Node.mapPreds_id]
    obtain ⟨s2, g1, g2, g3, g4, g6, g5⟩ := ih s1 (by
      intro e' he'
      obtain ⟨n', k1, k2⟩ := h e' (List.mem_cons_of_mem _ he')
      refine ⟨n'.mapPreds (if e'.loc = e.loc then dropPred l else fun ps => ps), ?_, k2.mapPreds _⟩
      rw [ht1, k1]; rfl)
    refine ⟨s2, ?_, ?_, ?_, ?_, ?_, ?_⟩
    · unfold revokeSuccs
      rw [M.bind_ok hone]; exact g1
    · rw [g2, ← hs1]
    · rw [g3, ← hs1]
    · rw [g4, ← hs1]
    · rw [g6, ← hs1]
    · intro x
      rw [g5, ht1]
      rcases s.table.get x with _ | n
      · rfl
      · simp only [Option.map, Node.mapPreds_mapPreds, Option.some.injEq]
        congr 1
        funext ps
        have hm : x ∈ (e :: es).map (·.loc) ↔ x = e.loc ∨ x ∈ es.map (·.loc) := by simp [List.mem_cons]
        by_cases hx : x = e.loc
        · rw [if_pos hx, if_pos (hm.2 (.inl hx))]
          by_cases hx' : x ∈ es.map (·.loc)
          · rw [if_pos hx', dropPred_idem]
          · rw [if_neg hx']
        · rw [if_neg hx]
          by_cases hx' : x ∈ es.map (·.loc)
          · rw [if_pos hx', if_pos (hm.2 (.inr hx'))]
          · rw [if_neg hx', if_neg (fun h => (hm.1 h).elim hx hx')]

/-- The predecessor edges that a finished frame of `l` installs at `x`. -/
def newPreds (l : Loc) (fs : List (Succ V × Option (Dep V))) (x : Loc) : List (Pred V) :=
  fs.filterMap fun q => if q.1.loc = x then some ⟨l, q.1.effect, q.2⟩ else none

theorem newPreds_count (l : Loc) (eff : Effect) (x : Loc) (fs : List (Succ V × Option (Dep V))) :
    predCount l eff (newPreds l fs x) = recCount x eff (fs.map (·.1.edge)) := by
  induction fs with
  | nil => rfl
  | cons q fs ih =>
    unfold newPreds recCount at *
    rw [List.filterMap_cons, List.map_cons, List.countP_cons]
    by_cases hq : q.1.loc = x
    · rw [if_pos hq]
      unfold predCount at *
      simp only [List.countP_cons, ih]
      have : q.1.edge.loc = x := hq
      have h2 : q.1.edge.effect = q.1.effect := rfl
      simp only [this, h2, true_and]
    · rw [if_neg hq]
      have : q.1.edge.loc ≠ x := hq
      simp only [ih, this, false_and, decide_false, Bool.false_eq_true, if_false, Nat.add_zero]

theorem mem_newPreds {l : Loc} {fs : List (Succ V × Option (Dep V))} {x : Loc} {p : Pred V} :
    p ∈ newPreds l fs x ↔ ∃ q ∈ fs, q.1.loc = x ∧ p = ⟨l, q.1.effect, q.2⟩ := by
  unfold newPreds
  rw [List.mem_filterMap]
  constructor
  · rintro ⟨q, h1, h2⟩
    split at h2
    · cases h2; exact ⟨q, h1, by assumption, rfl⟩
    · cases h2
  · rintro ⟨q, h1, h2, rfl⟩
    exact ⟨q, h1, by simp [h2]⟩

theorem installPreds_ok (l : Loc) (fs : List (Succ V × Option (Dep V))) : ∀ s : St V,
    (∀ q ∈ fs, q.1.dirty = false ∧ ∃ n, s.table.get q.1.loc = some n ∧ n.Linked) →
    ∃ s', installPreds l fs s = .ok () s' ∧ s'.stack = s.stack ∧ s'.path = s.path ∧ s'.ignoreNominal = s.ignoreNominal ∧
      s'.purity = s.purity ∧
      ∀ x, s'.table.get x = (s.table.get x).map (Node.mapPreds (fun ps => ps ++ newPreds l fs x)) := by
  induction fs with
  | nil =>
    intro s _
    refine ⟨s, rfl, rfl, rfl, rfl, rfl, fun x => ?_⟩
    rcases s.table.get x with _ | n
    · rfl
    · simp [newPreds, Node.mapPreds_id]
  | cons q fs ih =>
    intro s h
    obtain ⟨hd, n, h1, h2⟩ := h q (List.mem_cons_self ..)
    have hrm : n.predsInsert q.1.effect l q.2 = some (n.mapPreds (fun ps => ps ++ [⟨l, q.1.effect, q.2⟩])) := by
      match n with
      | .comp _ => rfl
      | .mut _ => rfl
      | .pure nd => exact absurd rfl (h2 nd)
    generalize hs1 : ({ s with
      table := s.table.put q.1.loc (n.mapPreds (fun ps => ps ++ [⟨l, q.1.effect, q.2⟩])) } : St V) = s1
    have hone : installPred l q.1 q.2 s = .ok () s1 := by
      unfold installPred
      rw [if_neg (by rw [hd]; simp), M.bind_ok (lookupAbs_ok h1)]
      simp only [hrm]
      rw [← hs1]; rfl
    have ht1 : ∀ x, s1.table.get x = (s.table.get x).map (Node.mapPreds (fun ps => ps ++ newPreds l [q] x)) := by
      intro x
      rw [← hs1]
      simp only [Table.get_put]
      split
      · rename_i hx; rw [hx, h1]; simp [newPreds]
      · rename_i hx
        rcases s.table.get x with _ | n
        · rfl
        · have : newPreds l [q] x = [] := by simp [newPreds]; intro h; exact hx h.symm
          simp [this, Node.mapPreds_id]
    obtain ⟨s2, g1, g2, g3, g4, g6, g5⟩ := ih s1 (by
      intro q' hq'
      obtain ⟨k0, n', k1, k2⟩ := h q' (List.mem_cons_of_mem _ hq')
      refine ⟨k0, n'.mapPreds (fun ps => ps ++ newPreds l [q] q'.1.loc), ?_, k2.mapPreds _⟩
      rw [ht1, k1]; rfl)
    refine ⟨s2, ?_, ?_, ?_, ?_, ?_, ?_⟩
    · unfold installPreds
      rw [M.bind_ok hone]; exact g1
    · rw [g2, ← hs1]
    · rw [g3, ← hs1]
    · rw [g4, ← hs1]
    · rw [g6, ← hs1]
    · intro x
      rw [g5, ht1]
      rcases s.table.get x with _ | n
      · rfl
      · simp only [Option.map, Node.mapPreds_mapPreds, Option.some.injEq]
        congr 1
        funext ps
        rw [List.append_assoc]
        congr 1
        simp only [newPreds, List.filterMap_cons]
        split <;> simp_all

/-! ### Starting -/

theorem KeyDirty.not_allClean {es : List (Succ V)} {eff : Effect} {x : Loc} (h : KeyDirty es eff x) : ¬ AllClean es := by
  intro hc
  obtain ⟨e, h1, h2⟩ := h
  have hm := List.mem_of_find?_eq_some h1
  have := Succ.matches_iff.1 (List.find?_some h1)
  have hk := hc e hm
  rw [this.1, this.2] at hk
  exact not_clean_of_dirty ⟨e, h1, h2⟩ hk

/-- Take the edges of `l` out of the graph and push a frame for `l`. -/
theorem start_inv (h : Inv sig env s σ D) {l : Loc} (hl : l ∉ s.locs) {nd : CompNode V}
    (hn : s.table.get l = some (.comp nd)) (hd : nd.res = none ∨ ∃ eff x, KeyDirty nd.succs eff x) :
    ∃ s1 ps, revokeSuccs l nd.succs { s with table := s.table.put l (.comp { nd with succs := [] }) } = .ok () s1 ∧
      s1.stack = s.stack ∧ s1.path = s.path ∧ s1.ignoreNominal = s.ignoreNominal ∧
      s1.table.get l = some (.comp { nd with succs := [], preds := ps }) ∧ SamePreds l s.table s1.table ∧ ¬ D l ∧
      ∀ s2 : St V, s2.table = s1.table → s2.locs = l :: s.locs → s2.purity = s1.purity →
        Inv sig env s2 σ D ∧ SMono sig s.table s2.table := by
  have hDl : ¬ D l := by
    intro hD
    obtain ⟨nd', g1, g2, g3, g4, g5, g6⟩ := h.settled l hD
    rw [hn] at g1; cases g1
    rcases hd with hd | ⟨eff, x, hd⟩
    · exact g4 hd
    · exact hd.not_allClean g5
  have hnl : ∀ e ∈ nd.succs, e.loc ≠ l := fun e he => (h.graph.edge l nd e hn he).1
  obtain ⟨s1, g1, g2, g3, g4, g6, g5⟩ := revokeSuccs_ok l nd.succs
    { s with table := s.table.put l (.comp { nd with succs := [] }) } (by
      intro e he
      obtain ⟨n, k1, k2⟩ := h.graph.fwd l nd e hn he
      exact ⟨n, by simp only; rw [Table.get_put_ne _ _ (hnl e he)]; exact k1, (h.graph.wf _ _ k1).linked (h.graph.edge l nd e hn he).2.1⟩)
  have hlm : l ∉ nd.succs.map (·.loc) := by
    rw [List.mem_map]
    rintro ⟨e, he, hel⟩
    exact hnl e he hel
  have hself : s1.table.get l = some (.comp { nd with succs := [] }) := by
    rw [g5, if_neg hlm]
    simp only [Table.get_put_self, Option.map, Node.mapPreds_id]
  have hother : ∀ x, x ≠ l → s1.table.get x = (s.table.get x).map
      (Node.mapPreds (if x ∈ nd.succs.map (·.loc) then dropPred l else fun ps => ps)) := by
    intro x hx
    rw [g5]; simp only; rw [Table.get_put_ne _ _ hx]
  have hsame : SamePreds l s.table s1.table := fun x hx => ⟨_, hother x hx⟩
  refine ⟨s1, nd.preds, g1, g2, g3, g4, hself, hsame, hDl, ?_⟩
  intro s2 ht hk hi
  have hself2 : s2.table.get l = some (.comp { nd with succs := [] }) := by rw [ht]; exact hself
  have hother2 : ∀ x, x ≠ l → s2.table.get x = (s.table.get x).map
      (Node.mapPreds (if x ∈ nd.succs.map (·.loc) then dropPred l else fun ps => ps)) := by
    rw [ht]; exact hother
  rw [← ht] at hsame
  -- thunks with edges are the old ones
  have hcomp : ∀ p nd' e, s2.table.get p = some (.comp nd') → e ∈ nd'.succs →
      p ≠ l ∧ ∃ ps, s.table.get p = some (.comp { nd' with preds := ps }) := by
    intro p nd' e hp he
    by_cases hpl : p = l
    · subst hpl
      rw [hself2] at hp; cases hp; cases he
    · exact ⟨hpl, hsame.comp' hpl hp⟩
  have hmemdrop : ∀ x (q : Pred V) (ps : List (Pred V)), q ∈ ps → q.loc ≠ l →
      q ∈ (if x ∈ nd.succs.map (·.loc) then dropPred l else fun ps => ps) ps := by
    intro x q ps hq hql
    split
    · exact mem_dropPred.2 ⟨hq, hql⟩
    · exact hq
  have hres : ∀ x, D x → ∀ nd, s.table.get x = some (.comp nd) →
      ∃ nd', s2.table.get x = some (.comp nd') ∧ nd'.res = nd.res := by
    intro x hx nd' hx'
    obtain ⟨ps, k1⟩ := hsame.comp (fun h => hDl (h ▸ hx)) hx'
    exact ⟨_, k1, rfl⟩
  have himm : SMono sig s.table s2.table := hsame.smono fun _ n hn' => by
    rw [hn] at hn'; cases hn'
    exact ⟨_, hself2, rfl, fun _ w hw => hw⟩
  refine ⟨⟨⟨?_, ?_, ?_, ?_, ?_, ?cnt⟩, ?_, ?_, ?_, ?_, ?_, ?_, ?_, ?acyc, ?fixed, ?pureRes⟩, himm⟩
  case cnt =>
    have hsc : ∀ p x eff, p ≠ l → succCount x eff (s2.table.get p) = succCount x eff (s.table.get p) := by
      intro p x eff hpl
      rw [hother2 p hpl]
      rcases s.table.get p with _ | m
      · rfl
      · match m with
        | .comp _ => rfl
        | .mut _ => rfl
        | .pure _ => rfl
    intro x n p eff hx
    by_cases hxl : x = l
    · subst hxl
      rw [hself2] at hx; cases hx
      have hold := h.graph.cnt x _ p eff hn
      by_cases hpl : p = x
      · subst hpl
        rw [hself2]
        rw [hn] at hold
        exact hold.trans (recCount_zero hnl)
      · rw [hsc p x eff hpl]; exact hold
    · rw [hother2 x hxl] at hx
      rcases hg : s.table.get x with _ | n0
      · rw [hg] at hx; cases hx
      · rw [hg] at hx
        cases hx
        have hold := h.graph.cnt x n0 p eff hg
        by_cases hpl : p = l
        · subst hpl
          rw [hself2]
          show _ = 0
          rw [hn] at hold
          by_cases hm : x ∈ nd.succs.map (·.loc)
          · refine predCount_zero ?_
            intro q hq
            have hq := Node.mapPreds_mem hq
            rw [if_pos hm, mem_dropPred] at hq
            exact hq.2
          · have h0 : succCount x eff (some (.comp nd)) = 0 :=
              recCount_zero fun e he hel => hm (List.mem_map.2 ⟨e, he, hel⟩)
            rw [h0] at hold
            rw [if_neg hm, Node.mapPreds_id]; exact hold
        · rw [hsc p x eff hpl, ← hold]
          have hd : ∀ ps : List (Pred V), predCount p eff (dropPred l ps) = predCount p eff ps := by
            intro ps
            unfold predCount dropPred
            rw [List.countP_filter]
            refine List.countP_congr fun q _ => ?_
            simp only [Bool.and_eq_true, decide_eq_true_eq]
            exact ⟨fun h => h.1, fun h => ⟨h, fun hq => hpl (h.1.symm.trans hq)⟩⟩
          by_cases hm : x ∈ nd.succs.map (·.loc)
          · rw [if_pos hm]
            match n0 with
            | .pure _ => rfl
            | .comp nd0 => exact hd _
            | .mut nd0 => exact hd _
          · rw [if_neg hm, Node.mapPreds_id]
  case fixed =>
    intro x n hx hxn
    by_cases hxl : x = l
    · subst hxl
      rw [hself2] at hxn; cases hxn
      exact h.fixed x (.comp nd) hx hn
    · obtain ⟨n0, k1, k2⟩ := hsame.fixed hxl hxn
      rw [← k2]; exact h.fixed x n0 hx k1
  case pureRes =>
    intro hp x nd' w hx hxn hr
    by_cases hxl : x = l
    · subst hxl
      rw [hself2] at hxn; cases hxn
      exact h.pureRes hp x nd w hx hn hr
    · obtain ⟨ps, k1⟩ := hsame.comp' hxl hxn
      exact h.pureRes hp x _ w hx k1 hr
  case acyc =>
    refine h.acyc.sub ?_
    rintro p x ⟨nd', e, hp, he, hr⟩
    obtain ⟨_, ps, hp0⟩ := hcomp p nd' e hp he
    exact ⟨_, e, hp0, he, hr⟩
  · intro x n hx
    by_cases hxl : x = l
    · subst hxl
      rw [hself2] at hx; cases hx
      have hw := h.graph.wf _ _ hn
      exact hw
    · exact hsame.wf hxl hx (h.graph.wf x)
  · -- fwd
    intro p nd' e hp he
    obtain ⟨hpl, ps, hp0⟩ := hcomp p nd' e hp he
    obtain ⟨n, k1, k2⟩ := h.graph.fwd p _ e hp0 he
    by_cases hxl : e.loc = l
    · refine ⟨_, by rw [hxl]; exact hself2, ?_⟩
      rw [hxl, hn] at k1; cases k1
      exact k2
    · refine ⟨n.mapPreds _, by rw [hother2 _ hxl, k1]; rfl, ?_⟩
      rw [Node.mapPreds_preds ((h.graph.wf _ _ k1).linked (h.graph.edge p _ e hp0 he).2.1)]
      exact hmemdrop _ _ _ k2 hpl
  · -- bwd
    intro x n q hx hq
    have hq' : ∃ n0, s.table.get x = some n0 ∧ q ∈ n0.preds ∧ (q.loc = l → x ∉ nd.succs.map (·.loc)) := by
      by_cases hxl : x = l
      · subst hxl
        rw [hself2] at hx; cases hx
        exact ⟨_, hn, hq, fun _ => hlm⟩
      · rw [hother2 x hxl] at hx
        rcases hg : s.table.get x with _ | n0
        · rw [hg] at hx; cases hx
        · rw [hg] at hx
          cases hx
          have hq := Node.mapPreds_mem hq
          split at hq
          · rw [mem_dropPred] at hq
            exact ⟨n0, rfl, hq.1, fun h => absurd h hq.2⟩
          · exact ⟨n0, rfl, hq, fun _ => by assumption⟩
    obtain ⟨n0, k1, k2, k3⟩ := hq'
    obtain ⟨nd0, k4, e, k5, k6⟩ := h.graph.bwd x n0 q k1 k2
    have hql : q.loc ≠ l := by
      intro hql
      have k3 := k3 hql
      rw [hql, hn] at k4; cases k4
      exact k3 (List.mem_map.2 ⟨e, k5, k6.1⟩)
    obtain ⟨ps, k7⟩ := hsame.comp hql k4
    exact ⟨_, k7, e, k5, k6⟩
  · intro p nd' e hp he
    obtain ⟨hpl, ps, hp0⟩ := hcomp p nd' e hp he
    exact h.graph.edge p _ e hp0 he
  · intro p nd' hp
    by_cases hpl : p = l
    · subst hpl
      rw [hself2] at hp; cases hp
      intro x e1 hf; cases hf
    · obtain ⟨ps, hp0⟩ := hsame.comp' hpl hp
      have hw := h.graph.first p _ hp0
      exact hw
  · -- clean
    intro p nd' e hp he hkc
    right
    obtain ⟨hpl, ps, hp0⟩ := hcomp p nd' e hp he
    rcases h.clean p _ e hp0 he hkc with hg | hg
    · exact hg.elim
    · by_cases hxl : e.loc = l
      · have hxl' : e.edge.loc = l := hxl
        unfold Good at hg ⊢
        rw [hxl', hn] at hg
        rw [hxl', hself2]
        cases hef : e.edge.effect
        · exfalso
          rw [hef] at hg
          obtain ⟨_, ⟨w, hw, _⟩, hac⟩ := hg
          rcases hd with hd | ⟨eff, x, hd⟩
          · rw [hd] at hw; cases hw
          · exact hd.not_allClean hac
        · rw [hef] at hg
          obtain ⟨n, c, k1, k2⟩ := hg
          cases k1
          exact ⟨_, c, rfl, k2⟩
      · refine hsame.good hxl ?_ hg
        intro h1
        rw [hk]
        simp only [List.mem_cons, not_or]
        exact ⟨hxl, h1⟩
  · rw [hk]; exact List.nodup_cons.2 ⟨hl, h.nodup⟩
  · intro x hx
    rw [hk] at hx
    rcases List.mem_cons.1 hx with rfl | hx
    · exact ⟨_, hself2, rfl⟩
    · obtain ⟨nd', k1, k2⟩ := h.stk x hx
      obtain ⟨ps, k3⟩ := hsame.comp (fun he => hl (he ▸ hx)) k1
      exact ⟨_, k3, k2⟩
  · intro p nd' v hp hpk hr
    rw [hk] at hpk
    simp only [List.mem_cons, not_or] at hpk
    obtain ⟨ps, hp0⟩ := hsame.comp' hpk.1 hp
    have hw := h.replay p _ v hp0 hpk.2 hr
    exact hw.mono himm
  · intro x v hx
    obtain ⟨n, k1, k2⟩ := h.store x v hx
    by_cases hxl : x = l
    · subst hxl
      rw [hn] at k1; cases k1
      exact ⟨_, hself2, k2⟩
    · obtain ⟨n', k3, k4⟩ := hsame.exists_ hxl k1
      exact ⟨n', k3, k4.trans k2⟩
  · intro x hx
    have hxl : x ≠ l := fun he => hDl (he ▸ hx)
    obtain ⟨nd', k1, k2, k3, k4, k5, k6⟩ := h.settled x hx
    obtain ⟨ps, k7⟩ := hsame.comp hxl k1
    refine ⟨_, k7, ?_, k3, k4, k5, ?_⟩
    · rw [hk]; simp only [List.mem_cons, not_or]; exact ⟨hxl, k2⟩
    · intro e he
      exact (k6 e he).mono (Ext.refl _) (fun _ h => h) hres
  · rw [hi, g6]; exact h.pur

/-! ### Finishing -/

/-- Was this observation made through a map? -/
def Dep.isMap : Dep V → Bool
  | .forceMap _ _ _ => true
  | _ => false

/-- The reference's record of observations agrees with the recorded edges. -/
def ObsRel (sig : Sig) (obs : Ref.Obs) (es : List (Edge V)) : Prop :=
  ∀ x ty b, sig x = .cell ty → Vis sig x → ((x, b) ∈ obs ↔ ∃ e, es.find? (Edge.matches .observe x) = some e ∧ e.dep.isMap = b)

/-- The edges recorded in the frame of `me` are up to date. -/
structure FrameOK (sig : Sig) (t : Table V) (σ : Store V) (D : Loc → Prop) (me : Loc) (obs : Ref.Obs)
    (fs : List (Succ V × Option (Dep V))) : Prop where
  dirty : ∀ q ∈ fs, q.1.dirty = false
  pdep : ∀ q ∈ fs, q.2 = predDep q.1.dep
  noself : ∀ q ∈ fs, q.1.loc ≠ me
  wf : ∀ q ∈ fs, EdgeWf sig q.1.edge
  ok : ∀ q ∈ fs, EdgeOK sig t σ D q.1.edge
  first : FirstSub (fs.map (·.1.edge))
  obs : ObsRel sig obs (fs.map (·.1.edge))

/-- An up-to-date edge is justified. -/
theorem EdgeOK.good (h : Inv sig env s σ D) {e : Edge V} (he : EdgeOK sig s.table σ D e) (hv : Vis sig e.loc) : Good s.table s.locs e := by
  obtain ⟨c, h1, h2⟩ := he
  unfold Good
  cases hef : e.effect
  · rw [hef] at h2
    simp only at h2 ⊢
    cases hk : sig e.loc with
    | cell ty =>
      rw [hk] at h2
      obtain ⟨nd, g1, g2, g3⟩ := h.storeCell hk hv h1
      rw [g1]
      simp only
      rw [g3]; exact h2
    | thunk ty pp fn =>
      rw [hk] at h2
      obtain ⟨hD, nd, w, g1, g2, g3⟩ := h2
      obtain ⟨nd', k1, k2, k3, k4, k5, k6⟩ := h.settled _ hD
      rw [g1] at k1; cases k1
      rw [g1]
      exact ⟨k2, ⟨w, g2, g3⟩, k5⟩
  · rw [hef] at h2
    simp only at h2 ⊢
    obtain ⟨n, g1, g2⟩ := h.store _ _ h1
    exact ⟨n, c, g1, g2, h2⟩

theorem allClean_of_clean {es : List (Succ V)} (h : ∀ e ∈ es, e.dirty = false) : AllClean es := by
  intro e he
  obtain ⟨e', he'⟩ := find_of_mem he
  exact ⟨e', he', h e' (List.mem_of_find?_eq_some he')⟩

/-- Pop the frame of `l`, install its edges and store the result. -/
theorem finish_inv {s0 : St V} (h : Inv sig env s0 σ D) {l : Loc} {K : List Loc} (hk0 : s0.locs = l :: K) {obs : Ref.Obs}
    {fs : List (Succ V × Option (Dep V))} (hf : FrameOK sig s0.table σ D l obs fs) (hσ : σ l ≠ none)
    {nd : CompNode V} (hn : s0.table.get l = some (.comp nd)) {v : V}
    (hr : Replay sig env s0.table sig.mode l.path (env.code nd.fn nd.arg) [] (fs.map (·.1.edge)) v)
    (ht : s.table = s0.table) (hks : s.locs = K) (hi : s.purity = s0.purity)
    (hpr : sig.pu = true → l.isStruct = true → ∀ w, nd.res = some w → w = v)
    (hfr : ∃ k, (Ref.recN sig.full env k).frc [] σ l = some (σ, v)) :
    ∃ s1 nd1, installPreds l fs s = .ok () s1 ∧ s1.table.get l = some (.comp nd1) ∧ nd1.ty = nd.ty ∧
      s1.stack = s.stack ∧ s1.path = s.path ∧ s1.ignoreNominal = s.ignoreNominal ∧
      ∀ s2 : St V, s2 = { s1 with table := s1.table.put l (.comp { nd1 with succs := fs.map (·.1), res := some v }) } →
        Inv sig env s2 σ (fun x => x = l ∨ D x) ∧ SMono sig s0.table s2.table ∧ SamePreds l s0.table s2.table ∧
        s2.table.get l = some (.comp { nd1 with succs := fs.map (·.1), res := some v }) := by
  have hnd0 : l ∉ K := by have := h.nodup; rw [hk0] at this; exact (List.nodup_cons.1 this).1
  have hlk : l ∈ s0.locs := by rw [hk0]; exact List.mem_cons_self ..
  have hs0 : nd.succs = [] := by
    obtain ⟨nd', g1, g2⟩ := h.stk l hlk
    rw [hn] at g1; cases g1; exact g2
  have hDl : ¬ D l := by
    intro hD
    obtain ⟨_, _, g2, _⟩ := h.settled l hD
    exact g2 hlk
  have hex : ∀ q ∈ fs, ∃ n, s.table.get q.1.loc = some n ∧ n.Linked := by
    intro q hq
    obtain ⟨c, g1, _⟩ := hf.ok q hq
    obtain ⟨n, g2, _⟩ := h.store _ _ g1
    exact ⟨n, by rw [ht]; exact g2, (h.graph.wf _ _ g2).linked (hf.wf q hq).1⟩
  obtain ⟨s1, g1, g2, g3, g4, g6, g5⟩ := installPreds_ok l fs s (fun q hq => ⟨hf.dirty q hq, hex q hq⟩)
  rw [ht] at g5
  have hnew : newPreds l fs l = [] := by
    rw [List.eq_nil_iff_forall_not_mem]
    intro p hp
    obtain ⟨q, k1, k2, _⟩ := mem_newPreds.1 hp
    exact hf.noself q k1 k2
  have hs1 : s1.table.get l = some (.comp nd) := by
    rw [g5, hn, hnew]
    simp only [Option.map, List.append_nil, Node.mapPreds_id]
  refine ⟨s1, nd, g1, hs1, rfl, g2, g3, g4, ?_⟩
  rintro s2 rfl
  generalize hs2 : ({ s1 with table := s1.table.put l (.comp { nd with succs := fs.map (·.1), res := some v }) } : St V) = s2
  have hself : s2.table.get l = some (.comp { nd with succs := fs.map (·.1), res := some v }) := by
    rw [← hs2]; exact Table.get_put_self _ _ _
  have hother : ∀ x, x ≠ l → s2.table.get x = (s0.table.get x).map (Node.mapPreds (fun ps => ps ++ newPreds l fs x)) := by
    intro x hx
    rw [← hs2]; simp only; rw [Table.get_put_ne _ _ hx]; exact g5 x
  have hsame : SamePreds l s0.table s2.table := fun x hx => ⟨_, hother x hx⟩
  have hk2 : s2.locs = K := by
    rw [← hks, ← hs2]; unfold St.locs; simp only; rw [g2]
  have hKsub : ∀ x, x ∉ s0.locs → x ∉ s2.locs := by
    intro x hx
    rw [hk2]
    intro hxK
    exact hx (by rw [hk0]; exact List.mem_cons_of_mem _ hxK)
  have hres : ∀ x, D x → ∀ nd, s0.table.get x = some (.comp nd) →
      ∃ nd', s2.table.get x = some (.comp nd') ∧ nd'.res = nd.res := by
    intro x hx nd' hx'
    obtain ⟨ps, k1⟩ := hsame.comp (fun h => hDl (h ▸ hx)) hx'
    exact ⟨_, k1, rfl⟩
  have hok : ∀ e, EdgeOK sig s0.table σ D e → EdgeOK sig s2.table σ (fun x => x = l ∨ D x) e :=
    fun e he => he.mono (Ext.refl _) (fun _ h => .inr h) hres
  have hedges : (fs.map (·.1)).map Succ.edge = fs.map (·.1.edge) := by rw [List.map_map]; rfl
  -- no old predecessor edge comes from `l`
  have hnol : ∀ x n q, s0.table.get x = some n → q ∈ n.preds → q.loc ≠ l := by
    intro x n q hx hq hql
    obtain ⟨nd', k1, e, k2, _⟩ := h.graph.bwd x n q hx hq
    rw [hql, hn] at k1; cases k1
    rw [hs0] at k2; cases k2
  have himm : SMono sig s0.table s2.table := hsame.smono fun hls n hn' => by
    rw [hn] at hn'; cases hn'
    exact ⟨_, hself, rfl, fun hp w hw => by rw [hpr hp hls w hw]; rfl⟩
  refine ⟨⟨⟨?_, ?_, ?_, ?_, ?_, ?cnt⟩, ?_, ?_, ?_, ?_, ?_, ?_, ?_, ?acyc, ?fixed, ?pureRes⟩, himm, hsame, hself⟩
  case cnt =>
    have hsc : ∀ p x eff, p ≠ l → succCount x eff (s2.table.get p) = succCount x eff (s0.table.get p) := by
      intro p x eff hpl
      rw [hother p hpl]
      rcases s0.table.get p with _ | m
      · rfl
      · match m with
        | .comp _ => rfl
        | .mut _ => rfl
        | .pure _ => rfl
    intro x n p eff hx
    by_cases hxl : x = l
    · subst hxl
      rw [hself] at hx; cases hx
      have hold := h.graph.cnt x _ p eff hn
      by_cases hpl : p = x
      · subst hpl
        rw [hself]
        rw [hn] at hold
        refine hold.trans ?_
        unfold succCount; simp only [Node.succsList]
        rw [hs0]
        refine Eq.symm (recCount_zero fun e he => ?_)
        obtain ⟨q, hq, rfl⟩ := List.mem_map.1 he
        exact hf.noself q hq
      · rw [hsc p x eff hpl]; exact hold
    · rw [hother x hxl] at hx
      rcases hg : s0.table.get x with _ | n0
      · rw [hg] at hx; cases hx
      · rw [hg] at hx
        cases hx
        have hold := h.graph.cnt x n0 p eff hg
        by_cases hpl : p = l
        · subst hpl
          have h0 : predCount p eff n0.preds = 0 := predCount_zero (hnol x n0 · hg)
          rw [hself]
          unfold succCount; simp only [Node.succsList]
          rw [hedges]
          by_cases hm : ∃ q ∈ fs, q.1.loc = x
          · obtain ⟨q, hq, hqx⟩ := hm
            obtain ⟨n1, k1, k2⟩ := hex q hq
            rw [ht, hqx, hg] at k1; cases k1
            rw [Node.mapPreds_preds k2]
            have happ : predCount p eff (n0.preds ++ newPreds p fs x) = predCount p eff n0.preds + predCount p eff (newPreds p fs x) := List.countP_append ..
            rw [happ, h0, Nat.zero_add]
            exact newPreds_count p eff x fs
          · have h1 : newPreds p fs x = [] := by
              rw [List.eq_nil_iff_forall_not_mem]
              intro q hq
              obtain ⟨q', h1, h2, _⟩ := mem_newPreds.1 hq
              exact hm ⟨q', h1, h2⟩
            have h2 : predCount p eff (n0.mapPreds fun ps => ps ++ newPreds p fs x).preds = 0 := by
              rw [h1]
              match n0 with
              | .pure _ => rfl
              | .comp nd0 => show predCount p eff (nd0.preds ++ []) = 0; rw [List.append_nil]; exact h0
              | .mut nd0 => show predCount p eff (nd0.preds ++ []) = 0; rw [List.append_nil]; exact h0
            rw [h2, ← newPreds_count p eff x fs, h1]; rfl
        · rw [hsc p x eff hpl, ← hold]
          have hz : predCount p eff (newPreds l fs x) = 0 := predCount_zero fun q hq hql => by
            obtain ⟨q', _, _, rfl⟩ := mem_newPreds.1 hq
            exact hpl hql.symm
          match n0 with
          | .pure _ => rfl
          | .comp nd0 => show predCount p eff (nd0.preds ++ _) = predCount p eff nd0.preds; unfold predCount at hz ⊢; rw [List.countP_append, hz]; rfl
          | .mut nd0 => show predCount p eff (nd0.preds ++ _) = predCount p eff nd0.preds; unfold predCount at hz ⊢; rw [List.countP_append, hz]; rfl
  case fixed =>
    intro x n hx hxn
    by_cases hxl : x = l
    · subst hxl
      rw [hself] at hxn; cases hxn
      exact h.fixed x (.comp nd) hx hn
    · obtain ⟨n0, k1, k2⟩ := hsame.fixed hxl hxn
      rw [← k2]; exact h.fixed x n0 hx k1
  case pureRes =>
    intro hp x nd' w hx hxn hr'
    by_cases hxl : x = l
    · subst hxl
      rw [hself] at hxn; cases hxn
      cases hr'
      exact hfr
    · obtain ⟨ps, k1⟩ := hsame.comp' hxl hxn
      exact h.pureRes hp x _ w hx k1 hr'
  case acyc =>
    have hne : ∀ p x, p ≠ l → ObsEdge s2.table p x → ObsEdge s0.table p x := by
      rintro p x hpl ⟨nd', e, hp, he, hr⟩
      obtain ⟨ps, hp0⟩ := hsame.comp' hpl hp
      exact ⟨_, e, hp0, he, hr⟩
    -- whatever a justified thunk reaches is accessible in the new graph
    have hgood : ∀ x, Acc (fun x p => ObsEdge s0.table p x) x →
        (∀ nd', s0.table.get x = some (.comp nd') → x ∉ s0.locs ∧ AllClean nd'.succs) →
        Acc (fun x p => ObsEdge s2.table p x) x := by
      intro x hx
      induction hx with
      | intro x _ ih =>
        intro hgx
        refine ⟨x, fun y hy => ?_⟩
        have hxl : x ≠ l := by
          rintro rfl
          exact (hgx nd hn).1 hlk
        have hy0 := hne x y hxl hy
        refine ih y hy0 ?_
        obtain ⟨nd', e, k1, k2, k3, k4⟩ := hy0
        have hkc := (hgx nd' k1).2 e k2
        rcases h.clean x nd' e k1 k2 hkc with hg | hg
        · exact hg.elim
        · intro ndy hyn
          unfold Good at hg
          have k4' : e.edge.loc = y := k4
          have k3' : e.edge.effect = .observe := k3
          rw [k3', k4', hyn] at hg
          exact ⟨hg.1, hg.2.2⟩
    have haccl : Acc (fun x p => ObsEdge s2.table p x) l := by
      refine ⟨l, fun y hy => hgood y (h.acyc y) ?_⟩
      obtain ⟨nd', e, k1, k2, k3, k4⟩ := hy
      rw [hself] at k1; cases k1
      simp only [List.mem_map] at k2
      obtain ⟨q, hq, rfl⟩ := k2
      have hg := (hf.ok q hq).good h (hf.wf q hq).1
      intro ndy hyn
      unfold Good at hg
      have k4' : q.1.edge.loc = y := k4
      have k3' : q.1.edge.effect = .observe := k3
      rw [k3', k4', hyn] at hg
      exact ⟨hg.1, hg.2.2⟩
    intro p
    induction h.acyc p with
    | intro p _ ih =>
      by_cases hpl : p = l
      · rw [hpl]; exact haccl
      · exact ⟨p, fun x hx => ih x (hne p x hpl hx)⟩
  · intro x n hx
    by_cases hxl : x = l
    · subst hxl
      rw [hself] at hx; cases hx
      have hw := h.graph.wf _ _ hn
      exact hw
    · exact hsame.wf hxl hx (h.graph.wf x)
  · -- fwd
    intro p nd' e hp he
    by_cases hpl : p = l
    · subst hpl
      rw [hself] at hp; cases hp
      simp only [List.mem_map] at he
      obtain ⟨q, hq, rfl⟩ := he
      obtain ⟨n, k1, k2⟩ := hex q hq
      rw [ht] at k1
      refine ⟨n.mapPreds _, by rw [hother _ (hf.noself q hq), k1]; rfl, ?_⟩
      rw [Node.mapPreds_preds k2]
      exact List.mem_append_right _ (mem_newPreds.2 ⟨q, hq, rfl, by rw [hf.pdep q hq]⟩)
    · obtain ⟨ps, hp0⟩ := hsame.comp' hpl hp
      obtain ⟨n, k1, k2⟩ := h.graph.fwd p _ e hp0 he
      by_cases hxl : e.loc = l
      · refine ⟨_, by rw [hxl]; exact hself, ?_⟩
        rw [hxl, hn] at k1; cases k1
        exact k2
      · refine ⟨n.mapPreds _, by rw [hother _ hxl, k1]; rfl, ?_⟩
        rw [Node.mapPreds_preds ((h.graph.wf _ _ k1).linked (h.graph.edge p _ e hp0 he).2.1)]
        exact List.mem_append_left _ k2
  · -- bwd
    intro x n q hx hq
    have hq' : (∃ n0, s0.table.get x = some n0 ∧ q ∈ n0.preds) ∨ q ∈ newPreds l fs x := by
      by_cases hxl : x = l
      · subst hxl
        rw [hself] at hx; cases hx
        exact .inl ⟨_, hn, hq⟩
      · rw [hother x hxl] at hx
        rcases hg : s0.table.get x with _ | n0
        · rw [hg] at hx; cases hx
        · rw [hg] at hx
          cases hx
          have hq := Node.mapPreds_mem hq
          rw [List.mem_append] at hq
          exact hq.imp (fun h => ⟨n0, rfl, h⟩) id
    rcases hq' with ⟨n0, k1, k2⟩ | hq'
    · obtain ⟨nd0, k4, e, k5, k6⟩ := h.graph.bwd x n0 q k1 k2
      obtain ⟨ps, k7⟩ := hsame.comp (hnol x n0 q k1 k2) k4
      exact ⟨_, k7, e, k5, k6⟩
    · obtain ⟨q', k1, k2, rfl⟩ := mem_newPreds.1 hq'
      exact ⟨_, hself, q'.1, List.mem_map.2 ⟨q', k1, rfl⟩, k2, rfl, (hf.pdep q' k1).symm⟩
  · intro p nd' e hp he
    by_cases hpl : p = l
    · subst hpl
      rw [hself] at hp; cases hp
      simp only [List.mem_map] at he
      obtain ⟨q, hq, rfl⟩ := he
      exact ⟨hf.noself q hq, hf.wf q hq⟩
    · obtain ⟨ps, hp0⟩ := hsame.comp' hpl hp
      exact h.graph.edge p _ e hp0 he
  · intro p nd' hp
    by_cases hpl : p = l
    · subst hpl
      rw [hself] at hp; cases hp
      rw [hedges]; exact hf.first
    · obtain ⟨ps, hp0⟩ := hsame.comp' hpl hp
      have hw := h.graph.first p _ hp0
      exact hw
  · -- clean
    intro p nd' e hp he hkc
    right
    by_cases hpl : p = l
    · subst hpl
      rw [hself] at hp; cases hp
      simp only [List.mem_map] at he
      obtain ⟨q, hq, rfl⟩ := he
      exact hsame.good (hf.noself q hq) (hKsub _) ((hf.ok q hq).good h (hf.wf q hq).1)
    · obtain ⟨ps, hp0⟩ := hsame.comp' hpl hp
      rcases h.clean p _ e hp0 he hkc with hg | hg
      · exact hg.elim
      · by_cases hxl : e.loc = l
        · have hxl' : e.edge.loc = l := hxl
          unfold Good at hg ⊢
          rw [hxl', hn] at hg
          rw [hxl', hself]
          cases hef : e.edge.effect
          · exfalso
            rw [hef] at hg
            exact hg.1 hlk
          · rw [hef] at hg
            obtain ⟨n, c, k1, k2⟩ := hg
            cases k1
            exact ⟨_, c, rfl, k2⟩
        · exact hsame.good hxl (hKsub _) hg
  · rw [hk2]; have := h.nodup; rw [hk0] at this; exact (List.nodup_cons.1 this).2
  · intro x hx
    rw [hk2] at hx
    have hxl : x ≠ l := fun he => hnd0 (he ▸ hx)
    obtain ⟨nd', k1, k2⟩ := h.stk x (by rw [hk0]; exact List.mem_cons_of_mem _ hx)
    obtain ⟨ps, k3⟩ := hsame.comp hxl k1
    exact ⟨_, k3, k2⟩
  · intro p nd' w hp hpk hres'
    by_cases hpl : p = l
    · subst hpl
      rw [hself] at hp; cases hp
      cases hres'
      rw [hedges]; exact hr.mono himm
    · obtain ⟨ps, hp0⟩ := hsame.comp' hpl hp
      have hw := h.replay p _ w hp0 (by
        rw [hk0]; rw [hk2] at hpk
        simp only [List.mem_cons, not_or]; exact ⟨hpl, hpk⟩) hres'
      exact hw.mono himm
  · intro x w hx
    obtain ⟨n, k1, k2⟩ := h.store x w hx
    by_cases hxl : x = l
    · subst hxl
      rw [hn] at k1; cases k1
      exact ⟨_, hself, k2⟩
    · obtain ⟨n', k3, k4⟩ := hsame.exists_ hxl k1
      exact ⟨n', k3, k4.trans k2⟩
  · intro x hx
    rcases hx with rfl | hx
    · refine ⟨_, hself, by rw [hk2]; exact hnd0, hσ, by simp, ?_, ?_⟩
      · refine allClean_of_clean ?_
        intro e he
        simp only [List.mem_map] at he
        obtain ⟨q, hq, rfl⟩ := he
        exact hf.dirty q hq
      · intro e he
        simp only [List.mem_map] at he
        obtain ⟨q, hq, rfl⟩ := he
        exact hok _ (hf.ok q hq)
    · have hxl : x ≠ l := fun he => hDl (he ▸ hx)
      obtain ⟨nd', k1, k2, k3, k4, k5, k6⟩ := h.settled x hx
      obtain ⟨ps, k7⟩ := hsame.comp hxl k1
      exact ⟨_, k7, hKsub _ k2, k3, k4, k5, fun e he => hok _ (k6 e he)⟩
  · rw [← hs2]; simp only; rw [g6, hi]; exact h.pur

end Adapton
