import Verif.Props.LastRun
/-
C09 (dirtiness is transitive), C10 (edge symmetry), C49 (clean dependencies are up to date): the states between editor
operations of every session that has a meaning.
-/
set_option linter.unusedSectionVars false
set_option linter.unusedVariables false
set_option linter.unusedSimpArgs false
namespace Adapton
open Ref (Sig Kind Means)
variable {V : Type} [DecidableEq V]

/-! ### Specification -/

/-- Thunk `p` has recorded the dependency `e`. -/
def HasDep (t : Table V) (p : Loc) (e : Succ V) : Prop := ∃ nd, t.get p = some (.comp nd) ∧ e ∈ nd.succs

/-- Location `x` knows that `p` depends on it, by this effect. -/
def KnowsPred (t : Table V) (x p : Loc) (eff : Effect) : Prop :=
  ∃ n, t.get x = some n ∧ ∃ q ∈ n.preds, q.loc = p ∧ q.effect = eff

/-- What a location holds at the moment, as far as a force of it is concerned: a cell's value, a thunk's cached result. -/
def Current (t : Table V) (x : Loc) (v : V) : Prop :=
  (∃ nd, t.get x = some (.mut nd) ∧ nd.val = v) ∨ (∃ nd, t.get x = some (.comp nd) ∧ nd.res = some v)

/-- The dependency agrees with the value `v` of its target. -/
inductive Agrees : Dep V → V → Prop
  | force {ty v} : Agrees (.force ty v) v
  | forceMap {ty f v} : Agrees (.forceMap ty f (f v)) v

/-! ### Proofs -/

theorem session_state (sig : Sig) (env : Env V) (ps : List (Prog V)) (vs : List V) (h : Means sig env ps vs) (purity : Bool)
    (hp : purity = true → sig.pu = true) (n : Nat) (vs' : List V) (s' : St V) (hr : runSession env n ps (initSt purity sig.mode) = .ok vs' s') :
    (∃ σ D, Inv (sig.withPu purity) env s' σ D) ∧ ShapeT s'.table ∧ s'.stack = [] := by
  obtain ⟨e, N, s2, h1, h2⟩ := session_engine h purity hp
  have h4 := h1 (max n N) (Nat.le_max_right ..)
  have h5 := runSession_mono env (Nat.le_max_left n N) ps (initSt purity sig.mode) (by rw [hr]; simp)
  rw [h4, hr] at h5
  cases h5
  refine ⟨?_, ?_, h2.stack⟩
  · obtain ⟨D, hD⟩ := h2.inv; exact ⟨_, D, hD⟩
  · have hg := runSession_gen env n ps (initSt purity sig.mode)
    rw [hr] at hg
    refine Ok.tbl (show Ok false 0 0 _ s' from hg) ?_
    intro p nd hp; cases hp

theorem not_keyClean_dirty {es : List (Succ V)} {eff : Effect} {x : Loc} (h : ¬ KeyClean es eff x) {e : Succ V} (he : e ∈ es)
    (h1 : e.effect = eff) (h2 : e.loc = x) : KeyDirty es eff x := by
  obtain ⟨e', h'⟩ := find_of_mem he
  rw [h1, h2] at h'
  cases hd : e'.dirty
  · exact absurd ⟨e', h', hd⟩ h
  · exact ⟨e', h', hd⟩

/-- Edges that observe a thunk are unique, so the dirty bit of the key is the dirty bit of the edge. -/
theorem ForceFirst.unique {es : List (Succ V)} (h : ForceFirst (es.map Succ.edge)) {a b : Succ V} {eff : Effect} {x : Loc}
    (hf : es.find? (Succ.matches .observe x) = some a) (hb : b ∈ es) (hbe : b.effect = .observe) (hbx : b.loc = x)
    (hd : b.dep.isForce = true) : a = b := by
  induction es with
  | nil => cases hf
  | cons c es ih =>
    simp only [List.map_cons, ForceFirst, List.pairwise_cons] at h
    rw [List.find?_cons] at hf
    by_cases hm : c.matches .observe x = true
    · rw [hm] at hf
      cases hf
      have hm := Succ.matches_iff.1 hm
      rcases List.mem_cons.1 hb with rfl | hb
      · rfl
      · exact absurd ⟨hm.2.trans hbx.symm, hm.1, hbe, hd⟩ (h.1 b.edge (List.mem_map.2 ⟨b, hb, rfl⟩))
    · have hm' : c.matches .observe x = false := by simpa using hm
      rw [hm'] at hf
      rcases List.mem_cons.1 hb with rfl | hb
      · exact absurd (Succ.matches_iff.2 ⟨hbe, hbx⟩) hm
      · exact ih h.2 hf hb

/-- **C09.** In every state between editor programs: if some recorded dependency of thunk `p` is dirty, then every recorded
observation of `p`, by any thunk `q`, is dirty. -/
theorem C09_dirty_is_transitive (sig : Sig) (env : Env V) (ps : List (Prog V)) (vs : List V) (h : Means sig env ps vs)
    (purity : Bool) (hp : purity = true → sig.pu = true) (n : Nat) (vs' : List V) (s' : St V) (hr : runSession env n ps (initSt purity sig.mode) = .ok vs' s')
    (p q : Loc) (e e' : Succ V) (he : HasDep s'.table p e) (hd : e.dirty = true)
    (he' : HasDep s'.table q e') (hl : e'.loc = p) (ho : e'.effect = .observe) : e'.dirty = true := by
  obtain ⟨⟨σ, D, hI⟩, hS, hst⟩ := session_state sig env ps vs h purity hp n vs' s' hr
  obtain ⟨nd, hp, hm⟩ := he
  obtain ⟨nd', hq, hm'⟩ := he'
  have hkd := (hS p nd hp).2.key hm hd
  have hnc : ¬ KeyClean nd'.succs .observe p := by
    intro hc
    rcases hI.clean q nd' e' hq hm' (by rw [ho, hl]; exact hc) with h | h
    · exact h
    · unfold Good at h
      rw [show e'.edge.effect = .observe from ho, show e'.edge.loc = p from hl] at h
      simp only [hp] at h
      exact not_clean_of_dirty hkd (h.2.2 e hm)
  obtain ⟨e1, h1, h2⟩ := not_keyClean_dirty hnc hm' ho hl
  have hw := (hI.graph.edge q nd' e' hq hm').2
  have hsig : (sig.withPu purity).kind p = _ := hI.graph.wf p _ hp
  have hforce : e'.dep.isForce = true := by
    unfold EdgeWf at hw
    rw [show e'.edge.effect = .observe from ho, show e'.edge.loc = p from hl, hsig] at hw
    obtain ⟨_, w, hw⟩ := hw
    have hw : e'.dep = _ := hw
    rw [hw]; rfl
  have := (hS q nd' hq).1.unique (eff := .observe) h1 hm' ho hl hforce
  rw [← this]; exact h2

/-- **C10.** In every state between editor programs: the two directions of the graph agree, and no recorded dependency
dangles. -/
theorem C10_edge_symmetry (sig : Sig) (env : Env V) (ps : List (Prog V)) (vs : List V) (h : Means sig env ps vs)
    (purity : Bool) (hp : purity = true → sig.pu = true) (n : Nat) (vs' : List V) (s' : St V) (hr : runSession env n ps (initSt purity sig.mode) = .ok vs' s')
    (p x : Loc) (eff : Effect) :
    ((∃ e, HasDep s'.table p e ∧ e.loc = x ∧ e.effect = eff) ↔ KnowsPred s'.table x p eff) ∧
    (∀ e, HasDep s'.table p e → ∃ n, s'.table.get e.loc = some n) ∧
    (∀ e, HasDep s'.table p e → e.loc ≠ p) := by
  obtain ⟨⟨σ, D, hI⟩, hS, hst⟩ := session_state sig env ps vs h purity hp n vs' s' hr
  refine ⟨⟨?_, ?_⟩, ?_, ?_⟩
  · rintro ⟨e, ⟨nd, h1, h2⟩, rfl, rfl⟩
    obtain ⟨n, h3, h4⟩ := hI.graph.fwd p nd e h1 h2
    exact ⟨n, h3, _, h4, rfl, rfl⟩
  · rintro ⟨n, h1, q, h2, rfl, rfl⟩
    obtain ⟨nd, h3, e, h4, h5, h6, h7⟩ := hI.graph.bwd x n q h1 h2
    exact ⟨e, ⟨nd, h3, h4⟩, h5, h6⟩
  · rintro e ⟨nd, h1, h2⟩
    obtain ⟨n, h3, h4⟩ := hI.graph.fwd p nd e h1 h2
    exact ⟨n, h3⟩
  · rintro e ⟨nd, h1, h2⟩
    exact (hI.graph.edge p nd e h1 h2).1

/-- **C49.** In every state between editor programs: if no dependency of thunk `p` is dirty, then every value it observed is
the current one — what the cell holds, what the thunk has cached — and every observed thunk is itself clean. -/
theorem C49_clean_is_current (sig : Sig) (env : Env V) (ps : List (Prog V)) (vs : List V) (h : Means sig env ps vs)
    (purity : Bool) (hp : purity = true → sig.pu = true) (n : Nat) (vs' : List V) (s' : St V) (hr : runSession env n ps (initSt purity sig.mode) = .ok vs' s')
    (p : Loc) (hc : ∀ e, HasDep s'.table p e → e.dirty = false) (e : Succ V) (he : HasDep s'.table p e) (ho : e.effect = .observe) :
    (∃ v, Current s'.table e.loc v ∧ Agrees e.dep v) ∧ ∀ e', HasDep s'.table e.loc e' → e'.dirty = false := by
  obtain ⟨⟨σ, D, hI⟩, hS, hst⟩ := session_state sig env ps vs h purity hp n vs' s' hr
  obtain ⟨nd, hp, hm⟩ := he
  have hkc : KeyClean nd.succs e.effect e.loc := by
    obtain ⟨e1, h1⟩ := find_of_mem hm
    exact ⟨e1, h1, hc e1 ⟨nd, hp, List.mem_of_find?_eq_some h1⟩⟩
  have agrees : ∀ (d : Dep V) v, d.okVal v → Agrees d v := by
    intro d v hd
    cases d with
    | force ty w => cases hd; exact .force
    | forceMap ty f r => cases hd; exact .forceMap
    | allocStruct => cases hd
    | allocNom a => cases hd
    | allocCell a => cases hd
    | forceAbs => cases hd
  rcases hI.clean p nd e hp hm hkc with h | h
  · exact h.elim
  · unfold Good at h
    rw [show e.edge.effect = .observe from ho] at h
    simp only [] at h
    rcases hg : s'.table.get e.loc with _ | nt
    · rw [show s'.table.get e.edge.loc = _ from hg] at h; exact h.elim
    · rw [show s'.table.get e.edge.loc = _ from hg] at h
      match nt with
      | .pure _ => exact h.elim
      | .mut nd' =>
        refine ⟨⟨nd'.val, .inl ⟨nd', hg, rfl⟩, agrees _ _ h⟩, ?_⟩
        rintro e' ⟨nd2, h2, _⟩
        rw [hg] at h2; cases h2
      | .comp nd' =>
        obtain ⟨_, ⟨w, h1, h2⟩, h3⟩ := h
        refine ⟨⟨w, .inr ⟨nd', hg, h1⟩, agrees _ _ h2⟩, ?_⟩
        rintro e' ⟨nd2, g2, hm2⟩
        rw [hg] at g2; cases g2
        cases hd : e'.dirty
        · rfl
        · exact absurd (h3 e' hm2) (not_clean_of_dirty ((hS _ _ hg).2.key hm2 hd))

/-! ### The hypotheses are met

The example session of C01, cut before the last demand: the state has dirty edges, observed thunks, and clean thunks. -/
namespace Example1

def psEdit : List (Prog Nat) := ps.take 2 ++ [.set 0 (at_ 0) 0 (.ret 0)]

example : Means sig env psEdit [1009, 1009, 0] := ⟨10, _, rfl⟩
/-- After the edit, the inner thunk's edge is dirty and so is the outer thunk's edge that observes it. -/
example : (match runSession env 10 psEdit (initSt true false) with
    | .ok _ s => (match s.table.get inner, s.table.get (at_ 2) with
      | some (.comp a), some (.comp b) => (a.succs.map (·.dirty), b.succs.map fun e => (decide (e.loc = inner ∧ e.effect = .observe), e.dirty))
      | _, _ => ([], []))
    | _ => ([], [])) = ([true], [(false, false), (true, true), (false, false)]) := by decide +kernel

end Example1
end Adapton
