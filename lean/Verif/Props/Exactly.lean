import Verif.Props.OnlyDemanded
import Verif.Engine.Reuse
/-
C105: exactly which thunks a demand runs.  C66 lists the causes of a run; here every cause is shown to be sufficient: among the thunks that the demand uses, exactly those are run that had no cached
result, were allocated again with another argument, have observed a value that is another one now, or have allocated something that was overwritten.
-/
set_option linter.unusedSectionVars false
set_option linter.unusedVariables false
set_option linter.unusedSimpArgs false
namespace Adapton
open Ref (Sig Kind Store ES Means Ext)
variable {V : Type} [DecidableEq V]

/-! ### Specification -/

/-- The thunk `x` is new, or has no cached result. -/
def Unevaluated (s : St V) (x : Loc) : Prop := ∀ nd, s.table.get x = some (.comp nd) → nd.res = none

/-- `x` was allocated again, with another argument. -/
def Reallocated (s s' : St V) (x : Loc) : Prop := s.contentAt x ≠ s'.contentAt x

/-- The last run of `x` has observed a value that is another one now. -/
def SawOther (s s' : St V) (x : Loc) : Prop :=
  ∃ nd e w, s.table.get x = some (.comp nd) ∧ e ∈ nd.succs ∧ e.effect = .observe ∧ s'.value e.loc = some w ∧ Differs e w

/-- The last run of `x` has allocated, as a cell or as a thunk with a name, something that is flagged as overwritten, or overwritten in this demand. -/
def Overwritten (s s' : St V) (x : Loc) : Prop :=
  ∃ nd e, s.table.get x = some (.comp nd) ∧ e ∈ nd.succs ∧ e.effect = .allocate ∧ e.dep.named ∧
    (KeyDirty nd.succs .allocate e.loc ∨ s.contentAt e.loc ≠ s'.contentAt e.loc)

/-- Some cause to run `x`. -/
def HasCause (s s' : St V) (x : Loc) : Prop := Unevaluated s x ∨ Reallocated s s' x ∨ SawOther s s' x ∨ Overwritten s s' x

/-- Every allocation of the last run of `x` was one of a cell, or of a thunk with a name. -/
def NamesAll (s : St V) (x : Loc) : Prop :=
  ∀ nd e, s.table.get x = some (.comp nd) → e ∈ nd.succs → e.effect = .allocate → e.dep.named

/-! ### Proof -/

section
variable {sig : Sig} {env : Env V} {s s' : St V} {σ0 σ' : Store V} {D0 D' : Loc → Prop} {rs : List Loc}

/-- What a settled thunk has observed is settled. -/
theorem Leads.settled (hI' : Inv sig env s' σ' D') {l x : Loc} (hl : Leads s' l x) : (∀ ty pp fn, sig l = .thunk ty pp fn → D' l) →
    ∀ ty pp fn, sig x = .thunk ty pp fn → D' x := by
  intro h0
  induction hl with
  | self => exact h0
  | @via x y nd e _ h1 h2 h3 h4 ih =>
    intro ty pp fn hk
    have hx := ih _ _ _ (hI'.thunkKind h1)
    obtain ⟨nd', k1, _, _, _, _, k6⟩ := hI'.settled x hx
    rw [h1] at k1; cases k1
    obtain ⟨c, _, j2⟩ := k6 e h2
    rw [show e.edge.effect = e.effect from rfl, h3] at j2
    simp only at j2
    rw [show sig e.edge.loc = .thunk ty pp fn by rw [← hk, ← h4]; rfl] at j2
    rw [← h4]
    exact j2.1

theorem Inv.contentAt (hI : Inv sig env s σ0 D0) {y : Loc} {c : V} (h : σ0 y = some c) : s.contentAt y = some c := by
  obtain ⟨n, g1, g2⟩ := hI.store y c h
  unfold St.contentAt
  rw [g1]
  cases n <;> exact g2

/-- The value of what an edge in order has observed agrees with the edge. -/
theorem EdgeOK.value (hI : Inv sig env s σ0 D0) {e : Succ V} (he : e.effect = .observe) (h : EdgeOK sig s.table σ0 D0 e.edge) {w : V}
    (hw : s.value e.loc = some w) : e.dep.okVal w := by
  obtain ⟨c, h1, h2⟩ := h
  rw [show e.edge.effect = e.effect from rfl, he] at h2
  simp only at h2
  unfold St.value at hw
  cases hk : sig e.edge.loc with
  | cell ty =>
    rw [hk] at h2
    obtain ⟨n, j1, j2⟩ := hI.store _ c h1
    rw [show s.table.get e.loc = some n from j1] at hw
    match n with
    | .mut nd => cases hw; cases j2; exact h2
    | .pure nd => cases hw; cases j2; exact h2
    | .comp nd => have := hI.thunkKind j1; rw [hk] at this; cases this
  | thunk ty pp fn =>
    rw [hk] at h2
    obtain ⟨_, nd, w', j1, j2, j3⟩ := h2
    rw [show s.table.get e.loc = some (.comp nd) from j1] at hw
    simp only at hw
    rw [j2] at hw; cases hw
    exact j3

theorem not_differs_of_ok {e : Succ V} {w : V} (h : e.dep.okVal w) : ¬ Differs e w := by
  unfold Differs
  cases hd : e.dep <;> rw [hd] at h <;> first | exact fun hn => hn h | exact h.elim

/-- All allocations of `z` are of the same kind. -/
theorem named_all (hI : Inv sig env s σ0 D0) {x : Loc} {nd : CompNode V} {e : Succ V} (hg : s.table.get x = some (.comp nd)) (he : e ∈ nd.succs)
    (ha : e.effect = .allocate) (hn : e.dep.named) : ∀ e' ∈ nd.succs, e'.effect = .allocate → e'.loc = e.loc → e'.dep.named := by
  intro e' he' ha' hl
  have h1 := (hI.graph.edge x nd e hg he).2.2
  have h2 := (hI.graph.edge x nd e' hg he').2.2
  rw [show e.edge.effect = e.effect from rfl, ha] at h1
  rw [show e'.edge.effect = e'.effect from rfl, ha', show e'.edge.loc = e.edge.loc from hl] at h2
  cases hk : sig e.edge.loc with
  | cell ty =>
    rw [hk] at h1 h2
    obtain ⟨v, hv⟩ := h2
    rw [show e'.dep = _ from hv]; trivial
  | thunk ty pp fn =>
    rw [hk] at h1 h2
    simp only at h1 h2
    by_cases hs : e.edge.loc.isStruct = true
    · rw [if_pos hs] at h1
      rw [show e.dep = _ from h1] at hn
      exact hn.elim
    · rw [if_neg hs] at h2
      obtain ⟨a, hv⟩ := h2
      rw [show e'.dep = _ from hv]; trivial

/-- Every cause is sufficient. -/
theorem must_run (hI : Inv sig env s σ0 D0) (hI' : Inv sig env s' σ' D') {x : Loc} (hx : D' x)
    (hk : x ∉ rs → ∀ nd', s'.table.get x = some (.comp nd') → nd'.res ≠ none → ∃ nd, s.table.get x = some (.comp nd) ∧ Reused nd nd') (hc : HasCause s s' x) : x ∈ rs := by
  refine Classical.byContradiction fun hn => ?_
  obtain ⟨nd', k1, k2, k3, k4, k5, k6⟩ := hI'.settled x hx
  obtain ⟨nd, g1, g2⟩ := hk hn nd' k1 k4
  have hedge : ∀ e ∈ nd.succs, EdgeOK sig s'.table σ' D' e.edge := by
    intro e he
    have : e.edge ∈ nd'.succs.map Succ.edge := by rw [g2.edges]; exact List.mem_map_of_mem he
    obtain ⟨e', j1, j2⟩ := List.mem_map.1 this
    rw [← j2]
    exact k6 e' j1
  rcases hc with hc | hc | ⟨nd0, e, w, c1, c2, c3, c4, c5⟩ | ⟨nd0, e, c1, c2, c3, c4, c5⟩
  · exact k4 (by rw [g2.res]; exact hc nd g1)
  · refine hc ?_
    unfold St.contentAt
    rw [g1, k1]
    simp only [g2.arg]
  · rw [g1] at c1; cases c1
    exact not_differs_of_ok ((hedge e c2).value hI' c3 c4) c5
  · rw [g1] at c1; cases c1
    have hnd : ¬ KeyDirty nd.succs .allocate e.loc := by
      intro hd
      obtain ⟨f, f1, f2⟩ := g2.flags e.loc (named_all hI g1 c2 c3 c4) hd
      have hm := Succ.matches_iff.1 (List.find?_some f1)
      have := k5 f (List.mem_of_find?_eq_some f1)
      rw [hm.1, hm.2] at this
      exact not_clean_of_dirty ⟨f, f1, f2⟩ this
    rcases c5 with c5 | c5
    · exact hnd c5
    · rcases key_cases c2 with hcl | hd
      · have hgood := hI.clean x nd e g1 c2 hcl
        rcases hgood with h0 | hgood
        · exact h0
        unfold Good at hgood
        rw [show e.edge.effect = e.effect from rfl, c3] at hgood
        obtain ⟨n, c, a1, a2, a3⟩ := hgood
        obtain ⟨c', b1, b2⟩ := hedge e c2
        rw [show e.edge.effect = e.effect from rfl, c3] at b2
        have hcc : c = c' := by
          have a3 : e.dep.allocOk c := a3
          have b2 : e.dep.allocOk c' := b2
          rcases hdep : e.dep with _ | w | w | _ | _ | _ <;> rw [hdep] at a3 b2 c4 <;> first | exact c4.elim | exact Eq.trans (Eq.symm a3) b2
        subst hcc
        refine c5 ?_
        rw [hI'.contentAt (y := e.loc) b1]
        unfold St.contentAt
        rw [show s.table.get e.loc = some n from a1]
        cases n <;> exact a2
      · rw [c3] at hd
        exact hnd hd

/-- Every run has a cause. -/
theorem RunsOK.hasCause (h : RunsOK sig s D0 s' σ' D' rs) (hI : Inv sig env s σ0 D0) (hI' : Inv sig env s' σ' D') {x : Loc} (hx : x ∈ rs)
    (hnm : NamesAll s x) : HasCause s s' x := by
  rcases hg : s.table.get x with _ | n
  · exact .inl (fun nd hn => by rw [hg] at hn; cases hn)
  obtain ⟨nd', k1, k2, k3, _⟩ := hI'.settled x (h.once x hx).2.1
  match n with
  | .mut nd => exact .inl (fun nd hn => by rw [hg] at hn; cases hn)
  | .pure nd => exact .inl (fun nd hn => by rw [hg] at hn; cases hn)
  | .comp nd =>
  rcases h.why x hx nd hg with h0 | h0 | ⟨e, he, ⟨h1, h2⟩ | ⟨h1, h2⟩⟩
  · exact .inl (fun nd' hn => by rw [hg] at hn; cases hn; exact h0)
  · refine .inr (.inl ?_)
    cases hv : σ' x with
    | none => exact absurd hv k3
    | some a =>
      unfold Reallocated
      rw [hI'.contentAt hv, ← hv]
      unfold St.contentAt
      rw [hg]
      exact fun h => h0 h.symm
  · refine .inr (.inr (.inl ?_))
    obtain ⟨c, g1, g2⟩ := h2
    have hval : ∃ w, s'.value e.loc = some w ∧ ¬ e.dep.okVal w := by
      cases hk : sig e.edge.loc with
      | cell ty =>
        rw [hk] at g2
        refine ⟨c, ?_, g2⟩
        obtain ⟨n, j1, j2⟩ := hI'.store _ c g1
        have j1 : s'.table.get e.loc = some n := j1
        unfold St.value
        rw [j1]
        match n with
        | .mut nd => exact j2
        | .pure nd => exact j2
        | .comp nd => have := hI'.thunkKind j1; rw [show sig e.loc = _ from hk] at this; cases this
      | thunk ty pp fn =>
        rw [hk] at g2
        obtain ⟨_, nd2, w, j1, j2, j3⟩ := g2
        have j1 : s'.table.get e.loc = _ := j1
        refine ⟨w, ?_, j3⟩
        unfold St.value
        rw [j1]; exact j2
    obtain ⟨w, j1, j2⟩ := hval
    exact ⟨nd, e, w, hg, he, h1, j1, differs_of_not_ok j2⟩
  · refine .inr (.inr (.inr ⟨nd, e, hg, he, h1, hnm nd e hg he h1, ?_⟩))
    rcases h2 with h2 | ⟨n, c, g1, g2, g3⟩
    · exact .inl h2
    · refine .inr ?_
      rw [hI'.contentAt g2]
      unfold St.contentAt
      rw [g1]
      match n with
      | .mut nd => exact g3
      | .pure nd => exact g3
      | .comp nd => exact g3
end

/-! ### Theorems -/

/-- **C105.** A cached result comes from a run, whatever the program and whatever the state: a thunk that holds a result after an execution and was not run in it was there before, with the same
function and argument, the same result and the same recorded dependencies. -/
theorem C105_cached_results_come_from_runs {U : Type} [UEq U] (env : Env U) (n : Nat) (p : Prog U) (s s' : St U) (v : U) (h : exec env n p s = .ok v s') :
    ∃ rs, s'.runs = rs ++ s.runs ∧ ∀ x, x ∉ rs → ∀ nd', s'.table.get x = some (.comp nd') → nd'.res ≠ none →
      ∃ nd, s.table.get x = some (.comp nd) ∧ nd'.fn = nd.fn ∧ nd'.arg = nd.arg ∧ nd'.res = nd.res ∧ nd'.succs.map Succ.edge = nd.succs.map Succ.edge := by
  obtain ⟨rs, h1⟩ := (exec_rekeeps env ⟨.empty, .structural 0⟩ n p s v s' h).runs
  refine ⟨rs, h1, fun x hx nd' h2 h3 => ?_⟩
  obtain ⟨rs', k1, k2⟩ := exec_rekeeps env x n p s v s' h
  rw [h1] at k1
  have := List.append_cancel_right k1
  subst this
  obtain ⟨nd, g1, g2⟩ := k2 hx nd' h2 h3
  exact ⟨nd, g1, g2.fn, g2.arg, g2.res, g2.edges⟩

theorem runSession_rekeeps {U : Type} [UEq U] (env : Env U) (y : Loc) (n : Nat) : ∀ (ps : List (Prog U)), ReKeeps y (runSession env n ps) := by
  intro ps
  induction ps with
  | nil => exact ReKeeps.pure _ _
  | cons p ps ih => exact ReKeeps.bind (exec_rekeeps env y n p) fun v => ReKeeps.bind ih fun vs => ReKeeps.pure _ _

/-- **C105.** In a new engine, whatever the programs: every cached result was computed by a run of the thunk that holds it. -/
theorem C105_every_result_was_computed {U : Type} [UEq U] (env : Env U) (n : Nat) (ps : List (Prog U)) (purity ignoreNominal : Bool) (vs : List U) (s : St U)
    (h : runSession env n ps (initSt purity ignoreNominal) = .ok vs s) (x : Loc) (nd : CompNode U) (hx : s.table.get x = some (.comp nd)) (hr : nd.res ≠ none) : x ∈ s.runs := by
  refine Classical.byContradiction fun hn => ?_
  obtain ⟨rs, k1, k2⟩ := runSession_rekeeps env x n ps _ _ _ h
  have k1 : s.runs = rs ++ [] := k1
  rw [List.append_nil] at k1
  rw [k1] at hn
  obtain ⟨nd0, g, _⟩ := k2 hn nd hx hr
  cases g

/-- **C105.** Let a session `ps` followed by a demand of the thunk `l` have a meaning.  Then, of the thunks that the demand uses (those linked to `l` by the observations recorded after it), the demand
runs every one with a cause to be run. -/
theorem C105_every_cause_is_sufficient (sig : Sig) (env : Env V) (ps : List (Prog V)) (ty : Ty) (l : Loc) (cyc : Option V) (us : List V)
    (h : Means sig env (ps ++ [.force ty l cyc .ret]) us) (purity : Bool) (hp : purity = true → sig.pu = true)
    (n m : Nat) (vs : List V) (v : V) (s s' : St V)
    (hr : runSession env n ps (initSt purity sig.mode) = .ok vs s) (hf : exec env m (.force ty l cyc .ret) s = .ok v s') :
    ∃ rs, s'.runs = rs ++ s.runs ∧ ∀ x nd', Leads s' l x → s'.table.get x = some (.comp nd') → HasCause s s' x → x ∈ rs := by
  obtain ⟨σ0, D0, σ2, D2, rs, h2, h3, h4, _, _, h6⟩ := demand_ran sig env ps ty l cyc us h purity hp n m vs v s s' hr hf
  refine ⟨rs, h4.runs, fun x nd' hl hx hc => ?_⟩
  have hD : D2 x := hl.settled h3 (fun _ _ _ hk => (h6 _ _ _ hk).1) _ _ _ (h3.thunkKind hx)
  obtain ⟨rs', k1, k2⟩ := exec_rekeeps env x m _ s v s' hf
  rw [h4.runs] at k1
  have := List.append_cancel_right k1
  subst this
  exact must_run h2 h3 hD k2 hc

/-- **C105.** Exactly: a thunk that the demand uses, and whose last run has allocated only cells and thunks with names, is run if and only if it has a cause. -/
theorem C105_exactly_those_with_a_cause (sig : Sig) (env : Env V) (ps : List (Prog V)) (ty : Ty) (l : Loc) (cyc : Option V) (us : List V)
    (h : Means sig env (ps ++ [.force ty l cyc .ret]) us) (purity : Bool) (hp : purity = true → sig.pu = true)
    (n m : Nat) (vs : List V) (v : V) (s s' : St V)
    (hr : runSession env n ps (initSt purity sig.mode) = .ok vs s) (hf : exec env m (.force ty l cyc .ret) s = .ok v s') :
    ∃ rs, s'.runs = rs ++ s.runs ∧ ∀ x nd', Leads s' l x → s'.table.get x = some (.comp nd') → NamesAll s x → (x ∈ rs ↔ HasCause s s' x) := by
  obtain ⟨σ0, D0, σ2, D2, rs, h2, h3, h4, _, _, h6⟩ := demand_ran sig env ps ty l cyc us h purity hp n m vs v s s' hr hf
  obtain ⟨rs', k1, k2⟩ := C105_every_cause_is_sufficient sig env ps ty l cyc us h purity hp n m vs v s s' hr hf
  rw [h4.runs] at k1
  have := List.append_cancel_right k1
  subst this
  exact ⟨rs, h4.runs, fun x nd' hl hx hn => ⟨fun hm => h4.hasCause h2 h3 hm hn, k2 x nd' hl hx⟩⟩

/-- **C105.** Without the purity optimisation the runs of a demand are described completely: it runs, once each, the thunks that it uses and that have a cause. -/
theorem C105_the_runs_of_a_demand (sig : Sig) (env : Env V) (ps : List (Prog V)) (ty : Ty) (l : Loc) (cyc : Option V) (us : List V)
    (h : Means sig env (ps ++ [.force ty l cyc .ret]) us)
    (n m : Nat) (vs : List V) (v : V) (s s' : St V)
    (hr : runSession env n ps (initSt false sig.mode) = .ok vs s) (hf : exec env m (.force ty l cyc .ret) s = .ok v s') :
    ∃ rs, s'.runs = rs ++ s.runs ∧ rs.Nodup ∧
      ∀ x, NamesAll s x → (x ∈ rs ↔ Leads s' l x ∧ (∃ nd', s'.table.get x = some (.comp nd')) ∧ HasCause s s' x) := by
  have hp : false = true → sig.pu = true := fun h => by cases h
  obtain ⟨σ0, D0, σ2, D2, rs, h2, h3, h4, _, _, h6⟩ := demand_ran sig env ps ty l cyc us h false hp n m vs v s s' hr hf
  obtain ⟨rs', k1, k2⟩ := C105_exactly_those_with_a_cause sig env ps ty l cyc us h false hp n m vs v s s' hr hf
  rw [h4.runs] at k1
  have := List.append_cancel_right k1
  subst this
  obtain ⟨rs', q1, q2⟩ := C86_only_what_is_used_is_run sig env ps ty l cyc us h false hp n m vs v s s' hr hf
  rw [h4.runs] at q1
  have := List.append_cancel_right q1
  subst this
  refine ⟨rs, h4.runs, h4.nodup, fun x hx => ⟨fun hm => ?_, fun ⟨hl, ⟨nd', hn⟩, hc⟩ => (k2 x nd' hl hn hx).2 hc⟩⟩
  obtain ⟨nd', g1, _⟩ := h3.settled x (h4.once x hm).2.1
  rcases q2 x hm with hl | ⟨h0, _⟩
  · exact ⟨hl, ⟨nd', g1⟩, (k2 x nd' hl g1 hx).1 hm⟩
  · cases h0

/-! ### Instances -/

open DivEx in
/-- The division example, every history: what `check` uses, and has a cause to be run, is run. -/
theorem C105_division_example (a b : Nat) (ops : List Op) (purity : Bool)
    (n m : Nat) (vs : List (Option Nat)) (v : Option Nat) (s s' : St (Option Nat))
    (hr : runSession env n (start a b :: ops.map Op.prog) (initSt purity false) = .ok vs s)
    (hf : exec env m Op.check.prog s = .ok v s') :
    ∃ rs, s'.runs = rs ++ s.runs ∧ ∀ x nd', Leads s' check x → s'.table.get x = some (.comp nd') → NamesAll s x → (x ∈ rs ↔ HasCause s s' x) := by
  have hm : Means sig env ((start a b :: ops.map Op.prog) ++ [.force 0 check none .ret]) (none :: answers a b (ops ++ [.check])) := by
    have := means a b (ops ++ [.check])
    rw [List.map_append] at this
    exact ⟨2, _, this⟩
  exact C105_exactly_those_with_a_cause sig env _ 0 check none _ hm purity (fun _ => rfl) n m vs v s s' hr hf

/-! In the session of C66 (`RerunEx`), all five thunks are used by the demand, and their last runs have allocated nothing; `shared` (1) has observed another value of the cell, `left` (2) and `sign` (5)
another value of `shared`, `top` (4) another value of `left`; `right` (3) has no cause. -/
namespace RerunEx

/-- The edges of a thunk. -/
def succsAt (s : St Nat) (x : Loc) : List (Loc × Effect × Bool) :=
  match s.table.get x with
  | some (.comp nd) => nd.succs.map fun e => (e.loc, e.effect, match e.dep with | .force _ v => decide (st'.value e.loc = some v) | _ => false)
  | _ => []

/-- What was observed, and whether the observed value is still the same. -/
example : [1, 2, 3, 4, 5].map (fun k => succsAt st (at_ k)) =
    [[(at_ 0, .observe, false)], [(at_ 1, .observe, false)], [(at_ 5, .observe, true)], [(at_ 3, .observe, true), (at_ 2, .observe, false)], [(at_ 1, .observe, false)]] := by decide +kernel
example : [1, 2, 3, 4, 5].map (fun k => decide (at_ k ∈ [at_ 4, at_ 2, at_ 5, at_ 1])) = [true, true, false, true, true] := by decide +kernel

end RerunEx

/-! The last cause: two thunks allocate the same cell, with contents 3 and 4; a third one uses the first or the second of them, depending on a switch.  When the switch is turned back, the first one is used
again: its argument has not changed, and it has observed nothing, but its allocation was overwritten; it is run again, and puts the 3 back. -/
namespace OverwriteEx

def nm (n : Nat) : Name := ⟨0, .usize n⟩
def at_ (n : Nat) : Loc := ⟨.empty, .nominal (nm n)⟩
def code : FnId → Nat → Prog Nat
  | 1, _ => .cell 0 (nm 7) 3 fun _ => .ret 30
  | 2, _ => .cell 0 (nm 7) 4 fun _ => .ret 40
  | _, _ => .force 0 (at_ 0) none fun x => if x = 0 then .force 0 (at_ 1) none .ret else .force 0 (at_ 2) none .ret
def env : Env Nat := ⟨code, fun _ => 0, fun _ _ => 0⟩
def sig : Sig := { kind := fun l => if l = at_ 0 ∨ l = at_ 7 then .cell 0 else if l = at_ 1 then .thunk 0 1 1 else if l = at_ 2 then .thunk 0 2 2 else .thunk 0 3 3 }
def demand : Prog Nat := .force 0 (at_ 3) none .ret
def ps : List (Prog Nat) :=
  [.cell 0 (nm 0) 0 fun _ => .thunk 0 (.nominal (nm 1)) 1 1 0 fun _ => .thunk 0 (.nominal (nm 2)) 2 2 0 fun _ => .thunk 0 (.nominal (nm 3)) 3 3 0 fun _ => demand,
   .set 0 (at_ 0) 1 demand, .set 0 (at_ 0) 0 (.ret 0)]

theorem means : Means sig env (ps ++ [demand]) [30, 40, 0, 30] :=
  ⟨9, ((Ref.session sig env 9 (ps ++ [demand]) Ref.emptyES).getD (Ref.emptyES, [])).1, rfl⟩

def st : St Nat := match runSession env 10 ps (initSt false false) with | .ok _ s => s | _ => initSt false false
def st' : St Nat := match exec env 10 demand st with | .ok _ s => s | _ => st

/-- The edges of a thunk: target, effect, flag. -/
def edges (s : St Nat) (x : Loc) : List (Loc × Effect × Bool) :=
  match s.table.get x with
  | some (.comp nd) => nd.succs.map fun e => (e.loc, e.effect, e.dirty)
  | _ => []

/-- Before the demand, the allocation of the first thunk is flagged; that of the second one is not. -/
example : (edges st (at_ 1), edges st (at_ 2)) = ([(at_ 7, .allocate, true)], [(at_ 7, .allocate, false)]) := by decide +kernel
/-- The demand runs the first thunk and the one that chooses, and not the second thunk. -/
example : st'.runs = [at_ 1, at_ 3] ++ st.runs := by decide +kernel
example : (st.contentAt (at_ 7), st'.contentAt (at_ 7)) = (some 4, some 3) := by decide +kernel

/-- All three thunks hold a result, and all three are among the runs of the session. -/
example : [1, 2, 3].map (fun k => (st.value (at_ k), decide (at_ k ∈ st.runs))) = [(some 30, true), (some 40, true), (some 40, true)] := by decide +kernel

end OverwriteEx

end Adapton
