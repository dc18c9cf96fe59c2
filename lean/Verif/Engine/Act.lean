import Verif.Props.Consistency
import Verif.Props.Dirtying
/-
A more permissive meaning of editor programs than `Ref.evalEd`.  The editor has one store: what is there now.  Editing a location leaves the rest of the store as it is; at any moment any part of the
store may be forgotten (what was allocated by thunks that the edit has made out of date, for example), except what is identified structurally.  Every way of reading a session in this semantics is
what the engine does.
-/
set_option linter.unusedSectionVars false
set_option linter.unusedVariables false
namespace Adapton
open Ref (Sig Kind Store Ext upd ES SigLe)
variable {V : Type} [DecidableEq V]

/-! ### Specification -/

/-- `Act sig env m π p σ v τ`: the editor may run `p` (in naming mode `m` and namespace `π`) from the store `σ`, to the result `v` and the store `τ`.  A thunk is forced by evaluating it from
scratch in the store (`Ref.recN`, the reference semantics of C01). -/
inductive Act (sig : Sig) (env : Env V) : Bool → Path → Prog V → Store V → V → Store V → Prop
  | forget {m π p σ σ' v τ} : Ext σ' σ → Ref.SameS σ' σ → Act sig env m π p σ' v τ → Act sig env m π p σ v τ
  | ret {m π v σ} : Act sig env m π (.ret v) σ v σ
  | forceCell {m π ty l cyc k σ c v τ} : sig l = .cell ty → σ l = some c → Act sig env m π (k c) σ v τ → Act sig env m π (.force ty l cyc k) σ v τ
  | forceThunk {m π ty l cyc k σ pp fn n σ' c v τ} : sig l = .thunk ty pp fn → m = sig.mode → (Ref.recN sig env n).frc [] σ l = some (σ', c) → Act sig env m π (k c) σ' v τ →
      Act sig env m π (.force ty l cyc k) σ v τ
  | mapCell {m π ty l f k σ c v τ} : sig l = .cell ty → σ l = some c → Act sig env m π (k (f c)) σ v τ → Act sig env m π (.forceMap ty l f k) σ v τ
  | mapThunk {m π ty l f k σ pp fn n σ' c v τ} : sig l = .thunk ty pp fn → m = sig.mode → (Ref.recN sig env n).frc [] σ l = some (σ', c) → Act sig env m π (k (f c)) σ' v τ →
      Act sig env m π (.forceMap ty l f k) σ v τ
  | absCell {m π ty l f k σ c v τ} : sig l = .cell ty → σ l = some c → Act sig env m π (k (f c)) σ v τ → Act sig env m π (.forceAbs ty l f k) σ v τ
  | absThunk {m π ty l f k σ pp fn n σ' c v τ} : sig l = .thunk ty pp fn → m = sig.mode → (Ref.recN sig env n).frc [] σ l = some (σ', c) → Act sig env m π (k (f c)) σ' v τ →
      Act sig env m π (.forceAbs ty l f k) σ v τ
  | cell {m π ty n c k σ v τ} : sig (Ref.cellLoc env m π n c) = .cell ty →
      ((Ref.cellLoc env m π n c).isStruct = true → σ (Ref.cellLoc env m π n c) = none ∨ σ (Ref.cellLoc env m π n c) = some c) →
      Act sig env m π (k (Ref.cellLoc env m π n c)) (upd σ (Ref.cellLoc env m π n c) c) v τ → Act sig env m π (.cell ty n c k) σ v τ
  | thunk {m π ty nc pp fn arg l k σ v τ} : Ref.thunkLoc env m π nc pp arg = some l → sig l = .thunk ty pp fn → (l.isStruct = true → σ l = none ∨ σ l = some arg) →
      Act sig env m π (k l) (upd σ l arg) v τ → Act sig env m π (.thunk ty nc pp fn arg k) σ v τ
  | set {m π ty l c k σ v τ} : sig l = .cell ty → σ l ≠ none → l.isStruct = false → Act sig env m π k (upd σ l c) v τ → Act sig env m π (.set ty l c k) σ v τ
  | ns {m π n body k σ w σ' v τ} : Act sig env m (.child π n) body σ w σ' → Act sig env m π (k w) σ' v τ → Act sig env m π (.ns n body k) σ v τ
  | structural {m π body k σ w σ' v τ} : Act sig env true π body σ w σ' → Act sig env m π (k w) σ' v τ → Act sig env m π (.structural body k) σ v τ
  | call {m π fn arg k σ w σ' v τ} : Act sig env m π (env.code fn arg) σ w σ' → Act sig env m π (k w) σ' v τ → Act sig env m π (.call fn arg k) σ v τ

/-- A session: one program after the other. -/
inductive Acts (sig : Sig) (env : Env V) : List (Prog V) → Store V → List V → Store V → Prop
  | nil {σ} : Acts sig env [] σ [] σ
  | cons {p ps σ v σ' vs τ} : Act sig env sig.mode .empty p σ v σ' → Acts sig env ps σ' vs τ → Acts sig env (p :: ps) σ (v :: vs) τ

/-! ### Larger signatures -/

theorem Act.le {sig sig' : Sig} (hs : SigLe sig sig') {env : Env V} {m π p} {σ τ : Store V} {v : V} (h : Act sig env m π p σ v τ) : Act sig' env m π p σ v τ := by
  have hk : ∀ l, sig' l = sig l := hs.kind
  induction h with
  | forget h1 h2 _ ih => exact .forget h1 h2 ih
  | ret => exact .ret
  | forceCell h1 h2 _ ih => exact .forceCell ((hk _).trans h1) h2 ih
  | @forceThunk m π ty l cyc k σ pp fn n σ' c v τ h1 h2 h3 _ ih =>
    exact .forceThunk ((hk _).trans h1) (h2.trans hs.mode.symm) ((Ref.recN_le hs env n 0).frc _ [] _ _ _ h3 (fun _ h => h)) ih
  | mapCell h1 h2 _ ih => exact .mapCell ((hk _).trans h1) h2 ih
  | @mapThunk m π ty l f k σ pp fn n σ' c v τ h1 h2 h3 _ ih =>
    exact .mapThunk ((hk _).trans h1) (h2.trans hs.mode.symm) ((Ref.recN_le hs env n 0).frc _ [] _ _ _ h3 (fun _ h => h)) ih
  | absCell h1 h2 _ ih => exact .absCell ((hk _).trans h1) h2 ih
  | @absThunk m π ty l f k σ pp fn n σ' c v τ h1 h2 h3 _ ih =>
    exact .absThunk ((hk _).trans h1) (h2.trans hs.mode.symm) ((Ref.recN_le hs env n 0).frc _ [] _ _ _ h3 (fun _ h => h)) ih
  | cell h1 h2 _ ih => exact .cell ((hk _).trans h1) h2 ih
  | thunk h1 h2 h3 _ ih => exact .thunk h1 ((hk _).trans h2) h3 ih
  | set h1 h2 h3 _ ih => exact .set ((hk _).trans h1) h2 h3 ih
  | ns _ _ i1 i2 => exact .ns i1 i2
  | structural _ _ i1 i2 => exact .structural i1 i2
  | call _ _ i1 i2 => exact .call i1 i2

theorem Acts.le {sig sig' : Sig} (hs : SigLe sig sig') {env : Env V} {ps} {σ τ : Store V} {vs : List V} (h : Acts sig env ps σ vs τ) : Acts sig' env ps σ vs τ := by
  induction h with
  | nil => exact .nil
  | cons h1 _ ih => exact .cons (by rw [show sig'.mode = sig.mode from hs.mode]; exact h1.le hs) ih

theorem Acts.append {sig : Sig} {env : Env V} {ps qs} {σ σ' τ : Store V} {vs us : List V} (h : Acts sig env ps σ vs σ') (h' : Acts sig env qs σ' us τ) : Acts sig env (ps ++ qs) σ (vs ++ us) τ := by
  induction h with
  | nil => exact h'
  | cons h1 _ ih => exact .cons h1 (ih h')

/-! ### The engine -/

variable {sig : Sig} {env : Env V} {s : St V} {σ τ : Store V}

/-- The engine state agrees with the store. -/
theorem EInv.forget {e : ES V} (h : EInv sig env s e) (hs : Ext σ e.cur) (hss : Ref.SameS σ e.cur) : EInv sig env s ⟨σ, σ⟩ := by
  obtain ⟨D, hI⟩ := h.inv
  exact ⟨⟨_, hI.shrink hs hss⟩, Ext.refl _, fun _ _ => rfl, h.stack⟩

theorem edit_same (l : Loc) (v : V) : Ref.edit (⟨σ, σ⟩ : ES V) l v = ⟨upd σ l v, upd σ l v⟩ := by
  rw [Ref.edit_dec]
  by_cases h : σ l = none ∨ σ l = some v <;> simp [h]

theorem mayEdit_same {l : Loc} {v : V} (h : l.isStruct = true → σ l = none ∨ σ l = some v) : Ref.mayEdit (⟨σ, σ⟩ : ES V) l v = true := by
  unfold Ref.mayEdit
  cases hl : l.isStruct
  · rfl
  · rcases h hl with h | h <;> simp [h, ueq_eq]

theorem demand_cell {R : Ref.Rec V} {m : Bool} {ty : Ty} {l : Loc} {c : V} (h1 : sig l = .cell ty) (h2 : σ l = some c) : Ref.demand sig R m ty l ⟨σ, σ⟩ = some (⟨σ, σ⟩, c) := by
  simp [Ref.demand, h1, h2]

theorem demand_thunk {R : Ref.Rec V} {m : Bool} {ty : Ty} {l : Loc} {pp fn} {c : V} {σ' : Store V} (h1 : sig l = .thunk ty pp fn) (h2 : m = sig.mode) (h3 : R.frc [] σ l = some (σ', c)) :
    Ref.demand sig R m ty l ⟨σ, σ⟩ = some (⟨Ref.keepStruct σ σ', σ'⟩, c) := by
  simp [Ref.demand, h1, h2, Ref.editorForce, h3]

theorem force_of_demand {n : Nat} {m : Bool} {ty : Ty} {l : Loc} {c : V} {e : ES V} (hd : Ref.demand sig (Ref.recN sig env n) m ty l ⟨σ, σ⟩ = some (e, c)) (h : EInv sig env s ⟨σ, σ⟩)
    (hi : s.ignoreNominal = m) (cyc : Option V) :
    ∃ s', Runs env (fun R => opForce R ty l cyc) s c s' ∧ EInv sig env s' ⟨e.cur, e.cur⟩ ∧ s'.path = s.path ∧ s'.ignoreNominal = s.ignoreNominal := by
  obtain ⟨s1, a1, a2, a3, a4⟩ := (editor_demand hd h hi).2 cyc
  exact ⟨s1, a1, a2.forget (Ext.refl _) (fun _ _ => rfl), a3, a4⟩

theorem map_of_demand {n : Nat} {m : Bool} {ty : Ty} {l : Loc} {c : V} {e : ES V} {f : V → V} (hd : Ref.demand sig (Ref.recN sig env n) m ty l ⟨σ, σ⟩ = some (e, c)) (h : EInv sig env s ⟨σ, σ⟩)
    (hi : s.ignoreNominal = m) :
    ∃ s', Runs env (fun R => opForceMap R ty l f) s (f c) s' ∧ EInv sig env s' ⟨e.cur, e.cur⟩ ∧ s'.path = s.path ∧ s'.ignoreNominal = s.ignoreNominal := by
  obtain ⟨s1, ⟨N, a1⟩, a2, a3, a4, _⟩ := editor_step_paid (n := n) (callE := fun _ _ _ _ _ => none) (fun _ _ _ _ _ _ _ _ h => by cases h) (.forceMap ty l f .ret) m s.path ⟨σ, σ⟩ e (f c) s
    (by simp only [Ref.evalEd, hd]) h rfl hi
  refine ⟨s1, ⟨N, fun k hk => ?_⟩, a2.forget (Ext.refl _) (fun _ _ => rfl), a3, a4.trans hi.symm⟩
  have := a1 k hk
  simp only [runProg] at this
  obtain ⟨w, s2, b1, b2⟩ := M.bind_inv this
  cases b2
  exact b1

theorem abs_of_demand {n : Nat} {m : Bool} {ty : Ty} {l : Loc} {c : V} {e : ES V} {f : V → V} (hd : Ref.demand sig (Ref.recN sig env n) m ty l ⟨σ, σ⟩ = some (e, c)) (h : EInv sig env s ⟨σ, σ⟩)
    (hi : s.ignoreNominal = m) :
    ∃ s', Runs env (fun R => opForceAbs R ty l f) s (f c) s' ∧ EInv sig env s' ⟨e.cur, e.cur⟩ ∧ s'.path = s.path ∧ s'.ignoreNominal = s.ignoreNominal := by
  obtain ⟨s1, ⟨N, a1⟩, a2, a3, a4, _⟩ := editor_step_paid (n := n) (callE := fun _ _ _ _ _ => none) (fun _ _ _ _ _ _ _ _ h => by cases h) (.forceAbs ty l f .ret) m s.path ⟨σ, σ⟩ e (f c) s
    (by simp only [Ref.evalEd, hd]) h rfl hi
  refine ⟨s1, ⟨N, fun k hk => ?_⟩, a2.forget (Ext.refl _) (fun _ _ => rfl), a3, a4.trans hi.symm⟩
  have := a1 k hk
  simp only [runProg] at this
  obtain ⟨w, s2, b1, b2⟩ := M.bind_inv this
  cases b2
  exact b1

/-- What the editor may do according to `Act`, the engine does. -/
theorem Act.engine {m : Bool} {π : Path} {p : Prog V} {v : V} (ha : Act sig env m π p σ v τ) : ∀ (s : St V), EInv sig env s ⟨σ, σ⟩ → s.path = π → s.ignoreNominal = m →
    ∃ s', Runs env (fun R => runProg env R p) s v s' ∧ EInv sig env s' ⟨τ, τ⟩ ∧ s'.path = π ∧ s'.ignoreNominal = m := by
  induction ha with
  | forget h1 h2 _ ih => intro s h hp hi; exact ih s (h.forget h1 h2) hp hi
  | ret => intro s h hp hi; exact ⟨s, Runs.pure, h, hp, hi⟩
  | @forceCell m π ty l cyc k σ c v τ h1 h2 _ ih =>
    intro s h hp hi
    obtain ⟨s1, a1, a2, a3, a4⟩ := force_of_demand (env := env) (n := 0) (demand_cell h1 h2) h hi cyc
    obtain ⟨s2, b1, b2⟩ := ih s1 a2 (a3.trans hp) (a4.trans hi)
    exact ⟨s2, a1.bind b1, b2⟩
  | @forceThunk m π ty l cyc k σ pp fn n σ' c v τ h1 h2 h3 _ ih =>
    intro s h hp hi
    obtain ⟨s1, a1, a2, a3, a4⟩ := force_of_demand (env := env) (demand_thunk h1 h2 h3) h hi cyc
    obtain ⟨s2, b1, b2⟩ := ih s1 a2 (a3.trans hp) (a4.trans hi)
    exact ⟨s2, a1.bind b1, b2⟩
  | @mapCell m π ty l f k σ c v τ h1 h2 _ ih =>
    intro s h hp hi
    obtain ⟨s1, a1, a2, a3, a4⟩ := map_of_demand (env := env) (n := 0) (f := f) (demand_cell h1 h2) h hi
    obtain ⟨s2, b1, b2⟩ := ih s1 a2 (a3.trans hp) (a4.trans hi)
    exact ⟨s2, a1.bind b1, b2⟩
  | @mapThunk m π ty l f k σ pp fn n σ' c v τ h1 h2 h3 _ ih =>
    intro s h hp hi
    obtain ⟨s1, a1, a2, a3, a4⟩ := map_of_demand (env := env) (f := f) (demand_thunk h1 h2 h3) h hi
    obtain ⟨s2, b1, b2⟩ := ih s1 a2 (a3.trans hp) (a4.trans hi)
    exact ⟨s2, a1.bind b1, b2⟩
  | @absCell m π ty l f k σ c v τ h1 h2 _ ih =>
    intro s h hp hi
    obtain ⟨s1, a1, a2, a3, a4⟩ := abs_of_demand (env := env) (n := 0) (f := f) (demand_cell h1 h2) h hi
    obtain ⟨s2, b1, b2⟩ := ih s1 a2 (a3.trans hp) (a4.trans hi)
    exact ⟨s2, a1.bind b1, b2⟩
  | @absThunk m π ty l f k σ pp fn n σ' c v τ h1 h2 h3 _ ih =>
    intro s h hp hi
    obtain ⟨s1, a1, a2, a3, a4⟩ := abs_of_demand (env := env) (f := f) (demand_thunk h1 h2 h3) h hi
    obtain ⟨s2, b1, b2⟩ := ih s1 a2 (a3.trans hp) (a4.trans hi)
    exact ⟨s2, a1.bind b1, b2⟩
  | @cell m π ty nm c k σ v τ h1 h2 _ ih =>
    intro s h hp hi
    generalize hl : Ref.cellLoc env m π nm c = l at h1 h2 ih
    obtain ⟨σ0, D0, i1, i2, i3, i4⟩ := h.edit l c (mayEdit_same h2)
    obtain ⟨s1, a2, a3, hcase⟩ := opCell_post (env := env) (anc := []) (n := nm) i1 (AncOK.top h.stack) (by rw [hi, hp]; exact hl.symm) h1 i2
    have hst : s1.stack = [] := a3.trans h.stack
    have a1 : opCell env ty nm c s = .ok l s1 := by
      rcases hcase with ⟨_, a1⟩ | ⟨_, a1⟩
      · rw [pushEdge_nil hst] at a1; exact a1
      · exact a1
    rw [edit_same] at a2
    obtain ⟨s2, b1, b2⟩ := ih s1 ⟨⟨D0, a2.inv⟩, Ext.refl _, fun _ _ => rfl, hst⟩ (a2.path.trans hp) (a2.ign.trans hi)
    exact ⟨s2, (Runs.const a1).bind b1, b2⟩
  | @thunk m π ty nc pp fn arg l k σ v τ hl h1 h2 _ ih =>
    intro s h hp hi
    obtain ⟨σ0, D0, i1, i2, i3, i4⟩ := h.edit l arg (mayEdit_same h2)
    obtain ⟨s1, a2, a3, hcase⟩ := opThunk_post (env := env) (anc := []) i1 (AncOK.top h.stack) (by rw [hi, hp]; exact hl) h1 i2
    have hst : s1.stack = [] := a3.trans h.stack
    have a1 : opThunk env ty nc pp fn arg s = .ok l s1 := by
      rcases hcase with ⟨_, a1⟩ | ⟨_, a1 | a1⟩
      · rw [pushEdge_nil hst] at a1; exact a1
      · rw [pushEdge_nil hst] at a1; exact a1
      · exact a1
    rw [edit_same] at a2
    obtain ⟨s2, b1, b2⟩ := ih s1 ⟨⟨D0, a2.inv⟩, Ext.refl _, fun _ _ => rfl, hst⟩ (a2.path.trans hp) (a2.ign.trans hi)
    exact ⟨s2, (Runs.const a1).bind b1, b2⟩
  | @set m π ty l c k σ v τ hk hne hnom _ ih =>
    intro s h hp hi
    obtain ⟨σ0, D0, i1, i2, i3, i4⟩ := h.edit l c (by unfold Ref.mayEdit; rw [hnom]; rfl)
    obtain ⟨n', hn'⟩ : ∃ n', s.table.get l = some n' := by
      obtain ⟨D, hI⟩ := h.inv
      cases hc : σ l with
      | none => exact absurd hc hne
      | some c => obtain ⟨m, g1, _⟩ := hI.store l c hc; exact ⟨m, g1⟩
    obtain ⟨s1, a1, a2, a3⟩ := setCell_post (anc := []) i1 (AncOK.top h.stack) hk hnom hn' i2
    have hst : s1.stack = [] := a3.trans h.stack
    rw [edit_same] at a2
    obtain ⟨s2, b1, b2⟩ := ih s1 ⟨⟨D0, a2.inv⟩, Ext.refl _, fun _ _ => rfl, hst⟩ (a2.path.trans hp) (a2.ign.trans hi)
    have hset : opSet ty l c s = .ok () s1 := by
      unfold opSet
      rw [M.bind_ok (M.get_def s)]
      simp only [h.stack, List.isEmpty_nil, if_true]
      exact a1
    exact ⟨s2, (Runs.const hset).bind (g := fun R _ => runProg env R k) b1, b2⟩
  | @ns m π nm body k σ w σ' v τ _ _ ihb ihk =>
    intro s h hp hi
    obtain ⟨D, hI⟩ := h.inv
    obtain ⟨s1, ⟨N1, h1⟩, a2, a3, a4⟩ := ihb { s with path := .child s.path nm } ⟨⟨D, hI.congr rfl rfl rfl⟩, h.ext, h.same, h.stack⟩ (by simp only [hp]) hi
    obtain ⟨D1, hI1⟩ := a2.inv
    obtain ⟨s2, ⟨N2, h2⟩, b2, b3⟩ := ihk { s1 with path := s.path } ⟨⟨D1, hI1.congr rfl rfl rfl⟩, a2.ext, a2.same, a2.stack⟩ hp a4
    refine ⟨s2, ⟨max N1 N2, fun m hm => ?_⟩, b2, b3⟩
    simp only [runProg]
    rw [M.bind_ok (M.get_def s), M.bind_ok (m := M.modify _) rfl, M.bind_ok (h1 m (by omega)), M.bind_ok (m := M.modify _) rfl]
    exact h2 m (by omega)
  | @structural m π body k σ w σ' v τ _ _ ihb ihk =>
    intro s h hp hi
    obtain ⟨D, hI⟩ := h.inv
    obtain ⟨s1, ⟨N1, h1⟩, a2, a3, a4⟩ := ihb { s with ignoreNominal := true } ⟨⟨D, hI.congr rfl rfl rfl⟩, h.ext, h.same, h.stack⟩ hp rfl
    obtain ⟨D1, hI1⟩ := a2.inv
    obtain ⟨s2, ⟨N2, h2⟩, b2, b3⟩ := ihk { s1 with ignoreNominal := s.ignoreNominal } ⟨⟨D1, hI1.congr rfl rfl rfl⟩, a2.ext, a2.same, a2.stack⟩ a3 hi
    refine ⟨s2, ⟨max N1 N2, fun m hm => ?_⟩, b2, b3⟩
    simp only [runProg]
    rw [M.bind_ok (M.get_def s), M.bind_ok (m := M.modify _) rfl, M.bind_ok (h1 m (by omega)), M.bind_ok (m := M.modify _) rfl]
    exact h2 m (by omega)
  | @call m π fn arg k σ w σ' v τ _ _ ihb ihk =>
    intro s h hp hi
    obtain ⟨s1, a1, a2, a3, a4⟩ := ihb s h hp hi
    obtain ⟨s2, b1, b2, b3⟩ := ihk s1 a2 a3 a4
    exact ⟨s2, a1.run.bind b1, b2, b3⟩

/-- Sessions. -/
theorem Acts.engine {ps : List (Prog V)} {vs : List V} (h : Acts sig env ps σ vs τ) : ∀ (s : St V), EInv sig env s ⟨σ, σ⟩ → s.path = .empty → s.ignoreNominal = sig.mode →
    ∃ s' N, (∀ m, N ≤ m → runSession env m ps s = .ok vs s') ∧ EInv sig env s' ⟨τ, τ⟩ ∧ s'.path = .empty ∧ s'.ignoreNominal = sig.mode := by
  induction h with
  | nil => intro s hs hp hi; exact ⟨s, 0, fun _ _ => rfl, hs, hp, hi⟩
  | @cons p ps σ v σ' vs τ h1 _ ih =>
    intro s hs hp hi
    obtain ⟨s1, ⟨N1, a1⟩, a2, a3, a4⟩ := h1.engine s hs hp hi
    obtain ⟨s2, N2, b1, b2, b3⟩ := ih s1 a2 a3 a4
    refine ⟨s2, max N1 N2, fun m hm => ?_, b2, b3⟩
    simp only [runSession]
    rw [M.bind_ok (m := exec env m p) (a1 m (by omega)), M.bind_ok (b1 m (by omega))]
    rfl

/-! ### Code of thunks, run by the editor -/

theorem observe_act {sig : Sig} {n : Nat} {c : Ref.Ctx} {m : Bool} {π : Path} {ty : Ty} {l : Loc} {cyc : Option V} {k : V → Prog V} {r r' : Ref.RS V} {w v : V} {τ : Store V}
    (h : Ref.observe sig (Ref.recN sig env n) c m ty l r = some (r', w)) (hk : Act sig env m π (k w) r'.store v τ) : Act sig env m π (.force ty l cyc k) r.store v τ := by
  unfold Ref.observe at h
  rcases hs : sig l with ty' | ⟨ty', pp, fn⟩
  · rw [hs] at h
    simp only at h
    split at h
    · rename_i hc
      obtain ⟨rfl, _⟩ := hc
      rcases hr : r.store l with _ | u
      · rw [hr] at h; cases h
      · rw [hr] at h; cases h
        exact .forceCell hs hr hk
    · cases h
  · rw [hs] at h
    simp only at h
    split at h
    · rename_i hc
      obtain ⟨rfl, _, hm, _⟩ := hc
      rcases hr : (Ref.recN sig env n).frc c.anc r.store l with _ | ⟨σ', u⟩
      · rw [hr] at h; cases h
      · rw [hr] at h; cases h
        exact .forceThunk hs hm ((Ref.recN_le (SigLe.refl sig) env n 0).frc _ [] _ _ _ hr (fun _ h => by cases h)) hk
    · cases h

theorem observeMap_act {sig : Sig} {n : Nat} {c : Ref.Ctx} {m : Bool} {π : Path} {ty : Ty} {l : Loc} {f : V → V} {k : V → Prog V} {r r' : Ref.RS V} {w v : V} {τ : Store V}
    (h : Ref.observeMap sig (Ref.recN sig env n) c m ty l f r = some (r', w)) (hk : Act sig env m π (k w) r'.store v τ) : Act sig env m π (.forceMap ty l f k) r.store v τ := by
  unfold Ref.observeMap at h
  rcases hs : sig l with ty' | ⟨ty', pp, fn⟩
  · rw [hs] at h
    simp only at h
    split at h
    · rename_i hc
      obtain ⟨rfl, _⟩ := hc
      rcases hr : r.store l with _ | u
      · rw [hr] at h; cases h
      · rw [hr] at h; cases h
        exact .mapCell hs hr hk
    · cases h
  · rw [hs] at h
    simp only at h
    rcases ho : Ref.observe sig (Ref.recN sig env n) c m ty l r with _ | ⟨r1, u⟩
    · rw [ho] at h; cases h
    · rw [ho] at h
      cases h
      unfold Ref.observe at ho
      rw [hs] at ho
      simp only at ho
      split at ho
      · rename_i hc
        obtain ⟨rfl, _, hm, _⟩ := hc
        rcases hr : (Ref.recN sig env n).frc c.anc r.store l with _ | ⟨σ', u⟩
        · rw [hr] at ho; cases ho
        · rw [hr] at ho; cases ho
          exact .mapThunk hs hm ((Ref.recN_le (SigLe.refl sig) env n 0).frc _ [] _ _ _ hr (fun _ h => by cases h)) hk
      · cases ho

theorem alloc_upd {σ σ' : Store V} {l : Loc} {v : V} (h : Ref.alloc σ l v = some σ') : σ' = upd σ l v ∧ (σ l = none ∨ σ l = some v) := by
  rw [Ref.alloc_dec] at h
  rcases hl : σ l with _ | w
  · rw [hl] at h; cases h; exact ⟨rfl, .inl rfl⟩
  · rw [hl] at h
    simp only at h
    split at h
    · rename_i hw
      cases h
      subst hw
      exact ⟨(upd_of_some hl).symm, .inr rfl⟩
    · cases h

/-- The code of a thunk, given its calls. -/
theorem eval_act_step {sig : Sig} {n : Nat} (hcall : ∀ (c : Ref.Ctx) (m : Bool) (π : Path) (fn : FnId) (arg : V) (r r' : Ref.RS V) (v : V), (Ref.recN sig env n).call c m π fn arg r = some (r', v) →
      Act sig env m π (env.code fn arg) r.store v r'.store) (p : Prog V) : ∀ (c : Ref.Ctx) (m : Bool) (π : Path) (r r' : Ref.RS V) (v : V),
    Ref.eval sig env (Ref.recN sig env n) c m π p r = some (r', v) → Act sig env m π p r.store v r'.store := by
  induction p with
  | call fn arg k ih =>
    intro c m π r r' v h
    simp only [Ref.eval] at h
    split at h
    · rename_i hf
      exact .call (hcall _ _ _ _ _ _ _ _ hf) (ih _ _ _ _ _ _ _ h)
    · cases h
  | ret w => intro c m π r r' v h; cases h; exact .ret
  | force ty l cyc k ih =>
    intro c m π r r' v h
    simp only [Ref.eval] at h
    split at h
    · rename_i hf; exact observe_act hf (ih _ _ _ _ _ _ _ h)
    · cases h
  | forceMap ty l f k ih =>
    intro c m π r r' v h
    simp only [Ref.eval] at h
    split at h
    · rename_i hf; exact observeMap_act hf (ih _ _ _ _ _ _ _ h)
    · cases h
  | forceAbs ty l f k ih => intro c m π r r' v h; simp only [Ref.eval] at h; cases h
  | cell ty nm w k ih =>
    intro c m π r r' v h
    simp only [Ref.eval] at h
    split at h
    · rename_i hc
      split at h
      · rename_i ha
        obtain ⟨rfl, h2⟩ := alloc_upd ha
        exact .cell hc.1 (fun _ => h2) (ih _ _ _ _ _ _ _ h)
      · cases h
    · cases h
  | thunk ty nc pp fn arg k ih =>
    intro c m π r r' v h
    simp only [Ref.eval] at h
    split at h
    · rename_i l hl
      split at h
      · rename_i hc
        split at h
        · rename_i ha
          obtain ⟨rfl, h2⟩ := alloc_upd ha
          exact .thunk hl hc.1 (fun _ => h2) (ih _ _ _ _ _ _ _ h)
        · cases h
      · cases h
    · cases h
  | set ty l w k ih => intro c m π r r' v h; simp only [Ref.eval] at h; cases h
  | ns nm body k ihb ih =>
    intro c m π r r' v h
    simp only [Ref.eval] at h
    split at h
    · rename_i hf; exact .ns (ihb _ _ _ _ _ _ hf) (ih _ _ _ _ _ _ _ h)
    · cases h
  | structural body k ihb ih =>
    intro c m π r r' v h
    simp only [Ref.eval] at h
    split at h
    · rename_i hf; exact .structural (ihb _ _ _ _ _ _ hf) (ih _ _ _ _ _ _ _ h)
    · cases h
  | panic => intro c m π r r' v h; simp only [Ref.eval] at h; cases h

/-- The editor may run the code of a thunk itself. -/
theorem eval_act {sig : Sig} : ∀ (n : Nat) (p : Prog V) (c : Ref.Ctx) (m : Bool) (π : Path) (r r' : Ref.RS V) (v : V),
    Ref.eval sig env (Ref.recN sig env n) c m π p r = some (r', v) → Act sig env m π p r.store v r'.store := by
  intro n
  induction n with
  | zero => intro p; exact eval_act_step (fun c m π fn arg r r' v h => by simp only [Ref.recN] at h; cases h) p
  | succ n ih => intro p; exact eval_act_step (n := n + 1) (fun c m π fn arg r r' v h => ih _ _ _ _ _ _ _ h) p

/-! ### The meaning of C01 is one of those -/

/-- What `Ref.demand` does, in three cases. -/
theorem demand_cases {e e' : ES V} {n : Nat} {m : Bool} {ty : Ty} {l : Loc} {c : V} (hd : Ref.demand sig (Ref.recN sig env n) m ty l e = some (e', c)) (h1 : Ext e.base e.cur) (h2 : Ref.SameS e.base e.cur) :
    (sig l = .cell ty ∧ e.cur l = some c ∧ e' = e) ∨
    ∃ pp fn σ, sig l = .thunk ty pp fn ∧ m = sig.mode ∧ Ext σ e.cur ∧ Ref.SameS σ e.cur ∧ (Ref.recN sig env n).frc [] σ l = some (e'.cur, c) ∧ Ext e'.base e'.cur ∧ Ref.SameS e'.base e'.cur := by
  unfold Ref.demand at hd
  rcases hs : sig l with ty' | ⟨ty', pp, fn⟩
  · rw [hs] at hd
    simp only at hd
    split at hd
    · rename_i ht
      subst ht
      rcases hc : e.cur l with _ | w
      · rw [hc] at hd; cases hd
      · rw [hc] at hd; cases hd
        exact .inl ⟨rfl, rfl, rfl⟩
    · cases hd
  · rw [hs] at hd
    simp only at hd
    split at hd
    · rename_i ht
      obtain ⟨rfl, hm⟩ := ht
      rcases hf : Ref.editorForce (Ref.recN sig env n) l e with _ | ⟨σ', w⟩
      · rw [hf] at hd; cases hd
      · rw [hf] at hd
        cases hd
        have key : ∃ σ, Ext σ e.cur ∧ Ref.SameS σ e.cur ∧ Ext e.base σ ∧ (Ref.recN sig env n).frc [] σ l = some (σ', c) := by
          unfold Ref.editorForce at hf
          rcases hc : (Ref.recN sig env n).frc [] e.cur l with _ | r
          · rw [hc] at hf; exact ⟨e.base, h1, h2, Ext.refl _, hf⟩
          · rw [hc] at hf; cases hf; exact ⟨e.cur, Ext.refl _, fun _ _ => rfl, h1, hc⟩
        obtain ⟨σ, k1, k2, k3, k4⟩ := key
        refine .inr ⟨pp, fn, σ, rfl, hm, k1, k2, k4, ?_, fun x hx => by simp only [Ref.keepStruct, hx, if_true]⟩
        have hext := (Ref.recN_ok sig env n).frcExt _ _ _ _ _ k4
        intro x w hx
        simp only [Ref.keepStruct] at hx ⊢
        split at hx
        · exact hx
        · exact (k3.trans hext) x w hx
    · cases hd

theorem edit_act {e : ES V} {l : Loc} {c : V} (h1 : Ext e.base e.cur) (h2 : Ref.SameS e.base e.cur) (hm : Ref.mayEdit e l c = true) :
    Ext (Ref.edit e l c).base (Ref.edit e l c).cur ∧ Ref.SameS (Ref.edit e l c).base (Ref.edit e l c).cur ∧
      Ext (Ref.edit e l c).cur (upd e.cur l c) ∧ Ref.SameS (Ref.edit e l c).cur (upd e.cur l c) ∧ (l.isStruct = true → e.cur l = none ∨ e.cur l = some c) := by
  have hu : Ext (upd e.base l c) (upd e.cur l c) := by
    intro x w hx
    unfold upd at hx ⊢
    split
    · rename_i hxl; rw [if_pos hxl] at hx; exact hx
    · rename_i hxl; rw [if_neg hxl] at hx; exact h1 x w hx
  have hsu : Ref.SameS (upd e.base l c) (upd e.cur l c) := by
    intro x hx
    unfold upd
    split
    · rfl
    · exact h2 x hx
  refine ⟨?_, ?_, ?_, ?_, ?_⟩
  · rw [Ref.edit_dec]
    by_cases hc : e.cur l = none ∨ e.cur l = some c
    · rw [if_pos hc]; exact hu
    · rw [if_neg hc]; exact Ext.refl _
  · rw [Ref.edit_dec]
    by_cases hc : e.cur l = none ∨ e.cur l = some c
    · rw [if_pos hc]; exact hsu
    · rw [if_neg hc]; exact fun _ _ => rfl
  · rw [Ref.edit_dec]
    by_cases hc : e.cur l = none ∨ e.cur l = some c
    · rw [if_pos hc]; exact Ext.refl _
    · rw [if_neg hc]; exact hu
  · rw [Ref.edit_dec]
    by_cases hc : e.cur l = none ∨ e.cur l = some c
    · rw [if_pos hc]; exact fun _ _ => rfl
    · rw [if_neg hc]; exact hsu
  · intro hl
    unfold Ref.mayEdit at hm
    rw [hl] at hm
    rcases hc : e.cur l with _ | w
    · exact .inl rfl
    · rw [hc] at hm
      simp only [Bool.not_true, Bool.false_or, decide_eq_true_eq, ueq_eq] at hm
      exact .inr (by rw [hm])

theorem evalEd_act_step {n : Nat} {callE : Bool → Path → FnId → V → ES V → Option (ES V × V)}
    (hcall : ∀ m π fn arg (e e' : ES V) v, callE m π fn arg e = some (e', v) → Ext e.base e.cur → Ref.SameS e.base e.cur →
      Act sig env m π (env.code fn arg) e.cur v e'.cur ∧ Ext e'.base e'.cur ∧ Ref.SameS e'.base e'.cur) (p : Prog V) :
    ∀ m π (e e' : ES V) v, Ref.evalEd sig env (Ref.recN sig env n) callE m π p e = some (e', v) → Ext e.base e.cur → Ref.SameS e.base e.cur →
      Act sig env m π p e.cur v e'.cur ∧ Ext e'.base e'.cur ∧ Ref.SameS e'.base e'.cur := by
  induction p with
  | ret w => intro m π e e' v h h1 h2; cases h; exact ⟨.ret, h1, h2⟩
  | force ty l cyc k ih =>
    intro m π e e' v h h1 h2
    simp only [Ref.evalEd] at h
    split at h
    · rename_i e1 c hd
      rcases demand_cases hd h1 h2 with ⟨g1, g2, rfl⟩ | ⟨pp, fn, σ, g1, g2, g3, g4, g5, g6, g7⟩
      · obtain ⟨a, b⟩ := ih _ _ _ _ _ _ h h1 h2
        exact ⟨.forceCell g1 g2 a, b⟩
      · obtain ⟨a, b⟩ := ih _ _ _ _ _ _ h g6 g7
        exact ⟨.forget g3 g4 (.forceThunk g1 g2 g5 a), b⟩
    · cases h
  | forceMap ty l f k ih =>
    intro m π e e' v h h1 h2
    simp only [Ref.evalEd] at h
    split at h
    · rename_i e1 c hd
      rcases demand_cases hd h1 h2 with ⟨g1, g2, rfl⟩ | ⟨pp, fn, σ, g1, g2, g3, g4, g5, g6, g7⟩
      · obtain ⟨a, b⟩ := ih _ _ _ _ _ _ h h1 h2
        exact ⟨.mapCell g1 g2 a, b⟩
      · obtain ⟨a, b⟩ := ih _ _ _ _ _ _ h g6 g7
        exact ⟨.forget g3 g4 (.mapThunk g1 g2 g5 a), b⟩
    · cases h
  | forceAbs ty l f k ih =>
    intro m π e e' v h h1 h2
    simp only [Ref.evalEd] at h
    split at h
    · rename_i e1 c hd
      rcases demand_cases hd h1 h2 with ⟨g1, g2, rfl⟩ | ⟨pp, fn, σ, g1, g2, g3, g4, g5, g6, g7⟩
      · obtain ⟨a, b⟩ := ih _ _ _ _ _ _ h h1 h2
        exact ⟨.absCell g1 g2 a, b⟩
      · obtain ⟨a, b⟩ := ih _ _ _ _ _ _ h g6 g7
        exact ⟨.forget g3 g4 (.absThunk g1 g2 g5 a), b⟩
    · cases h
  | cell ty nm w k ih =>
    intro m π e e' v h h1 h2
    simp only [Ref.evalEd] at h
    split at h
    · rename_i hc
      obtain ⟨g1, g2, g3, g4, g5⟩ := edit_act h1 h2 hc.2
      obtain ⟨a, b⟩ := ih _ _ _ _ _ _ h g1 g2
      exact ⟨.cell hc.1 g5 (.forget g3 g4 a), b⟩
    · cases h
  | thunk ty nc pp fn arg k ih =>
    intro m π e e' v h h1 h2
    simp only [Ref.evalEd] at h
    split at h
    · rename_i l hl
      split at h
      · rename_i hc
        obtain ⟨g1, g2, g3, g4, g5⟩ := edit_act h1 h2 hc.2
        obtain ⟨a, b⟩ := ih _ _ _ _ _ _ h g1 g2
        exact ⟨.thunk hl hc.1 g5 (.forget g3 g4 a), b⟩
      · cases h
    · cases h
  | set ty l w k ih =>
    intro m π e e' v h h1 h2
    simp only [Ref.evalEd] at h
    split at h
    · rename_i hc
      obtain ⟨g1, g2, g3, g4, g5⟩ := edit_act (l := l) (c := w) h1 h2 (by unfold Ref.mayEdit; rw [hc.2.2]; rfl)
      obtain ⟨a, b⟩ := ih _ _ _ _ _ h g1 g2
      exact ⟨.set hc.1 hc.2.1 hc.2.2 (.forget g3 g4 a), b⟩
    · cases h
  | ns nm body k ihb ih =>
    intro m π e e' v h h1 h2
    simp only [Ref.evalEd] at h
    split at h
    · rename_i hf
      obtain ⟨a, b1, b2⟩ := ihb _ _ _ _ _ hf h1 h2
      obtain ⟨c, d⟩ := ih _ _ _ _ _ _ h b1 b2
      exact ⟨.ns a c, d⟩
    · cases h
  | structural body k ihb ih =>
    intro m π e e' v h h1 h2
    simp only [Ref.evalEd] at h
    split at h
    · rename_i hf
      obtain ⟨a, b1, b2⟩ := ihb _ _ _ _ _ hf h1 h2
      obtain ⟨c, d⟩ := ih _ _ _ _ _ _ h b1 b2
      exact ⟨.structural a c, d⟩
    · cases h
  | call fn arg k ih =>
    intro m π e e' v h h1 h2
    simp only [Ref.evalEd] at h
    split at h
    · rename_i hf
      obtain ⟨a, b1, b2⟩ := hcall _ _ _ _ _ _ _ hf h1 h2
      obtain ⟨c, d⟩ := ih _ _ _ _ _ _ h b1 b2
      exact ⟨.call a c, d⟩
    · cases h
  | panic => intro m π e e' v h; simp only [Ref.evalEd] at h; cases h

theorem callEN_act : ∀ n m π fn arg (e e' : ES V) v, Ref.callEN sig env n m π fn arg e = some (e', v) → Ext e.base e.cur → Ref.SameS e.base e.cur →
    Act sig env m π (env.code fn arg) e.cur v e'.cur ∧ Ext e'.base e'.cur ∧ Ref.SameS e'.base e'.cur := by
  intro n
  induction n with
  | zero => intro m π fn arg e e' v h; simp only [Ref.callEN] at h; cases h
  | succ n ih =>
    intro m π fn arg e e' v h
    simp only [Ref.callEN] at h
    exact evalEd_act_step ih _ m π e e' v h

theorem session_acts {n : Nat} : ∀ (ps : List (Prog V)) (vs : List V) (e e' : ES V), Ref.session sig env n ps e = some (e', vs) → Ext e.base e.cur → Ref.SameS e.base e.cur →
    Acts sig env ps e.cur vs e'.cur ∧ Ext e'.base e'.cur ∧ Ref.SameS e'.base e'.cur := by
  intro ps
  induction ps with
  | nil => intro vs e e' h h1 h2; cases h; exact ⟨.nil, h1, h2⟩
  | cons p ps ih =>
    intro vs e e' h h1 h2
    simp only [Ref.session] at h
    split at h
    · rename_i e1 v hf
      obtain ⟨a, b1, b2⟩ := evalEd_act_step (callEN_act n) _ _ _ _ _ _ hf h1 h2
      split at h
      · rename_i e2 vs' hg
        cases h
        obtain ⟨c, d⟩ := ih _ _ _ hg b1 b2
        exact ⟨.cons a c, d⟩
      · cases h
    · cases h

/-- Every session with a meaning in the sense of C01 is one. -/
theorem Ref.Means.acts {ps : List (Prog V)} {vs : List V} (h : Ref.Means sig env ps vs) : ∃ τ, Acts sig env ps (fun _ => none) vs τ := by
  obtain ⟨n, e, h⟩ := h
  exact ⟨_, (session_acts ps vs _ _ h (Ext.refl _) (fun _ _ => rfl)).1⟩

end Adapton
