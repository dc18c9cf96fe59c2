import Verif.Engine.Inv
import Verif.Engine.RefLemmas
import Verif.Engine.Cost
/-
The state invariant relating the engine to the reference semantics, and the elementary steps that preserve it.
-/
set_option linter.unusedSectionVars false
set_option linter.unusedVariables false
namespace Adapton
open Ref (Sig Kind Store Ext upd)
variable {V : Type} [DecidableEq V]

/-- The table knows the structural location `l`, with content `c`. -/
def KnownS (t : Table V) (l : Loc) (c : V) : Prop := l.isStruct = true ∧ ∃ n, t.get l = some n ∧ n.cont = some c

/-- `l` is a pure structural location with value `w`. -/
def PureVal (sig : Sig) (t : Table V) (l : Loc) (w : V) : Prop :=
  l.isStruct = true ∧ sig.pu = true ∧ ∃ n, t.get l = some n ∧ n.pv = some w

/-- Structural locations stay, with their contents; pure ones keep their values. -/
def SMono (sig : Sig) (t t' : Table V) : Prop :=
  ∀ l n, l.isStruct = true → t.get l = some n →
    ∃ n', t'.get l = some n' ∧ n'.cont = n.cont ∧ (sig.pu = true → ∀ w, n.pv = some w → n'.pv = some w)

/-- `Replay sig env t m π p pre es v`: run on the answers recorded in the edges `es`, after the edges `pre` have been
recorded, program `p` (in naming mode `m` and namespace `π`) records exactly `es` and returns `v`.  Some steps record nothing: a repeated
observation, the allocation of a structural location that the table `t` knows, the observation of a pure location. -/
inductive Replay (sig : Sig) (env : Env V) (t : Table V) : Bool → Path → Prog V → List (Edge V) → List (Edge V) → V → Prop where
  | ret {m π v pre} : Replay sig env t m π (.ret v) pre [] v
  | force {m π ty l cyc k w pre es v} : pre.find? (Edge.matches .observe l) = none →
      Replay sig env t m π (k w) (pre ++ [⟨l, .observe, .force ty w⟩]) es v →
      Replay sig env t m π (.force ty l cyc k) pre (⟨l, .observe, .force ty w⟩ :: es) v
  | forceDup {m π ty l cyc k w pre es v ty'} : pre.find? (Edge.matches .observe l) = some ⟨l, .observe, .force ty' w⟩ →
      Replay sig env t m π (k w) pre es v →
      Replay sig env t m π (.force ty l cyc k) pre es v
  | forcePure {m π ty l cyc k w pre es v} : PureVal sig t l w →
      Replay sig env t m π (k w) pre es v →
      Replay sig env t m π (.force ty l cyc k) pre es v
  | mapCell {m π ty l f k r pre es v ty'} : sig l = .cell ty' →
      Replay sig env t m π (k r) (pre ++ [⟨l, .observe, .forceMap ty f r⟩]) es v →
      Replay sig env t m π (.forceMap ty l f k) pre (⟨l, .observe, .forceMap ty f r⟩ :: es) v
  | mapThunk {m π ty l f k w pre es v ty' pp fn} : sig l = .thunk ty' pp fn →
      pre.find? (Edge.matches .observe l) = none →
      Replay sig env t m π (k (f w)) (pre ++ [⟨l, .observe, .force ty w⟩]) es v →
      Replay sig env t m π (.forceMap ty l f k) pre (⟨l, .observe, .force ty w⟩ :: es) v
  | mapThunkDup {m π ty l f k w pre es v ty' pp fn ty''} : sig l = .thunk ty' pp fn →
      pre.find? (Edge.matches .observe l) = some ⟨l, .observe, .force ty'' w⟩ →
      Replay sig env t m π (k (f w)) pre es v →
      Replay sig env t m π (.forceMap ty l f k) pre es v
  | mapPure {m π ty l f k w pre es v} : PureVal sig t l w →
      Replay sig env t m π (k (f w)) pre es v →
      Replay sig env t m π (.forceMap ty l f k) pre es v
  | cell {m π ty n c k pre es v} :
      Replay sig env t m π (k (Ref.cellLoc env m π n c)) (pre ++ [⟨Ref.cellLoc env m π n c, .allocate, .allocCell c⟩]) es v →
      Replay sig env t m π (.cell ty n c k) pre (⟨Ref.cellLoc env m π n c, .allocate, .allocCell c⟩ :: es) v
  | cellPure {m π ty n c k pre es v} : KnownS t (Ref.cellLoc env m π n c) c →
      Replay sig env t m π (k (Ref.cellLoc env m π n c)) pre es v →
      Replay sig env t m π (.cell ty n c k) pre es v
  | thunk {m π ty nc pp fn arg k l pre es v} : Ref.thunkLoc env m π nc pp arg = some l →
      Replay sig env t m π (k l) (pre ++ [⟨l, .allocate, .allocNom arg⟩]) es v →
      Replay sig env t m π (.thunk ty nc pp fn arg k) pre (⟨l, .allocate, .allocNom arg⟩ :: es) v
  | thunkNew {m π ty nc pp fn arg k l pre es v} : Ref.thunkLoc env m π nc pp arg = some l → KnownS t l arg →
      Replay sig env t m π (k l) (pre ++ [⟨l, .allocate, .allocStruct⟩]) es v →
      Replay sig env t m π (.thunk ty nc pp fn arg k) pre (⟨l, .allocate, .allocStruct⟩ :: es) v
  | thunkOld {m π ty nc pp fn arg k l pre es v} : Ref.thunkLoc env m π nc pp arg = some l → KnownS t l arg →
      Replay sig env t m π (k l) pre es v →
      Replay sig env t m π (.thunk ty nc pp fn arg k) pre es v
  | ns {m π n body k pre es1 v1 es2 v} : Replay sig env t m (.child π n) body pre es1 v1 →
      Replay sig env t m π (k v1) (pre ++ es1) es2 v →
      Replay sig env t m π (.ns n body k) pre (es1 ++ es2) v
  | structural {m π body k pre es1 v1 es2 v} : Replay sig env t true π body pre es1 v1 →
      Replay sig env t m π (k v1) (pre ++ es1) es2 v →
      Replay sig env t m π (.structural body k) pre (es1 ++ es2) v
  | call {m π fn arg k pre es1 v1 es2 v} : Replay sig env t m π (env.code fn arg) pre es1 v1 →
      Replay sig env t m π (k v1) (pre ++ es1) es2 v →
      Replay sig env t m π (.call fn arg k) pre (es1 ++ es2) v

theorem SMono.refl (sig : Sig) (t : Table V) : SMono sig t t := fun l n _ h => ⟨n, h, rfl, fun _ _ h => h⟩
theorem SMono.trans {sig : Sig} {a b c : Table V} (h1 : SMono sig a b) (h2 : SMono sig b c) : SMono sig a c := by
  intro l n hl hn
  obtain ⟨n1, g1, g2, g3⟩ := h1 l n hl hn
  obtain ⟨n2, g4, g5, g6⟩ := h2 l n1 hl g1
  exact ⟨n2, g4, g5.trans g2, fun hp w hw => g6 hp w (g3 hp w hw)⟩
theorem SMono.known {sig : Sig} {t t' : Table V} (h : SMono sig t t') {l : Loc} {c : V} (hk : KnownS t l c) : KnownS t' l c := by
  obtain ⟨h1, n, h2, h3⟩ := hk
  obtain ⟨n', g1, g2, _⟩ := h l n h1 h2
  exact ⟨h1, n', g1, g2.trans h3⟩
theorem SMono.pureVal {sig : Sig} {t t' : Table V} (h : SMono sig t t') {l : Loc} {c : V} (hk : PureVal sig t l c) : PureVal sig t' l c := by
  obtain ⟨h1, h0, n, h2, h3⟩ := hk
  obtain ⟨n', g1, _, g2⟩ := h l n h1 h2
  exact ⟨h1, h0, n', g1, g2 h0 _ h3⟩

theorem Replay.mono {sig : Sig} {env : Env V} {t t' : Table V} (h : SMono sig t t') {m π p pre es v} (hr : Replay sig env t m π p pre es v) :
    Replay sig env t' m π p pre es v := by
  induction hr with
  | ret => exact .ret
  | force h1 _ ih => exact .force h1 ih
  | forceDup h1 _ ih => exact .forceDup h1 ih
  | forcePure h1 _ ih => exact .forcePure (h.pureVal h1) ih
  | mapCell h1 _ ih => exact .mapCell h1 ih
  | mapThunk h1 h2 _ ih => exact .mapThunk h1 h2 ih
  | mapThunkDup h1 h2 _ ih => exact .mapThunkDup h1 h2 ih
  | mapPure h1 _ ih => exact .mapPure (h.pureVal h1) ih
  | cell _ ih => exact .cell ih
  | cellPure h1 _ ih => exact .cellPure (h.known h1) ih
  | thunk h1 _ ih => exact .thunk h1 ih
  | thunkNew h1 h2 _ ih => exact .thunkNew h1 (h.known h2) ih
  | thunkOld h1 h2 _ ih => exact .thunkOld h1 (h.known h2) ih
  | ns _ _ ih1 ih2 => exact .ns ih1 ih2
  | structural _ _ ih1 ih2 => exact .structural ih1 ih2
  | call _ _ ih1 ih2 => exact .call ih1 ih2

/-- A structural location stays as it was if its node only changed in dirty bits. -/
theorem NodeUp.pv {n n' : Node V} (h : NodeUp (some n) (some n')) : n'.pv = n.pv := by
  match n with
  | .comp nd => obtain ⟨es', h1, _⟩ := h; cases h1; rfl
  | .mut nd => cases h; rfl
  | .pure nd => cases h; rfl

theorem SMono.up {sig : Sig} {t t' : Table V} (h : ∀ l, l.isStruct = true → NodeUp (t.get l) (t'.get l)) : SMono sig t t' := by
  intro l n hl hn
  have hu := h l hl
  rw [hn] at hu
  obtain ⟨n', hn'⟩ := hu.some_left
  rw [hn'] at hu
  exact ⟨n', hn', hu.cont, fun _ w hw => hu.pv.trans hw⟩

/-- The target of the edge is up to date (with respect to the reference store `σ`) and agrees with the edge. -/
def EdgeOK (sig : Sig) (t : Table V) (σ : Store V) (D : Loc → Prop) (e : Edge V) : Prop :=
  ∃ c, σ e.loc = some c ∧
    match e.effect with
    | .observe =>
      match sig e.loc with
      | .cell _ => e.dep.okVal c
      | .thunk _ _ _ => D e.loc ∧ ∃ nd w, t.get e.loc = some (.comp nd) ∧ nd.res = some w ∧ e.dep.okVal w
    | .allocate => e.dep.allocOk c

/-- `p` is a thunk that recorded an observation of `x`. -/
def ObsEdge (t : Table V) (p x : Loc) : Prop :=
  ∃ nd e, t.get p = some (.comp nd) ∧ e ∈ nd.succs ∧ e.effect = .observe ∧ e.loc = x

/-- The observation graph has no cycle and no infinite path: every location is accessible along observations. -/
def Acyc (t : Table V) : Prop := ∀ p, Acc (fun x p => ObsEdge t p x) p

theorem Acyc.sub {t t' : Table V} (h : Acyc t) (hs : ∀ p x, ObsEdge t' p x → ObsEdge t p x) : Acyc t' := by
  intro p
  induction h p with
  | intro p _ ih => exact ⟨p, fun x hx => ih x (hs p x hx)⟩

/-- The invariant: `σ` is the reference store reached so far, `D` the thunks whose cached result is known to be right. -/
structure Inv (sig : Sig) (env : Env V) (s : St V) (σ : Store V) (D : Loc → Prop) : Prop where
  graph : Graph sig s.table
  clean : CleanEx s (fun _ _ => False)
  nodup : s.locs.Nodup
  stk : ∀ l ∈ s.locs, ∃ nd, s.table.get l = some (.comp nd) ∧ nd.succs = []
  replay : ∀ p nd v, s.table.get p = some (.comp nd) → p ∉ s.locs → nd.res = some v →
    Replay sig env s.table sig.mode p.path (env.code nd.fn nd.arg) [] (nd.succs.map Succ.edge) v
  store : ∀ l v, σ l = some v → ∃ n, s.table.get l = some n ∧ n.cont = some v
  settled : ∀ x, D x → ∃ nd, s.table.get x = some (.comp nd) ∧ x ∉ s.locs ∧ σ x ≠ none ∧ nd.res ≠ none ∧
    AllClean nd.succs ∧ ∀ e ∈ nd.succs, EdgeOK sig s.table σ D e.edge
  pur : s.purity = sig.pu
  acyc : Acyc s.table
  fixed : ∀ l n, l.isStruct = true → s.table.get l = some n → σ l = n.cont
  pureRes : sig.pu = true → ∀ l nd w, l.isStruct = true → s.table.get l = some (.comp nd) → nd.res = some w →
    ∃ k, (Ref.recN sig.full env k).frc [] σ l = some (σ, w)

/-- The observed location is up to date and its value is not the one the edge recorded. -/
def EdgeChanged (sig : Sig) (t : Table V) (σ : Store V) (D : Loc → Prop) (e : Edge V) : Prop :=
  ∃ c, σ e.loc = some c ∧
    match sig e.loc with
    | .cell _ => ¬ e.dep.okVal c
    | .thunk _ _ _ => D e.loc ∧ ∃ nd w, t.get e.loc = some (.comp nd) ∧ nd.res = some w ∧ ¬ e.dep.okVal w

/-- The content of `x` in the table `t` is not the one that `x` has in the (later) store `σ`. -/
def Realloc (t : Table V) (σ : Store V) (x : Loc) : Prop := ∃ n c, t.get x = some n ∧ σ x = some c ∧ n.cont ≠ some c

/-- Why the thunk `nd` of the table `t` had to be re-evaluated: one of its observations has changed, or something it has
allocated was re-allocated with another content. -/
def Why (sig : Sig) (t : Table V) (es : List (Succ V)) (t' : Table V) (σ' : Store V) (D' : Loc → Prop) : Prop :=
  ∃ e ∈ es, (e.effect = .observe ∧ EdgeChanged sig t' σ' D' e.edge) ∨
    (e.effect = .allocate ∧ (KeyDirty es .allocate e.loc ∨ Realloc t σ' e.loc))

/-- The thunks that were run between two states, `rs`, and what happened to the others. -/
structure RunsOK (sig : Sig) (s : St V) (D : Loc → Prop) (s' : St V) (σ' : Store V) (D' : Loc → Prop) (rs : List Loc) : Prop where
  runs : s'.runs = rs ++ s.runs
  nodup : rs.Nodup
  once : ∀ x ∈ rs, ¬ D x ∧ D' x ∧ sig.only x = true
  why : ∀ x ∈ rs, ∀ nd, s.table.get x = some (.comp nd) → nd.res = none ∨ σ' x ≠ some nd.arg ∨ Why sig s.table nd.succs s'.table σ' D'
  keep : ∀ x, x ∉ rs → ∀ nd, s.table.get x = some (.comp nd) → ∃ nd', s'.table.get x = some (.comp nd') ∧
    ((σ' x ≠ none ∧ σ' x ≠ some nd.arg) ∨
     (nd'.arg = nd.arg ∧ nd'.res = nd.res ∧ nd'.succs.map Succ.edge = nd.succs.map Succ.edge ∧
      ∀ y, KeyDirty nd'.succs .allocate y → KeyDirty nd.succs .allocate y ∨ Realloc s.table σ' y))
  old : ∀ x n', s'.table.get x = some n' → σ' x = none → ∃ n, s.table.get x = some n ∧ n'.cont = n.cont

/-- How an operation may change the state, in the context of the thunks `anc` being evaluated or cleaned. -/
structure Post (sig : Sig) (env : Env V) (anc : List Loc) (s : St V) (σ : Store V) (D : Loc → Prop)
    (s' : St V) (σ' : Store V) (D' : Loc → Prop) : Prop where
  inv : Inv sig env s' σ' D'
  locs : s'.locs = s.locs
  path : s'.path = s.path
  ign : s'.ignoreNominal = s.ignoreNominal
  imm : SMono sig s.table s'.table
  smono : Ext σ σ'
  dmono : ∀ x, D x → D' x
  keepD : ∀ x, D x → ∀ nd, s.table.get x = some (.comp nd) → ∃ nd', s'.table.get x = some (.comp nd') ∧ nd'.res = nd.res
  ran : ∃ rs, RunsOK sig s D s' σ' D' rs
  cost : Paid s s'
  keepA : ∀ b ∈ anc, ∀ nd, s.table.get b = some (.comp nd) → ∃ nd', s'.table.get b = some (.comp nd') ∧
    nd'.res = nd.res ∧ nd'.succs.map Succ.edge = nd.succs.map Succ.edge ∧
    (∀ eff x, KeyDirty nd.succs eff x → KeyDirty nd'.succs eff x) ∧
    (∀ e ∈ nd.succs, EdgeOK sig s.table σ D e.edge → KeyClean nd.succs e.effect e.loc → KeyClean nd'.succs e.effect e.loc)

/-- `anc` is a context: it contains the stack, and all its members exist. -/
structure AncOK (s : St V) (σ : Store V) (anc : List Loc) : Prop where
  stk : ∀ l ∈ s.locs, l ∈ anc
  dom : ∀ b ∈ anc, σ b ≠ none

variable {sig : Sig} {env : Env V} {s s' s'' : St V} {σ σ' σ'' : Store V} {D D' D'' : Loc → Prop} {anc : List Loc}

/-! ### Elementary facts -/

theorem EdgeOK.mono {t t' : Table V} {e : Edge V} (h : EdgeOK sig t σ D e) (hs : Ext σ σ') (hd : ∀ x, D x → D' x)
    (hk : ∀ x, D x → ∀ nd, t.get x = some (.comp nd) → ∃ nd', t'.get x = some (.comp nd') ∧ nd'.res = nd.res) :
    EdgeOK sig t' σ' D' e := by
  obtain ⟨c, h1, h2⟩ := h
  refine ⟨c, hs _ _ h1, ?_⟩
  cases he : e.effect
  · rw [he] at h2
    cases hk' : sig e.loc
    · rw [hk'] at h2; exact h2
    · rw [hk'] at h2
      obtain ⟨g1, nd, w, g2, g3, g4⟩ := h2
      obtain ⟨nd', g5, g6⟩ := hk _ g1 nd g2
      exact ⟨hd _ g1, nd', w, g5, g6.trans g3, g4⟩
  · rw [he] at h2; exact h2

theorem Post.edgeOK (h : Post sig env anc s σ D s' σ' D') {e : Edge V} (he : EdgeOK sig s.table σ D e) :
    EdgeOK sig s'.table σ' D' e := he.mono h.smono h.dmono h.keepD

theorem EdgeChanged.mono {t t' : Table V} {e : Edge V} (h : EdgeChanged sig t σ D e) (hs : Ext σ σ') (hd : ∀ x, D x → D' x)
    (hk : ∀ x, D x → ∀ nd, t.get x = some (.comp nd) → ∃ nd', t'.get x = some (.comp nd') ∧ nd'.res = nd.res) :
    EdgeChanged sig t' σ' D' e := by
  obtain ⟨c, h1, h2⟩ := h
  refine ⟨c, hs _ _ h1, ?_⟩
  cases hk' : sig e.loc
  · rw [hk'] at h2; exact h2
  · rw [hk'] at h2
    obtain ⟨g1, nd, w, g2, g3, g4⟩ := h2
    obtain ⟨nd', g5, g6⟩ := hk _ g1 nd g2
    exact ⟨hd _ g1, nd', w, g5, g6.trans g3, g4⟩

theorem Realloc.mono {t : Table V} {x : Loc} (h : Realloc t σ x) (hs : Ext σ σ') : Realloc t σ' x := by
  obtain ⟨n, c, h1, h2, h3⟩ := h
  exact ⟨n, c, h1, hs _ _ h2, h3⟩

theorem Why.mono {t t' t'' : Table V} {es : List (Succ V)} (h : Why sig t es t' σ D) (hs : Ext σ σ') (hd : ∀ x, D x → D' x)
    (hk : ∀ x, D x → ∀ nd, t'.get x = some (.comp nd) → ∃ nd', t''.get x = some (.comp nd') ∧ nd'.res = nd.res) :
    Why sig t es t'' σ' D' := by
  obtain ⟨e, he, ⟨h1, h2⟩ | ⟨h1, h2⟩⟩ := h
  · exact ⟨e, he, .inl ⟨h1, h2.mono hs hd hk⟩⟩
  · exact ⟨e, he, .inr ⟨h1, h2.imp id (fun h => h.mono hs)⟩⟩

/-- Reasons carry over to an earlier table. -/
theorem Why.back {t0 t t' : Table V} {es0 es : List (Succ V)} (h : Why sig t es t' σ D)
    (he : es.map Succ.edge = es0.map Succ.edge)
    (hd : ∀ y, KeyDirty es .allocate y → KeyDirty es0 .allocate y ∨ Realloc t0 σ y)
    (hr : ∀ y, Realloc t σ y → Realloc t0 σ y) : Why sig t0 es0 t' σ D := by
  obtain ⟨e, hm, h⟩ := h
  have : e.edge ∈ es0.map Succ.edge := by rw [← he]; exact List.mem_map_of_mem hm
  obtain ⟨e0, hm0, hee⟩ := List.mem_map.1 this
  have hl : e0.loc = e.loc := congrArg Edge.loc hee
  have hf : e0.effect = e.effect := congrArg Edge.effect hee
  refine ⟨e0, hm0, ?_⟩
  rw [hf, hl, hee]
  rcases h with h | ⟨h1, h2 | h2⟩
  · exact .inl h
  · exact .inr ⟨h1, hd _ h2⟩
  · exact .inr ⟨h1, .inr (hr _ h2)⟩

theorem RunsOK.realloc {rs : List Loc} (h : RunsOK sig s D s' σ' D' rs) (hi : Inv sig env s' σ' D') (hs : Ext σ' σ'') {y : Loc}
    (hr : Realloc s'.table σ'' y) : Realloc s.table σ'' y := by
  obtain ⟨n, c, h1, h2, h3⟩ := hr
  cases hv : σ' y with
  | none =>
    obtain ⟨n0, k1, k2⟩ := h.old y n h1 hv
    exact ⟨n0, c, k1, h2, by rw [← k2]; exact h3⟩
  | some c' =>
    obtain ⟨n1, k1, k2⟩ := hi.store y c' hv
    rw [h1] at k1; cases k1
    rw [hs _ _ hv] at h2; cases h2
    exact absurd k2 h3

theorem RunsOK.trans {rs1 rs2 : List Loc} (h1 : RunsOK sig s D s' σ' D' rs1) (h2 : RunsOK sig s' D' s'' σ'' D'' rs2)
    (hi : Inv sig env s' σ' D') (hs : Ext σ' σ'') (hd0 : ∀ x, D x → D' x) (hd : ∀ x, D' x → D'' x)
    (hk : ∀ x, D' x → ∀ nd, s'.table.get x = some (.comp nd) → ∃ nd', s''.table.get x = some (.comp nd') ∧ nd'.res = nd.res) :
    RunsOK sig s D s'' σ'' D'' (rs2 ++ rs1) where
  runs := by rw [h2.runs, h1.runs, List.append_assoc]
  nodup := by
    rw [List.nodup_append]
    refine ⟨h2.nodup, h1.nodup, ?_⟩
    rintro a ha b hb rfl
    exact (h2.once a ha).1 (h1.once a hb).2.1
  once := by
    intro x hx
    rcases List.mem_append.1 hx with hx | hx
    · exact ⟨fun h => (h2.once x hx).1 (hd0 x h), (h2.once x hx).2⟩
    · exact ⟨(h1.once x hx).1, hd x (h1.once x hx).2.1, (h1.once x hx).2.2⟩
  why := by
    intro x hx nd hn
    by_cases hx1 : x ∈ rs1
    · rcases h1.why x hx1 nd hn with h | h | h
      · exact .inl h
      · obtain ⟨_, _, _, k3, _⟩ := hi.settled x (h1.once x hx1).2.1
        cases hv : σ' x with
        | none => exact absurd hv k3
        | some a => rw [hv] at h; right; left; rw [hs _ _ hv]; exact h
      · exact .inr (.inr (h.mono hs hd hk))
    · have hx2 : x ∈ rs2 := by
        rcases List.mem_append.1 hx with hx | hx
        · exact hx
        · exact absurd hx hx1
      obtain ⟨nd', g1, g2⟩ := h1.keep x hx1 nd hn
      rcases g2 with ⟨g2, g3⟩ | ⟨g2, g3, g4, g5⟩
      · cases hv : σ' x with
        | none => exact absurd hv g2
        | some a => rw [hv] at g3; right; left; rw [hs _ _ hv]; exact g3
      · rcases h2.why x hx2 nd' g1 with h | h | h
        · exact .inl (g3 ▸ h)
        · exact .inr (.inl (g2 ▸ h))
        · exact .inr (.inr (h.back g4 (fun y hy => (g5 y hy).imp id (fun h => h.mono hs))
            (fun y hy => h1.realloc hi hs hy)))
  keep := by
    intro x hx nd hn
    have hx2 : x ∉ rs2 := fun h => hx (List.mem_append_left _ h)
    have hx1 : x ∉ rs1 := fun h => hx (List.mem_append_right _ h)
    obtain ⟨nd', g1, g2⟩ := h1.keep x hx1 nd hn
    obtain ⟨nd'', k1, k2⟩ := h2.keep x hx2 nd' g1
    refine ⟨nd'', k1, ?_⟩
    rcases g2 with ⟨g2, g3⟩ | ⟨g2, g3, g4, g5⟩
    · left
      cases hv : σ' x with
      | none => exact absurd hv g2
      | some a => rw [hv] at g3; rw [hs _ _ hv]; exact ⟨by simp, g3⟩
    · rcases k2 with k2 | ⟨k2, k3, k4, k5⟩
      · left; rw [← g2]; exact k2
      · right
        refine ⟨k2.trans g2, k3.trans g3, k4.trans g4, fun y hy => ?_⟩
        rcases k5 y hy with h | h
        · exact (g5 y h).imp id (fun h => h.mono hs)
        · exact .inr (h1.realloc hi hs h)
  old := by
    intro x n hn hv
    obtain ⟨n1, k1, k2⟩ := h2.old x n hn hv
    have hv1 : σ' x = none := by
      cases hv1 : σ' x with
      | none => rfl
      | some a => rw [hs _ _ hv1] at hv; cases hv
    obtain ⟨n0, j1, j2⟩ := h1.old x n1 k1 hv1
    exact ⟨n0, j1, k2.trans j2⟩

/-- Nothing was run, the table and what was settled are the same. -/
theorem RunsOK.idle (ht : s'.table = s.table) (hr : s'.runs = s.runs) :
    RunsOK sig s D s' σ' D' [] where
  runs := hr
  nodup := List.nodup_nil
  once := fun x hx => by cases hx
  why := fun x hx => by cases hx
  keep := fun x _ nd hn => ⟨nd, by rw [ht]; exact hn, .inr ⟨rfl, rfl, rfl, fun _ h => .inl h⟩⟩
  old := fun x n hn _ => ⟨n, by rw [← ht]; exact hn, rfl⟩

theorem Post.trans (h1 : Post sig env anc s σ D s' σ' D') (h2 : Post sig env anc s' σ' D' s'' σ'' D'') :
    Post sig env anc s σ D s'' σ'' D'' where
  inv := h2.inv
  locs := h2.locs.trans h1.locs
  path := h2.path.trans h1.path
  ign := h2.ign.trans h1.ign
  imm := h1.imm.trans h2.imm
  smono := h1.smono.trans h2.smono
  dmono := fun x hx => h2.dmono x (h1.dmono x hx)
  keepD := by
    intro x hx nd hn
    obtain ⟨nd', g1, g2⟩ := h1.keepD x hx nd hn
    obtain ⟨nd'', g3, g4⟩ := h2.keepD x (h1.dmono x hx) nd' g1
    exact ⟨nd'', g3, g4.trans g2⟩
  ran := by
    obtain ⟨rs1, r1⟩ := h1.ran
    obtain ⟨rs2, r2⟩ := h2.ran
    exact ⟨rs2 ++ rs1, r1.trans r2 h1.inv h2.smono h1.dmono h2.dmono h2.keepD⟩
  cost := h1.cost.trans h2.cost
  keepA := by
    intro b hb nd hn
    obtain ⟨nd', g1, g2, g3, g4, g5⟩ := h1.keepA b hb nd hn
    obtain ⟨nd'', k1, k2, k3, k4, k5⟩ := h2.keepA b hb nd' g1
    refine ⟨nd'', k1, k2.trans g2, k3.trans g3, fun eff x h => k4 _ _ (g4 _ _ h), ?_⟩
    intro e he hok hk
    have : e.edge ∈ nd'.succs.map Succ.edge := by rw [g3]; exact List.mem_map_of_mem he
    obtain ⟨e', he', hee⟩ := List.mem_map.1 this
    have hl : e'.loc = e.loc := congrArg Edge.loc hee
    have hf : e'.effect = e.effect := congrArg Edge.effect hee
    have := k5 e' he' (by rw [hee]; exact h1.edgeOK hok) (by rw [hl, hf]; exact g5 e he hok hk)
    rwa [hl, hf] at this

theorem Post.weaken {anc' : List Loc} (h : Post sig env anc s σ D s' σ' D') (hsub : ∀ x ∈ anc', x ∈ anc) :
    Post sig env anc' s σ D s' σ' D' :=
  { h with keepA := fun b hb => h.keepA b (hsub b hb) }

theorem AncOK.post {s'' : St V} (h : AncOK s σ anc) (hl : s''.locs = s.locs) (hs : Ext σ σ') : AncOK s'' σ' anc where
  stk := by rw [hl]; exact h.stk
  dom := by
    intro b hb h0
    cases hv : σ b with
    | none => exact h.dom b hb hv
    | some v => rw [hs b v hv] at h0; cases h0

theorem AncOK.cons {l : Loc} (h : AncOK s σ anc) (hl : σ l ≠ none) : AncOK s σ (l :: anc) where
  stk := fun x hx => List.mem_cons_of_mem _ (h.stk x hx)
  dom := by
    intro b hb
    rcases List.mem_cons.1 hb with rfl | hb
    · exact hl
    · exact h.dom b hb

/-- The invariant does not look at the trace, the namespace, or recorded frame edges. -/
theorem Inv.congr (h : Inv sig env s σ D) (ht : s'.table = s.table) (hl : s'.locs = s.locs)
    (hi : s'.purity = s.purity) : Inv sig env s' σ D where
  graph := by rw [ht]; exact h.graph
  clean := by
    intro p nd e h1 h2 h3
    rw [ht] at h1
    rw [ht, hl]
    exact h.clean p nd e h1 h2 h3
  nodup := by rw [hl]; exact h.nodup
  stk := by rw [hl, ht]; exact h.stk
  replay := by rw [hl, ht]; exact h.replay
  store := by rw [ht]; exact h.store
  settled := by rw [hl, ht]; exact h.settled
  pur := hi.trans h.pur
  acyc := by rw [ht]; exact h.acyc
  fixed := by rw [ht]; exact h.fixed
  pureRes := by rw [ht]; exact h.pureRes

/-- The trace grows without events of cleaning. -/
macro "log_paid" : tactic => `(tactic| first | exact LogPaid.refl _ | exact Nat.le_refl _ | assumption)

/-- A step that leaves the table alone. -/
theorem Post.idle (h : Inv sig env s σ D) (ht : s'.table = s.table) (hl : s'.locs = s.locs)
    (hi : s'.ignoreNominal = s.ignoreNominal) (hp : s'.path = s.path) (hpu : s'.purity = s.purity := by rfl)
    (hr : s'.runs = s.runs := by rfl) (hlog : LogPaid s.log s'.log := by log_paid) :
    Post sig env anc s σ D s' σ D where
  cost := hlog.paid ht
  ran := ⟨[], RunsOK.idle ht hr⟩
  inv := h.congr ht hl hpu
  locs := hl
  path := hp
  ign := hi
  imm := by rw [ht]; exact SMono.refl _ _
  smono := Ext.refl _
  dmono := fun _ h => h
  keepD := fun x _ nd hn => ⟨nd, by rw [ht]; exact hn, rfl⟩
  keepA := fun b _ nd hn => ⟨nd, by rw [ht]; exact hn, rfl, rfl, fun _ _ h => h, fun _ _ _ h => h⟩

/-- The last state may be changed in its trace and frame edges. -/
theorem Post.right (h : Post sig env anc s σ D s' σ' D') (ht : s''.table = s'.table) (hl : s''.locs = s'.locs)
    (hi : s''.ignoreNominal = s'.ignoreNominal) (hp : s''.path = s'.path) (hpu : s''.purity = s'.purity := by rfl)
    (hr : s''.runs = s'.runs := by rfl) (hlog : LogPaid s'.log s''.log := by log_paid) :
    Post sig env anc s σ D s'' σ' D' :=
  h.trans (Post.idle h.inv ht hl hi hp hpu hr hlog)

/-- The first state may be changed in its trace and frame edges. -/
theorem Post.left (hI : Inv sig env s σ D) (h : Post sig env anc s' σ D s'' σ' D') (ht : s'.table = s.table)
    (hl : s'.locs = s.locs) (hi : s'.ignoreNominal = s.ignoreNominal) (hp : s'.path = s.path)
    (hpu : s'.purity = s.purity := by rfl) (hr : s'.runs = s.runs := by rfl) (hlog : LogPaid s.log s'.log := by log_paid) :
    Post sig env anc s σ D s'' σ' D' :=
  (Post.idle hI ht hl hi hp hpu hr hlog).trans h

/-- Only the cost looks at the trace. -/
theorem Post.relog (h : Post sig env anc s σ D s' σ' D') {lg lg' : List Ev}
    (hc : cleanRecs lg' + dirtyVisits lg + tableDirty s'.table ≤ cleanRecs lg + dirtyVisits lg' + tableDirty s.table) :
    Post sig env anc { s with log := lg } σ D { s' with log := lg' } σ' D' where
  ran := by
    obtain ⟨rs, r⟩ := h.ran
    exact ⟨rs, ⟨r.runs, r.nodup, r.once, r.why, r.keep, r.old⟩⟩
  inv := h.inv.congr rfl rfl rfl
  locs := h.locs
  path := h.path
  ign := h.ign
  imm := h.imm
  smono := h.smono
  dmono := h.dmono
  keepD := h.keepD
  keepA := h.keepA
  cost := hc

/-- An event of cleaning may be added in front. -/
theorem Post.shift (h : Post sig env anc s σ D s' σ' D') (x : Option Loc) (y : Loc) :
    Post sig env anc { s with log := .begin .cleanRec x y :: s.log } σ D { s' with log := .begin .cleanRec x y :: s'.log } σ' D' := by
  refine h.relog ?_
  have := h.cost
  unfold Paid at this
  show cleanRecs s'.log + 1 + dirtyVisits s.log + tableDirty s'.table ≤ cleanRecs s.log + 1 + dirtyVisits s'.log + tableDirty s.table
  omega

theorem Inv.thunkKind (h : Inv sig env s σ D) {x : Loc} {nd : CompNode V} (hx : s.table.get x = some (.comp nd)) :
    sig x = .thunk nd.ty nd.pp nd.fn := h.graph.wf x _ hx

theorem Inv.cellKind (h : Inv sig env s σ D) {x : Loc} {nd : MutNode V} (hx : s.table.get x = some (.mut nd)) :
    sig x = .cell nd.ty := (h.graph.wf x _ hx).1

theorem Inv.getCell (h : Inv sig env s σ D) {x : Loc} {ty : Ty} (hx : sig x = .cell ty) (hv : Vis sig x) {n : Node V}
    (hn : s.table.get x = some n) : ∃ nd, n = .mut nd ∧ nd.ty = ty := by
  have := h.graph.wf x n hn
  match n with
  | .comp nd => have this : sig x = _ := this; rw [hx] at this; cases this
  | .mut nd => have this := this.1; rw [hx] at this; cases this; exact ⟨nd, rfl, rfl⟩
  | .pure nd => exact (NodeWf.pure_vis this hv).elim

theorem Inv.getPure (h : Inv sig env s σ D) {x : Loc} {ty : Ty} (hx : sig x = .cell ty) (hs : x.isStruct = true) (hp : sig.pu = true) {n : Node V}
    (hn : s.table.get x = some n) : ∃ nd, n = .pure nd ∧ nd.ty = ty := by
  have := h.graph.wf x n hn
  match n with
  | .comp nd => have this : sig x = _ := this; rw [hx] at this; cases this
  | .mut nd => have := this.2 _ hx hs; rw [hp] at this; cases this
  | .pure nd => have this := this.1; rw [hx] at this; cases this; exact ⟨nd, rfl, rfl⟩

theorem Inv.getThunk (h : Inv sig env s σ D) {x : Loc} {ty : Ty} {pp : ProgPt} {fn : FnId} (hx : sig x = .thunk ty pp fn) {n : Node V}
    (hn : s.table.get x = some n) : ∃ nd, n = .comp nd ∧ nd.ty = ty ∧ nd.pp = pp ∧ nd.fn = fn := by
  have := h.graph.wf x n hn
  match n with
  | .comp nd => have this : sig x = _ := this; rw [hx] at this; cases this; exact ⟨nd, rfl, rfl, rfl, rfl⟩
  | .mut nd => have this := this.1; rw [hx] at this; cases this
  | .pure nd => have this := this.1; rw [hx] at this; cases this

theorem Inv.storeCell (h : Inv sig env s σ D) {x : Loc} {ty : Ty} {v : V} (hx : sig x = .cell ty) (hvis : Vis sig x) (hv : σ x = some v) :
    ∃ nd, s.table.get x = some (.mut nd) ∧ nd.ty = ty ∧ nd.val = v := by
  obtain ⟨n, h1, h2⟩ := h.store x v hv
  obtain ⟨nd, rfl, h3⟩ := h.getCell hx hvis h1
  cases h2
  exact ⟨nd, h1, h3, rfl⟩

theorem Inv.storePure (h : Inv sig env s σ D) {x : Loc} {ty : Ty} {v : V} (hx : sig x = .cell ty) (hs : x.isStruct = true) (hp : sig.pu = true)
    (hv : σ x = some v) : ∃ nd, s.table.get x = some (.pure nd) ∧ nd.ty = ty ∧ nd.val = v := by
  obtain ⟨n, h1, h2⟩ := h.store x v hv
  obtain ⟨nd, rfl, h3⟩ := h.getPure hx hs hp h1
  cases h2
  exact ⟨nd, h1, h3, rfl⟩

theorem Inv.storeThunk (h : Inv sig env s σ D) {x : Loc} {ty : Ty} {pp : ProgPt} {fn : FnId} {v : V} (hx : sig x = .thunk ty pp fn)
    (hv : σ x = some v) : ∃ nd, s.table.get x = some (.comp nd) ∧ nd.ty = ty ∧ nd.pp = pp ∧ nd.fn = fn ∧ nd.arg = v := by
  obtain ⟨n, h1, h2⟩ := h.store x v hv
  obtain ⟨nd, rfl, h3, h4, h5⟩ := h.getThunk hx h1
  cases h2
  exact ⟨nd, h1, h3, h4, h5, rfl⟩

/-- Allocating a known structural location again changes nothing. -/
theorem Inv.allocKnown (h : Inv sig env s σ D) {x : Loc} {c : V} (hk : KnownS s.table x c) (ha : Ref.alloc σ x c = some σ') :
    σ' = σ ∧ σ x = some c := by
  obtain ⟨h1, n, h2, h3⟩ := hk
  have := h.fixed x n h1 h2
  rw [h3] at this
  rw [Ref.alloc_dec, this] at ha
  simp only [if_true] at ha
  cases ha
  exact ⟨rfl, this⟩

/-- Taking over a location of the table into the reference store. -/
theorem Inv.extend (h : Inv sig env s σ D) {l : Loc} {v : V} {n : Node V} (hn : s.table.get l = some n)
    (hc : n.cont = some v) (ha : Ref.alloc σ l v = some σ') : Inv sig env s σ' D := by
  obtain ⟨hext, _⟩ := Ref.alloc_ext ha
  refine { h with store := ?_, settled := ?_, fixed := ?_, pureRes := ?_ }
  · intro x w hx
    rw [Ref.alloc_dec] at ha
    split at ha
    · cases ha
      unfold upd at hx
      split at hx
      · cases hx; subst_vars; exact ⟨n, hn, hc⟩
      · exact h.store x w hx
    · split at ha
      · cases ha; exact h.store x w hx
      · cases ha
  · intro x hx
    obtain ⟨nd, g1, g2, g3, g4, g5, g6⟩ := h.settled x hx
    refine ⟨nd, g1, g2, ?_, g4, g5, ?_⟩
    · intro h0
      cases hv : σ x with
      | none => exact g3 hv
      | some w => rw [hext x w hv] at h0; cases h0
    · intro e he
      exact (g6 e he).mono hext (fun _ h => h) (fun y _ nd h => ⟨nd, h, rfl⟩)
  · intro x m hx hm
    have := h.fixed x m hx hm
    obtain ⟨c, hc'⟩ := m.cont_some
    rw [hc'] at this ⊢
    exact hext _ _ this
  · intro hp x nd w hx hn hr
    obtain ⟨k, hk⟩ := h.pureRes hp x nd w hx hn hr
    exact ⟨k, Ref.frc_larger hk hext⟩

theorem Post.extend (h : Inv sig env s σ D) {l : Loc} {v : V} {n : Node V} (hn : s.table.get l = some n)
    (hc : n.cont = some v) (ha : Ref.alloc σ l v = some σ') : Post sig env anc s σ D s σ' D where
  cost := Paid.refl _
  ran := ⟨[], RunsOK.idle rfl rfl⟩
  inv := h.extend hn hc ha
  locs := rfl
  path := rfl
  ign := rfl
  imm := SMono.refl _ _
  smono := (Ref.alloc_ext ha).1
  dmono := fun _ h => h
  keepD := fun x _ nd hn => ⟨nd, hn, rfl⟩
  keepA := fun b _ nd hn => ⟨nd, hn, rfl, rfl, fun _ _ h => h, fun _ _ _ h => h⟩

/-- A thunk with only clean, up-to-date edges is settled. -/
theorem Inv.settle (h : Inv sig env s σ D) {l : Loc} {nd : CompNode V} (hn : s.table.get l = some (.comp nd))
    (hl : l ∉ s.locs) (hσ : σ l ≠ none) (hr : nd.res ≠ none) (hc : AllClean nd.succs)
    (he : ∀ e ∈ nd.succs, EdgeOK sig s.table σ D e.edge) : Inv sig env s σ (fun x => x = l ∨ D x) := by
  refine { h with settled := ?_ }
  have hm : ∀ e, EdgeOK sig s.table σ D e → EdgeOK sig s.table σ (fun x => x = l ∨ D x) e :=
    fun e he => he.mono (Ext.refl _) (fun _ h => .inr h) (fun y _ nd h => ⟨nd, h, rfl⟩)
  intro x hx
  rcases hx with rfl | hx
  · exact ⟨nd, hn, hl, hσ, hr, hc, fun e h => hm _ (he e h)⟩
  · obtain ⟨nd, g1, g2, g3, g4, g5, g6⟩ := h.settled x hx
    exact ⟨nd, g1, g2, g3, g4, g5, fun e h => hm _ (g6 e h)⟩

theorem Post.settle (h : Inv sig env s σ D) {l : Loc} {nd : CompNode V} (hn : s.table.get l = some (.comp nd))
    (hl : l ∉ s.locs) (hσ : σ l ≠ none) (hr : nd.res ≠ none) (hc : AllClean nd.succs)
    (he : ∀ e ∈ nd.succs, EdgeOK sig s.table σ D e.edge) : Post sig env anc s σ D s σ (fun x => x = l ∨ D x) where
  cost := Paid.refl _
  ran := ⟨[], RunsOK.idle rfl rfl⟩
  inv := h.settle hn hl hσ hr hc he
  locs := rfl
  path := rfl
  ign := rfl
  imm := SMono.refl _ _
  smono := Ext.refl _
  dmono := fun _ h => .inr h
  keepD := fun x _ nd hn => ⟨nd, hn, rfl⟩
  keepA := fun b _ nd hn => ⟨nd, hn, rfl, rfl, fun _ _ h => h, fun _ _ _ h => h⟩

/-! ### A fresh location -/

theorem Inv.insert (h : Inv sig env s σ D) {l : Loc} (hl : s.table.get l = none) {n : Node V} (hw : NodeWf sig l n)
    (hp : n.preds = []) (hs : n.succsList = []) (hr : ∀ nd, n = .comp nd → nd.res = none) {v : V} (hc : n.cont = some v)
    (ha : Ref.alloc σ l v = some σ') : Inv sig env { s with table := s.table.put l n } σ' D := by
  obtain ⟨hext, hal⟩ := Ref.alloc_ext ha
  have hσl : σ l = none := by
    cases hv : σ l with
    | none => rfl
    | some w => obtain ⟨m, g1, _⟩ := h.store l w hv; rw [hl] at g1; cases g1
  have hσ' : ∀ x, x ≠ l → σ' x = σ x := by
    intro x hx
    rw [Ref.alloc_dec, hσl] at ha
    cases ha
    unfold upd; rw [if_neg hx]
  have hne : ∀ x m, s.table.get x = some m → x ≠ l := by
    rintro x m hx rfl; rw [hl] at hx; cases hx
  have hold : ∀ x m, (s.table.put l n).get x = some m → (x = l ∧ m = n) ∨ (x ≠ l ∧ s.table.get x = some m) := by
    intro x m hx
    rw [Table.get_put] at hx
    split at hx
    · cases hx; exact .inl ⟨by assumption, rfl⟩
    · exact .inr ⟨by assumption, hx⟩
  have hnew : ∀ x m, s.table.get x = some m → (s.table.put l n).get x = some m := by
    intro x m hx
    rw [Table.get_put_ne _ _ (hne x m hx)]; exact hx
  have hsu : ∀ nd, Node.comp nd = n → nd.succs = [] := by
    rintro nd rfl; exact hs
  have himm : SMono sig s.table (s.table.put l n) := fun x m _ hm => ⟨m, hnew x m hm, rfl, fun _ _ h => h⟩
  refine ⟨⟨?_, ?_, ?_, ?_, ?_, ?cnt⟩, ?_, h.nodup, ?_, ?_, ?_, ?_, h.pur, ?acyc, ?fixed, ?pureRes⟩
  case cnt =>
    intro x m p eff hx
    have hsn : ∀ y, succCount y eff (some n) = 0 := fun y => by show recCount y eff (n.succsList.map Succ.edge) = 0; rw [hs]; rfl
    rcases hold x m hx with ⟨rfl, rfl⟩ | ⟨hxne, hx⟩
    · rw [hp]
      refine Eq.symm ?_
      show _ = 0
      rw [Table.get_put]
      split
      · exact hsn _
      · rcases hg : s.table.get p with _ | m'
        · rfl
        · match m' with
          | .mut _ => rfl
          | .pure _ => rfl
          | .comp nd =>
            refine recCount_zero ?_
            intro e he
            obtain ⟨m, g1, _⟩ := h.graph.fwd p nd e hg he
            exact hne _ _ g1
    · have := h.graph.cnt x m p eff hx
      rw [this, Table.get_put]
      split
      · rename_i hpl; rw [hpl, hl, hsn]; rfl
      · rfl
  case fixed =>
    intro x m hx hm
    rcases hold x m hm with ⟨rfl, rfl⟩ | ⟨hne, hm⟩
    · rw [hal, hc]
    · rw [hσ' x hne]; exact h.fixed x m hx hm
  case pureRes =>
    intro hpu x nd w hx hm hres
    rcases hold x _ hm with ⟨rfl, hn⟩ | ⟨hne, hm⟩
    · rw [hr nd hn.symm] at hres; cases hres
    · obtain ⟨k, hk⟩ := h.pureRes hpu x nd w hx hm hres
      exact ⟨k, Ref.frc_larger hk hext⟩
  case acyc =>
    refine h.acyc.sub ?_
    rintro p x ⟨nd, e, hx, he, hr⟩
    rcases hold p _ hx with ⟨rfl, hn⟩ | ⟨_, hx⟩
    · rw [hsu nd hn] at he; cases he
    · exact ⟨nd, e, hx, he, hr⟩
  · intro x m hx
    rcases hold x m hx with ⟨rfl, rfl⟩ | ⟨_, hx⟩
    · exact hw
    · exact h.graph.wf x m hx
  · intro p nd e hx he
    rcases hold p _ hx with ⟨rfl, hn⟩ | ⟨_, hx⟩
    · rw [hsu nd hn] at he; cases he
    · obtain ⟨m, g1, g2⟩ := h.graph.fwd p nd e hx he
      exact ⟨m, hnew _ _ g1, g2⟩
  · intro x m q hx hq
    rcases hold x m hx with ⟨rfl, rfl⟩ | ⟨_, hx⟩
    · rw [hp] at hq; cases hq
    · obtain ⟨nd, g1, g2⟩ := h.graph.bwd x m q hx hq
      exact ⟨nd, hnew _ _ g1, g2⟩
  · intro p nd e hx he
    rcases hold p _ hx with ⟨rfl, hn⟩ | ⟨_, hx⟩
    · rw [hsu nd hn] at he; cases he
    · exact h.graph.edge p nd e hx he
  · intro p nd hx
    rcases hold p _ hx with ⟨rfl, hn⟩ | ⟨_, hx⟩
    · rw [hsu nd hn]; intro x e1 hf; cases hf
    · exact h.graph.first p nd hx
  · intro p nd e hx he hk
    rcases hold p _ hx with ⟨rfl, hn⟩ | ⟨_, hx⟩
    · rw [hsu nd hn] at he; cases he
    · rcases h.clean p nd e hx he hk with hg | hg
      · exact hg.elim
      · right
        refine hg.congr ?_
        obtain ⟨m, g1, _⟩ := h.graph.fwd p nd e hx he
        exact Table.get_put_ne _ _ (hne _ _ g1)
  · intro x hx
    obtain ⟨nd, g1, g2⟩ := h.stk x hx
    exact ⟨nd, hnew _ _ g1, g2⟩
  · intro p nd v hx hp hres
    rcases hold p _ hx with ⟨rfl, hn⟩ | ⟨_, hx⟩
    · rw [hr nd hn.symm] at hres; cases hres
    · exact (h.replay p nd v hx hp hres).mono himm
  · intro x v hx
    by_cases hxl : x = l
    · subst hxl
      rw [hal] at hx; cases hx
      exact ⟨n, Table.get_put_self _ _ _, hc⟩
    · rw [hσ' x hxl] at hx
      obtain ⟨m, g1, g2⟩ := h.store x v hx
      exact ⟨m, hnew _ _ g1, g2⟩
  · intro x hx
    obtain ⟨nd, g1, g2, g3, g4, g5, g6⟩ := h.settled x hx
    refine ⟨nd, hnew _ _ g1, g2, ?_, g4, g5, fun e he => ?_⟩
    · rw [hσ' x (hne x _ g1)]; exact g3
    · exact (g6 e he).mono hext (fun _ h => h) (fun y _ nd hy => ⟨nd, hnew _ _ hy, rfl⟩)

theorem Post.insert (h : Inv sig env s σ D) {l : Loc} (hl : s.table.get l = none) {n : Node V} (hw : NodeWf sig l n)
    (hp : n.preds = []) (hs : n.succsList = []) (hr : ∀ nd, n = .comp nd → nd.res = none) {v : V} (hc : n.cont = some v)
    (ha : Ref.alloc σ l v = some σ') : Post sig env anc s σ D { s with table := s.table.put l n } σ' D := by
  have hnew : ∀ x m, s.table.get x = some m → (s.table.put l n).get x = some m := by
    intro x m hx
    have hne : x ≠ l := by rintro rfl; rw [hl] at hx; cases hx
    rw [Table.get_put_ne _ _ hne]; exact hx
  exact {
    inv := h.insert hl hw hp hs hr hc ha
    cost := by
      show _ + _ + tableDirty (s.table.put l n) ≤ _
      rw [tableDirty_insert s.table l n hl, hs]
      exact Nat.le_refl _
    locs := rfl
    path := rfl
    ign := rfl
    imm := fun x m _ hm => ⟨m, hnew x m hm, rfl, fun _ _ h => h⟩
    smono := (Ref.alloc_ext ha).1
    dmono := fun _ h => h
    keepD := fun x _ nd hn => ⟨nd, hnew _ _ hn, rfl⟩
    ran := ⟨[], rfl, List.nodup_nil, fun x hx => (by cases hx), fun x hx => (by cases hx),
      fun x _ nd hn => ⟨nd, hnew _ _ hn, .inr ⟨rfl, rfl, rfl, fun _ h => .inl h⟩⟩, by
        intro x m hm hv
        have hxl : x ≠ l := by
          rintro rfl
          rw [(Ref.alloc_ext ha).2] at hv; cases hv
        exact ⟨m, by rw [← hm]; exact (Table.get_put_ne _ _ hxl).symm, rfl⟩⟩
    keepA := fun b _ nd hn => ⟨nd, hnew _ _ hn, rfl, rfl, fun _ _ h => h, fun _ _ _ h => h⟩ }

/-! ### Changing the content of an existing location -/

/-- The set of locations that are up to date. -/
def Settled (sig : Sig) (σ : Store V) (D : Loc → Prop) (x : Loc) : Prop :=
  σ x ≠ none ∧ (∀ ty pp fn, sig x = .thunk ty pp fn → D x)

theorem EdgeOK.settled {t : Table V} {e : Edge V} (h : EdgeOK sig t σ D e) (ho : e.effect = .observe) :
    Settled sig σ D e.loc := by
  obtain ⟨c, h1, h2⟩ := h
  rw [ho] at h2
  refine ⟨by rw [h1]; simp, fun ty pp fn hs => ?_⟩
  rw [hs] at h2
  exact h2.1

theorem EdgeOK.dom {t : Table V} {e : Edge V} (h : EdgeOK sig t σ D e) : σ e.loc ≠ none := by
  obtain ⟨c, h1, _⟩ := h; rw [h1]; simp

/-- Replace the content of `l`, keeping its edges, then run `dirty_alloc`. -/
theorem change_post (h : Inv sig env s σ D) (hanc : AncOK s σ anc) {l : Loc} {n n' : Node V}
    (hn : s.table.get l = some n) (hσ : σ l = none) {v : V} (ha : Ref.alloc σ l v = some σ') (hcv : n'.cont = some v)
    (hnv : n.cont ≠ some v) (hw : NodeWf sig l n') (hp : n'.preds = n.preds)
    (hs : (∃ nd nd', n = .comp nd ∧ n' = .comp nd' ∧ nd'.succs = nd.succs ∧ nd'.res = none) ∨
      ∃ nd nd', n = .mut nd ∧ n' = .mut nd') (lg : List Ev) (hlog : LogPaid s.log lg := by log_paid) :
    ∃ s', dirtyAlloc l { s with table := s.table.put l n', log := lg } = .ok () s' ∧ Post sig env anc s σ D s' σ' D ∧
      s'.stack = s.stack := by
  have hlk : l ∉ s.locs := fun hl => hanc.dom l (hanc.stk l hl) hσ
  have hnom : ∀ x, x.isStruct = true → x ≠ l := by
    rintro x hx rfl
    have := h.fixed x n hx hn
    obtain ⟨c, hc⟩ := n.cont_some
    rw [hσ, hc] at this; cases this
  have hvis : Vis sig l := hw.vis (by
    rcases hs with ⟨_, _, _, rfl, _⟩ | ⟨_, _, _, rfl⟩ <;> (intro nd h; cases h))
  generalize hs1 : ({ s with table := s.table.put l n', log := lg } : St V) = s1
  have ht1 : s1.table = s.table.put l n' := by rw [← hs1]
  have hk1 : s1.locs = s.locs := by rw [← hs1]; rfl
  have hold : ∀ x m, s1.table.get x = some m → (x = l ∧ m = n') ∨ (x ≠ l ∧ s.table.get x = some m) := by
    intro x m hx
    rw [ht1, Table.get_put] at hx
    split at hx
    · cases hx; exact .inl ⟨by assumption, rfl⟩
    · exact .inr ⟨by assumption, hx⟩
  have hnew : ∀ x m, x ≠ l → s.table.get x = some m → s1.table.get x = some m := by
    intro x m hne hx
    rw [ht1, Table.get_put_ne _ _ hne]; exact hx
  have hself : s1.table.get l = some n' := by rw [ht1]; exact Table.get_put_self _ _ _
  -- every thunk of `s1` is a thunk of `s` with the same edges
  have hcomp : ∀ p nd, s1.table.get p = some (.comp nd) →
      ∃ nd0, s.table.get p = some (.comp nd0) ∧ nd.succs = nd0.succs := by
    intro p nd hx
    rcases hold p _ hx with ⟨rfl, hm⟩ | ⟨_, hx⟩
    · rcases hs with ⟨a, b, rfl, rfl, h3, _⟩ | ⟨a, b, rfl, rfl⟩
      · cases hm; exact ⟨a, hn, h3⟩
      · cases hm
    · exact ⟨nd, hx, rfl⟩
  have hcomp' : ∀ p nd, s.table.get p = some (.comp nd) →
      ∃ nd1, s1.table.get p = some (.comp nd1) ∧ nd1.succs = nd.succs := by
    intro p nd hx
    by_cases hpl : p = l
    · subst hpl
      rw [hn] at hx; cases hx
      rcases hs with ⟨a, b, h1, rfl, h3, _⟩ | ⟨a, b, h1, rfl⟩
      · cases h1; exact ⟨b, hself, h3⟩
      · cases h1
    · exact ⟨nd, hnew p _ hpl hx, rfl⟩
  have hg1 : Graph sig s1.table := by
    refine ⟨?_, ?_, ?_, ?_, ?_, ?cnt⟩
    case cnt =>
      refine h.graph.cnt.congr ?_ ?_
      · intro x m hx
        rcases hold x m hx with ⟨rfl, rfl⟩ | ⟨_, hx⟩
        · exact ⟨n, hn, hp⟩
        · exact ⟨m, hx, rfl⟩
      · intro p x eff
        by_cases hpl : p = l
        · subst hpl
          rw [hself, hn]
          rcases hs with ⟨a, b, rfl, rfl, h3, _⟩ | ⟨a, b, rfl, rfl⟩
          · unfold succCount; simp only [Node.succsList]; rw [h3]
          · rfl
        · rcases hg : s.table.get p with _ | m
          · rcases hg' : s1.table.get p with _ | m'
            · rfl
            · rcases hold p m' hg' with ⟨h1, _⟩ | ⟨_, h1⟩
              · exact absurd h1 hpl
              · rw [hg] at h1; cases h1
          · rw [hnew p m hpl hg]
    · intro x m hx
      rcases hold x m hx with ⟨rfl, rfl⟩ | ⟨_, hx⟩
      · exact hw
      · exact h.graph.wf x m hx
    · intro p nd e hx he
      obtain ⟨nd0, hx0, hs0⟩ := hcomp p nd hx
      rw [hs0] at he
      obtain ⟨m, g1, g2⟩ := h.graph.fwd p nd0 e hx0 he
      by_cases hel : e.loc = l
      · refine ⟨n', by rw [hel]; exact hself, ?_⟩
        rw [hel, hn] at g1; cases g1
        rw [hp]; exact g2
      · exact ⟨m, hnew _ _ hel g1, g2⟩
    · intro x m q hx hq
      have : ∃ m0, s.table.get x = some m0 ∧ q ∈ m0.preds := by
        rcases hold x m hx with ⟨rfl, rfl⟩ | ⟨_, hx⟩
        · exact ⟨n, hn, by rw [← hp]; exact hq⟩
        · exact ⟨m, hx, hq⟩
      obtain ⟨m0, hx0, hq0⟩ := this
      obtain ⟨nd, g1, g2⟩ := h.graph.bwd x m0 q hx0 hq0
      obtain ⟨nd1, g3, g4⟩ := hcomp' q.loc nd g1
      exact ⟨nd1, g3, by rw [g4]; exact g2⟩
    · intro p nd e hx he
      obtain ⟨nd0, hx0, hs0⟩ := hcomp p nd hx
      rw [hs0] at he
      exact h.graph.edge p nd0 e hx0 he
    · intro p nd hx
      obtain ⟨nd0, hx0, hs0⟩ := hcomp p nd hx
      rw [hs0]
      exact h.graph.first p nd0 hx0
  have hthunk : ∀ p nd, s1.table.get p = some (.comp nd) → Settled sig σ D p → D p := by
    intro p nd hx hS
    exact hS.2 _ _ _ (hg1.wf p _ hx)
  have hDedge : ∀ p nd e, s1.table.get p = some (.comp nd) → Settled sig σ D p → e ∈ nd.succs →
      EdgeOK sig s.table σ D e.edge := by
    intro p nd e hx hS he
    obtain ⟨nd0, hx0, hs0⟩ := hcomp p nd hx
    obtain ⟨nd2, g1, g2, g3, g4, g5, g6⟩ := h.settled p (hthunk p nd hx hS)
    rw [hx0] at g1; cases g1
    rw [hs0] at he
    exact g6 e he
  have hcl : ClosedS s1 (Settled sig σ D) := by
    intro p nd e hx hS he ho
    exact (hDedge p nd e hx hS he).settled ho
  have hSl : ¬ Settled sig σ D l := fun hS => hS.1 hσ
  obtain ⟨s2, h1, u, c, kp⟩ := dirtyAlloc_inv l s1 (Settled sig σ D) hg1 ⟨n', hself, hvis⟩ hSl hcl
    (by
      intro p nd e hx he ha hel hS
      have := (hDedge p nd e hx hS he).dom
      have hel' : e.edge.loc = l := hel
      rw [hel'] at this
      exact this hσ)
    (by
      intro p nd e hx he hk
      by_cases hel : e.loc = l
      · exact .inl hel
      · right
        obtain ⟨nd0, hx0, hs0⟩ := hcomp p nd hx
        rw [hs0] at he hk
        rcases h.clean p nd0 e hx0 he hk with hg | hg
        · exact hg.elim
        · rw [hk1]
          exact hg.congr (by rw [ht1]; exact Table.get_put_ne _ _ hel))
  have hlocs2 : s2.locs = s.locs := by
    have : s2.locs = s1.locs := by unfold St.locs; rw [u.stack]
    rw [this, hk1]
  have hup : ∀ x, x ≠ l → NodeUp (s.table.get x) (s2.table.get x) := by
    intro x hx
    have := u.tbl x
    rw [ht1, Table.get_put_ne _ _ hx] at this
    exact this
  have hupl : NodeUp (some n') (s2.table.get l) := by
    have := u.tbl l
    rw [hself] at this; exact this
  have hkeepD : ∀ x, D x → ∀ nd, s.table.get x = some (.comp nd) →
      ∃ nd', s2.table.get x = some (.comp nd') ∧ nd'.res = nd.res := by
    intro x hx nd hxn
    have hxl : x ≠ l := by
      rintro rfl
      obtain ⟨_, _, _, g3, _⟩ := h.settled _ hx
      exact g3 hσ
    have hu := hup x hxl
    rw [hxn] at hu
    obtain ⟨es', g1, _⟩ := hu.comp_left
    exact ⟨_, g1, rfl⟩
  have hkeepKey : ∀ p nd nd2, s.table.get p = some (.comp nd) → s2.table.get p = some (.comp nd2) →
      ∀ e ∈ nd.succs, EdgeOK sig s.table σ D e.edge → KeyClean nd.succs e.effect e.loc →
        KeyClean nd2.succs e.effect e.loc := by
    intro p nd nd2 hx hx2 e he hok hk
    obtain ⟨nd1, g1, g2⟩ := hcomp' p nd hx
    refine kp p nd1 nd2 e.effect e.loc ?_ g1 hx2 (by rw [g2]; exact hk)
    cases hef : e.effect
    · right; exact ⟨rfl, hok.settled hef⟩
    · left
      refine ⟨rfl, ?_⟩
      intro hel
      have hd := hok.dom
      have hel' : e.edge.loc = l := hel
      rw [hel'] at hd
      exact hd hσ
  have himm : SMono sig s.table s2.table := SMono.up fun x hx => hup x (hnom x hx)
  have hinv : Inv sig env s2 σ D := by
    refine ⟨hg1.up u.tbl, c, by rw [hlocs2]; exact h.nodup, ?_, ?_, ?_, ?_, ?_, ?acyc, ?fixed, ?pureRes⟩
    case fixed =>
      intro x m hx hm
      have hu := hup x (hnom x hx)
      rw [hm] at hu
      obtain ⟨m0, hm0⟩ := hu.some_right
      rw [hm0] at hu
      rw [hu.cont]; exact h.fixed x m0 hx hm0
    case pureRes =>
      intro hpu x nd w hx hm hr
      have hu := hup x (hnom x hx)
      rw [hm] at hu
      obtain ⟨es, g1, _⟩ := hu.comp_right
      exact h.pureRes hpu x _ w hx g1 hr
    case acyc =>
      refine h.acyc.sub ?_
      rintro p x ⟨nd, e, hx, he, hef, hel⟩
      have hq := u.tbl p
      rw [hx] at hq
      obtain ⟨es, hb, hup'⟩ := hq.comp_right
      obtain ⟨e0, he0, hee⟩ := hup'.mem_right he
      obtain ⟨nd0, k1, k2⟩ := hcomp p _ hb
      exact ⟨nd0, e0, k1, by rw [← k2]; exact he0, (congrArg Edge.effect hee).trans hef, (congrArg Edge.loc hee).trans hel⟩
    · intro x hx
      rw [hlocs2] at hx
      have hxl : x ≠ l := fun he => hlk (he ▸ hx)
      obtain ⟨nd, g1, g2⟩ := h.stk x hx
      have hu := hup x hxl
      rw [g1] at hu
      obtain ⟨es', g3, g4⟩ := hu.comp_left
      rw [g2] at g4
      cases g4
      exact ⟨_, g3, rfl⟩
    · intro p nd v hx hpk hres
      rw [hlocs2] at hpk
      by_cases hpl : p = l
      · subst hpl
        rw [hx] at hupl
        rcases hs with ⟨a, b, rfl, rfl, h3, h4⟩ | ⟨a, b, rfl, rfl⟩
        · obtain ⟨es', g1, _⟩ := hupl.comp_left
          cases g1
          rw [h4] at hres; cases hres
        · cases hupl
      · have hu := hup p hpl
        rw [hx] at hu
        obtain ⟨es, g1, g2⟩ := hu.comp_right
        have := h.replay p _ v g1 hpk hres
        rw [g2.edges]; exact this.mono himm
    · intro x v hx
      have hxl : x ≠ l := by rintro rfl; rw [hσ] at hx; cases hx
      obtain ⟨m, g1, g2⟩ := h.store x v hx
      have hu := hup x hxl
      rw [g1] at hu
      obtain ⟨m', g3⟩ := hu.some_left
      rw [g3] at hu
      exact ⟨m', g3, hu.cont.trans g2⟩
    · intro x hx
      obtain ⟨nd, g1, g2, g3, g4, g5, g6⟩ := h.settled x hx
      have hxl : x ≠ l := by rintro rfl; exact g3 hσ
      have hu := hup x hxl
      rw [g1] at hu
      obtain ⟨es', k1, k2⟩ := hu.comp_left
      refine ⟨_, k1, by rw [hlocs2]; exact g2, g3, g4, ?_, ?_⟩
      · intro e' he'
        obtain ⟨e, he, hee⟩ := k2.mem_right he'
        have hl : e.loc = e'.loc := congrArg Edge.loc hee
        have hf : e.effect = e'.effect := congrArg Edge.effect hee
        rw [← hl, ← hf]
        exact hkeepKey x nd _ g1 k1 e he (g6 e he) (g5 e he)
      · intro e' he'
        obtain ⟨e, he, hee⟩ := k2.mem_right he'
        rw [← hee]
        exact (g6 e he).mono (Ext.refl _) (fun _ h => h) hkeepD
    · rw [u.purity, ← hs1]; exact h.pur
  obtain ⟨n2, hn2, hcn2⟩ : ∃ n2, s2.table.get l = some n2 ∧ n2.cont = some v := by
    obtain ⟨n'', g1⟩ := hupl.some_left
    rw [g1] at hupl
    exact ⟨n'', g1, hupl.cont.trans hcv⟩
  have hal := (Ref.alloc_ext ha).2
  have hran : RunsOK sig s D s2 σ' D [] := by
    refine ⟨by rw [u.runs, ← hs1]; rfl, List.nodup_nil, fun x hx => (by cases hx), fun x hx => (by cases hx), ?_, ?_⟩
    · intro x _ nd hxn
      by_cases hxl : x = l
      · subst hxl
        rw [hn] at hxn; cases hxn
        rcases hs with ⟨a, b, h1, rfl, h3, _⟩ | ⟨a, b, h1, rfl⟩
        · cases h1
          obtain ⟨es', g1, _⟩ := hupl.comp_left
          refine ⟨_, g1, .inl ⟨by rw [hal]; simp, ?_⟩⟩
          rw [hal]; exact fun h => hnv h.symm
        · cases h1
      · have hu := hup x hxl
        rw [hxn] at hu
        obtain ⟨es', g1, g2⟩ := hu.comp_left
        refine ⟨_, g1, .inr ⟨rfl, rfl, g2.edges, fun y hy => ?_⟩⟩
        by_cases hyl : y = l
        · subst hyl
          exact .inr ⟨n, v, hn, hal, hnv⟩
        · left
          obtain ⟨e', he', hd'⟩ := hy
          obtain ⟨e, he, hee⟩ := g2.mem_right (List.mem_of_find?_eq_some he')
          have hm := Succ.matches_iff.1 (List.find?_some he')
          have hel : e.loc = y := (congrArg Edge.loc hee).trans hm.2
          have hef : e.effect = .allocate := (congrArg Edge.effect hee).trans hm.1
          obtain ⟨e1, hf1⟩ := find_of_mem he
          rw [hel, hef] at hf1
          cases hdb : e1.dirty
          · exfalso
            obtain ⟨nd1, j1, j2⟩ := hcomp' x nd hxn
            have := kp x nd1 _ .allocate y (.inl ⟨rfl, hyl⟩) j1 g1 (by rw [j2]; exact ⟨e1, hf1, hdb⟩)
            exact not_clean_of_dirty ⟨e', he', hd'⟩ this
          · exact ⟨e1, hf1, hdb⟩
    · intro x m hm hv
      have hxl : x ≠ l := by rintro rfl; rw [hal] at hv; cases hv
      have hu := hup x hxl
      rw [hm] at hu
      obtain ⟨m0, hm0⟩ := hu.some_right
      rw [hm0] at hu
      exact ⟨m0, hm0, hu.cont⟩
  refine ⟨s2, h1, ⟨hinv.extend hn2 hcn2 ha, hlocs2, ?_, ?_, himm, (Ref.alloc_ext ha).1, fun _ h => h, hkeepD, ⟨[], hran⟩, ?cost, ?_⟩, ?_⟩
  case cost =>
    refine Paid.trans ?_ (dirtyAlloc_paid h1)
    have hss : n'.succsList = n.succsList := by
      rcases hs with ⟨a, b, rfl, rfl, h3, _⟩ | ⟨a, b, rfl, rfl⟩
      · exact h3
      · rfl
    unfold LogPaid at hlog
    rw [← hs1]
    show cleanRecs lg + dirtyVisits s.log + tableDirty (s.table.put l n') ≤ _ + dirtyVisits lg + _
    rw [tableDirty_same s.table l n n' hn hss]
    omega
  · rw [u.path, ← hs1]
  · rw [u.ign, ← hs1]
  · intro b hb nd hbn
    have hbl : b ≠ l := by rintro rfl; exact hanc.dom _ hb hσ
    have hu := hup b hbl
    rw [hbn] at hu
    obtain ⟨es', g1, g2⟩ := hu.comp_left
    exact ⟨_, g1, rfl, g2.edges, fun _ _ h => g2.keyDirty h, hkeepKey b nd _ hbn g1⟩
  · rw [u.stack, ← hs1]

end Adapton
