import Verif.Engine.EditRun
/-
Reading off the recorded dependencies of a thunk that is up to date: its code is replayed on the current values.
-/
set_option linter.unusedSectionVars false
set_option linter.unusedVariables false
namespace Adapton
open Ref (Sig Kind Store Ext)
variable {V : Type} [DecidableEq V]

/-- `w` is what an observer of `a` gets, and is up to date. -/
def UpToDate (sig : Sig) (s : St V) (σ : Store V) (D : Loc → Prop) (a : Loc) (w : V) : Prop :=
  match sig a with
  | .cell _ => σ a = some w
  | .thunk _ _ _ => D a ∧ ∃ nd, s.table.get a = some (.comp nd) ∧ nd.res = some w

section
variable {sig : Sig} {env : Env V} {s s' : St V} {σ σ' : Store V} {D D' : Loc → Prop}

theorem UpToDate.unique {a : Loc} {v w : V} (h1 : UpToDate sig s σ D a v) (h2 : UpToDate sig s σ D a w) : v = w := by
  unfold UpToDate at h1 h2
  rcases hk : sig.kind a with ty | ⟨ty, pp, fn⟩
  · simp only [hk] at h1 h2
    rw [h1] at h2; cases h2; rfl
  · simp only [hk] at h1 h2
    obtain ⟨_, nd, a1, a2⟩ := h1
    obtain ⟨_, nd', b1, b2⟩ := h2
    rw [a1] at b1; cases b1
    rw [a2] at b2; cases b2; rfl

theorem UpToDate.ofEdge {a : Loc} {ty : Ty} {w : V} (h : EdgeOK sig s.table σ D ⟨a, .observe, .force ty w⟩) : UpToDate sig s σ D a w := by
  obtain ⟨c, h1, h2⟩ := h
  simp only at h1 h2
  unfold UpToDate
  split at h2
  · rename_i hk
    rw [hk]
    simp only [Dep.okVal] at h2
    rw [h2]; exact h1
  · rename_i hk
    rw [hk]
    obtain ⟨g1, nd, w', g2, g3, g4⟩ := h2
    simp only [Dep.okVal] at g4
    exact ⟨g1, nd, g2, by rw [g3, g4]⟩

theorem UpToDate.not_changed {a : Loc} {ty : Ty} {w : V} (h : UpToDate sig s σ D a w) : ¬ EdgeChanged sig s.table σ D ⟨a, .observe, .force ty w⟩ := by
  rintro ⟨c, h1, h2⟩
  simp only at h1 h2
  unfold UpToDate at h
  split at h2
  · rename_i hk
    rw [hk] at h
    simp only at h
    rw [h1] at h
    cases h
    exact h2 rfl
  · rename_i hk
    rw [hk] at h
    obtain ⟨_, nd, g1, g2⟩ := h
    obtain ⟨_, nd', w', j1, j2, j3⟩ := h2
    rw [g1] at j1; cases j1
    rw [g2] at j2; cases j2
    exact j3 rfl

/-- All edges are up to date. -/
abbrev AllOK (sig : Sig) (s : St V) (σ : Store V) (D : Loc → Prop) (es : List (Edge V)) : Prop := ∀ e ∈ es, EdgeOK sig s.table σ D e

/-- The edges of an observation. -/
def obsEdge (ty : Ty) (a : Loc) (w : V) : Edge V := ⟨a, .observe, .force ty w⟩
def allocEdge (a : Loc) (arg : V) : Edge V := ⟨a, .allocate, .allocNom arg⟩
def cellEdge (a : Loc) (v : V) : Edge V := ⟨a, .allocate, .allocCell v⟩

/-- Replay, with all edges up to date: the edges `es` are recorded. -/
def Seen (sig : Sig) (env : Env V) (s : St V) (σ : Store V) (D : Loc → Prop) (π : Path) (p : Prog V) (pre es : List (Edge V)) (v : V) : Prop :=
  Replay sig env s.table false π p pre es v ∧ AllOK sig s σ D (pre ++ es)

variable {π : Path} {pre es : List (Edge V)} {v : V}

theorem Seen.ret {w : V} (h : Seen sig env s σ D π (.ret w) pre es v) : v = w ∧ es = [] := by
  obtain ⟨h, _⟩ := h
  cases h; exact ⟨rfl, rfl⟩

/-- An observation is recorded, unless the same was recorded before. -/
theorem Seen.force1 {ty : Ty} {a : Loc} {cyc : Option V} {k : V → Prog V} (h : Seen sig env s σ D π (.force ty a cyc k) pre es v) (hn : a.isStruct = false) :
    ∃ w new es', UpToDate sig s σ D a w ∧ es = new ++ es' ∧ (new = [] ∨ new = [obsEdge ty a w]) ∧ Seen sig env s σ D π (k w) (pre ++ new) es' v := by
  obtain ⟨h, ho⟩ := h
  cases h with
  | @force _ _ _ _ _ _ w _ es' _ h1 h2 =>
    refine ⟨w, [⟨a, .observe, .force ty w⟩], es', UpToDate.ofEdge (ty := ty) (ho _ (by simp)), rfl, .inr rfl, h2, ?_⟩
    intro e he
    exact ho e (by simpa using he)
  | @forceDup _ _ _ _ _ _ w _ _ _ ty' h1 h2 =>
    refine ⟨w, [], es, UpToDate.ofEdge (ty := ty') (ho _ ?_), rfl, .inl rfl, by rw [List.append_nil]; exact h2, by rw [List.append_nil]; exact ho⟩
    exact List.mem_append_left _ (List.mem_of_find?_eq_some h1)
  | forcePure h1 _ => have h2 := h1.1; rw [hn] at h2; cases h2

theorem Seen.force {ty : Ty} {a : Loc} {cyc : Option V} {k : V → Prog V} (h : Seen sig env s σ D π (.force ty a cyc k) pre es v) (hn : a.isStruct = false) :
    ∃ w new es', UpToDate sig s σ D a w ∧ es = new ++ es' ∧ (∀ e ∈ new, e = obsEdge ty a w) ∧ Seen sig env s σ D π (k w) (pre ++ new) es' v := by
  obtain ⟨w, new, es', h1, h2, h3, h4⟩ := h.force1 hn
  refine ⟨w, new, es', h1, h2, ?_, h4⟩
  rcases h3 with rfl | rfl
  · intro e he; cases he
  · intro e he; simpa using he

theorem Seen.thunk {ty : Ty} {n : Name} {pp : ProgPt} {fn : FnId} {arg : V} {k : Loc → Prog V} (h : Seen sig env s σ D π (.thunk ty (.nominal n) pp fn arg k) pre es v) :
    ∃ es', σ ⟨π, .nominal n⟩ = some arg ∧ es = allocEdge ⟨π, .nominal n⟩ arg :: es' ∧
      Seen sig env s σ D π (k ⟨π, .nominal n⟩) (pre ++ [allocEdge ⟨π, .nominal n⟩ arg]) es' v := by
  obtain ⟨h, ho⟩ := h
  have hl : Ref.thunkLoc env false π (.nominal n) pp arg = some ⟨π, .nominal n⟩ := rfl
  cases h with
  | @thunk _ _ _ _ _ _ _ _ l _ es' _ h1 h2 =>
    rw [hl] at h1; cases h1
    refine ⟨es', ?_, rfl, h2, fun e he => ho e (by simpa [allocEdge] using he)⟩
    obtain ⟨c, g1, g2⟩ := ho ⟨⟨π, .nominal n⟩, .allocate, .allocNom arg⟩ (by simp)
    simp only [Dep.allocOk] at g2
    rw [g2]; exact g1
  | thunkNew h1 h2 _ => rw [hl] at h1; cases h1; cases h2.1
  | thunkOld h1 h2 _ => rw [hl] at h1; cases h1; cases h2.1

theorem Seen.cell {ty : Ty} {n : Name} {c : V} {k : Loc → Prog V} (h : Seen sig env s σ D π (.cell ty n c k) pre es v) :
    ∃ es', σ ⟨π, .nominal n⟩ = some c ∧ es = cellEdge ⟨π, .nominal n⟩ c :: es' ∧
      Seen sig env s σ D π (k ⟨π, .nominal n⟩) (pre ++ [cellEdge ⟨π, .nominal n⟩ c]) es' v := by
  obtain ⟨h, ho⟩ := h
  have hl : Ref.cellLoc env false π n c = ⟨π, .nominal n⟩ := rfl
  cases h with
  | @cell _ _ _ _ _ _ _ es' _ h2 =>
    refine ⟨es', ?_, rfl, h2, fun e he => ho e (by simpa [cellEdge, hl] using he)⟩
    obtain ⟨c', g1, g2⟩ := ho ⟨⟨π, .nominal n⟩, .allocate, .allocCell c⟩ (by simp [hl])
    simp only [Dep.allocOk] at g2
    rw [g2]; exact g1
  | cellPure h1 _ => cases h1.1

theorem Seen.call {fn : FnId} {arg : V} {k : V → Prog V} (h : Seen sig env s σ D π (.call fn arg k) pre es v) :
    ∃ w es1 es2, es = es1 ++ es2 ∧ Seen sig env s σ D π (env.code fn arg) pre es1 w ∧ Seen sig env s σ D π (k w) (pre ++ es1) es2 v := by
  obtain ⟨h, ho⟩ := h
  cases h with
  | @call _ _ _ _ _ _ es1 w es2 _ h1 h2 =>
    exact ⟨w, es1, es2, rfl, ⟨h1, fun e he => ho e (by rw [← List.append_assoc]; exact List.mem_append_left _ he)⟩, h2, fun e he => ho e (by rw [← List.append_assoc]; exact he)⟩

theorem Seen.ns {n : Name} {body : Prog V} {k : V → Prog V} (h : Seen sig env s σ D π (.ns n body k) pre es v) :
    ∃ w es1 es2, es = es1 ++ es2 ∧ Seen sig env s σ D (.child π n) body pre es1 w ∧ Seen sig env s σ D π (k w) (pre ++ es1) es2 v := by
  obtain ⟨h, ho⟩ := h
  cases h with
  | @ns _ _ _ _ _ _ es1 w es2 _ h1 h2 =>
    exact ⟨w, es1, es2, rfl, ⟨h1, fun e he => ho e (by rw [← List.append_assoc]; exact List.mem_append_left _ he)⟩, h2, fun e he => ho e (by rw [← List.append_assoc]; exact he)⟩

/-- The code of a thunk that is up to date, on its recorded dependencies. -/
theorem Seen.ofDone (hI : Inv sig env s σ D) (hm : sig.mode = false) {x : Loc} (hx : D x) {ty : Ty} {pp : ProgPt} {fn : FnId} {arg : V} (hk : sig x = .thunk ty pp fn)
    (ha : σ x = some arg) : ∃ nd v, s.table.get x = some (.comp nd) ∧ nd.res = some v ∧ nd.arg = arg ∧ AllClean nd.succs ∧
      UpToDate sig s σ D x v ∧ Seen sig env s σ D x.path (env.code fn arg) [] (nd.succs.map Succ.edge) v := by
  obtain ⟨nd, g1, g2, g3, g4, g5, g6⟩ := hI.settled x hx
  rcases hv : nd.res with _ | v
  · exact absurd hv g4
  have hk' := hI.thunkKind g1
  rw [hk] at hk'
  injection hk' with k1 k2 k3
  obtain ⟨n, j1, j2⟩ := hI.store x arg ha
  rw [g1] at j1; cases j1
  have harg : nd.arg = arg := by injection j2
  have hr := hI.replay x nd v g1 g2 hv
  rw [hm, ← k3, harg] at hr
  refine ⟨nd, v, g1, hv, harg, g5, ?_, hr, ?_⟩
  · unfold UpToDate
    rw [hk]
    exact ⟨hx, nd, g1, hv⟩
  · intro e he
    obtain ⟨e', h1, rfl⟩ := List.mem_map.1 (by simpa using he)
    exact g6 e' h1

/-! ### Not run -/

variable {R : EditSession.Root V}

/-- A thunk that was up to date before the edits is not run by the demand after them if its argument, what it has allocated and what it has observed are the same in the
end. -/
theorem not_run {E : Loc → Prop} {s1 s s2 : St V} {σ1 σ2 : Store V} {D1 D0 D2 : Loc → Prop} {rs : List Loc} (hI : Inv sig env s1 σ1 D1) (hf : EditSession.Frame E s1 s)
    (hr : RunsOK sig s D0 s2 σ2 D2 rs) {x : Loc} (hx : D1 x) (hown : ¬ E x) (harg : σ2 x = σ1 x)
    (hobs : ∀ nd e, s1.table.get x = some (.comp nd) → e ∈ nd.succs → e.effect = .observe → ∃ ty w, e.edge = obsEdge ty e.loc w ∧ UpToDate sig s2 σ2 D2 e.loc w)
    (hal : ∀ nd e, s1.table.get x = some (.comp nd) → e ∈ nd.succs → e.effect = .allocate → ¬ E e.loc ∧
      ((∃ nd', s1.table.get e.loc = some (.comp nd') ∧ σ2 e.loc = some nd'.arg) ∨ σ2 e.loc = none ∨ (σ1 e.loc ≠ none ∧ σ2 e.loc = σ1 e.loc))) : x ∉ rs := by
  intro hxr
  obtain ⟨nd, g1, g2, g3, g4, g5, g6⟩ := hI.settled x hx
  obtain ⟨nd', f1, f2, f3, f4, f5⟩ := hf.keep x hown nd g1
  have hmem : ∀ e ∈ nd'.succs, ∃ e0 ∈ nd.succs, e0.edge = e.edge := by
    intro e he
    have : e.edge ∈ nd.succs.map Succ.edge := by rw [← f4]; exact List.mem_map.2 ⟨e, he, rfl⟩
    obtain ⟨e0, h1, h2⟩ := List.mem_map.1 this
    exact ⟨e0, h1, h2⟩
  rcases hr.why x hxr nd' f1 with h | h | ⟨e, he, ⟨h1, h2⟩ | ⟨h1, h2⟩⟩
  · rw [f3] at h; exact g4 h
  · apply h
    rw [harg]
    rcases hs : σ1 x with _ | c
    · exact absurd hs g3
    · obtain ⟨n, j1, j2⟩ := hI.store x c hs
      rw [g1] at j1; cases j1
      rw [f2]
      exact j2.symm
  · obtain ⟨e0, m1, m2⟩ := hmem e he
    have m3 : e0.effect = .observe := by rw [← h1]; exact congrArg Edge.effect m2
    obtain ⟨ty, w, k1, k2⟩ := hobs nd e0 g1 m1 m3
    rw [← m2, k1] at h2
    exact k2.not_changed h2
  · obtain ⟨e0, m1, m2⟩ := hmem e he
    have m3 : e0.effect = .allocate := by rw [← h1]; exact congrArg Edge.effect m2
    have m4 : e0.loc = e.loc := congrArg Edge.loc m2
    obtain ⟨k1, k2⟩ := hal nd e0 g1 m1 m3
    rw [m4] at k1 k2
    rcases h2 with h2 | ⟨n, c, q1, q2, q3⟩
    · obtain ⟨d, d1, d2⟩ := f5 _ k1 h2
      obtain ⟨d', d3, d4⟩ := g5 e0 m1
      rw [m3, m4] at d3
      rw [d1] at d3
      cases d3
      rw [d2] at d4; cases d4
    · rcases k2 with ⟨n1, k2, k3⟩ | k2 | ⟨k2, k3⟩
      · obtain ⟨n2, z1, z2, _⟩ := hf.keep _ k1 n1 k2
        rw [z1] at q1; cases q1
        rw [k3] at q2; cases q2
        exact q3 (congrArg some z2)
      · rw [k2] at q2; cases q2
      · obtain ⟨n0, z1, z2⟩ := hf.cont _ k1 n q1
        rw [k3] at q2
        obtain ⟨n1, y1, y2⟩ := hI.store _ c q2
        rw [z1] at y1; cases y1
        exact q3 (z2.trans y2)

end
end Adapton
