import Verif.Engine.Stay
import Verif.Props.Dirtying
/-
A cached result comes from a run: a thunk that holds a result after an execution, and was not run in it, was there before, with the same function, the same argument, the same result and the same
recorded dependencies.  For every program and every state.
-/
set_option linter.unusedSectionVars false
set_option linter.unusedVariables false
set_option linter.unusedSimpArgs false
namespace Adapton
variable {V α β : Type} [UEq V]

/-! ### Specification -/

/-- An allocation of a cell, or of a thunk with a name: its content may be overwritten by a later allocation. -/
def Dep.named : Dep V → Prop
  | .allocNom _ => True
  | .allocCell _ => True
  | _ => False

/-- The cached result of `nd'` is reused: the thunk `nd` was the same one, with the same result and the same recorded dependencies; and an allocation flagged as overwritten is still flagged. -/
structure Reused (nd nd' : CompNode V) : Prop where
  fn : nd'.fn = nd.fn
  arg : nd'.arg = nd.arg
  res : nd'.res = nd.res
  edges : nd'.succs.map Succ.edge = nd.succs.map Succ.edge
  flags : ∀ z, (∀ e ∈ nd.succs, e.effect = .allocate → e.loc = z → e.dep.named) → KeyDirty nd.succs .allocate z → KeyDirty nd'.succs .allocate z

/-- From `s` to `s'`: if `l` was not run, and holds a cached result at the end, then this result is reused. -/
def ReKept (l : Loc) (s s' : St V) : Prop :=
  ∃ rs, s'.runs = rs ++ s.runs ∧
    (l ∉ rs → ∀ nd', s'.table.get l = some (.comp nd') → nd'.res ≠ none → ∃ nd, s.table.get l = some (.comp nd) ∧ Reused nd nd')

/-! ### Proofs -/

theorem Reused.refl (nd : CompNode V) : Reused nd nd := ⟨rfl, rfl, rfl, rfl, fun _ _ h => h⟩
theorem Reused.trans {a b c : CompNode V} (h1 : Reused a b) (h2 : Reused b c) : Reused a c :=
  ⟨h2.fn.trans h1.fn, h2.arg.trans h1.arg, h2.res.trans h1.res, h2.edges.trans h1.edges, fun z hz hd => h2.flags z (by
    intro e he h3 h4
    have : e.edge ∈ a.succs.map Succ.edge := by rw [← h1.edges]; exact List.mem_map_of_mem he
    obtain ⟨e', k1, k2⟩ := List.mem_map.1 this
    obtain ⟨d, x, eff, dep⟩ := e
    obtain ⟨d', x', eff', dep'⟩ := e'
    simp only [Succ.edge] at k2
    cases k2
    have := hz _ k1 h3 h4
    exact this) (h1.flags z hz hd)⟩

theorem ReKept.refl (l : Loc) (s : St V) : ReKept l s s := ⟨[], rfl, fun _ nd h _ => ⟨nd, h, Reused.refl _⟩⟩

theorem ReKept.trans {l : Loc} {s1 s2 s3 : St V} (h1 : ReKept l s1 s2) (h2 : ReKept l s2 s3) : ReKept l s1 s3 := by
  obtain ⟨r1, b1, c1⟩ := h1
  obtain ⟨r2, b2, c2⟩ := h2
  refine ⟨r2 ++ r1, by rw [b2, b1, List.append_assoc], ?_⟩
  intro hr nd3 hg hn
  have hr : l ∉ r2 ∧ l ∉ r1 := by simpa using hr
  obtain ⟨nd2, g1, g2⟩ := c2 hr.1 nd3 hg hn
  obtain ⟨nd1, k1, k2⟩ := c1 hr.2 nd2 g1 (by rw [← g2.res]; exact hn)
  exact ⟨nd1, k1, k2.trans g2⟩

/-- Whenever the operation succeeds. -/
def ReKeeps (l : Loc) (m : M V α) : Prop := ∀ s a s', m s = .ok a s' → ReKept l s s'

theorem ReKeeps.bind {l : Loc} {m : M V α} {f : α → M V β} (h1 : ReKeeps l m) (h2 : ∀ a, ReKeeps l (f a)) : ReKeeps l (m >>= f) := by
  intro s b s' h
  obtain ⟨a, s1, g1, g2⟩ := M.bind_inv h
  exact (h1 s a s1 g1).trans (h2 a s1 b s' g2)

theorem ReKeeps.pure (l : Loc) (a : α) : ReKeeps l (Pure.pure a : M V α) := fun s _ _ h => by cases h; exact ReKept.refl l s
theorem ReKeeps.panic (l : Loc) (e : Err) : ReKeeps l (M.panic e : M V α) := fun s _ _ h => by cases h
theorem ReKeeps.get (l : Loc) : ReKeeps l (M.get : M V (St V)) := fun s _ _ h => by cases h; exact ReKept.refl l s
theorem ReKeeps.ite {l : Loc} {c : Prop} [Decidable c] {m1 m2 : M V α} (h1 : ReKeeps l m1) (h2 : ReKeeps l m2) :
    ReKeeps l (if c then m1 else m2) := by
  split
  · exact h1
  · exact h2
theorem Reads.rekeeps {m : M V α} (h : Reads m) (l : Loc) : ReKeeps l m := by
  intro s a s' hm
  rcases h s with ⟨a, h⟩ | ⟨e, h⟩
  · rw [h] at hm; cases hm; exact ReKept.refl l s
  · rw [h] at hm; cases hm

theorem ReKept.same {l : Loc} {s s' : St V} (h1 : s'.table = s.table) (h3 : ∃ rs, s'.runs = rs ++ s.runs) : ReKept l s s' := by
  obtain ⟨rs, h3⟩ := h3
  exact ⟨rs, h3, fun _ n hn _ => ⟨n, by rw [← h1]; exact hn, Reused.refl _⟩⟩

theorem ReKeeps.evBegin (l : Loc) (e : TEff) (src : Option Loc) (tgt : Loc) : ReKeeps l (evBegin e src tgt : M V Unit) :=
  fun s _ _ h => by cases h; exact ReKept.same rfl ⟨[], rfl⟩
theorem ReKeeps.evEnd (l : Loc) : ReKeeps l (evEnd : M V Unit) := fun s _ _ h => by cases h; exact ReKept.same rfl ⟨[], rfl⟩
theorem ReKeeps.evEff (l : Loc) (e : TEff) (src : Option Loc) (tgt : Loc) : ReKeeps l (evEff e src tgt : M V Unit) :=
  fun s _ _ h => by cases h; exact ReKept.same rfl ⟨[], rfl⟩
theorem ReKeeps.recordEdge (l : Loc) (e : Succ V) (d : Option (Dep V)) : ReKeeps l (recordEdge e d) := by
  intro s _ s' h
  unfold Adapton.recordEdge at h
  rw [M.modify_def] at h
  cases h
  rcases hs : s.stack with _ | ⟨fr, K⟩
  · exact ReKept.refl _ _
  · exact ReKept.same rfl ⟨[], rfl⟩
theorem ReKeeps.modify (y : Loc) (f : St V → St V) (h1 : ∀ s, (f s).table = s.table) (h3 : ∀ s, ∃ rs, (f s).runs = rs ++ s.runs) : ReKeeps y (M.modify f) :=
  fun s _ _ h => by cases h; exact ReKept.same (h1 s) (h3 s)

/-- Writing elsewhere, or a node without a result. -/
theorem ReKept.put {l x : Loc} {s : St V} {n' : Node V} (h : l = x → ∀ nd', n' = .comp nd' → nd'.res ≠ none →
    ∃ nd, s.table.get x = some (.comp nd) ∧ Reused nd nd') : ReKept l s { s with table := s.table.put x n' } := by
  refine ⟨[], rfl, fun _ nd' hm hn => ?_⟩
  have hm : (s.table.put x n').get l = some (.comp nd') := hm
  by_cases hx : l = x
  · rw [hx, Table.get_put_self] at hm
    cases hm
    rw [hx]
    exact h hx nd' rfl hn
  · rw [Table.get_put_ne _ _ hx] at hm
    exact ⟨nd', hm, Reused.refl _⟩

theorem putNode_rekeeps {l x : Loc} (n' : Node V) (h : l = x → ∀ nd', n' = .comp nd' → nd'.res = none) : ReKeeps l (putNode x n') :=
  fun s _ _ hm => by cases hm; exact ReKept.put fun hx nd' h1 h2 => absurd (h hx nd' h1) h2

theorem map_edge_setFirst (eff : Effect) (x : Loc) (v : Bool) (es : List (Succ V)) : (setFirst eff x v es).map Succ.edge = es.map Succ.edge := by
  induction es with
  | nil => rfl
  | cons e es ih =>
    unfold setFirst
    split
    · rfl
    · simp [ih]

/-- Setting a flag; an allocation edge is unflagged only if its target is a thunk without a name. -/
theorem setSuccDirty_rekept {l p : Loc} {eff : Effect} {x : Loc} {v : Bool} {s s' : St V} {a : Unit}
    (hl : l = p → v = true ∨ eff = .observe ∨ ∀ nd, s.table.get p = some (.comp nd) → nd.res ≠ none → ∃ e ∈ nd.succs, e.effect = .allocate ∧ e.loc = x ∧ ¬ e.dep.named)
    (hm : setSuccDirty p eff x v s = .ok a s') : ReKept l s s' := by
  obtain ⟨n, s1, h, hm⟩ := M.bind_inv hm
  obtain ⟨rfl, h⟩ := lookupAbs_inv h
  match n with
  | .comp nd =>
    rcases hf : nd.succs.find? (Succ.matches eff x) with _ | e
    · simp only [hf] at hm; cases hm
    · simp only [hf] at hm
      cases hm
      refine ReKept.put fun hx nd' h1 h2 => ?_
      cases h1
      refine ⟨nd, h, rfl, rfl, rfl, map_edge_setFirst _ _ _ _, fun z hz hd => ?_⟩
      by_cases hk : Effect.allocate = eff ∧ z = x
      · obtain ⟨rfl, rfl⟩ := hk
        rcases hl hx with rfl | h3 | h3
        · exact setFirst_dirty _ _ _ hf
        · cases h3
        · obtain ⟨e, k1, k2, k3, k4⟩ := h3 nd h h2
          exact absurd (hz e k1 k2 k3) k4
      · exact (setFirst_keyDirty_ne hk).2 hd
  | .mut nd => cases hm
  | .pure nd => cases hm

theorem setSuccDirty_rekeeps (l p : Loc) (eff : Effect) (x : Loc) : ReKeeps l (setSuccDirty p eff x true : M V Unit) :=
  fun _ _ _ h => setSuccDirty_rekept (fun _ => .inl rfl) h

theorem removePred_rekeeps (l src tgt : Loc) : ReKeeps l (removePred src tgt : M V Unit) := by
  refine ReKeeps.bind (ReKeeps.evEff _ _ _ _) fun _ s _ s' hm => ?_
  obtain ⟨n, s1, h, hm⟩ := M.bind_inv hm
  obtain ⟨rfl, h⟩ := lookupAbs_inv h
  match n with
  | .comp nd => cases hm; exact ReKept.put fun hx nd' h1 h2 => by cases h1; exact ⟨nd, h, rfl, rfl, rfl, rfl, fun _ _ h => h⟩
  | .mut nd => cases hm; exact ReKept.put fun hx nd' h1 h2 => by cases h1
  | .pure nd => cases hm

theorem revokeSuccs_rekeeps (l src : Loc) (es : List (Succ V)) : ReKeeps l (revokeSuccs src es) := by
  induction es with
  | nil => exact ReKeeps.pure _ _
  | cons e es ih => exact ReKeeps.bind (removePred_rekeeps _ _ _) fun _ => ih

theorem dirtyLoop_rekeeps (y : Loc) (rec : Loc → M V Unit) (hrec : ∀ p, ReKeeps y (rec p)) (l : Loc)
    (ps : List (Loc × Option (Dep V))) : ReKeeps y (dirtyLoop rec l ps) := by
  induction ps with
  | nil => exact ReKeeps.pure _ _
  | cons q ps ih =>
    obtain ⟨p, d⟩ := q
    refine ReKeeps.bind ?_ fun _ => ih
    refine ReKeeps.bind ((dirtyStop_reads d l).rekeeps y) fun st => ReKeeps.ite (ReKeeps.pure _ _) ?_
    refine ReKeeps.bind ((succDirty_reads p .observe l).rekeeps y) fun bb => ReKeeps.ite (ReKeeps.pure _ _) (ReKeeps.ite (ReKeeps.panic _ _) ?_)
    exact ReKeeps.bind (ReKeeps.evBegin _ _ _ _) fun _ => ReKeeps.bind (setSuccDirty_rekeeps _ _ _ _) fun _ =>
      ReKeeps.bind (hrec p) fun _ => ReKeeps.evEnd _

theorem dirtyPreds_rekeeps (y : Loc) : ∀ (k : Nat) (l : Loc), ReKeeps y (dirtyPreds k l : M V Unit) := by
  intro k
  induction k with
  | zero => intro l s _ _ h; cases h
  | succ k ih =>
    intro l
    refine ReKeeps.bind ((lookupAbs_reads l).rekeeps y) fun n => ?_
    show ReKeeps y (match n.predsObs with | some ps => _ | none => _)
    split
    · exact dirtyLoop_rekeeps y _ ih l _
    · exact ReKeeps.panic _ _

theorem dirtyPredsTop_rekeeps (y l : Loc) : ReKeeps y (dirtyPredsTop l : M V Unit) := fun s => dirtyPreds_rekeeps y _ l s

theorem dirtyAllocLoop_rekeeps (y l : Loc) (ps : List Loc) : ReKeeps y (dirtyAllocLoop l ps : M V Unit) := by
  induction ps with
  | nil => exact ReKeeps.pure _ _
  | cons p ps ih =>
    refine ReKeeps.bind ?_ fun _ => ih
    refine ReKeeps.bind ((succDirty_reads p .allocate l).rekeeps y) fun bb => ReKeeps.ite (ReKeeps.pure _ _) ?_
    refine ReKeeps.bind (setSuccDirty_rekeeps _ _ _ _) fun _ => ReKeeps.ite (ReKeeps.panic _ _) ?_
    exact ReKeeps.bind (ReKeeps.evBegin _ _ _ _) fun _ => ReKeeps.bind (dirtyPredsTop_rekeeps _ _) fun _ => ReKeeps.evEnd _

theorem dirtyAlloc_rekeeps (y l : Loc) : ReKeeps y (dirtyAlloc l : M V Unit) := by
  refine ReKeeps.bind (dirtyPredsTop_rekeeps _ _) fun _ => ReKeeps.bind ((lookupAbs_reads l).rekeeps y) fun n => ?_
  show ReKeeps y (match n.predsAlloc with | some ps => _ | none => _)
  split
  · exact dirtyAllocLoop_rekeeps _ _ _
  · exact ReKeeps.panic _ _

theorem setCell_rekeeps (y : Loc) (ty : Ty) (l : Loc) (v : V) : ReKeeps y (setCell ty l v) := by
  refine ReKeeps.bind ((resNode_reads ty l).rekeeps y) fun n => ?_
  match n with
  | .comp nd => exact ReKeeps.panic _ _
  | .pure nd => exact ReKeeps.panic _ _
  | .mut nd =>
    show ReKeeps y (if nd.val ≈ᵤ v then _ else _ : M V Unit)
    exact ReKeeps.ite (ReKeeps.pure _ _) (ReKeeps.bind (putNode_rekeeps _ fun _ _ h => by cases h) fun _ => dirtyAlloc_rekeeps _ _)

theorem opSet_rekeeps (y : Loc) (ty : Ty) (l : Loc) (v : V) : ReKeeps y (opSet ty l v) :=
  ReKeeps.bind (ReKeeps.get _) fun s => ReKeeps.ite (setCell_rekeeps _ _ _ _) (ReKeeps.panic _ _)

theorem cellTable_rekeeps (y : Loc) (ty : Ty) (l : Loc) (v : V) (pu : Bool) : ReKeeps y (cellTable ty l v pu) := by
  refine ReKeeps.bind (ReKeeps.get _) fun s => ?_
  rcases hg : s.table.get l with _ | n0
  · simp only []
    refine ReKeeps.bind (ReKeeps.evBegin y _ _ _) fun _ => ReKeeps.bind (ReKeeps.evEnd y) fun _ => putNode_rekeeps _ fun _ nd' h => ?_
    cases pu <;> cases h
  · simp only []
    refine ReKeeps.bind ((resNode_reads ty l).rekeeps y) fun n => ReKeeps.bind (ReKeeps.evBegin y _ _ _) fun _ => ?_
    match n with
    | .mut nd => exact ReKeeps.bind (setCell_rekeeps y ty l v) fun _ => ReKeeps.evEnd y
    | .comp nd =>
      exact ReKeeps.bind (dirtyAlloc_rekeeps y l) fun _ => ReKeeps.bind (revokeSuccs_rekeeps y l nd.succs) fun _ => ReKeeps.evEnd y
    | .pure nd => exact ReKeeps.evEnd y

theorem opCell_rekeeps (env : Env V) (y : Loc) (ty : Ty) (nm : Name) (v : V) : ReKeeps y (opCell env ty nm v) := by
  refine ReKeeps.bind (ReKeeps.get _) fun s => ReKeeps.bind (cellTable_rekeeps _ _ _ _ _) fun _ => ReKeeps.bind ?_ fun _ => ReKeeps.pure _ _
  unfold cellRecord
  exact ReKeeps.ite (ReKeeps.pure _ _) (ReKeeps.recordEdge _ _ _)

theorem thunkStructural_rekeeps (env : Env V) (y : Loc) (ty : Ty) (pp : ProgPt) (fn : FnId) (arg : V) :
    ReKeeps y (thunkStructural env ty pp fn arg) := by
  refine ReKeeps.bind (ReKeeps.get _) fun s => ?_
  rcases hg : s.table.get (⟨s.path, .structural (env.hashApp pp arg)⟩ : Loc) with _ | n0
  · simp only [hg]
    exact ReKeeps.bind (ReKeeps.recordEdge y _ _) fun _ => ReKeeps.bind (putNode_rekeeps _ fun _ _ h => by cases h; rfl) fun _ => ReKeeps.pure _ _
  · simp only [hg]; exact ReKeeps.pure _ _

theorem thunkNominal_rekeeps (y : Loc) (ty : Ty) (nm : Name) (pp : ProgPt) (fn : FnId) (arg : V) :
    ReKeeps y (thunkNominal ty nm pp fn arg) := by
  refine ReKeeps.bind (ReKeeps.get _) fun s => ?_
  rcases hg : s.table.get (⟨s.path, .nominal nm⟩ : Loc) with _ | n0
  · simp only [hg]
    exact ReKeeps.bind (ReKeeps.evBegin y _ _ _) fun _ => ReKeeps.bind (ReKeeps.evEnd y) fun _ => ReKeeps.bind (ReKeeps.recordEdge y _ _) fun _ =>
      ReKeeps.bind (putNode_rekeeps _ fun _ _ h => by cases h; rfl) fun _ => ReKeeps.pure _ _
  · simp only [hg]
    refine ReKeeps.bind ((resNode_reads ty _).rekeeps y) fun n => ?_
    match n with
    | .pure _ => exact ReKeeps.panic _ _
    | .mut mn =>
      simp only []
      exact ReKeeps.bind (ReKeeps.evBegin y _ _ _) fun _ => ReKeeps.bind (dirtyAlloc_rekeeps y _) fun _ =>
        ReKeeps.bind (ReKeeps.evEnd y) fun _ => ReKeeps.bind (ReKeeps.recordEdge y _ _) fun _ =>
        ReKeeps.bind (putNode_rekeeps _ fun _ _ h => by cases h; rfl) fun _ => ReKeeps.pure _ _
    | .comp c =>
      simp only []
      refine ReKeeps.ite (ReKeeps.ite ?_ ?_) (ReKeeps.panic _ _)
      · exact ReKeeps.bind (ReKeeps.evBegin y _ _ _) fun _ => ReKeeps.bind (ReKeeps.evEnd y) fun _ =>
          ReKeeps.bind (ReKeeps.recordEdge y _ _) fun _ => ReKeeps.pure _ _
      · exact ReKeeps.bind (putNode_rekeeps _ fun _ _ h => by cases h; rfl) fun _ => ReKeeps.bind (ReKeeps.evBegin y _ _ _) fun _ =>
          ReKeeps.bind (dirtyAlloc_rekeeps y _) fun _ => ReKeeps.bind (ReKeeps.evEnd y) fun _ =>
          ReKeeps.bind (ReKeeps.recordEdge y _ _) fun _ => ReKeeps.pure _ _

theorem opThunk_rekeeps (env : Env V) (y : Loc) (ty : Ty) (nc : NameChoice) (pp : ProgPt) (fn : FnId) (arg : V) :
    ReKeeps y (opThunk env ty nc pp fn arg) := by
  refine ReKeeps.bind (ReKeeps.get _) fun s => ?_
  match nc with
  | .eager => exact ReKeeps.panic _ _
  | .naive => exact ReKeeps.panic _ _
  | .structural => exact thunkStructural_rekeeps _ _ _ _ _ _
  | .nominal nm => exact ReKeeps.ite (thunkStructural_rekeeps _ _ _ _ _ _) (thunkNominal_rekeeps _ _ _ _ _ _)

/-- What the recursive calls guarantee. -/
structure RReKeeps (y : Loc) (R : Rec V) : Prop where
  produce : ∀ ty l, ReKeeps y (R.produce ty l)
  cleanForce : ∀ ty r l, ReKeeps y (R.cleanForce ty r l)
  run : ∀ p, ReKeeps y (R.run p)

theorem opForce_rekeeps {y : Loc} {R : Rec V} (hR : RReKeeps y R) (ty : Ty) (l : Loc) (cyc : Option V) :
    ReKeeps y (opForce R ty l cyc) := by
  refine ReKeeps.bind (ReKeeps.get _) fun s => ReKeeps.bind ((resNode_reads ty _).rekeeps y) fun n => ?_
  have hrec : ∀ (c : Bool) (r : V), ReKeeps y (if c then (Pure.pure r : M V V) else do
      recordEdge ⟨false, l, .observe, .force ty r⟩ none; Pure.pure r) := fun c r =>
    ReKeeps.ite (ReKeeps.pure _ _) (ReKeeps.bind (ReKeeps.recordEdge y _ _) fun _ => ReKeeps.pure _ _)
  match n with
  | .pure nd => exact ReKeeps.bind (ReKeeps.evEff _ _ _ _) fun _ => ReKeeps.pure _ _
  | .mut nd => exact ReKeeps.bind (ReKeeps.evEff _ _ _ _) fun _ => hrec _ _
  | .comp nd =>
    simp only []
    refine ReKeeps.ite ?_ ?_
    · match cyc with
      | none => exact ReKeeps.panic _ _
      | some out =>
        exact ReKeeps.bind (ReKeeps.evBegin y _ _ _) fun _ => ReKeeps.bind (ReKeeps.evEnd y) fun _ =>
          ReKeeps.ite (ReKeeps.pure _ _) (hrec _ _)
    · rcases hres : nd.res with _ | r
      · simp only []
        exact ReKeeps.bind (ReKeeps.evBegin y _ _ _) fun _ => ReKeeps.ite (ReKeeps.panic _ _)
          (ReKeeps.bind (hR.produce ty l) fun r => ReKeeps.bind (ReKeeps.evEnd y) fun _ => ReKeeps.ite (ReKeeps.pure _ _) (hrec _ _))
      · simp only []
        refine ReKeeps.bind (ReKeeps.evBegin y _ _ _) fun _ => ReKeeps.bind (hR.cleanForce ty r l) fun b => ReKeeps.bind (ReKeeps.evEnd y) fun _ =>
          ReKeeps.bind ((resNode_reads ty _).rekeeps y) fun n' => ?_
        match n' with
        | .comp nd' =>
          rcases hr' : nd'.res with _ | r'
          · simp only [hr']; exact ReKeeps.panic _ _
          · simp only [hr']; exact ReKeeps.ite (ReKeeps.pure _ _) (hrec _ _)
        | .mut _ => exact ReKeeps.panic _ _
        | .pure _ => exact ReKeeps.panic _ _

theorem opForceMap_rekeeps {y : Loc} {R : Rec V} (hR : RReKeeps y R) (ty : Ty) (l : Loc) (f : V → V) :
    ReKeeps y (opForceMap R ty l f) := by
  refine ReKeeps.bind (ReKeeps.get _) fun s => ReKeeps.bind ((resNode_reads ty l).rekeeps y) fun n => ?_
  match n with
  | .mut nd => exact ReKeeps.bind (ReKeeps.evEff _ _ _ _) fun _ => ReKeeps.bind (ReKeeps.recordEdge _ _ _) fun _ => ReKeeps.pure _ _
  | .comp nd => exact ReKeeps.bind (opForce_rekeeps hR _ _ _) fun _ => ReKeeps.pure _ _
  | .pure nd => exact ReKeeps.bind (opForce_rekeeps hR _ _ _) fun _ => ReKeeps.pure _ _

theorem opForceAbs_rekeeps {y : Loc} {R : Rec V} (hR : RReKeeps y R) (ty : Ty) (l : Loc) (f : V → V) :
    ReKeeps y (opForceAbs R ty l f) := by
  refine ReKeeps.bind (ReKeeps.get _) fun s => ReKeeps.bind ((resNode_reads ty l).rekeeps y) fun n => ?_
  match n with
  | .mut nd => exact ReKeeps.bind (ReKeeps.evEff _ _ _ _) fun _ => ReKeeps.bind (ReKeeps.recordEdge _ _ _) fun _ => ReKeeps.pure _ _
  | .comp nd => exact ReKeeps.bind (opForce_rekeeps hR _ _ _) fun _ => ReKeeps.pure _ _
  | .pure nd => exact ReKeeps.bind (opForce_rekeeps hR _ _ _) fun _ => ReKeeps.pure _ _

theorem runProg_rekeeps (env : Env V) {y : Loc} {R : Rec V} (hR : RReKeeps y R) (p : Prog V) : ReKeeps y (runProg env R p) := by
  induction p with
  | ret v => exact ReKeeps.pure _ _
  | force ty l cyc k ih => exact ReKeeps.bind (opForce_rekeeps hR _ _ _) ih
  | forceMap ty l f k ih => exact ReKeeps.bind (opForceMap_rekeeps hR _ _ _) ih
  | forceAbs ty l f k ih => exact ReKeeps.bind (opForceAbs_rekeeps hR _ _ _) ih
  | cell ty n v k ih => exact ReKeeps.bind (opCell_rekeeps _ _ _ _ _) ih
  | thunk ty nc pp fn arg k ih => exact ReKeeps.bind (opThunk_rekeeps _ _ _ _ _ _ _) ih
  | set ty l v k ih => exact ReKeeps.bind (opSet_rekeeps _ _ _ _) fun _ => ih
  | ns n body k ihb ih =>
    exact ReKeeps.bind (ReKeeps.get _) fun s => ReKeeps.bind (ReKeeps.modify y _ (fun _ => rfl) (fun _ => ⟨[], rfl⟩)) fun _ =>
      ReKeeps.bind ihb fun v => ReKeeps.bind (ReKeeps.modify y _ (fun _ => rfl) (fun _ => ⟨[], rfl⟩)) fun _ => ih v
  | structural body k ihb ih =>
    exact ReKeeps.bind (ReKeeps.get _) fun s => ReKeeps.bind (ReKeeps.modify y _ (fun _ => rfl) (fun _ => ⟨[], rfl⟩)) fun _ =>
      ReKeeps.bind ihb fun v => ReKeeps.bind (ReKeeps.modify y _ (fun _ => rfl) (fun _ => ⟨[], rfl⟩)) fun _ => ih v
  | call fn arg k ih => exact ReKeeps.bind (hR.run _) ih
  | panic => exact ReKeeps.panic _ _

theorem installPreds_rekeeps (y l : Loc) (es : List (Succ V × Option (Dep V))) : ReKeeps y (installPreds l es) := by
  induction es with
  | nil => exact ReKeeps.pure _ _
  | cons q es ih =>
    obtain ⟨e, d⟩ := q
    refine ReKeeps.bind (ReKeeps.ite (ReKeeps.panic _ _) fun s _ s' hm => ?_) fun _ => ih
    obtain ⟨n, s1, h, hm⟩ := M.bind_inv hm
    obtain ⟨rfl, h⟩ := lookupAbs_inv h
    match n with
    | .comp nd =>
      unfold Node.predsInsert at hm
      rcases he : e.effect <;> rw [he] at hm <;> cases hm <;>
        exact ReKept.put fun hx nd' h1 h2 => by cases h1; exact ⟨nd, h, rfl, rfl, rfl, rfl, fun _ _ h => h⟩
    | .mut nd =>
      unfold Node.predsInsert at hm
      rcases he : e.effect <;> rw [he] at hm <;> cases hm <;> exact ReKept.put fun hx nd' h1 h2 => by cases h1
    | .pure nd => cases hm

theorem ReKept.runs {l : Loc} {s s' : St V} (h : ReKept l s s') : ∃ rs, s'.runs = rs ++ s.runs := ⟨_, h.choose_spec.1⟩

/-- Running a thunk, for the other locations. -/
theorem produceBody_rekeeps_ne (env : Env V) {y : Loc} {R : Rec V} (hR : RReKeeps y R) (ty : Ty) (l : Loc) (hy : y ≠ l) : ReKeeps y (produceBody env R ty l) := by
  refine ReKeeps.bind ((resNode_reads ty l).rekeeps y) fun n => ?_
  match n with
  | .mut _ => exact ReKeeps.panic _ _
  | .pure _ => exact ReKeeps.panic _ _
  | .comp nd =>
    refine ReKeeps.bind (putNode_rekeeps _ fun h => absurd h hy) fun _ => ReKeeps.bind (revokeSuccs_rekeeps y l nd.succs) fun _ => ReKeeps.bind (ReKeeps.get _) fun s3 => ?_
    refine ReKeeps.bind (ReKeeps.modify y _ (fun _ => rfl) (fun _ => ⟨[], rfl⟩)) fun _ => ReKeeps.bind ((resNode_reads ty l).rekeeps y) fun n5 => ?_
    match n5 with
    | .mut _ => exact ReKeeps.panic _ _
    | .pure _ => exact ReKeeps.panic _ _
    | .comp nd5 =>
      refine ReKeeps.bind (ReKeeps.modify y _ (fun _ => rfl) (fun _ => ⟨[l], rfl⟩)) fun _ => ReKeeps.bind (hR.run _) fun res => ?_
      refine ReKeeps.bind (ReKeeps.modify y _ (fun _ => rfl) (fun _ => ⟨[], rfl⟩)) fun _ => ReKeeps.bind (ReKeeps.get _) fun s6 => ?_
      rcases hst : s6.stack with _ | ⟨fr, K⟩
      · simp only []; exact ReKeeps.panic _ _
      · simp only []
        refine ReKeeps.bind (ReKeeps.modify y _ (fun _ => rfl) (fun _ => ⟨[], rfl⟩)) fun _ => ReKeeps.ite ?_ (ReKeeps.panic _ _)
        refine ReKeeps.bind (installPreds_rekeeps y l fr.succs) fun _ => ReKeeps.bind ((resNode_reads ty l).rekeeps y) fun n9 => ?_
        match n9 with
        | .mut _ => exact ReKeeps.panic _ _
        | .pure _ => exact ReKeeps.panic _ _
        | .comp nd9 => exact ReKeeps.bind (putNode_rekeeps _ fun h => absurd h hy) fun _ => ReKeeps.pure _ _

/-- The runs grow. -/
def Grows (m : M V α) : Prop := ∀ s a s', m s = .ok a s' → ∃ rs, s'.runs = rs ++ s.runs

theorem ReKeeps.grows {l : Loc} {m : M V α} (h : ReKeeps l m) : Grows m := fun s a s' hm => (h s a s' hm).runs
theorem Grows.bind {m : M V α} {f : α → M V β} (h1 : Grows m) (h2 : ∀ a, Grows (f a)) : Grows (m >>= f) := by
  intro s b s' h
  obtain ⟨a, s1, g1, g2⟩ := M.bind_inv h
  obtain ⟨r1, k1⟩ := h1 s a s1 g1
  obtain ⟨r2, k2⟩ := h2 a s1 b s' g2
  exact ⟨r2 ++ r1, by rw [k2, k1, List.append_assoc]⟩

/-- The runs grow, by `l` at least. -/
def Adds (l : Loc) (m : M V α) : Prop := ∀ s a s', m s = .ok a s' → ∃ rs, s'.runs = rs ++ s.runs ∧ l ∈ rs

theorem Adds.right {l : Loc} {m : M V α} {f : α → M V β} (h1 : Grows m) (h2 : ∀ a, Adds l (f a)) : Adds l (m >>= f) := by
  intro s b s' h
  obtain ⟨a, s1, g1, g2⟩ := M.bind_inv h
  obtain ⟨r1, k1⟩ := h1 s a s1 g1
  obtain ⟨r2, k2, k3⟩ := h2 a s1 b s' g2
  exact ⟨r2 ++ r1, by rw [k2, k1, List.append_assoc], List.mem_append_left _ k3⟩
theorem Adds.left {l : Loc} {m : M V α} {f : α → M V β} (h1 : Adds l m) (h2 : ∀ a, Grows (f a)) : Adds l (m >>= f) := by
  intro s b s' h
  obtain ⟨a, s1, g1, g2⟩ := M.bind_inv h
  obtain ⟨r1, k1, k3⟩ := h1 s a s1 g1
  obtain ⟨r2, k2⟩ := h2 a s1 b s' g2
  exact ⟨r2 ++ r1, by rw [k2, k1, List.append_assoc], List.mem_append_right _ k3⟩
theorem Adds.panic (l : Loc) (e : Err) : Adds l (M.panic e : M V α) := fun s _ _ h => by cases h
theorem modify_grows (f : St V → St V) (h : ∀ s, ∃ rs, (f s).runs = rs ++ s.runs) : Grows (M.modify f) := fun s _ _ hm => by cases hm; exact h s
theorem putNode_grows (x : Loc) (n : Node V) : Grows (putNode x n) := fun s _ _ h => by cases h; exact ⟨[], rfl⟩

/-- Running a thunk adds it to the runs. -/
theorem produceBody_adds (env : Env V) {R : Rec V} (ty : Ty) (l : Loc) (hR : RReKeeps l R) : Adds l (produceBody env R ty l) := by
  refine Adds.right ((resNode_reads ty l).rekeeps l).grows fun n => ?_
  match n with
  | .mut _ => exact Adds.panic _ _
  | .pure _ => exact Adds.panic _ _
  | .comp nd =>
    refine Adds.right (putNode_grows _ _) fun _ => Adds.right (revokeSuccs_rekeeps l l nd.succs).grows fun _ => Adds.right (ReKeeps.get l).grows fun s3 => ?_
    refine Adds.right (modify_grows _ fun _ => ⟨[], rfl⟩) fun _ => Adds.right ((resNode_reads ty l).rekeeps l).grows fun n5 => ?_
    match n5 with
    | .mut _ => exact Adds.panic _ _
    | .pure _ => exact Adds.panic _ _
    | .comp nd5 =>
      refine Adds.left (fun s _ _ h => by cases h; exact ⟨[l], rfl, by simp⟩) fun _ => Grows.bind (hR.run _).grows fun res => ?_
      refine Grows.bind (modify_grows _ fun _ => ⟨[], rfl⟩) fun _ => Grows.bind (ReKeeps.get l).grows fun s6 => ?_
      rcases hst : s6.stack with _ | ⟨fr, K⟩
      · simp only []; exact (ReKeeps.panic l _).grows
      · simp only []
        refine Grows.bind (modify_grows _ fun _ => ⟨[], rfl⟩) fun _ => ?_
        by_cases hfr : fr.loc = l
        · rw [if_pos hfr]
          refine Grows.bind (installPreds_rekeeps l l fr.succs).grows fun _ => Grows.bind ((resNode_reads ty l).rekeeps l).grows fun n9 => ?_
          match n9 with
          | .mut _ => exact (ReKeeps.panic l _).grows
          | .pure _ => exact (ReKeeps.panic l _).grows
          | .comp nd9 => exact Grows.bind (putNode_grows _ _) fun _ => (ReKeeps.pure l _).grows
        · rw [if_neg hfr]; exact (ReKeeps.panic l _).grows

theorem produceBody_rekeeps (env : Env V) {y : Loc} {R : Rec V} (hR : RReKeeps y R) (ty : Ty) (l : Loc) : ReKeeps y (produceBody env R ty l) := by
  by_cases hy : y = l
  · subst hy
    intro s a s' h
    obtain ⟨rs, h1, h2⟩ := produceBody_adds env ty y hR s a s' h
    exact ⟨rs, h1, fun hn => absurd h2 hn⟩
  · exact produceBody_rekeeps_ne env hR ty l hy

theorem cleanDep_rekeeps {y : Loc} {R : Rec V} (hR : RReKeeps y R) (d : Dep V) (l : Loc) : ReKeeps y (cleanDep R d l) := by
  match d with
  | .allocStruct => exact ReKeeps.pure _ _
  | .allocNom _ => exact ReKeeps.pure _ _
  | .allocCell _ => exact ReKeeps.pure _ _
  | .force ty res => exact hR.cleanForce _ _ _
  | .forceMap ty f res => exact (checkForceMapDep_reads _ _ _ _).rekeeps _
  | .forceAbs => exact ReKeeps.pure _ _

theorem setSuccDirty_grows (p : Loc) (eff : Effect) (x : Loc) (v : Bool) : Grows (setSuccDirty p eff x v : M V Unit) := by
  intro s _ s' hm
  obtain ⟨n, s1, h, hm⟩ := M.bind_inv hm
  obtain ⟨rfl, h⟩ := lookupAbs_inv h
  match n with
  | .comp nd =>
    rcases hf : nd.succs.find? (Succ.matches eff x) with _ | e
    · simp only [hf] at hm; cases hm
    · simp only [hf] at hm
      cases hm
      exact ⟨[], rfl⟩
  | .mut nd => cases hm
  | .pure nd => cases hm

theorem cleanLoop_grows {y : Loc} {R : Rec V} (hR : RReKeeps y R) (ty : Ty) (res : V) (l : Loc) (es : List (Succ V)) : Grows (cleanLoop R ty res l es) := by
  induction es with
  | nil => exact (ReKeeps.pure y _).grows
  | cons e es ih =>
    refine Grows.bind ((succDirty_reads _ _ _).rekeeps y).grows fun d => ?_
    cases d
    · exact ih
    · refine Grows.bind (ReKeeps.evBegin y _ _ _).grows fun _ => Grows.bind (cleanDep_rekeeps hR _ _).grows fun ch => ?_
      cases ch
      · exact Grows.bind (setSuccDirty_grows _ _ _ _) fun _ => Grows.bind (ReKeeps.evEff y _ _ _).grows fun _ => Grows.bind (ReKeeps.evEnd y).grows fun _ => ih
      · exact Grows.bind (ReKeeps.evBegin y _ _ _).grows fun _ => Grows.bind (hR.produce _ _).grows fun _ =>
          Grows.bind (ReKeeps.evEnd y).grows fun _ => Grows.bind (ReKeeps.evEnd y).grows fun _ => (ReKeeps.pure y _).grows

/-- The edges `es` are among those of the thunk `l` (if it has a result). -/
def Here (l : Loc) (es : List (Succ V)) (s : St V) : Prop :=
  ∀ nd, s.table.get l = some (.comp nd) → nd.res ≠ none → ∀ e ∈ es, e.edge ∈ nd.succs.map Succ.edge

theorem Here.rekept {l : Loc} {es : List (Succ V)} {s s' : St V} (h : Here l es s) {rs : List Loc} (hl : l ∉ rs)
    (hk : l ∉ rs → ∀ nd', s'.table.get l = some (.comp nd') → nd'.res ≠ none → ∃ nd, s.table.get l = some (.comp nd) ∧ Reused nd nd') : Here l es s' := by
  intro nd' h1 h2 e he
  obtain ⟨nd, k1, k2⟩ := hk hl nd' h1 h2
  rw [k2.edges]
  exact h nd k1 (by rw [← k2.res]; exact h2) e he

/-- A dependency that is found unchanged is not the allocation of something with a name. -/
theorem cleanDep_named {R : Rec V} {d : Dep V} {l : Loc} {s s' : St V} (h : cleanDep R d l s = .ok false s') : ¬ d.named := by
  intro hn
  match d with
  | .allocNom _ => cases h
  | .allocCell _ => cases h
  | .allocStruct => exact hn
  | .force _ _ => exact hn
  | .forceMap _ _ _ => exact hn
  | .forceAbs => exact hn

theorem cleanLoop_rekept {y : Loc} {R : Rec V} (hR : RReKeeps y R) (ty : Ty) (res : V) (l : Loc) : ∀ (es : List (Succ V)) (s : St V) (a : Option Bool) (s' : St V),
    cleanLoop R ty res l es s = .ok a s' → (y = l → Here l es s) → ReKept y s s' := by
  intro es
  induction es with
  | nil => intro s a s' h _; cases h; exact ReKept.refl _ _
  | cons e es ih =>
    intro s a s' h hh
    obtain ⟨d, s1, g1, h⟩ := M.bind_inv h
    have q1 := (succDirty_reads l e.effect e.loc).rekeeps y _ _ _ g1
    obtain rfl : s1 = s := by
      rcases (succDirty_reads l e.effect e.loc : Reads (succDirty (V := V) l e.effect e.loc)) s with ⟨b, hb⟩ | ⟨b, hb⟩
      · rw [hb] at g1; cases g1; rfl
      · rw [hb] at g1; cases g1
    cases d
    · exact ih _ _ _ h fun hy nd k1 k2 e' he' => hh hy nd k1 k2 e' (List.mem_cons_of_mem _ he')
    · obtain ⟨_, s2, g2, h⟩ := M.bind_inv h
      obtain ⟨ch, s3, g3, h⟩ := M.bind_inv h
      have q3 : ReKept y s1 s3 := (ReKeeps.evBegin y _ _ _ _ _ _ g2).trans (cleanDep_rekeeps hR _ _ _ _ _ g3)
      cases ch
      · have hng := cleanDep_named g3
        obtain ⟨rs, p1, p2⟩ := q3
        by_cases hr : y ∈ rs
        · have hg : Grows (setSuccDirty l e.effect e.loc false >>= fun _ => evEff .cleanEdge (some l) e.loc >>= fun _ => (evEnd : M V Unit) >>= fun _ => cleanLoop R ty res l es) :=
            Grows.bind (setSuccDirty_grows _ _ _ _) fun _ => Grows.bind (ReKeeps.evEff y _ _ _).grows fun _ => Grows.bind (ReKeeps.evEnd y).grows fun _ => cleanLoop_grows hR ty res l es
          obtain ⟨rs', p3⟩ := hg _ _ _ h
          exact ⟨rs' ++ rs, by rw [p3, p1, List.append_assoc], fun hn => absurd (List.mem_append_right _ hr) hn⟩
        · obtain ⟨_, s4, g4, h⟩ := M.bind_inv h
          obtain ⟨_, s5, g5, h⟩ := M.bind_inv h
          obtain ⟨_, s6, g6, h⟩ := M.bind_inv h
          have hh3 : y = l → Here l (e :: es) s3 := by
            rintro rfl
            exact (hh rfl).rekept hr p2
          have q4 : ReKept y s3 s4 := by
            refine setSuccDirty_rekept (fun hy => ?_) g4
            cases he : e.effect
            · exact .inr (.inl rfl)
            · refine .inr (.inr fun nd k1 k2 => ?_)
              obtain ⟨e', m1, m2⟩ := List.mem_map.1 (hh3 hy nd k1 k2 e (List.mem_cons_self ..))
              obtain ⟨d, x, eff, dep⟩ := e
              obtain ⟨d', x', eff', dep'⟩ := e'
              simp only [Succ.edge] at m2
              cases m2
              exact ⟨_, m1, he, rfl, hng⟩
          have q6 : ReKept y s4 s6 := (ReKeeps.evEff y _ _ _ _ _ _ g5).trans (ReKeeps.evEnd y _ _ _ g6)
          have q36 := q4.trans q6
          have q16 : ReKept y s1 s6 := ReKept.trans ⟨rs, p1, p2⟩ q36
          obtain ⟨rs6, p5, p6⟩ := q36
          by_cases hr6 : y ∈ rs6
          · obtain ⟨rs', p3⟩ := cleanLoop_grows hR ty res l es _ _ _ h
            exact ⟨rs' ++ (rs6 ++ rs), by rw [p3, p5, p1, List.append_assoc, List.append_assoc], fun hn => absurd (List.mem_append_right _ (List.mem_append_left _ hr6)) hn⟩
          · refine q16.trans (ih _ _ _ h fun hy => ?_)
            subst hy
            exact Here.rekept (fun nd k1 k2 e' he' => hh3 rfl nd k1 k2 e' (List.mem_cons_of_mem _ he')) hr6 p6
      · refine q3.trans ?_
        have : ReKeeps y (evBegin .cleanEval (some l) e.loc >>= fun _ => R.produce ty l >>= fun result => (evEnd : M V Unit) >>= fun _ => (evEnd : M V Unit) >>= fun _ =>
            (Pure.pure (some (decide (¬ result ≈ᵤ res))) : M V (Option Bool))) :=
          ReKeeps.bind (ReKeeps.evBegin y _ _ _) fun _ => ReKeeps.bind (hR.produce _ _) fun _ =>
            ReKeeps.bind (ReKeeps.evEnd y) fun _ => ReKeeps.bind (ReKeeps.evEnd y) fun _ => ReKeeps.pure _ _
        exact this _ _ _ h

theorem cleanForceBody_rekeeps {y : Loc} {R : Rec V} (hR : RReKeeps y R) (ty : Ty) (res : V) (l : Loc) :
    ReKeeps y (cleanForceBody R ty res l) := by
  intro s a s' h
  obtain ⟨n, s1, g1, h⟩ := M.bind_inv h
  obtain ⟨rfl, g1, _⟩ := resNode_inv g1
  match n with
  | .pure _ => cases h; exact ReKept.refl _ _
  | .mut _ => cases h; exact ReKept.refl _ _
  | .comp nd =>
    rcases hr : nd.res with _ | cache
    · simp only [hr] at h
      have : ReKeeps y (evBegin .cleanEval none l >>= fun _ => R.produce ty l >>= fun r => (evEnd : M V Unit) >>= fun _ => (Pure.pure (decide (¬ res ≈ᵤ r)) : M V Bool)) :=
        ReKeeps.bind (ReKeeps.evBegin y _ _ _) fun _ => ReKeeps.bind (hR.produce _ _) fun _ =>
          ReKeeps.bind (ReKeeps.evEnd y) fun _ => ReKeeps.pure _ _
      exact this _ _ _ h
    · simp only [hr] at h
      obtain ⟨r, s2, g2, h⟩ := M.bind_inv h
      have q := cleanLoop_rekept hR ty res l nd.succs _ _ _ g2 (fun hy nd' k1 k2 e he => by
        rw [g1] at k1; cases k1
        exact List.mem_map_of_mem he)
      cases r <;> cases h <;> exact q

theorem recN_rekeeps (env : Env V) (y : Loc) : ∀ n, RReKeeps y (recN env n)
  | 0 => ⟨fun _ _ _ _ _ h => (by cases h), fun _ _ _ _ _ _ h => (by cases h), fun _ _ _ _ h => (by cases h)⟩
  | n + 1 => ⟨produceBody_rekeeps env (recN_rekeeps env y n), cleanForceBody_rekeeps (recN_rekeeps env y n), runProg_rekeeps env (recN_rekeeps env y n)⟩

/-- A cached result comes from a run. -/
theorem exec_rekeeps (env : Env V) (y : Loc) (n : Nat) (p : Prog V) : ReKeeps y (exec env n p) := runProg_rekeeps env (recN_rekeeps env y n) p

end Adapton
