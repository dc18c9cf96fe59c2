import Verif.Engine.Stay
import Verif.Props.Dirtying
/-
A thunk whose recorded allocation is flagged stays flagged until it is run, and is run when it is forced.  For every program and every state.
-/
set_option linter.unusedSectionVars false
set_option linter.unusedVariables false
set_option linter.unusedSimpArgs false
namespace Adapton
variable {V α β : Type} [UEq V]

/-- Recorded by an allocation under a name: a cell, or a thunk. -/
def Dep.isNamedAlloc : Dep V → Prop
  | .allocCell _ => True
  | .allocNom _ => True
  | _ => False

/-- The thunk `x` has recorded that it allocates `c`, and this record is flagged. -/
def Owed (x c : Loc) (s : St V) : Prop :=
  ∃ nd, s.table.get x = some (.comp nd) ∧ KeyDirty nd.succs .allocate c ∧ ∀ e ∈ nd.succs, e.effect = .allocate → e.loc = c → e.dep.isNamedAlloc

/-- From `s` to `s'`: `x` has been run, or the flag is still there if it was. -/
def Kp (x c : Loc) (s s' : St V) : Prop := ∃ rs, s'.runs = rs ++ s.runs ∧ (x ∉ rs → Owed x c s → Owed x c s')

theorem Kp.refl (x c : Loc) (s : St V) : Kp x c s s := ⟨[], rfl, fun _ h => h⟩
theorem Kp.trans {x c : Loc} {s1 s2 s3 : St V} (h1 : Kp x c s1 s2) (h2 : Kp x c s2 s3) : Kp x c s1 s3 := by
  obtain ⟨r1, a1, b1⟩ := h1
  obtain ⟨r2, a2, b2⟩ := h2
  refine ⟨r2 ++ r1, by rw [a2, a1, List.append_assoc], fun hn ho => ?_⟩
  have : x ∉ r2 ∧ x ∉ r1 := by simpa using hn
  exact b2 this.1 (b1 this.2 ho)
/-- `x` has been run. -/
theorem RunsAt.kp {x c : Loc} {s s' : St V} (h : RunsAt x s s') : Kp x c s s' := by
  obtain ⟨rs, h1, h2⟩ := h
  exact ⟨rs, h1, fun hn => absurd h2 hn⟩
/-- It has not been run, but its flag was not set before. -/
theorem Kp.off {x c : Loc} {s s' : St V} (h : ∃ rs, s'.runs = rs ++ s.runs) (hn : ¬ Owed x c s) : Kp x c s s' := by
  obtain ⟨rs, h⟩ := h
  exact ⟨rs, h, fun _ ho => absurd ho hn⟩
theorem Kp.same {x c : Loc} {s s' : St V} (h1 : s'.table = s.table) (h2 : ∃ rs, s'.runs = rs ++ s.runs) : Kp x c s s' := by
  obtain ⟨rs, h2⟩ := h2
  refine ⟨rs, h2, fun _ ho => ?_⟩
  unfold Owed
  rw [h1]
  exact ho

/-- The outcome, if it returns. -/
def KRes (x c : Loc) (s : St V) : Out V α → Prop
  | .ok _ s' => Kp x c s s'
  | _ => True
def Kept (x c : Loc) (m : M V α) : Prop := ∀ s, KRes x c s (m s)

theorem KRes.trans {x c : Loc} {s s1 : St V} {o : Out V α} (h1 : Kp x c s s1) (h2 : KRes x c s1 o) : KRes x c s o := by
  match o with
  | .ok a s3 => exact h1.trans h2
  | .panic e s3 => trivial
  | .oof => trivial
theorem KRes.bind {x c : Loc} {m : M V α} {f : α → M V β} {s : St V} (h1 : KRes x c s (m s)) (h2 : ∀ a s', m s = .ok a s' → KRes x c s' (f a s')) : KRes x c s ((m >>= f) s) := by
  rw [M.bind_def]
  rcases hm : m s with ⟨a, s'⟩ | ⟨e, s'⟩ | _
  · rw [hm] at h1
    exact KRes.trans h1 (h2 a s' hm)
  · trivial
  · trivial
theorem Kept.bind {x c : Loc} {m : M V α} {f : α → M V β} (h1 : Kept x c m) (h2 : ∀ a, Kept x c (f a)) : Kept x c (m >>= f) := fun s => KRes.bind (h1 s) fun a s' _ => h2 a s'
theorem Kept.pure (x c : Loc) (a : α) : Kept x c (Pure.pure a : M V α) := fun s => Kp.refl x c s
theorem Kept.panic (x c : Loc) (e : Err) : Kept x c (M.panic e : M V α) := fun s => trivial
theorem Kept.get (x c : Loc) : Kept x c (M.get : M V (St V)) := fun s => Kp.refl x c s
theorem Kept.ite {x c : Loc} {d : Prop} [Decidable d] {m1 m2 : M V α} (h1 : Kept x c m1) (h2 : Kept x c m2) : Kept x c (if d then m1 else m2) := by
  split
  · exact h1
  · exact h2
theorem Reads.kept {m : M V α} (h : Reads m) (x c : Loc) : Kept x c m := by
  intro s
  rcases h s with ⟨a, h⟩ | ⟨e, h⟩
  · rw [h]; exact Kp.refl x c s
  · rw [h]; trivial
theorem Kept.evBegin (x c : Loc) (e : TEff) (src : Option Loc) (tgt : Loc) : Kept x c (evBegin e src tgt : M V Unit) := fun s => Kp.same rfl ⟨[], rfl⟩
theorem Kept.evEnd (x c : Loc) : Kept x c (evEnd : M V Unit) := fun s => Kp.same rfl ⟨[], rfl⟩
theorem Kept.evEff (x c : Loc) (e : TEff) (src : Option Loc) (tgt : Loc) : Kept x c (evEff e src tgt : M V Unit) := fun s => Kp.same rfl ⟨[], rfl⟩
theorem Kept.recordEdge (x c : Loc) (e : Succ V) (d : Option (Dep V)) : Kept x c (recordEdge e d) := by
  intro s
  unfold Adapton.recordEdge
  rw [M.modify_def]
  rcases hs : s.stack with _ | ⟨fr, K⟩
  · exact Kp.refl _ _ _
  · exact Kp.same rfl ⟨[], rfl⟩
theorem Kept.modify (x c : Loc) (f : St V → St V) (h1 : ∀ s, (f s).table = s.table) (h3 : ∀ s, ∃ rs, (f s).runs = rs ++ s.runs) : Kept x c (M.modify f) :=
  fun s => Kp.same (h1 s) (h3 s)

/-- Dirtying keeps flags. -/
theorem Owed.up {x c : Loc} {s s' : St V} (hu : Up s s') (h : Owed x c s) : Owed x c s' := by
  obtain ⟨nd, h1, h2, h3⟩ := h
  have ht := hu.tbl x
  rw [h1] at ht
  obtain ⟨es', g1, g2⟩ := ht
  refine ⟨_, g1, g2.keyDirty h2, fun e he h4 h5 => ?_⟩
  obtain ⟨e0, k1, k2⟩ := g2.mem_right he
  have hd : e0.dep = e.dep ∧ e0.effect = e.effect ∧ e0.loc = e.loc := by
    cases e0; cases e; cases k2; exact ⟨rfl, rfl, rfl⟩
  rw [← hd.1]
  exact h3 e0 k1 (hd.2.1.trans h4) (hd.2.2.trans h5)
theorem Up.kp {x c : Loc} {s s' : St V} (hu : Up s s') : Kp x c s s' := ⟨[], hu.runs, fun _ h => h.up hu⟩
theorem kept_of_sat {x c : Loc} {m : M V α} (h : ∀ s, (m s).Sat (Up s)) : Kept x c m := by
  intro s
  have := h s
  revert this
  generalize m s = o
  intro this
  match o with
  | .ok a s' => exact Up.kp this
  | .panic e s' => trivial
  | .oof => trivial
theorem dirtyAlloc_kept (x c l : Loc) : Kept x c (dirtyAlloc l : M V Unit) := kept_of_sat (dirtyAlloc_general l)

/-- Replacing a node by one that, if it is a thunk, has the same records. -/
theorem Kp.put {x c l : Loc} {s : St V} {n' : Node V} (h : ∀ nd, s.table.get l = some (.comp nd) → ∃ nd', n' = .comp nd' ∧ nd'.succs = nd.succs) :
    Kp x c s { s with table := s.table.put l n' } := by
  refine ⟨[], rfl, fun _ ho => ?_⟩
  obtain ⟨nd, h1, h2, h3⟩ := ho
  by_cases hx : x = l
  · subst hx
    obtain ⟨nd', rfl, e⟩ := h nd h1
    refine ⟨nd', Table.get_put_self .., ?_, ?_⟩
    · rw [e]; exact h2
    · rw [e]; exact h3
  · exact ⟨nd, by rw [Table.get_put_ne _ _ hx]; exact h1, h2, h3⟩

theorem setSuccDirty_kept {x c p : Loc} {eff : Effect} {y : Loc} {b : Bool} (h : b = true ∨ ¬ (x = p ∧ .allocate = eff ∧ c = y)) : Kept x c (setSuccDirty p eff y b : M V Unit) := by
  cases b with
  | true => exact kept_of_sat (setSuccDirty_sat p eff y)
  | false =>
    have h := h.resolve_left (by simp)
    intro s
    refine KRes.bind ((lookupAbs_reads p).kept x c s) fun n s' hl => ?_
    obtain ⟨rfl, hl⟩ := lookupAbs_inv hl
    match n with
    | .comp nd =>
      rcases hf : nd.succs.find? (Succ.matches eff y) with _ | e
      · simp only [hf]; trivial
      · simp only [hf]
        refine ⟨[], rfl, fun _ ho => ?_⟩
        obtain ⟨nd0, h1, h2, h3⟩ := ho
        by_cases hx : x = p
        · subst hx
          rw [hl] at h1; cases h1
          have hne : ¬ (Effect.allocate = eff ∧ c = y) := fun e => h ⟨rfl, e⟩
          refine ⟨_, Table.get_put_self .., ?_, fun e he h4 h5 => ?_⟩
          · obtain ⟨w, k1, k2⟩ := h2
            exact ⟨w, (setFirst_find_ne eff y false _ hne).trans k1, k2⟩
          · have hm : e.edge ∈ (setFirst eff y false nd.succs).map Succ.edge := List.mem_map_of_mem he
            rw [setFirst_edges, List.mem_map] at hm
            obtain ⟨e0, m1, m2⟩ := hm
            have hd : e0.dep = e.dep ∧ e0.effect = e.effect ∧ e0.loc = e.loc := by
              cases e0; cases e; cases m2; exact ⟨rfl, rfl, rfl⟩
            rw [← hd.1]
            exact h3 e0 m1 (hd.2.1.trans h4) (hd.2.2.trans h5)
        · exact ⟨nd0, by rw [Table.get_put_ne _ _ hx]; exact h1, h2, h3⟩
    | .mut nd => trivial
    | .pure nd => trivial

theorem removePred_kept (x c src tgt : Loc) : Kept x c (removePred src tgt : M V Unit) := by
  refine Kept.bind (Kept.evEff _ _ _ _ _) fun _ s => ?_
  refine KRes.bind ((lookupAbs_reads tgt).kept x c s) fun n s' h => ?_
  obtain ⟨rfl, h⟩ := lookupAbs_inv h
  match n with
  | .comp nd => exact Kp.put fun nd0 h0 => by rw [h] at h0; cases h0; exact ⟨_, rfl, rfl⟩
  | .mut nd => exact Kp.put fun nd0 h0 => by rw [h] at h0; cases h0
  | .pure nd => trivial
theorem revokeSuccs_kept (x c src : Loc) (es : List (Succ V)) : Kept x c (revokeSuccs src es) := by
  induction es with
  | nil => exact Kept.pure _ _ _
  | cons e es ih => exact Kept.bind (removePred_kept _ _ _ _) fun _ => ih
theorem installPreds_kept (x c l : Loc) (es : List (Succ V × Option (Dep V))) : Kept x c (installPreds l es) := by
  induction es with
  | nil => exact Kept.pure _ _ _
  | cons q es ih =>
    obtain ⟨e, d⟩ := q
    refine Kept.bind (Kept.ite (Kept.panic _ _ _) fun s => ?_) fun _ => ih
    refine KRes.bind ((lookupAbs_reads _).kept x c s) fun n s' h => ?_
    obtain ⟨rfl, h⟩ := lookupAbs_inv h
    match n with
    | .comp nd => exact Kp.put fun nd0 h0 => by rw [h] at h0; cases h0; exact ⟨_, rfl, rfl⟩
    | .mut nd => exact Kp.put fun nd0 h0 => by rw [h] at h0; cases h0
    | .pure nd => trivial

theorem setCell_kept (x c : Loc) (ty : Ty) (l : Loc) (v : V) : Kept x c (setCell ty l v) := by
  intro s
  refine KRes.bind ((resNode_reads ty l).kept x c s) fun n s' h => ?_
  obtain ⟨rfl, h, _⟩ := resNode_inv h
  match n with
  | .comp nd => trivial
  | .pure nd => trivial
  | .mut nd =>
    show KRes x c s' ((if nd.val ≈ᵤ v then _ else _ : M V Unit) s')
    split
    · exact Kp.refl _ _ _
    · exact KRes.bind (m := putNode l _) (Kp.put fun nd0 h0 => by rw [h] at h0; cases h0) fun _ s2 _ => dirtyAlloc_kept _ _ _ s2
theorem opSet_kept (x c : Loc) (ty : Ty) (l : Loc) (v : V) : Kept x c (opSet ty l v) :=
  Kept.bind (Kept.get _ _) fun s => Kept.ite (setCell_kept _ _ _ _ _) (Kept.panic _ _ _)

theorem cellTable_kept (x c : Loc) (ty : Ty) (l : Loc) (v : V) (pu : Bool) : Kept x c (cellTable ty l v pu) := by
  intro s
  refine KRes.bind (Kp.refl x c s) fun s0 s1 h0 => ?_
  cases h0
  rcases hg : s.table.get l with _ | n0
  · simp only [hg]
    refine KRes.bind (Kept.evBegin x c _ _ _ s) fun _ s1 h1 => KRes.bind (Kept.evEnd x c s1) fun _ s2 h2 => ?_
    cases h1; cases h2
    exact Kp.put fun nd0 h0 => by simp only [hg] at h0; cases h0
  · simp only [hg]
    refine KRes.bind ((resNode_reads ty l).kept x c s) fun n s1 h1 => ?_
    refine Kept.bind (Kept.evBegin x c _ _ _) (fun _ => ?_) s1
    match n with
    | .mut nd => exact Kept.bind (setCell_kept x c ty l v) fun _ => Kept.evEnd x c
    | .comp nd => exact Kept.bind (dirtyAlloc_kept x c l) fun _ => Kept.bind (revokeSuccs_kept x c l nd.succs) fun _ => Kept.evEnd x c
    | .pure nd => exact Kept.evEnd x c
theorem opCell_kept (env : Env V) (x c : Loc) (ty : Ty) (nm : Name) (v : V) : Kept x c (opCell env ty nm v) := by
  refine Kept.bind (Kept.get _ _) fun s => Kept.bind (cellTable_kept _ _ _ _ _ _) fun _ => Kept.bind ?_ fun _ => Kept.pure _ _ _
  unfold cellRecord
  exact Kept.ite (Kept.pure _ _ _) (Kept.recordEdge _ _ _ _)

theorem thunkStructural_kept (env : Env V) (x c : Loc) (ty : Ty) (pp : ProgPt) (fn : FnId) (arg : V) : Kept x c (thunkStructural env ty pp fn arg) := by
  intro s
  refine KRes.bind (Kp.refl x c s) fun s0 s1 h0 => ?_
  cases h0
  rcases hg : s.table.get (⟨s.path, .structural (env.hashApp pp arg)⟩ : Loc) with _ | n0
  · simp only [hg]
    refine KRes.bind (Kept.recordEdge x c _ _ s) fun u s1 h1 => ?_
    have ht := recordEdge_table _ _ _ _ _ h1
    exact KRes.bind (m := putNode _ _) (Kp.put fun nd0 h0 => by rw [ht, hg] at h0; cases h0) fun _ s2 _ => Kp.refl _ _ _
  · simp only [hg]; exact Kp.refl _ _ _

theorem thunkNominal_kept (x c : Loc) (ty : Ty) (nm : Name) (pp : ProgPt) (fn : FnId) (arg : V) : Kept x c (thunkNominal ty nm pp fn arg) := by
  intro s
  refine KRes.bind (Kp.refl x c s) fun s0 s1 h0 => ?_
  cases h0
  rcases hg : s.table.get (⟨s.path, .nominal nm⟩ : Loc) with _ | n0
  · simp only [hg]
    refine KRes.bind (Kept.evBegin x c _ _ _ s) fun _ s1 h1 => KRes.bind (Kept.evEnd x c s1) fun _ s2 h2 => ?_
    cases h1; cases h2
    refine KRes.bind (Kept.recordEdge x c _ _ _) fun u s3 h3 => ?_
    have ht := recordEdge_table _ _ _ _ _ h3
    exact KRes.bind (m := putNode _ _) (Kp.put fun nd0 h0 => by rw [ht] at h0; simp only [hg] at h0; cases h0) fun _ s2 _ => Kp.refl _ _ _
  · simp only [hg]
    refine KRes.bind ((resNode_reads ty _).kept x c s) fun n s1 h1 => ?_
    obtain ⟨rfl, h1, h2⟩ := resNode_inv h1
    match n with
    | .pure _ => trivial
    | .mut mn =>
      simp only []
      have hput : ∀ s2 : St V, (∀ nd, s2.table.get (⟨s1.path, .nominal nm⟩ : Loc) ≠ some (.comp nd)) →
          KRes x c s2 (((do evEnd; recordEdge ⟨false, ⟨s1.path, .nominal nm⟩, .allocate, .allocNom arg⟩ none; putNode ⟨s1.path, .nominal nm⟩ (.comp ⟨ty, [], [], pp, fn, arg, none⟩); Pure.pure ⟨s1.path, .nominal nm⟩) : M V Loc) s2) := by
        intro s2 hne
        refine KRes.bind (Kept.evEnd x c s2) fun _ s3 h3 => ?_
        cases h3
        refine KRes.bind (Kept.recordEdge x c _ _ _) fun u s4 h4 => ?_
        have ht := recordEdge_table _ _ _ _ _ h4
        exact KRes.bind (m := putNode _ _) (Kp.put fun nd0 h0 => by rw [ht] at h0; exact absurd h0 (hne nd0)) fun _ s2 _ => Kp.refl _ _ _
      refine KRes.bind (Kept.evBegin x c _ _ _ s1) fun _ s2 h2 => ?_
      cases h2
      refine KRes.bind (dirtyAlloc_kept x c _ _) fun _ s3 h3 => hput s3 fun nd hnd => ?_
      have hu := dirtyAlloc_general (⟨s1.path, .nominal nm⟩ : Loc) ({ s1 with log := Ev.begin (.alloc (.locExists true) .thunk) (topLoc s1) ⟨s1.path, .nominal nm⟩ :: s1.log } : St V)
      rw [h3] at hu
      have := (show Up _ s3 from hu).tbl ⟨s1.path, .nominal nm⟩
      simp only [h1] at this
      have this : s3.table.get (⟨s1.path, .nominal nm⟩ : Loc) = some (.mut mn) := this
      rw [hnd] at this
      cases this
    | .comp cn =>
      simp only []
      by_cases hpp : cn.pp = pp
      · rw [if_pos hpp]
        by_cases ha : cn.arg ≈ᵤ arg
        · rw [if_pos ha]
          exact Kept.bind (Kept.evBegin x c _ _ _) (fun _ => Kept.bind (Kept.evEnd x c) fun _ => Kept.bind (Kept.recordEdge x c _ _) fun _ => Kept.pure _ _ _) s1
        · rw [if_neg ha]
          refine KRes.bind (m := putNode _ _) (Kp.put fun nd0 h0 => by rw [h1] at h0; cases h0; exact ⟨_, rfl, rfl⟩) fun _ s2 _ => ?_
          exact Kept.bind (Kept.evBegin x c _ _ _) (fun _ => Kept.bind (dirtyAlloc_kept x c _) fun _ => Kept.bind (Kept.evEnd x c) fun _ =>
            Kept.bind (Kept.recordEdge x c _ _) fun _ => Kept.pure _ _ _) s2
      · rw [if_neg hpp]; trivial

theorem opThunk_kept (env : Env V) (x c : Loc) (ty : Ty) (nc : NameChoice) (pp : ProgPt) (fn : FnId) (arg : V) : Kept x c (opThunk env ty nc pp fn arg) := by
  refine Kept.bind (Kept.get _ _) fun s => ?_
  match nc with
  | .eager => exact Kept.panic _ _ _
  | .naive => exact Kept.panic _ _ _
  | .structural => exact thunkStructural_kept _ _ _ _ _ _ _
  | .nominal nm => exact Kept.ite (thunkStructural_kept _ _ _ _ _ _ _) (thunkNominal_kept _ _ _ _ _ _ _)

/-- What the recursive calls guarantee. -/
structure RKept (x c : Loc) (R : Rec V) : Prop where
  produce : ∀ ty l, Kept x c (R.produce ty l)
  cleanForce : ∀ ty r l, Kept x c (R.cleanForce ty r l)
  run : ∀ p, Kept x c (R.run p)

theorem opForce_kept {x c : Loc} {R : Rec V} (hR : RKept x c R) (ty : Ty) (l : Loc) (cyc : Option V) : Kept x c (opForce R ty l cyc) := by
  refine Kept.bind (Kept.get _ _) fun s => Kept.bind ((resNode_reads ty _).kept x c) fun n => ?_
  have hrec : ∀ (d : Bool) (r : V), Kept x c (if d then (Pure.pure r : M V V) else do
      recordEdge ⟨false, l, .observe, .force ty r⟩ none; Pure.pure r) := fun d r =>
    Kept.ite (Kept.pure _ _ _) (Kept.bind (Kept.recordEdge x c _ _) fun _ => Kept.pure _ _ _)
  match n with
  | .pure nd => exact Kept.bind (Kept.evEff _ _ _ _ _) fun _ => Kept.pure _ _ _
  | .mut nd => exact Kept.bind (Kept.evEff _ _ _ _ _) fun _ => hrec _ _
  | .comp nd =>
    simp only []
    refine Kept.ite ?_ ?_
    · match cyc with
      | none => exact Kept.panic _ _ _
      | some out => exact Kept.bind (Kept.evBegin x c _ _ _) fun _ => Kept.bind (Kept.evEnd x c) fun _ => Kept.ite (Kept.pure _ _ _) (hrec _ _)
    · rcases hres : nd.res with _ | r
      · simp only []
        exact Kept.bind (Kept.evBegin x c _ _ _) fun _ => Kept.ite (Kept.panic _ _ _)
          (Kept.bind (hR.produce ty l) fun r => Kept.bind (Kept.evEnd x c) fun _ => Kept.ite (Kept.pure _ _ _) (hrec _ _))
      · simp only []
        refine Kept.bind (Kept.evBegin x c _ _ _) fun _ => Kept.bind (hR.cleanForce ty r l) fun b => Kept.bind (Kept.evEnd x c) fun _ =>
          Kept.bind ((resNode_reads ty _).kept x c) fun n' => ?_
        match n' with
        | .comp nd' =>
          rcases hr' : nd'.res with _ | r'
          · simp only [hr']; exact Kept.panic _ _ _
          · simp only [hr']; exact Kept.ite (Kept.pure _ _ _) (hrec _ _)
        | .mut _ => exact Kept.panic _ _ _
        | .pure _ => exact Kept.panic _ _ _

theorem opForceMap_kept {x c : Loc} {R : Rec V} (hR : RKept x c R) (ty : Ty) (l : Loc) (f : V → V) : Kept x c (opForceMap R ty l f) := by
  refine Kept.bind (Kept.get _ _) fun s => Kept.bind ((resNode_reads ty l).kept x c) fun n => ?_
  match n with
  | .mut nd => exact Kept.bind (Kept.evEff _ _ _ _ _) fun _ => Kept.bind (Kept.recordEdge _ _ _ _) fun _ => Kept.pure _ _ _
  | .comp nd => exact Kept.bind (opForce_kept hR _ _ _) fun _ => Kept.pure _ _ _
  | .pure nd => exact Kept.bind (opForce_kept hR _ _ _) fun _ => Kept.pure _ _ _
theorem opForceAbs_kept {x c : Loc} {R : Rec V} (hR : RKept x c R) (ty : Ty) (l : Loc) (f : V → V) : Kept x c (opForceAbs R ty l f) := by
  refine Kept.bind (Kept.get _ _) fun s => Kept.bind ((resNode_reads ty l).kept x c) fun n => ?_
  match n with
  | .mut nd => exact Kept.bind (Kept.evEff _ _ _ _ _) fun _ => Kept.bind (Kept.recordEdge _ _ _ _) fun _ => Kept.pure _ _ _
  | .comp nd => exact Kept.bind (opForce_kept hR _ _ _) fun _ => Kept.pure _ _ _
  | .pure nd => exact Kept.bind (opForce_kept hR _ _ _) fun _ => Kept.pure _ _ _

theorem runProg_kept (env : Env V) {x c : Loc} {R : Rec V} (hR : RKept x c R) (p : Prog V) : Kept x c (runProg env R p) := by
  induction p with
  | ret v => exact Kept.pure _ _ _
  | force ty l cyc k ih => exact Kept.bind (opForce_kept hR _ _ _) ih
  | forceMap ty l f k ih => exact Kept.bind (opForceMap_kept hR _ _ _) ih
  | forceAbs ty l f k ih => exact Kept.bind (opForceAbs_kept hR _ _ _) ih
  | cell ty n v k ih => exact Kept.bind (opCell_kept _ _ _ _ _ _) ih
  | thunk ty nc pp fn arg k ih => exact Kept.bind (opThunk_kept _ _ _ _ _ _ _ _) ih
  | set ty l v k ih => exact Kept.bind (opSet_kept _ _ _ _ _) fun _ => ih
  | ns n body k ihb ih =>
    exact Kept.bind (Kept.get _ _) fun s => Kept.bind (Kept.modify x c _ (fun _ => rfl) (fun _ => ⟨[], rfl⟩)) fun _ =>
      Kept.bind ihb fun v => Kept.bind (Kept.modify x c _ (fun _ => rfl) (fun _ => ⟨[], rfl⟩)) fun _ => ih v
  | structural body k ihb ih =>
    exact Kept.bind (Kept.get _ _) fun s => Kept.bind (Kept.modify x c _ (fun _ => rfl) (fun _ => ⟨[], rfl⟩)) fun _ =>
      Kept.bind ihb fun v => Kept.bind (Kept.modify x c _ (fun _ => rfl) (fun _ => ⟨[], rfl⟩)) fun _ => ih v
  | call fn arg k ih => exact Kept.bind (hR.run _) ih
  | panic => exact Kept.panic _ _ _

/-! ### Running -/

theorem Gen.mono {b : Bool} {i j : Nat} {m : M V α} (h : Gen b i j m) {s s' : St V} {a : α} (hm : m s = .ok a s') : ∃ rs, s'.runs = rs ++ s.runs := by
  have := h s
  rw [hm] at this
  exact (show Ok b i j s s' from this).runs

/-- If `loc_produce` returns, the thunk has been run. -/
theorem produceBody_runs (env : Env V) {R : Rec V} (hG : RGen R) (ty : Ty) (l : Loc) {s s' : St V} {v : V} (h : produceBody env R ty l s = .ok v s') : RunsAt l s s' := by
  obtain ⟨n, s1, h1, h⟩ := M.bind_inv h
  obtain ⟨rfl, h1, _⟩ := resNode_inv h1
  match n with
  | .mut _ => cases h
  | .pure _ => cases h
  | .comp nd =>
    obtain ⟨_, s2, h2, h⟩ := M.bind_inv h
    cases h2
    obtain ⟨_, s3, h3, h⟩ := M.bind_inv h
    obtain ⟨r3, m3⟩ := (revokeSuccs_gen false 0 l nd.succs).mono h3
    rw [M.bind_ok (M.get_def s3)] at h
    obtain ⟨_, s4, h4, h⟩ := M.bind_inv h
    have m4 : s4.runs = s3.runs := by cases h4; rfl
    obtain ⟨n5, s5, h5, h⟩ := M.bind_inv h
    obtain ⟨rfl, _, _⟩ := resNode_inv h5
    match n5 with
    | .mut _ => cases h
    | .pure _ => cases h
    | .comp nd5 =>
      simp only [] at h
      obtain ⟨_, s6, h6, h⟩ := M.bind_inv h
      have m6 : s6.runs = l :: s5.runs := by cases h6; rfl
      obtain ⟨res, s7, h7, h⟩ := M.bind_inv h
      obtain ⟨r7, m7⟩ := (hG.run _).mono h7
      obtain ⟨_, s8, h8, h⟩ := M.bind_inv h
      have m8 : s8.runs = s7.runs := by cases h8; rfl
      rw [M.bind_ok (M.get_def s8)] at h
      have key : ∃ r, s'.runs = r ++ s8.runs := by
        rcases hst : s8.stack with _ | ⟨fr, K⟩
        · simp only [hst] at h; cases h
        · simp only [hst] at h
          obtain ⟨_, s9, h9, h⟩ := M.bind_inv h
          have m9 : s9.runs = s8.runs := by cases h9; rfl
          by_cases hfr : fr.loc = l
          · rw [if_pos hfr] at h
            obtain ⟨_, s10, h10, h⟩ := M.bind_inv h
            obtain ⟨r10, m10⟩ := (installPreds_gen true 0 l fr.succs).mono h10
            obtain ⟨n11, s11, h11, h⟩ := M.bind_inv h
            obtain ⟨rfl, _, _⟩ := resNode_inv h11
            match n11 with
            | .mut _ => cases h
            | .pure _ => cases h
            | .comp nd11 =>
              simp only [] at h
              obtain ⟨_, s12, h12, h⟩ := M.bind_inv h
              cases h12
              cases h
              exact ⟨r10, by rw [← m9]; exact m10⟩
          · rw [if_neg hfr] at h; cases h
      obtain ⟨r8, key⟩ := key
      refine ⟨r8 ++ (r7 ++ l :: r3), ?_, by simp⟩
      rw [key, m8, m7, m6, m4, m3]
      simp

/-- Another thunk is produced. -/
theorem produceBody_kept (env : Env V) {x c : Loc} {R : Rec V} (hR : RKept x c R) (hG : RGen R) (ty : Ty) (l : Loc) : Kept x c (produceBody env R ty l) := by
  intro s
  by_cases hx : x = l
  · subst hx
    rcases hm : produceBody env R ty x s with ⟨v, s'⟩ | ⟨e, s'⟩ | _
    · exact (produceBody_runs env hG ty x hm).kp
    · trivial
    · trivial
  have hputNe : ∀ n', Kept x c (putNode l n' : M V Unit) := fun n' s => ⟨[], rfl, fun _ ⟨nd, h1, h2, h3⟩ => ⟨nd, by
    show (s.table.put l n').get x = _
    rw [Table.get_put_ne _ _ hx]; exact h1, h2, h3⟩⟩
  refine Kept.bind ((resNode_reads ty l).kept x c) (fun n => ?_) s
  match n with
  | .mut _ => exact Kept.panic _ _ _
  | .pure _ => exact Kept.panic _ _ _
  | .comp nd =>
    refine Kept.bind (hputNe _) fun _ => Kept.bind (revokeSuccs_kept x c l nd.succs) fun _ => Kept.bind (Kept.get _ _) fun s3 =>
      Kept.bind (Kept.modify x c _ (fun _ => rfl) (fun _ => ⟨[], rfl⟩)) fun _ => Kept.bind ((resNode_reads ty l).kept x c) fun n5 => ?_
    match n5 with
    | .mut _ => exact Kept.panic _ _ _
    | .pure _ => exact Kept.panic _ _ _
    | .comp nd5 =>
      refine Kept.bind (Kept.modify x c _ (fun _ => rfl) (fun _ => ⟨[l], rfl⟩)) fun _ => Kept.bind (hR.run _) fun res =>
        Kept.bind (Kept.modify x c _ (fun _ => rfl) (fun _ => ⟨[], rfl⟩)) fun _ => Kept.bind (Kept.get _ _) fun s8 => ?_
      show Kept x c (match s8.stack with | [] => _ | fr :: rest => _)
      rcases s8.stack with _ | ⟨fr, K⟩
      · exact Kept.panic _ _ _
      · refine Kept.bind (Kept.modify x c _ (fun _ => rfl) (fun _ => ⟨[], rfl⟩)) fun _ => Kept.ite ?_ (Kept.panic _ _ _)
        refine Kept.bind (installPreds_kept x c l fr.succs) fun _ => Kept.bind ((resNode_reads ty l).kept x c) fun n11 => ?_
        match n11 with
        | .mut _ => exact Kept.panic _ _ _
        | .pure _ => exact Kept.panic _ _ _
        | .comp nd11 => exact Kept.bind (hputNe _) fun _ => Kept.pure _ _ _

theorem cleanDep_kept {x c : Loc} {R : Rec V} (hR : RKept x c R) (d : Dep V) (l : Loc) : Kept x c (cleanDep R d l) := by
  match d with
  | .allocStruct => exact Kept.pure _ _ _
  | .allocNom _ => exact Kept.pure _ _ _
  | .allocCell _ => exact Kept.pure _ _ _
  | .force ty res => exact hR.cleanForce _ _ _
  | .forceMap ty f res => exact (checkForceMapDep_reads _ _ _ _).kept _ _
  | .forceAbs => exact Kept.pure _ _ _

theorem cleanDep_alloc {R : Rec V} {d : Dep V} (h : d.isNamedAlloc) (l : Loc) (s : St V) : cleanDep R d l s = .ok true s := by
  match d, h with
  | .allocNom _, _ => rfl
  | .allocCell _, _ => rfl

/-- Cleaning another thunk, or `x` if it has recorded what `Owed` says. -/
theorem cleanLoop_kept {x c : Loc} {R : Rec V} (hR : RKept x c R) (ty : Ty) (res : V) (l : Loc) (es : List (Succ V))
    (hes : x = l → ∀ e ∈ es, e.effect = .allocate → e.loc = c → e.dep.isNamedAlloc) : Kept x c (cleanLoop R ty res l es) := by
  induction es with
  | nil => exact Kept.pure _ _ _
  | cons e es ih =>
    have ih := ih fun hx e he => hes hx e (List.mem_cons_of_mem _ he)
    refine Kept.bind ((succDirty_reads _ _ _).kept _ _) fun d => Kept.ite ?_ ih
    refine Kept.bind (Kept.evBegin x c _ _ _) fun _ s => ?_
    have hprod : Kept x c (do evBegin .cleanEval (some l) e.loc; let result ← R.produce ty l; evEnd; evEnd; Pure.pure (some (decide (¬ result ≈ᵤ res)))) :=
      Kept.bind (Kept.evBegin x c _ _ _) fun _ => Kept.bind (hR.produce _ _) fun _ => Kept.bind (Kept.evEnd x c) fun _ => Kept.bind (Kept.evEnd x c) fun _ => Kept.pure _ _ _
    by_cases hk : x = l ∧ .allocate = e.effect ∧ c = e.loc
    · rw [M.bind_ok (cleanDep_alloc (hes hk.1 e (List.mem_cons_self ..) hk.2.1.symm hk.2.2.symm) e.loc s), if_pos rfl]
      exact hprod s
    · refine Kept.bind (cleanDep_kept hR _ _) (fun ch => Kept.ite hprod ?_) s
      exact Kept.bind (setSuccDirty_kept (.inr hk)) fun _ => Kept.bind (Kept.evEff _ _ _ _ _) fun _ => Kept.bind (Kept.evEnd x c) fun _ => ih

theorem cleanForceBody_kept {x c : Loc} {R : Rec V} (hR : RKept x c R) (hG : RGen R) (ty : Ty) (res : V) (l : Loc) : Kept x c (cleanForceBody R ty res l) := by
  intro s
  by_cases ho : Owed x c s
  · refine KRes.bind ((resNode_reads _ _).kept x c s) fun n s1 h1 => ?_
    obtain ⟨rfl, h1, _⟩ := resNode_inv h1
    match n with
    | .pure _ => exact Kp.refl _ _ _
    | .mut _ => exact Kp.refl _ _ _
    | .comp nd =>
      show KRes x c s1 ((match nd.res with | some cache => _ | none => _ : M V Bool) s1)
      rcases nd.res with _ | cache
      · exact Kept.bind (Kept.evBegin x c _ _ _) (fun _ => Kept.bind (hR.produce _ _) fun _ => Kept.bind (Kept.evEnd x c) fun _ => Kept.pure _ _ _) s1
      · refine Kept.bind (cleanLoop_kept hR _ _ _ _ fun hx e he h2 h3 => ?_) (fun r => ?_) s1
        · subst hx
          obtain ⟨nd0, g1, _, g3⟩ := ho
          rw [h1] at g1; cases g1
          exact g3 e he h2 h3
        · match r with
          | some ch => exact Kept.pure _ _ _
          | none => exact Kept.pure _ _ _
  · rcases hm : cleanForceBody R ty res l s with ⟨v, s'⟩ | ⟨e, s'⟩ | _
    · exact Kp.off ((cleanForceBody_gen hG ty res l).mono hm) ho
    · trivial
    · trivial

theorem recN_kept (env : Env V) (x c : Loc) : ∀ n, RKept x c (recN env n)
  | 0 => ⟨fun _ _ _ => trivial, fun _ _ _ _ => trivial, fun _ _ => trivial⟩
  | n + 1 => ⟨produceBody_kept env (recN_kept env x c n) (recN_gen env n), cleanForceBody_kept (recN_kept env x c n) (recN_gen env n), runProg_kept env (recN_kept env x c n)⟩

theorem exec_kept (env : Env V) (x c : Loc) (n : Nat) (p : Prog V) : Kept x c (exec env n p) := runProg_kept env (recN_kept env x c n) p
theorem runSession_kept (env : Env V) (x c : Loc) (n : Nat) (ps : List (Prog V)) : Kept x c (runSession env n ps) := by
  induction ps with
  | nil => exact Kept.pure _ _ _
  | cons p ps ih => exact Kept.bind (exec_kept env x c n p) fun _ => Kept.bind ih fun _ => Kept.pure _ _ _

/-! ### A flagged thunk is run when it is forced -/

theorem cleanLoop_runs {x c : Loc} {R : Rec V} (hR : RKept x c R) (hP : ∀ ty s v s', R.produce ty x s = .ok v s' → RunsAt x s s')
    (ty : Ty) (res : V) (es : List (Succ V)) (hes : ∀ e ∈ es, e.effect = .allocate → e.loc = c → e.dep.isNamedAlloc) (hc : ∃ e ∈ es, e.effect = .allocate ∧ e.loc = c) :
    ∀ {s s' : St V} {r : Option Bool}, Owed x c s → (hm : ∀ (s s' : St V) (r : Option Bool) es', cleanLoop R ty res x es' s = .ok r s' → ∃ rs, s'.runs = rs ++ s.runs) →
      cleanLoop R ty res x es s = .ok r s' → RunsAt x s s' := by
  induction es with
  | nil => obtain ⟨_, h, _⟩ := hc; cases h
  | cons e es ih =>
    intro s s' r ho hm h
    have hrest : ∀ {s1 : St V}, Kp x c s s1 → (¬ (e.effect = .allocate ∧ e.loc = c)) → cleanLoop R ty res x es s1 = .ok r s' → RunsAt x s s' := by
      intro s1 hk hne h1
      have hc' : ∃ e ∈ es, e.effect = .allocate ∧ e.loc = c := by
        obtain ⟨e', h1, h2⟩ := hc
        rcases List.mem_cons.1 h1 with rfl | h1
        · exact absurd h2 hne
        · exact ⟨e', h1, h2⟩
      obtain ⟨rs, a, b⟩ := hk
      by_cases hx : x ∈ rs
      · obtain ⟨rs', c'⟩ := hm _ _ _ _ h1
        exact ⟨rs' ++ rs, by rw [c', a, List.append_assoc], List.mem_append_right _ hx⟩
      · obtain ⟨rs', c1, c2⟩ := ih (fun e he => hes e (List.mem_cons_of_mem _ he)) hc' (b hx ho) hm h1
        exact ⟨rs' ++ rs, by rw [c1, a, List.append_assoc], List.mem_append_left _ c2⟩
    have hprod : ∀ {s1 : St V}, s1.runs = s.runs → ((do evBegin .cleanEval (some x) e.loc; let result ← R.produce ty x; evEnd; evEnd; Pure.pure (some (decide (¬ result ≈ᵤ res)))) : M V (Option Bool)) s1 = .ok r s' → RunsAt x s1 s' := by
      intro s1 _ h1
      obtain ⟨_, s2, h2, h1⟩ := M.bind_inv h1
      cases h2
      obtain ⟨w, s3, h3, h1⟩ := M.bind_inv h1
      obtain ⟨rs, a, b⟩ := hP _ _ _ _ h3
      obtain ⟨_, s4, h4, h1⟩ := M.bind_inv h1
      cases h4
      obtain ⟨_, s5, h5, h1⟩ := M.bind_inv h1
      cases h5
      cases h1
      exact ⟨rs, a, b⟩
    unfold cleanLoop at h
    obtain ⟨d, s1, h1, hh⟩ := M.bind_inv h
    clear h
    obtain ⟨rfl, nd, e0, g1, g2, g3⟩ := succDirty_inv h1
    have h := hh
    clear hh
    by_cases hk : e.effect = .allocate ∧ e.loc = c
    · have hd : d = true := by
        obtain ⟨nd', k1, ⟨e', k2, k3⟩, _⟩ := ho
        rw [g1] at k1; cases k1
        rw [hk.1, hk.2, k2] at g2
        cases g2
        exact g3.symm.trans k3
      rw [if_pos hd] at h
      obtain ⟨_, s2, h2, h⟩ := M.bind_inv h
      cases h2
      rw [M.bind_ok (cleanDep_alloc (hes e (List.mem_cons_self ..) hk.1 hk.2) e.loc _), if_pos rfl] at h
      obtain ⟨rs, a, b⟩ := hprod (s1 := { s1 with log := Ev.begin .cleanRec (some x) e.loc :: s1.log }) rfl h
      exact ⟨rs, a, b⟩
    · by_cases hd : d = true
      · rw [if_pos hd] at h
        obtain ⟨_, s2, h2, h⟩ := M.bind_inv h
        obtain ⟨ch, s3, h3, h⟩ := M.bind_inv h
        have k2 : Kp x c s1 s2 := by have := Kept.evBegin x c .cleanRec (some x) e.loc s1; rw [h2] at this; exact this
        have k3 : Kp x c s2 s3 := by have := cleanDep_kept hR e.dep e.loc s2; rw [h3] at this; exact this
        by_cases hch : ch = true
        · rw [if_pos hch] at h
          obtain ⟨rs, a, _⟩ := k2.trans k3
          obtain ⟨_, s4, h4, h⟩ := M.bind_inv h
          cases h4
          obtain ⟨w, s5, h5, h⟩ := M.bind_inv h
          obtain ⟨rs5, a5, b5⟩ := hP _ _ _ _ h5
          obtain ⟨_, s6, h6, h⟩ := M.bind_inv h
          cases h6
          obtain ⟨_, s7, h7, h⟩ := M.bind_inv h
          cases h7
          cases h
          exact ⟨rs5 ++ rs, by show s5.runs = _; rw [a5]; show rs5 ++ s3.runs = _; rw [a, List.append_assoc], List.mem_append_left _ b5⟩
        · rw [if_neg hch] at h
          obtain ⟨_, s4, h4, h⟩ := M.bind_inv h
          have k4 : Kp x c s3 s4 := by
            have := setSuccDirty_kept (x := x) (c := c) (p := x) (eff := e.effect) (y := e.loc) (b := false) (.inr fun hh => hk ⟨hh.2.1.symm, hh.2.2.symm⟩) s3
            rw [h4] at this; exact this
          obtain ⟨_, s5, h5, h⟩ := M.bind_inv h
          cases h5
          obtain ⟨_, s6, h6, h⟩ := M.bind_inv h
          cases h6
          exact hrest (s1 := { s4 with log := .end_ :: .eff .cleanEdge (some x) e.loc :: s4.log }) (((k2.trans k3).trans k4).trans (Kp.same rfl ⟨[], rfl⟩)) hk h
      · rw [if_neg hd] at h
        exact hrest (Kp.refl _ _ _) hk h

theorem cleanForceBody_runs {x c : Loc} {R : Rec V} (hR : RKept x c R) (hG : RGen R) (hP : ∀ ty s v s', R.produce ty x s = .ok v s' → RunsAt x s s')
    (ty : Ty) (res : V) {s s' : St V} {b : Bool} (ho : Owed x c s) (h : cleanForceBody R ty res x s = .ok b s') : RunsAt x s s' := by
  obtain ⟨n, s1, h1, h⟩ := M.bind_inv h
  obtain ⟨rfl, h1, _⟩ := resNode_inv h1
  obtain ⟨nd, g1, g2, g3⟩ := ho
  rw [h1] at g1
  cases g1
  have h : (match nd.res with
    | some cache => (do let r ← cleanLoop R ty res x nd.succs; match r with | some ch => Pure.pure ch | none => Pure.pure (decide (¬ res ≈ᵤ cache)))
    | none => (do evBegin .cleanEval none x; let r ← R.produce ty x; evEnd; Pure.pure (decide (¬ res ≈ᵤ r))) : M V Bool) s1 = .ok b s' := h
  rcases hres : nd.res with _ | cache
  · rw [hres] at h
    obtain ⟨_, s2, h2, h⟩ := M.bind_inv h
    cases h2
    obtain ⟨w, s3, h3, h⟩ := M.bind_inv h
    obtain ⟨rs, a, b⟩ := hP _ _ _ _ h3
    obtain ⟨_, s4, h4, h⟩ := M.bind_inv h
    cases h4
    cases h
    exact ⟨rs, a, b⟩
  · rw [hres] at h
    obtain ⟨r, s2, h2, h⟩ := M.bind_inv h
    have h3 : s2 = s' := by
      match r with
      | some ch => cases h; rfl
      | none => cases h; rfl
    subst h3
    have hc : ∃ e ∈ nd.succs, e.effect = .allocate ∧ e.loc = c := by
      obtain ⟨w, k1, _⟩ := g2
      exact ⟨w, List.mem_of_find?_eq_some k1, Succ.matches_iff.1 (List.find?_some k1)⟩
    exact cleanLoop_runs hR hP ty res nd.succs g3 hc ⟨nd, h1, g2, g3⟩ (fun s s' r es' hm => (cleanLoop_gen hG ty res x es').mono hm) h2

/-- A flagged thunk that is forced and not being evaluated is run. -/
theorem opForce_runs {x c : Loc} {R : Rec V} (hF : ∀ ty r s b s', Owed x c s → R.cleanForce ty r x s = .ok b s' → RunsAt x s s') (hP : ∀ ty s v s', R.produce ty x s = .ok v s' → RunsAt x s s')
    (ty : Ty) (cyc : Option V) {s s' : St V} {v : V} (ho : Owed x c s) (hst : ∀ fr ∈ s.stack, fr.loc ≠ x) (h : opForce R ty x cyc s = .ok v s') : RunsAt x s s' := by
  unfold opForce at h
  rw [M.bind_ok (M.get_def s)] at h
  obtain ⟨n, s1, h1, h⟩ := M.bind_inv h
  obtain ⟨rfl, h1, _⟩ := resNode_inv h1
  have ho' := ho
  obtain ⟨nd, g1, g2, g3⟩ := ho
  rw [h1] at g1
  cases g1
  simp only [] at h
  have hcy : (s1.stack.any fun fr => decide (fr.loc = x)) = false := by
    rw [List.any_eq_false]
    intro fr hfr
    simpa using hst fr hfr
  rw [hcy, if_neg (by simp)] at h
  have hrec : ∀ (d e : Bool) (r : V) (s2 : St V), (if d then (Pure.pure r : M V V) else if e then Pure.pure r else do recordEdge ⟨false, x, .observe, .force ty r⟩ none; Pure.pure r) s2 = .ok v s' → s'.runs = s2.runs := by
    intro d e r s2 h
    by_cases hd : d = true
    · rw [if_pos hd] at h; cases h; rfl
    · rw [if_neg hd] at h
      by_cases he : e = true
      · rw [if_pos he] at h; cases h; rfl
      · rw [if_neg he] at h
        obtain ⟨_, s3, h3, h⟩ := M.bind_inv h
        cases h
        unfold recordEdge at h3
        rw [M.modify_def] at h3
        rcases hs : s2.stack with _ | ⟨fr, K⟩ <;> simp only [hs] at h3 <;> cases h3 <;> rfl
  have hmiss : ∀ (dup d e : Bool) (s2 : St V), s2.runs = s1.runs → (if dup = true then M.panic .dupMiss else do let r ← R.produce ty x; evEnd; if d = true then (Pure.pure r : M V V) else if e = true then Pure.pure r else do recordEdge ⟨false, x, .observe, .force ty r⟩ none; Pure.pure r) s2 = .ok v s' → RunsAt x s1 s' := by
    intro dup d e s2 hr h
    by_cases hd : dup = true
    · rw [if_pos hd] at h; cases h
    · rw [if_neg hd] at h
      obtain ⟨w, s3, h3, h⟩ := M.bind_inv h
      obtain ⟨rs, a, b⟩ := hP _ _ _ _ h3
      obtain ⟨_, s4, h4, h⟩ := M.bind_inv h
      cases h4
      exact ⟨rs, (hrec _ _ _ _ h).trans (a.trans (by rw [hr])), b⟩
  rcases hres : nd.res with _ | r
  · simp only [hres] at h
    obtain ⟨_, s2, h2, h⟩ := M.bind_inv h
    cases h2
    exact hmiss _ _ _ { s1 with log := .begin (.force .compCacheMiss) (topLoc s1) x :: s1.log } rfl h
  · simp only [hres] at h
    obtain ⟨_, s2, h2, h⟩ := M.bind_inv h
    have ho2 : Owed x c s2 := by cases h2; exact ho'
    have hr2 : s2.runs = s1.runs := by cases h2; rfl
    obtain ⟨b, s3, h3, h⟩ := M.bind_inv h
    obtain ⟨rs, a, bx⟩ := hF _ _ _ _ _ ho2 h3
    obtain ⟨_, s4, h4, h⟩ := M.bind_inv h
    cases h4
    obtain ⟨n', s5, h5, h⟩ := M.bind_inv h
    obtain ⟨rfl, _, _⟩ := resNode_inv h5
    match n' with
    | .mut _ => cases h
    | .pure _ => cases h
    | .comp nd' =>
      rcases hr' : nd'.res with _ | r'
      · simp only [hr'] at h; cases h
      · simp only [hr'] at h
        exact ⟨rs, ((hrec _ _ _ _ h).trans a).trans (by rw [hr2]), bx⟩

theorem exec_force_runs (env : Env V) {x c : Loc} (n : Nat) (ty : Ty) (cyc : Option V) (k : V → Prog V) {s s' : St V} {v : V} (ho : Owed x c s) (hst : ∀ fr ∈ s.stack, fr.loc ≠ x)
    (h : exec env n (.force ty x cyc k) s = .ok v s') : RunsAt x s s' := by
  obtain ⟨w, s1, h1, h⟩ := M.bind_inv h
  have h1 : RunsAt x s s1 := by
    cases n with
    | zero =>
      exact opForce_runs (c := c) (R := recN env 0) (fun _ _ _ _ _ _ h => by cases h) (fun _ _ _ _ h => by cases h) ty cyc ho hst h1
    | succ n =>
      have hP : ∀ (k : Nat) ty s v s', (recN env k).produce ty x s = .ok v s' → RunsAt x s s' := by
        intro k ty s v s' h
        cases k with
        | zero => cases h
        | succ k => exact produceBody_runs env (recN_gen env k) ty x h
      exact opForce_runs (c := c) (R := recN env (n + 1)) (fun ty r s b s' ho h => cleanForceBody_runs (recN_kept env x c n) (recN_gen env n) (hP n) ty r ho h) (hP (n + 1)) ty cyc ho hst h1
  obtain ⟨rs, a, b⟩ := h1
  obtain ⟨rs2, a2⟩ := (runProg_gen env (recN_gen env n) (k w)).mono h
  exact ⟨rs2 ++ rs, by rw [a2, a, List.append_assoc], List.mem_append_right _ b⟩

end Adapton
