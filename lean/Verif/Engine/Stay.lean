import Verif.Engine.GeneralOps
/-
What a location holds changes only by an allocation at that location or a `set`; what it caches changes only by that or by
running it.  For every program and every state.
-/
set_option linter.unusedSectionVars false
set_option linter.unusedVariables false
set_option linter.unusedSimpArgs false
namespace Adapton
variable {V α β : Type} [UEq V]

/-! ### Specification -/

/-- What the user put at a location: a value, or a computation. -/
inductive Content (V : Type) where
  | cell (ty : Ty) (v : V)
  | thunk (ty : Ty) (pp : ProgPt) (fn : FnId) (arg : V)
  | value (ty : Ty) (v : V)

/-- The content of a node. -/
def Node.content : Node V → Content V
  | .mut nd => .cell nd.ty nd.val
  | .comp nd => .thunk nd.ty nd.pp nd.fn nd.arg
  | .pure nd => .value nd.ty nd.val

/-- The cached result of a node. -/
def Node.cached : Node V → Option V
  | .comp nd => nd.res
  | _ => none

/-- The trace reports an allocation at `l`. -/
def AllocAt (l : Loc) (evs : List Ev) : Prop := ∃ c k src, Ev.begin (.alloc c k) src l ∈ evs

/-- The program never calls `set` on `l` (whatever values it gets). -/
inductive NoSet (l : Loc) : Prog V → Prop
  | ret (v) : NoSet l (.ret v)
  | force (ty x cyc k) : (∀ v, NoSet l (k v)) → NoSet l (.force ty x cyc k)
  | forceMap (ty x f k) : (∀ v, NoSet l (k v)) → NoSet l (.forceMap ty x f k)
  | forceAbs (ty x f k) : (∀ v, NoSet l (k v)) → NoSet l (.forceAbs ty x f k)
  | cell (ty n v k) : (∀ x, NoSet l (k x)) → NoSet l (.cell ty n v k)
  | thunk (ty nc pp fn a k) : (∀ x, NoSet l (k x)) → NoSet l (.thunk ty nc pp fn a k)
  | set (ty x v k) : x ≠ l → NoSet l k → NoSet l (.set ty x v k)
  | ns (n b k) : NoSet l b → (∀ v, NoSet l (k v)) → NoSet l (.ns n b k)
  | structural (b k) : NoSet l b → (∀ v, NoSet l (k v)) → NoSet l (.structural b k)
  | call (fn a k) : (∀ v, NoSet l (k v)) → NoSet l (.call fn a k)
  | panic : NoSet l .panic

/-- From `s` to `s'`: unless the trace reports an allocation at `l`, what was at `l` is still there; and unless `l` was run,
its cached result is the same. -/
def Stay (l : Loc) (s s' : St V) : Prop :=
  ∃ evs rs, s'.log = evs ++ s.log ∧ s'.runs = rs ++ s.runs ∧
    (¬ AllocAt l evs → ∀ n, s.table.get l = some n →
      ∃ n', s'.table.get l = some n' ∧ n'.content = n.content ∧ (l ∉ rs → n'.cached = n.cached))

/-! ### Proofs -/

theorem AllocAt.append {l : Loc} {a b : List Ev} (h : ¬ AllocAt l (a ++ b)) : ¬ AllocAt l a ∧ ¬ AllocAt l b :=
  ⟨fun ⟨c, k, s, h1⟩ => h ⟨c, k, s, List.mem_append_left _ h1⟩, fun ⟨c, k, s, h1⟩ => h ⟨c, k, s, List.mem_append_right _ h1⟩⟩

theorem Stay.refl (l : Loc) (s : St V) : Stay l s s := ⟨[], [], rfl, rfl, fun _ n h => ⟨n, h, rfl, fun _ => rfl⟩⟩

theorem Stay.trans {l : Loc} {s1 s2 s3 : St V} (h1 : Stay l s1 s2) (h2 : Stay l s2 s3) : Stay l s1 s3 := by
  obtain ⟨e1, r1, a1, b1, c1⟩ := h1
  obtain ⟨e2, r2, a2, b2, c2⟩ := h2
  refine ⟨e2 ++ e1, r2 ++ r1, by rw [a2, a1, List.append_assoc], by rw [b2, b1, List.append_assoc], ?_⟩
  intro hn n hg
  obtain ⟨k2, k1⟩ := AllocAt.append hn
  obtain ⟨n1, g1, g2, g3⟩ := c1 k1 n hg
  obtain ⟨n2, g4, g5, g6⟩ := c2 k2 n1 g1
  refine ⟨n2, g4, g5.trans g2, fun hr => ?_⟩
  have : l ∉ r2 ∧ l ∉ r1 := by simpa using hr
  exact (g6 this.1).trans (g3 this.2)

/-- The outcome. -/
def SRes (l : Loc) (s : St V) : Out V α → Prop
  | .ok _ s' => Stay l s s'
  | .panic _ s' => Stay l s s'
  | .oof => True

def Stays (l : Loc) (m : M V α) : Prop := ∀ s, SRes l s (m s)

theorem SRes.trans {l : Loc} {s s1 : St V} {o : Out V α} (h1 : Stay l s s1) (h2 : SRes l s1 o) : SRes l s o := by
  match o with
  | .ok a s3 => exact h1.trans h2
  | .panic e s3 => exact h1.trans h2
  | .oof => trivial

theorem SRes.bind {l : Loc} {m : M V α} {f : α → M V β} {s : St V} (h1 : SRes l s (m s))
    (h2 : ∀ a s', m s = .ok a s' → SRes l s' (f a s')) : SRes l s ((m >>= f) s) := by
  rw [M.bind_def]
  rcases hm : m s with ⟨a, s'⟩ | ⟨e, s'⟩ | _
  · rw [hm] at h1
    exact SRes.trans h1 (h2 a s' hm)
  · rw [hm] at h1; exact h1
  · trivial

theorem Stays.bind {l : Loc} {m : M V α} {f : α → M V β} (h1 : Stays l m) (h2 : ∀ a, Stays l (f a)) : Stays l (m >>= f) :=
  fun s => SRes.bind (h1 s) fun a s' _ => h2 a s'
theorem Stays.pure (l : Loc) (a : α) : Stays l (Pure.pure a : M V α) := fun s => Stay.refl l s
theorem Stays.panic (l : Loc) (e : Err) : Stays l (M.panic e : M V α) := fun s => Stay.refl l s
theorem Stays.get (l : Loc) : Stays l (M.get : M V (St V)) := fun s => Stay.refl l s
theorem Stays.ite {l : Loc} {c : Prop} [Decidable c] {m1 m2 : M V α} (h1 : Stays l m1) (h2 : Stays l m2) :
    Stays l (if c then m1 else m2) := by
  split
  · exact h1
  · exact h2
theorem Reads.stays {m : M V α} (h : Reads m) (l : Loc) : Stays l m := by
  intro s
  rcases h s with ⟨a, h⟩ | ⟨e, h⟩
  · rw [h]; exact Stay.refl l s
  · rw [h]; exact Stay.refl l s

/-- Steps that leave the table alone. -/
theorem Stay.same {l : Loc} {s s' : St V} (h1 : s'.table = s.table) (h2 : ∃ evs, s'.log = evs ++ s.log)
    (h3 : ∃ rs, s'.runs = rs ++ s.runs) : Stay l s s' := by
  obtain ⟨evs, h2⟩ := h2
  obtain ⟨rs, h3⟩ := h3
  exact ⟨evs, rs, h2, h3, fun _ n hn => ⟨n, by rw [h1]; exact hn, rfl, fun _ => rfl⟩⟩

theorem Stays.evBegin (l : Loc) (e : TEff) (src : Option Loc) (tgt : Loc) : Stays l (evBegin e src tgt : M V Unit) :=
  fun s => Stay.same rfl ⟨[_], rfl⟩ ⟨[], rfl⟩
theorem Stays.evEnd (l : Loc) : Stays l (evEnd : M V Unit) := fun s => Stay.same rfl ⟨[_], rfl⟩ ⟨[], rfl⟩
theorem Stays.evEff (l : Loc) (e : TEff) (src : Option Loc) (tgt : Loc) : Stays l (evEff e src tgt : M V Unit) :=
  fun s => Stay.same rfl ⟨[_], rfl⟩ ⟨[], rfl⟩
theorem Stays.recordEdge (l : Loc) (e : Succ V) (d : Option (Dep V)) : Stays l (recordEdge e d) := by
  intro s
  unfold Adapton.recordEdge
  rw [M.modify_def]
  rcases hs : s.stack with _ | ⟨fr, K⟩
  · exact Stay.refl _ _
  · exact Stay.same rfl ⟨[], rfl⟩ ⟨[], rfl⟩

/-- Replacing a node by one with the same content and cache. -/
theorem Stay.put {l x : Loc} {s : St V} {n n' : Node V} (h : s.table.get x = some n) (h1 : n'.content = n.content)
    (h2 : n'.cached = n.cached) : Stay l s { s with table := s.table.put x n' } := by
  refine ⟨[], [], rfl, rfl, fun _ m hm => ?_⟩
  simp only [Table.get_put]
  split
  · rename_i hx; rw [hx, h] at hm; cases hm; exact ⟨n', rfl, h1, fun _ => h2⟩
  · exact ⟨m, hm, rfl, fun _ => rfl⟩

/-- Writing elsewhere. -/
theorem Stay.putNe {l x : Loc} {s : St V} {n' : Node V} (h : l ≠ x) : Stay l s { s with table := s.table.put x n' } := by
  refine ⟨[], [], rfl, rfl, fun _ m hm => ?_⟩
  rw [Table.get_put_ne _ _ h]
  exact ⟨m, hm, rfl, fun _ => rfl⟩

/-- Inserting. -/
theorem Stay.insert {l x : Loc} {s : St V} {n' : Node V} (h : s.table.get x = none) :
    Stay l s { s with table := s.table.put x n' } := by
  refine ⟨[], [], rfl, rfl, fun _ m hm => ?_⟩
  by_cases hx : l = x
  · rw [hx, h] at hm; cases hm
  · rw [Table.get_put_ne _ _ hx]; exact ⟨m, hm, rfl, fun _ => rfl⟩

theorem putNode_stays {l x : Loc} (n' : Node V) (h : l ≠ x) : Stays l (putNode x n') := fun _ => Stay.putNe h

theorem setSuccDirty_stays (l p : Loc) (eff : Effect) (x : Loc) (v : Bool) : Stays l (setSuccDirty p eff x v : M V Unit) := by
  intro s
  refine SRes.bind ((lookupAbs_reads p).stays l s) fun n s' h => ?_
  obtain ⟨rfl, h⟩ := lookupAbs_inv h
  match n with
  | .comp nd =>
    rcases hf : nd.succs.find? (Succ.matches eff x) with _ | e
    · simp only [hf]; exact Stay.refl _ _
    · simp only [hf]
      exact Stay.put h rfl rfl
  | .mut nd => exact Stay.refl _ _
  | .pure nd => exact Stay.refl _ _

theorem removePred_stays (l src tgt : Loc) : Stays l (removePred src tgt : M V Unit) := by
  refine Stays.bind (Stays.evEff _ _ _ _) fun _ s => ?_
  refine SRes.bind ((lookupAbs_reads tgt).stays l s) fun n s' h => ?_
  obtain ⟨rfl, h⟩ := lookupAbs_inv h
  match n with
  | .comp nd => exact Stay.put h rfl rfl
  | .mut nd => exact Stay.put h rfl rfl
  | .pure nd => exact Stay.refl _ _

theorem revokeSuccs_stays (l src : Loc) (es : List (Succ V)) : Stays l (revokeSuccs src es) := by
  induction es with
  | nil => exact Stays.pure _ _
  | cons e es ih => exact Stays.bind (removePred_stays _ _ _) fun _ => ih

theorem dirtyLoop_stays (y : Loc) (rec : Loc → M V Unit) (hrec : ∀ p, Stays y (rec p)) (l : Loc)
    (ps : List (Loc × Option (Dep V))) : Stays y (dirtyLoop rec l ps) := by
  induction ps with
  | nil => exact Stays.pure _ _
  | cons q ps ih =>
    obtain ⟨p, d⟩ := q
    refine Stays.bind ?_ fun _ => ih
    refine Stays.bind ((dirtyStop_reads d l).stays y) fun st => Stays.ite (Stays.pure _ _) ?_
    refine Stays.bind ((succDirty_reads p .observe l).stays y) fun bb => Stays.ite (Stays.pure _ _) (Stays.ite (Stays.panic _ _) ?_)
    exact Stays.bind (Stays.evBegin _ _ _ _) fun _ => Stays.bind (setSuccDirty_stays _ _ _ _ _) fun _ =>
      Stays.bind (hrec p) fun _ => Stays.evEnd _

theorem dirtyPreds_stays (y : Loc) : ∀ (k : Nat) (l : Loc), Stays y (dirtyPreds k l : M V Unit) := by
  intro k
  induction k with
  | zero => intro l s; trivial
  | succ k ih =>
    intro l
    refine Stays.bind ((lookupAbs_reads l).stays y) fun n => ?_
    show Stays y (match n.predsObs with | some ps => _ | none => _)
    split
    · exact dirtyLoop_stays y _ ih l _
    · exact Stays.panic _ _

theorem dirtyPredsTop_stays (y l : Loc) : Stays y (dirtyPredsTop l : M V Unit) := fun s => dirtyPreds_stays y _ l s

theorem dirtyAllocLoop_stays (y l : Loc) (ps : List Loc) : Stays y (dirtyAllocLoop l ps : M V Unit) := by
  induction ps with
  | nil => exact Stays.pure _ _
  | cons p ps ih =>
    refine Stays.bind ?_ fun _ => ih
    refine Stays.bind ((succDirty_reads p .allocate l).stays y) fun bb => Stays.ite (Stays.pure _ _) ?_
    refine Stays.bind (setSuccDirty_stays _ _ _ _ _) fun _ => Stays.ite (Stays.panic _ _) ?_
    exact Stays.bind (Stays.evBegin _ _ _ _) fun _ => Stays.bind (dirtyPredsTop_stays _ _) fun _ => Stays.evEnd _

theorem dirtyAlloc_stays (y l : Loc) : Stays y (dirtyAlloc l : M V Unit) := by
  refine Stays.bind (dirtyPredsTop_stays _ _) fun _ => Stays.bind ((lookupAbs_reads l).stays y) fun n => ?_
  show Stays y (match n.predsAlloc with | some ps => _ | none => _)
  split
  · exact dirtyAllocLoop_stays _ _ _
  · exact Stays.panic _ _

/-- `set` of another location. -/
theorem setCell_stays (y : Loc) (ty : Ty) (l : Loc) (v : V) (h : y ≠ l) : Stays y (setCell ty l v) := by
  refine Stays.bind ((resNode_reads ty l).stays y) fun n => ?_
  match n with
  | .comp nd => exact Stays.panic _ _
  | .pure nd => exact Stays.panic _ _
  | .mut nd =>
    show Stays y (if nd.val ≈ᵤ v then _ else _ : M V Unit)
    exact Stays.ite (Stays.pure _ _) (Stays.bind (fun s => Stay.putNe h) fun _ => dirtyAlloc_stays _ _)

theorem opSet_stays (y : Loc) (ty : Ty) (l : Loc) (v : V) (h : y ≠ l) : Stays y (opSet ty l v) :=
  Stays.bind (Stays.get _) fun s => Stays.ite (setCell_stays _ _ _ _ h) (Stays.panic _ _)

/-- The trace and the list of runs only grow. -/
def Logs (m : M V α) : Prop := ∀ s, match m s with
  | .ok _ s' => (∃ evs, s'.log = evs ++ s.log) ∧ ∃ rs, s'.runs = rs ++ s.runs
  | .panic _ s' => (∃ evs, s'.log = evs ++ s.log) ∧ ∃ rs, s'.runs = rs ++ s.runs
  | .oof => True

theorem Gen.logs {b : Bool} {i j : Nat} {m : M V α} (h : Gen b i j m) : Logs m := by
  intro s
  have := h s
  revert this
  generalize m s = o
  intro this
  match o with
  | .oof => trivial
  | .ok a s2 => have := (show Ok b i j s s2 from this).pk; exact ⟨this.log, this.runs⟩
  | .panic a s2 => have : Pk s s2 := this; exact ⟨this.log, this.runs⟩

theorem Logs.bind {m : M V α} {f : α → M V β} (h1 : Logs m) (h2 : ∀ a, Logs (f a)) : Logs (m >>= f) := by
  intro s
  have := h1 s
  rw [M.bind_def]
  revert this
  generalize m s = o
  intro this
  match o with
  | .oof => trivial
  | .panic e s2 => exact this
  | .ok a s2 =>
    obtain ⟨⟨e1, g1⟩, ⟨r1, k1⟩⟩ := this
    have := h2 a s2
    simp only []
    revert this
    generalize f a s2 = o
    intro this
    match o with
    | .oof => trivial
    | .ok c s3 =>
      obtain ⟨⟨e2, g2⟩, ⟨r2, k2⟩⟩ := this
      exact ⟨⟨e2 ++ e1, by rw [g2, g1, List.append_assoc]⟩, ⟨r2 ++ r1, by rw [k2, k1, List.append_assoc]⟩⟩
    | .panic c s3 =>
      obtain ⟨⟨e2, g2⟩, ⟨r2, k2⟩⟩ := this
      exact ⟨⟨e2 ++ e1, by rw [g2, g1, List.append_assoc]⟩, ⟨r2 ++ r1, by rw [k2, k1, List.append_assoc]⟩⟩

theorem putNode_logs (l : Loc) (n : Node V) : Logs (putNode l n) := fun s => ⟨⟨[], rfl⟩, ⟨[], rfl⟩⟩

/-- An operation that starts by reporting an allocation at `l`. -/
theorem SRes.alloc {l : Loc} {s s0 : St V} {c : AllocCase} {k : AllocKind} {src : Option Loc} {m : M V α}
    (hm : Logs m) (hl : s0.log = s.log) (hr : s0.runs = s.runs) :
    SRes l s ((evBegin (.alloc c k) src l >>= fun _ => m) s0) := by
  rw [M.bind_ok (m := evBegin _ _ _) rfl]
  have := hm { s0 with log := Ev.begin (.alloc c k) src l :: s0.log }
  revert this
  generalize m { s0 with log := Ev.begin (.alloc c k) src l :: s0.log } = o
  have key : ∀ s2 : St V, (∃ evs, s2.log = evs ++ Ev.begin (.alloc c k) src l :: s0.log) → (∃ rs, s2.runs = rs ++ s0.runs) →
      Stay l s s2 := by
    rintro s2 ⟨evs, h1⟩ ⟨rs, h2⟩
    refine ⟨evs ++ [Ev.begin (.alloc c k) src l], rs, by rw [h1, hl]; simp, by rw [h2, hr], ?_⟩
    intro hn
    exact absurd ⟨c, k, src, by simp⟩ hn
  intro this
  match o with
  | .oof => trivial
  | .ok a s2 => exact key s2 this.1 this.2
  | .panic a s2 => exact key s2 this.1 this.2

theorem cellTable_stays (y : Loc) (ty : Ty) (l : Loc) (v : V) (pu : Bool) : Stays y (cellTable ty l v pu) := by
  intro s
  refine SRes.bind (Stay.refl y s) fun s0 s1 h0 => ?_
  cases h0
  rcases hg : s.table.get l with _ | n0
  · simp only [hg]
    refine SRes.bind (Stays.evBegin y _ _ _ s) fun _ s1 h1 => SRes.bind (Stays.evEnd y s1) fun _ s2 h2 => ?_
    cases h1; cases h2
    exact Stay.insert hg
  · simp only [hg]
    refine SRes.bind ((resNode_reads ty l).stays y s) fun n s1 h1 => ?_
    by_cases hy : y = l
    · subst hy
      refine SRes.alloc ?_ rfl rfl
      match n with
      | .mut nd => exact (Gen.bind (setCell_gen false 1 ty y v) fun _ => Gen.evEnd false 0).logs
      | .comp nd =>
        exact (Gen.bind (dirtyAlloc_gen false 1 y) fun _ => Gen.bind (revokeSuccs_gen false 1 y nd.succs) fun _ => Gen.evEnd false 0).logs
      | .pure nd => exact (Gen.evEnd false 0).logs
    · refine Stays.bind (Stays.evBegin y _ _ _) (fun _ => ?_) s1
      match n with
      | .mut nd => exact Stays.bind (setCell_stays y ty l v hy) fun _ => Stays.evEnd y
      | .comp nd =>
        exact Stays.bind (dirtyAlloc_stays y l) fun _ => Stays.bind (revokeSuccs_stays y l nd.succs) fun _ => Stays.evEnd y
      | .pure nd => exact Stays.evEnd y

theorem opCell_stays (env : Env V) (y : Loc) (ty : Ty) (nm : Name) (v : V) : Stays y (opCell env ty nm v) := by
  refine Stays.bind (Stays.get _) fun s => Stays.bind (cellTable_stays _ _ _ _ _) fun _ => Stays.bind ?_ fun _ => Stays.pure _ _
  unfold cellRecord
  exact Stays.ite (Stays.pure _ _) (Stays.recordEdge _ _ _)

theorem thunkStructural_stays (env : Env V) (y : Loc) (ty : Ty) (pp : ProgPt) (fn : FnId) (arg : V) :
    Stays y (thunkStructural env ty pp fn arg) := by
  intro s
  refine SRes.bind (Stay.refl y s) fun s0 s1 h0 => ?_
  cases h0
  rcases hg : s.table.get (⟨s.path, .structural (env.hashApp pp arg)⟩ : Loc) with _ | n0
  · simp only [hg]
    refine SRes.bind (Stays.recordEdge y _ _ s) fun u s1 h1 => ?_
    have ht := recordEdge_table _ _ _ _ _ h1
    exact SRes.bind (Stay.insert (by rw [ht]; exact hg)) fun _ s2 _ => Stay.refl _ _
  · simp only [hg]; exact Stay.refl _ _

theorem thunkNominal_stays (y : Loc) (ty : Ty) (nm : Name) (pp : ProgPt) (fn : FnId) (arg : V) :
    Stays y (thunkNominal ty nm pp fn arg) := by
  intro s
  refine SRes.bind (Stay.refl y s) fun s0 s1 h0 => ?_
  cases h0
  rcases hg : s.table.get (⟨s.path, .nominal nm⟩ : Loc) with _ | n0
  · simp only [hg]
    refine SRes.bind (Stays.evBegin y _ _ _ s) fun _ s1 h1 => SRes.bind (Stays.evEnd y s1) fun _ s2 h2 => ?_
    cases h1; cases h2
    refine SRes.bind (Stays.recordEdge y _ _ _) fun u s3 h3 => ?_
    have ht := recordEdge_table _ _ _ _ _ h3
    exact SRes.bind (Stay.insert (by rw [ht]; exact hg)) fun _ s2 _ => Stay.refl _ _
  · simp only [hg]
    refine SRes.bind ((resNode_reads ty _).stays y s) fun n s1 h1 => ?_
    obtain ⟨rfl, h1, h2⟩ := resNode_inv h1
    by_cases hy : y = (⟨s1.path, .nominal nm⟩ : Loc)
    · subst hy
      match n with
      | .pure _ => exact Stay.refl _ _
      | .mut mn =>
        simp only []
        refine SRes.alloc ?_ rfl rfl
        exact Logs.bind (dirtyAlloc_gen false 1 _).logs fun _ => Logs.bind (Gen.evEnd false 0).logs fun _ =>
          Logs.bind (recordAlloc_gen 0 _ _ rfl rfl).logs fun _ => Logs.bind (putNode_logs _ _) fun _ => (Gen.pure false 0 _).logs
      | .comp c =>
        simp only []
        by_cases hpp : c.pp = pp
        · rw [if_pos hpp]
          by_cases ha : c.arg ≈ᵤ arg
          · rw [if_pos ha]
            refine SRes.alloc ?_ rfl rfl
            exact Logs.bind (Gen.evEnd false 0).logs fun _ =>
              Logs.bind (recordAlloc_gen 0 _ _ rfl rfl).logs fun _ => (Gen.pure false 0 _).logs
          · rw [if_neg ha, M.bind_ok (m := putNode _ _) rfl]
            refine SRes.alloc ?_ rfl rfl
            exact Logs.bind (dirtyAlloc_gen false 1 _).logs fun _ => Logs.bind (Gen.evEnd false 0).logs fun _ =>
              Logs.bind (recordAlloc_gen 0 _ _ rfl rfl).logs fun _ => (Gen.pure false 0 _).logs
        · rw [if_neg hpp]; exact Stay.refl _ _
    · match n with
      | .pure _ => exact Stay.refl _ _
      | .mut mn =>
        simp only []
        exact Stays.bind (Stays.evBegin y _ _ _) (fun _ => Stays.bind (dirtyAlloc_stays y _) fun _ =>
          Stays.bind (Stays.evEnd y) fun _ => Stays.bind (Stays.recordEdge y _ _) fun _ =>
          Stays.bind (putNode_stays _ hy) fun _ => Stays.pure _ _) _
      | .comp c =>
        simp only []
        refine Stays.ite (Stays.ite ?_ ?_) (Stays.panic _ _) _
        · exact Stays.bind (Stays.evBegin y _ _ _) fun _ => Stays.bind (Stays.evEnd y) fun _ =>
            Stays.bind (Stays.recordEdge y _ _) fun _ => Stays.pure _ _
        · exact Stays.bind (putNode_stays _ hy) fun _ => Stays.bind (Stays.evBegin y _ _ _) fun _ =>
            Stays.bind (dirtyAlloc_stays y _) fun _ => Stays.bind (Stays.evEnd y) fun _ =>
            Stays.bind (Stays.recordEdge y _ _) fun _ => Stays.pure _ _

theorem opThunk_stays (env : Env V) (y : Loc) (ty : Ty) (nc : NameChoice) (pp : ProgPt) (fn : FnId) (arg : V) :
    Stays y (opThunk env ty nc pp fn arg) := by
  refine Stays.bind (Stays.get _) fun s => ?_
  match nc with
  | .eager => exact Stays.panic _ _
  | .naive => exact Stays.panic _ _
  | .structural => exact thunkStructural_stays _ _ _ _ _ _
  | .nominal nm => exact Stays.ite (thunkStructural_stays _ _ _ _ _ _) (thunkNominal_stays _ _ _ _ _ _)

/-- What the recursive calls guarantee. -/
structure RStays (y : Loc) (R : Rec V) : Prop where
  produce : ∀ ty l, Stays y (R.produce ty l)
  cleanForce : ∀ ty r l, Stays y (R.cleanForce ty r l)
  run : ∀ p, NoSet y p → Stays y (R.run p)

theorem opForce_stays {y : Loc} {R : Rec V} (hR : RStays y R) (ty : Ty) (l : Loc) (cyc : Option V) :
    Stays y (opForce R ty l cyc) := by
  refine Stays.bind (Stays.get _) fun s => Stays.bind ((resNode_reads ty _).stays y) fun n => ?_
  have hrec : ∀ (c : Bool) (r : V), Stays y (if c then (Pure.pure r : M V V) else do
      recordEdge ⟨false, l, .observe, .force ty r⟩ none; Pure.pure r) := fun c r =>
    Stays.ite (Stays.pure _ _) (Stays.bind (Stays.recordEdge y _ _) fun _ => Stays.pure _ _)
  match n with
  | .pure nd => exact Stays.bind (Stays.evEff _ _ _ _) fun _ => Stays.pure _ _
  | .mut nd => exact Stays.bind (Stays.evEff _ _ _ _) fun _ => hrec _ _
  | .comp nd =>
    simp only []
    refine Stays.ite ?_ ?_
    · match cyc with
      | none => exact Stays.panic _ _
      | some out =>
        exact Stays.bind (Stays.evBegin y _ _ _) fun _ => Stays.bind (Stays.evEnd y) fun _ =>
          Stays.ite (Stays.pure _ _) (hrec _ _)
    · rcases hres : nd.res with _ | r
      · simp only []
        exact Stays.bind (Stays.evBegin y _ _ _) fun _ => Stays.ite (Stays.panic _ _)
          (Stays.bind (hR.produce ty l) fun r => Stays.bind (Stays.evEnd y) fun _ => Stays.ite (Stays.pure _ _) (hrec _ _))
      · simp only []
        refine Stays.bind (Stays.evBegin y _ _ _) fun _ => Stays.bind (hR.cleanForce ty r l) fun b => Stays.bind (Stays.evEnd y) fun _ =>
          Stays.bind ((resNode_reads ty _).stays y) fun n' => ?_
        match n' with
        | .comp nd' =>
          rcases hr' : nd'.res with _ | r'
          · simp only [hr']; exact Stays.panic _ _
          · simp only [hr']; exact Stays.ite (Stays.pure _ _) (hrec _ _)
        | .mut _ => exact Stays.panic _ _
        | .pure _ => exact Stays.panic _ _

theorem opForceMap_stays {y : Loc} {R : Rec V} (hR : RStays y R) (ty : Ty) (l : Loc) (f : V → V) :
    Stays y (opForceMap R ty l f) := by
  refine Stays.bind (Stays.get _) fun s => Stays.bind ((resNode_reads ty l).stays y) fun n => ?_
  match n with
  | .mut nd => exact Stays.bind (Stays.evEff _ _ _ _) fun _ => Stays.bind (Stays.recordEdge _ _ _) fun _ => Stays.pure _ _
  | .comp nd => exact Stays.bind (opForce_stays hR _ _ _) fun _ => Stays.pure _ _
  | .pure nd => exact Stays.bind (opForce_stays hR _ _ _) fun _ => Stays.pure _ _

theorem opForceAbs_stays {y : Loc} {R : Rec V} (hR : RStays y R) (ty : Ty) (l : Loc) (f : V → V) :
    Stays y (opForceAbs R ty l f) := by
  refine Stays.bind (Stays.get _) fun s => Stays.bind ((resNode_reads ty l).stays y) fun n => ?_
  match n with
  | .mut nd => exact Stays.bind (Stays.evEff _ _ _ _) fun _ => Stays.bind (Stays.recordEdge _ _ _) fun _ => Stays.pure _ _
  | .comp nd => exact Stays.bind (opForce_stays hR _ _ _) fun _ => Stays.pure _ _
  | .pure nd => exact Stays.bind (opForce_stays hR _ _ _) fun _ => Stays.pure _ _

theorem Stays.modify (y : Loc) (f : St V → St V) (h1 : ∀ s, (f s).table = s.table) (h2 : ∀ s, (f s).log = s.log)
    (h3 : ∀ s, ∃ rs, (f s).runs = rs ++ s.runs) : Stays y (M.modify f) :=
  fun s => Stay.same (h1 s) ⟨[], h2 s⟩ (h3 s)

theorem runProg_stays (env : Env V) {y : Loc} {R : Rec V} (hR : RStays y R) (he : ∀ fn a, NoSet y (env.code fn a))
    (p : Prog V) (hp : NoSet y p) : Stays y (runProg env R p) := by
  induction hp with
  | ret v => exact Stays.pure _ _
  | force ty l cyc k _ ih => exact Stays.bind (opForce_stays hR _ _ _) ih
  | forceMap ty l f k _ ih => exact Stays.bind (opForceMap_stays hR _ _ _) ih
  | forceAbs ty l f k _ ih => exact Stays.bind (opForceAbs_stays hR _ _ _) ih
  | cell ty n v k _ ih => exact Stays.bind (opCell_stays _ _ _ _ _) ih
  | thunk ty nc pp fn arg k _ ih => exact Stays.bind (opThunk_stays _ _ _ _ _ _ _) ih
  | set ty l v k hne _ ih => exact Stays.bind (opSet_stays _ _ _ _ (Ne.symm hne)) fun _ => ih
  | ns n body k _ _ ihb ih =>
    exact Stays.bind (Stays.get _) fun s => Stays.bind (Stays.modify y _ (fun _ => rfl) (fun _ => rfl) (fun _ => ⟨[], rfl⟩)) fun _ =>
      Stays.bind ihb fun v => Stays.bind (Stays.modify y _ (fun _ => rfl) (fun _ => rfl) (fun _ => ⟨[], rfl⟩)) fun _ => ih v
  | structural body k _ _ ihb ih =>
    exact Stays.bind (Stays.get _) fun s => Stays.bind (Stays.modify y _ (fun _ => rfl) (fun _ => rfl) (fun _ => ⟨[], rfl⟩)) fun _ =>
      Stays.bind ihb fun v => Stays.bind (Stays.modify y _ (fun _ => rfl) (fun _ => rfl) (fun _ => ⟨[], rfl⟩)) fun _ => ih v
  | call fn arg k _ ih => exact Stays.bind (hR.run _ (he _ _)) ih
  | panic => exact Stays.panic _ _

theorem installPreds_stays (y l : Loc) (es : List (Succ V × Option (Dep V))) : Stays y (installPreds l es) := by
  induction es with
  | nil => exact Stays.pure _ _
  | cons q es ih =>
    obtain ⟨e, d⟩ := q
    refine Stays.bind (Stays.ite (Stays.panic _ _) fun s => ?_) fun _ => ih
    refine SRes.bind ((lookupAbs_reads _).stays y s) fun n s' h => ?_
    obtain ⟨rfl, h⟩ := lookupAbs_inv h
    match n with
    | .comp nd => exact Stay.put h rfl rfl
    | .mut nd => exact Stay.put h rfl rfl
    | .pure nd => exact Stay.refl _ _

/-- The list of runs grows by `l` at least. -/
def RunsAt (l : Loc) (s s' : St V) : Prop := ∃ rs, s'.runs = rs ++ s.runs ∧ l ∈ rs

/-- Writing the result of `l`, after `l` has been run. -/
theorem Stay.result {y l : Loc} {s s1 : St V} {nd : CompNode V} {n' : Node V} (h : Stay y s s1) (hr : y = l → RunsAt l s s1)
    (hg : s1.table.get l = some (.comp nd)) (hc : n'.content = (Node.comp nd).content) :
    Stay y s { s1 with table := s1.table.put l n' } := by
  obtain ⟨evs, rs, h1, h2, h3⟩ := h
  refine ⟨evs, rs, h1, h2, fun ha n hn => ?_⟩
  obtain ⟨n1, g1, g2, g3⟩ := h3 ha n hn
  simp only [Table.get_put]
  split
  · rename_i hy
    rw [hy, hg] at g1
    cases g1
    refine ⟨n', rfl, hc.trans g2, fun hnr => ?_⟩
    obtain ⟨rs', k1, k2⟩ := hr hy
    rw [h2] at k1
    have := List.append_cancel_right k1
    subst this
    rw [hy] at hnr
    exact absurd k2 hnr
  · exact ⟨n1, g1, g2, g3⟩

theorem produceBody_stays (env : Env V) {y : Loc} {R : Rec V} (hR : RStays y R) (hG : RGen R)
    (he : ∀ fn a, NoSet y (env.code fn a)) (ty : Ty) (l : Loc) : Stays y (produceBody env R ty l) := by
  intro s
  refine SRes.bind ((resNode_reads ty l).stays y s) fun n s1 h1 => ?_
  obtain ⟨rfl, h1, h2⟩ := resNode_inv h1
  match n with
  | .mut _ => exact Stay.refl _ _
  | .pure _ => exact Stay.refl _ _
  | .comp nd =>
    refine SRes.bind (Stay.put h1 rfl rfl) fun _ s2 g2 => ?_
    refine SRes.bind (revokeSuccs_stays y l nd.succs s2) fun _ s3 g3 => ?_
    rw [M.bind_ok (M.get_def s3)]
    refine SRes.bind (Stays.modify y _ (fun _ => rfl) (fun _ => rfl) (fun _ => ⟨[], rfl⟩) s3) fun _ s4 g4 => ?_
    refine SRes.bind ((resNode_reads ty l).stays y s4) fun n5 s5 g5 => ?_
    match n5 with
    | .mut _ => exact Stay.refl _ _
    | .pure _ => exact Stay.refl _ _
    | .comp nd5 =>
      simp only []
      rw [M.bind_ok (m := M.modify _) rfl, M.bind_def]
      have hrun := SRes.trans (Stay.same (l := y) (s := s5) (s' := { s5 with runs := l :: s5.runs }) rfl ⟨[], rfl⟩ ⟨[l], rfl⟩)
        (hR.run (env.code nd5.fn nd5.arg) (he _ _) { s5 with runs := l :: s5.runs })
      have hgr := hG.run (env.code nd5.fn nd5.arg) { s5 with runs := l :: s5.runs }
      revert hrun hgr
      generalize R.run (env.code nd5.fn nd5.arg) { s5 with runs := l :: s5.runs } = o
      intro hrun hgr
      match o with
      | .oof => trivial
      | .panic e s6 => exact hrun
      | .ok res s6 =>
        have hrun : Stay y s5 s6 := hrun
        have hra : RunsAt l s5 s6 := by
          obtain ⟨rs, hrs⟩ := (show Ok false 0 0 _ s6 from hgr).runs
          exact ⟨rs ++ [l], by rw [hrs]; simp, by simp⟩
        have hcont : ∀ (s7 : St V), s7.table = s6.table → s7.log = s6.log → s7.runs = s6.runs → Stay y s5 s7 := fun s7 a b c =>
          hrun.trans (Stay.same a ⟨[], b⟩ ⟨[], c⟩)
        simp only []
        rw [M.bind_ok (m := M.modify _) rfl, M.bind_ok (M.get_def _)]
        rcases hst : s6.stack with _ | ⟨fr, K⟩
        · exact hcont _ rfl rfl rfl
        · simp only []
          rw [M.bind_ok (m := M.modify _) rfl]
          by_cases hfr : fr.loc = l
          · rw [if_pos hfr, M.bind_def]
            have hin := installPreds_stays y l fr.succs { s6 with path := s3.path, stack := K }
            have hing := installPreds_gen true 0 l fr.succs { s6 with path := s3.path, stack := K }
            simp only []
            revert hin hing
            generalize installPreds l fr.succs { s6 with path := s3.path, stack := K } = o
            intro hin hing
            match o with
            | .oof => trivial
            | .panic e s8 => exact (hcont { s6 with path := s3.path, stack := K } rfl rfl rfl).trans hin
            | .ok _ s8 =>
              have hin : Stay y _ s8 := hin
              have h8 : Stay y s5 s8 := (hcont { s6 with path := s3.path, stack := K } rfl rfl rfl).trans hin
              have hra8 : RunsAt l s5 s8 := by
                obtain ⟨rs, hrs⟩ := (show Ok true 0 0 { s6 with path := s3.path, stack := K } s8 from hing).runs
                obtain ⟨rs', h1, h2⟩ := hra
                refine ⟨rs ++ rs', ?_, List.mem_append_right _ h2⟩
                rw [hrs]
                show rs ++ s6.runs = _
                rw [h1, List.append_assoc]
              simp only []
              rw [M.bind_def]
              rcases hrn : resNode ty l s8 with ⟨n9, s9⟩ | ⟨e, s9⟩ | _
              · obtain ⟨rfl, k1, k2⟩ := resNode_inv hrn
                simp only []
                match n9 with
                | .mut _ => exact h8
                | .pure _ => exact h8
                | .comp nd9 =>
                  simp only []
                  rw [M.bind_ok (m := putNode _ _) rfl]
                  exact Stay.result h8 (fun _ => hra8) k1 rfl
              · have := (resNode_reads ty l).stays y s8
                rw [hrn] at this
                exact h8.trans this
              · trivial
          · rw [if_neg hfr]
            exact hcont _ rfl rfl rfl

theorem cleanDep_stays {y : Loc} {R : Rec V} (hR : RStays y R) (d : Dep V) (l : Loc) : Stays y (cleanDep R d l) := by
  match d with
  | .allocStruct => exact Stays.pure _ _
  | .allocNom _ => exact Stays.pure _ _
  | .allocCell _ => exact Stays.pure _ _
  | .force ty res => exact hR.cleanForce _ _ _
  | .forceMap ty f res => exact (checkForceMapDep_reads _ _ _ _).stays _
  | .forceAbs => exact Stays.pure _ _

theorem cleanLoop_stays {y : Loc} {R : Rec V} (hR : RStays y R) (ty : Ty) (res : V) (l : Loc) (es : List (Succ V)) :
    Stays y (cleanLoop R ty res l es) := by
  induction es with
  | nil => exact Stays.pure _ _
  | cons e es ih =>
    refine Stays.bind ((succDirty_reads _ _ _).stays _) fun d => Stays.ite ?_ ih
    refine Stays.bind (Stays.evBegin y _ _ _) fun _ => Stays.bind (cleanDep_stays hR _ _) fun ch => Stays.ite ?_ ?_
    · exact Stays.bind (Stays.evBegin y _ _ _) fun _ => Stays.bind (hR.produce _ _) fun _ =>
        Stays.bind (Stays.evEnd y) fun _ => Stays.bind (Stays.evEnd y) fun _ => Stays.pure _ _
    · exact Stays.bind (setSuccDirty_stays _ _ _ _ _) fun _ => Stays.bind (Stays.evEff _ _ _ _) fun _ =>
        Stays.bind (Stays.evEnd y) fun _ => ih

theorem cleanForceBody_stays {y : Loc} {R : Rec V} (hR : RStays y R) (ty : Ty) (res : V) (l : Loc) :
    Stays y (cleanForceBody R ty res l) := by
  refine Stays.bind ((resNode_reads _ _).stays _) fun n => ?_
  match n with
  | .pure _ => exact Stays.pure _ _
  | .mut _ => exact Stays.pure _ _
  | .comp nd =>
    show Stays y (match nd.res with | some cache => _ | none => _)
    rcases nd.res with _ | cache
    · exact Stays.bind (Stays.evBegin y _ _ _) fun _ => Stays.bind (hR.produce _ _) fun _ =>
        Stays.bind (Stays.evEnd y) fun _ => Stays.pure _ _
    · refine Stays.bind (cleanLoop_stays hR _ _ _ _) fun r => ?_
      match r with
      | some ch => exact Stays.pure _ _
      | none => exact Stays.pure _ _

theorem recN_stays (env : Env V) (y : Loc) (he : ∀ fn a, NoSet y (env.code fn a)) : ∀ n, RStays y (recN env n)
  | 0 => ⟨fun _ _ _ => trivial, fun _ _ _ _ => trivial, fun _ _ _ => trivial⟩
  | n + 1 => ⟨produceBody_stays env (recN_stays env y he n) (recN_gen env n) he, cleanForceBody_stays (recN_stays env y he n),
      runProg_stays env (recN_stays env y he n) he⟩

theorem exec_stays (env : Env V) (y : Loc) (he : ∀ fn a, NoSet y (env.code fn a)) (n : Nat) (p : Prog V) (hp : NoSet y p) :
    Stays y (exec env n p) := runProg_stays env (recN_stays env y he n) he p hp

end Adapton
