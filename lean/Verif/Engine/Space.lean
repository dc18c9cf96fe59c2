import Verif.Engine.Stay
/-
How large the graph can become: for every program, every history, also those that panic.  No location has two nodes, and a thunk has no more edges than its code makes demands in one run.
-/
set_option linter.unusedSectionVars false
set_option linter.unusedVariables false
set_option linter.unusedSimpArgs false
namespace Adapton
variable {V α β : Type} [UEq V]

/-! ### Specification -/

/-- The program makes, on every path through it, at most `d` forces and allocations (of its own: what the forced thunks do is not counted). -/
inductive Demands (env : Env V) : Nat → Prog V → Prop
  | ret (d v) : Demands env d (.ret v)
  | panic (d) : Demands env d .panic
  | force {d} (ty x cyc k) : (∀ v, Demands env d (k v)) → Demands env (d + 1) (.force ty x cyc k)
  | forceMap {d} (ty x f k) : (∀ v, Demands env d (k v)) → Demands env (d + 1) (.forceMap ty x f k)
  | forceAbs {d} (ty x f k) : (∀ v, Demands env d (k v)) → Demands env (d + 1) (.forceAbs ty x f k)
  | cell {d} (ty n v k) : (∀ x, Demands env d (k x)) → Demands env (d + 1) (.cell ty n v k)
  | thunk {d} (ty nc pp fn a k) : (∀ x, Demands env d (k x)) → Demands env (d + 1) (.thunk ty nc pp fn a k)
  | set {d} (ty x v k) : Demands env d k → Demands env d (.set ty x v k)
  | ns {d e} (n b k) : Demands env d b → (∀ v, Demands env e (k v)) → Demands env (d + e) (.ns n b k)
  | structural {d e} (b k) : Demands env d b → (∀ v, Demands env e (k v)) → Demands env (d + e) (.structural b k)
  | call {d e} (fn a k) : Demands env d (env.code fn a) → (∀ v, Demands env e (k v)) → Demands env (d + e) (.call fn a k)

/-- Each location has one node, and no thunk has more than `W` edges. -/
structure Fits (W : Nat) (s : St V) : Prop where
  keys : (s.table.map (·.1)).Nodup
  width : ∀ x nd, s.table.get x = some (.comp nd) → nd.succs.length ≤ W

/-! ### Proofs -/

/-- Edges recorded so far by the running thunk. -/
def topLen (s : St V) : Nat := match s.stack with
  | [] => 0
  | fr :: _ => fr.succs.length

def Thin (W k : Nat) (s : St V) : Out V α → Prop
  | .ok _ s' => Fits W s' ∧ topLen s' ≤ topLen s + k
  | .panic _ s' => Fits W s'
  | .oof => True

def Thins (W k : Nat) (m : M V α) : Prop := ∀ s, Fits W s → Thin W k s (m s)

def KeptW (W : Nat) : Out V α → Prop
  | .ok _ s' => Fits W s'
  | .panic _ s' => Fits W s'
  | .oof => True

def KeepsW (W : Nat) (m : M V α) : Prop := ∀ s, Fits W s → KeptW W (m s)

theorem Thins.keeps {W k : Nat} {m : M V α} (h : Thins W k m) : KeepsW W m := by
  intro s hs
  have := h s hs
  revert this
  generalize m s = o
  intro this
  match o with
  | .ok _ _ => exact this.1
  | .panic _ _ => exact this
  | .oof => trivial

theorem KeepsW.bind {W : Nat} {m : M V α} {f : α → M V β} (h1 : KeepsW W m) (h2 : ∀ a, KeepsW W (f a)) : KeepsW W (m >>= f) := by
  intro s hs
  have := h1 s hs
  rw [M.bind_def]
  revert this
  generalize m s = o
  intro this
  match o with
  | .ok a s' => exact h2 a s' this
  | .panic _ _ => exact this
  | .oof => trivial
theorem KeepsW.pure {W : Nat} (a : α) : KeepsW W (Pure.pure a : M V α) := fun s hs => hs
theorem KeepsW.panic {W : Nat} (e : Err) : KeepsW W (M.panic e : M V α) := fun s hs => hs
theorem KeepsW.get {W : Nat} : KeepsW W (M.get : M V (St V)) := fun s hs => hs

theorem Thin.bind {W j k : Nat} {m : M V α} {f : α → M V β} {s : St V} (h1 : Thin W j s (m s))
    (h2 : ∀ a s', m s = .ok a s' → Fits W s' → Thin W k s' (f a s')) : Thin W (j + k) s ((m >>= f) s) := by
  rw [M.bind_def]
  rcases hm : m s with ⟨a, s'⟩ | ⟨e, s'⟩ | _
  · rw [hm] at h1
    obtain ⟨h3, h4⟩ := h1
    have := h2 a s' hm h3
    simp only []
    revert this
    generalize f a s' = o
    intro this
    match o with
    | .ok _ s2 => exact ⟨this.1, by have := this.2; omega⟩
    | .panic _ _ => exact this
    | .oof => trivial
  · rw [hm] at h1; exact h1
  · trivial

theorem Thin.wk {W j k : Nat} {s : St V} {o : Out V α} (h : Thin W j s o) (hj : j ≤ k) : Thin W k s o := by
  match o with
  | .ok _ s' => exact ⟨h.1, by have := h.2; omega⟩
  | .panic _ _ => exact h
  | .oof => trivial
theorem Thins.wk {W j k : Nat} {m : M V α} (h : Thins W j m) (hj : j ≤ k := by omega) : Thins W k m := fun s hs => (h s hs).wk hj
theorem Thins.bind {W j k : Nat} {m : M V α} {f : α → M V β} (h1 : Thins W j m) (h2 : ∀ a, Thins W k (f a)) : Thins W (j + k) (m >>= f) :=
  fun s hs => Thin.bind (h1 s hs) fun a s' _ hs' => h2 a s' hs'
/-- First a step that records nothing. -/
theorem Thins.seq {W k : Nat} {m : M V α} {f : α → M V β} (h1 : Thins W 0 m) (h2 : ∀ a, Thins W k (f a)) : Thins W k (m >>= f) :=
  (Thins.bind h1 h2).wk
theorem Thin.seq {W k : Nat} {m : M V α} {f : α → M V β} {s : St V} (h1 : Thin W 0 s (m s))
    (h2 : ∀ a s', m s = .ok a s' → Fits W s' → Thin W k s' (f a s')) : Thin W k s ((m >>= f) s) := (Thin.bind h1 h2).wk (by omega)
theorem Thins.pure {W : Nat} (k : Nat) (a : α) : Thins W k (Pure.pure a : M V α) := fun s hs => ⟨hs, Nat.le_add_right _ _⟩
theorem Thins.panic {W : Nat} (k : Nat) (e : Err) : Thins W k (M.panic e : M V α) := fun s hs => hs
theorem Thins.get {W : Nat} : Thins W 0 (M.get : M V (St V)) := fun s hs => ⟨hs, Nat.le_refl _⟩
theorem Thins.ite {W k : Nat} {c : Prop} [Decidable c] {m1 m2 : M V α} (h1 : Thins W k m1) (h2 : Thins W k m2) :
    Thins W k (if c then m1 else m2) := by
  split
  · exact h1
  · exact h2
theorem Reads.thins {W : Nat} {m : M V α} (h : Reads m) : Thins W 0 m := by
  intro s hs
  rcases h s with ⟨a, h⟩ | ⟨e, h⟩
  · rw [h]; exact ⟨hs, Nat.le_refl _⟩
  · rw [h]; exact hs
theorem Fits.same {W : Nat} {s s' : St V} (h : Fits W s) (ht : s'.table = s.table) : Fits W s' := ⟨by rw [ht]; exact h.keys, by rw [ht]; exact h.width⟩
theorem Thins.modify {W : Nat} (f : St V → St V) (h1 : ∀ s, (f s).table = s.table) (h2 : ∀ s, (f s).stack = s.stack) :
    Thins W 0 (M.modify f) := fun s hs => ⟨hs.same (h1 s), by unfold topLen; rw [h2]; exact Nat.le_refl _⟩
theorem KeepsW.modify {W : Nat} (f : St V → St V) (h1 : ∀ s, (f s).table = s.table) : KeepsW W (M.modify f) := fun s hs => hs.same (h1 s)
theorem Thins.evBegin {W : Nat} (e : TEff) (src : Option Loc) (tgt : Loc) : Thins W 0 (evBegin e src tgt : M V Unit) := Thins.modify _ (fun _ => rfl) fun _ => rfl
theorem Thins.evEnd {W : Nat} : Thins W 0 (evEnd : M V Unit) := Thins.modify _ (fun _ => rfl) fun _ => rfl
theorem Thins.evEff {W : Nat} (e : TEff) (src : Option Loc) (tgt : Loc) : Thins W 0 (evEff e src tgt : M V Unit) := Thins.modify _ (fun _ => rfl) fun _ => rfl

theorem Thins.recordEdge {W : Nat} (e : Succ V) (d : Option (Dep V)) : Thins W 1 (recordEdge e d) := by
  intro s hs
  unfold Adapton.recordEdge
  rw [M.modify_def]
  rcases hk : s.stack with _ | ⟨fr, K⟩
  · exact ⟨hs, Nat.le_add_right _ _⟩
  · refine ⟨hs.same rfl, ?_⟩
    unfold topLen
    rw [hk]
    simp only [List.length_append, List.length_cons, List.length_nil]
    omega

theorem put_keys (t : Table V) (l : Loc) (n : Node V) :
    (t.put l n).map (·.1) = if l ∈ t.map (·.1) then t.map (·.1) else t.map (·.1) ++ [l] := by
  induction t with
  | nil => rfl
  | cons a t ih =>
    obtain ⟨k, m⟩ := a
    simp only [Table.put]
    by_cases hk : k = l
    · rw [if_pos hk]; subst hk; simp
    · rw [if_neg hk]
      simp only [List.map_cons, ih, List.mem_cons]
      have hk' : l ≠ k := fun h => hk h.symm
      by_cases hm : l ∈ t.map (·.1)
      · rw [if_pos hm, if_pos (.inr hm)]
      · rw [if_neg hm, if_neg (by rintro (h | h); exact hk' h; exact hm h)]; rfl

theorem nodup_put {t : Table V} (h : (t.map (·.1)).Nodup) (l : Loc) (n : Node V) : ((t.put l n).map (·.1)).Nodup := by
  rw [put_keys]
  split
  · exact h
  · rename_i hl
    rw [List.nodup_append]
    refine ⟨h, by simp, ?_⟩
    intro a ha b hb hab
    simp only [List.mem_singleton] at hb
    subst hb; subst hab; exact hl ha

theorem Fits.put {W : Nat} {s : St V} (h : Fits W s) (l : Loc) (n : Node V) (hn : n.succsList.length ≤ W) : Fits W { s with table := s.table.put l n } := by
  refine ⟨nodup_put h.keys l n, ?_⟩
  intro x nd hx
  simp only [Table.get_put] at hx
  split at hx
  · cases hx; exact hn
  · exact h.width x nd hx

theorem Fits.node {W : Nat} {s : St V} (h : Fits W s) {l : Loc} {n : Node V} (hg : s.table.get l = some n) : n.succsList.length ≤ W := by
  match n with
  | .comp nd => exact h.width l nd hg
  | .mut _ => exact Nat.zero_le _
  | .pure _ => exact Nat.zero_le _

theorem Thin.put {W : Nat} {s : St V} (h : Fits W s) (l : Loc) (n : Node V) (hn : n.succsList.length ≤ W) : Thin W 0 s (putNode l n s) :=
  ⟨h.put l n hn, Nat.le_refl _⟩
theorem Thins.putBare {W : Nat} (l : Loc) (n : Node V) (hn : n.succsList = []) : Thins W 0 (putNode l n) := fun s hs => Thin.put hs l n (by rw [hn]; exact Nat.zero_le _)

theorem setSuccDirty_thins {W : Nat} (p : Loc) (eff : Effect) (x : Loc) (v : Bool) : Thins W 0 (setSuccDirty p eff x v : M V Unit) := by
  intro s hs
  refine Thin.seq ((lookupAbs_reads p).thins s hs) fun n s' h hs' => ?_
  obtain ⟨rfl, h⟩ := lookupAbs_inv h
  match n with
  | .comp nd =>
    rcases hf : nd.succs.find? (Succ.matches eff x) with _ | e
    · simp only [hf]; exact hs'
    · simp only [hf]
      refine Thin.put hs' _ _ ?_
      have := hs'.width _ _ h
      have h2 : (setFirst eff x v nd.succs).length = nd.succs.length := by
        generalize nd.succs = es
        induction es with
        | nil => rfl
        | cons a es ih =>
          unfold setFirst
          split
          · rfl
          · simp only [List.length_cons, ih]
      simp only [Node.succsList]
      omega
  | .mut nd => exact hs'
  | .pure nd => exact hs'

theorem removePred_thins {W : Nat} (src tgt : Loc) : Thins W 0 (removePred src tgt : M V Unit) := by
  refine Thins.seq (Thins.evEff _ _ _) fun _ s hs => ?_
  refine Thin.seq ((lookupAbs_reads tgt).thins s hs) fun n s' h hs' => ?_
  obtain ⟨rfl, h⟩ := lookupAbs_inv h
  match n with
  | .comp nd => exact Thin.put hs' _ _ (show nd.succs.length ≤ W from hs'.width _ _ h)
  | .mut nd => exact Thin.put hs' _ _ (Nat.zero_le _)
  | .pure nd => exact hs'

theorem revokeSuccs_thins {W : Nat} (src : Loc) (es : List (Succ V)) : Thins W 0 (revokeSuccs src es) := by
  induction es with
  | nil => exact Thins.pure _ _
  | cons e es ih => exact Thins.seq (removePred_thins _ _) fun _ => ih

theorem dirtyLoop_thins {W : Nat} (rec : Loc → M V Unit) (hrec : ∀ p, Thins W 0 (rec p)) (l : Loc)
    (ps : List (Loc × Option (Dep V))) : Thins W 0 (dirtyLoop rec l ps) := by
  induction ps with
  | nil => exact Thins.pure _ _
  | cons q ps ih =>
    obtain ⟨p, d⟩ := q
    refine Thins.seq ?_ fun _ => ih
    refine Thins.seq (dirtyStop_reads d l).thins fun st => Thins.ite (Thins.pure _ _) ?_
    refine Thins.seq (succDirty_reads p .observe l).thins fun bb => Thins.ite (Thins.pure _ _) (Thins.ite (Thins.panic _ _) ?_)
    exact Thins.seq (Thins.evBegin _ _ _) fun _ => Thins.seq (setSuccDirty_thins _ _ _ _) fun _ =>
      Thins.seq (hrec p) fun _ => Thins.evEnd

theorem dirtyPreds_thins {W : Nat} : ∀ (k : Nat) (l : Loc), Thins W 0 (dirtyPreds k l : M V Unit) := by
  intro k
  induction k with
  | zero => intro l s _; trivial
  | succ k ih =>
    intro l
    refine Thins.seq (lookupAbs_reads l).thins fun n => ?_
    show Thins W 0 (match n.predsObs with | some ps => _ | none => _)
    split
    · exact dirtyLoop_thins _ ih l _
    · exact Thins.panic _ _

theorem dirtyPredsTop_thins {W : Nat} (l : Loc) : Thins W 0 (dirtyPredsTop l : M V Unit) := fun s hs => dirtyPreds_thins _ l s hs

theorem dirtyAllocLoop_thins {W : Nat} (l : Loc) (ps : List Loc) : Thins W 0 (dirtyAllocLoop l ps : M V Unit) := by
  induction ps with
  | nil => exact Thins.pure _ _
  | cons p ps ih =>
    refine Thins.seq ?_ fun _ => ih
    refine Thins.seq (succDirty_reads p .allocate l).thins fun bb => Thins.ite (Thins.pure _ _) ?_
    refine Thins.seq (setSuccDirty_thins _ _ _ _) fun _ => Thins.ite (Thins.panic _ _) ?_
    exact Thins.seq (Thins.evBegin _ _ _) fun _ => Thins.seq (dirtyPredsTop_thins _) fun _ => Thins.evEnd

theorem dirtyAlloc_thins {W : Nat} (l : Loc) : Thins W 0 (dirtyAlloc l : M V Unit) := by
  refine Thins.seq (dirtyPredsTop_thins _) fun _ => Thins.seq (lookupAbs_reads l).thins fun n => ?_
  show Thins W 0 (match n.predsAlloc with | some ps => _ | none => _)
  split
  · exact dirtyAllocLoop_thins _ _
  · exact Thins.panic _ _

theorem setCell_thins {W : Nat} (ty : Ty) (l : Loc) (v : V) : Thins W 0 (setCell ty l v) := by
  refine Thins.seq (resNode_reads ty l).thins fun n => ?_
  match n with
  | .comp nd => exact Thins.panic _ _
  | .pure nd => exact Thins.panic _ _
  | .mut nd =>
    show Thins W 0 (if nd.val ≈ᵤ v then _ else _ : M V Unit)
    exact Thins.ite (Thins.pure _ _) (Thins.seq (Thins.putBare _ _ rfl) fun _ => dirtyAlloc_thins _)

theorem opSet_thins {W : Nat} (ty : Ty) (l : Loc) (v : V) : Thins W 0 (opSet ty l v) :=
  Thins.seq Thins.get fun s => Thins.ite (setCell_thins _ _ _) (Thins.panic _ _)

theorem cellTable_thins {W : Nat} (ty : Ty) (l : Loc) (v : V) (pu : Bool) : Thins W 0 (cellTable ty l v pu) := by
  intro s hs
  refine Thin.seq (Thins.get s hs) fun s0 s1 h0 _ => ?_
  cases h0
  rcases hg : s.table.get l with _ | n0
  · simp only [hg]
    exact Thins.seq (Thins.evBegin _ _ _) (fun _ => Thins.seq Thins.evEnd fun _ => Thins.putBare _ _ (by split <;> rfl)) s hs
  · simp only [hg]
    refine Thin.seq ((resNode_reads ty l).thins s hs) fun n s1 h1 hs1 => ?_
    refine Thins.seq (Thins.evBegin _ _ _) (fun _ => ?_) s1 hs1
    match n with
    | .mut nd => exact Thins.seq (setCell_thins ty l v) fun _ => Thins.evEnd
    | .comp nd =>
      exact Thins.seq (dirtyAlloc_thins l) fun _ => Thins.seq (revokeSuccs_thins l nd.succs) fun _ => Thins.evEnd
    | .pure nd => exact Thins.evEnd

theorem opCell_thins {W : Nat} (env : Env V) (ty : Ty) (nm : Name) (v : V) : Thins W 1 (opCell env ty nm v) := by
  refine Thins.seq Thins.get fun s => Thins.seq (cellTable_thins _ _ _ _) fun _ => Thins.bind (j := 1) (k := 0) ?_ fun _ => Thins.pure _ _
  unfold cellRecord
  exact Thins.ite (Thins.pure _ _) (Thins.recordEdge _ _)

theorem thunkStructural_thins {W : Nat} (env : Env V) (ty : Ty) (pp : ProgPt) (fn : FnId) (arg : V) :
    Thins W 1 (thunkStructural env ty pp fn arg) := by
  intro s hs
  refine Thin.seq (Thins.get s hs) fun s0 s1 h0 _ => ?_
  cases h0
  rcases hg : s.table.get (⟨s.path, .structural (env.hashApp pp arg)⟩ : Loc) with _ | n0
  · simp only [hg]
    exact Thins.bind (j := 1) (k := 0) (Thins.recordEdge _ _) (fun _ => Thins.seq (Thins.putBare _ _ rfl) fun _ => Thins.pure _ _) s hs
  · simp only [hg]
    exact Thins.pure _ _ s hs

theorem thunkNominal_thins {W : Nat} (ty : Ty) (nm : Name) (pp : ProgPt) (fn : FnId) (arg : V) :
    Thins W 1 (thunkNominal ty nm pp fn arg) := by
  intro s hs
  refine Thin.seq (Thins.get s hs) fun s0 s1 h0 _ => ?_
  cases h0
  rcases hg : s.table.get (⟨s.path, .nominal nm⟩ : Loc) with _ | n0
  · simp only [hg]
    exact Thins.seq (Thins.evBegin _ _ _) (fun _ => Thins.seq Thins.evEnd fun _ => Thins.bind (j := 1) (k := 0) (Thins.recordEdge _ _) fun _ =>
      Thins.seq (Thins.putBare _ _ rfl) fun _ => Thins.pure _ _) s hs
  · simp only [hg]
    refine Thin.seq ((resNode_reads ty _).thins s hs) fun n s1 h1 hs1 => ?_
    obtain ⟨rfl, h1, h2⟩ := resNode_inv h1
    match n with
    | .pure _ => exact hs1
    | .mut mn =>
      simp only []
      exact Thins.seq (Thins.evBegin _ _ _) (fun _ => Thins.seq (dirtyAlloc_thins _) fun _ =>
        Thins.seq Thins.evEnd fun _ => Thins.bind (j := 1) (k := 0) (Thins.recordEdge _ _) fun _ =>
        Thins.seq (Thins.putBare _ _ rfl) fun _ => Thins.pure _ _) _ hs1
    | .comp c =>
      simp only []
      by_cases hpp : c.pp = pp
      · rw [if_pos hpp]
        by_cases ha : c.arg ≈ᵤ arg
        · rw [if_pos ha]
          exact Thins.seq (Thins.evBegin _ _ _) (fun _ => Thins.seq Thins.evEnd fun _ =>
            Thins.bind (j := 1) (k := 0) (Thins.recordEdge _ _) fun _ => Thins.pure _ _) _ hs1
        · rw [if_neg ha]
          refine Thin.seq (Thin.put hs1 _ _ (show c.succs.length ≤ W from hs1.width _ _ h1)) fun _ s2 _ hs2 => ?_
          exact Thins.seq (Thins.evBegin _ _ _) (fun _ => Thins.seq (dirtyAlloc_thins _) fun _ => Thins.seq Thins.evEnd fun _ =>
            Thins.bind (j := 1) (k := 0) (Thins.recordEdge _ _) fun _ => Thins.pure _ _) s2 hs2
      · rw [if_neg hpp]; exact hs1

theorem opThunk_thins {W : Nat} (env : Env V) (ty : Ty) (nc : NameChoice) (pp : ProgPt) (fn : FnId) (arg : V) :
    Thins W 1 (opThunk env ty nc pp fn arg) := by
  refine Thins.seq Thins.get fun s => ?_
  match nc with
  | .eager => exact Thins.panic _ _
  | .naive => exact Thins.panic _ _
  | .structural => exact thunkStructural_thins _ _ _ _ _
  | .nominal nm => exact Thins.ite (thunkStructural_thins _ _ _ _ _) (thunkNominal_thins _ _ _ _ _)

/-- What the recursive calls guarantee. -/
structure RThins (env : Env V) (W : Nat) (R : Rec V) : Prop where
  produce : ∀ ty l, Thins W 0 (R.produce ty l)
  cleanForce : ∀ ty r l, Thins W 0 (R.cleanForce ty r l)
  run : ∀ d p, Demands env d p → Thins W d (R.run p)
  keep : ∀ p, KeepsW W (R.run p)

theorem opForce_thins {env : Env V} {W : Nat} {R : Rec V} (hR : RThins env W R) (ty : Ty) (l : Loc) (cyc : Option V) :
    Thins W 1 (opForce R ty l cyc) := by
  refine Thins.seq Thins.get fun s => Thins.seq (resNode_reads ty _).thins fun n => ?_
  have hrec : ∀ (c : Bool) (r : V), Thins W 1 (if c then (Pure.pure r : M V V) else do
      recordEdge ⟨false, l, .observe, .force ty r⟩ none; Pure.pure r) := fun c r =>
    Thins.ite (Thins.pure _ _) (Thins.bind (j := 1) (k := 0) (Thins.recordEdge _ _) fun _ => Thins.pure _ _)
  match n with
  | .pure nd => exact Thins.seq (Thins.evEff _ _ _) fun _ => Thins.pure _ _
  | .mut nd => exact Thins.seq (Thins.evEff _ _ _) fun _ => hrec _ _
  | .comp nd =>
    simp only []
    refine Thins.ite ?_ ?_
    · match cyc with
      | none => exact Thins.panic _ _
      | some out =>
        exact Thins.seq (Thins.evBegin _ _ _) fun _ => Thins.seq Thins.evEnd fun _ =>
          Thins.ite (Thins.pure _ _) (hrec _ _)
    · rcases hres : nd.res with _ | r
      · simp only []
        exact Thins.seq (Thins.evBegin _ _ _) fun _ => Thins.ite (Thins.panic _ _)
          (Thins.seq (hR.produce ty l) fun r => Thins.seq Thins.evEnd fun _ => Thins.ite (Thins.pure _ _) (hrec _ _))
      · simp only []
        refine Thins.seq (Thins.evBegin _ _ _) fun _ => Thins.seq (hR.cleanForce ty r l) fun b => Thins.seq Thins.evEnd fun _ =>
          Thins.seq (resNode_reads ty _).thins fun n' => ?_
        match n' with
        | .comp nd' =>
          rcases hr' : nd'.res with _ | r'
          · simp only [hr']; exact Thins.panic _ _
          · simp only [hr']; exact Thins.ite (Thins.pure _ _) (hrec _ _)
        | .mut _ => exact Thins.panic _ _
        | .pure _ => exact Thins.panic _ _

theorem opForceMap_thins {env : Env V} {W : Nat} {R : Rec V} (hR : RThins env W R) (ty : Ty) (l : Loc) (f : V → V) :
    Thins W 1 (opForceMap R ty l f) := by
  refine Thins.seq Thins.get fun s => Thins.seq (resNode_reads ty l).thins fun n => ?_
  match n with
  | .mut nd => exact Thins.seq (Thins.evEff _ _ _) fun _ => Thins.bind (j := 1) (k := 0) (Thins.recordEdge _ _) fun _ => Thins.pure _ _
  | .comp nd => exact Thins.bind (j := 1) (k := 0) (opForce_thins hR _ _ _) fun _ => Thins.pure _ _
  | .pure nd => exact Thins.bind (j := 1) (k := 0) (opForce_thins hR _ _ _) fun _ => Thins.pure _ _

theorem opForceAbs_thins {env : Env V} {W : Nat} {R : Rec V} (hR : RThins env W R) (ty : Ty) (l : Loc) (f : V → V) :
    Thins W 1 (opForceAbs R ty l f) := by
  refine Thins.seq Thins.get fun s => Thins.seq (resNode_reads ty l).thins fun n => ?_
  match n with
  | .mut nd => exact Thins.seq (Thins.evEff _ _ _) fun _ => Thins.bind (j := 1) (k := 0) (Thins.recordEdge _ _) fun _ => Thins.pure _ _
  | .comp nd => exact Thins.bind (j := 1) (k := 0) (opForce_thins hR _ _ _) fun _ => Thins.pure _ _
  | .pure nd => exact Thins.bind (j := 1) (k := 0) (opForce_thins hR _ _ _) fun _ => Thins.pure _ _

theorem runProg_thins (env : Env V) {W : Nat} {R : Rec V} (hR : RThins env W R) (d : Nat) (p : Prog V) (hp : Demands env d p) :
    Thins W d (runProg env R p) := by
  induction hp with
  | ret d v => exact Thins.pure _ _
  | force ty l cyc k _ ih => exact (Thins.bind (opForce_thins hR _ _ _) ih).wk
  | forceMap ty l f k _ ih => exact (Thins.bind (opForceMap_thins hR _ _ _) ih).wk
  | forceAbs ty l f k _ ih => exact (Thins.bind (opForceAbs_thins hR _ _ _) ih).wk
  | cell ty n v k _ ih => exact (Thins.bind (opCell_thins _ _ _ _) ih).wk
  | thunk ty nc pp fn arg k _ ih => exact (Thins.bind (opThunk_thins _ _ _ _ _ _) ih).wk
  | set ty l v k _ ih => exact Thins.seq (opSet_thins _ _ _) fun _ => ih
  | ns n body k _ _ ihb ih =>
    exact Thins.seq Thins.get fun s => Thins.seq (Thins.modify _ (fun _ => rfl) (fun _ => rfl)) fun _ =>
      Thins.bind ihb fun v => Thins.seq (Thins.modify _ (fun _ => rfl) (fun _ => rfl)) fun _ => ih v
  | structural body k _ _ ihb ih =>
    exact Thins.seq Thins.get fun s => Thins.seq (Thins.modify _ (fun _ => rfl) (fun _ => rfl)) fun _ =>
      Thins.bind ihb fun v => Thins.seq (Thins.modify _ (fun _ => rfl) (fun _ => rfl)) fun _ => ih v
  | call fn arg k h1 _ _ ih => exact Thins.bind (hR.run _ _ h1) ih
  | panic d => exact Thins.panic _ _

theorem runProg_keeps (env : Env V) {W : Nat} {R : Rec V} (hR : RThins env W R) (p : Prog V) : KeepsW W (runProg env R p) := by
  induction p with
  | ret v => exact KeepsW.pure _
  | force ty l cyc k ih => exact KeepsW.bind (opForce_thins hR _ _ _).keeps ih
  | forceMap ty l f k ih => exact KeepsW.bind (opForceMap_thins hR _ _ _).keeps ih
  | forceAbs ty l f k ih => exact KeepsW.bind (opForceAbs_thins hR _ _ _).keeps ih
  | cell ty n v k ih => exact KeepsW.bind (opCell_thins _ _ _ _).keeps ih
  | thunk ty nc pp fn arg k ih => exact KeepsW.bind (opThunk_thins _ _ _ _ _ _).keeps ih
  | set ty l v k ih => exact KeepsW.bind (opSet_thins _ _ _).keeps fun _ => ih
  | ns n body k ihb ih =>
    exact KeepsW.bind KeepsW.get fun s => KeepsW.bind (KeepsW.modify _ (fun _ => rfl)) fun _ =>
      KeepsW.bind ihb fun v => KeepsW.bind (KeepsW.modify _ (fun _ => rfl)) fun _ => ih v
  | structural body k ihb ih =>
    exact KeepsW.bind KeepsW.get fun s => KeepsW.bind (KeepsW.modify _ (fun _ => rfl)) fun _ =>
      KeepsW.bind ihb fun v => KeepsW.bind (KeepsW.modify _ (fun _ => rfl)) fun _ => ih v
  | call fn arg k ih => exact KeepsW.bind (hR.keep _) ih
  | panic => exact KeepsW.panic _

theorem installPreds_thins {W : Nat} (l : Loc) (es : List (Succ V × Option (Dep V))) : Thins W 0 (installPreds l es) := by
  induction es with
  | nil => exact Thins.pure _ _
  | cons q es ih =>
    obtain ⟨e, d⟩ := q
    refine Thins.seq (Thins.ite (Thins.panic _ _) fun s hs => ?_) fun _ => ih
    refine Thin.seq ((lookupAbs_reads _).thins s hs) fun n s' h hs' => ?_
    obtain ⟨rfl, h⟩ := lookupAbs_inv h
    match n with
    | .comp nd => exact Thin.put hs' _ _ (show nd.succs.length ≤ W from hs'.width _ _ h)
    | .mut nd => exact Thin.put hs' _ _ (Nat.zero_le _)
    | .pure nd => exact hs'

theorem produceBody_thins (env : Env V) {W : Nat} {R : Rec V} (hR : RThins env W R) (hG : RGen R)
    (he : ∀ fn a, Demands env W (env.code fn a)) (ty : Ty) (l : Loc) : Thins W 0 (produceBody env R ty l) := by
  have key : KeepsW W (produceBody env R ty l) := by
    refine KeepsW.bind (resNode_reads ty l).thins.keeps fun n => ?_
    match n with
    | .mut _ => exact KeepsW.panic _
    | .pure _ => exact KeepsW.panic _
    | .comp nd =>
      refine KeepsW.bind (Thins.putBare _ _ rfl).keeps fun _ => KeepsW.bind (revokeSuccs_thins l nd.succs).keeps fun _ => ?_
      intro s3 hs3
      rw [M.bind_ok (M.get_def s3), M.bind_ok (m := M.modify _) rfl]
      have hs4 : Fits W ({ s3 with stack := ⟨l, []⟩ :: s3.stack, path := l.path } : St V) := hs3.same rfl
      have hlen : topLen ({ s3 with stack := ⟨l, []⟩ :: s3.stack, path := l.path } : St V) = 0 := rfl
      generalize ({ s3 with stack := ⟨l, []⟩ :: s3.stack, path := l.path } : St V) = s4 at hs4 hlen
      rw [M.bind_def]
      rcases hrn : resNode ty l s4 with ⟨n5, s5⟩ | ⟨e, s5⟩ | _
      · obtain ⟨rfl, -, -⟩ := resNode_inv hrn
        simp only []
        match n5 with
        | .mut _ => exact hs4
        | .pure _ => exact hs4
        | .comp nd5 =>
          simp only []
          rw [M.bind_ok (m := M.modify _) rfl, M.bind_def]
          have hrun := hR.run W (env.code nd5.fn nd5.arg) (he _ _) { s5 with runs := l :: s5.runs } (hs4.same rfl)
          revert hrun
          generalize R.run (env.code nd5.fn nd5.arg) { s5 with runs := l :: s5.runs } = o
          intro hrun
          match o with
          | .oof => trivial
          | .panic e s6 => exact hrun
          | .ok res s6 =>
            obtain ⟨h6, hl6⟩ := hrun
            have hl6 : topLen s6 ≤ topLen s5 + W := hl6
            simp only []
            rw [M.bind_ok (m := M.modify _) rfl, M.bind_ok (M.get_def _)]
            rcases hst : s6.stack with _ | ⟨fr, K⟩
            · exact h6.same rfl
            · have hfr : fr.succs.length ≤ W := by unfold topLen at hl6; rw [hst] at hl6; unfold topLen at hlen; simp only [] at hl6; omega
              simp only []
              rw [M.bind_ok (m := M.modify _) rfl]
              by_cases hfrl : fr.loc = l
              · rw [if_pos hfrl]
                refine KeepsW.bind (installPreds_thins l fr.succs).keeps (fun _ => KeepsW.bind (resNode_reads ty l).thins.keeps fun n9 => ?_) _ (h6.same rfl)
                match n9 with
                | .mut _ => exact KeepsW.panic _
                | .pure _ => exact KeepsW.panic _
                | .comp nd9 => exact KeepsW.bind (fun s hs => hs.put _ _ (by simp only [Node.succsList, List.length_map]; exact hfr)) fun _ => KeepsW.pure _
              · rw [if_neg hfrl]; exact h6.same rfl
      · have := (resNode_reads ty l).thins (W := W) s4 hs4
        rw [hrn] at this
        exact this
      · trivial
  intro s hs
  have h1 := key s hs
  have h2 := produceBody_gen env hG ty l s
  revert h1 h2
  generalize produceBody env R ty l s = o
  intro h1 h2
  match o with
  | .ok a s' => exact ⟨h1, by unfold topLen; rw [(show Ok true 0 0 s s' from h2).stackEq]; exact Nat.le_refl _⟩
  | .panic _ _ => exact h1
  | .oof => trivial

theorem cleanDep_thins {env : Env V} {W : Nat} {R : Rec V} (hR : RThins env W R) (d : Dep V) (l : Loc) : Thins W 0 (cleanDep R d l) := by
  match d with
  | .allocStruct => exact Thins.pure _ _
  | .allocNom _ => exact Thins.pure _ _
  | .allocCell _ => exact Thins.pure _ _
  | .force ty res => exact hR.cleanForce _ _ _
  | .forceMap ty f res => exact (checkForceMapDep_reads _ _ _ _).thins
  | .forceAbs => exact Thins.pure _ _

theorem cleanLoop_thins {env : Env V} {W : Nat} {R : Rec V} (hR : RThins env W R) (ty : Ty) (res : V) (l : Loc) (es : List (Succ V)) :
    Thins W 0 (cleanLoop R ty res l es) := by
  induction es with
  | nil => exact Thins.pure _ _
  | cons e es ih =>
    refine Thins.seq (succDirty_reads _ _ _).thins fun d => Thins.ite ?_ ih
    refine Thins.seq (Thins.evBegin _ _ _) fun _ => Thins.seq (cleanDep_thins hR _ _) fun ch => Thins.ite ?_ ?_
    · exact Thins.seq (Thins.evBegin _ _ _) fun _ => Thins.seq (hR.produce _ _) fun _ =>
        Thins.seq Thins.evEnd fun _ => Thins.seq Thins.evEnd fun _ => Thins.pure _ _
    · exact Thins.seq (setSuccDirty_thins _ _ _ _) fun _ => Thins.seq (Thins.evEff _ _ _) fun _ =>
        Thins.seq Thins.evEnd fun _ => ih

theorem cleanForceBody_thins {env : Env V} {W : Nat} {R : Rec V} (hR : RThins env W R) (ty : Ty) (res : V) (l : Loc) :
    Thins W 0 (cleanForceBody R ty res l) := by
  refine Thins.seq (resNode_reads _ _).thins fun n => ?_
  match n with
  | .pure _ => exact Thins.pure _ _
  | .mut _ => exact Thins.pure _ _
  | .comp nd =>
    show Thins W 0 (match nd.res with | some cache => _ | none => _)
    rcases nd.res with _ | cache
    · exact Thins.seq (Thins.evBegin _ _ _) fun _ => Thins.seq (hR.produce _ _) fun _ =>
        Thins.seq Thins.evEnd fun _ => Thins.pure _ _
    · refine Thins.seq (cleanLoop_thins hR _ _ _ _) fun r => ?_
      match r with
      | some ch => exact Thins.pure _ _
      | none => exact Thins.pure _ _

theorem recN_thins (env : Env V) (W : Nat) (he : ∀ fn a, Demands env W (env.code fn a)) : ∀ n, RThins env W (recN env n)
  | 0 => ⟨fun _ _ _ _ => trivial, fun _ _ _ _ _ => trivial, fun _ _ _ _ _ => trivial, fun _ _ _ => trivial⟩
  | n + 1 => ⟨produceBody_thins env (recN_thins env W he n) (recN_gen env n) he, cleanForceBody_thins (recN_thins env W he n),
      runProg_thins env (recN_thins env W he n), runProg_keeps env (recN_thins env W he n)⟩

theorem runSession_keeps (env : Env V) (W : Nat) (he : ∀ fn a, Demands env W (env.code fn a)) (n : Nat) (ps : List (Prog V)) :
    KeepsW W (runSession env n ps) := by
  induction ps with
  | nil => exact KeepsW.pure _
  | cons p ps ih => exact KeepsW.bind (runProg_keeps env (recN_thins env W he n) p) fun _ => KeepsW.bind ih fun _ => KeepsW.pure _

end Adapton
