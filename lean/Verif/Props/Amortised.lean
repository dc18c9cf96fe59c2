import Verif.Props.Dirtying
import Verif.Engine.Stay
/-
C91: the total cost of dirtying.  Dirtying one location may walk over many edges (C07 bounds it by the number of clean edges), but over a whole history each walk over an edge is paid for by the
force or allocation that recorded the edge, or by the cleaning that made it clean again.  For every program, every history, also those that end in a panic, and every state.
-/
set_option linter.unusedSectionVars false
set_option linter.unusedVariables false
set_option linter.unusedSimpArgs false
namespace Adapton
variable {V α β : Type} [UEq V]

/-! ### Specification: what is counted in the trace -/

/-- The forces and allocations made by thunks (not those of the editor). -/
def demands : List Ev → Nat
  | [] => 0
  | .begin (.force _) (some _) _ :: es => demands es + 1
  | .eff (.force _) (some _) _ :: es => demands es + 1
  | .begin (.alloc _ _) (some _) _ :: es => demands es + 1
  | _ :: es => demands es

/-- The edges recorded by the thunks that are running. -/
def pending : List (Frame V) → Nat
  | [] => 0
  | fr :: K => fr.succs.length + pending K

/-! ### Proofs -/

/-- What has been walked over, or could still be. -/
def debt (s : St V) : Nat := dirtyVisits s.log + tableClean s.table + pending s.stack
/-- What pays for it. -/
def work (s : St V) : Nat := demands s.log + cleanings s.log + structurals s.table
/-- Is a thunk running? -/
def busy (s : St V) : Nat := if s.stack = [] then 0 else 1

/-- A step that starts with `i` edges paid in advance and ends with `j`. -/
def PaysTo (i j : Nat) (s s' : St V) : Prop := debt s' + work s + j * busy s' ≤ debt s + work s' + i * busy s

/-- The outcome: after a panic what was paid in advance is lost. -/
def PRes (i j : Nat) (s : St V) : Out V α → Prop
  | .ok _ s' => s'.stack.length = s.stack.length ∧ PaysTo i j s s'
  | .panic _ s' => PaysTo i 0 s s'
  | .oof => True
def Pays (i j : Nat) (m : M V α) : Prop := ∀ s, PRes i j s (m s)

theorem busy_eq {s s' : St V} (h : s'.stack.length = s.stack.length) : busy s' = busy s := by
  unfold busy
  rcases h1 : s.stack with _ | _ <;> rcases h2 : s'.stack with _ | _ <;> simp [h1, h2] at h ⊢

theorem PRes.bind {i j k : Nat} {m : M V α} {f : α → M V β} {s : St V} (h1 : PRes i j s (m s))
    (h2 : ∀ a s', m s = .ok a s' → PRes j k s' (f a s')) : PRes i k s ((m >>= f) s) := by
  rw [M.bind_def]
  rcases hm : m s with ⟨a, s'⟩ | ⟨e, s'⟩ | _
  · rw [hm] at h1
    have h3 := h2 a s' hm
    simp only []
    obtain ⟨g1, g2⟩ := h1
    unfold PaysTo at g2
    rcases hf : f a s' with ⟨b, s2⟩ | ⟨e, s2⟩ | _
    · rw [hf] at h3
      obtain ⟨g3, g4⟩ := h3
      unfold PaysTo at g4
      exact ⟨g3.trans g1, by unfold PaysTo; omega⟩
    · rw [hf] at h3
      have h3 : PaysTo j 0 s' s2 := h3
      unfold PaysTo at h3
      show PaysTo i 0 s s2
      unfold PaysTo; omega
    · trivial
  · rw [hm] at h1; exact h1
  · trivial

theorem PRes.wk {i j i' j' : Nat} {s : St V} {o : Out V α} (h : PRes i j s o) (hi : i + j' ≤ i' + j) (hi2 : i ≤ i') : PRes i' j' s o := by
  match o with
  | .ok a s' =>
    obtain ⟨h1, h2⟩ := h
    refine ⟨h1, ?_⟩
    unfold PaysTo at *
    rw [busy_eq h1] at *
    have hb : busy s = 0 ∨ busy s = 1 := by unfold busy; split <;> simp
    rcases hb with hb | hb <;> rw [hb] at h2 ⊢ <;> omega
  | .panic e s' =>
    have h : PaysTo i 0 s s' := h
    show PaysTo i' 0 s s'
    unfold PaysTo at *
    have hb : busy s = 0 ∨ busy s = 1 := by unfold busy; split <;> simp
    rcases hb with hb | hb <;> rw [hb] at h ⊢ <;> omega
  | .oof => trivial

theorem Pays.wk {i j i' j' : Nat} {m : M V α} (h : Pays i j m) (hi : i + j' ≤ i' + j := by omega) (hi2 : i ≤ i' := by omega) :
    Pays i' j' m := fun s => (h s).wk hi hi2
theorem Pays.bind {i j k : Nat} {m : M V α} {f : α → M V β} (h1 : Pays i j m) (h2 : ∀ a, Pays j k (f a)) : Pays i k (m >>= f) :=
  fun s => PRes.bind (h1 s) fun a s' _ => h2 a s'
theorem PaysTo.refl (s : St V) : PaysTo 0 0 s s := Nat.le_refl _
theorem PRes.refl (a : α) (s : St V) : PRes 0 0 s (.ok a s) := ⟨rfl, PaysTo.refl s⟩
theorem Pays.pure (i : Nat) (a : α) : Pays i i (Pure.pure a : M V α) := Pays.wk (i := 0) (j := 0) fun s => PRes.refl a s
theorem Pays.drop (i : Nat) (a : α) : Pays i 0 (Pure.pure a : M V α) := Pays.wk (i := 0) (j := 0) fun s => PRes.refl a s
theorem Pays.panic (i j : Nat) (e : Err) : Pays i j (M.panic e : M V α) := by
  intro s
  show PaysTo i 0 s s
  unfold PaysTo; omega
theorem Pays.get (i : Nat) : Pays i i (M.get : M V (St V)) := Pays.wk (i := 0) (j := 0) fun s => PRes.refl s s
theorem Pays.ite {i j : Nat} {c : Prop} [Decidable c] {m1 m2 : M V α} (h1 : Pays i j m1) (h2 : Pays i j m2) :
    Pays i j (if c then m1 else m2) := by
  split
  · exact h1
  · exact h2
theorem Reads.pays {m : M V α} (h : Reads m) (i : Nat) : Pays i i m := by
  refine Pays.wk (i := 0) (j := 0) fun s => ?_
  rcases h s with ⟨a, h⟩ | ⟨e, h⟩
  · rw [h]; exact PRes.refl a s
  · rw [h]; exact PaysTo.refl s

theorem demands_mono (evs l : List Ev) : demands l ≤ demands (evs ++ l) := by
  induction evs with
  | nil => exact Nat.le_refl _
  | cons e evs ih =>
    refine Nat.le_trans ih ?_
    show demands (evs ++ l) ≤ demands (e :: (evs ++ l))
    generalize evs ++ l = r
    cases e with
    | «begin» e a b => cases e <;> cases a <;> first | exact Nat.le_refl _ | exact Nat.le_succ _
    | end_ => exact Nat.le_refl _
    | eff e a b => cases e <;> cases a <;> first | exact Nat.le_refl _ | exact Nat.le_succ _
theorem tableClean_insert (t : Table V) (l : Loc) (n : Node V) (h : t.get l = none) : tableClean (t.put l n) = tableClean t + cleanCount n.succsList := by
  induction t with
  | nil => simp [Table.put, tableClean]
  | cons hd tl ih =>
    obtain ⟨k, m⟩ := hd
    simp only [Table.get] at h
    simp only [Table.put]
    split
    · rename_i hk; simp only [hk, if_true] at h; cases h
    · rename_i hk
      simp only [hk, if_false] at h
      simp only [tableClean, ih h]; omega
/-- Writing a node with `k` clean edges. -/
theorem tableClean_put_le (t : Table V) (l : Loc) (n : Node V) : tableClean (t.put l n) ≤ tableClean t + cleanCount n.succsList := by
  rcases h : t.get l with _ | m
  · exact Nat.le_of_eq (tableClean_insert t l n h)
  · have := tableClean_put t l m n h; omega

/-- Writing a node without edges. -/
theorem putBare_pays (l : Loc) (n : Node V) (h : n.succsList = []) : Pays 0 0 (putNode l n) := by
  intro s
  refine ⟨rfl, ?_⟩
  have h1 := tableClean_put_le s.table l n
  have h2 := structurals_put s.table l n
  rw [h] at h1
  simp only [cleanCount] at h1
  unfold PaysTo debt work
  show dirtyVisits s.log + tableClean (s.table.put l n) + pending s.stack + _ + _ ≤ _ + (demands s.log + cleanings s.log + structurals (s.table.put l n)) + _
  omega
/-- Writing back a node with the same edges. -/
theorem putSame_pays {l : Loc} {n n' : Node V} {s : St V} (hg : s.table.get l = some n) (h : n'.succsList = n.succsList) :
    PRes 0 0 s (putNode l n' s) := by
  refine ⟨rfl, ?_⟩
  have h1 := tableClean_put s.table l n n' hg
  have h2 := structurals_put s.table l n'
  rw [h] at h1
  unfold PaysTo debt work
  show dirtyVisits s.log + tableClean (s.table.put l n') + pending s.stack + _ + _ ≤ _ + (demands s.log + cleanings s.log + structurals (s.table.put l n')) + _
  omega

/-- Events that are not counted, or pay. -/
theorem Pays.ev (e : Ev) (h : dirtyVisits [e] = 0) : Pays (V := V) 0 0 (M.modify fun s => { s with log := e :: s.log }) := by
  intro s
  refine ⟨rfl, ?_⟩
  have h1 : dirtyVisits (e :: s.log) = dirtyVisits s.log := by
    revert h
    cases e with
    | «begin» e a b => cases e <;> intro h <;> first | rfl | (simp [dirtyVisits] at h)
    | end_ => intro _; rfl
    | eff e a b => intro _; rfl
  have h2 := demands_mono [e] s.log
  have h3 := cleanings_mono [e] s.log
  simp only [List.cons_append, List.nil_append] at h2 h3
  unfold PaysTo debt work
  show dirtyVisits (e :: s.log) + tableClean s.table + pending s.stack + _ + _ ≤ _ + (demands (e :: s.log) + cleanings (e :: s.log) + structurals s.table) + _
  omega
theorem Pays.evEnd : Pays (V := V) 0 0 evEnd := Pays.ev _ rfl
theorem Pays.evBegin (e : TEff) (src : Option Loc) (tgt : Loc) (h : e ≠ .dirty) : Pays (V := V) 0 0 (evBegin e src tgt) :=
  Pays.ev _ (by cases e <;> first | rfl | exact absurd rfl h)
theorem Pays.evEff (e : TEff) (src : Option Loc) (tgt : Loc) : Pays (V := V) 0 0 (evEff e src tgt) := Pays.ev _ rfl

/-- An event of a thunk that pays for one edge. -/
theorem PRes.demand {s s0 : St V} (tgt : Loc) (e : Option Loc → Ev) (h0 : s0.stack = s.stack)
    (h : ∀ l, demands (e (some l) :: s.log) = demands s.log + 1) (h1 : ∀ x, dirtyVisits (e x :: s.log) = dirtyVisits s.log)
    (h2 : ∀ x, demands s.log ≤ demands (e x :: s.log)) (h3 : ∀ x, cleanings s.log ≤ cleanings (e x :: s.log)) :
    PRes 0 1 s (M.modify (fun s => { s with log := e (topLoc s0) :: s.log }) s) := by
  refine ⟨rfl, ?_⟩
  have g1 := h1 (topLoc s0)
  have g2 := h2 (topLoc s0)
  have g3 := h3 (topLoc s0)
  unfold PaysTo debt work busy
  show dirtyVisits (e (topLoc s0) :: s.log) + tableClean s.table + pending s.stack + _ + 1 * (if s.stack = [] then 0 else 1) ≤
    _ + (demands (e (topLoc s0) :: s.log) + cleanings (e (topLoc s0) :: s.log) + structurals s.table) + _
  rcases hs : s.stack with _ | ⟨fr, K⟩
  · simp only [if_true]; omega
  · have : topLoc s0 = some fr.loc := by unfold topLoc; rw [h0, hs]; rfl
    rw [this] at g1 g2 g3 ⊢
    have g4 := h fr.loc
    simp only [reduceCtorEq, if_false]
    omega
theorem PRes.forceBegin {s s0 : St V} (c : ForceCase) (tgt : Loc) (h0 : s0.stack = s.stack) :
    PRes 0 1 s (evBegin (.force c) (topLoc s0) tgt s) :=
  PRes.demand tgt (fun x => .begin (.force c) x tgt) h0 (fun _ => rfl) (fun _ => rfl) (fun x => demands_mono [_] _) (fun x => cleanings_mono [_] _)
theorem PRes.forceEff {s s0 : St V} (c : ForceCase) (tgt : Loc) (h0 : s0.stack = s.stack) :
    PRes 0 1 s (Adapton.evEff (.force c) (topLoc s0) tgt s) :=
  PRes.demand tgt (fun x => .eff (.force c) x tgt) h0 (fun _ => rfl) (fun _ => rfl) (fun x => demands_mono [_] _) (fun x => cleanings_mono [_] _)
theorem PRes.allocBegin {s s0 : St V} (c : AllocCase) (k : AllocKind) (tgt : Loc) (h0 : s0.stack = s.stack) :
    PRes 0 1 s (evBegin (.alloc c k) (topLoc s0) tgt s) :=
  PRes.demand tgt (fun x => .begin (.alloc c k) x tgt) h0 (fun _ => rfl) (fun _ => rfl) (fun x => demands_mono [_] _) (fun x => cleanings_mono [_] _)

/-- Recording an edge uses one payment. -/
theorem Pays.recordEdge (e : Succ V) (d : Option (Dep V)) : Pays 1 0 (recordEdge e d) := by
  intro s
  unfold Adapton.recordEdge
  rw [M.modify_def]
  rcases hs : s.stack with _ | ⟨fr, K⟩
  · refine ⟨by simp [hs], ?_⟩
    unfold PaysTo; simp only [hs]; omega
  · refine ⟨by simp [hs], ?_⟩
    unfold PaysTo debt work busy
    simp only [hs, pending, List.length_append, List.length_cons, List.length_nil, reduceCtorEq, if_false]
    omega

/-- Dirtying pays for itself. -/
theorem dirtyAlloc_pays (l : Loc) : Pays (V := V) 0 0 (dirtyAlloc l) := by
  intro s
  have h1 := dirtyAlloc_vis l s
  have h2 := (dirtyAlloc_gen false 0 l : Gen false 0 0 (dirtyAlloc l : M V Unit)).logs s
  have key : ∀ s' : St V, VisR s s' → (∃ evs, s'.log = evs ++ s.log) → s'.stack.length = s.stack.length ∧ PaysTo 0 0 s s' := by
    rintro s' h ⟨evs, he⟩
    refine ⟨by rw [h.up.stack], ?_⟩
    have g1 := demands_mono evs s.log
    have g2 := cleanings_mono evs s.log
    have g3 := h.cnt
    unfold PaysTo debt work
    have g4 : structurals s'.table = structurals s.table := by unfold structurals; rw [h.keys]
    rw [h.up.stack, g4]
    rw [← he] at g1 g2
    omega
  revert h1 h2
  generalize dirtyAlloc l s = o
  intro h1 h2
  match o with
  | .ok a s' => exact key s' h1 h2.1
  | .panic e s' => exact (key s' h1 h2.1).2
  | .oof => trivial

theorem removePred_pays (src tgt : Loc) : Pays (V := V) 0 0 (removePred src tgt) := by
  refine Pays.bind (Pays.evEff _ _ _) fun _ s => ?_
  refine PRes.bind ((lookupAbs_reads tgt).pays 0 s) fun n s' h => ?_
  obtain ⟨rfl, h⟩ := lookupAbs_inv h
  match n with
  | .comp nd => exact putSame_pays h rfl
  | .mut nd => exact putSame_pays h rfl
  | .pure nd => exact Pays.panic 0 0 _ _
theorem revokeSuccs_pays (src : Loc) (es : List (Succ V)) : Pays 0 0 (revokeSuccs src es) := by
  induction es with
  | nil => exact Pays.pure _ _
  | cons e es ih => exact Pays.bind (removePred_pays _ _) fun _ => ih

theorem setCell_pays (ty : Ty) (l : Loc) (v : V) : Pays 0 0 (setCell ty l v) := by
  refine Pays.bind ((resNode_reads ty l).pays 0) fun n => ?_
  match n with
  | .comp nd => exact Pays.panic _ _ _
  | .pure nd => exact Pays.panic _ _ _
  | .mut nd =>
    show Pays 0 0 (if nd.val ≈ᵤ v then _ else _ : M V Unit)
    exact Pays.ite (Pays.pure _ _) (Pays.bind (putBare_pays _ _ rfl) fun _ => dirtyAlloc_pays _)
theorem opSet_pays (ty : Ty) (l : Loc) (v : V) : Pays 0 0 (opSet ty l v) :=
  Pays.bind (Pays.get _) fun s => Pays.ite (setCell_pays _ _ _) (Pays.panic _ _ _)

/-- The same with a payment kept. -/
theorem Pays.keep {m : M V α} (h : Pays 0 0 m) : Pays 1 1 m := h.wk

theorem cellTable_pays (ty : Ty) (l : Loc) (v : V) (pu : Bool) : Pays 0 1 (cellTable ty l v pu) := by
  intro s
  refine PRes.bind (PRes.refl s s) fun s0 s1 h0 => ?_
  cases h0
  rcases hg : s.table.get l with _ | n0
  · simp only [hg]
    refine PRes.bind (PRes.allocBegin _ _ _ rfl) fun _ s1 h1 => ?_
    refine Pays.bind Pays.evEnd.keep (fun _ => (putBare_pays _ _ ?_).keep) _
    split <;> rfl
  · simp only [hg]
    refine PRes.bind ((resNode_reads ty l).pays 0 s) fun n s1 h1 => ?_
    obtain ⟨rfl, h1, h2⟩ := resNode_inv h1
    refine PRes.bind (PRes.allocBegin _ _ _ rfl) fun _ s2 _ => ?_
    match n with
    | .mut nd => exact Pays.bind (setCell_pays ty l v).keep (fun _ => Pays.evEnd.keep) s2
    | .comp nd =>
      exact Pays.bind (dirtyAlloc_pays l).keep (fun _ => Pays.bind (revokeSuccs_pays l nd.succs).keep fun _ => Pays.evEnd.keep) s2
    | .pure nd => exact Pays.evEnd.keep s2
theorem opCell_pays (env : Env V) (ty : Ty) (nm : Name) (v : V) : Pays 0 0 (opCell env ty nm v) := by
  refine Pays.bind (Pays.get _) fun s => Pays.bind (cellTable_pays _ _ _ _) fun _ => Pays.bind (j := 0) ?_ fun _ => Pays.pure _ _
  unfold cellRecord
  exact Pays.ite (Pays.drop _ _) (Pays.recordEdge _ _)

theorem thunkStructural_pays (env : Env V) (ty : Ty) (pp : ProgPt) (fn : FnId) (arg : V) : Pays 0 0 (thunkStructural env ty pp fn arg) := by
  intro s
  refine PRes.bind (PRes.refl s s) fun s0 s1 h0 => ?_
  cases h0
  rcases hg : s.table.get (⟨s.path, .structural (env.hashApp pp arg)⟩ : Loc) with _ | n0
  · simp only [hg]
    have h1 := structurals_insert s.table s.path (env.hashApp pp arg) (.comp ⟨ty, [], [], pp, fn, arg, none⟩ : Node V) hg
    have h2 := tableClean_insert s.table ⟨s.path, .structural (env.hashApp pp arg)⟩ (.comp ⟨ty, [], [], pp, fn, arg, none⟩ : Node V) hg
    simp only [Node.succsList, cleanCount] at h2
    unfold Adapton.recordEdge putNode
    rw [M.bind_def, M.modify_def]
    rcases hs : s.stack with _ | ⟨fr, K⟩
    · refine ⟨by simp [hs], ?_⟩
      unfold PaysTo debt work busy
      simp only [hs, pending, if_true]
      omega
    · refine ⟨by simp [hs], ?_⟩
      unfold PaysTo debt work busy
      simp only [hs, pending, List.length_append, List.length_cons, List.length_nil, reduceCtorEq, if_false]
      omega
  · simp only [hg]; exact PRes.refl _ _

theorem thunkNominal_pays (ty : Ty) (nm : Name) (pp : ProgPt) (fn : FnId) (arg : V) : Pays 0 0 (thunkNominal ty nm pp fn arg) := by
  intro s
  refine PRes.bind (PRes.refl s s) fun s0 s1 h0 => ?_
  cases h0
  rcases hg : s.table.get (⟨s.path, .nominal nm⟩ : Loc) with _ | n0
  · simp only [hg]
    refine PRes.bind (PRes.allocBegin _ _ _ rfl) fun _ s1 h1 => ?_
    exact Pays.bind Pays.evEnd.keep (fun _ => Pays.bind (Pays.recordEdge _ _) fun _ => Pays.bind (putBare_pays _ _ rfl) fun _ => Pays.pure _ _) _
  · simp only [hg]
    refine PRes.bind ((resNode_reads ty _).pays 0 s) fun n s1 h1 => ?_
    obtain ⟨rfl, h1, h2⟩ := resNode_inv h1
    match n with
    | .pure _ => exact Pays.panic _ _ _ _
    | .mut mn =>
      simp only []
      refine PRes.bind (PRes.allocBegin _ _ _ rfl) fun _ s2 _ => ?_
      exact Pays.bind (dirtyAlloc_pays _).keep (fun _ => Pays.bind Pays.evEnd.keep fun _ => Pays.bind (Pays.recordEdge _ _) fun _ =>
        Pays.bind (putBare_pays _ _ rfl) fun _ => Pays.pure _ _) _
    | .comp c =>
      simp only []
      by_cases hpp : c.pp = pp
      · rw [if_pos hpp]
        by_cases ha : c.arg ≈ᵤ arg
        · rw [if_pos ha]
          refine PRes.bind (PRes.allocBegin _ _ _ rfl) fun _ s2 _ => ?_
          exact Pays.bind Pays.evEnd.keep (fun _ => Pays.bind (Pays.recordEdge _ _) fun _ => Pays.pure _ _) _
        · rw [if_neg ha]
          refine PRes.bind (putSame_pays h1 rfl) fun _ s2 h2 => ?_
          cases h2
          refine PRes.bind (PRes.allocBegin _ _ _ rfl) fun _ s2 _ => ?_
          exact Pays.bind (dirtyAlloc_pays _).keep (fun _ => Pays.bind Pays.evEnd.keep fun _ => Pays.bind (Pays.recordEdge _ _) fun _ => Pays.pure _ _) _
      · rw [if_neg hpp]; exact Pays.panic _ _ _ _

theorem opThunk_pays (env : Env V) (ty : Ty) (nc : NameChoice) (pp : ProgPt) (fn : FnId) (arg : V) :
    Pays 0 0 (opThunk env ty nc pp fn arg) := by
  refine Pays.bind (Pays.get _) fun s => ?_
  match nc with
  | .eager => exact Pays.panic _ _ _
  | .naive => exact Pays.panic _ _ _
  | .structural => exact thunkStructural_pays _ _ _ _ _
  | .nominal nm => exact Pays.ite (thunkStructural_pays _ _ _ _ _) (thunkNominal_pays _ _ _ _ _)

/-- What the recursive calls guarantee. -/
structure RPays (R : Rec V) : Prop where
  produce : ∀ ty l, Pays 0 0 (R.produce ty l)
  cleanForce : ∀ ty r l, Pays 0 0 (R.cleanForce ty r l)
  run : ∀ p, Pays 0 0 (R.run p)

theorem opForce_pays {R : Rec V} (hR : RPays R) (ty : Ty) (l : Loc) (cyc : Option V) : Pays 0 0 (opForce R ty l cyc) := by
  intro s
  refine PRes.bind (PRes.refl s s) fun s0 s1 h0 => ?_
  cases h0
  refine PRes.bind ((resNode_reads ty _).pays 0 s) fun n s1 h1 => ?_
  obtain ⟨rfl, -, -⟩ := resNode_inv h1
  have hrec : ∀ (c : Bool) (r : V), Pays 1 0 (if c then (Pure.pure r : M V V) else do
      recordEdge ⟨false, l, .observe, .force ty r⟩ none; Pure.pure r) := fun c r =>
    Pays.ite (Pays.drop _ _) (Pays.bind (Pays.recordEdge _ _) fun _ => Pays.pure _ _)
  match n with
  | .pure nd => exact PRes.bind (PRes.forceEff _ _ rfl) fun _ s2 _ => Pays.drop _ _ s2
  | .mut nd => exact PRes.bind (PRes.forceEff _ _ rfl) fun _ s2 _ => hrec _ _ s2
  | .comp nd =>
    simp only []
    split
    · match cyc with
      | none => exact Pays.panic _ _ _ _
      | some out =>
        exact PRes.bind (PRes.forceBegin _ _ rfl) fun _ s2 _ => Pays.bind Pays.evEnd.keep (fun _ =>
          Pays.ite (Pays.drop _ _) (hrec _ _)) s2
    · rcases hres : nd.res with _ | r
      · simp only []
        exact PRes.bind (PRes.forceBegin _ _ rfl) fun _ s2 _ => Pays.ite (Pays.panic _ _ _)
          (Pays.bind (hR.produce ty l).keep fun r => Pays.bind Pays.evEnd.keep fun _ => Pays.ite (Pays.drop _ _) (hrec _ _)) s2
      · simp only []
        refine PRes.bind (PRes.forceBegin _ _ rfl) fun _ s2 _ => Pays.bind (hR.cleanForce ty r l).keep (fun b => Pays.bind Pays.evEnd.keep fun _ =>
          Pays.bind ((resNode_reads ty _).pays 1) fun n' => ?_) s2
        match n' with
        | .comp nd' =>
          rcases hr' : nd'.res with _ | r'
          · simp only [hr']; exact Pays.panic _ _ _
          · simp only [hr']; exact Pays.ite (Pays.drop _ _) (hrec _ _)
        | .mut _ => exact Pays.panic _ _ _
        | .pure _ => exact Pays.panic _ _ _

theorem opForceMap_pays {R : Rec V} (hR : RPays R) (ty : Ty) (l : Loc) (f : V → V) : Pays 0 0 (opForceMap R ty l f) := by
  intro s
  refine PRes.bind (PRes.refl s s) fun s0 s1 h0 => ?_
  cases h0
  refine PRes.bind ((resNode_reads ty l).pays 0 s) fun n s1 h1 => ?_
  obtain ⟨rfl, -, -⟩ := resNode_inv h1
  match n with
  | .mut nd => exact PRes.bind (PRes.forceEff _ _ rfl) fun _ s2 _ => Pays.bind (Pays.recordEdge _ _) (fun _ => Pays.pure _ _) s2
  | .comp nd => exact Pays.bind (opForce_pays hR _ _ _) (fun _ => Pays.pure _ _) _
  | .pure nd => exact Pays.bind (opForce_pays hR _ _ _) (fun _ => Pays.pure _ _) _
theorem opForceAbs_pays {R : Rec V} (hR : RPays R) (ty : Ty) (l : Loc) (f : V → V) : Pays 0 0 (opForceAbs R ty l f) := by
  intro s
  refine PRes.bind (PRes.refl s s) fun s0 s1 h0 => ?_
  cases h0
  refine PRes.bind ((resNode_reads ty l).pays 0 s) fun n s1 h1 => ?_
  obtain ⟨rfl, -, -⟩ := resNode_inv h1
  match n with
  | .mut nd => exact PRes.bind (PRes.forceEff _ _ rfl) fun _ s2 _ => Pays.bind (Pays.recordEdge _ _) (fun _ => Pays.pure _ _) s2
  | .comp nd => exact Pays.bind (opForce_pays hR _ _ _) (fun _ => Pays.pure _ _) _
  | .pure nd => exact Pays.bind (opForce_pays hR _ _ _) (fun _ => Pays.pure _ _) _

theorem Pays.modify (f : St V → St V) (h1 : ∀ s, (f s).table = s.table) (h2 : ∀ s, (f s).log = s.log) (h3 : ∀ s, (f s).stack = s.stack) :
    Pays 0 0 (M.modify f) := by
  intro s
  refine ⟨by rw [h3], ?_⟩
  unfold PaysTo debt work busy
  rw [h1, h2, h3]
  exact Nat.le_refl _

theorem runProg_pays (env : Env V) {R : Rec V} (hR : RPays R) (p : Prog V) : Pays 0 0 (runProg env R p) := by
  induction p with
  | ret v => exact Pays.pure _ _
  | force ty l cyc k ih => exact Pays.bind (opForce_pays hR _ _ _) ih
  | forceMap ty l f k ih => exact Pays.bind (opForceMap_pays hR _ _ _) ih
  | forceAbs ty l f k ih => exact Pays.bind (opForceAbs_pays hR _ _ _) ih
  | cell ty n v k ih => exact Pays.bind (opCell_pays _ _ _ _) ih
  | thunk ty nc pp fn arg k ih => exact Pays.bind (opThunk_pays _ _ _ _ _ _) ih
  | set ty l v k ih => exact Pays.bind (opSet_pays _ _ _) fun _ => ih
  | ns n body k ihb ih =>
    exact Pays.bind (Pays.get _) fun s => Pays.bind (Pays.modify _ (fun _ => rfl) (fun _ => rfl) (fun _ => rfl)) fun _ =>
      Pays.bind ihb fun v => Pays.bind (Pays.modify _ (fun _ => rfl) (fun _ => rfl) (fun _ => rfl)) fun _ => ih v
  | structural body k ihb ih =>
    exact Pays.bind (Pays.get _) fun s => Pays.bind (Pays.modify _ (fun _ => rfl) (fun _ => rfl) (fun _ => rfl)) fun _ =>
      Pays.bind ihb fun v => Pays.bind (Pays.modify _ (fun _ => rfl) (fun _ => rfl) (fun _ => rfl)) fun _ => ih v
  | call fn arg k ih => exact Pays.bind (hR.run _) ih
  | panic => exact Pays.panic _ _ _

theorem installPreds_pays (l : Loc) (es : List (Succ V × Option (Dep V))) : Pays 0 0 (installPreds l es) := by
  induction es with
  | nil => exact Pays.pure _ _
  | cons q es ih =>
    obtain ⟨e, d⟩ := q
    refine Pays.bind (Pays.ite (Pays.panic _ _ _) fun s => ?_) fun _ => ih
    refine PRes.bind ((lookupAbs_reads _).pays 0 s) fun n s' h => ?_
    obtain ⟨rfl, h⟩ := lookupAbs_inv h
    match n with
    | .comp nd => exact putSame_pays h rfl
    | .mut nd => exact putSame_pays h rfl
    | .pure nd => exact Pays.panic _ _ _ _

/-- Marking an edge clean is paid for by the event. -/
theorem cleanEdge_pays {β : Type} (l : Loc) (eff : Effect) (x : Loc) (f : M V β) (hf : Pays 0 0 f) :
    Pays 0 0 (do setSuccDirty l eff x false; evEff .cleanEdge (some l) x; f : M V β) := by
  intro s
  rw [M.bind_def]
  unfold setSuccDirty
  rw [M.bind_def]
  rcases hl : lookupAbs l s with ⟨n, s1⟩ | ⟨e, s1⟩ | _
  · obtain ⟨rfl, hg⟩ := lookupAbs_inv hl
    match n with
    | .mut nd => exact Pays.panic 0 0 _ _
    | .pure nd => exact Pays.panic 0 0 _ _
    | .comp nd =>
      rcases hfd : nd.succs.find? (Succ.matches eff x) with _ | e
      · simp only [hfd]; exact Pays.panic 0 0 _ _
      · simp only [hfd]
        show PRes 0 0 s1 ((evEff .cleanEdge (some l) x >>= fun _ => f) _)
        rw [M.bind_ok (m := evEff _ _ _) rfl]
        have h1 := tableClean_put s1.table l _ (.comp { nd with succs := setFirst eff x false nd.succs }) hg
        have h2 : cleanCount (setFirst eff x false nd.succs) ≤ cleanCount nd.succs + 1 := by
          generalize nd.succs = es
          induction es with
          | nil => exact Nat.zero_le _
          | cons a es ih =>
            unfold setFirst
            split
            · simp only [cleanCount, Bool.false_eq_true, if_false]; omega
            · simp only [cleanCount]; omega
        have h3 := structurals_put s1.table l (.comp { nd with succs := setFirst eff x false nd.succs })
        simp only [Node.succsList] at h1
        have hk : PaysTo 0 0 s1 { s1 with table := s1.table.put l (.comp { nd with succs := setFirst eff x false nd.succs }), log := Ev.eff .cleanEdge (some l) x :: s1.log } := by
          unfold PaysTo debt work
          show dirtyVisits s1.log + tableClean (s1.table.put l _) + pending s1.stack + _ + _ ≤ _ + (demands s1.log + (cleanings s1.log + 1) + structurals (s1.table.put l _)) + _
          omega
        have := hf { s1 with table := s1.table.put l (.comp { nd with succs := setFirst eff x false nd.succs }), log := Ev.eff .cleanEdge (some l) x :: s1.log }
        revert this
        simp only []
        generalize f _ = o
        intro this
        match o with
        | .ok a s2 =>
          obtain ⟨g1, g2⟩ := this
          refine ⟨g1, ?_⟩
          unfold PaysTo at *; omega
        | .panic e s2 =>
          have this : PaysTo _ _ _ _ := this
          show PaysTo _ _ _ _
          unfold PaysTo at *; omega
        | .oof => trivial
  · have := (lookupAbs_reads l).pays 0 s
    rw [hl] at this
    exact this
  · trivial

theorem produceBody_pays (env : Env V) {R : Rec V} (hR : RPays R) (ty : Ty) (l : Loc) : Pays 0 0 (produceBody env R ty l) := by
  intro s
  refine PRes.bind ((resNode_reads ty l).pays 0 s) fun n s1 h1 => ?_
  match n with
  | .mut _ => exact Pays.panic _ _ _ _
  | .pure _ => exact Pays.panic _ _ _ _
  | .comp nd =>
    refine PRes.bind (putBare_pays _ _ rfl s1) fun _ s2 g2 => ?_
    refine PRes.bind (revokeSuccs_pays l nd.succs s2) fun _ s3 g3 => ?_
    rw [M.bind_ok (M.get_def s3), M.bind_ok (m := M.modify _) rfl]
    -- the frame is pushed
    have hpush : PaysTo 0 0 s3 { s3 with stack := ⟨l, []⟩ :: s3.stack, path := l.path } := by
      unfold PaysTo debt work
      simp only [pending, List.length_nil]
      omega
    generalize hs4 : ({ s3 with stack := ⟨l, []⟩ :: s3.stack, path := l.path } : St V) = s4 at hpush
    have hlen : s4.stack.length = s3.stack.length + 1 := by rw [← hs4]; rfl
    rw [M.bind_def]
    rcases hrn : resNode ty l s4 with ⟨n5, s5⟩ | ⟨e, s5⟩ | _
    · obtain ⟨rfl, -, -⟩ := resNode_inv hrn
      simp only []
      match n5 with
      | .mut _ => exact hpush
      | .pure _ => exact hpush
      | .comp nd5 =>
        simp only []
        rw [M.bind_ok (m := M.modify _) rfl, M.bind_def]
        have hrun := hR.run (env.code nd5.fn nd5.arg) { s5 with runs := l :: s5.runs }
        revert hrun
        generalize R.run (env.code nd5.fn nd5.arg) { s5 with runs := l :: s5.runs } = o
        intro hrun
        match o with
        | .oof => trivial
        | .panic e s6 =>
          have hrun : PaysTo 0 0 s5 s6 := hrun
          show PaysTo 0 0 s3 s6
          unfold PaysTo at *; omega
        | .ok res s6 =>
          obtain ⟨hl6, hrun⟩ := hrun
          have hl6 : s6.stack.length = s5.stack.length := hl6
          have hrun : PaysTo 0 0 s5 s6 := hrun
          simp only []
          rw [M.bind_ok (m := M.modify _) rfl, M.bind_ok (M.get_def _)]
          rcases hst : s6.stack with _ | ⟨fr, K⟩
          · rw [hst] at hl6; simp at hl6; omega
          · simp only []
            rw [M.bind_ok (m := M.modify _) rfl]
            -- the frame is popped
            have hlK : K.length = s3.stack.length := by rw [hst] at hl6; simp at hl6; omega
            have hpop : debt ({ s6 with path := s3.path, stack := K } : St V) + fr.succs.length + work s3 ≤
                debt s3 + work ({ s6 with path := s3.path, stack := K } : St V) := by
              unfold PaysTo debt work at *
              rw [hst] at hrun
              simp only [pending] at *
              omega
            generalize hs7 : ({ s6 with path := s3.path, stack := K } : St V) = s7 at hpop
            have hl7 : s7.stack.length = s3.stack.length := by rw [← hs7]; exact hlK
            have h37 : PaysTo 0 0 s3 s7 := by unfold PaysTo; omega
            by_cases hfr : fr.loc = l
            · rw [if_pos hfr]
              rw [M.bind_def]
              have hin := installPreds_pays l fr.succs s7
              revert hin
              generalize installPreds l fr.succs s7 = o
              intro hin
              match o with
              | .oof => trivial
              | .panic e s8 =>
                have hin : PaysTo 0 0 s7 s8 := hin
                show PaysTo 0 0 s3 s8
                unfold PaysTo at *; omega
              | .ok _ s8 =>
                obtain ⟨hl8, hin⟩ := hin
                have hin : PaysTo 0 0 s7 s8 := hin
                have h38 : PaysTo 0 0 s3 s8 := by unfold PaysTo at *; omega
                simp only []
                rw [M.bind_def]
                rcases hrn : resNode ty l s8 with ⟨n9, s9⟩ | ⟨e, s9⟩ | _
                · obtain ⟨rfl, k1, k2⟩ := resNode_inv hrn
                  simp only []
                  match n9 with
                  | .mut _ => exact h38
                  | .pure _ => exact h38
                  | .comp nd9 =>
                    simp only []
                    rw [M.bind_ok (m := putNode _ _) rfl]
                    refine ⟨hl8.trans hl7, ?_⟩
                    have h1 := tableClean_put_le s9.table l (.comp { nd9 with succs := fr.succs.map (·.1), res := some res })
                    have h2 := structurals_put s9.table l (.comp { nd9 with succs := fr.succs.map (·.1), res := some res })
                    have h3 := cleanCount_le (fr.succs.map (·.1))
                    rw [List.length_map] at h3
                    simp only [Node.succsList] at h1
                    unfold PaysTo debt work at *
                    show dirtyVisits s9.log + tableClean (s9.table.put l _) + pending s9.stack + _ + _ ≤ _ + (demands s9.log + cleanings s9.log + structurals (s9.table.put l _)) + _
                    omega
                · have := (resNode_reads ty l).pays 0 s8
                  rw [hrn] at this
                  have this : PaysTo 0 0 s8 s9 := this
                  show PaysTo 0 0 s3 s9
                  unfold PaysTo at *; omega
                · trivial
            · rw [if_neg hfr]
              exact h37
    · have := (resNode_reads ty l).pays 0 s4
      rw [hrn] at this
      have this : PaysTo 0 0 s4 s5 := this
      show PaysTo 0 0 s3 s5
      unfold PaysTo at *; omega
    · trivial

theorem cleanDep_pays {R : Rec V} (hR : RPays R) (d : Dep V) (l : Loc) : Pays 0 0 (cleanDep R d l) := by
  match d with
  | .allocStruct => exact Pays.pure _ _
  | .allocNom _ => exact Pays.pure _ _
  | .allocCell _ => exact Pays.pure _ _
  | .force ty res => exact hR.cleanForce _ _ _
  | .forceMap ty f res => exact (checkForceMapDep_reads _ _ _ _).pays _
  | .forceAbs => exact Pays.pure _ _

theorem cleanLoop_pays {R : Rec V} (hR : RPays R) (ty : Ty) (res : V) (l : Loc) (es : List (Succ V)) : Pays 0 0 (cleanLoop R ty res l es) := by
  induction es with
  | nil => exact Pays.pure _ _
  | cons e es ih =>
    refine Pays.bind ((succDirty_reads _ _ _).pays _) fun d => Pays.ite ?_ ih
    refine Pays.bind (Pays.evBegin _ _ _ (by simp)) fun _ => Pays.bind (cleanDep_pays hR _ _) fun ch => Pays.ite ?_ ?_
    · exact Pays.bind (Pays.evBegin _ _ _ (by simp)) fun _ => Pays.bind (hR.produce _ _) fun _ =>
        Pays.bind Pays.evEnd fun _ => Pays.bind Pays.evEnd fun _ => Pays.pure _ _
    · exact cleanEdge_pays _ _ _ _ (Pays.bind Pays.evEnd fun _ => ih)

theorem cleanForceBody_pays {R : Rec V} (hR : RPays R) (ty : Ty) (res : V) (l : Loc) : Pays 0 0 (cleanForceBody R ty res l) := by
  refine Pays.bind ((resNode_reads _ _).pays _) fun n => ?_
  match n with
  | .pure _ => exact Pays.pure _ _
  | .mut _ => exact Pays.pure _ _
  | .comp nd =>
    show Pays 0 0 (match nd.res with | some cache => _ | none => _)
    rcases nd.res with _ | cache
    · exact Pays.bind (Pays.evBegin _ _ _ (by simp)) fun _ => Pays.bind (hR.produce _ _) fun _ => Pays.bind Pays.evEnd fun _ => Pays.pure _ _
    · refine Pays.bind (cleanLoop_pays hR _ _ _ _) fun r => ?_
      match r with
      | some ch => exact Pays.pure _ _
      | none => exact Pays.pure _ _

theorem recN_pays (env : Env V) : ∀ n, RPays (recN env n)
  | 0 => ⟨fun _ _ _ => trivial, fun _ _ _ _ => trivial, fun _ _ => trivial⟩
  | n + 1 => ⟨produceBody_pays env (recN_pays env n), cleanForceBody_pays (recN_pays env n), runProg_pays env (recN_pays env n)⟩

theorem runSession_pays (env : Env V) (n : Nat) (ps : List (Prog V)) : Pays 0 0 (runSession env n ps) := by
  induction ps with
  | nil => exact Pays.pure _ _
  | cons p ps ih => exact Pays.bind (runProg_pays env (recN_pays env n) p) fun _ => Pays.bind ih fun _ => Pays.pure _ _

/-! ### The claims -/

/-- The state after an operation, whether it returned or panicked. -/
def Out.After (o : Out V α) (s' : St V) : Prop := (∃ a, o = .ok a s') ∨ ∃ e, o = .panic e s'

/-- **C91.** From any state, after any session (also one that panics): the edges walked over by dirtying are at most the edges that were clean or pending at the start, plus the forces and allocations
made by thunks, plus the edges cleaned, plus the new structural locations. -/
theorem C91_amortised_dirtying (env : Env V) (n : Nat) (ps : List (Prog V)) (s s' : St V) (h : (runSession env n ps s).After s') :
    dirtyVisits s'.log + demands s.log + cleanings s.log + structurals s.table ≤
      dirtyVisits s.log + tableClean s.table + pending s.stack + demands s'.log + cleanings s'.log + structurals s'.table := by
  have h1 := runSession_pays env n ps s
  have key : PaysTo 0 0 s s' := by
    rcases h with ⟨a, h⟩ | ⟨e, h⟩
    · rw [h] at h1; exact h1.2
    · rw [h] at h1; exact h1
  unfold PaysTo debt work at key
  omega

/-- **C91.** Every history of a new engine: dirtying never walks over more edges than the thunks have made demands and allocations and cleaning has found clean. -/
theorem C91_amortised_from_start (env : Env V) (n : Nat) (ps : List (Prog V)) (pu ign : Bool) (s' : St V)
    (h : (runSession env n ps (initSt pu ign)).After s') :
    dirtyVisits s'.log ≤ demands s'.log + cleanings s'.log + structurals s'.table := by
  have := C91_amortised_dirtying env n ps _ s' h
  have h0 : structurals (initSt (V := V) pu ign).table = 0 := rfl
  simp only [initSt, dirtyVisits, demands, cleanings, tableClean, pending] at this h0
  omega

/-- The editor sets cells one after the other. -/
def setAll : List (Ty × Loc × V) → Prog V → Prog V
  | [], k => k
  | (ty, l, v) :: r, k => .set ty l v (setAll r k)

theorem tableClean_putCell {t : Table V} {l : Loc} {n : MutNode V} (v : V) (h : t.get l = some (.mut n)) :
    tableClean (t.put l (.mut { n with val := v })) = tableClean t := by
  have := tableClean_put t l _ (.mut { n with val := v }) h
  simp only [Node.succsList, cleanCount] at this
  omega

theorem opSet_visits (ty : Ty) (l : Loc) (v : V) (s : St V) :
    (opSet ty l v s).Sat fun s' => s'.stack = s.stack ∧ dirtyVisits s'.log + tableClean s'.table ≤ dirtyVisits s.log + tableClean s.table := by
  unfold opSet
  rw [M.bind_ok (M.get_def s)]
  by_cases hst : s.stack.isEmpty = true
  · rw [if_pos hst]
    unfold setCell
    rw [M.bind_def]
    rcases hr : resNode ty l s with ⟨nd, s1⟩ | ⟨e, s1⟩ | _
    · obtain ⟨rfl, hg, -⟩ := resNode_inv hr
      simp only []
      match nd with
      | .comp _ => exact ⟨rfl, Nat.le_refl _⟩
      | .pure _ => exact ⟨rfl, Nat.le_refl _⟩
      | .mut nd =>
        show Out.Sat _ ((if nd.val ≈ᵤ v then _ else _ : M V Unit) s1)
        by_cases hv : nd.val ≈ᵤ v
        · rw [if_pos hv]; exact ⟨rfl, Nat.le_refl _⟩
        · rw [if_neg hv, M.bind_ok (m := putNode _ _) rfl]
          refine (dirtyAlloc_vis l _).mono fun s2 h2 => ⟨h2.up.stack, ?_⟩
          have h3 := h2.cnt
          have h4 := tableClean_putCell v hg
          simp only [] at h3
          rw [h4] at h3
          exact h3
    · rcases (resNode_reads ty l) s with ⟨a, h⟩ | ⟨e', h⟩
      · rw [h] at hr; cases hr
      · rw [h] at hr; cases hr; exact ⟨rfl, Nat.le_refl _⟩
    · rcases (resNode_reads ty l) s with ⟨a, h⟩ | ⟨e', h⟩ <;> rw [h] at hr <;> cases hr
  · rw [if_neg hst]; exact ⟨rfl, Nat.le_refl _⟩

/-- **C91.** A batch of any number of `set`s, of any cells, walks over no more edges than were clean when it began: an edge is walked over at most once until a demand cleans it again.  (`C07` says this of
one `set`; here it is the sum over the batch.) -/
theorem C91_batch_of_sets (env : Env V) (n : Nat) (es : List (Ty × Loc × V)) (v : V) (s s' : St V)
    (h : (exec env n (setAll es (.ret v)) s).After s') : dirtyVisits s'.log ≤ dirtyVisits s.log + tableClean s.table := by
  have key : ∀ (es : List (Ty × Loc × V)) (s : St V), (exec env n (setAll es (.ret v)) s).Sat fun s' =>
      s'.stack = s.stack ∧ dirtyVisits s'.log + tableClean s'.table ≤ dirtyVisits s.log + tableClean s.table := by
    intro es
    induction es with
    | nil => intro s; exact ⟨rfl, Nat.le_refl _⟩
    | cons e es ih =>
      obtain ⟨ty, l, w⟩ := e
      intro s
      show Out.Sat _ ((opSet ty l w >>= fun _ => runProg env (recN env n) (setAll es (.ret v))) s)
      refine Sat.bind (opSet_visits ty l w s) (fun _ h => h) fun _ s1 _ h1 => (ih s1).mono fun s2 h2 => ⟨h2.1.trans h1.1, ?_⟩
      have := h2.2
      have := h1.2
      omega
  have h1 := key es s
  rcases h with ⟨a, h⟩ | ⟨e, h⟩ <;> rw [h] at h1 <;> have := h1.2 <;> omega

/-! ### A concrete history: the bounds are met with equality -/
namespace AmortEx

def nm (i : Nat) : Name := ⟨0, .usize i⟩
def at_ (i : Nat) : Loc := ⟨.empty, .nominal (nm i)⟩
/-- Two thunks: one adds two cells, the other forces the first. -/
def code : FnId → Int → Prog Int
  | 0, _ => .force 0 (at_ 0) none fun a => .force 0 (at_ 1) none fun b => .ret (a + b)
  | _, _ => .force 0 (at_ 2) none fun a => .ret (10 * a)
def env : Env Int := ⟨code, fun _ => 0, fun _ _ => 0⟩
def start : Prog Int := .cell 0 (nm 0) 1 fun _ => .cell 0 (nm 1) 2 fun _ => .thunk 0 (.nominal (nm 2)) 0 0 0 fun _ => .thunk 0 (.nominal (nm 3)) 1 1 0 fun l => .force 0 l none .ret
def sets : Prog Int := setAll [(0, at_ 0, 5), (0, at_ 1, 6), (0, at_ 0, 7), (0, at_ 1, 8), (0, at_ 0, 1), (0, at_ 1, 2)] (.ret 0)
def ask : Prog Int := .force 0 (at_ 3) none .ret

/-- What the session returned, and the counts: visits, demands, cleanings, clean edges left. -/
def counts (ps : List (Prog Int)) : List Int × Nat × Nat × Nat × Nat :=
  match runSession env 10 ps (initSt true false) with
  | .ok vs s => (vs, dirtyVisits s.log, demands s.log, cleanings s.log, tableClean s.table)
  | _ => ([], 0, 0, 0, 0)

-- After the first demand three edges are clean; six sets (the last two restore the old values) walk over three edges altogether; the demand that follows finds nothing changed and cleans the three
-- edges; then twelve sets walk over three edges again.
example : counts [start] = ([30], 0, 3, 0, 3) := by decide +kernel
example : counts [start, sets] = ([30, 0], 3, 3, 0, 0) := by decide +kernel
example : counts [start, sets, ask] = ([30, 0, 30], 3, 3, 3, 3) := by decide +kernel
example : counts [start, sets, ask, sets, sets, ask] = ([30, 0, 30, 0, 0, 30], 6, 3, 6, 3) := by decide +kernel

end AmortEx
end Adapton
