import Verif.Engine.Util
/-
Dirtying, for arbitrary engine states: it terminates, and it only raises dirty bits.
-/
namespace Adapton
variable {V α β : Type}

/-- Same node up to raised dirty bits. -/
def NodeUp (o o' : Option (Node V)) : Prop :=
  match o with
  | some (.comp nd) => ∃ es', o' = some (.comp { nd with succs := es' }) ∧ SuccsUp nd.succs es'
  | o => o' = o

theorem NodeUp.refl (o : Option (Node V)) : NodeUp o o := by
  match o with
  | some (.comp nd) => exact ⟨nd.succs, rfl, SuccsUp.refl _⟩
  | some (.mut nd) => rfl
  | some (.pure nd) => rfl
  | none => rfl

theorem NodeUp.trans {a b c : Option (Node V)} (h1 : NodeUp a b) (h2 : NodeUp b c) : NodeUp a c := by
  match a with
  | some (.comp nd) =>
    obtain ⟨es1, rfl, u1⟩ := h1
    obtain ⟨es2, rfl, u2⟩ := h2
    exact ⟨es2, rfl, u1.trans u2⟩
  | some (.mut nd) => cases h1; exact h2
  | some (.pure nd) => cases h1; exact h2
  | none => cases h1; exact h2

theorem NodeUp.comp_left {nd : CompNode V} {o : Option (Node V)} (h : NodeUp (some (.comp nd)) o) :
    ∃ es', o = some (.comp { nd with succs := es' }) ∧ SuccsUp nd.succs es' := h

theorem NodeUp.comp_right {nd' : CompNode V} {o : Option (Node V)} (h : NodeUp o (some (.comp nd'))) :
    ∃ es, o = some (.comp { nd' with succs := es }) ∧ SuccsUp es nd'.succs := by
  match o with
  | some (.comp nd) =>
    obtain ⟨es', h1, h2⟩ := h
    cases h1
    exact ⟨nd.succs, rfl, h2⟩
  | some (.mut nd) => cases h
  | some (.pure nd) => cases h
  | none => cases h

theorem NodeUp.mut_right {nd' : MutNode V} {o : Option (Node V)} (h : NodeUp o (some (.mut nd'))) :
    o = some (.mut nd') := by
  match o with
  | some (.comp nd) => obtain ⟨es', h1, h2⟩ := h; cases h1
  | some (.mut nd) => exact h.symm
  | some (.pure nd) => exact h.symm
  | none => cases h

theorem NodeUp.some_left {n : Node V} {o : Option (Node V)} (h : NodeUp (some n) o) : ∃ n', o = some n' := by
  match n with
  | .comp nd => obtain ⟨es', h1, h2⟩ := h; exact ⟨_, h1⟩
  | .mut nd => exact ⟨_, h⟩
  | .pure nd => exact ⟨_, h⟩

theorem NodeUp.none_left {o : Option (Node V)} (h : NodeUp none o) : o = none := h

/-- The step from `s` to `s'` only raised dirty bits (and wrote to the trace). -/
structure Up (s s' : St V) : Prop where
  stack : s'.stack = s.stack
  path : s'.path = s.path
  purity : s'.purity = s.purity
  ign : s'.ignoreNominal = s.ignoreNominal
  runs : s'.runs = s.runs
  tbl : ∀ x, NodeUp (s.table.get x) (s'.table.get x)
  measure : tableClean s'.table ≤ tableClean s.table

theorem Up.refl (s : St V) : Up s s := ⟨rfl, rfl, rfl, rfl, rfl, fun _ => NodeUp.refl _, Nat.le_refl _⟩

theorem Up.trans {a b c : St V} (h1 : Up a b) (h2 : Up b c) : Up a c :=
  ⟨h2.stack.trans h1.stack, h2.path.trans h1.path, h2.purity.trans h1.purity, h2.ign.trans h1.ign,
    h2.runs.trans h1.runs, fun x => (h1.tbl x).trans (h2.tbl x), Nat.le_trans h2.measure h1.measure⟩

theorem Up.log {s : St V} (f : List Ev → List Ev) : Up s { s with log := f s.log } :=
  ⟨rfl, rfl, rfl, rfl, rfl, fun _ => NodeUp.refl _, Nat.le_refl _⟩

/-- Raising the dirty bit of one key. -/
theorem Up.set {s : St V} {p : Loc} {nd : CompNode V} (h : s.table.get p = some (.comp nd)) (eff : Effect) (x : Loc) :
    Up s { s with table := s.table.put p (.comp { nd with succs := setFirst eff x true nd.succs }) } := by
  refine ⟨rfl, rfl, rfl, rfl, rfl, fun y => ?_, ?_⟩
  · simp only [Table.get_put]
    split
    · rename_i hy; rw [hy, h]; exact ⟨_, rfl, setFirst_up _ _ _⟩
    · exact NodeUp.refl _
  · have := tableClean_put s.table p _ (.comp { nd with succs := setFirst eff x true nd.succs }) h
    have h2 := (setFirst_up eff x nd.succs).count
    simp only [Node.succsList] at this
    show tableClean (s.table.put p _) ≤ _
    omega

/-- `P` holds of the resulting state, whether the operation returned or panicked; it did not run out of fuel. -/
def Out.Sat (P : St V → Prop) : Out V α → Prop
  | .ok _ s => P s
  | .panic _ s => P s
  | .oof => False

theorem Sat.bind {m : M V α} {f : α → M V β} {s : St V} {P Q : St V → Prop}
    (h1 : (m s).Sat Q) (hQP : ∀ s', Q s' → P s')
    (h2 : ∀ a s', m s = .ok a s' → Q s' → (f a s').Sat P) : ((m >>= f) s).Sat P := by
  rw [M.bind_def]
  rcases hm : m s with ⟨a, s'⟩ | ⟨e, s'⟩ | _
  · rw [hm] at h1; exact h2 a s' hm h1
  · rw [hm] at h1; exact hQP s' h1
  · rw [hm] at h1; exact h1.elim

theorem Out.Sat.mono {o : Out V α} {P Q : St V → Prop} (h : o.Sat P) (hpq : ∀ s, P s → Q s) : o.Sat Q := by
  cases o with
  | ok a s => exact hpq s h
  | panic e s => exact hpq s h
  | oof => exact h

theorem lookupAbs_sat (l : Loc) (s : St V) : (lookupAbs l s).Sat (fun s' => s' = s) := by
  unfold lookupAbs; split <;> exact rfl

theorem resNode_sat (ty : Ty) (l : Loc) (s : St V) : (resNode ty l s).Sat (fun s' => s' = s) := by
  unfold resNode
  refine Sat.bind (lookupAbs_sat l s) (fun _ h => h) ?_
  rintro n s' _ rfl
  by_cases h : n.ty = ty
  · rw [if_pos h]; exact rfl
  · rw [if_neg h]; exact rfl

theorem succDirty_sat (p : Loc) (eff : Effect) (x : Loc) (s : St V) :
    (succDirty p eff x s).Sat (fun s' => s' = s) := by
  unfold succDirty
  refine Sat.bind (lookupAbs_sat p s) (fun _ h => h) ?_
  rintro n s' _ rfl
  match n with
  | .comp nd =>
    rcases hf : nd.succs.find? (Succ.matches eff x) with _ | e
    · simp only [hf]; exact rfl
    · simp only [hf]; exact rfl
  | .mut nd => exact rfl
  | .pure nd => exact rfl

theorem succDirty_inv {p : Loc} {eff : Effect} {x : Loc} {s s' : St V} {b : Bool}
    (h : succDirty p eff x s = .ok b s') :
    s' = s ∧ ∃ nd e, s.table.get p = some (.comp nd) ∧ nd.succs.find? (Succ.matches eff x) = some e ∧ e.dirty = b := by
  unfold succDirty lookupAbs at h
  rw [M.bind_def] at h
  rcases hg : s.table.get p with _ | n
  · simp only [hg] at h; cases h
  · simp only [hg] at h
    match n with
    | .comp nd =>
      rcases hf : nd.succs.find? (Succ.matches eff x) with _ | e
      · simp only [hf] at h; cases h
      · simp only [hf] at h; cases h
        exact ⟨rfl, nd, e, rfl, hf, rfl⟩
    | .mut nd => cases h
    | .pure nd => cases h

theorem setSuccDirty_sat (p : Loc) (eff : Effect) (x : Loc) (s : St V) :
    (setSuccDirty p eff x true s).Sat (fun s' => Up s s') := by
  unfold setSuccDirty lookupAbs
  rw [M.bind_def]
  rcases hg : s.table.get p with _ | n
  · simp only []; exact Up.refl _
  · simp only []
    match n with
    | .comp nd =>
      rcases hf : nd.succs.find? (Succ.matches eff x) with _ | e
      · simp only [hf]; exact Up.refl _
      · simp only [hf]; exact Up.set hg eff x
    | .mut nd => exact Up.refl _
    | .pure nd => exact Up.refl _

section
variable [UEq V]

theorem dirtyStop_sat (d : Option (Dep V)) (l : Loc) (s : St V) : (dirtyStop d l s).Sat (fun s' => s' = s) := by
  match d with
  | none => exact rfl
  | some .forceAbs => exact rfl
  | some (.forceMap ty f r) =>
    show ((checkForceMapDep ty f r l >>= fun ch => Pure.pure (!ch)) s).Sat _
    refine Sat.bind (Q := fun s' => s' = s) ?_ (fun _ h => h) (fun a s' _ h => h)
    unfold checkForceMapDep
    refine Sat.bind (resNode_sat ty l s) (fun _ h => h) ?_
    rintro n s' _ rfl
    split <;> exact rfl
  | some .allocStruct => exact rfl
  | some (.allocNom _) => exact rfl
  | some (.allocCell _) => exact rfl
  | some (.force _ _) => exact rfl

theorem dirtyLoop_general (rec : Loc → M V Unit) (k : Nat)
    (hrec : ∀ p s, tableClean s.table < k → (rec p s).Sat (Up s)) (l : Loc) (ps : List (Loc × Option (Dep V))) :
    ∀ s, tableClean s.table < k + 1 → (dirtyLoop rec l ps s).Sat (Up s) := by
  induction ps with
  | nil => intro s _; exact Up.refl s
  | cons hd tl ih =>
    obtain ⟨p, d⟩ := hd
    intro s hs
    unfold dirtyLoop
    refine Sat.bind (Q := Up s) ?_ (fun _ h => h)
      (fun _ s2 _ hu => (ih s2 (Nat.lt_of_le_of_lt hu.measure hs)).mono (fun _ => hu.trans))
    unfold dirtyObserver
    refine Sat.bind (dirtyStop_sat d l s) (fun _ h => h ▸ Up.refl _) ?_
    rintro b s' _ rfl
    cases b
    case true => exact Up.refl _
    case false =>
      refine Sat.bind (succDirty_sat p .observe l s') (fun _ h => h ▸ Up.refl _) ?_
      rintro b s2 hd rfl
      obtain ⟨-, nd, e, hg, hf, hb⟩ := succDirty_inv hd
      cases b
      case true => exact Up.refl _
      case false =>
        by_cases hpl : p = l
        · simp only [hpl]; exact Up.refl _
        · simp only [hpl, if_false, Bool.false_eq_true]
          refine Sat.bind (Q := Up s2) (Up.log _) (fun _ h => h) ?_
          intro _ s3 h3 u3
          cases h3
          dsimp only
          rw [M.bind_ok (setSuccDirty_ok true (s := { s2 with log := Ev.begin TEff.dirty (some p) l :: s2.log }) hg hf)]
          have hu : Up s2 { s2 with
              log := Ev.begin TEff.dirty (some p) l :: s2.log
              table := s2.table.put p (.comp { nd with succs := setFirst .observe l true nd.succs }) } :=
            (Up.log (s := s2) (fun lg => Ev.begin TEff.dirty (some p) l :: lg)).trans
              (Up.set (s := { s2 with log := Ev.begin TEff.dirty (some p) l :: s2.log }) hg .observe l)
          have hlt : tableClean (s2.table.put p (.comp { nd with succs := setFirst .observe l true nd.succs })) < k := by
            have h1 := tableClean_put s2.table p _ (.comp { nd with succs := setFirst .observe l true nd.succs }) hg
            have h2 := setFirst_count .observe l nd.succs hf hb
            simp only [Node.succsList] at h1
            omega
          refine Sat.bind (Q := Up s2) ((hrec p _ hlt).mono (fun _ => hu.trans)) (fun _ h => h) ?_
          intro _ s4 _ u4
          exact u4.trans (Up.log _)

/-- Dirtying the observers of a location, with at least as much fuel as there are clean edges, does not run out of
fuel, and only raises dirty bits. -/
theorem dirtyPreds_general : ∀ (k : Nat) (l : Loc) (s : St V), tableClean s.table < k →
    (dirtyPreds k l s).Sat (Up s) := by
  intro k
  induction k with
  | zero => intro l s h; omega
  | succ k ih =>
    intro l s h
    unfold dirtyPreds
    refine Sat.bind (lookupAbs_sat l s) (fun _ h => h ▸ Up.refl _) ?_
    rintro n s' _ rfl
    rcases hp : n.predsObs with _ | ps
    · exact Up.refl _
    · exact dirtyLoop_general (dirtyPreds k) k ih l _ s' h

theorem dirtyPredsTop_general (l : Loc) (s : St V) : (dirtyPredsTop l s).Sat (Up s) :=
  dirtyPreds_general _ l s (by omega)

theorem dirtyAllocLoop_general (l : Loc) (ps : List Loc) : ∀ s : St V, (dirtyAllocLoop l ps s).Sat (Up s) := by
  induction ps with
  | nil => intro s; exact Up.refl s
  | cons p tl ih =>
    intro s
    unfold dirtyAllocLoop
    refine Sat.bind (Q := Up s) ?_ (fun _ h => h) (fun _ s2 _ hu => (ih s2).mono (fun _ => hu.trans))
    unfold dirtyAllocator
    refine Sat.bind (succDirty_sat p .allocate l s) (fun _ h => h ▸ Up.refl _) ?_
    rintro b s' _ rfl
    cases b
    case true => exact Up.refl _
    case false =>
      refine Sat.bind (setSuccDirty_sat p .allocate l s') (fun _ h => h) ?_
      intro _ s2 _ u2
      by_cases hpl : p = l
      · simp only [hpl]; exact u2
      · simp only [hpl, if_false]
        refine Sat.bind (Q := Up s') (u2.trans (Up.log _)) (fun _ h => h) ?_
        intro _ s3 _ u3
        refine Sat.bind ((dirtyPredsTop_general p s3).mono (fun _ => u3.trans)) (fun _ h => h) ?_
        intro _ s4 _ u4
        exact u4.trans (Up.log _)

/-- `dirty_alloc` terminates and only raises dirty bits. -/
theorem dirtyAlloc_general (l : Loc) (s : St V) : (dirtyAlloc l s).Sat (Up s) := by
  unfold dirtyAlloc
  refine Sat.bind (dirtyPredsTop_general l s) (fun _ h => h) ?_
  intro _ s2 _ u2
  refine Sat.bind ((lookupAbs_sat l s2).mono (fun _ h => h ▸ u2)) (fun _ h => h) ?_
  intro n s3 _ u3
  rcases hp : n.predsAlloc with _ | ps
  · exact u3
  · exact (dirtyAllocLoop_general l _ s3).mono (fun _ => u3.trans)

end
end Adapton
