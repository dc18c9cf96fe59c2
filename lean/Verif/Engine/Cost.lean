import Verif.Engine.Dirty
/-
What cleaning costs: the trace events of cleaning against the dirty edges of the table and the events of dirtying.  A state transition `Pays` if every edge that was examined by cleaning was a dirty
edge of the table, or was made dirty meanwhile, and is used up.
-/
set_option linter.unusedSectionVars false
set_option linter.unusedVariables false
namespace Adapton
variable {V α β : Type} [UEq V]

/-- Number of edges the trace says dirtying has visited. -/
def dirtyVisits : List Ev → Nat
  | [] => 0
  | .begin .dirty _ _ :: es => dirtyVisits es + 1
  | _ :: es => dirtyVisits es

/-- Number of edges the trace says cleaning has examined. -/
def cleanRecs : List Ev → Nat
  | [] => 0
  | .begin .cleanRec _ _ :: es => cleanRecs es + 1
  | _ :: es => cleanRecs es

/-- The edges that were found unchanged and marked clean. -/
def cleanings : List Ev → Nat
  | [] => 0
  | .eff .cleanEdge _ _ :: es => cleanings es + 1
  | _ :: es => cleanings es

/-- The locations with a structural name (the allocation of a structural thunk is not traced). -/
def structurals (t : Table V) : Nat := (t.map (·.1)).countP fun l => match l.id with | .structural _ => true | .nominal _ => false

/-- Number of dirty edges in a list. -/
def dirtyCount : List (Succ V) → Nat
  | [] => 0
  | e :: es => (if e.dirty then 1 else 0) + dirtyCount es

/-- Number of dirty edges in a table. -/
def tableDirty : Table V → Nat
  | [] => 0
  | (_, n) :: t => dirtyCount n.succsList + tableDirty t

/-- Every edge examined by cleaning between the two states is paid by a dirty edge that is gone or by a visit of dirtying. -/
def Paid (s s' : St V) : Prop :=
  cleanRecs s'.log + dirtyVisits s.log + tableDirty s'.table ≤ cleanRecs s.log + dirtyVisits s'.log + tableDirty s.table

/-- The trace alone. -/
def LogPaid (lg lg' : List Ev) : Prop := cleanRecs lg' + dirtyVisits lg ≤ cleanRecs lg + dirtyVisits lg'

theorem Paid.refl (s : St V) : Paid s s := Nat.le_refl _
theorem Paid.trans {a b c : St V} (h1 : Paid a b) (h2 : Paid b c) : Paid a c := by unfold Paid at *; omega
theorem LogPaid.refl (lg : List Ev) : LogPaid lg lg := Nat.le_refl _
theorem LogPaid.paid {s s' : St V} (h : LogPaid s.log s'.log) (ht : s'.table = s.table) : Paid s s' := by
  unfold LogPaid at h; unfold Paid; rw [ht]; omega

theorem cleanings_mono (evs l : List Ev) : cleanings l ≤ cleanings (evs ++ l) := by
  induction evs with
  | nil => exact Nat.le_refl _
  | cons e evs ih =>
    refine Nat.le_trans ih ?_
    show cleanings (evs ++ l) ≤ cleanings (e :: (evs ++ l))
    generalize evs ++ l = r
    cases e with
    | «begin» e a b => cases e <;> cases a <;> first | exact Nat.le_refl _ | exact Nat.le_succ _
    | end_ => exact Nat.le_refl _
    | eff e a b => cases e <;> cases a <;> first | exact Nat.le_refl _ | exact Nat.le_succ _

theorem structurals_put (t : Table V) (l : Loc) (n : Node V) : structurals t ≤ structurals (t.put l n) := by
  unfold structurals
  induction t with
  | nil => exact Nat.zero_le _
  | cons hd tl ih =>
    obtain ⟨k, m⟩ := hd
    simp only [Table.put]
    split
    · exact Nat.le_refl _
    · simp only [List.map_cons, List.countP_cons]; omega
theorem structurals_insert (t : Table V) (p : Path) (h) (n : Node V) (hg : t.get ⟨p, .structural h⟩ = none) :
    structurals (t.put ⟨p, .structural h⟩ n) = structurals t + 1 := by
  unfold structurals
  induction t with
  | nil => rfl
  | cons hd tl ih =>
    obtain ⟨k, m⟩ := hd
    simp only [Table.get] at hg
    simp only [Table.put]
    split
    · rename_i hk; simp only [hk, if_true] at hg; cases hg
    · rename_i hk
      simp only [hk, if_false] at hg
      simp only [List.map_cons, List.countP_cons, ih hg]; omega
theorem tableDirty_put (t : Table V) (l : Loc) (n n' : Node V) (h : t.get l = some n) :
    tableDirty (t.put l n') + dirtyCount n.succsList = tableDirty t + dirtyCount n'.succsList := by
  induction t with
  | nil => cases h
  | cons hd tl ih =>
    obtain ⟨k, m⟩ := hd
    simp only [Table.get] at h
    simp only [Table.put]
    split
    · rename_i hk
      simp only [hk, if_true, Option.some.injEq] at h
      subst h
      simp only [tableDirty]; omega
    · rename_i hk
      simp only [hk, if_false] at h
      have := ih h
      simp only [tableDirty]; omega

theorem tableDirty_insert (t : Table V) (l : Loc) (n : Node V) (h : t.get l = none) :
    tableDirty (t.put l n) = tableDirty t + dirtyCount n.succsList := by
  induction t with
  | nil => simp only [Table.put, tableDirty]; omega
  | cons hd tl ih =>
    obtain ⟨k, m⟩ := hd
    simp only [Table.get] at h
    simp only [Table.put]
    split
    · rename_i hk; simp only [hk, if_true] at h; cases h
    · rename_i hk
      simp only [hk, if_false] at h
      have := ih h
      simp only [tableDirty]; omega

theorem setFirst_dirtied (eff : Effect) (x : Loc) (es : List (Succ V)) {e : Succ V}
    (h : es.find? (Succ.matches eff x) = some e) (hd : e.dirty = false) :
    dirtyCount (setFirst eff x true es) = dirtyCount es + 1 := by
  induction es with
  | nil => cases h
  | cons a es ih =>
    simp only [List.find?] at h
    simp only [setFirst]
    cases hm : a.matches eff x
    · rw [hm] at h
      simp only [Bool.false_eq_true, if_false, dirtyCount]
      have := ih h
      omega
    · rw [hm] at h
      cases h
      simp only [if_true, dirtyCount, hd, Bool.false_eq_true, if_false]
      omega

theorem setFirst_cleaned (eff : Effect) (x : Loc) (es : List (Succ V)) {e : Succ V}
    (h : es.find? (Succ.matches eff x) = some e) (hd : e.dirty = true) :
    dirtyCount (setFirst eff x false es) + 1 = dirtyCount es := by
  induction es with
  | nil => cases h
  | cons a es ih =>
    simp only [List.find?] at h
    simp only [setFirst]
    cases hm : a.matches eff x
    · rw [hm] at h
      simp only [Bool.false_eq_true, if_false, dirtyCount]
      have := ih h
      omega
    · rw [hm] at h
      cases h
      simp only [if_true, dirtyCount, hd, Bool.false_eq_true, if_false]
      omega

theorem dirtyCount_clean (es : List (Succ V)) (h : ∀ e ∈ es, e.dirty = false) : dirtyCount es = 0 := by
  induction es with
  | nil => rfl
  | cons a es ih =>
    simp only [dirtyCount, h a (List.mem_cons_self ..), Bool.false_eq_true, if_false, ih (fun e he => h e (List.mem_cons_of_mem _ he))]

theorem dirtyCount_pos {es : List (Succ V)} {eff : Effect} {x : Loc} (h : KeyDirty es eff x) : 0 < dirtyCount es := by
  obtain ⟨e, h1, h2⟩ := h
  have := setFirst_cleaned eff x es h1 h2
  omega

/-- Replacing a node by one with the same edges. -/
theorem tableDirty_same (t : Table V) (l : Loc) (n n' : Node V) (h : t.get l = some n) (hs : n'.succsList = n.succsList) :
    tableDirty (t.put l n') = tableDirty t := by
  have := tableDirty_put t l n n' h
  rw [hs] at this; omega

/-! ### Dirtying -/

theorem bind_inv {m : M V α} {f : α → M V β} {s s' : St V} {b : β} (h : (m >>= f) s = .ok b s') :
    ∃ a s1, m s = .ok a s1 ∧ f a s1 = .ok b s' := by
  rw [M.bind_def] at h
  rcases hm : m s with ⟨a, s1⟩ | ⟨e, s1⟩ | _
  · rw [hm] at h; exact ⟨a, s1, rfl, h⟩
  · rw [hm] at h; cases h
  · rw [hm] at h; cases h

theorem dirtyStop_same {d : Option (Dep V)} {l : Loc} {s s' : St V} {b : Bool} (h : dirtyStop d l s = .ok b s') : s' = s := by
  have := dirtyStop_sat d l s
  rw [h] at this; exact this

theorem lookupAbs_same {l : Loc} {s s' : St V} {n : Node V} (h : lookupAbs l s = .ok n s') : s' = s ∧ s.table.get l = some n := by
  unfold lookupAbs at h
  rcases hg : s.table.get l with _ | m
  · rw [hg] at h; cases h
  · rw [hg] at h; cases h; exact ⟨rfl, rfl⟩

/-- Marking an edge dirty, with a trace event. -/
theorem Paid.visit {s : St V} {p : Loc} {nd : CompNode V} (h : s.table.get p = some (.comp nd)) (eff : Effect) (x : Loc)
    {e : Succ V} (hf : nd.succs.find? (Succ.matches eff x) = some e) (hd : e.dirty = false) (q : Option Loc) (y : Loc) :
    Paid s { s with
      log := Ev.begin TEff.dirty q y :: s.log
      table := s.table.put p (.comp { nd with succs := setFirst eff x true nd.succs }) } := by
  have h1 := tableDirty_put s.table p _ (.comp { nd with succs := setFirst eff x true nd.succs }) h
  have h2 := setFirst_dirtied eff x nd.succs hf hd
  simp only [Node.succsList] at h1
  show cleanRecs s.log + dirtyVisits s.log + tableDirty (s.table.put p _) ≤ cleanRecs s.log + (dirtyVisits s.log + 1) + tableDirty s.table
  omega

theorem Paid.end_ (s : St V) : Paid s { s with log := Ev.end_ :: s.log } := Nat.le_refl _

theorem dirtyLoop_paid (rec : Loc → M V Unit) (hrec : ∀ p s s', rec p s = .ok () s' → Paid s s') (l : Loc)
    (ps : List (Loc × Option (Dep V))) : ∀ s s', dirtyLoop rec l ps s = .ok () s' → Paid s s' := by
  induction ps with
  | nil => intro s s' h; cases h; exact Paid.refl _
  | cons q ps ih =>
    obtain ⟨p, d⟩ := q
    intro s s' h
    unfold dirtyLoop at h
    obtain ⟨_, s1, h1, h2⟩ := bind_inv h
    refine Paid.trans ?_ (ih _ _ h2)
    unfold dirtyObserver at h1
    obtain ⟨st, s2, h3, h4⟩ := bind_inv h1
    have := dirtyStop_same h3
    subst this
    cases st
    · simp only [Bool.false_eq_true, if_false] at h4
      obtain ⟨b, s3, h5, h6⟩ := bind_inv h4
      obtain ⟨rfl, nd, e, g1, g2, g3⟩ := succDirty_inv h5
      cases b
      · simp only [Bool.false_eq_true, if_false] at h6
        by_cases hpl : p = l
        · rw [if_pos hpl] at h6; cases h6
        · rw [if_neg hpl] at h6
          rw [M.bind_ok (m := evBegin _ _ _) rfl, M.bind_ok (setSuccDirty_ok (s := { s3 with log := Ev.begin TEff.dirty (some p) l :: s3.log }) true g1 g2)] at h6
          obtain ⟨_, s4, h7, h8⟩ := bind_inv h6
          cases h8
          exact ((Paid.visit g1 .observe l g2 g3 (some p) l).trans (hrec _ _ _ h7)).trans (Paid.end_ _)
      · simp only [if_true] at h6
        cases h6; exact Paid.refl _
    · simp only [if_true] at h4
      cases h4; exact Paid.refl _

theorem dirtyPreds_paid : ∀ (k : Nat) (l : Loc) (s s' : St V), dirtyPreds k l s = .ok () s' → Paid s s' := by
  intro k
  induction k with
  | zero => intro l s s' h; cases h
  | succ k ih =>
    intro l s s' h
    unfold dirtyPreds at h
    obtain ⟨n, s1, h1, h2⟩ := bind_inv h
    obtain ⟨rfl, _⟩ := lookupAbs_same h1
    rcases hp : n.predsObs with _ | ps
    · rw [hp] at h2; cases h2
    · rw [hp] at h2
      exact dirtyLoop_paid _ ih l ps _ _ h2

theorem dirtyAllocLoop_paid (l : Loc) (ps : List Loc) : ∀ s s' : St V, dirtyAllocLoop l ps s = .ok () s' → Paid s s' := by
  induction ps with
  | nil => intro s s' h; cases h; exact Paid.refl _
  | cons p ps ih =>
    intro s s' h
    unfold dirtyAllocLoop at h
    obtain ⟨_, s1, h1, h2⟩ := bind_inv h
    refine Paid.trans ?_ (ih _ _ h2)
    unfold dirtyAllocator at h1
    obtain ⟨b, s3, h5, h6⟩ := bind_inv h1
    obtain ⟨rfl, nd, e, g1, g2, g3⟩ := succDirty_inv h5
    cases b
    · simp only [Bool.false_eq_true, if_false] at h6
      rw [M.bind_ok (setSuccDirty_ok true g1 g2)] at h6
      by_cases hpl : p = l
      · rw [if_pos hpl] at h6; cases h6
      · rw [if_neg hpl] at h6
        rw [M.bind_ok (m := evBegin _ _ _) rfl] at h6
        obtain ⟨_, s4, h7, h8⟩ := bind_inv h6
        cases h8
        exact ((Paid.visit g1 .allocate l g2 g3 (some p) l).trans (dirtyPreds_paid _ _ _ _ h7)).trans (Paid.end_ _)
    · simp only [if_true] at h6
      cases h6; exact Paid.refl _

/-- Dirtying leaves one event in the trace for each edge that it makes dirty. -/
theorem dirtyAlloc_paid {l : Loc} {s s' : St V} (h : dirtyAlloc l s = .ok () s') : Paid s s' := by
  unfold dirtyAlloc at h
  obtain ⟨_, s1, h1, h2⟩ := bind_inv h
  obtain ⟨n, s2, h3, h4⟩ := bind_inv h2
  obtain ⟨rfl, _⟩ := lookupAbs_same h3
  refine (dirtyPreds_paid _ _ _ _ h1).trans ?_
  rcases hp : n.predsAlloc with _ | ps
  · rw [hp] at h4; cases h4
  · rw [hp] at h4
    exact dirtyAllocLoop_paid l ps _ _ h4

/-! ### Predecessor edges do not matter -/

theorem predsRemove_succs {n n' : Node V} {src : Loc} (h : n.predsRemove src = some n') : n'.succsList = n.succsList := by
  cases n <;> cases h <;> rfl
theorem predsInsert_succs {n n' : Node V} {eff : Effect} {src : Loc} {d : Option (Dep V)} (h : n.predsInsert eff src d = some n') :
    n'.succsList = n.succsList := by
  cases n <;> cases h <;> rfl

theorem revokeSuccs_paid {l : Loc} {es : List (Succ V)} : ∀ {s s' : St V}, revokeSuccs l es s = .ok () s' → Paid s s' := by
  induction es with
  | nil => intro s s' h; cases h; exact Paid.refl _
  | cons e es ih =>
    intro s s' h
    unfold revokeSuccs at h
    obtain ⟨_, s1, h1, h2⟩ := bind_inv h
    refine Paid.trans ?_ (ih h2)
    unfold removePred at h1
    rw [M.bind_ok (m := evEff _ _ _) rfl] at h1
    obtain ⟨n, s2, h3, h4⟩ := bind_inv h1
    obtain ⟨rfl, hg⟩ := lookupAbs_same h3
    rcases hr : n.predsRemove l with _ | n'
    · rw [hr] at h4; cases h4
    · rw [hr] at h4; cases h4
      show _ + _ + tableDirty (s.table.put e.loc n') ≤ _
      rw [tableDirty_same s.table e.loc n n' hg (predsRemove_succs hr)]
      exact Nat.le_refl _

theorem installPreds_paid {l : Loc} {fs : List (Succ V × Option (Dep V))} :
    ∀ {s s' : St V}, installPreds l fs s = .ok () s' → Paid s s' := by
  induction fs with
  | nil => intro s s' h; cases h; exact Paid.refl _
  | cons q fs ih =>
    intro s s' h
    unfold installPreds at h
    obtain ⟨_, s1, h1, h2⟩ := bind_inv h
    refine Paid.trans ?_ (ih h2)
    unfold installPred at h1
    by_cases hd : q.1.dirty = true
    · rw [if_pos hd] at h1; cases h1
    · rw [if_neg hd] at h1
      obtain ⟨n, s2, h3, h4⟩ := bind_inv h1
      obtain ⟨rfl, hg⟩ := lookupAbs_same h3
      rcases hr : n.predsInsert q.1.effect l q.2 with _ | n'
      · rw [hr] at h4; cases h4
      · rw [hr] at h4; cases h4
        show _ + _ + tableDirty (s2.table.put q.1.loc n') ≤ _
        rw [tableDirty_same s2.table q.1.loc n n' hg (predsInsert_succs hr)]
        exact Nat.le_refl _

end Adapton
