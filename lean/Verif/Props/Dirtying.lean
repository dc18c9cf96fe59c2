import Verif.Engine.Mono
import Verif.Engine.General
import Verif.Engine.Cost
/-
C07 (dirtying terminates), C08 (dirtying only sets dirty bits), C14 (force_map prunes dirtying): for all states, that is, for
all dependence graphs, including cyclic and ill-formed ones.
-/
set_option linter.unusedSectionVars false
set_option linter.unusedVariables false
namespace Adapton
variable {V : Type} [UEq V]

/-! ### Specification -/

/-- Number of edges in the graph. -/
def edgeCount : Table V → Nat
  | [] => 0
  | (_, n) :: t => n.succsList.length + edgeCount t

/-- Edge lists that differ only in that some clean edges of the first are dirty in the second. -/
inductive OnlyDirtied : List (Succ V) → List (Succ V) → Prop
  | nil : OnlyDirtied [] []
  | cons {e : Succ V} {es es' : List (Succ V)} {b : Bool} : (e.dirty = true → b = true) → OnlyDirtied es es' →
      OnlyDirtied (e :: es) ({ e with dirty := b } :: es')

/-- Nothing but dirty bits has changed, and only from clean to dirty. -/
structure OnlyDirtyBits (s s' : St V) : Prop where
  stack : s'.stack = s.stack
  path : s'.path = s.path
  modes : s'.purity = s.purity ∧ s'.ignoreNominal = s.ignoreNominal
  noRun : s'.runs = s.runs
  cells : ∀ l nd, s.table.get l = some (.mut nd) → s'.table.get l = some (.mut nd)
  pures : ∀ l nd, s.table.get l = some (.pure nd) → s'.table.get l = some (.pure nd)
  thunks : ∀ l nd, s.table.get l = some (.comp nd) →
    ∃ es', s'.table.get l = some (.comp { nd with succs := es' }) ∧ OnlyDirtied nd.succs es'
  none : ∀ l, s.table.get l = none → s'.table.get l = none

/-! ### Proofs -/

theorem SuccsUp.onlyDirtied {a b : List (Succ V)} (h : SuccsUp a b) : OnlyDirtied a b := by
  induction h with
  | nil => exact .nil
  | @cons e e' es es' he hd _ ih =>
    cases e; cases e'
    cases he
    exact .cons hd ih

theorem Up.onlyDirtyBits {s s' : St V} (h : Up s s') : OnlyDirtyBits s s' where
  stack := h.stack
  path := h.path
  modes := ⟨h.purity, h.ign⟩
  noRun := h.runs
  cells l nd hl := by have := h.tbl l; rw [hl] at this; exact this
  pures l nd hl := by have := h.tbl l; rw [hl] at this; exact this
  thunks l nd hl := by
    have := h.tbl l; rw [hl] at this
    obtain ⟨es', h1, h2⟩ := this
    exact ⟨es', h1, h2.onlyDirtied⟩
  none l hl := by have := h.tbl l; rw [hl] at this; exact this

/-! #### Counting visits -/

/-- Writing back a node does not change the locations of the table. -/
theorem Table.put_keys (t : Table V) (l : Loc) (n n' : Node V) (h : t.get l = some n) : (t.put l n').map (·.1) = t.map (·.1) := by
  induction t with
  | nil => cases h
  | cons hd tl ih =>
    obtain ⟨k, m⟩ := hd
    simp only [Table.get] at h
    simp only [Table.put]
    split
    · rfl
    · rename_i hk
      simp only [hk, if_false] at h
      simp only [List.map_cons, ih h]

/-- Only dirty bits have changed, and each visit has used up a clean edge. -/
structure VisR (s s' : St V) : Prop where
  up : Up s s'
  keys : s'.table.map (·.1) = s.table.map (·.1)
  cnt : dirtyVisits s'.log + tableClean s'.table ≤ dirtyVisits s.log + tableClean s.table

theorem VisR.refl (s : St V) : VisR s s := ⟨Up.refl s, rfl, Nat.le_refl _⟩
theorem VisR.trans {a b c : St V} (h1 : VisR a b) (h2 : VisR b c) : VisR a c :=
  ⟨h1.up.trans h2.up, h2.keys.trans h1.keys, Nat.le_trans h2.cnt h1.cnt⟩

/-- Visit an edge: log it and mark it. -/
theorem VisR.visit {s : St V} {p : Loc} {nd : CompNode V} (h : s.table.get p = some (.comp nd)) (eff : Effect) (x : Loc)
    {e : Succ V} (hf : nd.succs.find? (Succ.matches eff x) = some e) (hd : e.dirty = false) :
    VisR s { s with
      log := Ev.begin TEff.dirty (some p) x :: s.log
      table := s.table.put p (.comp { nd with succs := setFirst eff x true nd.succs }) } := by
  refine ⟨(Up.log (s := s) (fun lg => Ev.begin TEff.dirty (some p) x :: lg)).trans
    (Up.set (s := { s with log := Ev.begin TEff.dirty (some p) x :: s.log }) h eff x), Table.put_keys _ _ _ _ h, ?_⟩
  have h1 := tableClean_put s.table p _ (.comp { nd with succs := setFirst eff x true nd.succs }) h
  have h2 := setFirst_count eff x nd.succs hf hd
  simp only [Node.succsList] at h1
  show dirtyVisits s.log + 1 + tableClean (s.table.put p _) ≤ _
  omega

theorem VisR.end_ (s : St V) : VisR s { s with log := Ev.end_ :: s.log } := ⟨Up.log _, rfl, Nat.le_refl _⟩

theorem dirtyLoop_vis (rec : Loc → M V Unit) (k : Nat)
    (hrec : ∀ p s, tableClean s.table < k → (rec p s).Sat (VisR s)) (l : Loc) (ps : List (Loc × Option (Dep V))) :
    ∀ s, tableClean s.table < k + 1 → (dirtyLoop rec l ps s).Sat (VisR s) := by
  induction ps with
  | nil => intro s _; exact VisR.refl s
  | cons hd tl ih =>
    obtain ⟨p, d⟩ := hd
    intro s hs
    unfold dirtyLoop
    refine Sat.bind (Q := VisR s) ?_ (fun _ h => h)
      (fun _ s2 _ hu => (ih s2 (Nat.lt_of_le_of_lt hu.up.measure hs)).mono (fun _ => hu.trans))
    unfold dirtyObserver
    refine Sat.bind (dirtyStop_sat d l s) (fun _ h => h ▸ VisR.refl _) ?_
    rintro b s' _ rfl
    cases b
    case true => exact VisR.refl _
    case false =>
      refine Sat.bind (succDirty_sat p .observe l s') (fun _ h => h ▸ VisR.refl _) ?_
      rintro b s2 hd rfl
      obtain ⟨-, nd, e, hg, hf, hb⟩ := succDirty_inv hd
      cases b
      case true => exact VisR.refl _
      case false =>
        by_cases hpl : p = l
        · simp only [hpl]; exact VisR.refl _
        · simp only [hpl, if_false, Bool.false_eq_true]
          rw [M.bind_ok (m := evBegin _ _ _) rfl,
            M.bind_ok (setSuccDirty_ok true (s := { s2 with log := Ev.begin TEff.dirty (some p) l :: s2.log }) hg hf)]
          have hu := VisR.visit hg .observe l hf hb
          have hlt : tableClean (s2.table.put p (.comp { nd with succs := setFirst .observe l true nd.succs })) < k := by
            have h1 := tableClean_put s2.table p _ (.comp { nd with succs := setFirst .observe l true nd.succs }) hg
            have h2 := setFirst_count .observe l nd.succs hf hb
            simp only [Node.succsList] at h1
            omega
          refine Sat.bind (Q := VisR s2) ((hrec p _ hlt).mono (fun _ => hu.trans)) (fun _ h => h) ?_
          intro _ s4 _ u4
          exact u4.trans (VisR.end_ _)

theorem dirtyPreds_vis : ∀ (k : Nat) (l : Loc) (s : St V), tableClean s.table < k →
    (dirtyPreds k l s).Sat (VisR s) := by
  intro k
  induction k with
  | zero => intro l s h; omega
  | succ k ih =>
    intro l s h
    unfold dirtyPreds
    refine Sat.bind (lookupAbs_sat l s) (fun _ h => h ▸ VisR.refl _) ?_
    rintro n s' _ rfl
    rcases hp : n.predsObs with _ | ps
    · exact VisR.refl _
    · exact dirtyLoop_vis (dirtyPreds k) k ih l _ s' h

theorem dirtyPredsTop_vis (l : Loc) (s : St V) : (dirtyPredsTop l s).Sat (VisR s) :=
  dirtyPreds_vis _ l s (by omega)

theorem dirtyAllocLoop_vis (l : Loc) (ps : List Loc) : ∀ s : St V, (dirtyAllocLoop l ps s).Sat (VisR s) := by
  induction ps with
  | nil => intro s; exact VisR.refl s
  | cons p tl ih =>
    intro s
    unfold dirtyAllocLoop
    refine Sat.bind (Q := VisR s) ?_ (fun _ h => h) (fun _ s2 _ hu => (ih s2).mono (fun _ => hu.trans))
    unfold dirtyAllocator
    refine Sat.bind (succDirty_sat p .allocate l s) (fun _ h => h ▸ VisR.refl _) ?_
    rintro b s' hd rfl
    obtain ⟨-, nd, e, hg, hf, hb⟩ := succDirty_inv hd
    cases b
    case true => exact VisR.refl _
    case false =>
      simp only [Bool.false_eq_true, if_false]
      rw [M.bind_ok (setSuccDirty_ok true (s := s') hg hf)]
      have h1 := tableClean_put s'.table p _ (.comp { nd with succs := setFirst .allocate l true nd.succs }) hg
      have h2 := setFirst_count .allocate l nd.succs hf hb
      simp only [Node.succsList] at h1
      by_cases hpl : p = l
      · rw [if_pos hpl]
        refine ⟨Up.set hg .allocate l, Table.put_keys _ _ _ _ hg, ?_⟩
        show dirtyVisits s'.log + tableClean (s'.table.put p _) ≤ _
        omega
      · rw [if_neg hpl, M.bind_ok (m := evBegin _ _ _) rfl]
        refine Sat.bind ((dirtyPredsTop_vis p _).mono (fun _ => (VisR.visit hg .allocate l hf hb).trans)) (fun _ h => h) ?_
        intro _ s4 _ u4
        exact u4.trans (VisR.end_ _)

theorem dirtyAlloc_vis (l : Loc) (s : St V) : (dirtyAlloc l s).Sat (VisR s) := by
  unfold dirtyAlloc
  refine Sat.bind (dirtyPredsTop_vis l s) (fun _ h => h) ?_
  intro _ s2 _ u2
  refine Sat.bind ((lookupAbs_sat l s2).mono (fun _ h => h ▸ u2)) (fun _ h => h) ?_
  intro n s3 _ u3
  rcases hp : n.predsAlloc with _ | ps
  · exact u3
  · exact (dirtyAllocLoop_vis l _ s3).mono (fun _ => u3.trans)

theorem cleanCount_le (es : List (Succ V)) : cleanCount es ≤ es.length := by
  induction es with
  | nil => exact Nat.le_refl _
  | cons e es ih => simp only [cleanCount, List.length_cons]; split <;> omega

theorem tableClean_le (t : Table V) : tableClean t ≤ edgeCount t := by
  induction t with
  | nil => exact Nat.le_refl _
  | cons q t ih =>
    obtain ⟨l, n⟩ := q
    have := cleanCount_le n.succsList
    simp only [tableClean, edgeCount]
    omega

/-! #### Fuel -/

theorem dirtyLoop_le {rec rec' : Loc → M V Unit} (h : ∀ p, M.le (rec p) (rec' p)) (l : Loc)
    (ps : List (Loc × Option (Dep V))) : M.le (dirtyLoop rec l ps) (dirtyLoop rec' l ps) := by
  induction ps with
  | nil => exact M.le.refl _
  | cons q ps ih =>
    obtain ⟨p, d⟩ := q
    refine M.le.bind ?_ fun _ => ih
    exact M.le.bind (M.le.refl _) fun _ => M.le.ite (M.le.refl _) (M.le.bind (M.le.refl _) fun _ => M.le.ite (M.le.refl _)
      (M.le.ite (M.le.refl _) (M.le.bind (M.le.refl _) fun _ => M.le.bind (M.le.refl _) fun _ => M.le.bind (h p) fun _ => M.le.refl _)))

/-- The fuel of the model does not matter once there is enough of it. -/
theorem dirtyPreds_le : ∀ (k k' : Nat) (l : Loc), k ≤ k' → M.le (dirtyPreds k l : M V Unit) (dirtyPreds k' l) := by
  intro k
  induction k with
  | zero => intro k' l _ s; exact .inl rfl
  | succ k ih =>
    intro k' l hk
    obtain ⟨j, rfl⟩ : ∃ j, k' = j + 1 := ⟨k' - 1, by omega⟩
    refine M.le.bind (M.le.refl _) fun n => ?_
    match hp : n.predsObs with
    | none => exact M.le.refl _
    | some ps => exact dirtyLoop_le (fun p => ih j p (by omega)) l ps

/-- **C07.** Dirtying terminates on every graph, and visits each edge at most once: for every state, the recursion (whose
depth the model bounds by the number of clean edges) is not cut off, with any larger bound the outcome is the same, and
the number of visits reported to the trace is at most the number of edges that were clean. -/
theorem C07_dirtying_terminates (l : Loc) (s : St V) :
    (∃ k, dirtyPredsTop l s = dirtyPreds k l s ∧ ∀ k', k ≤ k' → dirtyPreds k' l s = dirtyPreds k l s) ∧
    dirtyAlloc l s ≠ .oof ∧
    (∀ u s', dirtyAlloc l s = .ok u s' → dirtyVisits s'.log - dirtyVisits s.log ≤ tableClean s.table ∧
      tableClean s.table ≤ edgeCount s.table) ∧
    (∀ e s', dirtyAlloc l s = .panic e s' → dirtyVisits s'.log - dirtyVisits s.log ≤ tableClean s.table) := by
  have hv := dirtyAlloc_vis l s
  have hp := dirtyPredsTop_vis l s
  refine ⟨⟨tableClean s.table + 1, rfl, fun k' hk => ?_⟩, ?_, ?_, ?_⟩
  · rcases dirtyPreds_le _ _ l hk s with h0 | h0
    · have : dirtyPredsTop l s = .oof := h0
      rw [this] at hp
      exact hp.elim
    · exact h0
  · intro h0; rw [h0] at hv; exact hv
  · intro u s' h
    rw [h] at hv
    have := VisR.cnt (show VisR s s' from hv)
    exact ⟨by omega, tableClean_le _⟩
  · intro e s' h
    rw [h] at hv
    have := VisR.cnt (show VisR s s' from hv)
    omega

/-- **C08.** Dirtying changes nothing but dirty bits, and only from clean to dirty, whether it returns or panics. -/
theorem C08_only_dirty_bits (l : Loc) (s : St V) :
    (∀ u s', dirtyAlloc l s = .ok u s' → OnlyDirtyBits s s') ∧ (∀ e s', dirtyAlloc l s = .panic e s' → OnlyDirtyBits s s') := by
  have hv := dirtyAlloc_general l s
  refine ⟨fun u s' h => ?_, fun e s' h => ?_⟩ <;> rw [h] at hv <;> exact Up.onlyDirtyBits hv

/-! #### Pruning -/

/-- The edges by which `p` observes `l`. -/
def obsEdges (s : St V) (p l : Loc) : List (Succ V) :=
  match s.table.get p with
  | some (.comp nd) => nd.succs.filter fun e => decide (e.effect = .observe ∧ e.loc = l)
  | _ => []

theorem setFirst_filter (eff : Effect) (x l : Loc) (b : Bool) (es : List (Succ V)) (h : ¬ (eff = .observe ∧ x = l)) :
    (setFirst eff x b es).filter (fun e => decide (e.effect = .observe ∧ e.loc = l)) =
      es.filter (fun e => decide (e.effect = .observe ∧ e.loc = l)) := by
  induction es with
  | nil => rfl
  | cons e es ih =>
    simp only [setFirst]
    split
    · rename_i hm
      obtain ⟨h1, h2⟩ := Succ.matches_iff.1 hm
      have hn : ¬ (e.effect = .observe ∧ e.loc = l) := by rw [h1, h2]; exact h
      simp [hn]
    · simp only [List.filter_cons, ih]

theorem setSuccDirty_obs {q : Loc} {eff : Effect} {x : Loc} {b : Bool} {s s' : St V} {u : Unit}
    (h : setSuccDirty q eff x b s = .ok u s') (p l : Loc) (hne : ¬ (eff = .observe ∧ x = l) ∨ q ≠ p) :
    obsEdges s' p l = obsEdges s p l := by
  unfold setSuccDirty at h
  rw [M.bind_def] at h
  rcases hl : lookupAbs q s with ⟨n, s1⟩ | ⟨e, s1⟩ | _
  · rw [hl] at h
    obtain ⟨rfl, hg⟩ := lookupAbs_inv hl
    match n with
    | .comp nd =>
      simp only [] at h
      rcases hf : nd.succs.find? (Succ.matches eff x) with _ | e
      · simp only [hf] at h; cases h
      · simp only [hf] at h
        cases h
        unfold obsEdges
        simp only [Table.get_put]
        by_cases hp : p = q
        · subst hp
          rcases hne with hne | hne
          · simp only [if_true, hg]
            exact setFirst_filter _ _ _ _ _ hne
          · exact absurd rfl hne
        · rw [if_neg hp]
    | .mut nd => cases h
    | .pure nd => cases h
  · rw [hl] at h; cases h
  · rw [hl] at h; cases h

/-- Splitting a successful sequence. -/
theorem M.bind_inv {α β : Type} {m : M V α} {f : α → M V β} {s s' : St V} {b : β} (h : (m >>= f) s = .ok b s') :
    ∃ a s1, m s = .ok a s1 ∧ f a s1 = .ok b s' := by
  rw [M.bind_def] at h
  rcases hm : m s with ⟨a, s1⟩ | ⟨e, s1⟩ | _
  · rw [hm] at h; exact ⟨a, s1, rfl, h⟩
  · rw [hm] at h; cases h
  · rw [hm] at h; cases h

theorem Reads.inv {α : Type} {m : M V α} (h : Reads m) {s s' : St V} {a : α} (hm : m s = .ok a s') : s' = s := by
  rcases h s with ⟨b, h⟩ | ⟨e, h⟩
  · rw [h] at hm; cases hm; rfl
  · rw [h] at hm; cases hm

/-- One observer is processed without touching the edges from `p` to `l`: either it is not `p`, or the target is not `l`, or
the check on the dependency object stops it. -/
theorem dirtyObserver_obs {rec : Loc → M V Unit} {x q p l : Loc} {d : Option (Dep V)} {s s' : St V} {u : Unit} {mn : MutNode V}
    (hl : s.table.get l = some (.mut mn))
    (hrec : ∀ s s' u nd, s.table.get l = some (.mut mn) → s.table.get q = some (.comp nd) → rec q s = .ok u s' → obsEdges s' p l = obsEdges s p l)
    (h : dirtyObserver rec x q d s = .ok u s')
    (hne : x ≠ l ∨ q ≠ p ∨ ∀ b s1, dirtyStop d x s = .ok b s1 → b = true) : obsEdges s' p l = obsEdges s p l := by
  unfold dirtyObserver at h
  obtain ⟨b, s1, h1, h⟩ := M.bind_inv h
  cases (dirtyStop_reads d x).inv h1
  cases b
  · simp only [Bool.false_eq_true, if_false] at h
    obtain ⟨b, s2, h2, h⟩ := M.bind_inv h
    obtain ⟨hs, nd, e, hg, hf, hb⟩ := succDirty_inv h2
    subst hs
    cases b
    · simp only [Bool.false_eq_true, if_false] at h
      by_cases hq : q = x
      · rw [if_pos hq] at h; cases h
      · rw [if_neg hq, M.bind_ok (m := evBegin _ _ _) rfl] at h
        obtain ⟨_, s3, h3, h⟩ := M.bind_inv h
        obtain ⟨_, s4, h4, h⟩ := M.bind_inv h
        cases h
        have e1 : obsEdges s3 p l = obsEdges s2 p l := by
          refine setSuccDirty_obs (s := { s2 with log := Ev.begin TEff.dirty (some q) x :: s2.log }) h3 p l ?_
          rcases hne with hne | hne | hne
          · exact .inl fun h => hne h.2
          · exact .inr hne
          · exact absurd (hne _ _ h1) (by simp)
        have hg3 : ∃ nd3, s3.table.get q = some (.comp nd3) ∧ s3.table.get l = some (.mut mn) := by
          rw [setSuccDirty_ok true (s := { s2 with log := Ev.begin TEff.dirty (some q) x :: s2.log }) hg hf] at h3
          cases h3
          refine ⟨_, Table.get_put_self _ _ _, ?_⟩
          rw [Table.get_put_ne]
          · exact hl
          · rintro rfl; rw [hl] at hg; cases hg
        obtain ⟨nd3, hg3, hl3⟩ := hg3
        exact (hrec s3 s4 _ nd3 hl3 hg3 h4).trans e1
    · simp only [if_true] at h
      cases h; rfl
  · simp only [if_true] at h
    cases h; rfl

theorem dirtyPreds_obs (p l : Loc) : ∀ (k : Nat) (x : Loc) (s s' : St V) (u : Unit) (mn : MutNode V),
    s.table.get l = some (.mut mn) → x ≠ l → dirtyPreds k x s = .ok u s' → obsEdges s' p l = obsEdges s p l := by
  intro k
  induction k with
  | zero => intro x s s' u mn _ _ h; cases h
  | succ k ih =>
    intro x s s' u mn hl hx h
    unfold dirtyPreds at h
    replace h := M.bind_inv h
    obtain ⟨n, s1, h1, h⟩ := h
    obtain ⟨rfl, h0⟩ := lookupAbs_inv h1
    rcases hp : n.predsObs with _ | ps
    · rw [hp] at h; cases h
    · rw [hp] at h
      simp only [] at h
      clear hp h1 h0
      induction ps generalizing s1 with
      | nil => cases h; rfl
      | cons q ps ihp =>
        obtain ⟨q, d⟩ := q
        unfold dirtyLoop at h
        obtain ⟨_, s2, h2, h⟩ := M.bind_inv h
        have hup : Up s1 s2 := by
          have := dirtyLoop_general (dirtyPreds (V := V) (tableClean s1.table)) (tableClean s1.table) (dirtyPreds_general _) x [(q, d)] s1 (by omega)
          have hle := dirtyLoop_le (fun p => dirtyPreds_le (V := V) _ (max k (tableClean s1.table)) p (Nat.le_max_left ..)) x [(q, d)] s1
          have hle2 := dirtyLoop_le (fun p => dirtyPreds_le (V := V) _ (max k (tableClean s1.table)) p (Nat.le_max_right ..)) x [(q, d)] s1
          have h3 : dirtyLoop (dirtyPreds k) x [(q, d)] s1 = .ok () s2 := by
            unfold dirtyLoop
            rw [M.bind_ok h2]; rfl
          rcases hle with hle | hle
          · rw [h3] at hle; cases hle
          · rcases hle2 with hle2 | hle2
            · rw [hle2] at this; exact this.elim
            · rw [← hle2, hle, h3] at this; exact this
        have hl2 : s2.table.get l = some (.mut mn) := by
          have := hup.tbl l; rw [hl] at this; exact this
        have e1 : obsEdges s2 p l = obsEdges s1 p l :=
          dirtyObserver_obs hl (fun s s' u nd hl hg hr => ih q s s' u mn hl (by rintro rfl; rw [hl] at hg; cases hg) hr) h2 (.inl hx)
        exact (ihp s2 hl2 h).trans e1

theorem dirtyPredsTop_obs {p l x : Loc} {s s' : St V} {u : Unit} {mn : MutNode V} (hl : s.table.get l = some (.mut mn))
    (hx : x ≠ l) (h : dirtyPredsTop x s = .ok u s') : obsEdges s' p l = obsEdges s p l :=
  dirtyPreds_obs p l _ x s s' u mn hl hx h

theorem Out.Sat.ok {α : Type} {o : Out V α} {P : St V → Prop} (h : o.Sat P) {a : α} {s' : St V} (ho : o = .ok a s') : P s' := by
  rw [ho] at h; exact h

theorem dirtyAllocLoop_obs (p l : Loc) (ps : List Loc) : ∀ (s s' : St V) (u : Unit) (mn : MutNode V),
    s.table.get l = some (.mut mn) → dirtyAllocLoop l ps s = .ok u s' → obsEdges s' p l = obsEdges s p l := by
  induction ps with
  | nil => intro s s' u mn _ h; cases h; rfl
  | cons q ps ih =>
    intro s s' u mn hl h
    unfold dirtyAllocLoop at h
    obtain ⟨_, s2, h2, h⟩ := M.bind_inv h
    have hup : Up s s2 := by
      have := dirtyAllocLoop_general l [q] s
      unfold dirtyAllocLoop at this
      rw [M.bind_ok h2] at this
      exact this
    have hl2 : s2.table.get l = some (.mut mn) := by have := hup.tbl l; rw [hl] at this; exact this
    refine (ih s2 s' u mn hl2 h).trans ?_
    unfold dirtyAllocator at h2
    obtain ⟨b, s3, h3, h2⟩ := M.bind_inv h2
    obtain ⟨hs, nd, e, hg, hf, hb⟩ := succDirty_inv h3
    subst hs
    cases b
    · simp only [Bool.false_eq_true, if_false] at h2
      obtain ⟨_, s4, h4, h2⟩ := M.bind_inv h2
      have e1 := setSuccDirty_obs h4 p l (.inl (by simp))
      have hl4 : s4.table.get l = some (.mut mn) := by
        have := ((setSuccDirty_sat q .allocate l s3).ok h4).tbl l; rw [hl] at this; exact this
      by_cases hq : q = l
      · rw [if_pos hq] at h2; cases h2
      · rw [if_neg hq, M.bind_ok (m := evBegin _ _ _) rfl] at h2
        obtain ⟨_, s5, h5, h2⟩ := M.bind_inv h2
        cases h2
        exact (dirtyPredsTop_obs (s := { s4 with log := Ev.begin TEff.dirty (some q) l :: s4.log }) hl4 hq h5).trans e1
    · simp only [if_true] at h2
      cases h2; rfl

/-- Dirtying by `set(l,v)` stops at observers that observed `l` through a map that does not distinguish the change, or through
`force_abs`. -/
theorem set_stops (s s' : St V) (l p : Loc) (mn : MutNode V) (v : V) (hl : s.table.get l = some (.mut mn))
    (hobs : ∀ q ∈ mn.preds, q.loc = p → q.effect = .observe →
      (∃ f r, q.dep = some (.forceMap mn.ty f r) ∧ r ≈ᵤ f v) ∨ q.dep = some .forceAbs)
    (h : opSet mn.ty l v s = .ok () s') : obsEdges s' p l = obsEdges s p l := by
  unfold opSet at h
  rw [M.bind_ok (M.get_def s)] at h
  cases hst : s.stack.isEmpty
  · rw [hst] at h; cases h
  rw [hst] at h
  simp only [if_true] at h
  unfold setCell at h
  rw [M.bind_ok (resNode_ok (ty := mn.ty) hl rfl)] at h
  simp only [] at h
  by_cases hv : mn.val ≈ᵤ v
  · rw [if_pos hv] at h; cases h; rfl
  rw [if_neg hv, M.bind_ok (m := putNode _ _) rfl] at h
  simp only [] at h
  generalize hs1 : ({ s with table := s.table.put l (.mut { mn with val := v }) } : St V) = s1 at h
  have hl1 : s1.table.get l = some (.mut { mn with val := v }) := by rw [← hs1]; exact Table.get_put_self _ _ _
  have e1 : obsEdges s1 p l = obsEdges s p l := by
    rw [← hs1]
    unfold obsEdges
    simp only [Table.get_put]
    by_cases hpl : p = l
    · rw [if_pos hpl, hpl, hl]
    · rw [if_neg hpl]
  rw [← e1]
  unfold dirtyAlloc at h
  replace h := M.bind_inv h
  obtain ⟨_, s2, h2, h⟩ := h
  have hup : Up s1 s2 := (dirtyPredsTop_general l s1).ok h2
  have hl2 : s2.table.get l = some (.mut { mn with val := v }) := by have := hup.tbl l; rw [hl1] at this; exact this
  rw [M.bind_ok (lookupAbs_ok hl2)] at h
  refine (dirtyAllocLoop_obs p l _ s2 s' () _ hl2 h).trans ?_
  -- the observers of `l`
  unfold dirtyPredsTop dirtyPreds at h2
  rw [M.bind_ok (lookupAbs_ok hl1)] at h2
  simp only [Node.predsObs] at h2
  have hps : ∀ q ∈ (mn.preds.filterMap fun p => if p.effect = .observe then some (p.loc, p.dep) else none), q.1 = p →
      (∃ f r, q.2 = some (.forceMap mn.ty f r) ∧ r ≈ᵤ f v) ∨ q.2 = some .forceAbs := by
    intro q hq hqp
    obtain ⟨a, ha, haq⟩ := List.mem_filterMap.1 hq
    split at haq
    · rename_i hae
      cases haq
      exact hobs a ha hqp hae
    · cases haq
  generalize hK : tableClean s1.table = K at h2
  have hKb : tableClean s1.table < K + 1 := by omega
  clear hK h hup hl2 e1 hs1
  generalize (mn.preds.filterMap fun p => if p.effect = .observe then some (p.loc, p.dep) else none) = ps at h2 hps
  induction ps generalizing s1 with
  | nil => cases h2; rfl
  | cons q ps ih =>
    obtain ⟨q, d⟩ := q
    unfold dirtyLoop at h2
    obtain ⟨_, s3, h3, h2⟩ := M.bind_inv h2
    have hup : Up s1 s3 := by
      have := dirtyLoop_general (dirtyPreds (V := V) K) K (dirtyPreds_general K) l [(q, d)] s1 hKb
      unfold dirtyLoop at this
      rw [M.bind_ok h3] at this
      exact this
    have hl3 : s3.table.get l = some (.mut { mn with val := v }) := by have := hup.tbl l; rw [hl1] at this; exact this
    refine (ih s3 hl3 (Nat.lt_of_le_of_lt hup.measure hKb) h2 (fun q hq => hps q (List.mem_cons_of_mem _ hq))).trans ?_
    refine dirtyObserver_obs hl1 (fun s s' u nd hl hg hr => ?_) h3 ?_
    · exact dirtyPreds_obs p l K q s s' u _ hl (by rintro rfl; rw [hl] at hg; cases hg) hr
    · by_cases hqp : q = p
      · right; right
        rcases hps (q, d) (List.mem_cons_self ..) hqp with ⟨f, r, hf, hr⟩ | hf
        · simp only at hf
          subst hf
          intro b s4 hb
          unfold dirtyStop checkForceMapDep at hb
          simp only [] at hb
          rw [M.bind_def, M.bind_ok (resNode_ok (ty := mn.ty) hl1 rfl)] at hb
          simp only [hr, not_true_eq_false, decide_false] at hb
          cases hb
          rfl
        · simp only at hf
          subst hf
          intro b s4 hb
          unfold dirtyStop at hb
          cases hb
          rfl
      · exact .inr (.inl hqp)

/-- **C14.** `force_map` prunes dirtying: if every observation of the cell `l` by `p` that the cell knows of went through a
map whose image of the new value `v` equals (in the user's sense) the image recorded on the edge, then `set(l,v)` leaves every edge by which `p`
observes `l` as it was, in every state, whatever else is dirtied. -/
theorem C14_force_map_prunes (s s' : St V) (l p : Loc) (mn : MutNode V) (v : V) (hl : s.table.get l = some (.mut mn))
    (hobs : ∀ q ∈ mn.preds, q.loc = p → q.effect = .observe → ∃ f r, q.dep = some (.forceMap mn.ty f r) ∧ r ≈ᵤ f v)
    (h : opSet mn.ty l v s = .ok () s') : obsEdges s' p l = obsEdges s p l :=
  set_stops s s' l p mn v hl (fun q hq h1 h2 => .inl (hobs q hq h1 h2)) h

/-! ### The hypotheses are met -/
namespace DirtyEx

def nm (n : Nat) : Name := ⟨0, .usize n⟩
def at_ (n : Nat) : Loc := ⟨.empty, .nominal (nm n)⟩

/-- A cell holding 25, observed once, by a thunk, through the map `(· / 10)`. -/
def obs1 : MutNode Nat := ⟨0, [⟨at_ 2, .observe, some (.forceMap 0 (· / 10) 2)⟩], 25⟩
def st1 : St Nat := { initSt true false with table :=
  [ (at_ 1, .mut obs1),
    (at_ 2, .comp ⟨0, [], [⟨false, at_ 1, .observe, .forceMap 0 (· / 10) 2⟩], 0, 0, 0, some 1⟩) ] }

/-- It is set to 29, which has the same image: the hypotheses of C14 hold. -/
example : st1.table.get (at_ 1) = some (.mut obs1) ∧
    (∀ q ∈ obs1.preds, q.loc = at_ 2 → q.effect = .observe → ∃ f r, q.dep = some (.forceMap obs1.ty f r) ∧ r ≈ᵤ f 29) := by
  refine ⟨rfl, ?_⟩
  intro q hq _ _
  simp only [obs1, List.mem_cons, List.not_mem_nil, or_false] at hq
  subst hq
  exact ⟨(· / 10), 2, rfl, rfl⟩

/-- The edge stays clean, though the value has changed; setting it to 31 dirties the edge. -/
example : (match opSet 0 (at_ 1) 29 st1 with | .ok _ s' => (obsEdges s' (at_ 2) (at_ 1)).map (·.dirty) | _ => []) = [false] ∧
  (match opSet 0 (at_ 1) 31 st1 with | .ok _ s' => (obsEdges s' (at_ 2) (at_ 1)).map (·.dirty) | _ => []) = [true] := by
  decide +kernel

/-- A cyclic graph: two thunks that observe each other, and a cell observed by one of them. -/
def cyc : St Nat := { initSt true false with table :=
  [ (at_ 0, .mut ⟨0, [⟨at_ 1, .observe, none⟩], 5⟩),
    (at_ 1, .comp ⟨0, [⟨at_ 2, .observe, none⟩], [⟨false, at_ 0, .observe, .force 0 5⟩, ⟨false, at_ 2, .observe, .force 0 1⟩], 0, 0, 0, some 1⟩),
    (at_ 2, .comp ⟨0, [⟨at_ 1, .observe, none⟩], [⟨false, at_ 1, .observe, .force 0 1⟩], 0, 0, 0, some 1⟩) ] }

/-- Dirtying terminates on it after visiting its three edges, all of which are dirty afterwards. -/
example : (match opSet 0 (at_ 0) 6 cyc with | .ok _ s' => some (dirtyVisits s'.log, tableClean cyc.table, tableClean s'.table) | _ => none) = some (3, 3, 0) := by decide +kernel

end DirtyEx
end Adapton
