import Verif.Props.Space
/-
C95: how often thunks are run in a whole history.  Each run is paid for by an allocation (of a new thunk, or of one with another argument) or by a dependency that dirtying has walked over; each pays
once.
-/
set_option linter.unusedSectionVars false
set_option linter.unusedVariables false
namespace Adapton
open Ref (Sig Kind Means)
variable {V : Type} [DecidableEq V]

/-! ### Specification: what is counted in the trace
`examined` and `walked` are those of C93, `structurals` (locations with a structural name) that of C91. -/

/-- The event says that a dependency was examined and found unchanged. -/
def isCleaned : Ev → Bool
  | .eff .cleanEdge _ _ => true
  | _ => false
/-- The event says that a thunk was allocated which is new, or has another argument than before. -/
def isNewThunk : Ev → Bool
  | .begin (.alloc .locFresh .thunk) _ _ => true
  | .begin (.alloc (.locExists true) .thunk) _ _ => true
  | _ => false
def cleaned (tr : List Ev) : Nat := tr.countP isCleaned
def thunksAllocated (tr : List Ev) : Nat := tr.countP isNewThunk
/-- The thunks that have no result. -/
def unevaluated (s : St V) : Nat := s.table.countP fun p => match p.2 with | .comp nd => nd.res.isNone | _ => false

/-! ### Proofs -/

theorem cleanings_eq (tr : List Ev) : cleanings tr = cleaned tr := by
  unfold cleaned
  induction tr with
  | nil => rfl
  | cons e tr ih =>
    rw [List.countP_cons, ← ih]
    rcases e with ⟨e, a, b⟩ | _ | ⟨e, a, b⟩
    · rfl
    · rfl
    · cases e <;> rfl
theorem newThunks_eq (tr : List Ev) : newThunks tr = thunksAllocated tr := by
  unfold thunksAllocated
  induction tr with
  | nil => rfl
  | cons e tr ih =>
    rw [List.countP_cons, ← ih]
    rcases e with ⟨⟨c, k⟩ | c | _ | _ | _ | _ | _, a, b⟩ | _ | ⟨e, a, b⟩
    · rcases c with _ | ⟨_ | _⟩ <;> cases k <;> rfl
    all_goals rfl
theorem missing_le (s : St V) : missing s.locs s.table ≤ unevaluated s := by
  unfold unevaluated
  generalize s.table = t
  generalize s.locs = K
  induction t generalizing K with
  | nil => exact Nat.le_refl _
  | cons a t ih =>
    obtain ⟨l, n⟩ := a
    have := ih (l :: K)
    rw [List.countP_cons]
    simp only [missing]
    have h : (match n with | .comp nd => nd.res.isNone | _ => false) = n.blank := by cases n <;> rfl
    simp only [h]
    by_cases hb : n.blank = true
    · rw [if_pos hb]; split <;> omega
    · rw [if_neg hb, if_neg (fun h => hb h.1)]; omega

/-- **C95.** Let a history `ps ++ qs` have a meaning.  The thunks run while `qs` runs, `rs`, and the dependencies found unchanged meanwhile, are together at most the dependencies examined, the thunks
allocated that are new or changed, the new structurally named locations, and the thunks that had no result when `qs` began. -/
theorem C95_cost_of_running (sig : Sig) (env : Env V) (ps qs : List (Prog V)) (us : List V)
    (h : Means sig env (ps ++ qs) us) (purity : Bool) (hp : purity = true → sig.pu = true)
    (n m : Nat) (vs ws : List V) (s s' : St V)
    (hr : runSession env n ps (initSt purity sig.mode) = .ok vs s) (hq : runSession env m qs s = .ok ws s') :
    ∃ tr rs, s'.log = tr ++ s.log ∧ s'.runs = rs ++ s.runs ∧
      rs.length + cleaned tr + structurals s.table ≤ examined tr + thunksAllocated tr + structurals s'.table + unevaluated s := by
  have h1 := (parts_paid sig env ps qs us h purity hp n m vs ws s s' hr hq).2
  have hg := runSession_gen env m qs s
  rw [hq] at hg
  obtain ⟨tr, htr, _⟩ := hg.log
  obtain ⟨rs, hrs⟩ := hg.runs
  refine ⟨tr, rs, htr, hrs, ?_⟩
  have h2 := missing_le s
  unfold Earn EarnTo spent earned at h1
  rw [cleanings_eq, cleanings_eq, newThunks_eq, newThunks_eq, cleanRecs_eq, cleanRecs_eq, htr, hrs] at h1
  simp only [examined, cleaned, thunksAllocated, List.countP_append, List.length_append] at h1 ⊢
  omega

/-- **C95.** Over a whole history from a new engine: the thunks run and the dependencies found unchanged are together at most the dependencies examined, the thunks allocated that are new or changed,
and the structurally named locations. -/
theorem C95_from_start (sig : Sig) (env : Env V) (ps : List (Prog V)) (us : List V)
    (h : Means sig env ps us) (purity : Bool) (hp : purity = true → sig.pu = true)
    (n : Nat) (vs : List V) (s : St V) (hr : runSession env n ps (initSt purity sig.mode) = .ok vs s) :
    s.runs.length + cleaned s.log ≤ examined s.log + thunksAllocated s.log + structurals s.table := by
  obtain ⟨tr, rs, h1, h2, h3⟩ := C95_cost_of_running sig env [] ps us h purity hp 0 n [] vs (initSt purity sig.mode) s rfl hr
  have e1 : s.log = tr := by rw [h1]; exact List.append_nil _
  have e2 : s.runs = rs := by rw [h2]; exact List.append_nil _
  have e3 : structurals (initSt purity sig.mode : St V).table = 0 := rfl
  have e4 : unevaluated (initSt purity sig.mode : St V) = 0 := rfl
  rw [e1, e2]; omega

/-- **C95.** With C93: the thunks run, the dependencies found unchanged and those still dirty in the end are together at most the new or changed thunks allocated, the structurally named locations, and
the dependencies that dirtying has walked over.  So every run beyond the first of a thunk with its argument is due to a dependency that an edit made dirty, and each of these pays for one run only. -/
theorem C95_runs_are_paid_for (sig : Sig) (env : Env V) (ps : List (Prog V)) (us : List V)
    (h : Means sig env ps us) (purity : Bool) (hp : purity = true → sig.pu = true)
    (n : Nat) (vs : List V) (s : St V) (hr : runSession env n ps (initSt purity sig.mode) = .ok vs s) :
    s.runs.length + cleaned s.log + dirtyEdges s ≤ thunksAllocated s.log + structurals s.table + walked s.log := by
  have h1 := C95_from_start sig env ps us h purity hp n vs s hr
  have h2 := C93_from_start sig env ps us h purity hp n vs s hr
  omega

/-- **C95.** If no dependency is dirty, every thunk has a result, and the rest of the history neither dirties anything nor allocates a new or changed thunk or a new structurally named location, then it
runs no thunk. -/
theorem C95_nothing_to_run (sig : Sig) (env : Env V) (ps qs : List (Prog V)) (us : List V)
    (h : Means sig env (ps ++ qs) us) (purity : Bool) (hp : purity = true → sig.pu = true)
    (n m : Nat) (vs ws : List V) (s s' : St V)
    (hr : runSession env n ps (initSt purity sig.mode) = .ok vs s) (hq : runSession env m qs s = .ok ws s')
    (hd : dirtyEdges s = 0) (hu : unevaluated s = 0) (hw : walked s'.log = walked s.log) (ha : thunksAllocated s'.log = thunksAllocated s.log)
    (hs : structurals s'.table = structurals s.table) : s'.runs = s.runs := by
  obtain ⟨tr, rs, h1, h2, h3⟩ := C95_cost_of_running sig env ps qs us h purity hp n m vs ws s s' hr hq
  obtain ⟨tr', g1, g2⟩ := C93_cost_of_cleaning sig env ps qs us h purity hp n m vs ws s s' hr hq
  have : tr' = tr := by rw [h1] at g1; exact (List.append_cancel_right g1).symm
  subst this
  rw [h1] at hw ha
  simp only [walked, thunksAllocated, List.countP_append] at hw ha
  simp only [walked, thunksAllocated] at g2 h3
  have : rs.length = 0 := by omega
  rw [h2, List.eq_nil_of_length_eq_zero this]; rfl

/-! ### A concrete history, and one without a meaning -/
namespace EvalEx
open AmortEx (nm at_ start sets ask)
open CleanCostEx (hist one)

/-- Results; thunks run, cleaned, examined, new or changed thunks, walked, dirty. -/
def counts (env : Env Int) (ps : List (Prog Int)) : List Int × Nat × Nat × Nat × Nat × Nat × Nat :=
  match runSession env 20 ps (initSt true false) with
  | .ok vs s => (vs, s.runs.length, cleaned s.log, examined s.log, thunksAllocated s.log, walked s.log, dirtyEdges s)
  | _ => ([], 0, 0, 0, 0, 0, 0)

-- Two new thunks are run by the first demand.  Six sets dirty three dependencies; the demand finds all three unchanged and runs nothing.  One more set dirties two dependencies; both are found
-- changed, and both thunks run again.  The bounds are met with equality: 4 + 3 = 5 + 2 (from start) and 4 + 3 + 0 = 2 + 0 + 5 (with C93).
example : counts AmortEx.env [start] = ([30], 2, 0, 0, 2, 0, 0) := by decide +kernel
example : counts AmortEx.env [start, sets] = ([30, 0], 2, 0, 0, 2, 3, 3) := by decide +kernel
example : counts AmortEx.env [start, sets, ask] = ([30, 0, 30], 2, 3, 3, 2, 3, 0) := by decide +kernel
example : counts AmortEx.env hist = ([30, 0, 30, 0, 100, 100], 4, 3, 5, 2, 5, 0) := by decide +kernel
-- The theorem, for this history (which has a meaning).
example (n : Nat) (vs : List Int) (s : St Int) (hr : runSession AmortEx.env n hist (initSt true false) = .ok vs s) :
    s.runs.length + cleaned s.log + dirtyEdges s ≤ thunksAllocated s.log + structurals s.table + walked s.log :=
  C95_runs_are_paid_for CleanCostEx.sig AmortEx.env hist _ CleanCostEx.means true (fun _ => rfl) n vs s hr

/-- **C95.** The bound of `C95_from_start` needs the meaning: in the cyclic program of C94 a thunk is run again while it is running.  Four runs and one dependency found unchanged, but only one
dependency was examined and three thunks were allocated (two new, one changed); there is no structurally named location. -/
theorem C95_needs_meaning : counts SpaceEx.env [SpaceEx.start, SpaceEx.again] = ([1, 1], 4, 1, 1, 3, 3, 0) := by decide +kernel
end EvalEx
end Adapton
