import Verif.Engine.Owed
import Verif.Engine.GeneralOps
import Verif.Props.Prune
import Verif.Props.Macros
/-
C101: a cell or thunk that a thunk has allocated belongs to that thunk.  If someone else changes it (`set`, `cell`, `thunk` with another content), its owner
is run again, at its next demand at the latest, even if the change has been undone before; so such changes do not last.  Two thunks that allocate the same
name with different contents undo each other's work for ever.
engine.rs:1330-1401 (`dirty_alloc`, `set_`), 994-1029 (`clean_comp`), 1037-1051 (`clean` of the two kinds of allocations).
-/
set_option linter.unusedSectionVars false
set_option linter.unusedVariables false
namespace Adapton
variable {V : Type} [UEq V]

/-! ### Specification -/

/-- The last run of the thunk `x` has allocated `c` under a name, and the graph knows it at both ends. -/
def Allocated (x c : Loc) (s : St V) : Prop :=
  (∃ nd, s.table.get x = some (.comp nd) ∧ (∃ e ∈ nd.succs, e.effect = .allocate ∧ e.loc = c) ∧
    ∀ e ∈ nd.succs, e.effect = .allocate → e.loc = c → (∃ v, e.dep = .allocCell v) ∨ ∃ v, e.dep = .allocNom v) ∧
  ∃ n ps, s.table.get c = some n ∧ n.predsAlloc = some ps ∧ x ∈ ps

/-- The program starts by giving the cell or thunk `c` another content: `set`, or `cell` or `thunk` with the same name, outside of structural mode. -/
inductive Overwrites (s : St V) (c : Loc) : Prog V → Prop
  | set (ty : Ty) (nd : MutNode V) (v : V) (k : Prog V) : s.table.get c = some (.mut nd) → ¬ nd.val ≈ᵤ v → Overwrites s c (.set ty c v k)
  | cell (ty : Ty) (nm : Name) (nd : MutNode V) (v : V) (k : Loc → Prog V) : c = ⟨s.path, .nominal nm⟩ → s.ignoreNominal = false →
      s.table.get c = some (.mut nd) → ¬ nd.val ≈ᵤ v → Overwrites s c (.cell ty nm v k)
  | thunk (ty : Ty) (nm : Name) (pp : ProgPt) (fn : FnId) (nd : CompNode V) (v : V) (k : Loc → Prog V) : c = ⟨s.path, .nominal nm⟩ → s.ignoreNominal = false →
      s.table.get c = some (.comp nd) → ¬ nd.arg ≈ᵤ v → Overwrites s c (.thunk ty (.nominal nm) pp fn v k)

/-! ### Proof -/

theorem Allocated.up {x c : Loc} {s s' : St V} (hu : Up s s') (h : Allocated x c s) : Allocated x c s' := by
  obtain ⟨⟨nd, h1, ⟨e, h2, h3, h4⟩, h5⟩, n, ps, g1, g2, g3⟩ := h
  have ht := hu.tbl x
  rw [h1] at ht
  obtain ⟨es', k1, k2⟩ := ht
  have hb : ∀ (e0 e : Succ V), e0.edge = e.edge → e0.dep = e.dep ∧ e0.effect = e.effect ∧ e0.loc = e.loc := by
    intro e0 e k
    cases e0; cases e; cases k; exact ⟨rfl, rfl, rfl⟩
  refine ⟨⟨_, k1, ?_, fun e he h6 h7 => ?_⟩, ?_⟩
  · obtain ⟨e', j1, j2⟩ := k2.mem_left h2
    obtain ⟨_, j3, j4⟩ := hb _ _ j2
    exact ⟨e', j1, j3.trans h3, j4.trans h4⟩
  · obtain ⟨e0, j1, j2⟩ := k2.mem_right he
    obtain ⟨j3, j4, j5⟩ := hb _ _ j2
    rw [← j3]
    exact h5 e0 j1 (j4.trans h6) (j5.trans h7)
  · have hc := hu.tbl c
    rw [g1] at hc
    match n with
    | .comp cn =>
      obtain ⟨es2, j1, _⟩ := hc
      exact ⟨_, ps, j1, g2, g3⟩
    | .mut cn => exact ⟨_, ps, hc, g2, g3⟩
    | .pure cn => exact ⟨_, ps, hc, g2, g3⟩

theorem Allocated.owed {x c : Loc} {s : St V} (h : Allocated x c s) (hd : ∀ nd, s.table.get x = some (.comp nd) → KeyDirty nd.succs .allocate c) : Owed x c s := by
  obtain ⟨⟨nd, h1, _, h5⟩, _⟩ := h
  refine ⟨nd, h1, hd nd h1, fun e he h6 h7 => ?_⟩
  rcases h5 e he h6 h7 with ⟨v, hv⟩ | ⟨v, hv⟩ <;> rw [hv] <;> trivial

/-- Dirtying the allocator `p` flags its record. -/
theorem dirtyAllocator_owed {p c : Loc} {s s' : St V} {u : Unit} (ha : Allocated p c s) (h : dirtyAllocator c p s = .ok u s') : Owed p c s' := by
  unfold dirtyAllocator at h
  obtain ⟨b, s1, h1, hh⟩ := M.bind_inv h
  clear h
  obtain ⟨rfl, nd, e, g1, g2, g3⟩ := succDirty_inv h1
  have h := hh
  clear hh
  by_cases hb : b = true
  · rw [if_pos hb] at h
    cases h
    refine ha.owed fun nd' g => ?_
    rw [g1] at g; cases g
    exact ⟨e, g2, g3.trans hb⟩
  · rw [if_neg hb] at h
    obtain ⟨_, s2, h2, h⟩ := M.bind_inv h
    have hup := (setSuccDirty_sat p .allocate c s1).ok h2
    have ho : Owed p c s2 := by
      refine (ha.up hup).owed fun nd' g => ?_
      unfold setSuccDirty at h2
      rw [M.bind_ok (lookupAbs_ok g1)] at h2
      simp only [g2] at h2
      unfold putNode at h2
      cases h2
      have g : (s1.table.put p (.comp { nd with succs := setFirst .allocate c true nd.succs })).get p = some (.comp nd') := g
      rw [Table.get_put_self] at g
      cases g
      exact setFirst_dirty _ _ _ g2
    by_cases hp : p = c
    · rw [if_pos hp] at h; cases h
    · rw [if_neg hp, M.bind_ok (m := evBegin _ _ _) rfl] at h
      obtain ⟨_, s3, h3, h⟩ := M.bind_inv h
      cases h
      have ho2 : Owed p c { s2 with log := Ev.begin TEff.dirty (some p) c :: s2.log } := ho
      have ho3 := ho2.up ((dirtyPredsTop_general _ _).ok h3)
      exact ho3

theorem dirtyAllocLoop_owed {x c : Loc} (ps : List Loc) : ∀ {s s' : St V} {u : Unit}, Allocated x c s → x ∈ ps → dirtyAllocLoop c ps s = .ok u s' → Owed x c s' := by
  induction ps with
  | nil => intro s s' u _ hx; cases hx
  | cons p ps ih =>
    intro s s' u ha hx h
    unfold dirtyAllocLoop at h
    obtain ⟨_, s1, h1, hh⟩ := M.bind_inv h
    clear h
    have h := hh
    by_cases hp : x = p
    · subst hp
      exact (dirtyAllocator_owed ha h1).up ((dirtyAllocLoop_general c ps s1).ok h)
    · have hup : Up s s1 := by
        have := dirtyAllocLoop_general c [p] s
        unfold dirtyAllocLoop at this
        rw [M.bind_ok h1] at this
        exact this
      exact ih (ha.up hup) ((List.mem_cons.1 hx).resolve_left hp) h

theorem dirtyAlloc_owed {x c : Loc} {s s' : St V} {u : Unit} (ha : Allocated x c s) (h : dirtyAlloc c s = .ok u s') : Owed x c s' := by
  unfold dirtyAlloc at h
  obtain ⟨_, s1, h1, h⟩ := M.bind_inv h
  have ha1 := ha.up ((dirtyPredsTop_general _ _).ok h1)
  obtain ⟨n, s2, h2, hh⟩ := M.bind_inv h
  clear h
  obtain ⟨rfl, g⟩ := lookupAbs_inv h2
  have h := hh
  clear hh
  obtain ⟨n', ps, g1, g2, g3⟩ := ha1.2
  rw [g] at g1; cases g1
  rw [g2] at h
  exact dirtyAllocLoop_owed ps ha1 g3 h

/-- Another content at `c`, with the same predecessors. -/
theorem Allocated.put {x c : Loc} {s : St V} {n n' : Node V} (ha : Allocated x c s) (hg : s.table.get c = some n) (hp : n'.predsAlloc = n.predsAlloc) (hs : ∀ nd, n = .comp nd → ∃ nd', n' = .comp nd' ∧ nd'.succs = nd.succs) :
    Allocated x c { s with table := s.table.put c n' } := by
  obtain ⟨⟨nd, h1, h2, h5⟩, n0, ps, g1, g2, g3⟩ := ha
  rw [hg] at g1; cases g1
  refine ⟨?_, n', ps, by show (s.table.put c n').get c = _; rw [Table.get_put_self], hp.trans g2, g3⟩
  by_cases hx : c = x
  · subst hx
    rw [hg] at h1
    cases h1
    obtain ⟨nd', k1, k2⟩ := hs nd rfl
    refine ⟨nd', by show (s.table.put c n').get c = _; rw [Table.get_put_self, k1], ?_, ?_⟩
    · rw [k2]; exact h2
    · rw [k2]; exact h5
  · exact ⟨nd, by show (s.table.put c n').get x = _; rw [Table.get_put_ne _ _ (fun h => hx h.symm), h1], h2, h5⟩

theorem setCell_owed {x c : Loc} {s s' : St V} {u : Unit} {nd : MutNode V} {ty : Ty} {v : V} (ha : Allocated x c s) (hg : s.table.get c = some (.mut nd)) (hne : ¬ nd.val ≈ᵤ v)
    (h : setCell ty c v s = .ok u s') : Owed x c s' := by
  unfold setCell at h
  obtain ⟨n, s1, h1, hh⟩ := M.bind_inv h
  clear h
  obtain ⟨rfl, g1, _⟩ := resNode_inv h1
  rw [hg] at g1; cases g1
  have h : (if nd.val ≈ᵤ v then Pure.pure () else (do putNode c (.mut { nd with val := v }); dirtyAlloc c) : M V Unit) s1 = .ok u s' := hh
  rw [if_neg hne] at h
  obtain ⟨_, s2, h2, h⟩ := M.bind_inv h
  cases h2
  exact dirtyAlloc_owed (ha.put (n := .mut nd) (n' := .mut { nd with val := v }) hg rfl (fun _ h => by cases h)) h

theorem Owed.same {x c : Loc} {s s' : St V} (ht : s'.table = s.table) (h : Owed x c s) : Owed x c s' := by
  unfold Owed
  rw [ht]
  exact h

theorem recordEdge_owed {x c : Loc} {e : Succ V} {d : Option (Dep V)} {s s' : St V} {u : Unit} (ho : Owed x c s) (h : recordEdge e d s = .ok u s') : Owed x c s' := by
  unfold recordEdge at h
  rw [M.modify_def] at h
  rcases hs : s.stack with _ | ⟨fr, K⟩ <;> simp only [hs] at h <;> cases h
  · exact ho
  · exact Owed.same (s := s) rfl ho

/-- Each way of giving `c` another content flags the record of `x`. -/
theorem Overwrites.owed {env : Env V} {x c : Loc} {n : Nat} {s s' : St V} {p : Prog V} {u : V} (ha : Allocated x c s) (ho : Overwrites s c p) (h : exec env n p s = .ok u s') :
    ∃ rs, s'.runs = rs ++ s.runs ∧ (x ∉ rs → Owed x c s') := by
  have hexec : ∀ (q : Prog V) (s1 : St V), Owed x c s1 → (∃ rs, s1.runs = rs ++ s.runs) → exec env n q s1 = .ok u s' → ∃ rs, s'.runs = rs ++ s.runs ∧ (x ∉ rs → Owed x c s') := by
    intro q s1 h1 ⟨r1, h2⟩ h3
    have := exec_kept env x c n q s1
    rw [h3] at this
    obtain ⟨rs, a, b⟩ := this
    exact ⟨rs ++ r1, by rw [a, h2, List.append_assoc], fun hx => b (fun hm => hx (List.mem_append_left _ hm)) h1⟩
  match ho with
  | .set ty nd v k hg hne =>
    obtain ⟨_, s1, h1, h⟩ := M.bind_inv h
    refine hexec _ s1 ?_ ((opSet_gen false 0 ty c v).mono h1) h
    unfold opSet at h1
    rw [M.bind_ok (M.get_def s)] at h1
    by_cases hs : s.stack.isEmpty = true
    · rw [if_pos hs] at h1; exact setCell_owed ha hg hne h1
    · rw [if_neg hs] at h1; cases h1
  | .cell ty nm nd v k hc hi hg hne =>
    obtain ⟨l, s1, h1, h⟩ := M.bind_inv h
    refine hexec _ s1 ?_ ((opCell_gen env 0 ty nm v).mono h1) h
    clear h
    unfold opCell at h1
    rw [M.bind_ok (M.get_def s)] at h1
    simp only [hi, Bool.false_and, Bool.false_eq_true, if_false, ← hc] at h1
    obtain ⟨_, s2, h2, h1⟩ := M.bind_inv h1
    obtain ⟨_, s3, h3, h1⟩ := M.bind_inv h1
    cases h1
    have h3 : recordEdge ⟨false, c, .allocate, .allocCell v⟩ none s2 = .ok _ s1 := h3
    refine recordEdge_owed ?_ h3
    clear h3
    unfold cellTable at h2
    rw [M.bind_ok (M.get_def s)] at h2
    simp only [hg] at h2
    obtain ⟨n', s4, h4, h5⟩ := M.bind_inv h2
    clear h2
    obtain ⟨rfl, g1, _⟩ := resNode_inv h4
    rw [hg] at g1; cases g1
    obtain ⟨_, s5, h6, h7⟩ := M.bind_inv h5
    cases h6
    obtain ⟨_, s6, h8, h9⟩ := M.bind_inv h7
    cases h9
    exact Owed.same (s := s6) rfl (setCell_owed (s := { s4 with log := _ :: s4.log }) ha hg hne h8)
  | .thunk ty nm pp fn nd v k hc hi hg hne =>
    obtain ⟨l, s1, h1, h⟩ := M.bind_inv h
    refine hexec _ s1 ?_ ((opThunk_gen env 0 ty (.nominal nm) pp fn v).mono h1) h
    clear h
    unfold opThunk at h1
    rw [M.bind_ok (M.get_def s)] at h1
    simp only [hi, Bool.false_eq_true, if_false] at h1
    unfold thunkNominal at h1
    rw [M.bind_ok (M.get_def s)] at h1
    simp only [← hc, hg] at h1
    obtain ⟨n', s4, h4, h5⟩ := M.bind_inv h1
    clear h1
    obtain ⟨rfl, g1, _⟩ := resNode_inv h4
    rw [hg] at g1; cases g1
    simp only [] at h5
    by_cases hpp : nd.pp = pp
    · rw [if_pos hpp, if_neg hne] at h5
      obtain ⟨_, s5, h6, h5⟩ := M.bind_inv h5
      cases h6
      obtain ⟨_, s6, h6, h5⟩ := M.bind_inv h5
      cases h6
      obtain ⟨_, s7, h7, h5⟩ := M.bind_inv h5
      obtain ⟨_, s8, h8, h5⟩ := M.bind_inv h5
      cases h8
      obtain ⟨_, s9, h9, h5⟩ := M.bind_inv h5
      cases h5
      refine recordEdge_owed (s := { s7 with log := .end_ :: s7.log }) ?_ h9
      refine Owed.same (s := s7) rfl (dirtyAlloc_owed (s := { s4 with table := s4.table.put c (.comp { nd with arg := v, res := none }), log := _ :: s4.log }) ?_ h7)
      exact ha.put (n := .comp nd) (n' := .comp { nd with arg := v, res := none }) hg rfl (fun nd' hnd => by cases hnd; exact ⟨_, rfl, rfl⟩)
    · rw [if_neg hpp] at h5; cases h5

/-- **C101.** In every state: if the last run of the thunk `x` has allocated `c`, and something else gives `c` another content (and goes on with anything, `k`), then, whatever programs the
editor runs after that, `x` has been run again when its next demand returns — also if `c` has got its old content back before. -/
theorem C101_changed_owner_runs_again (env : Env V) (x c : Loc) (s : St V) (ha : Allocated x c s) (hx : ∀ fr ∈ s.stack, fr.loc ≠ x)
    (p : Prog V) (hp : Overwrites s c p) (n : Nat) (ps : List (Prog V)) (vs : List V) (s1 : St V) (hr : runSession env n (p :: ps) s = .ok vs s1)
    (m : Nat) (ty : Ty) (cyc : Option V) (k : V → Prog V) (v : V) (s2 : St V) (hf : exec env m (.force ty x cyc k) s1 = .ok v s2) :
    ∃ rs, s2.runs = rs ++ s.runs ∧ x ∈ rs := by
  have hst : ∀ fr ∈ s1.stack, fr.loc ≠ x := by
    have hg := runSession_gen env n (p :: ps) s
    rw [hr] at hg
    have hl : s1.stack.map (·.loc) = s.stack.map (·.loc) := StackExt.locs (Ok.stack hg)
    intro fr hfr he
    have : x ∈ s1.stack.map (·.loc) := List.mem_map.2 ⟨fr, hfr, he⟩
    rw [hl] at this
    obtain ⟨fr', h1, h2⟩ := List.mem_map.1 this
    exact hx fr' h1 h2
  have hk : ∃ rs, s1.runs = rs ++ s.runs ∧ (x ∉ rs → Owed x c s1) := by
    obtain ⟨u, t, h1, h2⟩ := M.bind_inv hr
    obtain ⟨us, t2, h3, h4⟩ := M.bind_inv h2
    cases h4
    obtain ⟨r1, a1, b1⟩ := hp.owed ha h1
    have := runSession_kept env x c n ps t
    rw [h3] at this
    obtain ⟨r2, a2, b2⟩ := this
    exact ⟨r2 ++ r1, by rw [a2, a1, List.append_assoc], fun hm => b2 (fun h => hm (List.mem_append_left _ h)) (b1 fun h => hm (List.mem_append_right _ h))⟩
  obtain ⟨rs, a, b⟩ := hk
  by_cases hm : x ∈ rs
  · have hg : Gen false 0 0 (exec env m (.force ty x cyc k)) := runProg_gen env (recN_gen env m) _
    obtain ⟨r2, a2⟩ := hg.mono hf
    exact ⟨r2 ++ rs, by rw [a2, a, List.append_assoc], List.mem_append_right _ hm⟩
  · obtain ⟨r2, a2, b2⟩ := exec_force_runs env m ty cyc k (b hm) hst hf
    exact ⟨r2 ++ rs, by rw [a2, a, List.append_assoc], List.mem_append_left _ b2⟩


/-! ### Edits of what a thunk has made do not last; two owners never agree -/
namespace OwnersEx

def nm (n : Nat) : Name := ⟨0, .usize n⟩
def at_ (n : Nat) : Loc := ⟨.empty, .nominal (nm n)⟩

/-- Two thunks allocate the cell 0, one with the content 1, the other with 2. -/
def code : FnId → Nat → Prog Nat
  | 1, _ => .cell 0 (nm 0) 1 fun _ => .ret 0
  | 2, _ => .cell 0 (nm 0) 2 fun _ => .ret 0
  | _, _ => .panic
def env : Env Nat := ⟨code, fun _ => 0, fun _ _ => 0⟩

def start : List (Prog Nat) := [.thunk 0 (.nominal (nm 1)) 1 1 0 fun _ => .thunk 0 (.nominal (nm 2)) 2 2 0 fun _ => .ret 0]
def demand (i : Nat) : Prog Nat := .force 0 (at_ i) none .ret
/-- What the cell contains. -/
def look : Prog Nat := .force 0 (at_ 0) none .ret

def result {α : Type} : Out Nat α → Option α
  | .ok a _ => some a
  | _ => none
def state {α : Type} (s : St Nat) : Out Nat α → St Nat
  | .ok _ s => s
  | _ => s

def st0 : St Nat := state (initSt false false) (runSession env 10 start (initSt false false))
/-- The first thunk has been demanded. -/
def st1 : St Nat := state st0 (exec env 10 (demand 1) st0)

example : st1.table.get (at_ 0) = some (.mut ⟨0, [⟨at_ 1, .allocate, none⟩], 1⟩) := by kernel_rfl

/-- The hypotheses of `C101_changed_owner_runs_again` are met: the thunk 1 has allocated the cell. -/
theorem allocated : Allocated (at_ 1) (at_ 0) st1 :=
  ⟨⟨⟨0, [], [⟨false, at_ 0, .allocate, .allocCell 1⟩], 1, 1, 0, some 0⟩, by kernel_rfl, ⟨_, List.mem_cons_self .., rfl, rfl⟩, fun e he _ _ => by
      rcases List.mem_cons.1 he with rfl | he
      · exact .inl ⟨1, rfl⟩
      · cases he⟩,
    .mut ⟨0, [⟨at_ 1, .allocate, none⟩], 1⟩, [at_ 1], by kernel_rfl, by kernel_rfl, List.mem_cons_self ..⟩

/-- The editor sets the cell, and sets it back. -/
def edit : List (Prog Nat) := [.set 0 (at_ 0) 5 (.ret 0), .set 0 (at_ 0) 1 (.ret 0)]
def st2 : St Nat := state st1 (runSession env 10 edit st1)
example : result (runSession env 10 edit st1) = some [0, 0] ∧ result (exec env 10 (demand 1) st2) = some 0 := by decide +kernel
/-- The cell has its old content, but the owner is run again. -/
example : st2.table.get (at_ 0) = st1.table.get (at_ 0) ∧ (state st2 (exec env 10 (demand 1) st2)).runs = at_ 1 :: st1.runs := by
  exact ⟨by kernel_rfl, by decide +kernel⟩
/-- Without an edit it is not. -/
example : (state st1 (exec env 10 (demand 1) st1)).runs = st1.runs := by decide +kernel

/-- An edit of a cell that a thunk has allocated is lost at the next demand of the thunk. -/
theorem edit_is_lost : result (runSession env 10 [.set 0 (at_ 0) 5 (.ret 0), look, demand 1, look] st1) = some [0, 5, 0, 1] := by decide +kernel

/-- The two thunks are demanded in turn; the cell is looked at in between. -/
def round : List (Prog Nat) := [demand 2, look, demand 1, look]
def rounds : Nat → List (Prog Nat)
  | 0 => []
  | k + 1 => round ++ rounds k
def answers : Nat → List Nat
  | 0 => []
  | k + 1 => [0, 2, 0, 1] ++ answers k
def runsOf : Nat → List Loc
  | 0 => []
  | k + 1 => at_ 1 :: at_ 2 :: runsOf k

def st3 : St Nat := state st1 (runSession env 10 round st1)

theorem first_round : runSession env 10 round st1 = .ok [0, 2, 0, 1] { st3 with runs := at_ 1 :: at_ 2 :: st1.runs } := by kernel_rfl
/-- From then on a round leads back to the same graph. -/
theorem next_round (lg : List Ev) (rs : List Loc) : ∃ lg', runSession env 10 round { st3 with log := lg, runs := rs } = .ok [0, 2, 0, 1] { st3 with log := lg', runs := at_ 1 :: at_ 2 :: rs } :=
  ⟨(state st3 (runSession env 10 round { st3 with log := lg, runs := rs })).log, by kernel_rfl⟩

theorem runsOf_comm (k : Nat) (rs : List Loc) : runsOf k ++ at_ 1 :: at_ 2 :: rs = at_ 1 :: at_ 2 :: (runsOf k ++ rs) := by
  induction k with
  | zero => rfl
  | succ k ih => show at_ 1 :: at_ 2 :: (runsOf k ++ _) = _; rw [ih]; rfl

theorem next_rounds (k : Nat) : ∀ (lg : List Ev) (rs : List Loc), ∃ lg', runSession env 10 (rounds k) { st3 with log := lg, runs := rs } = .ok (answers k) { st3 with log := lg', runs := runsOf k ++ rs } := by
  induction k with
  | zero => intro lg rs; exact ⟨lg, rfl⟩
  | succ k ih =>
    intro lg rs
    obtain ⟨l1, h1⟩ := next_round lg rs
    obtain ⟨l2, h2⟩ := ih l1 (at_ 1 :: at_ 2 :: rs)
    refine ⟨l2, ?_⟩
    show runSession env 10 (round ++ rounds k) _ = _
    rw [runSession_append, M.bind_ok h1, M.bind_ok h2, runsOf_comm]
    rfl

/-- **C101, the war of owners.** The editor never changes anything; yet every demand of either thunk runs it again, for ever, and what the cell contains depends on which of the two has been demanded last. -/
theorem C101_two_owners_never_agree (k : Nat) : ∃ s', runSession env 10 (rounds k) st1 = .ok (answers k) s' ∧ s'.runs = runsOf k ++ st1.runs := by
  cases k with
  | zero => exact ⟨st1, rfl, rfl⟩
  | succ k =>
    obtain ⟨lg, h⟩ := next_rounds k st3.log (at_ 1 :: at_ 2 :: st1.runs)
    refine ⟨{ st3 with log := lg, runs := runsOf k ++ at_ 1 :: at_ 2 :: st1.runs }, ?_, ?_⟩
    · show runSession env 10 (round ++ rounds k) _ = _
      rw [runSession_append, M.bind_ok first_round]
      exact M.bind_ok h
    · exact runsOf_comm k _

end OwnersEx
end Adapton
