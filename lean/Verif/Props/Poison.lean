import Verif.Props.Deviations
/-
C30 (a panic inside a thunk poisons the engine), and the general forms of C17 (force_abs is never dirtied), C18 (a cell over a
thunk is lost), C19 (a thunk over a cell loses the observers): for all states.
-/
set_option linter.unusedSectionVars false
set_option linter.unusedVariables false
set_option linter.unusedSimpArgs false
namespace Adapton
variable {V : Type} [UEq V]

/-! ### Specification -/

/-- Thunk `l` is (recorded as) being evaluated. -/
def Running (s : St V) (l : Loc) : Prop := l ∈ s.stack.map (·.loc)

/-- An editor that catches panics and goes on with the state the panic left behind.  `none`: no recursion depth left. -/
def goOn (env : Env V) (n : Nat) : List (Prog V) → St V → Option (St V)
  | [], s => some s
  | p :: ps, s =>
    match exec env n p s with
    | .ok _ s' => goOn env n ps s'
    | .panic _ s' => goOn env n ps s'
    | .oof => none

/-! ### C30 -/

theorem Running.exec {env : Env V} {n : Nat} {p : Prog V} {s : St V} {l : Loc} (h : Running s l) :
    (∀ v s', exec env n p s = .ok v s' → Running s' l) ∧ (∀ e s', exec env n p s = .panic e s' → Running s' l) := by
  have hg := exec_gen env n p s
  constructor
  · intro v s' he
    rw [he] at hg
    have hg : Ok false 0 0 s s' := hg
    unfold Running
    rw [hg.stack.locs]; exact h
  · intro e s' he
    rw [he] at hg
    have hg : Pk s s' := hg
    exact hg.stack.subset h

/-- **C30 (violated): the crash point.** Thunk `l`, allocated and never run, is forced, by the editor or inside another
thunk.  If its code, started in the thunk's namespace with the thunk on the stack, panics, the force panics and the thunk stays
recorded as running. -/
theorem C30_panic_leaves_thunk_running (env : Env V) (n : Nat) (s s' : St V) (l : Loc) (nd : CompNode V) (cyc : Option V) (k : V → Prog V)
    (e : Err) (hl : s.table.get l = some (.comp nd)) (hr : nd.res = none) (hs : nd.succs = []) (hnl : ¬ Running s l)
    (hdup : ∀ fr, s.stack.head? = some fr → ∀ q ∈ fr.succs, q.1.loc ≠ l)
    (hbody : exec env n (env.code nd.fn nd.arg)
      { s with table := s.table.put l (.comp nd), stack := ⟨l, []⟩ :: s.stack, path := l.path,
               log := .begin (.force .compCacheMiss) (topLoc s) l :: s.log, runs := l :: s.runs } = .panic e s') :
    exec env (n + 2) (.force nd.ty l cyc k) s = .panic e s' ∧ Running s' l := by
  constructor
  · unfold exec runProg
    rw [M.bind_def]
    suffices h : opForce (recN env (n + 2)) nd.ty l cyc s = .panic e s' by rw [h]
    have hc : (s.stack.any fun fr => decide (fr.loc = l)) = false := by
      rw [List.any_eq_false]
      intro fr hfr h
      exact hnl (List.mem_map.2 ⟨fr, hfr, by simpa using h⟩)
    have hd : dupOf s l = false := by
      unfold dupOf
      rcases hst : s.stack with _ | ⟨fr, K⟩
      · rfl
      · simp only []
        rw [List.any_eq_false]
        intro q hq h
        exact hdup fr (by rw [hst]; rfl) q hq (by have := of_decide_eq_true h; exact this.1)
    unfold opForce
    rw [M.bind_ok (M.get_def s), M.bind_ok (resNode_ok (ty := nd.ty) hl rfl)]
    simp only [hc, hr, Bool.false_eq_true, if_false]
    rw [M.bind_ok (m := evBegin _ _ _) rfl]
    show (if dupOf s l = true then M.panic _ else _) _ = _
    rw [if_neg (by rw [hd]; simp), M.bind_def]
    suffices h : (recN env (n + 2)).produce nd.ty l { s with log := .begin (.force .compCacheMiss) (topLoc s) l :: s.log } = .panic e s' by
      rw [h]
    show produceBody env (recN env (n + 1)) nd.ty l _ = _
    unfold produceBody
    rw [M.bind_ok (resNode_ok (s := { s with log := .begin (.force .compCacheMiss) (topLoc s) l :: s.log }) (ty := nd.ty) hl rfl)]
    simp only []
    rw [M.bind_ok (m := putNode _ _) rfl, hs]
    rw [M.bind_ok (m := revokeSuccs _ _) rfl, M.bind_ok (M.get_def _), M.bind_ok (m := M.modify _) rfl]
    have hnd : ({ nd with succs := [] } : CompNode V) = nd := by cases nd; cases hs; rfl
    rw [M.bind_ok (resNode_ok (n := .comp nd) (ty := nd.ty) (by rw [hnd]; exact Table.get_put_self _ _ _) rfl)]
    simp only []
    rw [M.bind_ok (m := M.modify _) rfl, M.bind_def, hnd]
    have h : (recN env (n + 1)).run (env.code nd.fn nd.arg)
      { s with table := s.table.put l (.comp nd), stack := ⟨l, []⟩ :: s.stack, path := l.path,
               log := .begin (.force .compCacheMiss) (topLoc s) l :: s.log, runs := l :: s.runs } = .panic e s' := hbody
    simp only [h]
  · refine (Running.exec (l := l) ?_).2 e s' hbody
    exact List.mem_cons_self ..

/-- **C30 (violated): for ever after.** Once thunk `l` is recorded as running although it is not, whatever the editor does —
any programs, returning or panicking, caught each time — `l` stays recorded as running, `set` panics on every cell, and so
does forcing `l` (without a cycle value). -/
theorem C30_poisoned_for_ever (env : Env V) (n m : Nat) (ps : List (Prog V)) (s s' : St V) (l : Loc)
    (hrun : Running s l) (hgo : goOn env n ps s = some s') :
    Running s' l ∧
    (∀ ty x v k, exec env m (.set ty x v k) s' = .panic .setInThunk s') ∧
    (∀ nd k, s'.table.get l = some (.comp nd) → exec env m (.force nd.ty l none k) s' = .panic .unexpectedCycle s') := by
  have h1 : Running s' l := by
    induction ps generalizing s with
    | nil => cases hgo; exact hrun
    | cons p ps ih =>
      unfold goOn at hgo
      rcases hx : exec env n p s with ⟨v, s1⟩ | ⟨e, s1⟩ | _
      · rw [hx] at hgo; exact ih s1 ((Running.exec hrun).1 v s1 hx) hgo
      · rw [hx] at hgo; exact ih s1 ((Running.exec hrun).2 e s1 hx) hgo
      · rw [hx] at hgo; cases hgo
  have hne : s'.stack ≠ [] := by
    intro h
    unfold Running at h1
    rw [h] at h1; cases h1
  refine ⟨h1, fun ty x v k => ?_, ?_⟩
  · exact C23_set_is_editor_only env m s' hne ty x v k
  · intro nd k hl
    obtain ⟨fr, hfr, he⟩ := List.mem_map.1 h1
    exact (C20_unexpected_cycle env m s' l nd k (fun v => v) hl fr hfr he).1

/-! ### C17, C18, C19, in all states -/

/-- **C17 (violated), for all states.** A thunk `p` that observes the cell `l` only through `force_abs` keeps its clean edges
whatever value the cell is set to. -/
theorem C17_force_abs_never_dirtied (s s' : St V) (l p : Loc) (mn : MutNode V) (v : V) (hl : s.table.get l = some (.mut mn))
    (hobs : ∀ q ∈ mn.preds, q.loc = p → q.effect = .observe → q.dep = some .forceAbs)
    (h : opSet mn.ty l v s = .ok () s') : obsEdges s' p l = obsEdges s p l :=
  set_stops s s' l p mn v hl (fun q hq h1 h2 => .inr (hobs q hq h1 h2)) h

/-- Same content and cached results everywhere. -/
def Keeps (s s' : St V) : Prop :=
  ∀ x n, s.table.get x = some n → ∃ n', s'.table.get x = some n' ∧ n'.content = n.content ∧ n'.cached = n.cached

theorem Keeps.trans {a b c : St V} (h1 : Keeps a b) (h2 : Keeps b c) : Keeps a c := by
  intro x n h
  obtain ⟨n1, g1, g2, g3⟩ := h1 x n h
  obtain ⟨n2, g4, g5, g6⟩ := h2 x n1 g1
  exact ⟨n2, g4, g5.trans g2, g6.trans g3⟩

theorem removePred_keeps {src tgt : Loc} {s s' : St V} {u : Unit} (h : removePred src tgt s = .ok u s') : Keeps s s' := by
  unfold removePred at h
  rw [M.bind_ok (m := evEff _ _ _) rfl] at h
  obtain ⟨n, s1, h1, h⟩ := M.bind_inv h
  obtain ⟨rfl, hg⟩ := lookupAbs_inv h1
  have key : ∀ n' : Node V, n'.content = n.content → n'.cached = n.cached →
      Keeps s { s with log := .eff .remove (some src) tgt :: s.log, table := s.table.put tgt n' } := by
    intro n' e1 e2 x m hm
    show ∃ k, (s.table.put tgt n').get x = some k ∧ _
    rw [Table.get_put]
    by_cases hx : x = tgt
    · rw [if_pos hx]
      subst hx
      rw [show s.table.get x = some n from hg] at hm
      cases hm
      exact ⟨n', rfl, e1, e2⟩
    · rw [if_neg hx]; exact ⟨m, hm, rfl, rfl⟩
  match n with
  | .comp nd => cases h; exact key _ rfl rfl
  | .mut nd => cases h; exact key _ rfl rfl
  | .pure nd => cases h

theorem revokeSuccs_keeps {src : Loc} (es : List (Succ V)) : ∀ {s s' : St V} {u : Unit}, revokeSuccs src es s = .ok u s' → Keeps s s' := by
  induction es with
  | nil => intro s s' u h; cases h; exact fun x n h => ⟨n, h, rfl, rfl⟩
  | cons e es ih =>
    intro s s' u h
    unfold revokeSuccs at h
    obtain ⟨_, s1, h1, h⟩ := M.bind_inv h
    exact (removePred_keeps h1).trans (ih h)

/-- **C18 (violated), for all states.** Allocating a cell at a name that holds a thunk, if it returns, leaves the thunk there,
with its code, argument and cached result: the value is stored nowhere. -/
theorem C18_cell_over_thunk_keeps_thunk (env : Env V) (s s' : St V) (nm : Name) (l : Loc) (c : CompNode V) (v : V)
    (hi : s.ignoreNominal = false) (hl : s.table.get (here s nm) = some (.comp c)) (h : opCell env c.ty nm v s = .ok l s') :
    l = here s nm ∧ ∃ c', s'.table.get l = some (.comp c') ∧
      (c'.pp, c'.fn, c'.arg, c'.res) = (c.pp, c.fn, c.arg, c.res) := by
  unfold opCell at h
  rw [M.bind_ok (M.get_def s)] at h
  simp only [hi, Bool.false_and, Bool.false_eq_true, if_false] at h
  obtain ⟨_, s1, h1, h⟩ := M.bind_inv h
  obtain ⟨_, s2, h2, h⟩ := M.bind_inv h
  cases h
  refine ⟨rfl, ?_⟩
  have ht : s'.table = s1.table := by
    unfold cellRecord at h2
    simp only [Bool.false_eq_true, if_false] at h2
    exact recordEdge_table _ _ _ _ _ h2
  rw [ht]
  have hk : Keeps s s1 := by
    unfold cellTable at h1
    rw [M.bind_ok (M.get_def s)] at h1
    have hl0 : s.table.get ⟨s.path, .nominal nm⟩ = some (.comp c) := hl
    simp only [hl0] at h1
    rw [M.bind_ok (resNode_ok (ty := c.ty) hl0 rfl), M.bind_ok (m := evBegin _ _ _) rfl] at h1
    simp only [] at h1
    obtain ⟨_, s3, h3, h1⟩ := M.bind_inv h1
    obtain ⟨_, s4, h4, h1⟩ := M.bind_inv h1
    cases h1
    have hup := (dirtyAlloc_general _ _).ok h3
    have hk : Keeps s s4 := Keeps.trans (fun x n hx => hup.others x n hx) (revokeSuccs_keeps _ h4)
    exact hk
  obtain ⟨n', g1, g2, g3⟩ := hk _ _ hl
  match n' with
  | .comp c' =>
    refine ⟨c', g1, ?_⟩
    simp only [Node.content, Content.thunk.injEq] at g2
    simp only [Node.cached] at g3
    rw [g2.2.1, g2.2.2.1, g2.2.2.2, g3]
  | .mut _ => cases g2
  | .pure _ => cases g2

/-- **C19 (violated), for all states.** Allocating a thunk at a name that holds a cell, if it returns, leaves a thunk that
knows no observers, whoever observed the cell: later changes reach none of them. -/
theorem C19_thunk_over_cell_forgets_observers (env : Env V) (s s' : St V) (nm : Name) (l : Loc) (c : MutNode V) (pp : ProgPt)
    (fn : FnId) (arg : V) (hi : s.ignoreNominal = false) (hl : s.table.get (here s nm) = some (.mut c))
    (h : opThunk env c.ty (.nominal nm) pp fn arg s = .ok l s') :
    l = here s nm ∧ (∀ p eff, ¬ KnowsPred s'.table l p eff) ∧
    ∀ p e, HasDep s.table p e → ∃ e', HasDep s'.table p e' ∧ e'.loc = e.loc ∧ e'.effect = e.effect ∧ e'.dep = e.dep := by
  unfold opThunk at h
  rw [M.bind_ok (M.get_def s)] at h
  simp only [hi, Bool.false_eq_true, if_false] at h
  unfold thunkNominal at h
  rw [M.bind_ok (M.get_def s)] at h
  have hl0 : s.table.get ⟨s.path, .nominal nm⟩ = some (.mut c) := hl
  simp only [hl0] at h
  rw [M.bind_ok (resNode_ok (ty := c.ty) hl0 rfl)] at h
  simp only [] at h
  rw [M.bind_ok (m := evBegin _ _ _) rfl] at h
  obtain ⟨_, s1, h1, h⟩ := M.bind_inv h
  rw [M.bind_ok (m := evEnd) rfl] at h
  obtain ⟨_, s2, h2, h⟩ := M.bind_inv h
  rw [M.bind_ok (m := putNode _ _) rfl] at h
  cases h
  have ht : s2.table = ({ s1 with log := .end_ :: s1.log } : St V).table := recordEdge_table _ _ _ _ _ h2
  have hup := (dirtyAlloc_general _ _).ok h1
  refine ⟨rfl, ?_, ?_⟩
  · rintro p eff ⟨n, hn, q, hq, _⟩
    have hn : (s2.table.put ⟨s.path, .nominal nm⟩ _).get _ = some n := hn
    rw [Table.get_put_self] at hn
    cases hn
    cases hq
  · rintro p e ⟨nd, hp, he⟩
    have hpl : p ≠ (⟨s.path, .nominal nm⟩ : Loc) := by rintro rfl; rw [hl0] at hp; cases hp
    have := hup.tbl p
    rw [show St.table _ = s.table from rfl, hp] at this
    obtain ⟨es, g1, g2⟩ := this
    obtain ⟨e', k1, k2⟩ := g2.mem_left he
    refine ⟨e', ⟨{ nd with succs := es }, ?_, k1⟩, ?_⟩
    · show (s2.table.put ⟨s.path, .nominal nm⟩ _).get p = _
      rw [Table.get_put_ne _ _ hpl, ht]; exact g1
    · simp only [Succ.edge, Edge.mk.injEq] at k2; exact k2

/-! ### The hypotheses are met -/
namespace Dev

/-- A thunk that reads `c0` and panics; the state after it was forced. -/
def codePanic : FnId → Nat → Prog Nat := fun _ _ => .force 0 c0 none fun _ => .panic
def envP : Env Nat := ⟨codePanic, fun _ => 0, fun _ _ => 0⟩
def ndP : CompNode Nat := ⟨0, [], [], 1, 1, 7, none⟩
def stP : St Nat := { initSt true false with table := [(c0, .mut ⟨0, [], 3⟩), (t1, .comp ndP)] }

example : stP.table.get t1 = some (.comp ndP) ∧ ndP.res = none ∧ ndP.succs = [] ∧ ¬ Running stP t1 ∧
    (∀ fr, stP.stack.head? = some fr → ∀ q ∈ fr.succs, q.1.loc ≠ t1) ∧
    ∃ e s', exec envP 3 (envP.code ndP.fn ndP.arg)
      { stP with table := stP.table.put t1 (.comp ndP), stack := ⟨t1, []⟩ :: stP.stack, path := t1.path,
                 log := .begin (.force .compCacheMiss) (topLoc stP) t1 :: stP.log, runs := t1 :: stP.runs } = .panic e s' :=
  ⟨rfl, rfl, rfl, by simp [Running, stP, initSt], fun fr h => by simp [stP, initSt] at h, _, _, rfl⟩

/-- An editor that goes on: three programs, of which only the last one, that sets nothing, returns. -/
example : ∃ s', goOn envP 5 [.force 0 t1 none .ret, .set 0 c0 4 (.ret 0), .force 0 c0 none .ret] stP = some s' := ⟨_, rfl⟩

/-- C17: a cell observed through `force_abs`, and a set that returns. -/
def cellA : MutNode Nat := ⟨0, [⟨t1, .observe, some .forceAbs⟩], 3⟩
def stA : St Nat := { initSt true false with table := [(c0, .mut cellA),
  (t1, .comp ⟨0, [], [⟨false, c0, .observe, .forceAbs⟩], 1, 1, 7, some 3⟩)] }
example : (∀ q ∈ cellA.preds, q.loc = t1 → q.effect = .observe → q.dep = some .forceAbs) ∧
    ∃ s', opSet cellA.ty c0 9 stA = .ok () s' := by
  refine ⟨?_, _, rfl⟩
  intro q hq _ _
  simp only [cellA, List.mem_cons, List.not_mem_nil, or_false] at hq
  subst hq; rfl

/-- C18: a cell over a thunk; C19: a thunk over an observed cell. -/
example : ∃ l s', opCell envP ndP.ty (nm 1) 5 stP = .ok l s' := ⟨_, _, rfl⟩
example : ∃ l s', opThunk envP cellA.ty (.nominal (nm 0)) 2 2 5 stA = .ok l s' := ⟨_, _, rfl⟩

end Dev
end Adapton
