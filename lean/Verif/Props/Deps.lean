import Verif.Props.Forcing
/-
C12: dependencies follow the last run.  Part (b): an edit reaches only thunks that depend on the edited cell by recorded
dependencies.
-/
set_option linter.unusedSectionVars false
set_option linter.unusedVariables false
set_option linter.unusedSimpArgs false
namespace Adapton
variable {V : Type} [UEq V]

/-! ### Specification -/

/-- Thunk `p` depends on `q`: by a recorded edge, or by a chain of recorded edges. -/
inductive DependsOn (t : Table V) : Loc → Loc → Prop
  | edge {p q : Loc} {nd : CompNode V} {e : Succ V} : t.get p = some (.comp nd) → e ∈ nd.succs → e.loc = q → DependsOn t p q
  | chain {p q r : Loc} {nd : CompNode V} {e : Succ V} : t.get p = some (.comp nd) → e ∈ nd.succs → e.loc = q →
      DependsOn t q r → DependsOn t p r

/-! ### Dirtying stays within the dependents -/

/-- `A` contains, with a location, everything that has an edge to it. -/
def ClosedUp (A : Loc → Prop) (t : Table V) : Prop :=
  ∀ p nd e, t.get p = some (.comp nd) → e ∈ nd.succs → A e.loc → A p

/-- Whatever the outcome, only nodes in `A` changed. -/
def Out.Within {α : Type} (A : Loc → Prop) (s : St V) : Out V α → Prop
  | .ok _ s' => (∀ x, ¬ A x → s'.table.get x = s.table.get x) ∧ ClosedUp A s'.table
  | .panic _ s' => (∀ x, ¬ A x → s'.table.get x = s.table.get x) ∧ ClosedUp A s'.table
  | .oof => True

theorem Within.bind {α β : Type} {A : Loc → Prop} {m : M V α} {f : α → M V β} {s : St V} (h1 : (m s).Within A s)
    (h2 : ∀ a s1, m s = .ok a s1 → ClosedUp A s1.table → (f a s1).Within A s1) : ((m >>= f) s).Within A s := by
  rw [M.bind_def]
  rcases hm : m s with ⟨a, s1⟩ | ⟨e, s1⟩ | _
  · rw [hm] at h1
    have := h2 a s1 hm h1.2
    simp only []
    rcases hf : f a s1 with ⟨b, s2⟩ | ⟨e, s2⟩ | _
    · rw [hf] at this; exact ⟨fun x hx => (this.1 x hx).trans (h1.1 x hx), this.2⟩
    · rw [hf] at this; exact ⟨fun x hx => (this.1 x hx).trans (h1.1 x hx), this.2⟩
    · trivial
  · rw [hm] at h1; exact h1
  · trivial

theorem Within.reads {α : Type} {A : Loc → Prop} {m : M V α} (h : Reads m) {s : St V} (hc : ClosedUp A s.table) :
    (m s).Within A s := by
  rcases h s with ⟨a, h⟩ | ⟨e, h⟩ <;> rw [h] <;> exact ⟨fun _ _ => rfl, hc⟩

theorem mem_setFirst_loc {eff : Effect} {x : Loc} {b : Bool} {es : List (Succ V)} {e : Succ V} (h : e ∈ setFirst eff x b es) :
    ∃ e0 ∈ es, e0.loc = e.loc := by
  have h1 : e.edge ∈ (setFirst eff x b es).map Succ.edge := List.mem_map.2 ⟨e, h, rfl⟩
  rw [setFirst_edges] at h1
  obtain ⟨e0, h0, he⟩ := List.mem_map.1 h1
  exact ⟨e0, h0, congrArg Edge.loc he⟩

theorem setSuccDirty_within {A : Loc → Prop} {p : Loc} {eff : Effect} {x : Loc} {b : Bool} {s : St V} (hc : ClosedUp A s.table)
    (hx : A x) : (setSuccDirty p eff x b s).Within A s := by
  unfold setSuccDirty
  refine Within.bind (Within.reads (lookupAbs_reads p) hc) fun n s1 h1 _ => ?_
  obtain ⟨rfl, hg⟩ := lookupAbs_inv h1
  match n with
  | .mut _ => exact ⟨fun _ _ => rfl, hc⟩
  | .pure _ => exact ⟨fun _ _ => rfl, hc⟩
  | .comp nd =>
    simp only []
    rcases hf : nd.succs.find? (Succ.matches eff x) with _ | e
    · exact ⟨fun _ _ => rfl, hc⟩
    · simp only []
      have hAp : A p := by
        have hm := Succ.matches_iff.1 (List.find?_some hf)
        exact hc p nd e hg (List.mem_of_find?_eq_some hf) (by rw [hm.2]; exact hx)
      refine ⟨fun y hy => ?_, ?_⟩
      · exact Table.get_put_ne _ _ (by rintro rfl; exact hy hAp)
      · intro y ndy e' hy he hA
        by_cases hyp : y = p
        · rw [hyp]; exact hAp
        · rw [Table.get_put_ne _ _ hyp] at hy
          exact hc y ndy e' hy he hA

theorem dirtyObserver_within {A : Loc → Prop} {rec : Loc → M V Unit}
    (hrec : ∀ p s, A p → ClosedUp A s.table → (rec p s).Within A s) (l p : Loc) (d : Option (Dep V)) (hl : A l) (s : St V)
    (hc : ClosedUp A s.table) : (dirtyObserver rec l p d s).Within A s := by
  unfold dirtyObserver
  refine Within.bind (Within.reads (dirtyStop_reads d l) hc) fun b s1 h1 hc => ?_
  cases b
  · simp only [Bool.false_eq_true, if_false]
    refine Within.bind (Within.reads (succDirty_reads p .observe l) hc) fun b s2 h2 hc => ?_
    obtain ⟨rfl, nd, e, hg, hf, hb⟩ := succDirty_inv h2
    have hAp : A p := by
      have hm := Succ.matches_iff.1 (List.find?_some hf)
      exact hc p nd e hg (List.mem_of_find?_eq_some hf) (by rw [hm.2]; exact hl)
    cases b
    · simp only [Bool.false_eq_true, if_false]
      by_cases hq : p = l
      · rw [if_pos hq]; exact ⟨fun _ _ => rfl, hc⟩
      · rw [if_neg hq]
        refine Within.bind (m := evBegin _ _ _) ⟨fun _ _ => rfl, hc⟩ fun _ s3 _ hc => ?_
        refine Within.bind (setSuccDirty_within hc hl) fun _ s4 _ hc => ?_
        exact Within.bind (hrec p s4 hAp hc) fun _ s5 _ hc => ⟨fun _ _ => rfl, hc⟩
    · exact ⟨fun _ _ => rfl, hc⟩
  · exact ⟨fun _ _ => rfl, hc⟩

theorem dirtyPreds_within (A : Loc → Prop) : ∀ (k : Nat) (l : Loc) (s : St V), A l → ClosedUp A s.table →
    (dirtyPreds k l s).Within A s := by
  intro k
  induction k with
  | zero => intro l s _ _; trivial
  | succ k ih =>
    intro l s hl hc
    unfold dirtyPreds
    refine Within.bind (Within.reads (lookupAbs_reads l) hc) fun n s1 h0 hc => ?_
    clear h0
    rcases n.predsObs with _ | ps
    · exact ⟨fun _ _ => rfl, hc⟩
    · simp only []
      induction ps generalizing s1 with
      | nil => exact ⟨fun _ _ => rfl, hc⟩
      | cons q ps ihp =>
        obtain ⟨q, d⟩ := q
        unfold dirtyLoop
        exact Within.bind (dirtyObserver_within ih l q d hl s1 hc) fun _ s2 _ hc => ihp s2 hc

theorem dirtyAlloc_within {A : Loc → Prop} {l : Loc} {s : St V} (hl : A l) (hc : ClosedUp A s.table) :
    (dirtyAlloc l s).Within A s := by
  unfold dirtyAlloc
  refine Within.bind (dirtyPreds_within A _ l s hl hc) fun _ s1 _ hc => ?_
  refine Within.bind (Within.reads (lookupAbs_reads l) hc) fun n s1 h0 hc => ?_
  clear h0
  rcases n.predsAlloc with _ | ps
  · exact ⟨fun _ _ => rfl, hc⟩
  · simp only []
    induction ps generalizing s1 with
    | nil => exact ⟨fun _ _ => rfl, hc⟩
    | cons p ps ihp =>
      unfold dirtyAllocLoop
      refine Within.bind ?_ fun _ s2 _ hc => ihp s2 hc
      unfold dirtyAllocator
      refine Within.bind (Within.reads (succDirty_reads p .allocate l) hc) fun b s2 h2 hc => ?_
      obtain ⟨rfl, nd, e, hg, hf, hb⟩ := succDirty_inv h2
      have hAp : A p := by
        have hm := Succ.matches_iff.1 (List.find?_some hf)
        exact hc p nd e hg (List.mem_of_find?_eq_some hf) (by rw [hm.2]; exact hl)
      cases b
      · simp only [Bool.false_eq_true, if_false]
        refine Within.bind (setSuccDirty_within hc hl) fun _ s4 _ hc => ?_
        by_cases hq : p = l
        · rw [if_pos hq]; exact ⟨fun _ _ => rfl, hc⟩
        · rw [if_neg hq]
          refine Within.bind (m := evBegin _ _ _) ⟨fun _ _ => rfl, hc⟩ fun _ s3 _ hc => ?_
          exact Within.bind (dirtyPreds_within A _ p s3 hAp hc) fun _ s5 _ hc => ⟨fun _ _ => rfl, hc⟩
      · exact ⟨fun _ _ => rfl, hc⟩

theorem closedUp_dependsOn (t : Table V) (c : Loc) : ClosedUp (fun p => p = c ∨ DependsOn t p c) t := by
  rintro p nd e hp he (h | h)
  · exact .inr (.edge hp he h)
  · exact .inr (.chain hp he rfl h)

/-- **C12.** An edit of the cell `c` leaves every thunk that does not depend on `c` exactly as it was, in every state. -/
theorem C12_edit_reaches_dependents_only (s s' : St V) (ty : Ty) (c : Loc) (v : V) (h : opSet ty c v s = .ok () s')
    (l : Loc) (hne : l ≠ c) (hd : ¬ DependsOn s.table l c) : s'.table.get l = s.table.get l := by
  unfold opSet at h
  rw [M.bind_ok (M.get_def s)] at h
  cases hst : s.stack.isEmpty
  · rw [hst] at h; cases h
  rw [hst] at h
  simp only [if_true] at h
  unfold setCell at h
  obtain ⟨n, s1, h1, h⟩ := M.bind_inv h
  obtain ⟨rfl, g1, g2⟩ := resNode_inv h1
  match n with
  | .comp _ => cases h
  | .pure _ => cases h
  | .mut nd =>
    simp only [] at h
    by_cases hv : nd.val ≈ᵤ v
    · rw [if_pos hv] at h; cases h; rfl
    · rw [if_neg hv, M.bind_ok (m := putNode _ _) rfl] at h
      have hcl : ClosedUp (fun p => p = c ∨ DependsOn s1.table p c) (s1.table.put c (.mut { nd with val := v })) := by
        intro p nd' e hp he hA
        by_cases hpc : p = c
        · exact .inl hpc
        · rw [Table.get_put_ne _ _ hpc] at hp
          exact closedUp_dependsOn _ _ p nd' e hp he hA
      have hw := dirtyAlloc_within (s := { s1 with table := s1.table.put c (.mut { nd with val := v }) }) (.inl rfl) hcl
      simp only [] at h
      rw [h] at hw
      have := hw.1 l (fun h => h.elim hne hd)
      rw [this]
      exact Table.get_put_ne _ _ hne

/-- **C12.** A cell that a thunk no longer depends on no longer triggers anything: after setting it, forcing the (clean) thunk
returns the cached result and runs nothing. -/
theorem C12_unread_inputs_do_not_trigger (env : Env V) (n : Nat) (s s' : St V) (ty : Ty) (c : Loc) (w : V)
    (h : opSet ty c w s = .ok () s') (l : Loc) (nd : CompNode V) (v : V) (hl : s.table.get l = some (.comp nd))
    (hv : nd.res = some v) (hc : ∀ e ∈ nd.succs, e.dirty = false) (hd : ¬ DependsOn s.table l c) :
    ∃ s2, exec env (n + 1) (.force nd.ty l none .ret) s' = .ok v s2 ∧ NoChange s' s2 := by
  have hne : l ≠ c := by
    rintro rfl
    unfold opSet at h
    rw [M.bind_ok (M.get_def s)] at h
    cases hst : s.stack.isEmpty
    · rw [hst] at h; cases h
    rw [hst] at h
    simp only [if_true] at h
    unfold setCell at h
    obtain ⟨n, s1, h1, h⟩ := M.bind_inv h
    obtain ⟨rfl, g1, g2⟩ := resNode_inv h1
    rw [hl] at g1
    cases g1
    cases h
  have hst : s'.stack = [] := by
    unfold opSet at h
    rw [M.bind_ok (M.get_def s)] at h
    cases hst : s.stack.isEmpty
    · rw [hst] at h; cases h
    rw [hst] at h
    rw [(setCell_effect _ _ _ _ _ h).2.2.2.2.1]
    exact List.isEmpty_iff.1 hst
  refine C03_clean_reuse env n s' l nd v none ?_ hv hc ?_
  · rw [C12_edit_reaches_dependents_only s s' ty c w h l hne hd]; exact hl
  · rw [hst]; intro fr hfr; cases hfr

end Adapton
