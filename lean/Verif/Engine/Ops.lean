import Verif.Engine.State
/-
Allocation preserves the invariant.
-/
set_option linter.unusedSectionVars false
set_option linter.unusedVariables false
namespace Adapton
open Ref (Sig Kind Store Ext upd)
variable {V : Type} [DecidableEq V]
variable {sig : Sig} {env : Env V} {s s' s'' : St V} {σ σ' σ'' : Store V} {D D' D'' : Loc → Prop} {anc : List Loc}

/-- The stack after recording an edge. -/
def pushEdge (K : List (Frame V)) (q : Succ V × Option (Dep V)) : List (Frame V) :=
  match K with
  | [] => []
  | fr :: rest => { fr with succs := fr.succs ++ [q] } :: rest

theorem recordEdge_eq (e : Succ V) (d : Option (Dep V)) (s : St V) :
    recordEdge e d s = .ok () { s with stack := pushEdge s.stack (e, d) } := by
  unfold recordEdge
  rw [M.modify_def]
  rcases hs : s.stack with _ | ⟨fr, rest⟩
  · simp only [pushEdge]; congr 1; cases s; cases hs; rfl
  · rfl

theorem pushEdge_locs (K : List (Frame V)) (q : Succ V × Option (Dep V)) :
    (pushEdge K q).map (·.loc) = K.map (·.loc) := by
  cases K <;> rfl

theorem Post.push (h : Post sig env anc s σ D s' σ' D') (q : Succ V × Option (Dep V)) :
    Post sig env anc s σ D { s' with stack := pushEdge s'.stack q } σ' D' :=
  h.right rfl (pushEdge_locs _ _) rfl rfl

/-- Allocating a pure cell. -/
theorem cellTable_pure (h : Inv sig env s σ D) {l : Loc} {ty : Ty} {v : V}
    (hk : sig l = .cell ty) (hl : l.isStruct = true) (hp : sig.pu = true) (ha : Ref.alloc σ l v = some σ') :
    ∃ s', cellTable ty l v true s = .ok () s' ∧ Post sig env anc s σ D s' σ' D ∧ s'.stack = s.stack ∧ KnownS s'.table l v := by
  unfold cellTable
  rw [M.bind_ok (M.get_def s)]
  rcases hg : s.table.get l with _ | n
  · refine ⟨{ s with
        table := s.table.put l (.pure ⟨ty, v⟩)
        log := Ev.end_ :: Ev.begin (.alloc .locFresh .refCell) (topLoc s) l :: s.log }, rfl, ?_, rfl, hl, _, Table.get_put_self _ _ _, rfl⟩
    have h1 : Post sig env anc s σ D { s with table := s.table.put l (.pure ⟨ty, v⟩) } σ' D :=
      Post.insert h hg ⟨hk, hl, hp⟩ rfl rfl (fun nd h => by cases h) rfl ha
    exact h1.right rfl rfl rfl rfl
  · obtain ⟨nd, rfl, hty⟩ := h.getPure hk hl hp hg
    have hf := h.fixed l _ hl hg
    have hv : nd.val = v := by
      rw [Ref.alloc_dec, hf] at ha
      simp only [Node.cont] at ha
      split at ha
      · assumption
      · cases ha
    subst hv
    obtain ⟨rfl, _⟩ := h.allocKnown ⟨hl, _, hg, rfl⟩ ha
    simp only []
    rw [M.bind_ok (resNode_ok hg hty), M.bind_ok (m := evBegin _ _ _) rfl]
    refine ⟨_, rfl, Post.idle h rfl rfl rfl rfl, rfl, hl, _, hg, rfl⟩

theorem cellTable_post (h : Inv sig env s σ D) (hanc : AncOK s σ anc) {l : Loc} {ty : Ty} {v : V}
    (hk : sig l = .cell ty) (hvis : Vis sig l) (ha : Ref.alloc σ l v = some σ') :
    ∃ s', cellTable ty l v false s = .ok () s' ∧ Post sig env anc s σ D s' σ' D ∧ s'.stack = s.stack := by
  unfold cellTable
  rw [M.bind_ok (M.get_def s)]
  rcases hg : s.table.get l with _ | n
  · -- fresh
    refine ⟨{ s with
        table := s.table.put l (.mut ⟨ty, [], v⟩)
        log := Ev.end_ :: Ev.begin (.alloc .locFresh .refCell) (topLoc s) l :: s.log }, rfl, ?_, rfl⟩
    have h1 : Post sig env anc s σ D { s with table := s.table.put l (.mut ⟨ty, [], v⟩) } σ' D :=
      Post.insert h hg ⟨hk, hvis⟩ rfl rfl (fun nd h => by cases h) rfl ha
    exact h1.right rfl rfl rfl rfl
  · obtain ⟨nd, rfl, hty⟩ := h.getCell hk hvis hg
    simp only []
    rw [M.bind_ok (resNode_ok hg hty), M.bind_ok (m := evBegin _ _ _) rfl]
    simp only []
    generalize hs1 : ({ s with
      log := Ev.begin (.alloc (.locExists (cellDiff (.mut nd) v)) .refCell) (topLoc s) l :: s.log } : St V) = s1
    have ht1 : s1.table = s.table := by rw [← hs1]
    have hg1 : s1.table.get l = some (.mut nd) := by rw [ht1]; exact hg
    by_cases hv : nd.val = v
    · -- same content
      have hset : setCell ty l v s1 = .ok () s1 := by
        unfold setCell
        rw [M.bind_ok (resNode_ok hg1 hty)]
        simp only []; rw [ueq_pos hv]; rfl
      rw [M.bind_ok hset]
      refine ⟨{ s1 with log := Ev.end_ :: s1.log }, rfl, ?_, by rw [← hs1]⟩
      exact (Post.extend h hg (by rw [← hv]; rfl) ha).right (by rw [← hs1]) (by rw [← hs1]; rfl) (by rw [← hs1])
        (by rw [← hs1]) (by rw [← hs1]) (by rw [← hs1]) (by rw [← hs1]; log_paid)
    · -- changed content
      have hσ : σ l = none := by
        cases hσ : σ l with
        | none => rfl
        | some w =>
          obtain ⟨nd', g1, _, g2⟩ := h.storeCell hk hvis hσ
          rw [hg] at g1; cases g1
          rw [Ref.alloc_dec] at ha
          rw [hσ] at ha
          simp only at ha
          split at ha
          · subst_vars; exact absurd rfl hv
          · cases ha
      obtain ⟨s2, g1, g2, g3⟩ := change_post (n' := .mut { nd with val := v }) h hanc hg hσ ha rfl
        (fun he => hv (by simpa [Node.cont] using he))
        ⟨by simpa [hty] using hk, hvis⟩ rfl (.inr ⟨nd, _, rfl, rfl⟩) s1.log (by rw [← hs1]; log_paid)
      have hset : setCell ty l v s1 = .ok () s2 := by
        unfold setCell
        rw [M.bind_ok (resNode_ok hg1 hty)]
        simp only []
        rw [ueq_neg hv, M.bind_ok (m := putNode _ _) rfl, ← g1, ← hs1]
      rw [M.bind_ok hset]
      refine ⟨{ s2 with log := Ev.end_ :: s2.log }, rfl, ?_, g3⟩
      exact g2.right rfl rfl rfl rfl

/-- Allocating a cell: either an edge is recorded, or the cell is pure. -/
theorem opCell_post (h : Inv sig env s σ D) (hanc : AncOK s σ anc) {ty : Ty} {n : Name} {v : V} {l : Loc}
    (hl : l = Ref.cellLoc env s.ignoreNominal s.path n v)
    (hk : sig l = .cell ty) (ha : Ref.alloc σ l v = some σ') :
    ∃ s', Post sig env anc s σ D s' σ' D ∧ s'.stack = s.stack ∧
      ((Vis sig l ∧ opCell env ty n v s = .ok l { s' with stack := pushEdge s'.stack (⟨false, l, .allocate, .allocCell v⟩, none) }) ∨
       (KnownS s'.table l v ∧ opCell env ty n v s = .ok l s')) := by
  have hst : l.isStruct = s.ignoreNominal := by
    rw [hl]; unfold Ref.cellLoc; cases s.ignoreNominal <;> rfl
  have hl' : l = ⟨s.path, if s.ignoreNominal then ArtId.structural (env.hashVal v) else ArtId.nominal n⟩ := hl
  by_cases hb : (s.ignoreNominal && s.purity) = true
  · simp only [Bool.and_eq_true] at hb
    obtain ⟨s1, g1, g2, g3, g4⟩ := cellTable_pure (anc := anc) h hk (hst.trans hb.1) (h.pur.symm.trans hb.2) ha
    refine ⟨s1, g2, g3, .inr ⟨g4, ?_⟩⟩
    unfold opCell
    rw [M.bind_ok (M.get_def s)]
    simp only [hb.1, if_true] at hl'
    simp only [hb.1, hb.2, Bool.and_self, if_true, ← hl']
    rw [M.bind_ok g1]
    rfl
  · have hvis : Vis sig l := by
      intro _ _ hs
      rw [hst] at hs
      rw [← h.pur]
      cases hp : s.purity
      · rfl
      · rw [hs, hp] at hb; exact absurd rfl hb
    obtain ⟨s1, g1, g2, g3⟩ := cellTable_post h hanc hk hvis ha
    refine ⟨s1, g2, g3, .inl ⟨hvis, ?_⟩⟩
    have hb' : (s.ignoreNominal && s.purity) = false := by
      cases hx : (s.ignoreNominal && s.purity)
      · rfl
      · exact absurd hx hb
    unfold opCell
    rw [M.bind_ok (M.get_def s)]
    simp only [← hl', hb']
    rw [M.bind_ok g1]
    simp only [cellRecord, Bool.false_eq_true, if_false]
    rw [M.bind_ok (recordEdge_eq _ _ _)]
    rfl

/-- Allocating a structural thunk: an edge is recorded the first time. -/
theorem thunkStructural_post (h : Inv sig env s σ D) {ty : Ty} {pp : ProgPt} {fn : FnId} {v : V} {l : Loc}
    (hl : l = ⟨s.path, .structural (env.hashApp pp v)⟩) (hk : sig l = .thunk ty pp fn) (ha : Ref.alloc σ l v = some σ') :
    ∃ s', Post sig env anc s σ D s' σ' D ∧ s'.stack = s.stack ∧ KnownS s'.table l v ∧
      (thunkStructural env ty pp fn v s = .ok l { s' with stack := pushEdge s'.stack (⟨false, l, .allocate, .allocStruct⟩, none) } ∨
       thunkStructural env ty pp fn v s = .ok l s') := by
  have hs : l.isStruct = true := by rw [hl]; rfl
  unfold thunkStructural
  rw [M.bind_ok (M.get_def s)]
  simp only [← hl]
  rcases hg : s.table.get l with _ | n
  · have h1 : Post sig env anc s σ D { s with table := s.table.put l (.comp ⟨ty, [], [], pp, fn, v, none⟩) } σ' D :=
      Post.insert h hg hk rfl rfl (fun nd h => by cases h; rfl) rfl ha
    refine ⟨_, h1, rfl, ⟨hs, _, Table.get_put_self _ _ _, rfl⟩, .inl ?_⟩
    simp only []
    rw [M.bind_ok (recordEdge_eq _ _ _)]
    rfl
  · obtain ⟨c, rfl, hty, hpp, hfn⟩ := h.getThunk hk hg
    have hf := h.fixed l _ hs hg
    have hv : c.arg = v := by
      rw [Ref.alloc_dec, hf] at ha
      simp only [Node.cont] at ha
      split at ha
      · assumption
      · cases ha
    subst hv
    obtain ⟨rfl, _⟩ := h.allocKnown ⟨hs, _, hg, rfl⟩ ha
    exact ⟨s, Post.idle h rfl rfl rfl rfl, rfl, ⟨hs, _, hg, rfl⟩, .inr rfl⟩

/-- Allocating a nominal thunk. -/
theorem thunkNominal_post (h : Inv sig env s σ D) (hanc : AncOK s σ anc) {ty : Ty} {n : Name} {pp : ProgPt} {fn : FnId} {v : V} {l : Loc}
    (hl : (⟨s.path, .nominal n⟩ : Loc) = l) (hk : sig l = .thunk ty pp fn) (ha : Ref.alloc σ l v = some σ') :
    ∃ s', Post sig env anc s σ D s' σ' D ∧ s'.stack = s.stack ∧ thunkNominal ty n pp fn v s = .ok l
        { s' with stack := pushEdge s'.stack (⟨false, l, .allocate, .allocNom v⟩, none) } := by
  unfold thunkNominal
  rw [M.bind_ok (M.get_def s)]
  simp only [hl]
  rcases hg : s.table.get l with _ | nd
  · -- fresh
    have h1 : Post sig env anc s σ D { s with table := s.table.put l (.comp ⟨ty, [], [], pp, fn, v, none⟩) } σ' D :=
      Post.insert h hg hk rfl rfl (fun nd h => by cases h; rfl) rfl ha
    refine ⟨{ s with
        table := s.table.put l (.comp ⟨ty, [], [], pp, fn, v, none⟩)
        log := Ev.end_ :: Ev.begin (.alloc .locFresh .thunk) (topLoc s) l :: s.log }, h1.right rfl rfl rfl rfl, rfl, ?_⟩
    simp only []
    rw [M.bind_ok (m := evBegin _ _ _) rfl, M.bind_ok (m := evEnd) rfl, M.bind_ok (recordEdge_eq _ _ _)]
    rfl
  · obtain ⟨c, rfl, hty, hpp, hfn⟩ := h.getThunk hk hg
    simp only []
    rw [M.bind_ok (resNode_ok hg hty)]
    simp only []
    rw [if_pos hpp]
    by_cases hv : c.arg = v
    · -- same argument
      refine ⟨{ s with log := Ev.end_ :: Ev.begin (.alloc (.locExists false) .thunk) (topLoc s) l :: s.log },
        (Post.extend h hg (by rw [← hv]; rfl) ha).right rfl rfl rfl rfl, rfl, ?_⟩
      rw [ueq_pos hv, M.bind_ok (m := evBegin _ _ _) rfl, M.bind_ok (m := evEnd) rfl, M.bind_ok (recordEdge_eq _ _ _)]
      rfl
    · -- changed argument
      have hσ : σ l = none := by
        cases hσ : σ l with
        | none => rfl
        | some w =>
          obtain ⟨nd', g1, _, _, _, g2⟩ := h.storeThunk hk hσ
          rw [hg] at g1; cases g1
          rw [Ref.alloc_dec] at ha
          rw [hσ] at ha
          simp only at ha
          split at ha
          · subst_vars; exact absurd rfl hv
          · cases ha
      obtain ⟨s2, g1, g2, g3⟩ := change_post (n' := .comp { c with arg := v, res := none }) h hanc hg hσ ha rfl
        (fun he => hv (by simpa [Node.cont] using he))
        (by simpa [NodeWf, hty, hpp, hfn] using hk) rfl (.inl ⟨c, _, rfl, rfl, rfl, rfl⟩)
        (Ev.begin (.alloc (.locExists true) .thunk) (topLoc s) l :: s.log)
      refine ⟨{ s2 with log := Ev.end_ :: s2.log }, g2.right rfl rfl rfl rfl, g3, ?_⟩
      rw [ueq_neg hv, M.bind_ok (m := putNode _ _) rfl, M.bind_ok (m := evBegin _ _ _) rfl]
      dsimp only
      rw [M.bind_ok (m := dirtyAlloc l) (s' := s2) (a := ()) g1]
      rw [M.bind_ok (m := evEnd) rfl, M.bind_ok (recordEdge_eq _ _ _)]
      rfl

/-- Allocating a thunk. -/
theorem opThunk_post (h : Inv sig env s σ D) (hanc : AncOK s σ anc) {ty : Ty} {nc : NameChoice} {pp : ProgPt} {fn : FnId} {v : V} {l : Loc}
    (hl : Ref.thunkLoc env s.ignoreNominal s.path nc pp v = some l) (hk : sig l = .thunk ty pp fn) (ha : Ref.alloc σ l v = some σ') :
    ∃ s', Post sig env anc s σ D s' σ' D ∧ s'.stack = s.stack ∧
      ((l.isStruct = false ∧ opThunk env ty nc pp fn v s = .ok l { s' with stack := pushEdge s'.stack (⟨false, l, .allocate, .allocNom v⟩, none) }) ∨
       (KnownS s'.table l v ∧
        (opThunk env ty nc pp fn v s = .ok l { s' with stack := pushEdge s'.stack (⟨false, l, .allocate, .allocStruct⟩, none) } ∨
         opThunk env ty nc pp fn v s = .ok l s'))) := by
  have hS : l = ⟨s.path, .structural (env.hashApp pp v)⟩ →
      (opThunk env ty nc pp fn v s = thunkStructural env ty pp fn v s) →
      ∃ s', Post sig env anc s σ D s' σ' D ∧ s'.stack = s.stack ∧
      ((l.isStruct = false ∧ opThunk env ty nc pp fn v s = .ok l { s' with stack := pushEdge s'.stack (⟨false, l, .allocate, .allocNom v⟩, none) }) ∨
       (KnownS s'.table l v ∧
        (opThunk env ty nc pp fn v s = .ok l { s' with stack := pushEdge s'.stack (⟨false, l, .allocate, .allocStruct⟩, none) } ∨
         opThunk env ty nc pp fn v s = .ok l s'))) := by
    intro h1 h2
    obtain ⟨s', g1, g2, g3, g4⟩ := thunkStructural_post (anc := anc) h h1 hk ha
    exact ⟨s', g1, g2, .inr ⟨g3, by rw [h2]; exact g4⟩⟩
  cases nc with
  | nominal n =>
    simp only [Ref.thunkLoc, Option.some.injEq] at hl
    cases hi : s.ignoreNominal
    · rw [hi] at hl
      simp only [Bool.false_eq_true, if_false] at hl
      obtain ⟨s', g1, g2, g3⟩ := thunkNominal_post (env := env) h hanc hl hk ha
      refine ⟨s', g1, g2, .inl ⟨by rw [← hl]; rfl, ?_⟩⟩
      unfold opThunk
      rw [M.bind_ok (M.get_def s)]
      simp only [hi, Bool.false_eq_true, if_false]
      exact g3
    · rw [hi] at hl
      simp only [if_true] at hl
      refine hS hl.symm ?_
      unfold opThunk
      rw [M.bind_ok (M.get_def s)]
      simp only [hi, if_true]
  | structural =>
    simp only [Ref.thunkLoc, Option.some.injEq] at hl
    refine hS hl.symm ?_
    unfold opThunk
    rw [M.bind_ok (M.get_def s)]
  | naive => cases hl
  | eager => cases hl

end Adapton
