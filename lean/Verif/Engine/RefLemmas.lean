import Verif.Engine.Spec
/-
Facts about the reference semantics alone: the store only grows, and evaluation gives the same value in any larger store that
does not conflict.
-/
set_option linter.unusedSectionVars false
namespace Adapton.Ref
open Adapton
variable {V : Type} [DecidableEq V]

/-- `τ` extends `σ`. -/
def Ext (σ τ : Store V) : Prop := ∀ l v, σ l = some v → τ l = some v

theorem Ext.refl (σ : Store V) : Ext σ σ := fun _ _ h => h
theorem Ext.trans {a b c : Store V} (h1 : Ext a b) (h2 : Ext b c) : Ext a c := fun l v h => h2 l v (h1 l v h)
theorem Ext.antisymm {a b : Store V} (h1 : Ext a b) (h2 : Ext b a) : a = b := by
  funext l
  cases ha : a l with
  | some v => exact (h1 l v ha).symm
  | none =>
    cases hb : b l with
    | some v => have := h2 l v hb; rw [ha] at this; cases this
    | none => rfl

theorem Ext.upd {σ : Store V} {l : Loc} {v : V} (h : σ l = none) : Ext σ (upd σ l v) := by
  intro x w hx
  unfold Ref.upd
  split
  · subst_vars; rw [h] at hx; cases hx
  · exact hx

theorem alloc_dec (σ : Store V) (l : Loc) (v : V) : alloc σ l v =
    match σ l with
    | none => some (upd σ l v)
    | some w => if w = v then some σ else none := rfl

theorem edit_dec (e : ES V) (l : Loc) (v : V) : edit e l v =
    { base := upd e.base l v, cur := if e.cur l = none ∨ e.cur l = some v then upd e.cur l v else upd e.base l v } := by
  unfold edit
  rcases h : e.cur l with _ | w
  · rfl
  · by_cases h' : w = v
    · simp [h', ueq_eq]
    · simp [h', ueq_eq]

theorem alloc_ext {σ σ' : Store V} {l : Loc} {v : V} (h : alloc σ l v = some σ') : Ext σ σ' ∧ σ' l = some v := by
  rw [alloc_dec] at h
  split at h
  · rename_i hn
    cases h
    exact ⟨Ext.upd hn, by simp [upd]⟩
  · rename_i w hw
    split at h
    · cases h; subst_vars; exact ⟨Ext.refl _, hw⟩
    · cases h

theorem alloc_le {σ σ' τ : Store V} {l : Loc} {v : V} (h : alloc σ l v = some σ') (h1 : Ext σ τ) (h2 : τ l = some v) :
    Ext σ' τ := by
  rw [alloc_dec] at h
  split at h
  · cases h
    intro x w hx
    unfold upd at hx
    split at hx
    · cases hx; subst_vars; exact h2
    · exact h1 x w hx
  · split at h
    · cases h; exact h1
    · cases h

/-- Allocation in a larger, non-conflicting store. -/
theorem alloc_stab {σ σ' τ U : Store V} {l : Loc} {v : V} (h : alloc σ l v = some σ') (h2 : Ext τ U)
    (h3 : Ext σ' U) (h1 : Ext σ τ) : ∃ τ', alloc τ l v = some τ' ∧ Ext σ' τ' ∧ Ext τ' U := by
  obtain ⟨e1, e2⟩ := alloc_ext h
  have hU := h3 l v e2
  rw [alloc_dec]
  cases ht : τ l with
  | none =>
    refine ⟨upd τ l v, rfl, alloc_le h (h1.trans (Ext.upd ht)) (by simp [upd]), ?_⟩
    intro x w hx
    unfold upd at hx
    split at hx
    · cases hx; subst_vars; exact hU
    · exact h2 x w hx
  | some w =>
    have : w = v := by
      have := h2 l w ht; rw [hU] at this; cases this; rfl
    subst this
    exact ⟨τ, by simp, alloc_le h h1 ht, h2⟩

/-- What holds of the callbacks. -/
structure RecOK (R : Rec V) : Prop where
  frcExt : ∀ anc σ l σ' v, R.frc anc σ l = some (σ', v) → Ext σ σ'
  callExt : ∀ c m π fn a r r' v, R.call c m π fn a r = some (r', v) → Ext r.store r'.store
  frcStab : ∀ anc σ l σ' v τ U, R.frc anc σ l = some (σ', v) → Ext σ τ → Ext τ U → Ext σ' U →
    ∃ τ', R.frc anc τ l = some (τ', v) ∧ Ext σ' τ' ∧ Ext τ' U
  callStab : ∀ c m π fn a r r' v τ U, R.call c m π fn a r = some (r', v) → Ext r.store τ → Ext τ U → Ext r'.store U →
    ∃ τ', R.call c m π fn a ⟨τ, r.obs⟩ = some (⟨τ', r'.obs⟩, v) ∧ Ext r'.store τ' ∧ Ext τ' U

theorem observe_ext {sig : Sig} {R : Rec V} (hR : RecOK R) {c m ty l} {r r' : RS V} {v : V}
    (h : observe sig R c m ty l r = some (r', v)) : Ext r.store r'.store := by
  unfold observe at h
  split at h
  · split at h
    · split at h
      · cases h; exact Ext.refl _
      · cases h
    · cases h
  · split at h
    · split at h
      · rename_i hf
        cases h
        exact hR.frcExt _ _ _ _ _ hf
      · cases h
    · cases h

theorem observeMap_ext {sig : Sig} {R : Rec V} (hR : RecOK R) {c m ty l f} {r r' : RS V} {v : V}
    (h : observeMap sig R c m ty l f r = some (r', v)) : Ext r.store r'.store := by
  unfold observeMap at h
  split at h
  · split at h
    · split at h
      · cases h; exact Ext.refl _
      · cases h
    · cases h
  · split at h
    · rename_i hf
      cases h
      exact observe_ext hR hf
    · cases h

theorem observe_stab {sig : Sig} {R : Rec V} (hR : RecOK R) {c m ty l} {r r' : RS V} {v : V} {τ U : Store V}
    (h : observe sig R c m ty l r = some (r', v)) (h1 : Ext r.store τ) (h2 : Ext τ U) (h3 : Ext r'.store U) :
    ∃ τ', observe sig R c m ty l ⟨τ, r.obs⟩ = some (⟨τ', r'.obs⟩, v) ∧ Ext r'.store τ' ∧ Ext τ' U := by
  unfold observe at h ⊢
  split at h
  · split at h
    · rename_i hc
      split at h
      · rename_i w hw
        cases h
        exact ⟨τ, by simp only [if_pos hc, h1 _ _ hw], h1, h2⟩
      · cases h
    · cases h
  · split at h
    · rename_i hc
      split at h
      · rename_i σ' w hf
        cases h
        obtain ⟨τ', e1, e2, e3⟩ := hR.frcStab _ _ _ _ _ τ U hf h1 h2 h3
        exact ⟨τ', by simp only [if_pos hc, e1], e2, e3⟩
      · cases h
    · cases h

theorem observeMap_stab {sig : Sig} {R : Rec V} (hR : RecOK R) {c m ty l f} {r r' : RS V} {v : V} {τ U : Store V}
    (h : observeMap sig R c m ty l f r = some (r', v)) (h1 : Ext r.store τ) (h2 : Ext τ U) (h3 : Ext r'.store U) :
    ∃ τ', observeMap sig R c m ty l f ⟨τ, r.obs⟩ = some (⟨τ', r'.obs⟩, v) ∧ Ext r'.store τ' ∧ Ext τ' U := by
  unfold observeMap at h ⊢
  split at h
  · split at h
    · rename_i hc
      split at h
      · rename_i w hw
        cases h
        exact ⟨τ, by simp only [if_pos hc, h1 _ _ hw], h1, h2⟩
      · cases h
    · cases h
  · split at h
    · rename_i r1 w hf
      cases h
      obtain ⟨τ', e1, e2, e3⟩ := observe_stab hR hf h1 h2 h3
      exact ⟨τ', by simp only [e1], e2, e3⟩
    · cases h

theorem eval_ext {sig : Sig} {env : Env V} {R : Rec V} (hR : RecOK R) (c : Ctx) (p : Prog V) :
    ∀ m π (r r' : RS V) v, eval sig env R c m π p r = some (r', v) → Ext r.store r'.store := by
  induction p with
  | ret w => intro m π r r' v h; simp only [eval] at h; cases h; exact Ext.refl _
  | force ty l cyc k ih =>
    intro m π r r' v h
    simp only [eval] at h
    split at h
    · rename_i hf; exact (observe_ext hR hf).trans (ih _ _ _ _ _ _ h)
    · cases h
  | forceMap ty l f k ih =>
    intro m π r r' v h
    simp only [eval] at h
    split at h
    · rename_i hf; exact (observeMap_ext hR hf).trans (ih _ _ _ _ _ _ h)
    · cases h
  | forceAbs ty l f k ih => intro m π r r' v h; simp only [eval] at h; cases h
  | cell ty n w k ih =>
    intro m π r r' v h
    simp only [eval] at h
    split at h
    · split at h
      · rename_i hf; exact (alloc_ext hf).1.trans (ih _ _ _ _ _ _ h)
      · cases h
    · cases h
  | thunk ty nc pp fn arg k ih =>
    intro m π r r' v h
    simp only [eval] at h
    split at h
    · split at h
      · split at h
        · rename_i hf; exact (alloc_ext hf).1.trans (ih _ _ _ _ _ _ h)
        · cases h
      · cases h
    · cases h
  | set ty l w k ih => intro m π r r' v h; simp only [eval] at h; cases h
  | ns n body k ihb ih =>
    intro m π r r' v h
    simp only [eval] at h
    split at h
    · rename_i hf; exact (ihb _ _ _ _ _ hf).trans (ih _ _ _ _ _ _ h)
    · cases h
  | structural body k ihb ih =>
    intro m π r r' v h
    simp only [eval] at h
    split at h
    · rename_i hf; exact (ihb _ _ _ _ _ hf).trans (ih _ _ _ _ _ _ h)
    · cases h
  | call fn arg k ih =>
    intro m π r r' v h
    simp only [eval] at h
    split at h
    · rename_i hf; exact (hR.callExt _ _ _ _ _ _ _ _ hf).trans (ih _ _ _ _ _ _ h)
    · cases h
  | panic => intro m π r r' v h; simp only [eval] at h; cases h

theorem eval_stab {sig : Sig} {env : Env V} {R : Rec V} (hR : RecOK R) (c : Ctx) (p : Prog V) :
    ∀ m π (r r' : RS V) v (τ U : Store V), eval sig env R c m π p r = some (r', v) → Ext r.store τ → Ext τ U → Ext r'.store U →
    ∃ τ', eval sig env R c m π p ⟨τ, r.obs⟩ = some (⟨τ', r'.obs⟩, v) ∧ Ext r'.store τ' ∧ Ext τ' U := by
  induction p with
  | ret w => intro m π r r' v τ U h h1 h2 h3; simp only [eval] at h; cases h; exact ⟨τ, rfl, h1, h2⟩
  | force ty l cyc k ih =>
    intro m π r r' v τ U h h1 h2 h3
    simp only [eval] at h
    split at h
    · rename_i r1 w hf
      obtain ⟨τ1, e1, e2, e3⟩ := observe_stab hR hf h1 h2 ((eval_ext hR c _ _ _ _ _ _ h).trans h3)
      obtain ⟨τ2, e4, e5, e6⟩ := ih _ _ _ _ _ _ τ1 U h e2 e3 h3
      exact ⟨τ2, by simp only [eval, e1]; exact e4, e5, e6⟩
    · cases h
  | forceMap ty l f k ih =>
    intro m π r r' v τ U h h1 h2 h3
    simp only [eval] at h
    split at h
    · rename_i r1 w hf
      obtain ⟨τ1, e1, e2, e3⟩ := observeMap_stab hR hf h1 h2 ((eval_ext hR c _ _ _ _ _ _ h).trans h3)
      obtain ⟨τ2, e4, e5, e6⟩ := ih _ _ _ _ _ _ τ1 U h e2 e3 h3
      exact ⟨τ2, by simp only [eval, e1]; exact e4, e5, e6⟩
    · cases h
  | forceAbs ty l f k ih => intro m π r r' v τ U h; simp only [eval] at h; cases h
  | cell ty n w k ih =>
    intro m π r r' v τ U h h1 h2 h3
    simp only [eval] at h
    split at h
    · rename_i hs
      split at h
      · rename_i σ1 hf
        obtain ⟨τ1, e1, e2, e3⟩ := alloc_stab hf h2 ((eval_ext hR c _ _ _ _ _ _ h).trans h3) h1
        obtain ⟨τ2, e4, e5, e6⟩ := ih _ _ _ _ _ _ τ1 U h e2 e3 h3
        exact ⟨τ2, by simp only [eval, if_pos hs, e1]; exact e4, e5, e6⟩
      · cases h
    · cases h
  | thunk ty nc pp fn arg k ih =>
    intro m π r r' v τ U h h1 h2 h3
    simp only [eval] at h
    split at h
    · rename_i l hl
      split at h
      · rename_i hs
        split at h
        · rename_i σ1 hf
          obtain ⟨τ1, e1, e2, e3⟩ := alloc_stab hf h2 ((eval_ext hR c _ _ _ _ _ _ h).trans h3) h1
          obtain ⟨τ2, e4, e5, e6⟩ := ih _ _ _ _ _ _ τ1 U h e2 e3 h3
          exact ⟨τ2, by simp only [eval, hl, if_pos hs, e1]; exact e4, e5, e6⟩
        · cases h
      · cases h
    · cases h
  | set ty l w k ih => intro m π r r' v τ U h; simp only [eval] at h; cases h
  | ns n body k ihb ih =>
    intro m π r r' v τ U h h1 h2 h3
    simp only [eval] at h
    split at h
    · rename_i r1 w hf
      obtain ⟨τ1, e1, e2, e3⟩ := ihb _ _ _ _ _ τ U hf h1 h2 ((eval_ext hR c _ _ _ _ _ _ h).trans h3)
      obtain ⟨τ2, e4, e5, e6⟩ := ih _ _ _ _ _ _ τ1 U h e2 e3 h3
      exact ⟨τ2, by simp only [eval, e1]; exact e4, e5, e6⟩
    · cases h
  | structural body k ihb ih =>
    intro m π r r' v τ U h h1 h2 h3
    simp only [eval] at h
    split at h
    · rename_i r1 w hf
      obtain ⟨τ1, e1, e2, e3⟩ := ihb _ _ _ _ _ τ U hf h1 h2 ((eval_ext hR c _ _ _ _ _ _ h).trans h3)
      obtain ⟨τ2, e4, e5, e6⟩ := ih _ _ _ _ _ _ τ1 U h e2 e3 h3
      exact ⟨τ2, by simp only [eval, e1]; exact e4, e5, e6⟩
    · cases h
  | call fn arg k ih =>
    intro m π r r' v τ U h h1 h2 h3
    simp only [eval] at h
    split at h
    · rename_i r1 w hf
      obtain ⟨τ1, e1, e2, e3⟩ := hR.callStab _ _ _ _ _ _ _ _ τ U hf h1 h2 ((eval_ext hR c _ _ _ _ _ _ h).trans h3)
      obtain ⟨τ2, e4, e5, e6⟩ := ih _ _ _ _ _ _ τ1 U h e2 e3 h3
      exact ⟨τ2, by simp only [eval, e1]; exact e4, e5, e6⟩
    · cases h
  | panic => intro m π r r' v τ U h; simp only [eval] at h; cases h

/-- Unfolding `frc` one level. -/
theorem frc_succ {sig : Sig} {env : Env V} {n anc} {σ : Store V} {l σ' v} (h : (recN sig env (n+1)).frc anc σ l = some (σ', v)) :
    ∃ ty pp fn arg obs, sig l = .thunk ty pp fn ∧ σ l = some arg ∧
      eval sig env (recN sig env n) ⟨l, l :: anc⟩ sig.mode l.path (env.code fn arg) ⟨σ, []⟩ = some (⟨σ', obs⟩, v) ∧ sig.only l = true := by
  simp only [recN] at h
  split at h
  · rename_i ty pp fn arg h1 h2 h3
    split at h
    · rename_i r w hr
      cases h
      exact ⟨ty, pp, fn, arg, r.obs, h1, h2, hr, h3⟩
    · cases h
  · cases h

theorem recN_ok (sig : Sig) (env : Env V) : ∀ n, RecOK (recN sig env n) := by
  intro n
  induction n with
  | zero =>
    refine ⟨?_, ?_, ?_, ?_⟩
    · intro anc σ l σ' v h; simp only [recN] at h; cases h
    · intro c m π fn a r r' v h; simp only [recN] at h; cases h
    · intro anc σ l σ' v τ U h; simp only [recN] at h; cases h
    · intro c m π fn a r r' v τ U h; simp only [recN] at h; cases h
  | succ n ih =>
    refine ⟨?_, ?_, ?_, ?_⟩
    · intro anc σ l σ' v h
      obtain ⟨ty, pp, fn, arg, obs, h1, h2, h3, _⟩ := frc_succ h
      exact eval_ext ih _ _ _ _ _ _ _ h3
    · intro c m π fn a r r' v h; simp only [recN] at h
      exact eval_ext ih _ _ _ _ _ _ _ h
    · intro anc σ l σ' v τ U h e1 e2 e3
      obtain ⟨ty, pp, fn, arg, obs, h1, h2, h3, h4⟩ := frc_succ h
      obtain ⟨τ', g1, g2, g3⟩ := eval_stab ih _ _ _ _ _ _ _ τ U h3 e1 e2 e3
      exact ⟨τ', by simp only [recN, h1, e1 _ _ h2, h4, g1], g2, g3⟩
    · intro c m π fn a r r' v τ U h e1 e2 e3
      simp only [recN] at h ⊢
      exact eval_stab ih _ _ _ _ _ _ _ τ U h e1 e2 e3

/-! ### Depth, context, purity -/

/-- `sig'` demands less than `sig`. -/
structure SigLe (sig sig' : Sig) : Prop where
  kind : ∀ l, sig'.kind l = sig.kind l
  mode : sig'.mode = sig.mode
  pu : sig'.pu = true → sig.pu = true
  only : ∀ l, sig.only l = true → sig'.only l = true

theorem SigLe.refl (sig : Sig) : SigLe sig sig := ⟨fun _ => rfl, rfl, id, fun _ => id⟩
theorem SigLe.mayUse {sig sig' : Sig} (h : SigLe sig sig') {a b : Loc} (hm : MayUse sig a b) : MayUse sig' a b :=
  fun h1 h2 => hm (h.pu h1) h2

/-- `R'` is defined at least where `R` is. -/
structure RecLe (R R' : Rec V) : Prop where
  frc : ∀ anc anc' σ l x, R.frc anc σ l = some x → (∀ b ∈ anc', b ∈ anc) → R'.frc anc' σ l = some x
  call : ∀ c c' m π fn a r x, R.call c m π fn a r = some x → c'.self = c.self → (∀ b ∈ c'.anc, b ∈ c.anc) → R'.call c' m π fn a r = some x

theorem observe_le {sig sig' : Sig} (hs : SigLe sig sig') {R R' : Rec V} (hR : RecLe R R') {c c' : Ctx} (h1 : c'.self = c.self)
    (h2 : ∀ b ∈ c'.anc, b ∈ c.anc) {m ty l} {r : RS V} {x} (h : observe sig R c m ty l r = some x) : observe sig' R' c' m ty l r = some x := by
  unfold observe at h ⊢
  rw [show sig'.kind l = sig.kind l from hs.kind l]
  split at h
  · split at h
    · rename_i hc
      rw [if_pos ⟨hc.1, hc.2.1, by rw [h1]; exact hs.mayUse hc.2.2⟩]
      exact h
    · cases h
  · split at h
    · rename_i hc
      rw [if_pos ⟨hc.1, fun hm => hc.2.1 (h2 _ hm), by rw [hs.mode]; exact hc.2.2.1, by rw [h1]; exact hs.mayUse hc.2.2.2⟩]
      split at h
      · rename_i hf
        rw [hR.frc _ _ _ _ _ hf h2]; exact h
      · cases h
    · cases h

theorem observeMap_le {sig sig' : Sig} (hs : SigLe sig sig') {R R' : Rec V} (hR : RecLe R R') {c c' : Ctx} (h1 : c'.self = c.self)
    (h2 : ∀ b ∈ c'.anc, b ∈ c.anc) {m ty l f} {r : RS V} {x} (h : observeMap sig R c m ty l f r = some x) :
    observeMap sig' R' c' m ty l f r = some x := by
  unfold observeMap at h ⊢
  rw [show sig'.kind l = sig.kind l from hs.kind l]
  split at h
  · split at h
    · rename_i hc
      rw [if_pos ⟨hc.1, hc.2.1, by rw [h1]; exact hs.mayUse hc.2.2⟩]
      exact h
    · cases h
  · split at h
    · rename_i hf
      simp only [observe_le hs hR h1 h2 hf]; exact h
    · cases h

theorem eval_le {sig sig' : Sig} (hs : SigLe sig sig') {env : Env V} {R R' : Rec V} (hR : RecLe R R') {c c' : Ctx} (h1 : c'.self = c.self)
    (h2 : ∀ b ∈ c'.anc, b ∈ c.anc) (p : Prog V) : ∀ m π r x, eval sig env R c m π p r = some x → eval sig' env R' c' m π p r = some x := by
  induction p with
  | ret w => intro m π r x h; exact h
  | force ty l cyc k ih =>
    intro m π r x h
    simp only [eval] at h ⊢
    split at h
    · rename_i hf; simp only [observe_le hs hR h1 h2 hf]; exact ih _ _ _ _ _ h
    · cases h
  | forceMap ty l f k ih =>
    intro m π r x h
    simp only [eval] at h ⊢
    split at h
    · rename_i hf; simp only [observeMap_le hs hR h1 h2 hf]; exact ih _ _ _ _ _ h
    · cases h
  | forceAbs ty l f k ih => intro m π r x h; simp only [eval] at h; cases h
  | cell ty n w k ih =>
    intro m π r x h
    simp only [eval] at h ⊢
    split at h
    · rename_i hc
      rw [show sig'.kind (cellLoc env m π n w) = sig.kind (cellLoc env m π n w) from hs.kind _, if_pos ⟨hc.1, by rw [h1]; exact hs.mayUse hc.2⟩]
      split at h
      · exact ih _ _ _ _ _ h
      · cases h
    · cases h
  | thunk ty nc pp fn arg k ih =>
    intro m π r x h
    simp only [eval] at h ⊢
    split at h
    · rename_i l hl
      split at h
      · rename_i hc
        rw [show sig'.kind l = sig.kind l from hs.kind _, if_pos ⟨hc.1, by rw [h1]; exact hc.2.1, by rw [h1]; exact hs.mayUse hc.2.2⟩]
        split at h
        · exact ih _ _ _ _ _ h
        · cases h
      · cases h
    · cases h
  | set ty l w k ih => intro m π r x h; simp only [eval] at h; cases h
  | ns n body k ihb ih =>
    intro m π r x h
    simp only [eval] at h ⊢
    split at h
    · rename_i hf; simp only [ihb _ _ _ _ hf]; exact ih _ _ _ _ _ h
    · cases h
  | structural body k ihb ih =>
    intro m π r x h
    simp only [eval] at h ⊢
    split at h
    · rename_i hf; simp only [ihb _ _ _ _ hf]; exact ih _ _ _ _ _ h
    · cases h
  | call fn arg k ih =>
    intro m π r x h
    simp only [eval] at h ⊢
    split at h
    · rename_i hf; simp only [hR.call _ _ _ _ _ _ _ _ hf h1 h2]; exact ih _ _ _ _ _ h
    · cases h
  | panic => intro m π r x h; simp only [eval] at h; cases h

theorem recN_le {sig sig' : Sig} (hs : SigLe sig sig') (env : Env V) : ∀ n k, RecLe (recN sig env n) (recN sig' env (n + k)) := by
  intro n
  induction n with
  | zero =>
    intro k
    refine ⟨?_, ?_⟩
    · intro anc anc' σ l x h; simp only [recN] at h; cases h
    · intro c c' m π fn a r x h; simp only [recN] at h; cases h
  | succ n ih =>
    intro k
    rw [show n + 1 + k = (n + k) + 1 by omega]
    refine ⟨?_, ?_⟩
    · intro anc anc' σ l x h hsub
      obtain ⟨σ', v⟩ := x
      obtain ⟨ty, pp, fn, arg, obs, g1, g2, g3, g4⟩ := frc_succ h
      have := eval_le hs (ih k) (c := ⟨l, l :: anc⟩) (c' := ⟨l, l :: anc'⟩) rfl (by
        intro b hb; rcases List.mem_cons.1 hb with rfl | hb
        · exact List.mem_cons_self ..
        · exact List.mem_cons_of_mem _ (hsub b hb)) _ _ _ _ _ g3
      simp only [recN, show sig'.kind l = sig.kind l from hs.kind l, g1, g2, hs.mode, hs.only l g4, this]
    · intro c c' m π fn a r x h e1 e2
      simp only [recN] at h ⊢
      exact eval_le hs (ih k) e1 e2 _ _ _ _ _ h

/-- The same signature, with all thunks allowed. -/
def Sig.full (sig : Sig) : Sig := { sig with only := fun _ => true }
theorem SigLe.full (sig : Sig) : SigLe sig sig.full := ⟨fun _ => rfl, rfl, id, fun _ _ => rfl⟩
theorem frc_full {sig : Sig} {env : Env V} {n anc} {σ : Store V} {l x} (h : (recN sig env n).frc anc σ l = some x) :
    (recN sig.full env n).frc anc σ l = some x := (recN_le (SigLe.full sig) env n 0).frc anc anc σ l x h (fun _ h => h)

/-- Two derivations of the value of a thunk agree. -/
theorem frc_det {sig : Sig} {env : Env V} {n n' anc anc'} {σ : Store V} {l x x'} (h : (recN sig env n).frc anc σ l = some x)
    (h' : (recN sig env n').frc anc' σ l = some x') : x = x' := by
  have a := (recN_le (SigLe.refl sig) env n n').frc anc [] σ l x h (by intro b hb; cases hb)
  have b := (recN_le (SigLe.refl sig) env n' n).frc anc' [] σ l x' h' (by intro b hb; cases hb)
  rw [Nat.add_comm, a] at b; cases b; rfl

/-- Forcing again, in the store reached, changes nothing. -/
theorem frc_again {sig : Sig} {env : Env V} {n anc} {σ σ' : Store V} {l v} (h : (recN sig env n).frc anc σ l = some (σ', v)) :
    (recN sig env n).frc [] σ' l = some (σ', v) := by
  have hR := recN_ok sig env n
  obtain ⟨τ', g1, g2, g3⟩ := hR.frcStab _ _ _ _ _ σ' σ' h (hR.frcExt _ _ _ _ _ h) (Ext.refl _) (Ext.refl _)
  rw [Ext.antisymm g3 g2] at g1
  exact (recN_le (SigLe.refl sig) env n 0).frc _ _ _ _ _ g1 (by intro b hb; cases hb)

/-- ... nor in a larger store. -/
theorem frc_larger {sig : Sig} {env : Env V} {n anc} {σ τ : Store V} {l v} (h : (recN sig env n).frc anc σ l = some (σ, v)) (he : Ext σ τ) :
    (recN sig env n).frc anc τ l = some (τ, v) := by
  obtain ⟨τ', g1, g2, g3⟩ := (recN_ok sig env n).frcStab _ _ _ _ _ τ τ h he (Ext.refl _) he
  have := (recN_ok sig env n).frcExt _ _ _ _ _ g1
  rw [Ext.antisymm g3 this] at g1
  exact g1

/-- The stores agree on the structural locations. -/
def SameS (σ τ : Store V) : Prop := ∀ l, l.isStruct = true → σ l = τ l
/-- The stores agree on the nominal locations. -/
def SameN (σ τ : Store V) : Prop := ∀ l, l.isStruct = false → σ l = τ l

theorem alloc_local {σ σ' τ : Store V} {l : Loc} {v : V} (h : alloc σ l v = some σ') (hl : l.isStruct = true) (hs : SameS σ τ) :
    ∃ τ', alloc τ l v = some τ' ∧ SameS σ' τ' ∧ SameN τ τ' := by
  rw [alloc_dec] at h ⊢
  rw [← hs l hl]
  split at h
  · cases h
    refine ⟨_, rfl, ?_, ?_⟩
    · intro x hx
      unfold upd; split
      · rfl
      · exact hs x hx
    · intro x hx
      unfold upd; split
      · subst_vars; rw [hl] at hx; cases hx
      · rfl
  · split at h
    · cases h; subst_vars
      exact ⟨τ, by simp, hs, fun _ _ => rfl⟩
    · cases h

/-- Structural code sees the structural part of the store only. -/
structure RecLocal (R : Rec V) : Prop where
  frc : ∀ anc σ l σ' v τ, l.isStruct = true → R.frc anc σ l = some (σ', v) → SameS σ τ →
    ∃ τ', R.frc anc τ l = some (τ', v) ∧ SameS σ' τ' ∧ SameN τ τ'
  call : ∀ c m π fn a r r' v τ, c.self.isStruct = true → R.call c m π fn a r = some (r', v) → SameS r.store τ →
    ∃ τ', R.call c m π fn a ⟨τ, r.obs⟩ = some (⟨τ', r'.obs⟩, v) ∧ SameS r'.store τ' ∧ SameN τ τ'

theorem observe_local {sig : Sig} (hp : sig.pu = true) {R : Rec V} (hR : RecLocal R) {c : Ctx} (hc : c.self.isStruct = true) {m ty l} {r r' : RS V} {v τ}
    (h : observe sig R c m ty l r = some (r', v)) (hs : SameS r.store τ) :
    ∃ τ', observe sig R c m ty l ⟨τ, r.obs⟩ = some (⟨τ', r'.obs⟩, v) ∧ SameS r'.store τ' ∧ SameN τ τ' := by
  unfold observe at h ⊢
  split at h
  · split at h
    · rename_i hu
      split at h
      · rename_i w hw
        cases h
        have hl := hu.2.2 hp hc
        exact ⟨τ, by simp only [if_pos hu, ← hs l hl, hw], hs, fun _ _ => rfl⟩
      · cases h
    · cases h
  · split at h
    · rename_i hu
      split at h
      · rename_i σ' w hf
        cases h
        obtain ⟨τ', e1, e2, e3⟩ := hR.frc _ _ _ _ _ τ (hu.2.2.2 hp hc) hf hs
        exact ⟨τ', by simp only [if_pos hu, e1], e2, e3⟩
      · cases h
    · cases h

theorem observeMap_local {sig : Sig} (hp : sig.pu = true) {R : Rec V} (hR : RecLocal R) {c : Ctx} (hc : c.self.isStruct = true) {m ty l f} {r r' : RS V} {v τ}
    (h : observeMap sig R c m ty l f r = some (r', v)) (hs : SameS r.store τ) :
    ∃ τ', observeMap sig R c m ty l f ⟨τ, r.obs⟩ = some (⟨τ', r'.obs⟩, v) ∧ SameS r'.store τ' ∧ SameN τ τ' := by
  unfold observeMap at h ⊢
  split at h
  · split at h
    · rename_i hu
      split at h
      · rename_i w hw
        cases h
        have hl := hu.2.2 hp hc
        exact ⟨τ, by simp only [if_pos hu, ← hs l hl, hw], hs, fun _ _ => rfl⟩
      · cases h
    · cases h
  · split at h
    · rename_i r1 w hf
      cases h
      obtain ⟨τ', e1, e2, e3⟩ := observe_local hp hR hc hf hs
      exact ⟨τ', by simp only [e1], e2, e3⟩
    · cases h

theorem SameN.trans {a b c : Store V} (h : SameN a b) (h' : SameN b c) : SameN a c := fun l hl => (h l hl).trans (h' l hl)

theorem eval_local {sig : Sig} (hp : sig.pu = true) {env : Env V} {R : Rec V} (hR : RecLocal R) {c : Ctx} (hc : c.self.isStruct = true) (p : Prog V) :
    ∀ m π r r' v τ, eval sig env R c m π p r = some (r', v) → SameS r.store τ →
      ∃ τ', eval sig env R c m π p ⟨τ, r.obs⟩ = some (⟨τ', r'.obs⟩, v) ∧ SameS r'.store τ' ∧ SameN τ τ' := by
  induction p with
  | ret w => intro m π r r' v τ h hs; simp only [eval] at h; cases h; exact ⟨τ, rfl, hs, fun _ _ => rfl⟩
  | force ty l cyc k ih =>
    intro m π r r' v τ h hs
    simp only [eval] at h
    split at h
    · rename_i r1 w hf
      obtain ⟨τ1, e1, e2, e3⟩ := observe_local hp hR hc hf hs
      obtain ⟨τ2, e4, e5, e6⟩ := ih _ _ _ _ _ _ τ1 h e2
      exact ⟨τ2, by simp only [eval, e1]; exact e4, e5, e3.trans e6⟩
    · cases h
  | forceMap ty l f k ih =>
    intro m π r r' v τ h hs
    simp only [eval] at h
    split at h
    · rename_i r1 w hf
      obtain ⟨τ1, e1, e2, e3⟩ := observeMap_local hp hR hc hf hs
      obtain ⟨τ2, e4, e5, e6⟩ := ih _ _ _ _ _ _ τ1 h e2
      exact ⟨τ2, by simp only [eval, e1]; exact e4, e5, e3.trans e6⟩
    · cases h
  | forceAbs ty l f k ih => intro m π r r' v τ h; simp only [eval] at h; cases h
  | cell ty n w k ih =>
    intro m π r r' v τ h hs
    simp only [eval] at h
    split at h
    · rename_i hu
      split at h
      · rename_i σ1 hf
        obtain ⟨τ1, e1, e2, e3⟩ := alloc_local hf (hu.2 hp hc) hs
        obtain ⟨τ2, e4, e5, e6⟩ := ih _ _ _ _ _ _ τ1 h e2
        exact ⟨τ2, by simp only [eval, if_pos hu, e1]; exact e4, e5, e3.trans e6⟩
      · cases h
    · cases h
  | thunk ty nc pp fn arg k ih =>
    intro m π r r' v τ h hs
    simp only [eval] at h
    split at h
    · rename_i l hl
      split at h
      · rename_i hu
        split at h
        · rename_i σ1 hf
          obtain ⟨τ1, e1, e2, e3⟩ := alloc_local hf (hu.2.2 hp hc) hs
          obtain ⟨τ2, e4, e5, e6⟩ := ih _ _ _ _ _ _ τ1 h e2
          exact ⟨τ2, by simp only [eval, hl, if_pos hu, e1]; exact e4, e5, e3.trans e6⟩
        · cases h
      · cases h
    · cases h
  | set ty l w k ih => intro m π r r' v τ h; simp only [eval] at h; cases h
  | ns n body k ihb ih =>
    intro m π r r' v τ h hs
    simp only [eval] at h
    split at h
    · rename_i r1 w hf
      obtain ⟨τ1, e1, e2, e3⟩ := ihb _ _ _ _ _ τ hf hs
      obtain ⟨τ2, e4, e5, e6⟩ := ih _ _ _ _ _ _ τ1 h e2
      exact ⟨τ2, by simp only [eval, e1]; exact e4, e5, e3.trans e6⟩
    · cases h
  | structural body k ihb ih =>
    intro m π r r' v τ h hs
    simp only [eval] at h
    split at h
    · rename_i r1 w hf
      obtain ⟨τ1, e1, e2, e3⟩ := ihb _ _ _ _ _ τ hf hs
      obtain ⟨τ2, e4, e5, e6⟩ := ih _ _ _ _ _ _ τ1 h e2
      exact ⟨τ2, by simp only [eval, e1]; exact e4, e5, e3.trans e6⟩
    · cases h
  | call fn arg k ih =>
    intro m π r r' v τ h hs
    simp only [eval] at h
    split at h
    · rename_i r1 w hf
      obtain ⟨τ1, e1, e2, e3⟩ := hR.call _ _ _ _ _ _ _ _ τ hc hf hs
      obtain ⟨τ2, e4, e5, e6⟩ := ih _ _ _ _ _ _ τ1 h e2
      exact ⟨τ2, by simp only [eval, e1]; exact e4, e5, e3.trans e6⟩
    · cases h
  | panic => intro m π r r' v τ h; simp only [eval] at h; cases h

theorem recN_local {sig : Sig} (hp : sig.pu = true) (env : Env V) : ∀ n, RecLocal (recN sig env n) := by
  intro n
  induction n with
  | zero =>
    refine ⟨?_, ?_⟩
    · intro anc σ l σ' v τ hl h; simp only [recN] at h; cases h
    · intro c m π fn a r r' v τ hl h; simp only [recN] at h; cases h
  | succ n ih =>
    refine ⟨?_, ?_⟩
    · intro anc σ l σ' v τ hl h hs
      obtain ⟨ty, pp, fn, arg, obs, h1, h2, h3, h4⟩ := frc_succ h
      obtain ⟨τ', g1, g2, g3⟩ := eval_local hp ih hl _ _ _ _ _ _ τ h3 hs
      exact ⟨τ', by simp only [recN, h1, ← hs l hl, h2, h4, g1], g2, g3⟩
    · intro c m π fn a r r' v τ hl h hs
      simp only [recN] at h ⊢
      exact eval_local hp ih hl _ _ _ _ _ _ τ h hs

/-- The value of a pure structural thunk depends on the structural part of the store only. -/
theorem frc_same {sig : Sig} (hp : sig.pu = true) {env : Env V} {n anc} {σ τ : Store V} {l v} (hl : l.isStruct = true)
    (h : (recN sig env n).frc anc σ l = some (σ, v)) (hs : SameS σ τ) : (recN sig env n).frc anc τ l = some (τ, v) := by
  obtain ⟨τ', g1, g2, g3⟩ := (recN_local hp env n).frc _ _ _ _ _ τ hl h hs
  have : τ' = τ := by
    funext x
    cases hx : x.isStruct
    · exact (g3 x hx).symm
    · rw [← g2 x hx, hs x hx]
  rw [this] at g1; exact g1

end Adapton.Ref
