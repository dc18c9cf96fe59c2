import Verif.Engine.RefLemmas
/-
The purity requirement on structural thunks (`Sig.pu`) only restricts the programs that have a meaning: what has a meaning with the
requirement has the same meaning without it.
-/
set_option linter.unusedSectionVars false
set_option linter.unusedVariables false
namespace Adapton.Ref
open Adapton
variable {V : Type} [DecidableEq V]

theorem alloc_join {σ σ' τ τ' : Store V} {l : Loc} {v : V} (h : alloc σ l v = some σ') (h' : alloc τ l v = some τ') (he : Ext σ τ) :
    Ext σ' τ' := alloc_le h (he.trans (alloc_ext h').1) (alloc_ext h').2

/-- Runs in a smaller and in a larger store agree, if both have a meaning. -/
structure RecJoin (R : Rec V) : Prop where
  frc : ∀ anc σ l σ' v τ τ' w, R.frc anc σ l = some (σ', v) → R.frc anc τ l = some (τ', w) → Ext σ τ → Ext σ' τ' ∧ v = w
  call : ∀ c m π fn a σ o r' v τ r2 w, R.call c m π fn a ⟨σ, o⟩ = some (r', v) → R.call c m π fn a ⟨τ, o⟩ = some (r2, w) → Ext σ τ →
    Ext r'.store r2.store ∧ r'.obs = r2.obs ∧ v = w

theorem observe_join {sig : Sig} {R : Rec V} (hR : RecJoin R) {c m ty l} {σ τ : Store V} {o : Obs} {r' r2 : RS V} {v w : V}
    (h : observe sig R c m ty l ⟨σ, o⟩ = some (r', v)) (h' : observe sig R c m ty l ⟨τ, o⟩ = some (r2, w)) (he : Ext σ τ) :
    Ext r'.store r2.store ∧ r'.obs = r2.obs ∧ v = w := by
  unfold observe at h h'
  rcases hk : sig.kind l with ty' | ⟨ty', pp, fn⟩
  · rw [hk] at h h'
    simp only at h h'
    split at h
    · rename_i hc
      simp only [if_pos hc] at h'
      split at h
      · rename_i x hx
        cases h
        simp only [he _ _ hx] at h'
        cases h'
        exact ⟨he, rfl, rfl⟩
      · cases h
    · cases h
  · rw [hk] at h h'
    simp only at h h'
    split at h
    · rename_i hc
      simp only [if_pos hc] at h'
      split at h
      · rename_i x hx
        cases h
        split at h'
        · rename_i y hy
          cases h'
          obtain ⟨g1, g2⟩ := hR.frc _ _ _ _ _ _ _ _ hx hy he
          exact ⟨g1, rfl, g2⟩
        · cases h'
      · cases h
    · cases h

theorem observeMap_join {sig : Sig} {R : Rec V} (hR : RecJoin R) {c m ty l f} {σ τ : Store V} {o : Obs} {r' r2 : RS V} {v w : V}
    (h : observeMap sig R c m ty l f ⟨σ, o⟩ = some (r', v)) (h' : observeMap sig R c m ty l f ⟨τ, o⟩ = some (r2, w)) (he : Ext σ τ) :
    Ext r'.store r2.store ∧ r'.obs = r2.obs ∧ v = w := by
  unfold observeMap at h h'
  rcases hk : sig.kind l with ty' | ⟨ty', pp, fn⟩
  · rw [hk] at h h'
    simp only at h h'
    split at h
    · rename_i hc
      simp only [if_pos hc] at h'
      split at h
      · rename_i x hx
        cases h
        simp only [he _ _ hx] at h'
        cases h'
        exact ⟨he, rfl, rfl⟩
      · cases h
    · cases h
  · rw [hk] at h h'
    simp only at h h'
    split at h
    · rename_i hx
      cases h
      split at h'
      · rename_i hy
        cases h'
        obtain ⟨g1, g2, g3⟩ := observe_join hR hx hy he
        exact ⟨g1, g2, by rw [g3]⟩
      · cases h'
    · cases h

theorem eval_join {sig : Sig} {env : Env V} {R : Rec V} (hR : RecJoin R) (c : Ctx) (p : Prog V) :
    ∀ m π (σ τ : Store V) (o : Obs) (r' r2 : RS V) v w, eval sig env R c m π p ⟨σ, o⟩ = some (r', v) →
      eval sig env R c m π p ⟨τ, o⟩ = some (r2, w) → Ext σ τ → Ext r'.store r2.store ∧ r'.obs = r2.obs ∧ v = w := by
  induction p with
  | ret x => intro m π σ τ o r' r2 v w h h' he; simp only [eval] at h h'; cases h; cases h'; exact ⟨he, rfl, rfl⟩
  | force ty l cyc k ih =>
    intro m π σ τ o r' r2 v w h h' he
    simp only [eval] at h h'
    split at h
    · rename_i ra a hx
      split at h'
      · rename_i rb b hy
        obtain ⟨g1, g2, g3⟩ := observe_join hR hx hy he
        obtain ⟨σa, oa⟩ := ra
        obtain ⟨σb, ob⟩ := rb
        cases g2; subst g3
        exact ih _ _ _ _ _ _ _ _ _ _ h h' g1
      · cases h'
    · cases h
  | forceMap ty l f k ih =>
    intro m π σ τ o r' r2 v w h h' he
    simp only [eval] at h h'
    split at h
    · rename_i ra a hx
      split at h'
      · rename_i rb b hy
        obtain ⟨g1, g2, g3⟩ := observeMap_join hR hx hy he
        obtain ⟨σa, oa⟩ := ra
        obtain ⟨σb, ob⟩ := rb
        cases g2; subst g3
        exact ih _ _ _ _ _ _ _ _ _ _ h h' g1
      · cases h'
    · cases h
  | forceAbs ty l f k ih => intro m π σ τ o r' r2 v w h; simp only [eval] at h; cases h
  | cell ty n x k ih =>
    intro m π σ τ o r' r2 v w h h' he
    simp only [eval] at h h'
    split at h
    · rename_i hc
      simp only [if_pos hc] at h'
      split at h
      · rename_i hx
        split at h'
        · rename_i hy
          exact ih _ _ _ _ _ _ _ _ _ _ h h' (alloc_join hx hy he)
        · cases h'
      · cases h
    · cases h
  | thunk ty nc pp fn arg k ih =>
    intro m π σ τ o r' r2 v w h h' he
    simp only [eval] at h h'
    split at h
    · rename_i l hl
      split at h
      · rename_i hc
        simp only [hl, if_pos hc] at h'
        split at h
        · rename_i hx
          split at h'
          · rename_i hy
            exact ih _ _ _ _ _ _ _ _ _ _ h h' (alloc_join hx hy he)
          · cases h'
        · cases h
      · cases h
    · cases h
  | set ty l x k ih => intro m π σ τ o r' r2 v w h; simp only [eval] at h; cases h
  | ns n body k ihb ih =>
    intro m π σ τ o r' r2 v w h h' he
    simp only [eval] at h h'
    split at h
    · rename_i ra a hx
      split at h'
      · rename_i rb b hy
        obtain ⟨g1, g2, g3⟩ := ihb _ _ _ _ _ _ _ _ _ hx hy he
        obtain ⟨σa, oa⟩ := ra
        obtain ⟨σb, ob⟩ := rb
        cases g2; subst g3
        exact ih _ _ _ _ _ _ _ _ _ _ h h' g1
      · cases h'
    · cases h
  | structural body k ihb ih =>
    intro m π σ τ o r' r2 v w h h' he
    simp only [eval] at h h'
    split at h
    · rename_i ra a hx
      split at h'
      · rename_i rb b hy
        obtain ⟨g1, g2, g3⟩ := ihb _ _ _ _ _ _ _ _ _ hx hy he
        obtain ⟨σa, oa⟩ := ra
        obtain ⟨σb, ob⟩ := rb
        cases g2; subst g3
        exact ih _ _ _ _ _ _ _ _ _ _ h h' g1
      · cases h'
    · cases h
  | call fn arg k ih =>
    intro m π σ τ o r' r2 v w h h' he
    simp only [eval] at h h'
    split at h
    · rename_i ra a hx
      split at h'
      · rename_i rb b hy
        obtain ⟨g1, g2, g3⟩ := hR.call _ _ _ _ _ _ _ _ _ _ _ _ hx hy he
        obtain ⟨σa, oa⟩ := ra
        obtain ⟨σb, ob⟩ := rb
        cases g2; subst g3
        exact ih _ _ _ _ _ _ _ _ _ _ h h' g1
      · cases h'
    · cases h
  | panic => intro m π σ τ o r' r2 v w h; simp only [eval] at h; cases h

theorem recN_join (sig : Sig) (env : Env V) : ∀ n, RecJoin (recN sig env n) := by
  intro n
  induction n with
  | zero =>
    refine ⟨?_, ?_⟩
    · intro anc σ l σ' v τ τ' w h; simp only [recN] at h; cases h
    · intro c m π fn a σ o r' v τ r2 w h; simp only [recN] at h; cases h
  | succ n ih =>
    refine ⟨?_, ?_⟩
    · intro anc σ l σ' v τ τ' w h h' he
      obtain ⟨ty, pp, fn, arg, obs, h1, h2, h3, _⟩ := frc_succ h
      obtain ⟨ty', pp', fn', arg', obs', k1, k2, k3, _⟩ := frc_succ h'
      rw [h1] at k1; cases k1
      rw [he _ _ h2] at k2; cases k2
      obtain ⟨g1, _, g3⟩ := eval_join ih _ _ _ _ _ _ _ _ _ _ _ h3 k3 he
      exact ⟨g1, g3⟩
    · intro c m π fn a σ o r' v τ r2 w h h' he
      simp only [recN] at h h'
      exact eval_join ih _ _ _ _ _ _ _ _ _ _ _ h h' he

theorem recN_le0 {sig sig' : Sig} (hs : SigLe sig sig') (env : Env V) (n : Nat) : RecLe (recN sig env n) (recN sig' env n) :=
  recN_le hs env n 0

theorem edit_ext {e : ES V} (he : Ext e.base e.cur) (l : Loc) (v : V) : Ext (edit e l v).base (edit e l v).cur := by
  simp only [edit_dec]
  split
  · intro x w hx
    unfold upd at hx ⊢
    split
    · rename_i hxl; rw [if_pos hxl] at hx; exact hx
    · rename_i hxl; rw [if_neg hxl] at hx; exact he x w hx
  · exact Ext.refl _

theorem editorForce_le {sig sig' : Sig} (hs : SigLe sig sig') {env : Env V} {n : Nat} {l : Loc} {e : ES V} (he : Ext e.base e.cur) {x}
    (h : editorForce (recN sig env n) l e = some x) :
    editorForce (recN sig' env n) l e = some x ∧ Ext (keepStruct e.base x.1) x.1 := by
  have hsub : ∀ b : Loc, b ∈ ([] : List Loc) → b ∈ ([] : List Loc) := fun _ h => h
  have hext : Ext e.base x.1 := by
    unfold editorForce at h
    split at h
    · rename_i hf; cases h
      exact he.trans ((recN_ok sig env n).frcExt _ _ _ _ _ hf)
    · exact (recN_ok sig env n).frcExt _ _ _ _ _ h
  refine ⟨?_, ?_⟩
  · unfold editorForce at h ⊢
    split at h
    · rename_i hf
      cases h
      rw [(recN_le0 hs env n).frc _ _ _ _ _ hf hsub]
    · rename_i hf
      rcases hc : (recN sig' env n).frc [] e.cur l with _ | y
      · simp only []
        exact (recN_le0 hs env n).frc _ _ _ _ _ h hsub
      · exfalso
        have hb := (recN_le0 hs env n).frc _ _ _ _ _ h hsub
        obtain ⟨g1, _⟩ := (recN_join sig' env n).frc _ _ _ _ _ _ _ _ hb hc he
        obtain ⟨τ', k1, _⟩ := (recN_ok sig env n).frcStab _ _ _ _ _ e.cur y.1 h he ((recN_ok sig' env n).frcExt _ _ _ _ _ hc) g1
        rw [hf] at k1; cases k1
  · intro y w hy
    unfold keepStruct at hy
    split at hy
    · exact hy
    · exact hext y w hy

theorem demand_le {sig sig' : Sig} (hs : SigLe sig sig') {env : Env V} {n : Nat} {m ty l} {e : ES V} (he : Ext e.base e.cur) {e' v}
    (h : demand sig (recN sig env n) m ty l e = some (e', v)) :
    demand sig' (recN sig' env n) m ty l e = some (e', v) ∧ Ext e'.base e'.cur := by
  unfold demand at h ⊢
  rw [show sig'.kind l = sig.kind l from hs.kind l, show sig'.mode = sig.mode from hs.mode]
  split at h
  · split at h
    · rename_i hc
      rw [if_pos hc]
      split at h
      · cases h; exact ⟨rfl, he⟩
      · cases h
    · cases h
  · split at h
    · rename_i hc
      rw [if_pos hc]
      split at h
      · rename_i hf
        cases h
        obtain ⟨g1, g2⟩ := editorForce_le hs he hf
        rw [g1]
        exact ⟨rfl, g2⟩
      · cases h
    · cases h

theorem evalEd_le {sig sig' : Sig} (hs : SigLe sig sig') {env : Env V} {n : Nat} {cE cE' : Bool → Path → FnId → V → ES V → Option (ES V × V)}
    (hcall : ∀ m π fn a e e' v, cE m π fn a e = some (e', v) → Ext e.base e.cur → cE' m π fn a e = some (e', v) ∧ Ext e'.base e'.cur)
    (p : Prog V) : ∀ m π e e' v, evalEd sig env (recN sig env n) cE m π p e = some (e', v) → Ext e.base e.cur →
      evalEd sig' env (recN sig' env n) cE' m π p e = some (e', v) ∧ Ext e'.base e'.cur := by
  induction p with
  | ret x => intro m π e e' v h he; simp only [evalEd] at h ⊢; cases h; exact ⟨rfl, he⟩
  | force ty l cyc k ih =>
    intro m π e e' v h he
    simp only [evalEd] at h ⊢
    split at h
    · rename_i hf
      obtain ⟨g1, g2⟩ := demand_le hs he hf
      simp only [g1]; exact ih _ _ _ _ _ _ h g2
    · cases h
  | forceMap ty l f k ih =>
    intro m π e e' v h he
    simp only [evalEd] at h ⊢
    split at h
    · rename_i hf
      obtain ⟨g1, g2⟩ := demand_le hs he hf
      simp only [g1]; exact ih _ _ _ _ _ _ h g2
    · cases h
  | forceAbs ty l f k ih =>
    intro m π e e' v h he
    simp only [evalEd] at h ⊢
    split at h
    · rename_i hf
      obtain ⟨g1, g2⟩ := demand_le hs he hf
      simp only [g1]; exact ih _ _ _ _ _ _ h g2
    · cases h
  | cell ty nm w k ih =>
    intro m π e e' v h he
    simp only [evalEd] at h ⊢
    split at h
    · rename_i hc
      rw [show sig'.kind (cellLoc env m π nm w) = sig.kind (cellLoc env m π nm w) from hs.kind _, if_pos hc]
      exact ih _ _ _ _ _ _ h (edit_ext he _ _)
    · cases h
  | thunk ty nc pp fn arg k ih =>
    intro m π e e' v h he
    simp only [evalEd] at h ⊢
    split at h
    · rename_i l hl
      split at h
      · rename_i hc
        rw [show sig'.kind l = sig.kind l from hs.kind _, if_pos hc]
        exact ih _ _ _ _ _ _ h (edit_ext he _ _)
      · cases h
    · cases h
  | set ty l w k ih =>
    intro m π e e' v h he
    simp only [evalEd] at h ⊢
    split at h
    · rename_i hc
      rw [show sig'.kind l = sig.kind l from hs.kind _, if_pos hc]
      exact ih _ _ _ _ _ h (edit_ext he _ _)
    · cases h
  | ns nm body k ihb ih =>
    intro m π e e' v h he
    simp only [evalEd] at h ⊢
    split at h
    · rename_i hf
      obtain ⟨g1, g2⟩ := ihb _ _ _ _ _ hf he
      simp only [g1]; exact ih _ _ _ _ _ _ h g2
    · cases h
  | structural body k ihb ih =>
    intro m π e e' v h he
    simp only [evalEd] at h ⊢
    split at h
    · rename_i hf
      obtain ⟨g1, g2⟩ := ihb _ _ _ _ _ hf he
      simp only [g1]; exact ih _ _ _ _ _ _ h g2
    · cases h
  | call fn arg k ih =>
    intro m π e e' v h he
    simp only [evalEd] at h ⊢
    split at h
    · rename_i hf
      obtain ⟨g1, g2⟩ := hcall _ _ _ _ _ _ _ hf he
      simp only [g1]; exact ih _ _ _ _ _ _ h g2
    · cases h
  | panic => intro m π e e' v h; simp only [evalEd] at h; cases h

theorem callEN_le {sig sig' : Sig} (hs : SigLe sig sig') (env : Env V) : ∀ n m π fn a e e' v, callEN sig env n m π fn a e = some (e', v) →
    Ext e.base e.cur → callEN sig' env n m π fn a e = some (e', v) ∧ Ext e'.base e'.cur := by
  intro n
  induction n with
  | zero => intro m π fn a e e' v h; simp only [callEN] at h; cases h
  | succ n ih =>
    intro m π fn a e e' v h he
    simp only [callEN] at h ⊢
    exact evalEd_le hs ih _ _ _ _ _ _ h he

theorem session_le {sig sig' : Sig} (hs : SigLe sig sig') (env : Env V) (n : Nat) : ∀ ps e e' vs, session sig env n ps e = some (e', vs) →
    Ext e.base e.cur → session sig' env n ps e = some (e', vs) := by
  intro ps
  induction ps with
  | nil => intro e e' vs h _; exact h
  | cons p ps ih =>
    intro e e' vs h he
    simp only [session] at h ⊢
    rw [show sig'.mode = sig.mode from hs.mode]
    split at h
    · rename_i hf
      obtain ⟨g1, g2⟩ := evalEd_le hs (callEN_le hs env n) _ _ _ _ _ _ hf he
      simp only [g1]
      split at h
      · rename_i hg
        cases h
        simp only [ih _ _ _ hg g2]
      · cases h
    · cases h

/-- A session that has a meaning has the same meaning if less is required. -/
theorem Means.le {sig sig' : Sig} (hs : SigLe sig sig') {env : Env V} {ps : List (Prog V)} {vs : List V} (h : Means sig env ps vs) :
    Means sig' env ps vs := by
  obtain ⟨n, e, hn⟩ := h
  exact ⟨n, e, session_le hs env n ps _ _ _ hn (Ext.refl _)⟩

/-- The requirement for the purity setting of an engine. -/
def Sig.withPu (sig : Sig) (pu : Bool) : Sig := { sig with pu := pu }

theorem Means.withPu {sig : Sig} {env : Env V} {ps : List (Prog V)} {vs : List V} (h : Means sig env ps vs) {pu : Bool} (hp : pu = true → sig.pu = true) :
    Means (sig.withPu pu) env ps vs := Means.le (sig := sig) (sig' := sig.withPu pu) ⟨fun _ => rfl, rfl, hp, fun _ => id⟩ h

end Adapton.Ref
