import Verif.Engine.RefLemmas
/-
Rules for showing that code has a meaning in the reference semantics: `Conv c π p σ Q` says that the code `p`, run inside a nominal thunk from the
store `σ`, returns a value, and leaves a store, of which `Q` holds.  Used to show that programs of the catalog have a meaning.
-/
set_option linter.unusedSectionVars false
namespace Adapton
open Ref (Sig Kind Store Ctx RS Obs recN eval observe alloc)
variable {V : Type} [DecidableEq V] (sig : Sig) (env : Env V)

/-- No observation through a map. -/
def NoMap (o : Obs) : Prop := ∀ p ∈ o, p.2 = false

/-- `p` returns, at every large enough depth, a value and a store of which `Q` holds (in a nominal thunk, in nominal mode). -/
def Conv (c : Ctx) (π : Path) (p : Prog V) (σ : Store V) (Q : Store V → V → Prop) : Prop :=
  (sig.mode = false ∧ ∀ l, sig.only l = true) → c.self.isStruct = false → ∀ obs, NoMap obs → ∃ N σ' v obs', NoMap obs' ∧ Q σ' v ∧
    ∀ n, N ≤ n → eval sig env (recN sig env n) c sig.mode π p ⟨σ, obs⟩ = some (⟨σ', obs'⟩, v)

theorem NoMap.cons {o : Obs} (h : NoMap o) (l : Loc) : NoMap ((l, false) :: o) := by
  intro p hp
  rcases List.mem_cons.1 hp with rfl | hp
  · rfl
  · exact h p hp

theorem mayUse_nominal {c : Ctx} (h : c.self.isStruct = false) (sig : Sig) (l : Loc) : Ref.MayUse sig c.self l :=
  fun _ h' => by rw [h] at h'; cases h'

variable {sig env} {c : Ctx} {π : Path} {σ : Store V} {Q : Store V → V → Prop}

theorem Conv.mono {p : Prog V} {Q' : Store V → V → Prop} (h : Conv sig env c π p σ Q) (hq : ∀ σ' v, Q σ' v → Q' σ' v) :
    Conv sig env c π p σ Q' := by
  intro hm hu obs ho
  obtain ⟨N, σ', v, obs', h1, h2, h3⟩ := h hm hu obs ho
  exact ⟨N, σ', v, obs', h1, hq _ _ h2, h3⟩

theorem Conv.ret {v : V} (h : Q σ v) : Conv sig env c π (.ret v) σ Q :=
  fun _ _ obs ho => ⟨0, σ, v, obs, ho, h, fun _ _ => rfl⟩

theorem Conv.call {fn : FnId} {arg : V} {k : V → Prog V}
    (h : Conv sig env c π (env.code fn arg) σ fun σ1 v1 => Conv sig env c π (k v1) σ1 Q) :
    Conv sig env c π (.call fn arg k) σ Q := by
  intro hm hu obs ho
  obtain ⟨N, σ1, v1, obs1, h1, h2, h3⟩ := h hm hu obs ho
  obtain ⟨N', σ', v, obs', h4, h5, h6⟩ := h2 hm hu obs1 h1
  refine ⟨max (N + 1) N', σ', v, obs', h4, h5, fun n hn => ?_⟩
  cases n with
  | zero => omega
  | succ n =>
    have e1 := h3 n (by omega)
    have e2 := h6 (n + 1) (by omega)
    have e : (recN sig env (n+1)).call c sig.mode π fn arg ⟨σ, obs⟩ = some (⟨σ1, obs1⟩, v1) := e1
    simp only [eval, e]
    exact e2

theorem Conv.forceCell {ty : Ty} {l : Loc} {cyc : Option V} {k : V → Prog V} {v : V} (hs : sig l = .cell ty) (hl : σ l = some v)
    (h : Conv sig env c π (k v) σ Q) : Conv sig env c π (.force ty l cyc k) σ Q := by
  intro hm hu obs ho
  obtain ⟨N, σ', v', obs', h4, h5, h6⟩ := h hm hu _ (ho.cons l)
  refine ⟨N, σ', v', obs', h4, h5, fun n hn => ?_⟩
  have hno : (l, true) ∉ obs := fun hm => by have := ho _ hm; cases this
  have e : observe sig (recN sig env n) c sig.mode ty l ⟨σ, obs⟩ = some (⟨σ, (l, false) :: obs⟩, v) := by
    simp [observe, hs, hno, hl, mayUse_nominal hu]
  simp only [eval, e]
  exact h6 n hn

theorem Conv.forceThunk {ty : Ty} {l : Loc} {cyc : Option V} {k : V → Prog V} {pp : ProgPt} {fn : FnId} {arg : V}
    (hs : sig l = .thunk ty pp fn) (hc : l ∉ c.anc) (hl : σ l = some arg) (hn : l.isStruct = false)
    (h : Conv sig env ⟨l, l :: c.anc⟩ l.path (env.code fn arg) σ fun σ1 v1 => Conv sig env c π (k v1) σ1 Q) :
    Conv sig env c π (.force ty l cyc k) σ Q := by
  intro hm hu obs ho
  obtain ⟨N, σ1, v1, obs1, h1, h2, h3⟩ := h hm hn [] (fun p hp => by cases hp)
  obtain ⟨N', σ', v', obs', h4, h5, h6⟩ := h2 hm hu _ ho
  refine ⟨max (N + 1) N', σ', v', obs', h4, h5, fun n hn => ?_⟩
  cases n with
  | zero => omega
  | succ n =>
    have e1 := h3 n (by omega)
    have e : observe sig (recN sig env (n+1)) c sig.mode ty l ⟨σ, obs⟩ = some (⟨σ1, obs⟩, v1) := by
      simp [observe, hs, hc, recN, hl, e1, hm.2, mayUse_nominal hu]
    have e2 := h6 (n + 1) (by omega)
    simp only [eval, e]
    exact e2

theorem Conv.thunk {ty : Ty} {nm : Name} {k : Loc → Prog V} {pp : ProgPt} {fn : FnId} {arg : V} {σ1 : Store V}
    (hs : sig ⟨π, .nominal nm⟩ = .thunk ty pp fn) (hself : (⟨π, .nominal nm⟩ : Loc) ≠ c.self) (ha : alloc σ ⟨π, .nominal nm⟩ arg = some σ1)
    (h : Conv sig env c π (k ⟨π, .nominal nm⟩) σ1 Q) : Conv sig env c π (.thunk ty (.nominal nm) pp fn arg k) σ Q := by
  intro hm hu obs ho
  obtain ⟨N, σ', v', obs', h4, h5, h6⟩ := h hm hu obs ho
  refine ⟨N, σ', v', obs', h4, h5, fun n hn => ?_⟩
  have := h6 n hn
  rw [hm.1] at this ⊢
  simp only [eval, Ref.thunkLoc, Bool.false_eq_true, if_false, hs, hself, ne_eq, not_false_eq_true, mayUse_nominal hu, and_self, if_true, ha]
  exact this

theorem Conv.cell {ty : Ty} {nm : Name} {v : V} {k : Loc → Prog V} {σ1 : Store V}
    (hs : sig ⟨π, .nominal nm⟩ = .cell ty) (ha : alloc σ ⟨π, .nominal nm⟩ v = some σ1)
    (h : Conv sig env c π (k ⟨π, .nominal nm⟩) σ1 Q) : Conv sig env c π (.cell ty nm v k) σ Q := by
  intro hm hu obs ho
  obtain ⟨N, σ', v', obs', h4, h5, h6⟩ := h hm hu obs ho
  refine ⟨N, σ', v', obs', h4, h5, fun n hn => ?_⟩
  have := h6 n hn
  rw [hm.1] at this ⊢
  simp only [eval, Ref.cellLoc, Bool.false_eq_true, if_false, hs, mayUse_nominal hu, and_self, if_true, ha]
  exact this

/-- What a converging thunk means when it is forced by the editor. -/
theorem Conv.frc {l : Loc} {ty : Ty} {pp : ProgPt} {fn : FnId} {arg : V} (hs : sig l = .thunk ty pp fn) (hl : σ l = some arg) (hm : sig.mode = false ∧ ∀ l, sig.only l = true)
    (hn : l.isStruct = false) (h : Conv sig env ⟨l, [l]⟩ l.path (env.code fn arg) σ Q) :
    ∃ N σ' v, Q σ' v ∧ ∀ n, N ≤ n → (recN sig env n).frc [] σ l = some (σ', v) := by
  obtain ⟨N, σ', v, obs', h1, h2, h3⟩ := h hm hn [] (fun p hp => by cases hp)
  refine ⟨N + 1, σ', v, h2, fun n hn => ?_⟩
  cases n with
  | zero => omega
  | succ n => simp [recN, hs, hl, hm.2, h3 n (by omega)]

end Adapton
