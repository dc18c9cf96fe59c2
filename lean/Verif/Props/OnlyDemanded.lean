import Verif.Props.Demand
/-
C86: everything that a demand runs, it uses.  Each thunk run by a demand of `l` is `l` itself or linked to `l`, in the dependency graph
that the demand leaves behind, by a chain of recorded observations; with the purity optimisation it may also be a thunk identified
structurally (observations of those are not recorded when they have no dependencies).  No thunk is run speculatively: not even one that
`l` used before the last edit and does not use any more.
-/
set_option linter.unusedSectionVars false
set_option linter.unusedVariables false
set_option linter.unusedSimpArgs false
namespace Adapton
open Ref (Sig Kind Store ES Means RS Ctx Ext)
variable {V : Type} [DecidableEq V]

/-! ### Specification -/

/-- In the state `s`, the thunk `l` is `x`, or its last run has observed a location that leads to `x`. -/
inductive Leads (s : St V) : Loc → Loc → Prop
  | self {x} : Leads s x x
  | via {l x y nd e} : Leads s l x → s.table.get x = some (.comp nd) → e ∈ nd.succs → e.effect = .observe → e.loc = y → Leads s l y

/-! ### Proof -/

namespace OnlyDemanded

/-- Structural code evaluates structural thunks only. -/
structure StructOnly (R R' : Ref.Rec V) : Prop where
  frc : ∀ anc σ l x, l.isStruct = true → R.frc anc σ l = some x → R'.frc anc σ l = some x
  call : ∀ (c : Ctx) m π fn a r x, c.self.isStruct = true → R.call c m π fn a r = some x → R'.call c m π fn a r = some x

variable {sig : Sig} {env : Env V} {P : Loc → Bool}

theorem observe_struct (hp : sig.pu = true) {R R' : Ref.Rec V} (hR : StructOnly R R') {c : Ctx} (hc : c.self.isStruct = true) {m ty l} {r : RS V} {x}
    (h : Ref.observe sig R c m ty l r = some x) : Ref.observe (sig.restrict P) R' c m ty l r = some x := by
  unfold Ref.observe at h ⊢
  rw [show (sig.restrict P).kind l = sig.kind l from rfl]
  split at h
  · split at h
    · rename_i hu
      rw [if_pos ⟨hu.1, hu.2.1, hu.2.2⟩]
      exact h
    · cases h
  · split at h
    · rename_i hu
      rw [if_pos ⟨hu.1, hu.2.1, hu.2.2.1, hu.2.2.2⟩]
      split at h
      · rename_i hf
        rw [hR.frc _ _ _ _ (hu.2.2.2 hp hc) hf]; exact h
      · cases h
    · cases h

theorem observeMap_struct (hp : sig.pu = true) {R R' : Ref.Rec V} (hR : StructOnly R R') {c : Ctx} (hc : c.self.isStruct = true) {m ty l f} {r : RS V} {x}
    (h : Ref.observeMap sig R c m ty l f r = some x) : Ref.observeMap (sig.restrict P) R' c m ty l f r = some x := by
  unfold Ref.observeMap at h ⊢
  rw [show (sig.restrict P).kind l = sig.kind l from rfl]
  split at h
  · split at h
    · rename_i hu
      rw [if_pos ⟨hu.1, hu.2.1, hu.2.2⟩]
      exact h
    · cases h
  · split at h
    · rename_i hf
      simp only [observe_struct (P := P) hp hR hc hf]; exact h
    · cases h

theorem eval_struct (hp : sig.pu = true) {R R' : Ref.Rec V} (hR : StructOnly R R') {c : Ctx} (hc : c.self.isStruct = true) (p : Prog V) :
    ∀ m π r x, Ref.eval sig env R c m π p r = some x → Ref.eval (sig.restrict P) env R' c m π p r = some x := by
  induction p with
  | ret w => intro m π r x h; exact h
  | force ty l cyc k ih =>
    intro m π r x h
    simp only [Ref.eval] at h ⊢
    split at h
    · rename_i hf; simp only [observe_struct (P := P) hp hR hc hf]; exact ih _ _ _ _ _ h
    · cases h
  | forceMap ty l f k ih =>
    intro m π r x h
    simp only [Ref.eval] at h ⊢
    split at h
    · rename_i hf; simp only [observeMap_struct (P := P) hp hR hc hf]; exact ih _ _ _ _ _ h
    · cases h
  | forceAbs ty l f k ih => intro m π r x h; simp only [Ref.eval] at h; cases h
  | cell ty n w k ih =>
    intro m π r x h
    simp only [Ref.eval] at h ⊢
    split at h
    · rename_i hu
      rw [if_pos ⟨hu.1, hu.2⟩]
      split at h
      · exact ih _ _ _ _ _ h
      · cases h
    · cases h
  | thunk ty nc pp fn arg k ih =>
    intro m π r x h
    simp only [Ref.eval] at h ⊢
    split at h
    · split at h
      · rename_i hu
        rw [if_pos ⟨hu.1, hu.2.1, hu.2.2⟩]
        split at h
        · exact ih _ _ _ _ _ h
        · cases h
      · cases h
    · cases h
  | set ty l w k ih => intro m π r x h; simp only [Ref.eval] at h; cases h
  | ns n body k ihb ih =>
    intro m π r x h
    simp only [Ref.eval] at h ⊢
    split at h
    · rename_i hf; simp only [ihb _ _ _ _ hf]; exact ih _ _ _ _ _ h
    · cases h
  | structural body k ihb ih =>
    intro m π r x h
    simp only [Ref.eval] at h ⊢
    split at h
    · rename_i hf; simp only [ihb _ _ _ _ hf]; exact ih _ _ _ _ _ h
    · cases h
  | call fn arg k ih =>
    intro m π r x h
    simp only [Ref.eval] at h ⊢
    split at h
    · rename_i hf; simp only [hR.call _ _ _ _ _ _ _ hc hf]; exact ih _ _ _ _ _ h
    · cases h
  | panic => intro m π r x h; simp only [Ref.eval] at h; cases h

theorem recN_struct (hp : sig.pu = true) (hP : ∀ l, l.isStruct = true → sig.only l = true → P l = true) :
    ∀ n, StructOnly (Ref.recN sig env n) (Ref.recN (sig.restrict P) env n) := by
  intro n
  induction n with
  | zero => exact ⟨fun anc σ l x _ h => (by simp only [Ref.recN] at h; cases h), fun c m π fn a r x _ h => (by simp only [Ref.recN] at h; cases h)⟩
  | succ n ih =>
    refine ⟨?_, ?_⟩
    · rintro anc σ l ⟨σ', v⟩ hl h
      obtain ⟨ty, pp, fn, arg, obs, h1, h2, h3, h4⟩ := Ref.frc_succ h
      have h5 : Ref.eval (sig.restrict P) env (Ref.recN (sig.restrict P) env n) ⟨l, l :: anc⟩ sig.mode l.path (env.code fn arg) ⟨σ, []⟩ =
        some (⟨σ', obs⟩, v) := eval_struct hp ih (c := ⟨l, l :: anc⟩) hl _ _ _ _ _ h3
      have h6 : (sig.restrict P).only l = true := hP l hl h4
      have h7 : (sig.restrict P).kind l = .thunk ty pp fn := h1
      simp only [Ref.recN, h7, h2, h6, show (sig.restrict P).mode = sig.mode from rfl, h5]
    · intro c m π fn a r x hc h
      simp only [Ref.recN] at h ⊢
      exact eval_struct hp ih hc _ _ _ _ _ h

/-! ### What is used is in the graph -/

section
variable {s : St V} {σ : Store V} {D : Loc → Prop}

/-- The final state holds the value `w` of `l`. -/
def Val (sig : Sig) (s : St V) (σ : Store V) (l : Loc) (w : V) : Prop :=
  match sig l with
  | .cell _ => σ l = some w
  | .thunk _ _ _ => ∃ nd, s.table.get l = some (.comp nd) ∧ nd.res = some w

/-- A thunk that is in the graph of the final state. -/
def Good (sig : Sig) (s : St V) (D : Loc → Prop) (P : Loc → Bool) (l : Loc) : Prop :=
  (D l ∧ P l = true) ∨ (sig.pu = true ∧ l.isStruct = true ∧ ∃ nd w, s.table.get l = some (.comp nd) ∧ nd.res = some w)

/-- Evaluations that lead to the final state agree with it, and force thunks in `P` only. -/
def FS (sig : Sig) (env : Env V) (s : St V) (σ : Store V) (D : Loc → Prop) (P : Loc → Bool) (n : Nat) : Prop :=
  ∀ anc σ0 x σ1 w, (Ref.recN sig env n).frc anc σ0 x = some (σ1, w) → Good sig s D P x → Ext σ1 σ →
    (∃ nd, s.table.get x = some (.comp nd) ∧ nd.res = some w) ∧ (Ref.recN (sig.restrict P) env n).frc anc σ0 x = some (σ1, w)

/-- An edge of the final graph. -/
def OKP (sig : Sig) (s : St V) (σ : Store V) (D : Loc → Prop) (P : Loc → Bool) (e : Edge V) : Prop :=
  EdgeOK sig s.table σ D e ∧ (e.effect = .observe → P e.loc = true)

theorem OKP.good {e : Edge V} (h : OKP sig s σ D P e) (he : e.effect = .observe) {ty pp fn} (hk : sig e.loc = .thunk ty pp fn) : Good sig s D P e.loc := by
  obtain ⟨⟨c, _, h2⟩, h3⟩ := h
  rw [he, hk] at h2
  exact .inl ⟨h2.1, h3 he⟩

theorem OKP.val {e : Edge V} (h : OKP sig s σ D P e) (he : e.effect = .observe) {w : V} (hw : Val sig s σ e.loc w) : e.dep.okVal w := by
  obtain ⟨⟨c, h1, h2⟩, h3⟩ := h
  rw [he] at h2
  unfold Val at hw
  cases hk : sig e.loc with
  | cell ty =>
    rw [hk] at h2 hw
    simp only at hw h2
    rw [h1] at hw; cases hw
    exact h2
  | thunk ty pp fn =>
    rw [hk] at h2 hw
    simp only at hw h2
    obtain ⟨_, nd, w', g1, g2, g3⟩ := h2
    obtain ⟨nd2, g4, g5⟩ := hw
    rw [g1] at g4; cases g4
    rw [g2] at g5; cases g5
    exact g3

theorem observe_final {n : Nat} (hF : FS sig env s σ D P n) {c : Ctx} {m ty l} {r r' : RS V} {w : V}
    (h : Ref.observe sig (Ref.recN sig env n) c m ty l r = some (r', w)) (hx : Ext r'.store σ)
    (hg : ∀ ty pp fn, sig l = .thunk ty pp fn → Good sig s D P l) :
    Val sig s σ l w ∧ Ref.observe (sig.restrict P) (Ref.recN (sig.restrict P) env n) c m ty l r = some (r', w) := by
  unfold Ref.observe at h ⊢
  unfold Val
  rw [show (sig.restrict P).kind l = sig.kind l from rfl]
  cases hk : sig l with
  | cell ty' =>
    rw [hk] at h
    simp only at h ⊢
    split at h
    · rename_i hu
      rcases hs : r.store l with _ | c0
      · rw [hs] at h; cases h
      · rw [hs] at h
        cases h
        rw [if_pos ⟨hu.1, hu.2.1, hu.2.2⟩]
        exact ⟨hx _ _ hs, rfl⟩
    · cases h
  | thunk ty' pp fn =>
    rw [hk] at h
    simp only at h ⊢
    split at h
    · rename_i hu
      rcases hf : (Ref.recN sig env n).frc c.anc r.store l with _ | ⟨σ1, w1⟩
      · rw [hf] at h; cases h
      · rw [hf] at h
        cases h
        rw [if_pos ⟨hu.1, hu.2.1, hu.2.2.1, hu.2.2.2⟩]
        obtain ⟨g1, g2⟩ := hF _ _ _ _ _ hf (hg _ _ _ hk) hx
        rw [g2]
        exact ⟨g1, rfl⟩
    · cases h

theorem PureVal.good {l : Loc} {w : V} (h : PureVal sig s.table l w) (hI : Inv sig env s σ D) {ty pp fn} (hk : sig l = .thunk ty pp fn) : Good sig s D P l := by
  obtain ⟨h1, h2, n, h3, h4⟩ := h
  obtain ⟨nd, rfl, _⟩ := hI.getThunk hk h3
  exact .inr ⟨h2, h1, nd, w, h3, h4⟩

theorem PureVal.val {l : Loc} {w w' : V} (h : PureVal sig s.table l w) (hI : Inv sig env s σ D) (hw : Val sig s σ l w') : w' = w := by
  obtain ⟨h1, h2, n, h3, h4⟩ := h
  unfold Val at hw
  cases hk : sig l with
  | cell ty =>
    rw [hk] at hw
    obtain ⟨nd, g1, _, g2⟩ := hI.storePure hk h1 h2 hw
    rw [h3] at g1; cases g1; cases h4; exact g2.symm
  | thunk ty pp fn =>
    rw [hk] at hw
    obtain ⟨nd, g1, g2⟩ := hw
    rw [h3] at g1; cases g1
    have h4 : nd.res = some w := h4
    rw [h4] at g2; cases g2; rfl

/-- An evaluation of `p` that leads to the final store, along the recorded run of `p`. -/
theorem replay_final (hI : Inv sig env s σ D) {N : Nat} {m π p pre es v} (hr : Replay sig env s.table m π p pre es v) :
    ∀ (n : Nat), n ≤ N → (∀ k, k ≤ N → FS sig env s σ D P k) → ∀ (c : Ctx) (r r' : RS V) (v' : V),
      Ref.eval sig env (Ref.recN sig env n) c m π p r = some (r', v') → (∀ e ∈ pre, OKP sig s σ D P e) → (∀ e ∈ es, OKP sig s σ D P e) →
      Ext r'.store σ → v' = v ∧ Ref.eval (sig.restrict P) env (Ref.recN (sig.restrict P) env n) c m π p r = some (r', v') := by
  have hext : ∀ {n : Nat} {c : Ctx} {m π} {p : Prog V} {r r' : RS V} {v}, Ref.eval sig env (Ref.recN sig env n) c m π p r = some (r', v) →
      Ext r'.store σ → Ext r.store σ := fun h hx => (Ref.eval_ext (Ref.recN_ok sig env _) _ _ _ _ _ _ _ h).trans hx
  have hfind : ∀ {pre : List (Edge V)} {l : Loc} {e : Edge V}, pre.find? (Edge.matches .observe l) = some e → e ∈ pre :=
    fun h => List.mem_of_find?_eq_some h
  induction hr with
  | ret =>
    intro n hn hF c r r' v' h hpre hes hx
    simp only [Ref.eval] at h ⊢
    cases h
    exact ⟨rfl, rfl⟩
  | @force m π ty l cyc k w pre es v h1 _ ih =>
    intro n hn hF c r r' v' h hpre hes hx
    simp only [Ref.eval] at h ⊢
    rcases ho : Ref.observe sig (Ref.recN sig env n) c m ty l r with _ | ⟨r1, w1⟩
    · rw [ho] at h; cases h
    rw [ho] at h
    simp only at h
    have he := hes _ (List.mem_cons_self ..)
    obtain ⟨g1, g2⟩ := observe_final (hF n hn) ho (hext h hx) (fun _ _ _ hk => he.good rfl hk)
    have hw : w = w1 := he.val rfl g1
    subst hw
    rw [g2]
    simp only []
    exact ih n hn hF c _ _ _ h (by intro e hm; rcases List.mem_append.1 hm with hm | hm
                                   · exact hpre e hm
                                   · rw [List.mem_singleton.1 hm]; exact he) (fun e hm => hes e (List.mem_cons_of_mem _ hm)) hx
  | @forceDup m π ty l cyc k w pre es v ty' h1 _ ih =>
    intro n hn hF c r r' v' h hpre hes hx
    simp only [Ref.eval] at h ⊢
    rcases ho : Ref.observe sig (Ref.recN sig env n) c m ty l r with _ | ⟨r1, w1⟩
    · rw [ho] at h; cases h
    rw [ho] at h
    simp only at h
    have he := hpre _ (hfind h1)
    obtain ⟨g1, g2⟩ := observe_final (hF n hn) ho (hext h hx) (fun _ _ _ hk => he.good rfl hk)
    have hw : w = w1 := he.val rfl g1
    subst hw
    rw [g2]
    simp only []
    exact ih n hn hF c _ _ _ h hpre hes hx
  | @forcePure m π ty l cyc k w pre es v h1 _ ih =>
    intro n hn hF c r r' v' h hpre hes hx
    simp only [Ref.eval] at h ⊢
    rcases ho : Ref.observe sig (Ref.recN sig env n) c m ty l r with _ | ⟨r1, w1⟩
    · rw [ho] at h; cases h
    rw [ho] at h
    simp only at h
    obtain ⟨g1, g2⟩ := observe_final (hF n hn) ho (hext h hx) (fun _ _ _ hk => PureVal.good h1 hI hk)
    have hw : w1 = w := PureVal.val h1 hI g1
    subst hw
    rw [g2]
    simp only []
    exact ih n hn hF c _ _ _ h hpre hes hx
  | @mapCell m π ty l f k w pre es v ty' hk _ ih =>
    intro n hn hF c r r' v' h hpre hes hx
    simp only [Ref.eval] at h ⊢
    rcases ho : Ref.observeMap sig (Ref.recN sig env n) c m ty l f r with _ | ⟨r1, w1⟩
    · rw [ho] at h; cases h
    rw [ho] at h
    simp only at h
    have he := hes _ (List.mem_cons_self ..)
    have hx1 := hext h hx
    have key : w1 = w ∧ Ref.observeMap (sig.restrict P) (Ref.recN (sig.restrict P) env n) c m ty l f r = some (r1, w1) := by
      unfold Ref.observeMap at ho ⊢
      rw [show (sig.restrict P).kind l = sig.kind l from rfl]
      have hk' : sig.kind l = .cell ty' := hk
      rw [hk'] at ho ⊢
      simp only at ho ⊢
      split at ho
      · rename_i hu
        rw [if_pos ⟨hu.1, hu.2.1, hu.2.2⟩]
        rcases hs : r.store l with _ | c0
        · rw [hs] at ho; cases ho
        · rw [hs] at ho
          cases ho
          have := he.val (w := c0) rfl (by unfold Val; show match sig.kind l with | .cell _ => _ | .thunk _ _ _ => _; rw [hk']; exact hx1 _ _ hs)
          exact ⟨this.symm, rfl⟩
      · cases ho
    obtain ⟨rfl, g2⟩ := key
    rw [g2]
    simp only []
    exact ih n hn hF c _ _ _ h (by intro e hm; rcases List.mem_append.1 hm with hm | hm
                                   · exact hpre e hm
                                   · rw [List.mem_singleton.1 hm]; exact he) (fun e hm => hes e (List.mem_cons_of_mem _ hm)) hx
  | @mapThunk m π ty l f k w pre es v ty' pp fn hk h1 _ ih =>
    intro n hn hF c r r' v' h hpre hes hx
    have hk' : sig.kind l = .thunk ty' pp fn := hk
    simp only [Ref.eval, Ref.observeMap, hk', show (sig.restrict P).kind l = .thunk ty' pp fn from hk] at h ⊢
    rcases ho : Ref.observe sig (Ref.recN sig env n) c m ty l r with _ | ⟨r1, w1⟩
    · rw [ho] at h; cases h
    rw [ho] at h
    simp only at h
    have he := hes _ (List.mem_cons_self ..)
    obtain ⟨g1, g2⟩ := observe_final (hF n hn) ho (hext h hx) (fun _ _ _ hk => he.good rfl hk)
    have hw : w = w1 := he.val rfl g1
    subst hw
    rw [g2]
    simp only []
    exact ih n hn hF c _ _ _ h (by intro e hm; rcases List.mem_append.1 hm with hm | hm
                                   · exact hpre e hm
                                   · rw [List.mem_singleton.1 hm]; exact he) (fun e hm => hes e (List.mem_cons_of_mem _ hm)) hx
  | @mapThunkDup m π ty l f k w pre es v ty' pp fn ty'' hk h1 _ ih =>
    intro n hn hF c r r' v' h hpre hes hx
    have hk' : sig.kind l = .thunk ty' pp fn := hk
    simp only [Ref.eval, Ref.observeMap, hk', show (sig.restrict P).kind l = .thunk ty' pp fn from hk] at h ⊢
    rcases ho : Ref.observe sig (Ref.recN sig env n) c m ty l r with _ | ⟨r1, w1⟩
    · rw [ho] at h; cases h
    rw [ho] at h
    simp only at h
    have he := hpre _ (hfind h1)
    obtain ⟨g1, g2⟩ := observe_final (hF n hn) ho (hext h hx) (fun _ _ _ hk => he.good rfl hk)
    have hw : w = w1 := he.val rfl g1
    subst hw
    rw [g2]
    simp only []
    exact ih n hn hF c _ _ _ h hpre hes hx
  | @mapPure m π ty l f k w pre es v h1 _ ih =>
    intro n hn hF c r r' v' h hpre hes hx
    simp only [Ref.eval] at h ⊢
    rcases ho : Ref.observeMap sig (Ref.recN sig env n) c m ty l f r with _ | ⟨r1, w1⟩
    · rw [ho] at h; cases h
    rw [ho] at h
    simp only at h
    have hx1 := hext h hx
    have key : w1 = f w ∧ Ref.observeMap (sig.restrict P) (Ref.recN (sig.restrict P) env n) c m ty l f r = some (r1, w1) := by
      unfold Ref.observeMap at ho ⊢
      rw [show (sig.restrict P).kind l = sig.kind l from rfl]
      cases hk : sig l with
      | cell ty' =>
        have hk' : sig.kind l = .cell ty' := hk
        rw [hk] at ho
        simp only at ho ⊢
        split at ho
        · rename_i hu
          rw [if_pos ⟨hu.1, hu.2.1, hu.2.2⟩]
          rcases hs : r.store l with _ | c0
          · rw [hs] at ho; cases ho
          · rw [hs] at ho
            cases ho
            have := PureVal.val (w' := c0) h1 hI (by unfold Val; rw [hk]; exact hx1 _ _ hs)
            exact ⟨by rw [this], rfl⟩
        · cases ho
      | thunk ty' pp fn =>
        rw [hk] at ho
        simp only at ho ⊢
        rcases ho' : Ref.observe sig (Ref.recN sig env n) c m ty l r with _ | ⟨r2, w2⟩
        · rw [ho'] at ho; cases ho
        rw [ho'] at ho
        cases ho
        obtain ⟨g1, g2⟩ := observe_final (hF n hn) ho' hx1 (fun _ _ _ hk => PureVal.good h1 hI hk)
        have hw : w2 = w := PureVal.val h1 hI g1
        subst hw
        rw [g2]
        exact ⟨rfl, rfl⟩
    obtain ⟨rfl, g2⟩ := key
    rw [g2]
    simp only []
    exact ih n hn hF c _ _ _ h hpre hes hx
  | @cell m π ty nm c0 k pre es v _ ih =>
    intro n hn hF c r r' v' h hpre hes hx
    have he := hes _ (List.mem_cons_self ..)
    simp only [Ref.eval] at h ⊢
    split at h
    · rename_i hu
      rw [if_pos ⟨hu.1, hu.2⟩]
      split at h
      · exact ih n hn hF c _ _ _ h (by intro e hm; rcases List.mem_append.1 hm with hm | hm
                                       · exact hpre e hm
                                       · rw [List.mem_singleton.1 hm]; exact he) (fun e hm => hes e (List.mem_cons_of_mem _ hm)) hx
      · cases h
    · cases h
  | @cellPure m π ty nm c0 k pre es v _ _ ih =>
    intro n hn hF c r r' v' h hpre hes hx
    simp only [Ref.eval] at h ⊢
    split at h
    · rename_i hu
      rw [if_pos ⟨hu.1, hu.2⟩]
      split at h
      · exact ih n hn hF c _ _ _ h hpre hes hx
      · cases h
    · cases h
  | @thunk m π ty nc pp fn arg k l pre es v hl _ ih =>
    intro n hn hF c r r' v' h hpre hes hx
    have he := hes _ (List.mem_cons_self ..)
    simp only [Ref.eval, hl] at h ⊢
    split at h
    · rename_i hu
      rw [if_pos ⟨hu.1, hu.2.1, hu.2.2⟩]
      split at h
      · exact ih n hn hF c _ _ _ h (by intro e hm; rcases List.mem_append.1 hm with hm | hm
                                       · exact hpre e hm
                                       · rw [List.mem_singleton.1 hm]; exact he) (fun e hm => hes e (List.mem_cons_of_mem _ hm)) hx
      · cases h
    · cases h
  | @thunkNew m π ty nc pp fn arg k l pre es v hl _ _ ih =>
    intro n hn hF c r r' v' h hpre hes hx
    have he := hes _ (List.mem_cons_self ..)
    simp only [Ref.eval, hl] at h ⊢
    split at h
    · rename_i hu
      rw [if_pos ⟨hu.1, hu.2.1, hu.2.2⟩]
      split at h
      · exact ih n hn hF c _ _ _ h (by intro e hm; rcases List.mem_append.1 hm with hm | hm
                                       · exact hpre e hm
                                       · rw [List.mem_singleton.1 hm]; exact he) (fun e hm => hes e (List.mem_cons_of_mem _ hm)) hx
      · cases h
    · cases h
  | @thunkOld m π ty nc pp fn arg k l pre es v hl _ _ ih =>
    intro n hn hF c r r' v' h hpre hes hx
    simp only [Ref.eval, hl] at h ⊢
    split at h
    · rename_i hu
      rw [if_pos ⟨hu.1, hu.2.1, hu.2.2⟩]
      split at h
      · exact ih n hn hF c _ _ _ h hpre hes hx
      · cases h
    · cases h
  | @ns m π nm body k pre es1 v1 es2 v _ _ ih1 ih2 =>
    intro n hn hF c r r' v' h hpre hes hx
    simp only [Ref.eval] at h ⊢
    rcases ho : Ref.eval sig env (Ref.recN sig env n) c m (.child π nm) body r with _ | ⟨r1, w1⟩
    · rw [ho] at h; cases h
    rw [ho] at h
    simp only at h
    obtain ⟨rfl, g2⟩ := ih1 n hn hF c _ _ _ ho hpre (fun e hm => hes e (List.mem_append_left _ hm)) (hext h hx)
    rw [g2]
    simp only []
    exact ih2 n hn hF c _ _ _ h (by intro e hm; rcases List.mem_append.1 hm with hm | hm
                                    · exact hpre e hm
                                    · exact hes e (List.mem_append_left _ hm)) (fun e hm => hes e (List.mem_append_right _ hm)) hx
  | @structural m π body k pre es1 v1 es2 v _ _ ih1 ih2 =>
    intro n hn hF c r r' v' h hpre hes hx
    simp only [Ref.eval] at h ⊢
    rcases ho : Ref.eval sig env (Ref.recN sig env n) c true π body r with _ | ⟨r1, w1⟩
    · rw [ho] at h; cases h
    rw [ho] at h
    simp only at h
    obtain ⟨rfl, g2⟩ := ih1 n hn hF c _ _ _ ho hpre (fun e hm => hes e (List.mem_append_left _ hm)) (hext h hx)
    rw [g2]
    simp only []
    exact ih2 n hn hF c _ _ _ h (by intro e hm; rcases List.mem_append.1 hm with hm | hm
                                    · exact hpre e hm
                                    · exact hes e (List.mem_append_left _ hm)) (fun e hm => hes e (List.mem_append_right _ hm)) hx
  | @call m π fn arg k pre es1 v1 es2 v _ _ ih1 ih2 =>
    intro n hn hF c r r' v' h hpre hes hx
    simp only [Ref.eval] at h ⊢
    rcases ho : (Ref.recN sig env n).call c m π fn arg r with _ | ⟨r1, w1⟩
    · rw [ho] at h; cases h
    rw [ho] at h
    simp only at h
    have key : w1 = v1 ∧ (Ref.recN (sig.restrict P) env n).call c m π fn arg r = some (r1, w1) := by
      match n, hn with
      | 0, _ => simp only [Ref.recN] at ho; cases ho
      | n' + 1, hn =>
        simp only [Ref.recN] at ho ⊢
        exact ih1 n' (by omega) hF c _ _ _ ho hpre (fun e hm => hes e (List.mem_append_left _ hm)) (hext h hx)
    obtain ⟨rfl, g2⟩ := key
    rw [g2]
    simp only []
    exact ih2 n hn hF c _ _ _ h (by intro e hm; rcases List.mem_append.1 hm with hm | hm
                                    · exact hpre e hm
                                    · exact hes e (List.mem_append_left _ hm)) (fun e hm => hes e (List.mem_append_right _ hm)) hx

/-- The graph of the final state has everything that was evaluated. -/
theorem frc_final (hI : Inv sig env s σ D) (hst : s.locs = []) (hs : sig.pu = true → ∀ l, l.isStruct = true → sig.only l = true → P l = true)
    (hP : ∀ x y, D x → P x = true → (sig.pu = true → x.isStruct = false) → ObsEdge s.table x y → P y = true) : ∀ n, FS sig env s σ D P n := by
  intro n
  induction n using Nat.strongRecOn with
  | ind n ihn =>
    intro anc σ0 x σ1 w h hg hx
    obtain ⟨nd, w0, hn, hw0⟩ : ∃ nd w0, s.table.get x = some (.comp nd) ∧ nd.res = some w0 := by
      rcases hg with ⟨h1, _⟩ | ⟨_, _, nd, w, h1, h2⟩
      · obtain ⟨nd, g1, _, _, g2, _⟩ := hI.settled x h1
        rcases hr : nd.res with _ | w0
        · exact absurd hr g2
        · exact ⟨nd, w0, g1, hr⟩
      · exact ⟨nd, w, h1, h2⟩
    by_cases hps : sig.pu = true ∧ x.isStruct = true
    · obtain ⟨hp, hxs⟩ := hps
      obtain ⟨k, hk⟩ := hI.pureRes hp x nd w0 hxs hn hw0
      have h' := Ref.frc_full (Ref.frc_larger (Ref.frc_again h) hx)
      have := Ref.frc_det hk h'
      cases this
      exact ⟨⟨nd, hn, hw0⟩, (recN_struct hp (hs hp) n).frc _ _ _ _ hxs h⟩
    · obtain ⟨hD, hPx⟩ : D x ∧ P x = true := by
        rcases hg with hg | ⟨h1, h2, _⟩
        · exact hg
        · exact absurd ⟨h1, h2⟩ hps
      have hns : sig.pu = true → x.isStruct = false := fun hp => by
        cases hb : x.isStruct
        · rfl
        · exact absurd ⟨hp, hb⟩ hps
      match n, ihn, h with
      | 0, _, h => simp only [Ref.recN] at h; cases h
      | n + 1, ihn, h =>
        have hext := (Ref.recN_ok sig env (n + 1)).frcExt _ _ _ _ _ h
        obtain ⟨ty, pp, fn, arg, obs, h1, h2, h3, h4⟩ := Ref.frc_succ h
        obtain ⟨nd1, g1, _, _, g2, g3⟩ := hI.storeThunk h1 (hx _ _ (hext _ _ h2))
        rw [hn] at g1; cases g1
        obtain ⟨nd2, k1, k2, k3, k4, k5, k6⟩ := hI.settled x hD
        rw [hn] at k1; cases k1
        have hr := hI.replay x nd w0 hn (by rw [hst]; exact List.not_mem_nil) hw0
        rw [g2, g3] at hr
        obtain ⟨rfl, j2⟩ := replay_final (P := P) hI (N := n) hr n (Nat.le_refl _) (fun k hk => ihn k (by omega)) _ _ _ _ h3
          (fun e he => by cases he)
          (by
            intro e he
            obtain ⟨e', he', rfl⟩ := List.mem_map.1 he
            exact ⟨k6 e' he', fun ho => hP x _ hD hPx hns ⟨nd, e', hn, he', ho, rfl⟩⟩) hx
        refine ⟨⟨nd, hn, hw0⟩, ?_⟩
        have h7 : (sig.restrict P).kind x = .thunk ty pp fn := h1
        simp only [Ref.recN, h7, h2, show (sig.restrict P).only x = true from hPx, show (sig.restrict P).mode = sig.mode from rfl, j2]
end

end OnlyDemanded

theorem Leads.congr {s s' : St V} (h : s'.table = s.table) {l x : Loc} (hl : Leads s l x) : Leads s' l x := by
  induction hl with
  | self => exact .self
  | via _ h1 h2 h3 h4 ih => exact .via ih (by rw [h]; exact h1) h2 h3 h4

theorem demand_leads_full {sig : Sig} (honly : ∀ x, sig.only x = true) {env : Env V} {s : St V} {e e' : ES V} {n : Nat} {m : Bool} {ty : Ty} {l : Loc} {v : V}
    (hd : Ref.demand sig (Ref.recN sig env n) m ty l e = some (e', v)) (h : EInv sig env s e) (hi : s.ignoreNominal = m) (cyc : Option V) :
    ∃ s2 rs, Runs env (fun R => opForce R ty l cyc) s v s2 ∧ s2.runs = rs ++ s.runs ∧ ∀ x ∈ rs, Leads s2 l x ∨ (sig.pu = true ∧ x.isStruct = true) := by
  obtain ⟨s2, σ0, D0, σ2, D2, rs0, r1, r2, r3, r4, r5, r6, r7, r8⟩ := editor_demand_ran_cur hd h hi cyc
  subst r6
  -- the thunks in question
  obtain ⟨P, hP⟩ : ∃ P : Loc → Bool, ∀ x, P x = true ↔ (Leads s2 l x ∨ (sig.pu = true ∧ x.isStruct = true)) := by
    classical
    exact ⟨fun x => decide (Leads s2 l x ∨ (sig.pu = true ∧ x.isStruct = true)), fun x => by simp⟩
  have hF := OnlyDemanded.frc_final (P := P) r3 (by unfold St.locs; rw [r5]; rfl)
    (fun hp x hx _ => (hP x).2 (.inr ⟨hp, hx⟩))
    (by
      rintro x y _ hx hns ⟨nd, e, k1, k2, k3, k4⟩
      rcases (hP x).1 hx with hx | ⟨hx1, hx2⟩
      · exact (hP y).2 (.inl (.via hx k1 k2 k3 k4))
      · rw [hns hx1] at hx2; cases hx2)
  have hle : Ref.SigLe (sig.restrict P) sig := ⟨fun _ => rfl, rfl, id, fun x _ => honly x⟩
  have hd' : Ref.demand (sig.restrict P) (Ref.recN (sig.restrict P) env n) m ty l e = some (e', v) := by
    unfold Ref.demand at hd ⊢
    rw [show (sig.restrict P).kind l = sig.kind l from rfl, show (sig.restrict P).mode = sig.mode from rfl]
    cases hk : sig l with
    | cell ty' => rw [hk] at hd; exact hd
    | thunk ty' pp fn =>
      obtain ⟨_, _, _, _, hD⟩ := r8 _ _ _ hk
      rw [hk] at hd
      simp only at hd ⊢
      split at hd
      · rename_i hu
        rw [if_pos hu]
        rcases he : Ref.editorForce (Ref.recN sig env n) l e with _ | ⟨σ1, w1⟩
        · rw [he] at hd; cases hd
        rw [he] at hd
        cases hd
        have hg : OnlyDemanded.Good sig s2 D2 P l := .inl ⟨hD, (hP l).2 (.inl .self)⟩
        have key : Ref.editorForce (Ref.recN (sig.restrict P) env n) l e = some (σ1, v) := by
          unfold Ref.editorForce at he ⊢
          rcases hc : (Ref.recN sig env n).frc [] e.cur l with _ | ⟨σc, wc⟩
          · rw [hc] at he
            simp only at he
            have hn : (Ref.recN (sig.restrict P) env n).frc [] e.cur l = none := by
              rcases hq : (Ref.recN (sig.restrict P) env n).frc [] e.cur l with _ | q
              · rfl
              · have := (Ref.recN_le hle env n 0).frc _ [] _ _ _ hq (fun _ h => h)
                rw [Nat.add_zero, hc] at this; cases this
            rw [hn]
            exact (hF n _ _ _ _ _ he hg (Ext.refl _)).2
          · rw [hc] at he
            cases he
            rw [(hF n _ _ _ _ _ hc hg (Ext.refl _)).2]
        rw [key]
      · cases hd
  obtain ⟨s3, _, _, _, _, rs, q1, _, _, q4, _⟩ := editor_demand_ran hd' (h.restrict P) hi cyc
  obtain ⟨_, rfl⟩ := q1.det r1
  exact ⟨s3, rs, q1, q4.runs, fun x hx => (hP x).1 (q4.once x hx).2.2⟩

/-- Forcing by the editor: what is run is used. -/
theorem demand_leads {sig : Sig} {env : Env V} {s s' : St V} {e e' : ES V} {n : Nat} {m : Bool} {ty : Ty} {l : Loc} {v v' : V} {rs : List Loc}
    (hd : Ref.demand sig (Ref.recN sig env n) m ty l e = some (e', v)) (h : EInv sig env s e) (hi : s.ignoreNominal = m) (cyc : Option V)
    (hr : Runs env (fun R => opForce R ty l cyc) s v' s') (hrs : s'.runs = rs ++ s.runs) : ∀ x ∈ rs, Leads s' l x ∨ (sig.pu = true ∧ x.isStruct = true) := by
  obtain ⟨s2, rs', h1, h2, h3⟩ := demand_leads_full (sig := sig.full) (fun _ => rfl) (Ref.demand_le (Ref.SigLe.full sig) h.ext hd).1 (h.restrict fun _ => true) hi cyc
  obtain ⟨_, rfl⟩ := h1.det hr
  rw [h2] at hrs
  rw [← List.append_cancel_right hrs]
  exact h3

/-- **C86.** Let a session `ps` followed by a demand of `l` have a meaning.  Then every thunk that the demand runs is `l`, or is linked to `l`
by the observations recorded in the state after the demand, or (only with the purity optimisation) is identified structurally. -/
theorem C86_only_what_is_used_is_run (sig : Sig) (env : Env V) (ps : List (Prog V)) (ty : Ty) (l : Loc) (cyc : Option V) (us : List V)
    (h : Means sig env (ps ++ [.force ty l cyc .ret]) us) (purity : Bool) (hp : purity = true → sig.pu = true)
    (n m : Nat) (vs : List V) (v : V) (s s' : St V)
    (hr : runSession env n ps (initSt purity sig.mode) = .ok vs s) (hf : exec env m (.force ty l cyc .ret) s = .ok v s') :
    ∃ rs, s'.runs = rs ++ s.runs ∧ ∀ x ∈ rs, Leads s' l x ∨ (purity = true ∧ x.isStruct = true) := by
  obtain ⟨k, e2, hk⟩ := h.withPu hp
  obtain ⟨e1, vs1, v1, h1, h2, rfl⟩ := Ref.session_snoc hk
  obtain ⟨s1, N, g1, g2, g3, g4⟩ := session_ok ps vs1 (initSt purity sig.mode) Ref.emptyES e1 h1 (EInv.init (sig.withPu purity) env) rfl rfl
  have hs : s1 = s := by
    have h2 := g1 (max n N) (Nat.le_max_right ..)
    have h3 := runSession_mono env (Nat.le_max_left n N) ps (initSt purity sig.mode) (by rw [hr]; simp)
    rw [h2, hr] at h3
    cases h3; rfl
  subst hs
  simp only [Ref.evalEd] at h2
  rcases hd : Ref.demand (sig.withPu purity) (Ref.recN (sig.withPu purity) env k) (sig.withPu purity).mode ty l e1 with _ | ⟨e3, w⟩
  · rw [hd] at h2; cases h2
  rw [hd] at h2
  cases h2
  obtain ⟨s2, _, _, _, _, rs, r1, _, _, r4, _⟩ := editor_demand_ran hd g2 g4 cyc
  have hl := demand_leads hd g2 g4 cyc r1 r4.runs
  obtain ⟨N2, r1⟩ := r1
  have hs2 : s2 = s' := by
    have hex : ∀ m, N2 + 1 ≤ m → exec env m (.force ty l cyc .ret) s1 = .ok v1 s2 := by
      intro m hm
      have := r1 m (by omega)
      show runProg env (recN env m) _ _ = _
      simp only [runProg]
      rw [M.bind_ok this]; rfl
    have h2 := hex (max m (N2 + 1)) (Nat.le_max_right ..)
    have h3 := exec_mono env (Nat.le_max_left m (N2 + 1)) (.force ty l cyc .ret) s1 (by rw [hf]; simp)
    rw [h2, hf] at h3
    cases h3; rfl
  subst hs2
  exact ⟨rs, r4.runs, hl⟩

/-! ### Instances -/

open DivEx in
/-- The theorem applies to every history of the division example: the demand runs `check`, and `div` only if `check` has then observed it. -/
theorem C86_division_example (a b : Nat) (ops : List Op) (purity : Bool)
    (n m : Nat) (vs : List (Option Nat)) (v : Option Nat) (s s' : St (Option Nat))
    (hr : runSession env n (start a b :: ops.map Op.prog) (initSt purity false) = .ok vs s)
    (hf : exec env m Op.check.prog s = .ok v s') :
    ∃ rs, s'.runs = rs ++ s.runs ∧ ∀ x ∈ rs, Leads s' check x ∨ (purity = true ∧ x.isStruct = true) := by
  have hm : Means sig env ((start a b :: ops.map Op.prog) ++ [.force 0 check none .ret]) (none :: answers a b (ops ++ [.check])) := by
    have := means a b (ops ++ [.check])
    rw [List.map_append] at this
    exact ⟨2, _, this⟩
  exact C86_only_what_is_used_is_run sig env _ 0 check none _ hm purity (fun _ => rfl) n m vs v s s' hr hf

/-! A thunk that makes a thunk without a name and forces it. -/
namespace PureEx
def root : Loc := ⟨.empty, .nominal ⟨0, .usize 0⟩⟩
def code : FnId → Nat → Prog Nat
  | 1, x => .thunk 0 .structural 2 2 x fun l => .force 0 l none .ret
  | _, x => .ret (x + 1)
def env : Env Nat := ⟨code, fun _ => 0, fun _ _ => 5⟩
def inner : Loc := ⟨.empty, .structural 5⟩
def sig : Sig := { kind := fun l => if l = root then .thunk 0 1 1 else .thunk 0 2 2 }
def start : Prog Nat := .thunk 0 (.nominal ⟨0, .usize 0⟩) 1 1 3 fun _ => .ret 0
def demand : Prog Nat := .force 0 root none .ret

theorem means : Means sig env ([start] ++ [demand]) [0, 4] := by
  refine ⟨3, ((Ref.session sig env 3 [start, demand] Ref.emptyES).getD (Ref.emptyES, [])).1, ?_⟩
  rfl

/-- What was run, and what `root` has observed. -/
def outcome (purity : Bool) : Option (List Loc × List Loc) :=
  match runSession env 9 [start, demand] (initSt purity false) with
  | .ok _ s => match s.table.get root with
    | some (.comp nd) => some (s.runs, (nd.succs.filter fun e => decide (e.effect = .observe)).map Succ.loc)
    | _ => none
  | _ => none

/-- Without the purity optimisation the observation of the thunk without a name is recorded; with it, the thunk is run but the observation is not recorded: the
second case of `C86` occurs. -/
theorem C86_purity_hides : outcome false = some ([inner, root], [inner]) ∧ outcome true = some ([inner, root], []) := by
  constructor <;> decide +kernel
end PureEx

end Adapton
