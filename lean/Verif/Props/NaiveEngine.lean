import Verif.Engine.Naive
import Verif.Props.Consistency
/-
C59: the naive engine and the DCG engine compute the same.
-/
set_option linter.unusedSectionVars false
set_option linter.unusedVariables false
namespace Adapton
open Ref (Sig Kind Means Store Ext)
variable {V W : Type} [DecidableEq V]

/-! ### Specification

Programs use arts abstractly: the same source text runs with locations (`Prog`) and with naive arts (`NProg`).  What "the same" means
is said by a relation between the values of the two engines: `R σ v w` — in a store with contents `σ`, the value `v` (which may contain
locations) and the value `w` (which may contain naive arts) correspond. -/

/-- Naive code returns `w`, given enough recursion depth. -/
def NReturns (code : FnId → W → NProg W) (q : NProg W) (w : W) : Prop := ∃ N, ∀ m, N ≤ m → nrun (ncall code m) q = .ok w

/-- Corresponding arts: a cell with corresponding content; a thunk of the same closure with corresponding argument. -/
def ArtRel (sig : Sig) (R : Store V → V → W → Prop) (σ : Store V) (l : Loc) : NArt W → Prop
  | .rc w => (∃ ty, sig l = .cell ty) ∧ ∃ c, σ l = some c ∧ R σ c w
  | .force _ _ fn w => (∃ ty pp, sig l = .thunk ty pp fn) ∧ ∃ c, σ l = some c ∧ R σ c w

/-- Corresponding programs: the same calls in the same order, on corresponding arts and values, whatever corresponding values
and arts the calls return. -/
inductive ProgRel (sig : Sig) (R : Store V → V → W → Prop) : Store V → Prog V → NProg W → Prop
  | ret {σ v w} : R σ v w → ProgRel sig R σ (.ret v) (.ret w)
  | force {σ ty l a cyc cyc' k k'} : ArtRel sig R σ l a →
      (∀ σ', Ext σ σ' → ∀ v w, R σ' v w → ProgRel sig R σ' (k v) (k' w)) →
      ProgRel sig R σ (.force ty l cyc k) (.force a cyc' k')
  | forceMap {σ ty l a f g k k'} : ArtRel sig R σ l a →
      (∀ σ', Ext σ σ' → ∀ v w, R σ' v w → R σ' (f v) (g w)) →
      (∀ σ', Ext σ σ' → ∀ v w, R σ' v w → ProgRel sig R σ' (k v) (k' w)) →
      ProgRel sig R σ (.forceMap ty l f k) (.forceMap a g k')
  | cell {σ ty n v w k k'} : R σ v w →
      (∀ σ', Ext σ σ' → ∀ l a, ArtRel sig R σ' l a → ProgRel sig R σ' (k l) (k' a)) →
      ProgRel sig R σ (.cell ty n v k) (.cell n w k')
  | thunk {σ ty nc pp fn v w k k'} : R σ v w →
      (∀ σ', Ext σ σ' → ∀ l a, ArtRel sig R σ' l a → ProgRel sig R σ' (k l) (k' a)) →
      ProgRel sig R σ (.thunk ty nc pp fn v k) (.thunk nc pp fn w k')
  | ns {σ n body body' k k'} : ProgRel sig R σ body body' →
      (∀ σ', Ext σ σ' → ∀ v w, R σ' v w → ProgRel sig R σ' (k v) (k' w)) →
      ProgRel sig R σ (.ns n body k) (.ns n body' k')
  | structural {σ body body' k k'} : ProgRel sig R σ body body' →
      (∀ σ', Ext σ σ' → ∀ v w, R σ' v w → ProgRel sig R σ' (k v) (k' w)) →
      ProgRel sig R σ (.structural body k) (.structural body' k')
  | call {σ fn v w k k'} : R σ v w →
      (∀ σ', Ext σ σ' → ∀ v w, R σ' v w → ProgRel sig R σ' (k v) (k' w)) →
      ProgRel sig R σ (.call fn v k) (.call fn w k')

/-- The two versions of the program text correspond: `R` is stable under allocation, and every closure does corresponding things
with corresponding arguments. -/
structure SameText (sig : Sig) (env : Env V) (code : FnId → W → NProg W) (R : Store V → V → W → Prop) : Prop where
  mono : ∀ σ σ', Ext σ σ' → ∀ v w, R σ v w → R σ' v w
  code : ∀ σ fn v w, R σ v w → ProgRel sig R σ (env.code fn v) (code fn w)

/-! ### Proofs -/

section
variable {sig : Sig} {env : Env V} {code : FnId → W → NProg W} {R : Store V → V → W → Prop}

theorem ArtRel.mono (h : SameText sig env code R) {σ σ' : Store V} (he : Ext σ σ') {l : Loc} {a : NArt W}
    (ha : ArtRel sig R σ l a) : ArtRel sig R σ' l a := by
  cases a with
  | rc w =>
    obtain ⟨h1, c, h2, h3⟩ := ha
    exact ⟨h1, c, he _ _ h2, h.mono _ _ he _ _ h3⟩
  | force id pp fn w =>
    obtain ⟨h1, c, h2, h3⟩ := ha
    exact ⟨h1, c, he _ _ h2, h.mono _ _ he _ _ h3⟩

/-- Naive demand of an art. -/
def NForces (code : FnId → W → NProg W) (a : NArt W) (w : W) : Prop := ∃ N, ∀ m, N ≤ m → nforce (ncall code m) a = .ok w

theorem NForces.bind {a : NArt W} {w w' : W} {q : W → NProg W} {cyc : Option W} (h : NForces code a w)
    (h' : NReturns code (q w) w') : NReturns code (.force a cyc q) w' := by
  obtain ⟨N, h⟩ := h
  obtain ⟨N', h'⟩ := h'
  refine ⟨max N N', fun m hm => ?_⟩
  unfold nrun
  rw [h m (by omega)]
  exact h' m (by omega)

theorem NForces.bindMap {a : NArt W} {w w' : W} {f : W → W} {q : W → NProg W} (h : NForces code a w)
    (h' : NReturns code (q (f w)) w') : NReturns code (.forceMap a f q) w' := by
  obtain ⟨N, h⟩ := h
  obtain ⟨N', h'⟩ := h'
  refine ⟨max N N', fun m hm => ?_⟩
  unfold nrun
  rw [h m (by omega)]
  exact h' m (by omega)

/-- What is known of the recursion at one depth. -/
structure RecRel (sig : Sig) (R : Store V → V → W → Prop) (code : FnId → W → NProg W) (Rc : Ref.Rec V) : Prop where
  frc : ∀ anc σ l σ' v a, Rc.frc anc σ l = some (σ', v) → (∃ ty pp fn, sig l = .thunk ty pp fn) → ArtRel sig R σ l a →
    ∃ w, NForces code a w ∧ R σ' v w
  call : ∀ c m π fn v w r r' v', Rc.call c m π fn v r = some (r', v') → R r.store v w →
    ∃ w', (∃ N, ∀ m, N ≤ m → ncall code m fn w = .ok w') ∧ R r'.store v' w'

theorem observe_rel (hT : SameText sig env code R) {Rc : Ref.Rec V} (hR : RecRel sig R code Rc) {c m ty l a} {r r' : Ref.RS V} {v : V}
    (h : Ref.observe sig Rc c m ty l r = some (r', v)) (ha : ArtRel sig R r.store l a) :
    ∃ w, NForces code a w ∧ R r'.store v w := by
  unfold Ref.observe at h
  cases hk : sig l with
  | cell ty' =>
    rw [hk] at h
    simp only at h
    split at h
    · rcases hs : r.store l with _ | c
      · rw [hs] at h; cases h
      · rw [hs] at h
        cases h
        cases a with
        | rc w =>
          obtain ⟨_, c', h2, h3⟩ := ha
          rw [hs] at h2; cases h2
          exact ⟨w, ⟨0, fun _ _ => rfl⟩, h3⟩
        | force id pp fn w =>
          obtain ⟨⟨_, _, h1⟩, _⟩ := ha
          rw [hk] at h1; cases h1
    · cases h
  | thunk ty' pp fn =>
    rw [hk] at h
    simp only at h
    split at h
    · rcases hf : Rc.frc c.anc r.store l with _ | ⟨σ', v'⟩
      · rw [hf] at h; cases h
      · rw [hf] at h
        cases h
        exact hR.frc c.anc r.store l σ' _ a hf ⟨_, _, _, hk⟩ ha
    · cases h

theorem alloc_cell_rel (hT : SameText sig env code R) {σ σ' : Store V} {l : Loc} {ty : Ty} {v : V} {w : W} (hk : sig l = .cell ty)
    (ha : Ref.alloc σ l v = some σ') (hr : R σ v w) : Ext σ σ' ∧ ArtRel sig R σ' l (.rc w) := by
  obtain ⟨h1, h2⟩ := Ref.alloc_ext ha
  exact ⟨h1, ⟨_, hk⟩, v, h2, hT.mono _ _ h1 _ _ hr⟩

theorem eval_rel (hT : SameText sig env code R) {Rc : Ref.Rec V} (hR : RecRel sig R code Rc) (hO : Ref.RecOK Rc) (c : Ref.Ctx)
    (p : Prog V) : ∀ (m : Bool) (π : Path) (q : NProg W) (r r' : Ref.RS V) (v : V), Ref.eval sig env Rc c m π p r = some (r', v) →
    ProgRel sig R r.store p q → ∃ w, NReturns code q w ∧ R r'.store v w := by
  induction p with
  | ret u =>
    intro m π q r r' v h hp
    simp only [Ref.eval] at h
    cases h
    cases hp with
    | ret hr => exact ⟨_, ⟨0, fun _ _ => rfl⟩, hr⟩
  | force ty l cyc k ih =>
    intro m π q r r' v h hp
    simp only [Ref.eval] at h
    rcases ho : Ref.observe sig Rc c m ty l r with _ | ⟨r1, v1⟩
    · rw [ho] at h; cases h
    · rw [ho] at h
      cases hp with
      | force ha hk =>
        obtain ⟨w1, h1, h2⟩ := observe_rel hT hR ho ha
        obtain ⟨w, h3, h4⟩ := ih v1 m π _ r1 r' v h (hk _ (Ref.observe_ext hO ho) _ _ h2)
        exact ⟨w, h1.bind h3, h4⟩
  | forceMap ty l f k ih =>
    intro m π q r r' v h hp
    simp only [Ref.eval] at h
    rcases ho : Ref.observeMap sig Rc c m ty l f r with _ | ⟨r1, v1⟩
    · rw [ho] at h; cases h
    · rw [ho] at h
      cases hp with
      | @forceMap _ _ _ a _ g _ _ ha hf hk =>
        have hext := Ref.observeMap_ext hO ho
        have key : ∃ v0 w0, v1 = f v0 ∧ NForces code a w0 ∧ R r1.store v0 w0 := by
          unfold Ref.observeMap at ho
          cases hs : sig l with
          | cell ty' =>
            rw [hs] at ho
            simp only at ho
            split at ho
            · rcases hst : r.store l with _ | c0
              · rw [hst] at ho; cases ho
              · rw [hst] at ho
                cases ho
                cases a with
                | rc w =>
                  obtain ⟨_, c', h2, h3⟩ := ha
                  rw [hst] at h2; cases h2
                  exact ⟨_, w, rfl, ⟨0, fun _ _ => rfl⟩, h3⟩
                | force id pp fn w =>
                  obtain ⟨⟨_, _, h1⟩, _⟩ := ha
                  rw [hs] at h1; cases h1
            · cases ho
          | thunk ty' pp fn =>
            rw [hs] at ho
            simp only at ho
            rcases ho' : Ref.observe sig Rc c m ty l r with _ | ⟨r2, v2⟩
            · rw [ho'] at ho; cases ho
            · rw [ho'] at ho
              cases ho
              obtain ⟨w1, h1, h2⟩ := observe_rel hT hR ho' ha
              exact ⟨v2, w1, rfl, h1, h2⟩
        obtain ⟨v0, w0, rfl, h1, h2⟩ := key
        obtain ⟨w, h3, h4⟩ := ih _ m π _ r1 r' v h (hk _ hext _ _ (hf _ hext _ _ h2))
        exact ⟨w, h1.bindMap h3, h4⟩
  | forceAbs ty l f k ih =>
    intro m π q r r' v h hp
    simp only [Ref.eval] at h; cases h
  | cell ty n u k ih =>
    intro m π q r r' v h hp
    simp only [Ref.eval] at h
    split at h
    · rename_i hk
      rcases ha : Ref.alloc r.store (Ref.cellLoc env m π n u) u with _ | σ'
      · rw [ha] at h; cases h
      · rw [ha] at h
        cases hp with
        | cell hr hkk =>
          obtain ⟨h1, h2⟩ := alloc_cell_rel hT hk.1 ha hr
          obtain ⟨w, ⟨N, h3⟩, h4⟩ := ih _ m π _ _ r' v h (hkk _ h1 _ _ h2)
          exact ⟨w, ⟨N, fun M hM => by unfold nrun; exact h3 M hM⟩, h4⟩
    · cases h
  | thunk ty nc pp fn u k ih =>
    intro m π q r r' v h hp
    simp only [Ref.eval] at h
    rcases hl : Ref.thunkLoc env m π nc pp u with _ | l
    · rw [hl] at h; cases h
    · rw [hl] at h
      simp only at h
      split at h
      · rename_i hk
        rcases ha : Ref.alloc r.store l u with _ | σ'
        · rw [ha] at h; cases h
        · rw [ha] at h
          cases hp with
          | thunk hr hkk =>
            obtain ⟨h1, h2⟩ := Ref.alloc_ext ha
            obtain ⟨w, ⟨N, h3⟩, h4⟩ := ih _ m π _ _ r' v h
              (hkk _ h1 _ (.force nc pp fn _) ⟨⟨_, _, hk.1⟩, u, h2, hT.mono _ _ h1 _ _ hr⟩)
            exact ⟨w, ⟨N, fun M hM => by unfold nrun; exact h3 M hM⟩, h4⟩
      · cases h
  | set ty l u k ih =>
    intro m π q r r' v h hp
    simp only [Ref.eval] at h; cases h
  | ns n body k ihb ihk =>
    intro m π q r r' v h hp
    simp only [Ref.eval] at h
    rcases hb : Ref.eval sig env Rc c m (.child π n) body r with _ | ⟨r1, v1⟩
    · rw [hb] at h; cases h
    · rw [hb] at h
      cases hp with
      | ns hbr hk =>
        obtain ⟨w1, ⟨N1, h1⟩, h2⟩ := ihb _ _ _ r r1 v1 hb hbr
        obtain ⟨w, ⟨N, h3⟩, h4⟩ := ihk v1 m π _ r1 r' v h (hk _ (Ref.eval_ext hO c body _ _ _ _ _ hb) _ _ h2)
        refine ⟨w, ⟨max N1 N, fun M hM => ?_⟩, h4⟩
        unfold nrun
        rw [h1 M (by omega)]
        exact h3 M (by omega)
  | structural body k ihb ihk =>
    intro m π q r r' v h hp
    simp only [Ref.eval] at h
    rcases hb : Ref.eval sig env Rc c true π body r with _ | ⟨r1, v1⟩
    · rw [hb] at h; cases h
    · rw [hb] at h
      cases hp with
      | structural hbr hk =>
        obtain ⟨w1, ⟨N1, h1⟩, h2⟩ := ihb _ _ _ r r1 v1 hb hbr
        obtain ⟨w, ⟨N, h3⟩, h4⟩ := ihk v1 m π _ r1 r' v h (hk _ (Ref.eval_ext hO c body _ _ _ _ _ hb) _ _ h2)
        refine ⟨w, ⟨max N1 N, fun M hM => ?_⟩, h4⟩
        unfold nrun
        rw [h1 M (by omega)]
        exact h3 M (by omega)
  | call fn u k ih =>
    intro m π q r r' v h hp
    simp only [Ref.eval] at h
    rcases hb : Rc.call c m π fn u r with _ | ⟨r1, v1⟩
    · rw [hb] at h; cases h
    · rw [hb] at h
      cases hp with
      | call hr hk =>
        obtain ⟨w1, ⟨N1, h1⟩, h2⟩ := hR.call c m π fn u _ r r1 v1 hb hr
        obtain ⟨w, ⟨N, h3⟩, h4⟩ := ih v1 m π _ r1 r' v h (hk _ (hO.callExt _ _ _ _ _ _ _ _ hb) _ _ h2)
        refine ⟨w, ⟨max N1 N, fun M hM => ?_⟩, h4⟩
        unfold nrun
        rw [h1 M (by omega)]
        exact h3 M (by omega)
  | panic =>
    intro m π q r r' v h hp
    simp only [Ref.eval] at h; cases h

theorem recN_rel (hT : SameText sig env code R) (n : Nat) : RecRel sig R code (Ref.recN sig env n) := by
  induction n with
  | zero =>
    refine ⟨?_, ?_⟩
    · intro anc σ l σ' v a h; cases h
    · intro c m π fn v w r r' v' h; cases h
  | succ n ih =>
    have lift : ∀ fn w w', NReturns code (code fn w) w' → ∃ N, ∀ m, N ≤ m → ncall code m fn w = .ok w' := by
      rintro fn w w' ⟨N, h⟩
      refine ⟨N + 1, fun m hm => ?_⟩
      obtain ⟨m, rfl⟩ : ∃ j, m = j + 1 := ⟨m - 1, by omega⟩
      exact h m (by omega)
    refine ⟨?_, ?_⟩
    · intro anc σ l σ' v a h ⟨ty, pp, fn, hk⟩ ha
      unfold Ref.recN at h
      simp only [hk] at h
      rcases hs : σ l with _ | arg
      · rw [hs] at h; cases h
      · rw [hs] at h
        rcases ho : sig.only l with _ | _
        · rw [ho] at h; cases h
        rw [ho] at h
        simp only at h
        rcases he : Ref.eval sig env (Ref.recN sig env n) ⟨l, l :: anc⟩ sig.mode l.path (env.code fn arg) ⟨σ, []⟩ with _ | ⟨r, v1⟩
        · rw [he] at h; cases h
        · rw [he] at h
          cases h
          cases a with
          | rc w => obtain ⟨⟨_, h1⟩, _⟩ := ha; rw [hk] at h1; cases h1
          | force id pp' fn' w =>
            obtain ⟨⟨_, _, h1⟩, c, h2, h3⟩ := ha
            rw [hk] at h1; cases h1
            rw [hs] at h2; cases h2
            obtain ⟨w', h4, h5⟩ := eval_rel hT ih (Ref.recN_ok sig env n) _ _ _ _ _ _ _ _ he (hT.code σ fn arg w h3)
            exact ⟨w', lift _ _ _ h4, h5⟩
    · intro c m π fn v w r r' v' h hr
      obtain ⟨w', h4, h5⟩ := eval_rel hT ih (Ref.recN_ok sig env n) _ _ _ _ _ _ _ _ h (hT.code r.store fn v w hr)
      exact ⟨w', lift _ _ _ h4, h5⟩

theorem eval_editor (self : Loc) (n : Nat) : ∀ (p : Prog V) (m : Bool) (π : Path) (r r' : Ref.RS V) (v : V) (base : Store V),
    Ref.eval sig env (Ref.recN sig env n) ⟨self, []⟩ m π p r = some (r', v) →
    ∃ e', Ref.evalEd sig env (Ref.recN sig env n) (Ref.callEN sig env n) m π p ⟨base, r.store⟩ = some (e', v) ∧ e'.cur = r'.store := by
  induction n with
  | zero => exact step (fun m π fn arg r r' v base h => by cases h)
  | succ n ih =>
    exact step (fun m π fn arg r r' v base h => ih (env.code fn arg) m π r r' v base h)
where
  step {n : Nat} (hcall : ∀ m π fn arg (r r' : Ref.RS V) v base, (Ref.recN sig env n).call ⟨self, []⟩ m π fn arg r = some (r', v) →
        ∃ e', Ref.callEN sig env n m π fn arg ⟨base, r.store⟩ = some (e', v) ∧ e'.cur = r'.store) :
      ∀ (p : Prog V) (m : Bool) (π : Path) (r r' : Ref.RS V) (v : V) (base : Store V),
      Ref.eval sig env (Ref.recN sig env n) ⟨self, []⟩ m π p r = some (r', v) →
      ∃ e', Ref.evalEd sig env (Ref.recN sig env n) (Ref.callEN sig env n) m π p ⟨base, r.store⟩ = some (e', v) ∧ e'.cur = r'.store := by
    have hobs : ∀ m ty l (r r' : Ref.RS V) v base, Ref.observe sig (Ref.recN sig env n) ⟨self, []⟩ m ty l r = some (r', v) →
        ∃ base', Ref.demand sig (Ref.recN sig env n) m ty l ⟨base, r.store⟩ = some (⟨base', r'.store⟩, v) := by
      intro m ty l r r' v base h
      unfold Ref.observe at h
      unfold Ref.demand
      cases hk : sig l with
      | cell ty' =>
        rw [hk] at h
        simp only at h ⊢
        split at h
        · rename_i hc
          rw [if_pos hc.1]
          rcases hs : r.store l with _ | c
          · rw [hs] at h; cases h
          · rw [hs] at h; cases h; exact ⟨_, rfl⟩
        · cases h
      | thunk ty' pp fn =>
        rw [hk] at h
        simp only at h ⊢
        split at h
        · rename_i hc
          rw [if_pos ⟨hc.1, hc.2.2.1⟩]
          unfold Ref.editorForce
          simp only
          rcases hf : (Ref.recN sig env n).frc [] r.store l with _ | ⟨σ', v'⟩
          · rw [hf] at h; cases h
          · rw [hf] at h; cases h; exact ⟨_, rfl⟩
        · cases h
    have hmap : ∀ m ty l f (r r' : Ref.RS V) v base, Ref.observeMap sig (Ref.recN sig env n) ⟨self, []⟩ m ty l f r = some (r', v) →
        ∃ base' v0, Ref.demand sig (Ref.recN sig env n) m ty l ⟨base, r.store⟩ = some (⟨base', r'.store⟩, v0) ∧ v = f v0 := by
      intro m ty l f r r' v base h
      unfold Ref.observeMap at h
      cases hk : sig l with
      | cell ty' =>
        rw [hk] at h
        simp only at h
        split at h
        · rename_i hc
          rcases hs : r.store l with _ | c
          · rw [hs] at h; cases h
          · rw [hs] at h
            cases h
            refine ⟨base, c, ?_, rfl⟩
            unfold Ref.demand
            rw [hk]
            simp only
            rw [if_pos hc.1, hs]
        · cases h
      | thunk ty' pp fn =>
        rw [hk] at h
        simp only at h
        rcases ho : Ref.observe sig (Ref.recN sig env n) ⟨self, []⟩ m ty l r with _ | ⟨r1, v1⟩
        · rw [ho] at h; cases h
        · rw [ho] at h
          cases h
          obtain ⟨base', hb⟩ := hobs _ _ _ _ _ _ base ho
          exact ⟨base', v1, hb, rfl⟩
    have hed : ∀ (base σ σ' : Store V) l u, Ref.alloc σ l u = some σ' →
        (∃ base', Ref.edit ⟨base, σ⟩ l u = ⟨base', σ'⟩) ∧ Ref.mayEdit (⟨base, σ⟩ : Ref.ES V) l u = true := by
      intro base σ σ' l u h
      rw [Ref.alloc_dec] at h
      simp only [Ref.edit_dec]
      rcases hs : σ l with _ | w
      · rw [hs] at h
        cases h
        exact ⟨⟨_, by simp [hs]; rfl⟩, by simp [Ref.mayEdit, hs]⟩
      · rw [hs] at h
        simp only at h
        split at h
        · cases h
          subst_vars
          exact ⟨⟨_, by simp only [hs]; rw [if_pos (.inr trivial), upd_of_some hs]⟩, by
            simp only [Ref.mayEdit, hs, Bool.or_eq_true, decide_eq_true_eq]; exact .inr rfl⟩
        · cases h
    intro p
    induction p with
    | ret u => intro m π r r' v base h; cases h; exact ⟨_, rfl, rfl⟩
    | force ty l cyc k ih =>
      intro m π r r' v base h
      simp only [Ref.eval] at h
      rcases ho : Ref.observe sig (Ref.recN sig env n) ⟨self, []⟩ m ty l r with _ | ⟨r1, v1⟩
      · rw [ho] at h; cases h
      · rw [ho] at h
        obtain ⟨base', hb⟩ := hobs _ _ _ _ _ _ base ho
        obtain ⟨e', h1, h2⟩ := ih v1 m π r1 r' v base' h
        refine ⟨e', ?_, h2⟩
        simp only [Ref.evalEd]
        rw [hb]
        exact h1
    | forceMap ty l f k ih =>
      intro m π r r' v base h
      simp only [Ref.eval] at h
      rcases ho : Ref.observeMap sig (Ref.recN sig env n) ⟨self, []⟩ m ty l f r with _ | ⟨r1, v1⟩
      · rw [ho] at h; cases h
      · rw [ho] at h
        obtain ⟨base', v0, h0, rfl⟩ := hmap _ _ _ _ _ _ _ base ho
        obtain ⟨e', h1, h2⟩ := ih _ m π r1 r' v base' h
        refine ⟨e', ?_, h2⟩
        simp only [Ref.evalEd]
        rw [h0]
        exact h1
    | forceAbs ty l f k ih => intro m π r r' v base h; cases h
    | cell ty nm u k ih =>
      intro m π r r' v base h
      simp only [Ref.eval] at h
      split at h
      · rename_i hk
        rcases ha : Ref.alloc r.store (Ref.cellLoc env m π nm u) u with _ | σ'
        · rw [ha] at h; cases h
        · rw [ha] at h
          obtain ⟨⟨base', hb⟩, hme⟩ := hed base _ _ _ _ ha
          obtain ⟨e', h1, h2⟩ := ih _ m π _ r' v base' h
          refine ⟨e', ?_, h2⟩
          simp only [Ref.evalEd]
          rw [if_pos ⟨hk.1, hme⟩, hb]
          exact h1
      · cases h
    | thunk ty nc pp fn u k ih =>
      intro m π r r' v base h
      simp only [Ref.eval] at h
      rcases hl : Ref.thunkLoc env m π nc pp u with _ | l
      · rw [hl] at h; cases h
      · rw [hl] at h
        simp only at h
        split at h
        · rename_i hk
          rcases ha : Ref.alloc r.store l u with _ | σ'
          · rw [ha] at h; cases h
          · rw [ha] at h
            obtain ⟨⟨base', hb⟩, hme⟩ := hed base _ _ _ _ ha
            obtain ⟨e', h1, h2⟩ := ih _ m π _ r' v base' h
            refine ⟨e', ?_, h2⟩
            simp only [Ref.evalEd]
            rw [hl]
            simp only
            rw [if_pos ⟨hk.1, hme⟩, hb]
            exact h1
        · cases h
    | set ty l u k ih => intro m π r r' v base h; cases h
    | ns nm body k ihb ihk =>
      intro m π r r' v base h
      simp only [Ref.eval] at h
      rcases hb : Ref.eval sig env (Ref.recN sig env n) ⟨self, []⟩ m (.child π nm) body r with _ | ⟨r1, v1⟩
      · rw [hb] at h; cases h
      · rw [hb] at h
        obtain ⟨⟨base1, cur1⟩, h1, h2⟩ := ihb _ _ r r1 v1 base hb
        simp only at h2
        subst h2
        obtain ⟨e', h3, h4⟩ := ihk v1 m π r1 r' v base1 h
        refine ⟨e', ?_, h4⟩
        simp only [Ref.evalEd]
        rw [h1]
        exact h3
    | structural body k ihb ihk =>
      intro m π r r' v base h
      simp only [Ref.eval] at h
      rcases hb : Ref.eval sig env (Ref.recN sig env n) ⟨self, []⟩ true π body r with _ | ⟨r1, v1⟩
      · rw [hb] at h; cases h
      · rw [hb] at h
        obtain ⟨⟨base1, cur1⟩, h1, h2⟩ := ihb _ _ r r1 v1 base hb
        simp only at h2
        subst h2
        obtain ⟨e', h3, h4⟩ := ihk v1 m π r1 r' v base1 h
        refine ⟨e', ?_, h4⟩
        simp only [Ref.evalEd]
        rw [h1]
        exact h3
    | call fn u k ih =>
      intro m π r r' v base h
      simp only [Ref.eval] at h
      rcases hb : (Ref.recN sig env n).call ⟨self, []⟩ m π fn u r with _ | ⟨r1, v1⟩
      · rw [hb] at h; cases h
      · rw [hb] at h
        obtain ⟨⟨base1, cur1⟩, h1, h2⟩ := hcall m π fn u r r1 v1 base hb
        simp only at h2
        subst h2
        obtain ⟨e', h3, h4⟩ := ih v1 m π r1 r' v base1 h
        refine ⟨e', ?_, h4⟩
        simp only [Ref.evalEd]
        rw [h1]
        exact h3
    | panic => intro m π r r' v base h; cases h

theorem session_snoc {n : Nat} : ∀ (ps : List (Prog V)) (p : Prog V) (e e' e'' : Ref.ES V) (vs : List V) (v : V),
    Ref.session sig env n ps e = some (e', vs) →
    Ref.evalEd sig env (Ref.recN sig env n) (Ref.callEN sig env n) sig.mode .empty p e' = some (e'', v) →
    Ref.session sig env n (ps ++ [p]) e = some (e'', vs ++ [v]) := by
  intro ps
  induction ps with
  | nil =>
    intro p e e' e'' vs v h h'
    cases h
    simp only [List.nil_append, Ref.session]
    rw [h']
  | cons p0 ps ih =>
    intro p e e' e'' vs v h h'
    simp only [Ref.session] at h
    rcases h1 : Ref.evalEd sig env (Ref.recN sig env n) (Ref.callEN sig env n) sig.mode .empty p0 e with _ | ⟨e1, v1⟩
    · rw [h1] at h; cases h
    · rw [h1] at h
      simp only at h
      rcases h2 : Ref.session sig env n ps e1 with _ | ⟨e2, vs2⟩
      · rw [h2] at h; cases h
      · rw [h2] at h
        cases h
        have := ih p e1 e' e'' vs2 v h2 h'
        simp only [List.cons_append, Ref.session]
        rw [h1]
        simp only
        rw [this]

/-- **C59.** What the naive engine cannot do: `set` panics, on every art and whatever comes after; so only programs that write each location once can agree. -/
theorem C59_naive_set_panics (rec : FnId → W → NOut W) (a : NArt W) (v : W) (k : NProg W) : nrun rec (.set a v k) = .panic := rfl

/-- **C59.** Whole programs.  After any session with a meaning, which left the contents `e.cur`, run one more program `p` that writes
each location at most once (its reference meaning, as a computation, is `v`), on the DCG engine; and the same program text `q` on the
naive engine.  The DCG engine returns `v`, the naive engine returns some `w`, and the two correspond; so whatever can be
observed of corresponding values (`ov`, `ow`) is the same. -/
theorem C59_programs_agree (hT : SameText sig env code R) (k : Nat) (ps : List (Prog V)) (vs : List V) (e : Ref.ES V)
    (hs : Ref.session sig env k ps Ref.emptyES = some (e, vs)) (p : Prog V) (q : NProg W) (hpq : ProgRel sig R e.cur p q)
    (self : Loc) (r : Ref.RS V) (v : V)
    (hv : Ref.eval sig env (Ref.recN sig env k) ⟨self, []⟩ sig.mode .empty p ⟨e.cur, []⟩ = some (r, v))
    (purity : Bool) (hp : purity = true → sig.pu = true) (n : Nat) (vs' : List V) (s' : St V)
    (hr : runSession env n (ps ++ [p]) (initSt purity sig.mode) = .ok vs' s')
    {T : Type} (ov : V → T) (ow : W → T) (ho : ∀ σ v w, R σ v w → ov v = ow w) :
    vs' = vs ++ [v] ∧ ∃ w, NReturns code q w ∧ R r.store v w ∧ ov v = ow w := by
  obtain ⟨e', h1, h2⟩ := eval_editor self k p sig.mode .empty ⟨e.cur, []⟩ r v e.base hv
  have hm : Means sig env (ps ++ [p]) (vs ++ [v]) := ⟨k, e', session_snoc ps p _ e e' vs v hs h1⟩
  refine ⟨C01_from_scratch_consistency sig env _ _ hm purity hp n vs' s' hr, ?_⟩
  obtain ⟨w, h3, h4⟩ := eval_rel hT (recN_rel hT k) (Ref.recN_ok sig env k) _ p _ _ q _ _ _ hv hpq
  exact ⟨w, h3, h4, ho _ _ _ h4⟩

/-- **C59.** Demands after edits.  After any session with a meaning — any interleaving of allocation, edits and demands — let the editor
demand the art `l`, and let `a` be a naive art that corresponds to `l` with the contents the editor has given its
locations (`e.base`).  Then the DCG engine returns the value the naive engine computes from `a` from scratch, up to correspondence. -/
theorem C59_demands_agree (hT : SameText sig env code R) (k : Nat) (ps : List (Prog V)) (vs : List V) (e e' : Ref.ES V)
    (hs : Ref.session sig env k ps Ref.emptyES = some (e, vs)) (ty : Ty) (l : Loc) (a : NArt W) (ha : ArtRel sig R e.base l a) (v : V)
    (hv : Ref.demand sig (Ref.recN sig env k) sig.mode ty l e = some (e', v))
    (purity : Bool) (hp : purity = true → sig.pu = true) (n : Nat) (vs' : List V) (s' : St V)
    (hr : runSession env n (ps ++ [.force ty l none .ret]) (initSt purity sig.mode) = .ok vs' s')
    {T : Type} (ov : V → T) (ow : W → T) (ho : ∀ σ v w, R σ v w → ov v = ow w) :
    vs' = vs ++ [v] ∧ ∃ w, NReturns code (.force a none .ret) w ∧ R e'.cur v w ∧ ov v = ow w := by
  have hed : Ref.evalEd sig env (Ref.recN sig env k) (Ref.callEN sig env k) sig.mode .empty (.force ty l none .ret) e = some (e', v) := by
    simp only [Ref.evalEd]
    rw [hv]
  have hm : Means sig env (ps ++ [.force ty l none .ret]) (vs ++ [v]) := ⟨k, e', session_snoc ps _ _ e e' vs v hs hed⟩
  refine ⟨C01_from_scratch_consistency sig env _ _ hm purity hp n vs' s' hr, ?_⟩
  obtain ⟨s2, N, _, h2, _⟩ := session_ok ps vs (initSt sig.pu sig.mode) Ref.emptyES e hs (EInv.init sig env) rfl rfl
  have hext := h2.ext
  have key : ∃ w, NForces code a w ∧ R e'.cur v w := by
    unfold Ref.demand at hv
    cases hk : sig l with
    | cell ty' =>
      rw [hk] at hv
      simp only at hv
      split at hv
      · rcases hc : e.cur l with _ | c
        · rw [hc] at hv; cases hv
        · rw [hc] at hv
          cases hv
          have ha' := ha.mono hT hext
          cases a with
          | rc w =>
            obtain ⟨_, c', h3, h4⟩ := ha'
            rw [hc] at h3; cases h3
            exact ⟨w, ⟨0, fun _ _ => rfl⟩, h4⟩
          | force id pp fn w =>
            obtain ⟨⟨_, _, h1⟩, _⟩ := ha'
            rw [hk] at h1; cases h1
      · cases hv
    | thunk ty' pp fn =>
      rw [hk] at hv
      simp only at hv
      split at hv
      · unfold Ref.editorForce at hv
        rcases hf : (Ref.recN sig env k).frc [] e.cur l with _ | ⟨σ', v'⟩
        · rw [hf] at hv
          simp only at hv
          rcases hf' : (Ref.recN sig env k).frc [] e.base l with _ | ⟨σ', v'⟩
          · rw [hf'] at hv; cases hv
          · rw [hf'] at hv
            cases hv
            exact (recN_rel hT k).frc _ _ _ _ _ a hf' ⟨_, _, _, hk⟩ ha
        · rw [hf] at hv
          cases hv
          exact (recN_rel hT k).frc _ _ _ _ _ a hf ⟨_, _, _, hk⟩ (ha.mono hT hext)
      · cases hv
  obtain ⟨w, h3, h4⟩ := key
  exact ⟨w, h3.bind ⟨0, fun _ _ => rfl⟩, h4, ho _ _ _ h4⟩

end

/-! ### The hypotheses are met

Values are numbers and arts.  A thunk takes the art of a cell, makes an inner thunk over it in a namespace, demands that, and computes
with the result.  The editor builds it, demands it, edits the cell, and demands again. -/
namespace NaiveExample
open Example1 (nm at_ inner)

inductive DV where
  | n (k : Nat)
  | a (l : Loc)
deriving DecidableEq

inductive WV where
  | n (k : Nat)
  | a (x : NArt WV)

def sig : Sig :=
  { kind := fun l => if l = at_ 2 then .thunk 0 11 1 else if l = inner then .thunk 0 12 2 else .cell 0 }

inductive Rel (σ : Store DV) : DV → WV → Prop
  | n (k) : Rel σ (.n k) (.n k)
  | cell {l ty c w} : sig l = .cell ty → σ l = some c → Rel σ c w → Rel σ (.a l) (.a (.rc w))
  | thunk {l ty pp fn c w id pp'} : sig l = .thunk ty pp fn → σ l = some c → Rel σ c w → Rel σ (.a l) (.a (.force id pp' fn w))

def dcode : FnId → DV → Prog DV
  | 1, .a l => .ns (nm 9) (.thunk 0 (.nominal (nm 3)) 12 2 (.a l) fun t => .force 0 t none .ret) fun
      | .n 0 => .ret (.n 100)
      | .n (k + 1) => .call 3 (.n k) .ret
      | .a l => .ret (.a l)
  | 2, .a l => .force 0 l none .ret
  | 3, .n k => .ret (.n (k + 1000))
  | _, _ => .ret (.n 0)

def wcode : FnId → WV → NProg WV
  | 1, .a l => .ns (nm 9) (.thunk (.nominal (nm 3)) 12 2 (.a l) fun t => .force t none .ret) fun
      | .n 0 => .ret (.n 100)
      | .n (k + 1) => .call 3 (.n k) .ret
      | .a l => .ret (.a l)
  | 2, .a l => .force l none .ret
  | 3, .n k => .ret (.n (k + 1000))
  | _, _ => .ret (.n 0)

def denv : Env DV := ⟨dcode, fun _ => 0, fun _ _ => 0⟩

theorem Rel.art {σ : Store DV} {l : Loc} {x : NArt WV} : Rel σ (.a l) (.a x) → ArtRel sig Rel σ l x := by
  intro h
  cases h with
  | cell h1 h2 h3 => exact ⟨⟨_, h1⟩, _, h2, h3⟩
  | thunk h1 h2 h3 => exact ⟨⟨_, _, h1⟩, _, h2, h3⟩

theorem Rel.mono {σ σ' : Store DV} (he : Ext σ σ') {v : DV} {w : WV} (h : Rel σ v w) : Rel σ' v w := by
  induction h with
  | n k => exact .n k
  | cell h1 h2 _ ih => exact .cell h1 (he _ _ h2) ih
  | thunk h1 h2 _ ih => exact .thunk h1 (he _ _ h2) ih

theorem sameText : SameText sig denv wcode Rel where
  mono := fun σ σ' he v w h => h.mono he
  code := by
    intro σ fn v w h
    have ret : ∀ σ' : Store DV, Ext σ σ' → ∀ v w, Rel σ' v w → ProgRel sig Rel σ' (Prog.ret v) (NProg.ret w) :=
      fun _ _ _ _ h => .ret h
    have forceRet : ∀ (σ : Store DV) l x, ArtRel sig Rel σ l x → ProgRel sig Rel σ (.force 0 l none .ret) (.force x none .ret) :=
      fun σ l x h => .force h fun _ _ _ _ h => .ret h
    match fn, v, w, h with
    | 1, .a l, .a x, h =>
      refine .ns (.thunk h fun σ' _ l a ha => forceRet _ _ _ ha) ?_
      intro σ' _ v w h
      match v, w, h with
      | .n 0, .n _, .n _ => exact .ret (.n _)
      | .n (k + 1), .n _, .n _ => exact .call (.n _) fun _ _ _ _ h => .ret h
      | .a l, .a x, h => exact .ret h
    | 2, .a l, .a x, h => exact forceRet _ _ _ h.art
    | 3, .n k, .n _, .n _ => exact .ret (.n _)
    | 0, _, _, _ => exact .ret (.n _)
    | 1, .n _, .n _, .n _ => exact .ret (.n _)
    | 2, .n _, .n _, .n _ => exact .ret (.n _)
    | 3, .a l, .a x, h => exact .ret (.n _)
    | n + 4, _, _, _ => exact .ret (.n _)

/-- Numbers are observable. -/
def dnum : DV → Option Nat | .n k => some k | .a _ => none
def wnum : WV → Option Nat | .n k => some k | .a _ => none

theorem num_eq : ∀ (σ : Store DV) v w, Rel σ v w → dnum v = wnum w := by
  intro σ v w h; cases h <;> rfl

/-- The editor's program text, for the two engines. -/
def build : Prog DV := .cell 0 (nm 0) (.n 5) fun c => .thunk 0 (.nominal (nm 2)) 11 1 (.a c) fun t => .force 0 t none .ret
def buildW : NProg WV := .cell (nm 0) (.n 5) fun c => .thunk (.nominal (nm 2)) 11 1 (.a c) fun t => .force t none .ret

theorem build_rel (σ : Store DV) : ProgRel sig Rel σ build buildW :=
  .cell (.n 5) fun σ' _ c x hc => .thunk (by
      cases x with
      | rc w => obtain ⟨⟨_, h1⟩, _, h2, h3⟩ := hc; exact .cell h1 h2 h3
      | force id pp fn w => obtain ⟨⟨_, _, h1⟩, _, h2, h3⟩ := hc; exact .thunk h1 h2 h3)
    fun σ'' _ t y ht => .force ht fun _ _ _ _ h => .ret h

/-- First theorem: an empty session, then `build`. -/
example : ∃ r, Ref.eval sig denv (Ref.recN sig denv 10) ⟨at_ 77, []⟩ false .empty build ⟨Ref.emptyES.cur, []⟩ = some (r, DV.n 1004) := ⟨_, rfl⟩

/-- Second theorem: build, demand, edit the cell to 8, demand the thunk again; the naive art is built with 8. -/
example : ∃ e e', Ref.session sig denv 10 [build, .set 0 (at_ 0) (.n 8) (.ret (.n 0))] Ref.emptyES = some (e, [.n 1004, .n 0]) ∧
    ArtRel sig Rel e.base (at_ 2) (.force (.nominal (nm 2)) 11 1 (.a (.rc (.n 8)))) ∧
    Ref.demand sig (Ref.recN sig denv 10) false 0 (at_ 2) e = some (e', .n 1007) :=
  ⟨_, _, rfl, ⟨⟨_, _, rfl⟩, .a (at_ 0), rfl, .cell rfl rfl (.n 8)⟩, rfl⟩

end NaiveExample
end Adapton
