import Verif.Engine.Equal
import Verif.Props.Consistency
/-
C60: the engine compares results, contents of cells and arguments of thunks with the user's `PartialEq` (`≈ᵤ`).  If that is an
equivalence which the user's functions respect (and hashing too, as the `Hash` trait demands), incremental results are right up
to it: each result is `==` to the result of the cache-free evaluation.
-/
set_option linter.unusedSectionVars false
set_option linter.unusedSimpArgs false
namespace Adapton
open Ref (Sig Kind Means Store RS ES Ctx)

namespace UserEq
variable {V : Type} [UEq V]

/-- The user's `==` is an equivalence (Rust's marker trait `Eq`, demanded by the engine: engine.rs:2338, 2397). -/
structure IsEquiv (V : Type) [UEq V] : Prop where
  refl : ∀ a : V, a ≈ᵤ a
  symm : ∀ {a b : V}, a ≈ᵤ b → b ≈ᵤ a
  trans : ∀ {a b c : V}, a ≈ᵤ b → b ≈ᵤ c → a ≈ᵤ c

/-- Two programs do the same when fed equal values: the same calls on the same locations and names, with equal values. -/
inductive PEq : Prog V → Prog V → Prop
  | ret {v w} : v ≈ᵤ w → PEq (.ret v) (.ret w)
  | force (ty l) {k k'} : (∀ v w, v ≈ᵤ w → PEq (k v) (k' w)) → PEq (.force ty l none k) (.force ty l none k')
  | forceCycle (ty l) {d d' k k'} : d ≈ᵤ d' → (∀ v w, v ≈ᵤ w → PEq (k v) (k' w)) →
      PEq (.force ty l (some d) k) (.force ty l (some d') k')
  | forceMap (ty l) {f g k k'} : (∀ v w, v ≈ᵤ w → f v ≈ᵤ g w) → (∀ v w, v ≈ᵤ w → PEq (k v) (k' w)) →
      PEq (.forceMap ty l f k) (.forceMap ty l g k')
  | forceAbs (ty l) {f g k k'} : (∀ v w, v ≈ᵤ w → f v ≈ᵤ g w) → (∀ v w, v ≈ᵤ w → PEq (k v) (k' w)) →
      PEq (.forceAbs ty l f k) (.forceAbs ty l g k')
  | cell (ty n) {v w k k'} : v ≈ᵤ w → (∀ l, PEq (k l) (k' l)) → PEq (.cell ty n v k) (.cell ty n w k')
  | thunk (ty nc pp fn) {v w k k'} : v ≈ᵤ w → (∀ l, PEq (k l) (k' l)) → PEq (.thunk ty nc pp fn v k) (.thunk ty nc pp fn w k')
  | set (ty l) {v w k k'} : v ≈ᵤ w → PEq k k' → PEq (.set ty l v k) (.set ty l w k')
  | ns (n) {b b' k k'} : PEq b b' → (∀ v w, v ≈ᵤ w → PEq (k v) (k' w)) → PEq (.ns n b k) (.ns n b' k')
  | structural {b b' k k'} : PEq b b' → (∀ v w, v ≈ᵤ w → PEq (k v) (k' w)) → PEq (.structural b k) (.structural b' k')
  | call (fn) {v w k k'} : v ≈ᵤ w → (∀ v w, v ≈ᵤ w → PEq (k v) (k' w)) → PEq (.call fn v k) (.call fn w k')
  | panic : PEq .panic .panic

/-- The user's code respects the user's equality: a closure given equal arguments does the same with equal values, and equal
values have equal hashes. -/
structure Respects (env : Env V) : Prop where
  code : ∀ fn v w, v ≈ᵤ w → PEq (env.code fn v) (env.code fn w)
  hashVal : ∀ v w, v ≈ᵤ w → env.hashVal v = env.hashVal w
  hashApp : ∀ pp v w, v ≈ᵤ w → env.hashApp pp v = env.hashApp pp w

/-- Two lists of results, equal one by one. -/
inductive AllEq : List V → List V → Prop
  | nil : AllEq [] []
  | cons {v w vs ws} : v ≈ᵤ w → AllEq vs ws → AllEq (v :: vs) (w :: ws)

end UserEq

/-! ### The reference semantics commutes with the map -/
namespace UserEq
section Sim
variable {V Q : Type} [UEq V] [UEq Q] {φ : V → Q} (hφ : ∀ a b : V, a ≈ᵤ b ↔ φ a ≈ᵤ φ b)

def mapStore (φ : V → Q) (σ : Store V) : Store Q := fun l => (σ l).map φ
def mapRS (φ : V → Q) (r : RS V) : RS Q := ⟨mapStore φ r.store, r.obs⟩
def mapES (φ : V → Q) (e : ES V) : ES Q := ⟨mapStore φ e.base, mapStore φ e.cur⟩

theorem mapStore_upd (σ : Store V) (l : Loc) (v : V) : mapStore φ (Ref.upd σ l v) = Ref.upd (mapStore φ σ) l (φ v) := by
  funext x
  unfold mapStore Ref.upd
  by_cases h : x = l
  · rw [if_pos h, if_pos h]; rfl
  · rw [if_neg h, if_neg h]

theorem alloc_map (hφ : ∀ a b : V, a ≈ᵤ b ↔ φ a ≈ᵤ φ b) (σ : Store V) (l : Loc) (v : V) :
    Ref.alloc (mapStore φ σ) l (φ v) = (Ref.alloc σ l v).map (mapStore φ) := by
  unfold Ref.alloc
  have hm : mapStore φ σ l = (σ l).map φ := rfl
  rw [hm]
  rcases σ l with _ | w
  · simp only [Option.map_none, Option.map_some, mapStore_upd]
  · simp only [Option.map_some]
    by_cases h : w ≈ᵤ v
    · rw [if_pos h, if_pos ((hφ w v).1 h)]; rfl
    · rw [if_neg h, if_neg fun h' => h ((hφ w v).2 h')]; rfl

theorem edit_map (hφ : ∀ a b : V, a ≈ᵤ b ↔ φ a ≈ᵤ φ b) (e : ES V) (l : Loc) (v : V) :
    Ref.edit (mapES φ e) l (φ v) = mapES φ (Ref.edit e l v) := by
  unfold Ref.edit mapES
  have hm : mapStore φ e.cur l = (e.cur l).map φ := rfl
  simp only [hm, mapStore_upd]
  rcases e.cur l with _ | w
  · simp only [Option.map_none, mapStore_upd]
  · simp only [Option.map_some]
    by_cases h : w ≈ᵤ v
    · rw [if_pos h, if_pos ((hφ w v).1 h), mapStore_upd]
    · rw [if_neg h, if_neg fun h' => h ((hφ w v).2 h'), mapStore_upd]

/-- Related meanings of forcing and calling. -/
structure RefR (φ : V → Q) (R : Ref.Rec V) (R' : Ref.Rec Q) : Prop where
  frc : ∀ anc σ l, R'.frc anc (mapStore φ σ) l = (R.frc anc σ l).map fun p => (mapStore φ p.1, φ p.2)
  call : ∀ c m π fn v r, R'.call c m π fn (φ v) (mapRS φ r) = (R.call c m π fn v r).map fun p => (mapRS φ p.1, φ p.2)

theorem observe_map (sig : Sig) {R : Ref.Rec V} {R' : Ref.Rec Q} (hR : RefR φ R R') (c : Ctx) (m : Bool) (ty : Ty) (l : Loc) (r : RS V) :
    Ref.observe sig R' c m ty l (mapRS φ r) = (Ref.observe sig R c m ty l r).map fun p => (mapRS φ p.1, φ p.2) := by
  unfold Ref.observe
  rcases sig.kind l with ty' | ⟨ty', pp, fn⟩ <;> simp only []
  · by_cases h : ty' = ty ∧ (l, true) ∉ r.obs ∧ Ref.MayUse sig c.self l
    · rw [if_pos h, if_pos (show ty' = ty ∧ (l, true) ∉ (mapRS φ r).obs ∧ Ref.MayUse sig c.self l from h)]
      have hm : (mapRS φ r).store l = (r.store l).map φ := rfl
      rw [hm]
      rcases r.store l with _ | w <;> rfl
    · rw [if_neg h, if_neg (show ¬ (ty' = ty ∧ (l, true) ∉ (mapRS φ r).obs ∧ Ref.MayUse sig c.self l) from h)]; rfl
  · by_cases h : ty' = ty ∧ l ∉ c.anc ∧ m = sig.mode ∧ Ref.MayUse sig c.self l
    · rw [if_pos h, if_pos h]
      have hm : (mapRS φ r).store = mapStore φ r.store := rfl
      rw [hm, hR.frc]
      rcases R.frc c.anc r.store l with _ | ⟨σ', v⟩ <;> rfl
    · rw [if_neg h, if_neg h]; rfl

theorem observeMap_map (sig : Sig) {R : Ref.Rec V} {R' : Ref.Rec Q} (hR : RefR φ R R') (c : Ctx) (m : Bool) (ty : Ty) (l : Loc)
    {f : V → V} {g : Q → Q} (hf : ∀ x, φ (f x) = g (φ x)) (r : RS V) :
    Ref.observeMap sig R' c m ty l g (mapRS φ r) = (Ref.observeMap sig R c m ty l f r).map fun p => (mapRS φ p.1, φ p.2) := by
  unfold Ref.observeMap
  rcases hk : sig.kind l with ty' | ⟨ty', pp, fn⟩ <;> simp only []
  · by_cases h : ty' = ty ∧ (l, true) ∉ r.obs ∧ Ref.MayUse sig c.self l
    · rw [if_pos h, if_pos (show ty' = ty ∧ (l, true) ∉ (mapRS φ r).obs ∧ Ref.MayUse sig c.self l from h)]
      have hm : (mapRS φ r).store l = (r.store l).map φ := rfl
      rw [hm]
      rcases r.store l with _ | w
      · rfl
      · simp only [Option.map_some, hf]; rfl
    · rw [if_neg h, if_neg (show ¬ (ty' = ty ∧ (l, true) ∉ (mapRS φ r).obs ∧ Ref.MayUse sig c.self l) from h)]; rfl
  · rw [observe_map sig hR]
    rcases Ref.observe sig R c m ty l r with _ | ⟨r', v⟩
    · rfl
    · simp only [Option.map_some, hf]

theorem cellLoc_map {env : Env V} {env' : Env Q} (he : EnvR φ env env') (m : Bool) (π : Path) (n : Name) (v : V) :
    Ref.cellLoc env' m π n (φ v) = Ref.cellLoc env m π n v := by
  unfold Ref.cellLoc; rw [← he.hashVal]

theorem thunkLoc_map {env : Env V} {env' : Env Q} (he : EnvR φ env env') (m : Bool) (π : Path) (nc : NameChoice) (pp : ProgPt) (v : V) :
    Ref.thunkLoc env' m π nc pp (φ v) = Ref.thunkLoc env m π nc pp v := by
  unfold Ref.thunkLoc; rw [← he.hashApp]

theorem eval_map (hφ : ∀ a b : V, a ≈ᵤ b ↔ φ a ≈ᵤ φ b) (sig : Sig) {env : Env V} {env' : Env Q} (he : EnvR φ env env')
    {R : Ref.Rec V} {R' : Ref.Rec Q} (hR : RefR φ R R') (c : Ctx) {p : Prog V} {q : Prog Q} (h : ProgR φ p q) :
    ∀ (m : Bool) (π : Path) (r : RS V),
      Ref.eval sig env' R' c m π q (mapRS φ r) = (Ref.eval sig env R c m π p r).map fun p => (mapRS φ p.1, φ p.2) := by
  induction h with
  | ret v => intro m π r; rfl
  | force ty l _ ih =>
    intro m π r
    simp only [Ref.eval, observe_map sig hR]
    rcases Ref.observe sig R c m ty l r with _ | ⟨r', v⟩
    · rfl
    · exact ih v m π r'
  | forceMap ty l hf _ ih =>
    intro m π r
    simp only [Ref.eval, observeMap_map sig hR c m ty l hf]
    rcases Ref.observeMap sig R c m ty l _ r with _ | ⟨r', v⟩
    · rfl
    · exact ih v m π r'
  | forceAbs ty l hf _ ih => intro m π r; rfl
  | cell ty n v _ ih =>
    intro m π r
    simp only [Ref.eval, cellLoc_map he]
    generalize Ref.cellLoc env m π n v = l
    by_cases h : sig.kind l = .cell ty ∧ Ref.MayUse sig c.self l
    · rw [if_pos h, if_pos h]
      have hm : (mapRS φ r).store = mapStore φ r.store := rfl
      rw [hm, alloc_map hφ]
      rcases Ref.alloc r.store l v with _ | σ'
      · rfl
      · exact ih l m π ⟨σ', r.obs⟩
    · rw [if_neg h, if_neg h]; rfl
  | thunk ty nc pp fn v _ ih =>
    intro m π r
    simp only [Ref.eval, thunkLoc_map he]
    rcases Ref.thunkLoc env m π nc pp v with _ | l
    · rfl
    · simp only []
      by_cases h : sig.kind l = .thunk ty pp fn ∧ l ≠ c.self ∧ Ref.MayUse sig c.self l
      · rw [if_pos h, if_pos h]
        have hm : (mapRS φ r).store = mapStore φ r.store := rfl
        rw [hm, alloc_map hφ]
        rcases Ref.alloc r.store l v with _ | σ'
        · rfl
        · exact ih l m π ⟨σ', r.obs⟩
      · rw [if_neg h, if_neg h]; rfl
  | set ty l v _ ih => intro m π r; rfl
  | ns n _ _ ihb ihk =>
    intro m π r
    simp only [Ref.eval, ihb]
    rcases Ref.eval sig env R c m (.child π n) _ r with _ | ⟨r', v⟩
    · rfl
    · exact ihk v m π r'
  | structural _ _ ihb ihk =>
    intro m π r
    simp only [Ref.eval, ihb]
    rcases Ref.eval sig env R c true π _ r with _ | ⟨r', v⟩
    · rfl
    · exact ihk v m π r'
  | call fn v _ ih =>
    intro m π r
    simp only [Ref.eval, hR.call]
    rcases R.call c m π fn v r with _ | ⟨r', v⟩
    · rfl
    · exact ih v m π r'
  | panic => intro m π r; rfl

theorem recN_map (hφ : ∀ a b : V, a ≈ᵤ b ↔ φ a ≈ᵤ φ b) (sig : Sig) {env : Env V} {env' : Env Q} (he : EnvR φ env env') (n : Nat) :
    RefR φ (Ref.recN sig env n) (Ref.recN sig env' n) := by
  induction n with
  | zero => exact ⟨fun _ _ _ => rfl, fun _ _ _ _ _ _ => rfl⟩
  | succ n ih =>
    refine ⟨fun anc σ l => ?_, fun c m π fn v r => eval_map hφ sig he ih c (he.code fn v) m π r⟩
    simp only [Ref.recN]
    have hm : mapStore φ σ l = (σ l).map φ := rfl
    rw [hm]
    rcases sig.kind l with ty | ⟨ty, pp, fn⟩
    · rfl
    · rcases σ l with _ | v
      · rfl
      · rcases sig.only l with _ | _
        · rfl
        simp only [Option.map_some]
        have := eval_map hφ sig he ih ⟨l, l :: anc⟩ (he.code fn v) sig.mode l.path ⟨σ, []⟩
        rw [show (⟨mapStore φ σ, []⟩ : RS Q) = mapRS φ ⟨σ, []⟩ from rfl, this]
        rcases Ref.eval sig env (Ref.recN sig env n) ⟨l, l :: anc⟩ sig.mode l.path (env.code fn v) ⟨σ, []⟩ with _ | ⟨r', v⟩ <;> rfl

theorem keepStruct_map (b σ : Store V) : Ref.keepStruct (mapStore φ b) (mapStore φ σ) = mapStore φ (Ref.keepStruct b σ) := by
  funext l
  simp only [Ref.keepStruct, mapStore]
  split <;> rfl

theorem mayEdit_map (hφ : ∀ a b : V, a ≈ᵤ b ↔ φ a ≈ᵤ φ b) (e : ES V) (l : Loc) (v : V) :
    Ref.mayEdit (mapES φ e) l (φ v) = Ref.mayEdit e l v := by
  unfold Ref.mayEdit
  have hm : (mapES φ e).cur l = (e.cur l).map φ := rfl
  rw [hm]
  rcases e.cur l with _ | w
  · rfl
  · simp only [Option.map_some, hφ]

theorem demand_map (sig : Sig) {R : Ref.Rec V} {R' : Ref.Rec Q} (hR : RefR φ R R') (m : Bool) (ty : Ty) (l : Loc) (e : ES V) :
    Ref.demand sig R' m ty l (mapES φ e) = (Ref.demand sig R m ty l e).map fun p => (mapES φ p.1, φ p.2) := by
  unfold Ref.demand
  rcases sig.kind l with ty' | ⟨ty', pp, fn⟩ <;> simp only []
  · by_cases h : ty' = ty
    · rw [if_pos h, if_pos h]
      have hm : (mapES φ e).cur l = (e.cur l).map φ := rfl
      rw [hm]
      rcases e.cur l with _ | w <;> rfl
    · rw [if_neg h, if_neg h]; rfl
  · by_cases h : ty' = ty ∧ m = sig.mode
    · rw [if_pos h, if_pos h]
      unfold Ref.editorForce
      have hm : (mapES φ e).cur = mapStore φ e.cur := rfl
      have hm' : (mapES φ e).base = mapStore φ e.base := rfl
      rw [hm, hm', hR.frc, hR.frc]
      rcases R.frc [] e.cur l with _ | ⟨σ', v⟩
      · simp only [Option.map_none]
        rcases R.frc [] e.base l with _ | ⟨σ', v⟩
        · rfl
        · simp only [Option.map_some, keepStruct_map]; rfl
      · simp only [Option.map_some, keepStruct_map]; rfl
    · rw [if_neg h, if_neg h]; rfl

theorem evalEd_map (hφ : ∀ a b : V, a ≈ᵤ b ↔ φ a ≈ᵤ φ b) (sig : Sig) {env : Env V} {env' : Env Q} (he : EnvR φ env env')
    {R : Ref.Rec V} {R' : Ref.Rec Q} (hR : RefR φ R R')
    {cE : Bool → Path → FnId → V → ES V → Option (ES V × V)} {cE' : Bool → Path → FnId → Q → ES Q → Option (ES Q × Q)}
    (hc : ∀ m π fn v e, cE' m π fn (φ v) (mapES φ e) = (cE m π fn v e).map fun p => (mapES φ p.1, φ p.2))
    {p : Prog V} {q : Prog Q} (h : ProgR φ p q) : ∀ (m : Bool) (π : Path) (e : ES V),
      Ref.evalEd sig env' R' cE' m π q (mapES φ e) = (Ref.evalEd sig env R cE m π p e).map fun p => (mapES φ p.1, φ p.2) := by
  induction h with
  | ret v => intro m π e; rfl
  | force ty l _ ih =>
    intro m π e
    simp only [Ref.evalEd, demand_map sig hR]
    rcases Ref.demand sig R m ty l e with _ | ⟨r', v⟩
    · rfl
    · exact ih v m π r'
  | forceMap ty l hf _ ih =>
    intro m π e
    simp only [Ref.evalEd, demand_map sig hR]
    rcases Ref.demand sig R m ty l e with _ | ⟨r', v⟩
    · rfl
    · simp only [Option.map_some, ← hf]; exact ih _ m π r'
  | forceAbs ty l hf _ ih =>
    intro m π e
    simp only [Ref.evalEd, demand_map sig hR]
    rcases Ref.demand sig R m ty l e with _ | ⟨r', v⟩
    · rfl
    · simp only [Option.map_some, ← hf]; exact ih _ m π r'
  | cell ty n v _ ih =>
    intro m π e
    simp only [Ref.evalEd, cellLoc_map he, mayEdit_map hφ]
    generalize Ref.cellLoc env m π n v = l
    by_cases h : sig.kind l = .cell ty ∧ Ref.mayEdit e l v
    · rw [if_pos h, if_pos h, edit_map hφ]; exact ih _ m π _
    · rw [if_neg h, if_neg h]; rfl
  | thunk ty nc pp fn v _ ih =>
    intro m π e
    simp only [Ref.evalEd, thunkLoc_map he]
    rcases Ref.thunkLoc env m π nc pp v with _ | l
    · rfl
    · simp only [mayEdit_map hφ]
      by_cases h : sig.kind l = .thunk ty pp fn ∧ Ref.mayEdit e l v
      · rw [if_pos h, if_pos h, edit_map hφ]; exact ih _ m π _
      · rw [if_neg h, if_neg h]; rfl
  | set ty l v _ ih =>
    intro m π e
    simp only [Ref.evalEd]
    have hm : (mapES φ e).cur l ≠ none ↔ e.cur l ≠ none := by
      show (e.cur l).map φ ≠ none ↔ _
      rcases e.cur l with _ | w <;> simp
    by_cases h : sig.kind l = .cell ty ∧ e.cur l ≠ none ∧ l.isStruct = false
    · rw [if_pos h, if_pos ⟨h.1, hm.2 h.2.1, h.2.2⟩, edit_map hφ]; exact ih m π _
    · rw [if_neg h, if_neg fun h' => h ⟨h'.1, hm.1 h'.2.1, h'.2.2⟩]; rfl
  | ns n _ _ ihb ihk =>
    intro m π e
    simp only [Ref.evalEd, ihb]
    rcases Ref.evalEd sig env R cE m (.child π n) _ e with _ | ⟨r', v⟩
    · rfl
    · exact ihk v m π r'
  | structural _ _ ihb ihk =>
    intro m π e
    simp only [Ref.evalEd, ihb]
    rcases Ref.evalEd sig env R cE true π _ e with _ | ⟨r', v⟩
    · rfl
    · exact ihk v m π r'
  | call fn v _ ih =>
    intro m π e
    simp only [Ref.evalEd, hc]
    rcases cE m π fn v e with _ | ⟨r', v⟩
    · rfl
    · exact ih v m π r'
  | panic => intro m π e; rfl

theorem callEN_map (hφ : ∀ a b : V, a ≈ᵤ b ↔ φ a ≈ᵤ φ b) (sig : Sig) {env : Env V} {env' : Env Q} (he : EnvR φ env env') (n : Nat) :
    ∀ m π fn v e, Ref.callEN sig env' n m π fn (φ v) (mapES φ e) = (Ref.callEN sig env n m π fn v e).map fun p => (mapES φ p.1, φ p.2) := by
  induction n with
  | zero => intro m π fn v e; rfl
  | succ n ih =>
    intro m π fn v e
    simp only [Ref.callEN]
    exact evalEd_map hφ sig he (recN_map hφ sig he n) ih (he.code fn v) m π e

theorem session_map (hφ : ∀ a b : V, a ≈ᵤ b ↔ φ a ≈ᵤ φ b) (sig : Sig) {env : Env V} {env' : Env Q} (he : EnvR φ env env') (n : Nat)
    {ps : List (Prog V)} {qs : List (Prog Q)} (h : L2 (ProgR φ) ps qs) :
    ∀ e, Ref.session sig env' n qs (mapES φ e) = (Ref.session sig env n ps e).map fun p => (mapES φ p.1, p.2.map φ) := by
  induction h with
  | nil => intro e; rfl
  | cons h _ ih =>
    intro e
    simp only [Ref.session, evalEd_map hφ sig he (recN_map hφ sig he n) (callEN_map hφ sig he n) h]
    rcases Ref.evalEd sig env (Ref.recN sig env n) (Ref.callEN sig env n) sig.mode .empty _ e with _ | ⟨e', v⟩
    · rfl
    · simp only [Option.map_some, ih]
      rcases Ref.session sig env n _ e' with _ | ⟨e'', vs⟩ <;> rfl

theorem Means_map (hφ : ∀ a b : V, a ≈ᵤ b ↔ φ a ≈ᵤ φ b) (sig : Sig) {env : Env V} {env' : Env Q} (he : EnvR φ env env')
    {ps : List (Prog V)} {qs : List (Prog Q)} (h : L2 (ProgR φ) ps qs) {vs : List V} (hm : Means sig env ps vs) :
    Means sig env' qs (vs.map φ) := by
  obtain ⟨n, e, hn⟩ := hm
  refine ⟨n, mapES φ e, ?_⟩
  have := session_map hφ sig he n h Ref.emptyES
  rw [hn] at this
  exact this
end Sim

/-! ### The quotient -/
section Quo
variable {V : Type} [UEq V]

@[reducible] def stoid (h : IsEquiv V) : Setoid V := ⟨UEq.eqv, h.refl, h.symm, h.trans⟩
abbrev Qt (h : IsEquiv V) : Type := Quotient (stoid h)
instance (h : IsEquiv V) : DecidableEq (Qt h) :=
  letI : ∀ a b : V, Decidable (HasEquiv.Equiv (self := @instHasEquivOfSetoid V (stoid h)) a b) := fun a b => UEq.dec a b
  letI := stoid h
  inferInstanceAs (DecidableEq (Quotient (stoid h)))

theorem qt_iff (h : IsEquiv V) (a b : V) : a ≈ᵤ b ↔ (Quotient.mk (stoid h) a) ≈ᵤ (Quotient.mk (stoid h) b) :=
  ⟨fun h' => Quotient.sound h', fun h' => Quotient.exact h'⟩

noncomputable def rep (h : IsEquiv V) (q : Qt h) : V := Classical.choose (Quotient.exists_rep q)
theorem rep_mk (h : IsEquiv V) (q : Qt h) : Quotient.mk (stoid h) (rep h q) = q := Classical.choose_spec (Quotient.exists_rep q)
theorem rep_eqv (h : IsEquiv V) (v : V) : v ≈ᵤ rep h (Quotient.mk (stoid h) v) :=
  h.symm (Quotient.exact (s := stoid h) (rep_mk h (Quotient.mk (stoid h) v)))

noncomputable def mapProg (h : IsEquiv V) : Prog V → Prog (Qt h)
  | .ret v => .ret (Quotient.mk _ v)
  | .force ty l cyc k => .force ty l (cyc.map (Quotient.mk _)) fun q => mapProg h (k (rep h q))
  | .forceMap ty l f k => .forceMap ty l (fun q => Quotient.mk _ (f (rep h q))) fun q => mapProg h (k (rep h q))
  | .forceAbs ty l f k => .forceAbs ty l (fun q => Quotient.mk _ (f (rep h q))) fun q => mapProg h (k (rep h q))
  | .cell ty n v k => .cell ty n (Quotient.mk _ v) fun l => mapProg h (k l)
  | .thunk ty nc pp fn v k => .thunk ty nc pp fn (Quotient.mk _ v) fun l => mapProg h (k l)
  | .set ty l v k => .set ty l (Quotient.mk _ v) (mapProg h k)
  | .ns n b k => .ns n (mapProg h b) fun q => mapProg h (k (rep h q))
  | .structural b k => .structural (mapProg h b) fun q => mapProg h (k (rep h q))
  | .call fn v k => .call fn (Quotient.mk _ v) fun q => mapProg h (k (rep h q))
  | .panic => .panic

theorem mapProg_rel (h : IsEquiv V) {p p' : Prog V} (hp : PEq p p') : ProgR (Quotient.mk (stoid h)) p (mapProg h p') := by
  induction hp with
  | ret hv =>
    unfold mapProg
    rw [← Quotient.sound (s := stoid h) hv]
    exact .ret _
  | force ty l _ ih => exact .force ty l fun v => ih _ _ (rep_eqv h v)
  | forceCycle ty l hd _ ih =>
    have := Quotient.sound (s := stoid h) hd
    unfold mapProg
    rw [show Option.map (Quotient.mk (stoid h)) (some _) = some (Quotient.mk (stoid h) _) from rfl, ← this]
    exact .force ty l (cyc := some _) fun v => ih _ _ (rep_eqv h v)
  | forceMap ty l hf _ ih => exact .forceMap ty l (fun x => Quotient.sound (hf _ _ (rep_eqv h x))) fun v => ih _ _ (rep_eqv h v)
  | forceAbs ty l hf _ ih => exact .forceAbs ty l (fun x => Quotient.sound (hf _ _ (rep_eqv h x))) fun v => ih _ _ (rep_eqv h v)
  | cell ty n hv _ ih =>
    unfold mapProg
    rw [← Quotient.sound (s := stoid h) hv]
    exact .cell ty n _ ih
  | thunk ty nc pp fn hv _ ih =>
    unfold mapProg
    rw [← Quotient.sound (s := stoid h) hv]
    exact .thunk ty nc pp fn _ ih
  | set ty l hv _ ih =>
    unfold mapProg
    rw [← Quotient.sound (s := stoid h) hv]
    exact .set ty l _ ih
  | ns n _ _ ihb ihk => exact .ns n ihb fun v => ihk _ _ (rep_eqv h v)
  | structural _ _ ihb ihk => exact .structural ihb fun v => ihk _ _ (rep_eqv h v)
  | call fn hv _ ih =>
    unfold mapProg
    rw [← Quotient.sound (s := stoid h) hv]
    exact .call fn _ fun v => ih _ _ (rep_eqv h v)
  | panic => exact .panic

noncomputable def mapEnv (h : IsEquiv V) (env : Env V) : Env (Qt h) :=
  ⟨fun fn q => mapProg h (env.code fn (rep h q)), fun q => env.hashVal (rep h q), fun pp q => env.hashApp pp (rep h q)⟩

theorem mapEnv_rel (h : IsEquiv V) {env : Env V} (he : Respects env) : EnvR (Quotient.mk (stoid h)) env (mapEnv h env) :=
  ⟨fun fn v => mapProg_rel h (he.code fn _ _ (rep_eqv h v)), fun v => he.hashVal _ _ (rep_eqv h v),
    fun pp v => he.hashApp pp _ _ (rep_eqv h v)⟩

theorem allEq_of (h : IsEquiv V) {vs : List V} : ∀ {ws : List V},
    L2 (Im (Quotient.mk (stoid h))) vs (ws.map (Quotient.mk (stoid h))) → AllEq vs ws := by
  induction vs with
  | nil =>
    intro ws hl
    cases ws with
    | nil => exact .nil
    | cons w ws => cases hl
  | cons v vs ih =>
    intro ws hl
    cases ws with
    | nil => cases hl
    | cons w ws =>
      cases hl with
      | cons h1 h2 => exact .cons (h.symm (Quotient.exact (s := stoid h) h1)) (ih h2)
end Quo

/-- **C60.** Right up to the user's equality.  Let the values have any `PartialEq` that is an equivalence, and let the user's
closures, maps and hash functions respect it.  Then for every editor session to which the cache-free reference semantics gives
the results `vs`, the incremental engine, which compares with the user's `==` wherever it decides to reuse, returns normally
given enough recursion depth, never panics, and every result it returns is `==` to the corresponding result in `vs`. -/
theorem C60_right_up_to_equality {V : Type} [UEq V] (hq : IsEquiv V) (sig : Sig) (env : Env V) (ps : List (Prog V)) (vs : List V)
    (he : Respects env) (hps : ∀ p ∈ ps, PEq p p) (hm : Means sig env ps vs) (purity : Bool)
    (hp : purity = true → sig.pu = true) :
    (∃ N vs' s', AllEq vs' vs ∧ ∀ n, N ≤ n → runSession env n ps (initSt purity sig.mode) = .ok vs' s') ∧
    (∀ n err s', runSession env n ps (initSt purity sig.mode) ≠ .panic err s') ∧
    (∀ n vs' s', runSession env n ps (initSt purity sig.mode) = .ok vs' s' → AllEq vs' vs) := by
  have hE := mapEnv_rel hq he
  have hP : L2 (ProgR (Quotient.mk (stoid hq))) ps (ps.map (mapProg hq)) := by
    clear hm
    induction ps with
    | nil => exact .nil
    | cons p ps ih =>
      exact .cons (mapProg_rel hq (hps p (List.mem_cons_self ..))) (ih fun p hp => hps p (List.mem_cons_of_mem _ hp))
  have hM := Means_map (qt_iff hq) sig hE hP hm
  have hrel := fun n => runSession_rel (qt_iff hq) hE n hP _ _ (initSt_rel (φ := Quotient.mk (stoid hq)) purity sig.mode)
  obtain ⟨⟨N, t', hN⟩, hnp⟩ := C02_terminates_without_panic sig (mapEnv hq env) _ _ hM purity hp
  have hok : ∀ n vs' s', runSession env n ps (initSt purity sig.mode) = .ok vs' s' → AllEq vs' vs := by
    intro n vs' s' hr
    have h1 := hrel n
    rw [hr] at h1
    generalize hr' : runSession (mapEnv hq env) n (ps.map (mapProg hq)) (initSt purity sig.mode) = o at h1
    cases h1 with
    | ok ha hs =>
      have := C01_from_scratch_consistency sig (mapEnv hq env) _ _ hM purity hp n _ _ hr'
      rw [this] at ha
      exact allEq_of hq ha
  refine ⟨?_, ?_, hok⟩
  · have h1 := hrel N
    rw [hN N (Nat.le_refl N)] at h1
    generalize hr : runSession env N ps (initSt purity sig.mode) = o at h1
    cases h1 with
    | @ok vs' _ s' _ _ _ =>
      refine ⟨N, vs', s', hok _ _ _ hr, fun n hn => ?_⟩
      rw [runSession_mono env hn ps (initSt purity sig.mode) (by rw [hr]; simp), hr]
  · intro n err s' hpn
    have h1 := hrel n
    rw [hpn] at h1
    generalize hr' : runSession (mapEnv hq env) n (ps.map (mapProg hq)) (initSt purity sig.mode) = o at h1
    cases h1 with
    | panic hs => exact hnp _ _ _ hr'

/-- Derived equality is an equivalence, everything respects it, and equal lists are the same list: C01 is the special case. -/
theorem allEq_derived {V : Type} [DecidableEq V] {vs ws : List V} : AllEq vs ws ↔ vs = ws := by
  constructor
  · intro h
    induction h with
    | nil => rfl
    | cons h _ ih => rw [ih, show _ = _ from h]
  · rintro rfl
    induction vs with
    | nil => exact .nil
    | cons v vs ih => exact .cons rfl ih

/-! ### The bound is sharp: an equal edit is dropped -/
section Sharp
variable {V : Type} [UEq V]
def snm (n : Nat) : Name := ⟨0, .usize n⟩
def sat_ (n : Nat) : Loc := ⟨.empty, .nominal (snm n)⟩

/-- **C60.** An edit that the user's equality does not see is dropped: the cell keeps its old content, and a thunk that returns it
keeps returning the old one.  So results are right *only* up to the user's equality.  For every equality, and all `a == b`. -/
theorem C60_equal_edit_is_dropped (a b x : V) (hab : a ≈ᵤ b) (hv : V → UInt64) (ha : ProgPt → V → UInt64) (purity : Bool) (n : Nat) :
    ∃ s, runSession ⟨fun _ _ => .force 0 (sat_ 0) none .ret, hv, ha⟩ (n + 5)
      [.cell 0 (snm 0) a fun _ => .thunk 0 (.nominal (snm 1)) 1 1 x fun l => .force 0 l none .ret,
       .set 0 (sat_ 0) b (.force 0 (sat_ 1) none .ret), .force 0 (sat_ 0) none .ret] (initSt purity false) = .ok [a, a, a] s := by
  simp [hab, runSession, exec, runProg, opCell, opForce, opThunk, thunkNominal, thunkStructural, cellTable, cellRecord,
    M.bind_def, M.pure_def, M.modify_def, M.get_def, M.panic_def, evBegin, evEnd, evEff, recordEdge, putNode, Table.get, Table.put, resNode,
    lookupAbs, opForceMap, opForceAbs, produceBody, revokeSuccs, removePred, installPreds, installPred, Node.predsInsert, Node.predsRemove,
    Node.ty, initSt, topLoc, opSet, setCell, dirtyAlloc, dirtyPredsTop, dirtyPreds, dirtyLoop, dirtyObserver, dirtyStop, checkForceMapDep,
    Node.predsObs, Node.predsAlloc, cleanForceBody, cleanLoop, cleanDep, succDirty, setSuccDirty, Succ.matches, setFirst, step, recN,
    tableClean, cleanCount, Node.succsList, dirtyAllocLoop, dirtyAllocator, sat_, snm]
end Sharp

/-! ### A session that meets the hypotheses: numbers compared by parity -/
namespace Parity

structure Num where
  n : Nat

instance : UEq Num := ⟨fun a b => a.n % 2 = b.n % 2, fun a b => inferInstanceAs (Decidable (a.n % 2 = b.n % 2))⟩
theorem eqv_iff (a b : Num) : a ≈ᵤ b ↔ a.n % 2 = b.n % 2 := Iff.rfl

theorem isEquiv : IsEquiv Num := ⟨fun _ => rfl, fun h => Eq.symm h, fun h h' => Eq.trans h h'⟩

/-- Closure 1 reads the cell, closure 2 forces closure 1's thunk and adds its argument. -/
def code : FnId → Num → Prog Num
  | 1, _ => .force 0 (sat_ 0) none fun x => .ret ⟨3 * x.n⟩
  | 2, a => .thunk 0 (.nominal (snm 2)) 8 1 ⟨0⟩ fun l => .force 0 l none fun y => .ret ⟨y.n + a.n⟩
  | _, _ => .panic

def env : Env Num := ⟨code, fun v => if v.n % 2 = 0 then 17 else 4, fun _ _ => 5⟩

theorem respects : Respects env := by
  refine ⟨fun fn v w h => ?_, fun v w h => ?_, fun _ _ _ _ => rfl⟩
  · rw [eqv_iff] at h
    show PEq (code fn v) (code fn w)
    unfold code
    split
    · exact .force _ _ fun v w h => .ret (by rw [eqv_iff] at *; simp only []; omega)
    · refine .thunk _ _ _ _ rfl fun l => .force _ _ fun v w h => .ret (by rw [eqv_iff] at *; simp only []; omega)
    · exact .panic
  · rw [eqv_iff] at h
    show (if v.n % 2 = 0 then _ else _) = if w.n % 2 = 0 then _ else _
    rw [h]

def ps : List (Prog Num) :=
  [ .cell 0 (snm 0) ⟨1⟩ fun _ => .thunk 0 (.nominal (snm 1)) 9 2 ⟨10⟩ fun l => .force 0 l none .ret,
    .set 0 (sat_ 0) ⟨5⟩ (.force 0 (sat_ 1) none .ret),
    .set 0 (sat_ 0) ⟨6⟩ (.force 0 (sat_ 1) none .ret) ]

theorem ps_respect : ∀ p ∈ ps, PEq p p := by
  intro p hp
  simp only [ps, List.mem_cons, List.not_mem_nil, or_false] at hp
  rcases hp with rfl | rfl | rfl
  · exact .cell _ _ rfl fun l => .thunk _ _ _ _ rfl fun l => .force _ _ fun v w h => .ret h
  · exact .set _ _ rfl (.force _ _ fun v w h => .ret h)
  · exact .set _ _ rfl (.force _ _ fun v w h => .ret h)

def sig : Sig := { kind := fun l => if l = sat_ 1 then .thunk 0 9 2 else if l = sat_ 2 then .thunk 0 8 1 else .cell 0 }

/-- The reference: 13, then 25, then 28. -/
theorem means : Means sig env ps [⟨13⟩, ⟨25⟩, ⟨28⟩] := ⟨10, _, rfl⟩

/-- The engine returns 13, 13, 28: equal up to parity, as C60 says. -/
example : (match runSession env 20 ps (initSt true false) with
    | .ok vs _ => vs.map (·.n)
    | _ => []) = [13, 13, 28] := by decide +kernel
example := C60_right_up_to_equality isEquiv sig env ps _ respects ps_respect means true fun _ => rfl
end Parity
end UserEq
end Adapton
