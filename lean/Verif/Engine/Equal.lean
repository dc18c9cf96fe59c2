import Verif.Engine.Model
/-
The engine uses values only by comparing them: running the same program over two types of values that are related by a map which
preserves and reflects the user's equality gives related outcomes.  Used for C60.
-/
set_option linter.unusedSectionVars false
set_option linter.unusedVariables false
namespace Adapton
variable {V Q : Type}

/-- Two lists of the same length, related element by element. -/
inductive L2 {α β : Type} (R : α → β → Prop) : List α → List β → Prop
  | nil : L2 R [] []
  | cons {a b as bs} : R a b → L2 R as bs → L2 R (a :: as) (b :: bs)

/-- Both absent, or both present and related. -/
inductive O2 {α β : Type} (R : α → β → Prop) : Option α → Option β → Prop
  | none : O2 R none none
  | some {a b} : R a b → O2 R (some a) (some b)

section L2
variable {α β γ δ : Type} {R : α → β → Prop} {S : γ → δ → Prop}
theorem L2.append {as bs as' bs'} (h : L2 R as bs) (h' : L2 R as' bs') : L2 R (as ++ as') (bs ++ bs') := by
  induction h with
  | nil => exact h'
  | cons h _ ih => exact .cons h ih
theorem L2.snoc {as bs a b} (h : L2 R as bs) (h' : R a b) : L2 R (as ++ [a]) (bs ++ [b]) := h.append (.cons h' .nil)
theorem L2.map {as bs} {f : α → γ} {g : β → δ} (h : L2 R as bs) (hf : ∀ a b, R a b → S (f a) (g b)) : L2 S (as.map f) (bs.map g) := by
  induction h with
  | nil => exact .nil
  | cons h _ ih => exact .cons (hf _ _ h) ih
theorem L2.filterMap {as bs} {f : α → Option γ} {g : β → Option δ} (h : L2 R as bs) (hf : ∀ a b, R a b → O2 S (f a) (g b)) :
    L2 S (as.filterMap f) (bs.filterMap g) := by
  induction h with
  | nil => exact .nil
  | @cons a b as bs h _ ih =>
    have := hf _ _ h
    rcases h1 : f a with _ | x <;> rcases h2 : g b with _ | y <;> rw [h1, h2] at this
    · rw [List.filterMap_cons_none h1, List.filterMap_cons_none h2]; exact ih
    · cases this
    · cases this
    · rw [List.filterMap_cons_some h1, List.filterMap_cons_some h2]
      cases this with
      | some h => exact .cons h ih
theorem L2.filter {as bs} {f : α → Bool} {g : β → Bool} (h : L2 R as bs) (hf : ∀ a b, R a b → f a = g b) :
    L2 R (as.filter f) (bs.filter g) := by
  induction h with
  | nil => exact .nil
  | @cons a b as bs h _ ih =>
    rw [List.filter_cons, List.filter_cons, hf _ _ h]
    split
    · exact .cons h ih
    · exact ih
theorem L2.find {as bs} {f : α → Bool} {g : β → Bool} (h : L2 R as bs) (hf : ∀ a b, R a b → f a = g b) :
    O2 R (as.find? f) (bs.find? g) := by
  induction h with
  | nil => exact .none
  | @cons a b as bs h _ ih =>
    rw [List.find?_cons, List.find?_cons, hf _ _ h]
    cases g b
    · exact ih
    · exact .some h
theorem L2.any {as bs} {f : α → Bool} {g : β → Bool} (h : L2 R as bs) (hf : ∀ a b, R a b → f a = g b) : as.any f = bs.any g := by
  induction h with
  | nil => rfl
  | cons h _ ih => rw [List.any_cons, List.any_cons, ih, hf _ _ h]
theorem L2.length {as bs} (h : L2 R as bs) : as.length = bs.length := by
  induction h with
  | nil => rfl
  | cons h _ ih => rw [List.length_cons, List.length_cons, ih]
theorem L2.isEmpty {as bs} (h : L2 R as bs) : as.isEmpty = bs.isEmpty := by
  cases h <;> rfl
theorem L2.eq {as bs : List α} (h : L2 Eq as bs) : as = bs := by
  induction h with
  | nil => rfl
  | cons h _ ih => rw [h, ih]
end L2

/-! ### Related states -/
variable (φ : V → Q)

inductive DepR : Dep V → Dep Q → Prop
  | allocStruct : DepR .allocStruct .allocStruct
  | allocNom (v) : DepR (.allocNom v) (.allocNom (φ v))
  | allocCell (v) : DepR (.allocCell v) (.allocCell (φ v))
  | force (ty v) : DepR (.force ty v) (.force ty (φ v))
  | forceMap (ty f g v) : (∀ x, φ (f x) = g (φ x)) → DepR (.forceMap ty f v) (.forceMap ty g (φ v))
  | forceAbs : DepR .forceAbs .forceAbs

inductive SuccR : Succ V → Succ Q → Prop
  | mk {d l e x y} : DepR φ x y → SuccR ⟨d, l, e, x⟩ ⟨d, l, e, y⟩

inductive PredR : Pred V → Pred Q → Prop
  | mk {l e x y} : O2 (DepR φ) x y → PredR ⟨l, e, x⟩ ⟨l, e, y⟩

inductive NodeR : Node V → Node Q → Prop
  | comp {ty ps ps' ss ss' pp fn arg res} : L2 (PredR φ) ps ps' → L2 (SuccR φ) ss ss' →
      NodeR (.comp ⟨ty, ps, ss, pp, fn, arg, res⟩) (.comp ⟨ty, ps', ss', pp, fn, φ arg, res.map φ⟩)
  | pure {ty v} : NodeR (.pure ⟨ty, v⟩) (.pure ⟨ty, φ v⟩)
  | mut {ty ps ps' v} : L2 (PredR φ) ps ps' → NodeR (.mut ⟨ty, ps, v⟩) (.mut ⟨ty, ps', φ v⟩)

abbrev EdgeR : (Succ V × Option (Dep V)) → (Succ Q × Option (Dep Q)) → Prop := fun a b => SuccR φ a.1 b.1 ∧ O2 (DepR φ) a.2 b.2
inductive FrameR : Frame V → Frame Q → Prop
  | mk {l es es'} : L2 (EdgeR φ) es es' → FrameR ⟨l, es⟩ ⟨l, es'⟩

abbrev EntryR : (Loc × Node V) → (Loc × Node Q) → Prop := fun a b => a.1 = b.1 ∧ NodeR φ a.2 b.2

structure StR (s : St V) (t : St Q) : Prop where
  table : L2 (EntryR φ) s.table t.table
  stack : L2 (FrameR φ) s.stack t.stack
  path : s.path = t.path
  purity : s.purity = t.purity
  ign : s.ignoreNominal = t.ignoreNominal
  log : s.log = t.log
  runs : s.runs = t.runs

/-- Related outcomes: both return, related values; the same panic; or both exceed the recursion depth. -/
inductive OutR {α β : Type} (A : α → β → Prop) : Out V α → Out Q β → Prop
  | ok {a b s t} : A a b → StR φ s t → OutR A (.ok a s) (.ok b t)
  | panic {e s t} : StR φ s t → OutR A (.panic e s) (.panic e t)
  | oof : OutR A .oof .oof

def MR {α β : Type} (A : α → β → Prop) (m : M V α) (m' : M Q β) : Prop := ∀ s t, StR φ s t → OutR φ A (m s) (m' t)

/-- Related programs: the same calls, with corresponding values. -/
inductive ProgR : Prog V → Prog Q → Prop
  | ret (v) : ProgR (.ret v) (.ret (φ v))
  | force (ty l) {cyc k k'} : (∀ v, ProgR (k v) (k' (φ v))) → ProgR (.force ty l cyc k) (.force ty l (cyc.map φ) k')
  | forceMap (ty l) {f g k k'} : (∀ x, φ (f x) = g (φ x)) → (∀ v, ProgR (k v) (k' (φ v))) →
      ProgR (.forceMap ty l f k) (.forceMap ty l g k')
  | forceAbs (ty l) {f g k k'} : (∀ x, φ (f x) = g (φ x)) → (∀ v, ProgR (k v) (k' (φ v))) →
      ProgR (.forceAbs ty l f k) (.forceAbs ty l g k')
  | cell (ty n v) {k k'} : (∀ l, ProgR (k l) (k' l)) → ProgR (.cell ty n v k) (.cell ty n (φ v) k')
  | thunk (ty nc pp fn v) {k k'} : (∀ l, ProgR (k l) (k' l)) → ProgR (.thunk ty nc pp fn v k) (.thunk ty nc pp fn (φ v) k')
  | set (ty l v) {k k'} : ProgR k k' → ProgR (.set ty l v k) (.set ty l (φ v) k')
  | ns (n) {b b' k k'} : ProgR b b' → (∀ v, ProgR (k v) (k' (φ v))) → ProgR (.ns n b k) (.ns n b' k')
  | structural {b b' k k'} : ProgR b b' → (∀ v, ProgR (k v) (k' (φ v))) → ProgR (.structural b k) (.structural b' k')
  | call (fn v) {k k'} : (∀ v, ProgR (k v) (k' (φ v))) → ProgR (.call fn v k) (.call fn (φ v) k')
  | panic : ProgR .panic .panic

/-- Related environments: the same closures, up to the map; the hash functions agree. -/
structure EnvR (env : Env V) (env' : Env Q) : Prop where
  code : ∀ fn v, ProgR φ (env.code fn v) (env'.code fn (φ v))
  hashVal : ∀ v, env.hashVal v = env'.hashVal (φ v)
  hashApp : ∀ pp v, env.hashApp pp v = env'.hashApp pp (φ v)

variable {φ}
variable {α β γ δ : Type} {A : α → β → Prop} {B : γ → δ → Prop}

/-- Values that correspond. -/
abbrev Im (φ : V → Q) : V → Q → Prop := fun v q => q = φ v

/-! ### Rules -/

theorem MR.pure {a : α} {b : β} (h : A a b) : MR φ A (Pure.pure a) (Pure.pure b) := fun _ _ hs => .ok h hs
theorem MR.panic (e : Err) : MR φ A (M.panic e) (M.panic e) := fun _ _ hs => .panic hs
theorem MR.bind {m : M V α} {m' : M Q β} {k : α → M V γ} {k' : β → M Q δ} (h : MR φ A m m') (hk : ∀ a b, A a b → MR φ B (k a) (k' b)) :
    MR φ B (m >>= k) (m' >>= k') := by
  intro s t hs
  have := h s t hs
  show OutR φ B (M.bind m k s) (M.bind m' k' t)
  unfold M.bind
  rcases h1 : m s with ⟨a, s1⟩ | ⟨e, s1⟩ | _ <;> rcases h2 : m' t with ⟨b, t1⟩ | ⟨e', t1⟩ | _ <;> rw [h1, h2] at this <;> cases this
  · rename_i ha hs; exact hk _ _ ha _ _ hs
  · rename_i hs; exact .panic hs
  · exact .oof
theorem MR.modify {f : St V → St V} {g : St Q → St Q} (h : ∀ s t, StR φ s t → StR φ (f s) (g t)) :
    MR φ (fun _ _ => True) (M.modify f) (M.modify g) := fun s t hs => .ok trivial (h s t hs)
theorem MR.get : MR φ (StR φ) M.get M.get := fun _ _ hs => .ok hs hs
/-- Reading the state keeps it. -/
theorem MR.getBind {k : St V → M V γ} {k' : St Q → M Q δ} (h : ∀ s t, StR φ s t → OutR φ B (k s s) (k' t t)) :
    MR φ B (M.get >>= k) (M.get >>= k') := fun s t hs => h s t hs
theorem MR.ite {P P' : Prop} [Decidable P] [Decidable P'] (hp : P ↔ P') {m₁ m₂ : M V α} {n₁ n₂ : M Q β} (h1 : P → MR φ A m₁ n₁)
    (h2 : ¬ P → MR φ A m₂ n₂) : MR φ A (if P then m₁ else m₂) (if P' then n₁ else n₂) := by
  by_cases h : P
  · rw [if_pos h, if_pos (hp.1 h)]; exact h1 h
  · rw [if_neg h, if_neg fun h' => h (hp.2 h')]; exact h2 h

/-! ### Tables -/

theorem get_rel {s : Table V} {t : Table Q} (h : L2 (EntryR φ) s t) (l : Loc) : O2 (NodeR φ) (s.get l) (t.get l) := by
  induction h with
  | nil => exact .none
  | @cons a b _ _ h _ ih =>
    obtain ⟨k, n⟩ := a
    obtain ⟨k', n'⟩ := b
    obtain ⟨rfl, h⟩ := h
    unfold Table.get
    by_cases hk : k = l
    · rw [if_pos hk, if_pos hk]; exact .some h
    · rw [if_neg hk, if_neg hk]; exact ih

theorem put_rel {s : Table V} {t : Table Q} (h : L2 (EntryR φ) s t) (l : Loc) {n : Node V} {n' : Node Q} (hn : NodeR φ n n') :
    L2 (EntryR φ) (s.put l n) (t.put l n') := by
  induction h with
  | nil => exact .cons ⟨rfl, hn⟩ .nil
  | @cons a b _ _ h hr ih =>
    obtain ⟨k, m⟩ := a
    obtain ⟨k', m'⟩ := b
    obtain ⟨rfl, h⟩ := h
    unfold Table.put
    by_cases hk : k = l
    · rw [if_pos hk, if_pos hk]; exact .cons ⟨rfl, hn⟩ hr
    · rw [if_neg hk, if_neg hk]; exact .cons ⟨rfl, h⟩ ih

theorem NodeR.ty {n : Node V} {n' : Node Q} (h : NodeR φ n n') : n.ty = n'.ty := by cases h <;> rfl

theorem lookupAbs_rel (l : Loc) : MR φ (NodeR φ) (lookupAbs l) (lookupAbs l) := by
  intro s t hs
  have := get_rel hs.table l
  unfold lookupAbs
  rcases h1 : s.table.get l with _ | n <;> rcases h2 : t.table.get l with _ | n' <;> rw [h1, h2] at this <;> cases this
  · exact .panic hs
  · rename_i h; exact .ok h hs

theorem resNode_rel (ty : Ty) (l : Loc) : MR φ (NodeR φ) (resNode ty l) (resNode ty l) := by
  unfold resNode
  refine (lookupAbs_rel l).bind fun n n' h => ?_
  exact .ite (by rw [h.ty]) (fun _ => .pure h) fun _ => .panic _

theorem putNode_rel (l : Loc) {n : Node V} {n' : Node Q} (h : NodeR φ n n') : MR φ (fun _ _ => True) (putNode l n) (putNode l n') :=
  .modify fun s t hs => { hs with table := put_rel hs.table l h }

theorem evBegin_rel (e : TEff) (src : Option Loc) (l : Loc) : MR φ (fun _ _ => True) (evBegin e src l) (evBegin e src l) :=
  .modify fun s t hs => { hs with log := by rw [hs.log] }
theorem evEnd_rel : MR φ (fun _ _ => True) evEnd evEnd := .modify fun s t hs => { hs with log := by rw [hs.log] }
theorem evEff_rel (e : TEff) (src : Option Loc) (l : Loc) : MR φ (fun _ _ => True) (evEff e src l) (evEff e src l) :=
  .modify fun s t hs => { hs with log := by rw [hs.log] }

theorem topLoc_rel {s : St V} {t : St Q} (h : StR φ s t) : topLoc s = topLoc t := by
  have := h.stack
  unfold topLoc
  rcases h1 : s.stack with _ | ⟨fr, K⟩ <;> rcases h2 : t.stack with _ | ⟨fr', K'⟩ <;> rw [h1, h2] at this <;> cases this
  · rfl
  · rename_i h _; cases h; rfl

/-! ### Nodes and edges -/

theorem predsAlloc_rel {n : Node V} {n' : Node Q} (h : NodeR φ n n') : n.predsAlloc = n'.predsAlloc := by
  have aux : ∀ {ps : List (Pred V)} {ps' : List (Pred Q)}, L2 (PredR φ) ps ps' →
      (ps.filterMap fun p => if p.effect = .allocate then some p.loc else none) =
      (ps'.filterMap fun p => if p.effect = .allocate then some p.loc else none) := by
    intro ps ps' h
    refine (h.filterMap (S := Eq) ?_).eq
    rintro _ _ ⟨h⟩
    simp only
    split
    · exact .some rfl
    · exact .none
  cases h with
  | comp h _ => simp only [Node.predsAlloc, aux h]
  | pure => rfl
  | «mut» h => simp only [Node.predsAlloc, aux h]

theorem predsObs_rel {n : Node V} {n' : Node Q} (h : NodeR φ n n') :
    O2 (L2 (fun a b => a.1 = b.1 ∧ O2 (DepR φ) a.2 b.2)) n.predsObs n'.predsObs := by
  cases h with
  | comp h _ =>
    refine .some (h.filterMap ?_)
    rintro _ _ ⟨h⟩
    simp only
    split
    · exact .some ⟨rfl, .none⟩
    · exact .none
  | pure => exact .none
  | «mut» h =>
    refine .some (h.filterMap ?_)
    rintro _ _ ⟨h⟩
    simp only
    split
    · exact .some ⟨rfl, h⟩
    · exact .none

theorem predsInsert_rel {n : Node V} {n' : Node Q} (h : NodeR φ n n') (e : Effect) (l : Loc) {d : Option (Dep V)} {d' : Option (Dep Q)}
    (hd : O2 (DepR φ) d d') : O2 (NodeR φ) (n.predsInsert e l d) (n'.predsInsert e l d') := by
  cases h with
  | comp h h' => exact .some (.comp (h.snoc ⟨hd⟩) h')
  | pure => exact .none
  | «mut» h => exact .some (.mut (h.snoc ⟨hd⟩))

theorem predsRemove_rel {n : Node V} {n' : Node Q} (h : NodeR φ n n') (l : Loc) : O2 (NodeR φ) (n.predsRemove l) (n'.predsRemove l) := by
  have hf : ∀ (a : Pred V) (b : Pred Q), PredR φ a b → decide (a.loc ≠ l) = decide (b.loc ≠ l) := by rintro _ _ ⟨_⟩; rfl
  cases h with
  | comp h h' => exact .some (.comp (h.filter hf) h')
  | pure => exact .none
  | «mut» h => exact .some (.mut (h.filter hf))

theorem matches_rel (eff : Effect) (x : Loc) (a : Succ V) (b : Succ Q) (h : SuccR φ a b) :
    Succ.matches eff x a = Succ.matches eff x b := by cases h; rfl

theorem setFirst_rel (eff : Effect) (x : Loc) (b : Bool) {es : List (Succ V)} {es' : List (Succ Q)} (h : L2 (SuccR φ) es es') :
    L2 (SuccR φ) (setFirst eff x b es) (setFirst eff x b es') := by
  induction h with
  | nil => exact .nil
  | cons h hr ih =>
    unfold setFirst
    rw [matches_rel eff x _ _ h]
    split
    · cases h with | mk h => exact .cons (.mk h) hr
    · exact .cons h ih

theorem succDirty_rel (src : Loc) (eff : Effect) (tgt : Loc) : MR φ Eq (succDirty src eff tgt) (succDirty src eff tgt) := by
  unfold succDirty
  refine (lookupAbs_rel src).bind fun n n' h => ?_
  cases h with
  | comp _ h =>
    simp only []
    have := h.find (matches_rel eff tgt)
    revert this
    generalize List.find? (Succ.matches eff tgt) _ = o
    generalize List.find? (Succ.matches eff tgt) _ = o'
    intro h
    cases h with
    | none => exact .panic _
    | some h => cases h; exact .pure rfl
  | pure => exact .panic _
  | «mut» => exact .panic _

theorem setSuccDirty_rel (src : Loc) (eff : Effect) (tgt : Loc) (b : Bool) :
    MR φ (fun _ _ => True) (setSuccDirty src eff tgt b) (setSuccDirty src eff tgt b) := by
  unfold setSuccDirty
  refine (lookupAbs_rel src).bind fun n n' h => ?_
  cases h with
  | comp h0 h =>
    simp only []
    have := h.find (matches_rel eff tgt)
    revert this
    generalize List.find? (Succ.matches eff tgt) _ = o
    generalize List.find? (Succ.matches eff tgt) _ = o'
    intro h'
    cases h' with
    | none => exact .panic _
    | some _ => exact putNode_rel _ (.comp h0 (setFirst_rel _ _ _ h))
  | pure => exact .panic _
  | «mut» => exact .panic _

theorem removePred_rel (src tgt : Loc) : MR φ (fun _ _ => True) (removePred src tgt) (removePred src tgt) := by
  unfold removePred
  refine (evEff_rel _ _ _).bind fun _ _ _ => (lookupAbs_rel tgt).bind fun n n' h => ?_
  have := predsRemove_rel h src
  revert this
  generalize n.predsRemove src = o
  generalize n'.predsRemove src = o'
  intro h
  cases h with
  | none => exact .panic _
  | some h => exact putNode_rel _ h

theorem revokeSuccs_rel (src : Loc) {es : List (Succ V)} {es' : List (Succ Q)} (h : L2 (SuccR φ) es es') :
    MR φ (fun _ _ => True) (revokeSuccs src es) (revokeSuccs src es') := by
  induction h with
  | nil => exact .pure trivial
  | cons h _ ih =>
    unfold revokeSuccs
    cases h
    exact (removePred_rel _ _).bind fun _ _ _ => ih

theorem recordEdge_rel {e : Succ V} {e' : Succ Q} (h : SuccR φ e e') {d : Option (Dep V)} {d' : Option (Dep Q)} (hd : O2 (DepR φ) d d') :
    MR φ (fun _ _ => True) (recordEdge e d) (recordEdge e' d') := by
  refine .modify fun s t hs => ?_
  have := hs.stack
  rcases h1 : s.stack with _ | ⟨fr, K⟩ <;> rcases h2 : t.stack with _ | ⟨fr', K'⟩ <;> rw [h1, h2] at this <;> cases this
  · exact hs
  · rename_i hf hK
    cases hf with
    | mk hf => exact { hs with stack := .cons (.mk (hf.snoc ⟨h, hd⟩)) hK }

/-! ### Dirtying -/
variable [UEq V] [UEq Q] (hφ : ∀ a b : V, a ≈ᵤ b ↔ φ a ≈ᵤ φ b)
include hφ

theorem checkForceMapDep_rel (ty : Ty) {f : V → V} {g : Q → Q} (hf : ∀ x, φ (f x) = g (φ x)) (r : V) (l : Loc) :
    MR φ Eq (checkForceMapDep ty f r l) (checkForceMapDep ty g (φ r) l) := by
  unfold checkForceMapDep
  refine (resNode_rel ty l).bind fun n n' h => ?_
  cases h with
  | comp => exact .panic _
  | pure => exact .panic _
  | «mut» h => exact .pure (by rw [← hf]; exact decide_eq_decide.2 (not_congr (hφ _ _)))

theorem dirtyStop_rel {d : Option (Dep V)} {d' : Option (Dep Q)} (h : O2 (DepR φ) d d') (l : Loc) :
    MR φ Eq (dirtyStop d l) (dirtyStop d' l) := by
  cases h with
  | none => exact .pure rfl
  | some h =>
    cases h with
    | forceMap ty f g v hf => exact (checkForceMapDep_rel hφ ty hf v l).bind fun a b h => .pure (by rw [h])
    | _ => exact .pure rfl

theorem dirtyObserver_rel {rec : Loc → M V Unit} {rec' : Loc → M Q Unit} (hr : ∀ l, MR φ (fun _ _ => True) (rec l) (rec' l)) (l p : Loc)
    {d : Option (Dep V)} {d' : Option (Dep Q)} (h : O2 (DepR φ) d d') :
    MR φ (fun _ _ => True) (dirtyObserver rec l p d) (dirtyObserver rec' l p d') := by
  unfold dirtyObserver
  refine (dirtyStop_rel hφ h l).bind fun b _ e => ?_
  subst e
  refine .ite Iff.rfl (fun _ => .pure trivial) fun _ => ?_
  refine (succDirty_rel p .observe l).bind fun b _ e => ?_
  subst e
  refine .ite Iff.rfl (fun _ => .pure trivial) fun _ => ?_
  refine .ite Iff.rfl (fun _ => .panic _) fun _ => ?_
  exact (evBegin_rel _ _ _).bind fun _ _ _ => (setSuccDirty_rel _ _ _ _).bind fun _ _ _ => (hr p).bind fun _ _ _ => evEnd_rel

theorem dirtyLoop_rel {rec : Loc → M V Unit} {rec' : Loc → M Q Unit} (hr : ∀ l, MR φ (fun _ _ => True) (rec l) (rec' l)) (l : Loc)
    {ps : List (Loc × Option (Dep V))} {ps' : List (Loc × Option (Dep Q))} (h : L2 (fun a b => a.1 = b.1 ∧ O2 (DepR φ) a.2 b.2) ps ps') :
    MR φ (fun _ _ => True) (dirtyLoop rec l ps) (dirtyLoop rec' l ps') := by
  induction h with
  | nil => exact .pure trivial
  | @cons a b _ _ h _ ih =>
    obtain ⟨p, d⟩ := a
    obtain ⟨p', d'⟩ := b
    obtain ⟨rfl, h⟩ := h
    unfold dirtyLoop
    exact (dirtyObserver_rel hφ hr l p h).bind fun _ _ _ => ih

theorem dirtyPreds_rel (k : Nat) : ∀ l : Loc, MR φ (fun _ _ => True) (dirtyPreds k l) (dirtyPreds k l) := by
  induction k with
  | zero => intro l s t _; exact .oof
  | succ k ih =>
    intro l
    unfold dirtyPreds
    refine (lookupAbs_rel l).bind fun n n' h => ?_
    have := predsObs_rel h
    revert this
    generalize n.predsObs = o
    generalize n'.predsObs = o'
    intro h
    cases h with
    | none => exact .panic _
    | some h => exact dirtyLoop_rel hφ ih l h

omit hφ in
theorem tableClean_rel {s : Table V} {t : Table Q} (h : L2 (EntryR φ) s t) : tableClean s = tableClean t := by
  have hc : ∀ {es : List (Succ V)} {es' : List (Succ Q)}, L2 (SuccR φ) es es' → cleanCount es = cleanCount es' := by
    intro es es' h
    induction h with
    | nil => rfl
    | cons h _ ih => cases h; simp only [cleanCount, ih]
  induction h with
  | nil => rfl
  | @cons a b _ _ h _ ih =>
    obtain ⟨k, n⟩ := a
    obtain ⟨k', n'⟩ := b
    obtain ⟨rfl, h⟩ := h
    unfold tableClean
    rw [ih]
    congr 1
    cases h with
    | comp _ h => exact hc h
    | pure => rfl
    | «mut» => rfl

theorem dirtyPredsTop_rel (l : Loc) : MR φ (fun _ _ => True) (dirtyPredsTop l) (dirtyPredsTop l) := by
  intro s t hs
  unfold dirtyPredsTop
  rw [tableClean_rel hs.table]
  exact dirtyPreds_rel hφ _ l s t hs

theorem dirtyAllocator_rel (l p : Loc) : MR φ (fun _ _ => True) (dirtyAllocator l p) (dirtyAllocator l p) := by
  unfold dirtyAllocator
  refine (succDirty_rel p .allocate l).bind fun b _ e => ?_
  subst e
  refine .ite Iff.rfl (fun _ => .pure trivial) fun _ => ?_
  refine (setSuccDirty_rel _ _ _ _).bind fun _ _ _ => .ite Iff.rfl (fun _ => .panic _) fun _ => ?_
  exact (evBegin_rel _ _ _).bind fun _ _ _ => (dirtyPredsTop_rel hφ p).bind fun _ _ _ => evEnd_rel

theorem dirtyAllocLoop_rel (l : Loc) (ps : List Loc) : MR φ (fun _ _ => True) (dirtyAllocLoop l ps) (dirtyAllocLoop l ps) := by
  induction ps with
  | nil => exact .pure trivial
  | cons p ps ih => exact (dirtyAllocator_rel hφ l p).bind fun _ _ _ => ih

theorem dirtyAlloc_rel (l : Loc) : MR φ (fun _ _ => True) (dirtyAlloc l) (dirtyAlloc l) := by
  unfold dirtyAlloc
  refine (dirtyPredsTop_rel hφ l).bind fun _ _ _ => (lookupAbs_rel l).bind fun n n' h => ?_
  rw [predsAlloc_rel h]
  cases n'.predsAlloc with
  | none => exact .panic _
  | some ps => exact dirtyAllocLoop_rel hφ l ps

theorem setCell_rel (ty : Ty) (l : Loc) (v : V) : MR φ (fun _ _ => True) (setCell ty l v) (setCell ty l (φ v)) := by
  unfold setCell
  refine (resNode_rel ty l).bind fun n n' h => ?_
  cases h with
  | comp => exact .panic _
  | pure => exact .panic _
  | «mut» h =>
    exact .ite (hφ _ _) (fun _ => .pure trivial) fun _ => (putNode_rel l (.mut h)).bind fun _ _ _ => dirtyAlloc_rel hφ l

/-! ### Allocation -/

theorem opSet_rel (ty : Ty) (l : Loc) (v : V) : MR φ (fun _ _ => True) (opSet ty l v) (opSet ty l (φ v)) := by
  unfold opSet
  refine .getBind fun s t hs => ?_
  simp only [hs.stack.isEmpty]
  exact MR.ite Iff.rfl (fun _ => setCell_rel hφ ty l v) (fun _ => .panic _) s t hs

theorem cellDiff_rel {n : Node V} {n' : Node Q} (h : NodeR φ n n') (v : V) : cellDiff n v = cellDiff n' (φ v) := by
  cases h with
  | comp => rfl
  | pure => rfl
  | «mut» => exact decide_eq_decide.2 (not_congr (hφ _ _))

theorem cellTable_rel (ty : Ty) (l : Loc) (v : V) (pu : Bool) : MR φ (fun _ _ => True) (cellTable ty l v pu) (cellTable ty l (φ v) pu) := by
  unfold cellTable
  refine .getBind fun s t hs => ?_
  have hg := get_rel hs.table l
  rcases h1 : s.table.get l with _ | n <;> rcases h2 : t.table.get l with _ | n' <;> rw [h1, h2] at hg <;> simp only [h1, h2] <;> cases hg
  · rw [topLoc_rel hs]
    refine MR.bind (evBegin_rel _ _ _) (fun _ _ _ => evEnd_rel.bind fun _ _ _ => putNode_rel l ?_) s t hs
    cases pu
    · exact .mut .nil
    · exact .pure
  · rw [topLoc_rel hs]
    refine MR.bind (resNode_rel ty l) (fun n n' h => ?_) s t hs
    rw [cellDiff_rel hφ h v]
    refine (evBegin_rel _ _ _).bind fun _ _ _ => ?_
    cases h with
    | comp _ h => exact (dirtyAlloc_rel hφ l).bind fun _ _ _ => (revokeSuccs_rel l h).bind fun _ _ _ => evEnd_rel
    | pure => exact evEnd_rel
    | «mut» h => exact (setCell_rel hφ ty l v).bind fun _ _ _ => evEnd_rel

omit hφ in
theorem cellRecord_rel (l : Loc) (v : V) (pu : Bool) : MR φ (fun _ _ => True) (cellRecord l v pu) (cellRecord l (φ v) pu) := by
  unfold cellRecord
  exact .ite Iff.rfl (fun _ => .pure trivial) fun _ => recordEdge_rel (.mk (.allocCell v)) .none

theorem opCell_rel {env : Env V} {env' : Env Q} (he : EnvR φ env env') (ty : Ty) (nm : Name) (v : V) :
    MR φ Eq (opCell env ty nm v) (opCell env' ty nm (φ v)) := by
  unfold opCell
  refine .getBind fun s t hs => ?_
  simp only [hs.ign, hs.purity, hs.path, he.hashVal]
  exact MR.bind (cellTable_rel hφ ty _ v _) (fun _ _ _ => (cellRecord_rel _ v _).bind fun _ _ _ => .pure rfl) s t hs

omit hφ in
theorem thunkStructural_rel {env : Env V} {env' : Env Q} (he : EnvR φ env env') (ty : Ty) (pp : ProgPt) (fn : FnId) (arg : V) :
    MR φ Eq (thunkStructural env ty pp fn arg) (thunkStructural env' ty pp fn (φ arg)) := by
  unfold thunkStructural
  refine .getBind fun s t hs => ?_
  simp only [hs.path, he.hashApp]
  have hg := get_rel hs.table ⟨t.path, .structural (env'.hashApp pp (φ arg))⟩
  revert hg
  generalize s.table.get _ = o
  generalize t.table.get _ = o'
  intro h
  cases h with
  | some h => exact .ok rfl hs
  | none =>
    exact MR.bind (recordEdge_rel (.mk .allocStruct) .none) (fun _ _ _ => (putNode_rel _ (.comp .nil .nil)).bind fun _ _ _ => .pure rfl) s t hs

theorem thunkNominal_rel (ty : Ty) (n : Name) (pp : ProgPt) (fn : FnId) (arg : V) :
    MR φ Eq (thunkNominal ty n pp fn arg) (thunkNominal ty n pp fn (φ arg)) := by
  unfold thunkNominal
  refine .getBind fun s t hs => ?_
  simp only [hs.path, topLoc_rel hs]
  generalize (⟨t.path, .nominal n⟩ : Loc) = l
  have hrec : MR φ (fun _ _ => True) (recordEdge ⟨false, l, .allocate, .allocNom arg⟩ none)
      (recordEdge ⟨false, l, .allocate, .allocNom (φ arg)⟩ none) := recordEdge_rel (.mk (.allocNom arg)) .none
  have hg := get_rel hs.table l
  revert hg
  generalize s.table.get _ = o
  generalize t.table.get _ = o'
  intro h
  cases h with
  | none =>
    exact MR.bind (evBegin_rel _ _ _) (fun _ _ _ => evEnd_rel.bind fun _ _ _ => hrec.bind fun _ _ _ =>
      (putNode_rel _ (.comp .nil .nil)).bind fun _ _ _ => .pure rfl) s t hs
  | some h =>
    refine MR.bind (resNode_rel ty l) (fun n n' h => ?_) s t hs
    cases h with
    | pure => exact .panic _
    | «mut» h =>
      exact (evBegin_rel _ _ _).bind fun _ _ _ => (dirtyAlloc_rel hφ l).bind fun _ _ _ => evEnd_rel.bind fun _ _ _ =>
        hrec.bind fun _ _ _ => (putNode_rel _ (.comp .nil .nil)).bind fun _ _ _ => .pure rfl
    | comp h1 h2 =>
      refine .ite Iff.rfl (fun _ => .ite (hφ _ _) (fun _ => ?_) fun _ => ?_) fun _ => .panic _
      · exact (evBegin_rel _ _ _).bind fun _ _ _ => evEnd_rel.bind fun _ _ _ => hrec.bind fun _ _ _ => .pure rfl
      · exact (putNode_rel _ (.comp (res := none) h1 h2)).bind fun _ _ _ => (evBegin_rel _ _ _).bind fun _ _ _ =>
          (dirtyAlloc_rel hφ l).bind fun _ _ _ => evEnd_rel.bind fun _ _ _ => hrec.bind fun _ _ _ => .pure rfl

theorem opThunk_rel {env : Env V} {env' : Env Q} (he : EnvR φ env env') (ty : Ty) (nc : NameChoice) (pp : ProgPt) (fn : FnId) (arg : V) :
    MR φ Eq (opThunk env ty nc pp fn arg) (opThunk env' ty nc pp fn (φ arg)) := by
  unfold opThunk
  refine .getBind fun s t hs => ?_
  cases nc with
  | eager => exact .panic hs
  | naive => exact .panic hs
  | structural => exact thunkStructural_rel he ty pp fn arg s t hs
  | nominal n =>
    simp only [hs.ign]
    exact MR.ite Iff.rfl (fun _ => thunkStructural_rel he ty pp fn arg) (fun _ => thunkNominal_rel hφ ty n pp fn arg) s t hs

/-! ### Forcing -/

omit hφ [UEq V] [UEq Q] in
/-- The recursive entry points are related. -/
structure RecR (φ : V → Q) (R : Rec V) (R' : Rec Q) : Prop where
  produce : ∀ ty l, MR φ (Im φ) (R.produce ty l) (R'.produce ty l)
  cleanForce : ∀ ty r l, MR φ Eq (R.cleanForce ty r l) (R'.cleanForce ty (φ r) l)
  run : ∀ p q, ProgR φ p q → MR φ (Im φ) (R.run p) (R'.run q)

/-- The body of `force` once the flags have been read from the state (engine.rs:1780-1878): proof helper,
equal to `opForce` by computation (`opForce_body`). -/
def forceBody {V : Type} [UEq V] (R : Rec V) (ty : Ty) (l : Loc) (cyc : Option V) (pu isCycle isDup : Bool) (src : Option Loc) : M V V := do
  let n ← resNode ty l
  let record (r : V) : M V V :=
    if isDup then pure r
    else do recordEdge ⟨false, l, .observe, .force ty r⟩ none; pure r
  match n with
  | .pure nd =>
    evEff (.force .refGet) src l
    pure nd.val
  | .mut nd =>
    evEff (.force .refGet) src l
    record nd.val
  | .comp nd =>
    let isPure : Bool := match l.id with
      | .structural _ => decide (nd.succs.length = 0) && pu
      | .nominal _ => false
    let fin (r : V) : M V V := if isPure then pure r else record r
    if isCycle then
      match cyc with
      | none => M.panic .unexpectedCycle
      | some out =>
        evBegin (.force .compCacheHit) src l
        evEnd
        fin out
    else
      match nd.res with
      | none =>
        evBegin (.force .compCacheMiss) src l
        if isDup then M.panic .dupMiss
        else
          let r ← R.produce ty l
          evEnd
          fin r
      | some r =>
        evBegin (.force .compCacheHit) src l
        let _ ← R.cleanForce ty r l
        evEnd
        let n' ← resNode ty l
        match n' with
        | .comp nd' =>
          match nd'.res with
          | some r' => fin r'
          | none => M.panic .resMissing
        | _ => M.panic .resMissing

/-- Has the running thunk already observed `x`? -/
def seen {V : Type} (s : St V) (x : Loc) : Bool :=
  match s.stack with
  | [] => false
  | fr :: _ => fr.succs.any fun p => decide (p.1.loc = x ∧ p.1.effect = .observe)

omit hφ in
theorem opForce_body {R : Rec V} (ty : Ty) (l : Loc) (cyc : Option V) (s : St V) :
    opForce R ty l cyc s =
      forceBody R ty l cyc s.purity (s.stack.any fun fr => decide (fr.loc = l)) (seen s l) (topLoc s) s := rfl

omit hφ [UEq V] [UEq Q] in
theorem seen_rel {s : St V} {t : St Q} (hs : StR φ s t) (l : Loc) : seen s l = seen t l := by
  unfold seen
  have := hs.stack
  rcases h1 : s.stack with _ | ⟨fr, K⟩ <;> rcases h2 : t.stack with _ | ⟨fr', K'⟩ <;> rw [h1, h2] at this <;>
    first | (cases this; done) | skip
  · cases this with
    | cons hf _ =>
    cases hf with
    | mk hf =>
      refine hf.any fun a b h => ?_
      obtain ⟨⟨_, _, _, _⟩, _⟩ := a
      obtain ⟨⟨_, _, _, _⟩, _⟩ := b
      obtain ⟨h, _⟩ := h
      cases h; rfl

omit hφ in
theorem forceBody_rel {R : Rec V} {R' : Rec Q} (hR : RecR φ R R') (ty : Ty) (l : Loc) (cyc : Option V) (pu isC isD : Bool)
    (src : Option Loc) : MR φ (Im φ) (forceBody R ty l cyc pu isC isD src) (forceBody R' ty l (cyc.map φ) pu isC isD src) := by
  unfold forceBody
  have hrec : ∀ v w, Im φ v w → MR φ (Im φ) (if isD then (Pure.pure v : M V V) else do recordEdge ⟨false, l, .observe, .force ty v⟩ none; Pure.pure v)
      (if isD then (Pure.pure w : M Q Q) else do recordEdge ⟨false, l, .observe, .force ty w⟩ none; Pure.pure w) := by
    rintro v _ rfl
    exact .ite Iff.rfl (fun _ => .pure rfl) fun _ => (recordEdge_rel (.mk (.force ty v)) .none).bind fun _ _ _ => .pure rfl
  refine MR.bind (resNode_rel ty l) (fun n n' h => ?_)
  cases h with
  | pure => exact (evEff_rel _ _ _).bind fun _ _ _ => .pure rfl
  | «mut» => exact (evEff_rel _ _ _).bind fun _ _ _ => hrec _ _ rfl
  | @comp ty' ps ps' ss ss' pp fn arg res h1 h2 =>
    simp only [h2.length]
    generalize (match l.id with | .structural _ => decide (ss'.length = 0) && pu | .nominal _ => false) = isP
    have hfin : ∀ v w, Im φ v w → MR φ (Im φ)
        (if isP then (Pure.pure v : M V V) else if isD then (Pure.pure v : M V V) else do recordEdge ⟨false, l, .observe, .force ty v⟩ none; Pure.pure v)
        (if isP then (Pure.pure w : M Q Q) else if isD then (Pure.pure w : M Q Q) else do recordEdge ⟨false, l, .observe, .force ty w⟩ none; Pure.pure w) :=
      fun v w h => .ite Iff.rfl (fun _ => .pure h) fun _ => hrec v w h
    refine .ite Iff.rfl (fun _ => ?_) fun _ => ?_
    · cases cyc with
      | none => exact .panic _
      | some out => exact (evBegin_rel _ _ _).bind fun _ _ _ => evEnd_rel.bind fun _ _ _ => hfin _ _ rfl
    · cases res with
      | none =>
        refine (evBegin_rel _ _ _).bind fun _ _ _ => .ite Iff.rfl (fun _ => .panic _) fun _ => ?_
        exact (hR.produce ty l).bind fun v w h => evEnd_rel.bind fun _ _ _ => hfin v w h
      | some r =>
        refine (evBegin_rel _ _ _).bind fun _ _ _ => (hR.cleanForce ty r l).bind fun _ _ _ => evEnd_rel.bind fun _ _ _ =>
          (resNode_rel ty l).bind fun n n' h => ?_
        cases h with
        | pure => exact .panic _
        | «mut» => exact .panic _
        | @comp _ _ _ _ _ _ _ _ res' _ _ =>
          cases res' with
          | none => exact .panic _
          | some r' => exact hfin _ _ rfl

omit hφ in
theorem opForce_rel {R : Rec V} {R' : Rec Q} (hR : RecR φ R R') (ty : Ty) (l : Loc) (cyc : Option V) :
    MR φ (Im φ) (opForce R ty l cyc) (opForce R' ty l (cyc.map φ)) := by
  intro s t hs
  have hc : (s.stack.any fun fr => decide (fr.loc = l)) = (t.stack.any fun fr => decide (fr.loc = l)) :=
    hs.stack.any fun a b h => by cases h; rfl
  rw [opForce_body, opForce_body, hc, seen_rel hs, hs.purity, topLoc_rel hs]
  exact forceBody_rel hR ty l cyc _ _ _ _ s t hs

omit hφ in
theorem opForceMap_rel {R : Rec V} {R' : Rec Q} (hR : RecR φ R R') (ty : Ty) (l : Loc) {f : V → V} {g : Q → Q}
    (hf : ∀ x, φ (f x) = g (φ x)) : MR φ (Im φ) (opForceMap R ty l f) (opForceMap R' ty l g) := by
  unfold opForceMap
  refine .getBind fun s t hs => ?_
  rw [topLoc_rel hs]
  have hother : MR φ (Im φ) (do let v ← opForce R ty l none; Pure.pure (f v)) (do let v ← opForce R' ty l none; Pure.pure (g v)) :=
    (opForce_rel hR ty l none).bind fun v w h => .pure (by rw [h]; exact (hf v).symm)
  refine MR.bind (resNode_rel ty l) (fun n n' h => ?_) s t hs
  cases h with
  | pure => exact hother
  | comp => exact hother
  | @«mut» _ _ _ v _ =>
    refine (evEff_rel _ _ _).bind fun _ _ _ => ?_
    simp only [← hf]
    exact (recordEdge_rel (.mk (.forceMap ty f g (f v) hf)) (.some (.forceMap ty f g (f v) hf))).bind fun _ _ _ => .pure rfl

omit hφ in
theorem opForceAbs_rel {R : Rec V} {R' : Rec Q} (hR : RecR φ R R') (ty : Ty) (l : Loc) {f : V → V} {g : Q → Q}
    (hf : ∀ x, φ (f x) = g (φ x)) : MR φ (Im φ) (opForceAbs R ty l f) (opForceAbs R' ty l g) := by
  unfold opForceAbs
  refine .getBind fun s t hs => ?_
  rw [topLoc_rel hs]
  have hother : MR φ (Im φ) (do let v ← opForce R ty l none; Pure.pure (f v)) (do let v ← opForce R' ty l none; Pure.pure (g v)) :=
    (opForce_rel hR ty l none).bind fun v w h => .pure (by rw [h]; exact (hf v).symm)
  refine MR.bind (resNode_rel ty l) (fun n n' h => ?_) s t hs
  cases h with
  | pure => exact hother
  | comp => exact hother
  | @«mut» _ _ _ v _ =>
    exact (evEff_rel _ _ _).bind fun _ _ _ => (recordEdge_rel (.mk .forceAbs) (.some .forceAbs)).bind fun _ _ _ => .pure (hf v).symm

theorem runProg_rel {env : Env V} {env' : Env Q} (he : EnvR φ env env') {R : Rec V} {R' : Rec Q} (hR : RecR φ R R') {p : Prog V} {q : Prog Q}
    (h : ProgR φ p q) : MR φ (Im φ) (runProg env R p) (runProg env' R' q) := by
  induction h with
  | ret v => exact .pure rfl
  | force ty l _ ih => exact (opForce_rel hR ty l _).bind fun v w h => by rw [h]; exact ih v
  | forceMap ty l hf _ ih => exact (opForceMap_rel hR ty l hf).bind fun v w h => by rw [h]; exact ih v
  | forceAbs ty l hf _ ih => exact (opForceAbs_rel hR ty l hf).bind fun v w h => by rw [h]; exact ih v
  | cell ty n v _ ih => exact (opCell_rel hφ he ty n v).bind fun v w h => by rw [← h]; exact ih v
  | thunk ty nc pp fn v _ ih => exact (opThunk_rel hφ he ty nc pp fn v).bind fun v w h => by rw [← h]; exact ih v
  | set ty l v _ ih => exact (opSet_rel hφ ty l v).bind fun _ _ _ => ih
  | ns n _ _ ihb ihk =>
    unfold runProg
    refine .getBind fun s t hs => ?_
    rw [hs.path]
    refine MR.bind (by exact MR.modify fun s t hs => { hs with path := by rw [hs.path] }) (fun _ _ _ => ?_) s t hs
    exact ihb.bind fun v w h => MR.bind (by exact MR.modify fun s t hs => { hs with path := rfl }) fun _ _ _ => by rw [h]; exact ihk v
  | structural _ _ ihb ihk =>
    unfold runProg
    refine .getBind fun s t hs => ?_
    rw [hs.ign]
    refine MR.bind (by exact MR.modify fun s t hs => { hs with ign := rfl }) (fun _ _ _ => ?_) s t hs
    exact ihb.bind fun v w h => MR.bind (by exact MR.modify fun s t hs => { hs with ign := rfl }) fun _ _ _ => by rw [h]; exact ihk v
  | call fn v _ ih => exact (hR.run _ _ (he.code fn v)).bind fun v w h => by rw [h]; exact ih v
  | panic => exact .panic _

/-! ### Re-evaluation and cleaning -/

omit hφ in
theorem installPred_rel (l : Loc) {e : Succ V} {e' : Succ Q} (h : SuccR φ e e') {d : Option (Dep V)} {d' : Option (Dep Q)}
    (hd : O2 (DepR φ) d d') : MR φ (fun _ _ => True) (installPred l e d) (installPred l e' d') := by
  unfold installPred
  cases h with
  | @mk d0 l0 e0 x y h =>
    refine .ite Iff.rfl (fun _ => .panic _) fun _ => (lookupAbs_rel _).bind fun n n' hn => ?_
    have := predsInsert_rel hn e0 l hd
    revert this
    generalize n.predsInsert e0 l d = o
    generalize n'.predsInsert e0 l d' = o'
    intro h
    cases h with
    | none => exact .panic _
    | some h => exact putNode_rel _ h

omit hφ in
theorem installPreds_rel (l : Loc) {es : List (Succ V × Option (Dep V))} {es' : List (Succ Q × Option (Dep Q))} (h : L2 (EdgeR φ) es es') :
    MR φ (fun _ _ => True) (installPreds l es) (installPreds l es') := by
  induction h with
  | nil => exact .pure trivial
  | @cons a b _ _ h _ ih =>
    obtain ⟨e, d⟩ := a
    obtain ⟨e', d'⟩ := b
    unfold installPreds
    exact (installPred_rel l h.1 h.2).bind fun _ _ _ => ih

theorem produceBody_rel {env : Env V} {env' : Env Q} (he : EnvR φ env env') {R : Rec V} {R' : Rec Q} (hR : RecR φ R R') (ty : Ty) (l : Loc) :
    MR φ (Im φ) (produceBody env R ty l) (produceBody env' R' ty l) := by
  unfold produceBody
  refine (resNode_rel ty l).bind fun n n' h => ?_
  cases h with
  | pure => exact .panic _
  | «mut» => exact .panic _
  | comp h1 h2 =>
    refine (putNode_rel _ (.comp h1 .nil)).bind fun _ _ _ => (revokeSuccs_rel l h2).bind fun _ _ _ => .getBind fun s t hs => ?_
    simp only [hs.path]
    refine MR.bind (by exact MR.modify fun s t hs => { hs with stack := .cons (.mk .nil) hs.stack, path := rfl }) (fun _ _ _ => ?_) s t hs
    refine (resNode_rel ty l).bind fun n n' h => ?_
    cases h with
    | pure => exact .panic _
    | «mut» => exact .panic _
    | comp _ _ =>
      refine MR.bind (by exact MR.modify fun s t hs => { hs with runs := by rw [hs.runs] }) fun _ _ _ => ?_
      refine (hR.run _ _ (he.code _ _)).bind fun v w hv => ?_
      refine MR.bind (by exact MR.modify fun s t hs => { hs with path := rfl }) fun _ _ _ => .getBind fun s t hs => ?_
      have hst := hs.stack
      revert hst
      generalize hK : s.stack = K
      generalize hK' : t.stack = K'
      intro hst
      cases hst with
      | nil => exact .panic hs
      | cons hf hr =>
        cases hf with
        | mk hf =>
          refine MR.bind (by exact MR.modify fun s t hs => { hs with stack := hr }) (fun _ _ _ => ?_) s t hs
          refine .ite Iff.rfl (fun _ => ?_) fun _ => .panic _
          refine (installPreds_rel l hf).bind fun _ _ _ => (resNode_rel ty l).bind fun n n' h => ?_
          cases h with
          | pure => exact .panic _
          | «mut» => exact .panic _
          | comp h1 _ =>
            cases hv
            exact (putNode_rel _ (.comp (res := some v) h1 (hf.map fun a b h => h.1))).bind fun _ _ _ => .pure rfl

theorem cleanDep_rel {R : Rec V} {R' : Rec Q} (hR : RecR φ R R') {d : Dep V} {d' : Dep Q} (h : DepR φ d d') (l : Loc) :
    MR φ Eq (cleanDep R d l) (cleanDep R' d' l) := by
  cases h with
  | allocStruct => exact .pure rfl
  | allocNom => exact .pure rfl
  | allocCell => exact .pure rfl
  | force ty v => exact hR.cleanForce ty v l
  | forceMap ty f g v hf => exact checkForceMapDep_rel hφ ty hf v l
  | forceAbs => exact .pure rfl

theorem cleanLoop_rel {R : Rec V} {R' : Rec Q} (hR : RecR φ R R') (ty : Ty) (res : V) (l : Loc) {es : List (Succ V)} {es' : List (Succ Q)}
    (h : L2 (SuccR φ) es es') : MR φ Eq (cleanLoop R ty res l es) (cleanLoop R' ty (φ res) l es') := by
  induction h with
  | nil => exact .pure rfl
  | cons h _ ih =>
    cases h with
    | mk h =>
      unfold cleanLoop
      refine (succDirty_rel _ _ _).bind fun b _ e => ?_
      subst e
      refine .ite Iff.rfl (fun _ => ?_) fun _ => ih
      refine (evBegin_rel _ _ _).bind fun _ _ _ => (cleanDep_rel hφ hR h _).bind fun b _ e => ?_
      subst e
      refine .ite Iff.rfl (fun _ => ?_) fun _ => ?_
      · refine (evBegin_rel _ _ _).bind fun _ _ _ => (hR.produce ty l).bind fun v w h => evEnd_rel.bind fun _ _ _ => evEnd_rel.bind fun _ _ _ => ?_
        exact .pure (by rw [h]; exact congrArg some (decide_eq_decide.2 (not_congr (hφ _ _))))
      · exact (setSuccDirty_rel _ _ _ _).bind fun _ _ _ => (evEff_rel _ _ _).bind fun _ _ _ => evEnd_rel.bind fun _ _ _ => ih

theorem cleanForceBody_rel {R : Rec V} {R' : Rec Q} (hR : RecR φ R R') (ty : Ty) (res : V) (l : Loc) :
    MR φ Eq (cleanForceBody R ty res l) (cleanForceBody R' ty (φ res) l) := by
  unfold cleanForceBody
  refine (resNode_rel ty l).bind fun n n' h => ?_
  cases h with
  | pure => exact .pure rfl
  | «mut» => exact .pure (decide_eq_decide.2 (not_congr (hφ _ _)))
  | @comp _ _ _ _ _ _ _ _ cache h1 h2 =>
    cases cache with
    | none =>
      exact (evBegin_rel _ _ _).bind fun _ _ _ => (hR.produce ty l).bind fun v w h => evEnd_rel.bind fun _ _ _ =>
        .pure (by rw [h]; exact decide_eq_decide.2 (not_congr (hφ _ _)))
    | some c =>
      refine (cleanLoop_rel hφ hR ty res l h2).bind fun a b e => ?_
      subst e
      cases a with
      | none => exact .pure (decide_eq_decide.2 (not_congr (hφ _ _)))
      | some ch => exact .pure rfl

theorem recN_relEq {env : Env V} {env' : Env Q} (he : EnvR φ env env') (n : Nat) : RecR φ (recN env n) (recN env' n) := by
  induction n with
  | zero => exact ⟨fun _ _ _ _ _ => .oof, fun _ _ _ _ _ _ => .oof, fun _ _ _ _ _ _ => .oof⟩
  | succ n ih => exact ⟨produceBody_rel hφ he ih, cleanForceBody_rel hφ ih, fun _ _ => runProg_rel hφ he ih⟩

theorem exec_rel {env : Env V} {env' : Env Q} (he : EnvR φ env env') (n : Nat) {p : Prog V} {q : Prog Q} (h : ProgR φ p q) :
    MR φ (Im φ) (exec env n p) (exec env' n q) := runProg_rel hφ he (recN_relEq hφ he n) h

theorem runSession_rel {env : Env V} {env' : Env Q} (he : EnvR φ env env') (n : Nat) {ps : List (Prog V)} {qs : List (Prog Q)}
    (h : L2 (ProgR φ) ps qs) : MR φ (L2 (Im φ)) (runSession env n ps) (runSession env' n qs) := by
  induction h with
  | nil => exact .pure .nil
  | cons h _ ih => exact (exec_rel hφ he n h).bind fun v w h => ih.bind fun vs ws h' => .pure (.cons h h')

omit hφ [UEq V] [UEq Q] in
theorem initSt_rel (purity ign : Bool) : StR φ (initSt purity ign) (initSt purity ign) := ⟨.nil, .nil, rfl, rfl, rfl, rfl, rfl⟩

end Adapton
