import Verif.Engine.Equal
/-
The engine uses names, hashes, program points, type tags, locations and values only by comparing them: running related programs in related
environments gives related outcomes, for any one-to-one relation on each of these sorts.  Used for C92.
-/
set_option linter.unusedSectionVars false
set_option linter.unusedVariables false
namespace Adapton.Param
variable {V Q : Type}

/-- A correspondence between two representations: of values, names, hashes, type tags, program points and closures. -/
structure Rel (V Q : Type) where
  val : V → Q → Prop
  name : Name → Name → Prop
  hash : UInt64 → UInt64 → Prop
  ty : Ty → Ty → Prop
  pp : ProgPt → ProgPt → Prop
  fn : FnId → FnId → Prop

/-- The correspondence respects every comparison that the engine makes.  (Closures are never compared.) -/
structure Rel.Lawful [UEq V] [UEq Q] (r : Rel V Q) : Prop where
  val : ∀ {a a' b b'}, r.val a b → r.val a' b' → (a ≈ᵤ a' ↔ b ≈ᵤ b')
  name : ∀ {a a' b b'}, r.name a b → r.name a' b' → (a = a' ↔ b = b')
  hash : ∀ {a a' b b'}, r.hash a b → r.hash a' b' → (a = a' ↔ b = b')
  ty : ∀ {a a' b b'}, r.ty a b → r.ty a' b' → (a = a' ↔ b = b')
  pp : ∀ {a a' b b'}, r.pp a b → r.pp a' b' → (a = a' ↔ b = b')

variable (r : Rel V Q)

/-- Namespaces built from corresponding names. -/
inductive PathR : Path → Path → Prop
  | empty : PathR .empty .empty
  | child {p q n m} : PathR p q → r.name n m → PathR (.child p n) (.child q m)

/-- Corresponding identities: hashes with hashes, names with names. -/
inductive IdR : ArtId → ArtId → Prop
  | structural {h k} : r.hash h k → IdR (.structural h) (.structural k)
  | nominal {n m} : r.name n m → IdR (.nominal n) (.nominal m)

/-- Corresponding locations. -/
inductive LocR : Loc → Loc → Prop
  | mk {p q i j} : PathR r p q → IdR r i j → LocR ⟨p, i⟩ ⟨q, j⟩

/-- Corresponding trace events: the same effect at corresponding locations. -/
inductive EvR : Ev → Ev → Prop
  | «begin» {e src src' l l'} : O2 (LocR r) src src' → LocR r l l' → EvR (.begin e src l) (.begin e src' l')
  | end_ : EvR .end_ .end_
  | eff {e src src' l l'} : O2 (LocR r) src src' → LocR r l l' → EvR (.eff e src l) (.eff e src' l')

/-- Functions that map corresponding values to corresponding values. -/
def MapR (f : V → V) (g : Q → Q) : Prop := ∀ x y, r.val x y → r.val (f x) (g y)

inductive DepR : Dep V → Dep Q → Prop
  | allocStruct : DepR .allocStruct .allocStruct
  | allocNom {v w} : r.val v w → DepR (.allocNom v) (.allocNom w)
  | allocCell {v w} : r.val v w → DepR (.allocCell v) (.allocCell w)
  | force {ty ty' v w} : r.ty ty ty' → r.val v w → DepR (.force ty v) (.force ty' w)
  | forceMap {ty ty' f g v w} : r.ty ty ty' → MapR r f g → r.val v w → DepR (.forceMap ty f v) (.forceMap ty' g w)
  | forceAbs : DepR .forceAbs .forceAbs

inductive SuccR : Succ V → Succ Q → Prop
  | mk {d l l' e x y} : LocR r l l' → DepR r x y → SuccR ⟨d, l, e, x⟩ ⟨d, l', e, y⟩

inductive PredR : Pred V → Pred Q → Prop
  | mk {l l' e x y} : LocR r l l' → O2 (DepR r) x y → PredR ⟨l, e, x⟩ ⟨l', e, y⟩

inductive NodeR : Node V → Node Q → Prop
  | comp {ty ty' ps ps' ss ss' pp pp' fn fn' arg arg' res res'} : r.ty ty ty' → L2 (PredR r) ps ps' → L2 (SuccR r) ss ss' →
      r.pp pp pp' → r.fn fn fn' → r.val arg arg' → O2 r.val res res' →
      NodeR (.comp ⟨ty, ps, ss, pp, fn, arg, res⟩) (.comp ⟨ty', ps', ss', pp', fn', arg', res'⟩)
  | pure {ty ty' v w} : r.ty ty ty' → r.val v w → NodeR (.pure ⟨ty, v⟩) (.pure ⟨ty', w⟩)
  | mut {ty ty' ps ps' v w} : r.ty ty ty' → L2 (PredR r) ps ps' → r.val v w → NodeR (.mut ⟨ty, ps, v⟩) (.mut ⟨ty', ps', w⟩)

abbrev EdgeR : (Succ V × Option (Dep V)) → (Succ Q × Option (Dep Q)) → Prop := fun a b => SuccR r a.1 b.1 ∧ O2 (DepR r) a.2 b.2
inductive FrameR : Frame V → Frame Q → Prop
  | mk {l l' es es'} : LocR r l l' → L2 (EdgeR r) es es' → FrameR ⟨l, es⟩ ⟨l', es'⟩

abbrev EntryR : (Loc × Node V) → (Loc × Node Q) → Prop := fun a b => LocR r a.1 b.1 ∧ NodeR r a.2 b.2

/-- Corresponding engine states. -/
structure StR (s : St V) (t : St Q) : Prop where
  table : L2 (EntryR r) s.table t.table
  stack : L2 (FrameR r) s.stack t.stack
  path : PathR r s.path t.path
  purity : s.purity = t.purity
  ign : s.ignoreNominal = t.ignoreNominal
  log : L2 (EvR r) s.log t.log
  runs : L2 (LocR r) s.runs t.runs

/-- Related outcomes: both return, related values; the same panic; or both exceed the recursion depth. -/
inductive OutR {α β : Type} (A : α → β → Prop) : Out V α → Out Q β → Prop
  | ok {a b s t} : A a b → StR r s t → OutR A (.ok a s) (.ok b t)
  | panic {e s t} : StR r s t → OutR A (.panic e s) (.panic e t)
  | oof : OutR A .oof .oof

def MR {α β : Type} (A : α → β → Prop) (m : M V α) (m' : M Q β) : Prop := ∀ s t, StR r s t → OutR r A (m s) (m' t)

/-- Corresponding choices of a name. -/
inductive ChoiceR : NameChoice → NameChoice → Prop
  | naive : ChoiceR .naive .naive
  | eager : ChoiceR .eager .eager
  | structural : ChoiceR .structural .structural
  | nominal {n m} : r.name n m → ChoiceR (.nominal n) (.nominal m)

/-- Corresponding programs: the same calls, with corresponding arguments, and continuations that correspond for corresponding answers. -/
inductive ProgR : Prog V → Prog Q → Prop
  | ret {v w} : r.val v w → ProgR (.ret v) (.ret w)
  | force {ty ty' l l' cyc cyc' k k'} : r.ty ty ty' → LocR r l l' → O2 r.val cyc cyc' → (∀ v w, r.val v w → ProgR (k v) (k' w)) →
      ProgR (.force ty l cyc k) (.force ty' l' cyc' k')
  | forceMap {ty ty' l l' f g k k'} : r.ty ty ty' → LocR r l l' → MapR r f g → (∀ v w, r.val v w → ProgR (k v) (k' w)) →
      ProgR (.forceMap ty l f k) (.forceMap ty' l' g k')
  | forceAbs {ty ty' l l' f g k k'} : r.ty ty ty' → LocR r l l' → MapR r f g → (∀ v w, r.val v w → ProgR (k v) (k' w)) →
      ProgR (.forceAbs ty l f k) (.forceAbs ty' l' g k')
  | cell {ty ty' n m v w k k'} : r.ty ty ty' → r.name n m → r.val v w → (∀ l l', LocR r l l' → ProgR (k l) (k' l')) →
      ProgR (.cell ty n v k) (.cell ty' m w k')
  | thunk {ty ty' nc nc' pp pp' fn fn' v w k k'} : r.ty ty ty' → ChoiceR r nc nc' → r.pp pp pp' → r.fn fn fn' → r.val v w →
      (∀ l l', LocR r l l' → ProgR (k l) (k' l')) → ProgR (.thunk ty nc pp fn v k) (.thunk ty' nc' pp' fn' w k')
  | set {ty ty' l l' v w k k'} : r.ty ty ty' → LocR r l l' → r.val v w → ProgR k k' → ProgR (.set ty l v k) (.set ty' l' w k')
  | ns {n m b b' k k'} : r.name n m → ProgR b b' → (∀ v w, r.val v w → ProgR (k v) (k' w)) → ProgR (.ns n b k) (.ns m b' k')
  | structural {b b' k k'} : ProgR b b' → (∀ v w, r.val v w → ProgR (k v) (k' w)) → ProgR (.structural b k) (.structural b' k')
  | call {fn fn' v w k k'} : r.fn fn fn' → r.val v w → (∀ v w, r.val v w → ProgR (k v) (k' w)) → ProgR (.call fn v k) (.call fn' w k')
  | panic : ProgR .panic .panic

/-- Corresponding environments: corresponding closures run corresponding programs, and corresponding values have corresponding hashes. -/
structure EnvR (env : Env V) (env' : Env Q) : Prop where
  code : ∀ {fn fn' v w}, r.fn fn fn' → r.val v w → ProgR r (env.code fn v) (env'.code fn' w)
  hashVal : ∀ {v w}, r.val v w → r.hash (env.hashVal v) (env'.hashVal w)
  hashApp : ∀ {pp pp' v w}, r.pp pp pp' → r.val v w → r.hash (env.hashApp pp v) (env'.hashApp pp' w)

variable {r}
variable {α β γ δ : Type} {A : α → β → Prop} {B : γ → δ → Prop}

abbrev T {α β : Type} : α → β → Prop := fun _ _ => True

/-! ### Rules -/

theorem MR.pure {a : α} {b : β} (h : A a b) : MR r A (Pure.pure a) (Pure.pure b) := fun _ _ hs => .ok h hs
theorem MR.panic (e : Err) : MR r A (M.panic e) (M.panic e) := fun _ _ hs => .panic hs
theorem MR.bind {m : M V α} {m' : M Q β} {k : α → M V γ} {k' : β → M Q δ} (h : MR r A m m') (hk : ∀ a b, A a b → MR r B (k a) (k' b)) :
    MR r B (m >>= k) (m' >>= k') := by
  intro s t hs
  have := h s t hs
  show OutR r B (M.bind m k s) (M.bind m' k' t)
  unfold M.bind
  rcases h1 : m s with ⟨a, s1⟩ | ⟨e, s1⟩ | _ <;> rcases h2 : m' t with ⟨b, t1⟩ | ⟨e', t1⟩ | _ <;> rw [h1, h2] at this <;> cases this
  · rename_i ha hs; exact hk _ _ ha _ _ hs
  · rename_i hs; exact .panic hs
  · exact .oof
theorem MR.modify {f : St V → St V} {g : St Q → St Q} (h : ∀ s t, StR r s t → StR r (f s) (g t)) :
    MR r (fun _ _ => True) (M.modify f) (M.modify g) := fun s t hs => .ok trivial (h s t hs)
theorem MR.get : MR r (StR r) M.get M.get := fun _ _ hs => .ok hs hs
/-- Reading the state keeps it. -/
theorem MR.getBind {k : St V → M V γ} {k' : St Q → M Q δ} (h : ∀ s t, StR r s t → OutR r B (k s s) (k' t t)) :
    MR r B (M.get >>= k) (M.get >>= k') := fun s t hs => h s t hs
theorem MR.ite {P P' : Prop} [Decidable P] [Decidable P'] (hp : P ↔ P') {m₁ m₂ : M V α} {n₁ n₂ : M Q β} (h1 : P → MR r A m₁ n₁)
    (h2 : ¬ P → MR r A m₂ n₂) : MR r A (if P then m₁ else m₂) (if P' then n₁ else n₂) := by
  by_cases h : P
  · rw [if_pos h, if_pos (hp.1 h)]; exact h1 h
  · rw [if_neg h, if_neg fun h' => h (hp.2 h')]; exact h2 h

/-! ### Locations and tables -/
section Laws
variable [UEq V] [UEq Q] (hr : r.Lawful)
include hr

theorem PathR.eq_iff {p q p' q' : Path} (h : PathR r p q) (h' : PathR r p' q') : p = p' ↔ q = q' := by
  induction h generalizing p' q' with
  | empty => cases h' <;> simp
  | child hp hn ih =>
    cases h' with
    | empty => simp
    | child hp' hn' => simp only [Path.child.injEq, ih hp', hr.name hn hn']

theorem IdR.eq_iff {i j i' j' : ArtId} (h : IdR r i j) (h' : IdR r i' j') : i = i' ↔ j = j' := by
  cases h with
  | structural h =>
    cases h' with
    | structural h' => simp only [ArtId.structural.injEq, hr.hash h h']
    | nominal h' => simp
  | nominal h =>
    cases h' with
    | structural h' => simp
    | nominal h' => simp only [ArtId.nominal.injEq, hr.name h h']

theorem LocR.eq_iff {l m l' m' : Loc} (h : LocR r l m) (h' : LocR r l' m') : l = l' ↔ m = m' := by
  cases h with
  | mk h1 h2 =>
    cases h' with
    | mk h1' h2' => simp only [Loc.mk.injEq, h1.eq_iff hr h1', h2.eq_iff hr h2']

theorem get_rel {s : Table V} {t : Table Q} (h : L2 (EntryR r) s t) {l l' : Loc} (hl : LocR r l l') : O2 (NodeR r) (s.get l) (t.get l') := by
  induction h with
  | nil => exact .none
  | @cons a b _ _ h _ ih =>
    obtain ⟨k, n⟩ := a
    obtain ⟨k', n'⟩ := b
    obtain ⟨hk0, h⟩ := h
    have hk' : k = l ↔ k' = l' := LocR.eq_iff hr hk0 hl
    unfold Table.get
    by_cases hk : k = l
    · rw [if_pos hk, if_pos (hk'.1 hk)]; exact .some h
    · rw [if_neg hk, if_neg (fun e => hk (hk'.2 e))]; exact ih

theorem put_rel {s : Table V} {t : Table Q} (h : L2 (EntryR r) s t) {l l' : Loc} (hl : LocR r l l') {n : Node V} {n' : Node Q} (hn : NodeR r n n') :
    L2 (EntryR r) (s.put l n) (t.put l' n') := by
  induction h with
  | nil => exact .cons ⟨hl, hn⟩ .nil
  | @cons a b _ _ h hrest ih =>
    obtain ⟨k, m⟩ := a
    obtain ⟨k', m'⟩ := b
    obtain ⟨hk0, h⟩ := h
    have hk' : k = l ↔ k' = l' := LocR.eq_iff hr hk0 hl
    unfold Table.put
    by_cases hk : k = l
    · rw [if_pos hk, if_pos (hk'.1 hk)]; exact .cons ⟨hk0, hn⟩ hrest
    · rw [if_neg hk, if_neg (fun e => hk (hk'.2 e))]; exact .cons ⟨hk0, h⟩ ih

omit hr in
theorem NodeR.ty {n : Node V} {n' : Node Q} (h : NodeR r n n') : r.ty n.ty n'.ty := by cases h <;> assumption

variable {l l' : Loc} (hl : LocR r l l')
include hl

theorem lookupAbs_rel : MR r (NodeR r) (lookupAbs l) (lookupAbs l') := by
  intro s t hs
  have := get_rel hr hs.table hl
  unfold lookupAbs
  rcases h1 : s.table.get l with _ | n <;> rcases h2 : t.table.get l' with _ | n' <;> rw [h1, h2] at this <;> cases this
  · exact .panic hs
  · rename_i h; exact .ok h hs

theorem resNode_rel {ty ty' : Ty} (ht : r.ty ty ty') : MR r (NodeR r) (resNode ty l) (resNode ty' l') := by
  unfold resNode
  refine (lookupAbs_rel hr hl).bind fun n n' h => ?_
  exact .ite (hr.ty h.ty ht) (fun _ => .pure h) fun _ => .panic _

theorem putNode_rel {n : Node V} {n' : Node Q} (h : NodeR r n n') : MR r T (putNode l n) (putNode l' n') :=
  .modify fun s t hs => { hs with table := put_rel hr hs.table hl h }

omit hr in
theorem evBegin_rel (e : TEff) {src src' : Option Loc} (h : O2 (LocR r) src src') : MR r T (evBegin e src l) (evBegin e src' l') :=
  .modify fun s t hs => { hs with log := .cons (.begin h hl) hs.log }
omit hr hl in
theorem evEnd_rel : MR r T evEnd evEnd := .modify fun s t hs => { hs with log := .cons .end_ hs.log }
omit hr in
theorem evEff_rel (e : TEff) {src src' : Option Loc} (h : O2 (LocR r) src src') : MR r T (evEff e src l) (evEff e src' l') :=
  .modify fun s t hs => { hs with log := .cons (.eff h hl) hs.log }

omit hr hl in
theorem topLoc_rel {s : St V} {t : St Q} (h : StR r s t) : O2 (LocR r) (topLoc s) (topLoc t) := by
  have := h.stack
  unfold topLoc
  rcases h1 : s.stack with _ | ⟨fr, K⟩ <;> rcases h2 : t.stack with _ | ⟨fr', K'⟩ <;> rw [h1, h2] at this <;> cases this
  · exact .none
  · rename_i h _; cases h with | mk h _ => exact .some h

/-! ### Nodes and edges -/

omit hr hl in
theorem predsAlloc_rel {n : Node V} {n' : Node Q} (h : NodeR r n n') : O2 (L2 (LocR r)) n.predsAlloc n'.predsAlloc := by
  have aux : ∀ {ps : List (Pred V)} {ps' : List (Pred Q)}, L2 (PredR r) ps ps' →
      L2 (LocR r) (ps.filterMap fun p => if p.effect = .allocate then some p.loc else none)
      (ps'.filterMap fun p => if p.effect = .allocate then some p.loc else none) := by
    intro ps ps' h
    refine h.filterMap ?_
    rintro _ _ ⟨h, _⟩
    simp only
    split
    · exact .some h
    · exact .none
  cases h with
  | comp _ h => exact .some (aux h)
  | pure => exact .none
  | «mut» _ h => exact .some (aux h)

omit hr hl in
theorem predsObs_rel {n : Node V} {n' : Node Q} (h : NodeR r n n') :
    O2 (L2 (fun a b => LocR r a.1 b.1 ∧ O2 (DepR r) a.2 b.2)) n.predsObs n'.predsObs := by
  cases h with
  | comp _ h _ =>
    refine .some (h.filterMap ?_)
    rintro _ _ ⟨hl, h⟩
    simp only
    split
    · exact .some ⟨hl, .none⟩
    · exact .none
  | pure => exact .none
  | «mut» _ h =>
    refine .some (h.filterMap ?_)
    rintro _ _ ⟨hl, h⟩
    simp only
    split
    · exact .some ⟨hl, h⟩
    · exact .none

omit hr in
theorem predsInsert_rel {n : Node V} {n' : Node Q} (h : NodeR r n n') (e : Effect) {d : Option (Dep V)} {d' : Option (Dep Q)}
    (hd : O2 (DepR r) d d') : O2 (NodeR r) (n.predsInsert e l d) (n'.predsInsert e l' d') := by
  cases h with
  | comp ht h h' hp hf ha hre => exact .some (.comp ht (h.snoc ⟨hl, hd⟩) h' hp hf ha hre)
  | pure => exact .none
  | «mut» ht h hv => exact .some (.mut ht (h.snoc ⟨hl, hd⟩) hv)

theorem predsRemove_rel {n : Node V} {n' : Node Q} (h : NodeR r n n') : O2 (NodeR r) (n.predsRemove l) (n'.predsRemove l') := by
  have hf : ∀ (a : Pred V) (b : Pred Q), PredR r a b → decide (a.loc ≠ l) = decide (b.loc ≠ l') := by
    rintro _ _ ⟨h, _⟩; exact decide_eq_decide.2 (not_congr (LocR.eq_iff hr h hl))
  cases h with
  | comp ht h h' hp hfn ha hre => exact .some (.comp ht (h.filter hf) h' hp hfn ha hre)
  | pure => exact .none
  | «mut» ht h hv => exact .some (.mut ht (h.filter hf) hv)

theorem matches_rel (eff : Effect) (a : Succ V) (b : Succ Q) (h : SuccR r a b) : Succ.matches eff l a = Succ.matches eff l' b := by
  cases h with
  | mk h _ => exact decide_eq_decide.2 (and_congr Iff.rfl (LocR.eq_iff hr h hl))

theorem setFirst_rel (eff : Effect) (b : Bool) {es : List (Succ V)} {es' : List (Succ Q)} (h : L2 (SuccR r) es es') :
    L2 (SuccR r) (setFirst eff l b es) (setFirst eff l' b es') := by
  induction h with
  | nil => exact .nil
  | cons h hrest ih =>
    unfold setFirst
    rw [matches_rel hr hl eff _ _ h]
    split
    · cases h with | mk h0 h => exact .cons (.mk h0 h) hrest
    · exact .cons h ih

variable {p p' : Loc} (hp : LocR r p p')
include hp

theorem succDirty_rel (eff : Effect) : MR r Eq (succDirty p eff l) (succDirty p' eff l') := by
  unfold succDirty
  refine (lookupAbs_rel hr hp).bind fun n n' h => ?_
  cases h with
  | comp _ _ h =>
    simp only []
    have := h.find (matches_rel hr hl eff)
    revert this
    generalize List.find? (Succ.matches eff l) _ = o
    generalize List.find? (Succ.matches eff l') _ = o'
    intro h
    cases h with
    | none => exact .panic _
    | some h => cases h; exact .pure rfl
  | pure => exact .panic _
  | «mut» => exact .panic _

theorem setSuccDirty_rel (eff : Effect) (b : Bool) : MR r T (setSuccDirty p eff l b) (setSuccDirty p' eff l' b) := by
  unfold setSuccDirty
  refine (lookupAbs_rel hr hp).bind fun n n' h => ?_
  cases h with
  | comp ht h0 h hpp hfn ha hre =>
    simp only []
    have := h.find (matches_rel hr hl eff)
    revert this
    generalize List.find? (Succ.matches eff l) _ = o
    generalize List.find? (Succ.matches eff l') _ = o'
    intro h'
    cases h' with
    | none => exact .panic _
    | some _ => exact putNode_rel hr hp (.comp ht h0 (setFirst_rel hr hl _ _ h) hpp hfn ha hre)
  | pure => exact .panic _
  | «mut» => exact .panic _

theorem removePred_rel : MR r T (removePred p l) (removePred p' l') := by
  unfold removePred
  refine (evEff_rel hl _ (.some hp)).bind fun _ _ _ => (lookupAbs_rel hr hl).bind fun n n' h => ?_
  have := predsRemove_rel hr hp h
  revert this
  generalize n.predsRemove p = o
  generalize n'.predsRemove p' = o'
  intro h
  cases h with
  | none => exact .panic _
  | some h => exact putNode_rel hr hl h

omit hp
theorem revokeSuccs_rel {es : List (Succ V)} {es' : List (Succ Q)} (h : L2 (SuccR r) es es') :
    MR r T (revokeSuccs l es) (revokeSuccs l' es') := by
  induction h with
  | nil => exact .pure trivial
  | cons h _ ih =>
    unfold revokeSuccs
    cases h with
    | mk h0 _ => exact (removePred_rel hr h0 hl).bind fun _ _ _ => ih

omit hr hl
theorem recordEdge_rel {e : Succ V} {e' : Succ Q} (h : SuccR r e e') {d : Option (Dep V)} {d' : Option (Dep Q)} (hd : O2 (DepR r) d d') :
    MR r T (recordEdge e d) (recordEdge e' d') := by
  refine .modify fun s t hs => ?_
  have := hs.stack
  rcases h1 : s.stack with _ | ⟨fr, K⟩ <;> rcases h2 : t.stack with _ | ⟨fr', K'⟩ <;> rw [h1, h2] at this <;> cases this
  · exact hs
  · rename_i hf hK
    cases hf with
    | mk h0 hf => exact { hs with stack := .cons (.mk h0 (hf.snoc ⟨h, hd⟩)) hK }

include hr hl
/-! ### Dirtying -/

theorem checkForceMapDep_rel {ty ty' : Ty} (ht : r.ty ty ty') {f : V → V} {g : Q → Q} (hf : MapR r f g) {v : V} {w : Q} (hv : r.val v w) :
    MR r Eq (checkForceMapDep ty f v l) (checkForceMapDep ty' g w l') := by
  unfold checkForceMapDep
  refine (resNode_rel hr hl ht).bind fun n n' h => ?_
  cases h with
  | comp => exact .panic _
  | pure => exact .panic _
  | «mut» _ _ h => exact .pure (decide_eq_decide.2 (not_congr (hr.val hv (hf _ _ h))))

theorem dirtyStop_rel {d : Option (Dep V)} {d' : Option (Dep Q)} (h : O2 (DepR r) d d') : MR r Eq (dirtyStop d l) (dirtyStop d' l') := by
  cases h with
  | none => exact .pure rfl
  | some h =>
    cases h with
    | forceMap ht hf hv => exact (checkForceMapDep_rel hr hl ht hf hv).bind fun a b h => .pure (by rw [h])
    | _ => exact .pure rfl

include hp in
theorem dirtyObserver_rel {rec : Loc → M V Unit} {rec' : Loc → M Q Unit} (hrec : ∀ l l', LocR r l l' → MR r T (rec l) (rec' l'))
    {d : Option (Dep V)} {d' : Option (Dep Q)} (h : O2 (DepR r) d d') : MR r T (dirtyObserver rec l p d) (dirtyObserver rec' l' p' d') := by
  unfold dirtyObserver
  refine (dirtyStop_rel hr hl h).bind fun b _ e => ?_
  subst e
  refine .ite Iff.rfl (fun _ => .pure trivial) fun _ => ?_
  refine (succDirty_rel hr hl hp .observe).bind fun b _ e => ?_
  subst e
  refine .ite Iff.rfl (fun _ => .pure trivial) fun _ => ?_
  refine .ite (LocR.eq_iff hr hp hl) (fun _ => .panic _) fun _ => ?_
  exact (evBegin_rel hl _ (.some hp)).bind fun _ _ _ => (setSuccDirty_rel hr hl hp _ _).bind fun _ _ _ =>
    (hrec _ _ hp).bind fun _ _ _ => evEnd_rel

theorem dirtyLoop_rel {rec : Loc → M V Unit} {rec' : Loc → M Q Unit} (hrec : ∀ l l', LocR r l l' → MR r T (rec l) (rec' l'))
    {ps : List (Loc × Option (Dep V))} {ps' : List (Loc × Option (Dep Q))} (h : L2 (fun a b => LocR r a.1 b.1 ∧ O2 (DepR r) a.2 b.2) ps ps') :
    MR r T (dirtyLoop rec l ps) (dirtyLoop rec' l' ps') := by
  induction h with
  | nil => exact .pure trivial
  | @cons a b _ _ h _ ih =>
    obtain ⟨p, d⟩ := a
    obtain ⟨p', d'⟩ := b
    obtain ⟨h0, h⟩ := h
    unfold dirtyLoop
    exact (dirtyObserver_rel hr hl h0 hrec h).bind fun _ _ _ => ih

omit hl in
theorem dirtyPreds_rel (k : Nat) : ∀ l l' : Loc, LocR r l l' → MR r T (dirtyPreds k l) (dirtyPreds k l') := by
  induction k with
  | zero => intro l l' _ s t _; exact .oof
  | succ k ih =>
    intro l l' hl
    unfold dirtyPreds
    refine (lookupAbs_rel hr hl).bind fun n n' h => ?_
    have := predsObs_rel h
    revert this
    generalize n.predsObs = o
    generalize n'.predsObs = o'
    intro h
    cases h with
    | none => exact .panic _
    | some h => exact dirtyLoop_rel hr hl ih h

omit hr hl in
theorem tableClean_rel {s : Table V} {t : Table Q} (h : L2 (EntryR r) s t) : tableClean s = tableClean t := by
  have hc : ∀ {es : List (Succ V)} {es' : List (Succ Q)}, L2 (SuccR r) es es' → cleanCount es = cleanCount es' := by
    intro es es' h
    induction h with
    | nil => rfl
    | cons h _ ih => cases h; simp only [cleanCount, ih]
  induction h with
  | nil => rfl
  | @cons a b _ _ h _ ih =>
    obtain ⟨k, n⟩ := a
    obtain ⟨k', n'⟩ := b
    obtain ⟨_, h⟩ := h
    unfold tableClean
    rw [ih]
    congr 1
    cases h with
    | comp _ _ h => exact hc h
    | pure => rfl
    | «mut» => rfl

theorem dirtyPredsTop_rel : MR r T (dirtyPredsTop l) (dirtyPredsTop l') := by
  intro s t hs
  unfold dirtyPredsTop
  rw [tableClean_rel hs.table]
  exact dirtyPreds_rel hr _ l l' hl s t hs

include hp in
theorem dirtyAllocator_rel : MR r T (dirtyAllocator l p) (dirtyAllocator l' p') := by
  unfold dirtyAllocator
  refine (succDirty_rel hr hl hp .allocate).bind fun b _ e => ?_
  subst e
  refine .ite Iff.rfl (fun _ => .pure trivial) fun _ => ?_
  refine (setSuccDirty_rel hr hl hp _ _).bind fun _ _ _ => .ite (LocR.eq_iff hr hp hl) (fun _ => .panic _) fun _ => ?_
  exact (evBegin_rel hl _ (.some hp)).bind fun _ _ _ => (dirtyPredsTop_rel hr hp).bind fun _ _ _ => evEnd_rel

theorem dirtyAllocLoop_rel {ps ps' : List Loc} (h : L2 (LocR r) ps ps') : MR r T (dirtyAllocLoop l ps) (dirtyAllocLoop l' ps') := by
  induction h with
  | nil => exact .pure trivial
  | cons h _ ih => exact (dirtyAllocator_rel hr hl h).bind fun _ _ _ => ih

theorem dirtyAlloc_rel : MR r T (dirtyAlloc l) (dirtyAlloc l') := by
  unfold dirtyAlloc
  refine (dirtyPredsTop_rel hr hl).bind fun _ _ _ => (lookupAbs_rel hr hl).bind fun n n' h => ?_
  have := predsAlloc_rel h
  revert this
  generalize n.predsAlloc = o
  generalize n'.predsAlloc = o'
  intro h
  cases h with
  | none => exact .panic _
  | some h => exact dirtyAllocLoop_rel hr hl h

variable {ty ty' : Ty} (ht : r.ty ty ty') {v : V} {w : Q} (hv : r.val v w)
include ht hv

theorem setCell_rel : MR r T (setCell ty l v) (setCell ty' l' w) := by
  unfold setCell
  refine (resNode_rel hr hl ht).bind fun n n' h => ?_
  cases h with
  | comp => exact .panic _
  | pure => exact .panic _
  | «mut» h0 h h1 =>
    exact .ite (hr.val h1 hv) (fun _ => .pure trivial) fun _ => (putNode_rel hr hl (.mut h0 h hv)).bind fun _ _ _ => dirtyAlloc_rel hr hl

/-! ### Allocation -/

theorem opSet_rel : MR r T (opSet ty l v) (opSet ty' l' w) := by
  unfold opSet
  refine .getBind fun s t hs => ?_
  simp only [hs.stack.isEmpty]
  exact MR.ite Iff.rfl (fun _ => setCell_rel hr hl ht hv) (fun _ => .panic _) s t hs

omit hl ht in
theorem cellDiff_rel {n : Node V} {n' : Node Q} (h : NodeR r n n') : cellDiff n v = cellDiff n' w := by
  cases h with
  | comp => rfl
  | pure => rfl
  | «mut» _ _ h => exact decide_eq_decide.2 (not_congr (hr.val h hv))

theorem cellTable_rel (pu : Bool) : MR r T (cellTable ty l v pu) (cellTable ty' l' w pu) := by
  unfold cellTable
  refine .getBind fun s t hs => ?_
  have hg := get_rel hr hs.table hl
  rcases h1 : s.table.get l with _ | n <;> rcases h2 : t.table.get l' with _ | n' <;> rw [h1, h2] at hg <;> cases hg
  · refine MR.bind (evBegin_rel hl _ (topLoc_rel hs)) (fun _ _ _ => evEnd_rel.bind fun _ _ _ => putNode_rel hr hl ?_) s t hs
    cases pu
    · exact .mut ht .nil hv
    · exact .pure ht hv
  · refine MR.bind (resNode_rel hr hl ht) (fun n n' h => ?_) s t hs
    rw [cellDiff_rel hr hv h]
    refine (evBegin_rel hl _ (topLoc_rel hs)).bind fun _ _ _ => ?_
    cases h with
    | comp _ _ h => exact (dirtyAlloc_rel hr hl).bind fun _ _ _ => (revokeSuccs_rel hr hl h).bind fun _ _ _ => evEnd_rel
    | pure => exact evEnd_rel
    | «mut» _ h => exact (setCell_rel hr hl ht hv).bind fun _ _ _ => evEnd_rel

omit hr ht in
theorem cellRecord_rel (pu : Bool) : MR r T (cellRecord l v pu) (cellRecord l' w pu) := by
  unfold cellRecord
  exact .ite Iff.rfl (fun _ => .pure trivial) fun _ => recordEdge_rel (.mk hl (.allocCell hv)) .none

omit hl
theorem opCell_rel {env : Env V} {env' : Env Q} (he : EnvR r env env') {n m : Name} (hn : r.name n m) :
    MR r (LocR r) (opCell env ty n v) (opCell env' ty' m w) := by
  unfold opCell
  refine .getBind fun s t hs => ?_
  have hl : LocR r ⟨s.path, if s.ignoreNominal then ArtId.structural (env.hashVal v) else ArtId.nominal n⟩
      ⟨t.path, if t.ignoreNominal then ArtId.structural (env'.hashVal w) else ArtId.nominal m⟩ := by
    refine .mk hs.path ?_
    rw [hs.ign]
    split
    · exact .structural (he.hashVal hv)
    · exact .nominal hn
  rw [hs.purity]
  simp only [hs.ign] at hl ⊢
  exact MR.bind (cellTable_rel hr hl ht hv _) (fun _ _ _ => (cellRecord_rel hl hv _).bind fun _ _ _ => .pure hl) s t hs

variable {pp pp' : ProgPt} (hpp : r.pp pp pp') {fn fn' : FnId} (hfn : r.fn fn fn')
include hpp hfn

theorem thunkStructural_rel {env : Env V} {env' : Env Q} (he : EnvR r env env') :
    MR r (LocR r) (thunkStructural env ty pp fn v) (thunkStructural env' ty' pp' fn' w) := by
  unfold thunkStructural
  refine .getBind fun s t hs => ?_
  have hl : LocR r ⟨s.path, .structural (env.hashApp pp v)⟩ ⟨t.path, .structural (env'.hashApp pp' w)⟩ :=
    .mk hs.path (.structural (he.hashApp hpp hv))
  have hg := get_rel hr hs.table hl
  revert hg
  generalize s.table.get _ = o
  generalize t.table.get _ = o'
  intro h
  cases h with
  | some h => exact .ok hl hs
  | none =>
    exact MR.bind (recordEdge_rel (.mk hl .allocStruct) .none)
      (fun _ _ _ => (putNode_rel hr hl (.comp ht .nil .nil hpp hfn hv .none)).bind fun _ _ _ => .pure hl) s t hs

theorem thunkNominal_rel {n m : Name} (hn : r.name n m) : MR r (LocR r) (thunkNominal ty n pp fn v) (thunkNominal ty' m pp' fn' w) := by
  unfold thunkNominal
  refine .getBind fun s t hs => ?_
  have hl : LocR r ⟨s.path, .nominal n⟩ ⟨t.path, .nominal m⟩ := .mk hs.path (.nominal hn)
  revert hl
  generalize (⟨s.path, .nominal n⟩ : Loc) = l
  generalize (⟨t.path, .nominal m⟩ : Loc) = l'
  intro hl
  have htop := topLoc_rel hs
  have hrec : MR r T (recordEdge ⟨false, l, .allocate, .allocNom v⟩ none)
      (recordEdge ⟨false, l', .allocate, .allocNom w⟩ none) := recordEdge_rel (.mk hl (.allocNom hv)) .none
  have hg := get_rel hr hs.table hl
  revert hg
  generalize s.table.get _ = o
  generalize t.table.get _ = o'
  intro h
  cases h with
  | none =>
    exact MR.bind (evBegin_rel hl _ htop) (fun _ _ _ => evEnd_rel.bind fun _ _ _ => hrec.bind fun _ _ _ =>
      (putNode_rel hr hl (.comp ht .nil .nil hpp hfn hv .none)).bind fun _ _ _ => .pure hl) s t hs
  | some h =>
    refine MR.bind (resNode_rel hr hl ht) (fun n n' h => ?_) s t hs
    cases h with
    | pure => exact .panic _
    | «mut» h =>
      exact (evBegin_rel hl _ htop).bind fun _ _ _ => (dirtyAlloc_rel hr hl).bind fun _ _ _ => evEnd_rel.bind fun _ _ _ =>
        hrec.bind fun _ _ _ => (putNode_rel hr hl (.comp ht .nil .nil hpp hfn hv .none)).bind fun _ _ _ => .pure hl
    | comp h0 h1 h2 h3 h4 h5 h6 =>
      refine .ite (hr.pp h3 hpp) (fun _ => .ite (hr.val h5 hv) (fun _ => ?_) fun _ => ?_) fun _ => .panic _
      · exact (evBegin_rel hl _ htop).bind fun _ _ _ => evEnd_rel.bind fun _ _ _ => hrec.bind fun _ _ _ => .pure hl
      · exact (putNode_rel hr hl (.comp h0 h1 h2 h3 h4 hv .none)).bind fun _ _ _ => (evBegin_rel hl _ htop).bind fun _ _ _ =>
          (dirtyAlloc_rel hr hl).bind fun _ _ _ => evEnd_rel.bind fun _ _ _ => hrec.bind fun _ _ _ => .pure hl

theorem opThunk_rel {env : Env V} {env' : Env Q} (he : EnvR r env env') {nc nc' : NameChoice} (hnc : ChoiceR r nc nc') :
    MR r (LocR r) (opThunk env ty nc pp fn v) (opThunk env' ty' nc' pp' fn' w) := by
  unfold opThunk
  refine .getBind fun s t hs => ?_
  cases hnc with
  | eager => exact .panic hs
  | naive => exact .panic hs
  | structural => exact thunkStructural_rel hr ht hv hpp hfn he s t hs
  | nominal hn =>
    simp only [hs.ign]
    exact MR.ite Iff.rfl (fun _ => thunkStructural_rel hr ht hv hpp hfn he) (fun _ => thunkNominal_rel hr ht hv hpp hfn hn) s t hs

end Laws

/-! ### Forcing -/

/-- The recursive entry points are related. -/
structure RecR (r : Rel V Q) (R : Rec V) (R' : Rec Q) : Prop where
  produce : ∀ {ty ty' l l'}, r.ty ty ty' → LocR r l l' → MR r r.val (R.produce ty l) (R'.produce ty' l')
  cleanForce : ∀ {ty ty' v w l l'}, r.ty ty ty' → r.val v w → LocR r l l' → MR r Eq (R.cleanForce ty v l) (R'.cleanForce ty' w l')
  run : ∀ {p q}, ProgR r p q → MR r r.val (R.run p) (R'.run q)

section Laws
variable [UEq V] [UEq Q] (hr : r.Lawful)
include hr

theorem seen_rel {s : St V} {t : St Q} (hs : StR r s t) {l l' : Loc} (hl : LocR r l l') : seen s l = seen t l' := by
  unfold seen
  have := hs.stack
  rcases h1 : s.stack with _ | ⟨fr, K⟩ <;> rcases h2 : t.stack with _ | ⟨fr', K'⟩ <;> rw [h1, h2] at this <;>
    first | (cases this; done) | skip
  · cases this with
    | cons hf _ =>
    cases hf with
    | mk _ hf =>
      refine hf.any fun a b h => ?_
      obtain ⟨⟨_, _, _, _⟩, _⟩ := a
      obtain ⟨⟨_, _, _, _⟩, _⟩ := b
      obtain ⟨h, _⟩ := h
      cases h with
      | mk h _ => exact decide_eq_decide.2 (and_congr (LocR.eq_iff hr h hl) Iff.rfl)

variable {R : Rec V} {R' : Rec Q} (hR : RecR r R R')
include hR

variable {ty ty' : Ty} (ht : r.ty ty ty') {l l' : Loc} (hl : LocR r l l')
include ht hl

theorem forceBody_rel {cyc : Option V} {cyc' : Option Q} (hc : O2 r.val cyc cyc') (pu isC isD : Bool)
    {src src' : Option Loc} (hsrc : O2 (LocR r) src src') :
    MR r r.val (forceBody R ty l cyc pu isC isD src) (forceBody R' ty' l' cyc' pu isC isD src') := by
  unfold forceBody
  have hrec : ∀ v w, r.val v w → MR r r.val (if isD then (Pure.pure v : M V V) else do recordEdge ⟨false, l, .observe, .force ty v⟩ none; Pure.pure v)
      (if isD then (Pure.pure w : M Q Q) else do recordEdge ⟨false, l', .observe, .force ty' w⟩ none; Pure.pure w) := by
    intro v w hv
    exact .ite Iff.rfl (fun _ => .pure hv) fun _ => (recordEdge_rel (.mk hl (.force ht hv)) .none).bind fun _ _ _ => .pure hv
  refine MR.bind (resNode_rel hr hl ht) (fun n n' h => ?_)
  cases h with
  | pure _ hv => exact (evEff_rel hl _ hsrc).bind fun _ _ _ => .pure hv
  | «mut» _ _ hv => exact (evEff_rel hl _ hsrc).bind fun _ _ _ => hrec _ _ hv
  | @comp ty0 ty0' ps ps' ss ss' pp pp' fn fn' arg arg' res res' h0 h1 h2 h3 h4 h5 h6 =>
    simp only [h2.length]
    have hfin : ∀ (isP isP' : Bool) v w, isP = isP' → r.val v w → MR r r.val
        (if isP then (Pure.pure v : M V V) else if isD then (Pure.pure v : M V V) else do recordEdge ⟨false, l, .observe, .force ty v⟩ none; Pure.pure v)
        (if isP' then (Pure.pure w : M Q Q) else if isD then (Pure.pure w : M Q Q) else do recordEdge ⟨false, l', .observe, .force ty' w⟩ none; Pure.pure w) :=
      fun isP isP' v w e h => .ite (by rw [e]) (fun _ => .pure h) fun _ => hrec v w h
    have hP : (match l.id with | .structural _ => decide (ss'.length = 0) && pu | .nominal _ => false) =
        (match l'.id with | .structural _ => decide (ss'.length = 0) && pu | .nominal _ => false) := by
      cases hl with | mk _ h => cases h <;> rfl
    refine .ite Iff.rfl (fun _ => ?_) fun _ => ?_
    · cases hc with
      | none => exact .panic _
      | some hc => exact (evBegin_rel hl _ hsrc).bind fun _ _ _ => evEnd_rel.bind fun _ _ _ => hfin _ _ _ _ hP hc
    · cases h6 with
      | none =>
        refine (evBegin_rel hl _ hsrc).bind fun _ _ _ => .ite Iff.rfl (fun _ => .panic _) fun _ => ?_
        exact (hR.produce ht hl).bind fun v w h => evEnd_rel.bind fun _ _ _ => hfin _ _ v w hP h
      | some hres =>
        refine (evBegin_rel hl _ hsrc).bind fun _ _ _ => (hR.cleanForce ht hres hl).bind fun _ _ _ => evEnd_rel.bind fun _ _ _ =>
          (resNode_rel hr hl ht).bind fun n n' h => ?_
        cases h with
        | pure => exact .panic _
        | «mut» => exact .panic _
        | comp _ _ _ _ _ _ h =>
          cases h with
          | none => exact .panic _
          | some h => exact hfin _ _ _ _ hP h

theorem opForce_rel {cyc : Option V} {cyc' : Option Q} (hc : O2 r.val cyc cyc') :
    MR r r.val (opForce R ty l cyc) (opForce R' ty' l' cyc') := by
  intro s t hs
  have hcy : (s.stack.any fun fr => decide (fr.loc = l)) = (t.stack.any fun fr => decide (fr.loc = l')) :=
    hs.stack.any fun a b h => by cases h with | mk h _ => exact decide_eq_decide.2 (LocR.eq_iff hr h hl)
  rw [opForce_body, opForce_body, hcy, seen_rel hr hs hl, hs.purity]
  exact forceBody_rel hr hR ht hl hc _ _ _ (topLoc_rel hs) s t hs

variable {f : V → V} {g : Q → Q} (hf : MapR r f g)
include hf

theorem opForceMap_rel : MR r r.val (opForceMap R ty l f) (opForceMap R' ty' l' g) := by
  unfold opForceMap
  refine .getBind fun s t hs => ?_
  have hother : MR r r.val (do let v ← opForce R ty l none; Pure.pure (f v)) (do let v ← opForce R' ty' l' none; Pure.pure (g v)) :=
    (opForce_rel hr hR ht hl .none).bind fun v w h => .pure (hf _ _ h)
  refine MR.bind (resNode_rel hr hl ht) (fun n n' h => ?_) s t hs
  cases h with
  | pure => exact hother
  | comp => exact hother
  | «mut» _ _ h =>
    refine (evEff_rel hl _ (topLoc_rel hs)).bind fun _ _ _ => ?_
    exact (recordEdge_rel (.mk hl (.forceMap ht hf (hf _ _ h))) (.some (.forceMap ht hf (hf _ _ h)))).bind fun _ _ _ => .pure (hf _ _ h)

theorem opForceAbs_rel : MR r r.val (opForceAbs R ty l f) (opForceAbs R' ty' l' g) := by
  unfold opForceAbs
  refine .getBind fun s t hs => ?_
  have hother : MR r r.val (do let v ← opForce R ty l none; Pure.pure (f v)) (do let v ← opForce R' ty' l' none; Pure.pure (g v)) :=
    (opForce_rel hr hR ht hl .none).bind fun v w h => .pure (hf _ _ h)
  refine MR.bind (resNode_rel hr hl ht) (fun n n' h => ?_) s t hs
  cases h with
  | pure => exact hother
  | comp => exact hother
  | «mut» _ _ h =>
    exact (evEff_rel hl _ (topLoc_rel hs)).bind fun _ _ _ => (recordEdge_rel (.mk hl .forceAbs) (.some .forceAbs)).bind fun _ _ _ => .pure (hf _ _ h)

omit ht hl hf
theorem runProg_rel {env : Env V} {env' : Env Q} (he : EnvR r env env') {p : Prog V} {q : Prog Q}
    (h : ProgR r p q) : MR r r.val (runProg env R p) (runProg env' R' q) := by
  induction h with
  | ret hv => exact .pure hv
  | force ht hl hc _ ih => exact (opForce_rel hr hR ht hl hc).bind ih
  | forceMap ht hl hf _ ih => exact (opForceMap_rel hr hR ht hl hf).bind ih
  | forceAbs ht hl hf _ ih => exact (opForceAbs_rel hr hR ht hl hf).bind ih
  | cell ht hn hv _ ih => exact (opCell_rel hr ht hv he hn).bind ih
  | thunk ht hnc hpp hfn hv _ ih => exact (opThunk_rel hr ht hv hpp hfn he hnc).bind ih
  | set ht hl hv _ ih => exact (opSet_rel hr hl ht hv).bind fun _ _ _ => ih
  | ns hn _ _ ihb ihk =>
    unfold runProg
    refine .getBind fun s t hs => ?_
    refine MR.bind (by exact MR.modify fun s t hs => { hs with path := .child hs.path hn }) (fun _ _ _ => ?_) s t hs
    exact ihb.bind fun v w h => MR.bind (by exact MR.modify fun s' t' hs' => { hs' with path := hs.path }) fun _ _ _ => ihk v w h
  | structural _ _ ihb ihk =>
    unfold runProg
    refine .getBind fun s t hs => ?_
    refine MR.bind (by exact MR.modify fun s t hs => { hs with ign := rfl }) (fun _ _ _ => ?_) s t hs
    exact ihb.bind fun v w h => MR.bind (by exact MR.modify fun s' t' hs' => { hs' with ign := hs.ign }) fun _ _ _ => ihk v w h
  | call hfn hv _ ih => exact (hR.run (he.code hfn hv)).bind ih
  | panic => exact .panic _

/-! ### Re-evaluation and cleaning -/

omit hR in
theorem installPred_rel {l l' : Loc} (hl : LocR r l l') {e : Succ V} {e' : Succ Q} (h : SuccR r e e') {d : Option (Dep V)} {d' : Option (Dep Q)}
    (hd : O2 (DepR r) d d') : MR r T (installPred l e d) (installPred l' e' d') := by
  unfold installPred
  cases h with
  | @mk d0 l0 l0' e0 x y h0 h =>
    refine .ite Iff.rfl (fun _ => .panic _) fun _ => (lookupAbs_rel hr h0).bind fun n n' hn => ?_
    have := predsInsert_rel hl hn e0 hd
    revert this
    generalize n.predsInsert e0 l d = o
    generalize n'.predsInsert e0 l' d' = o'
    intro h
    cases h with
    | none => exact .panic _
    | some h => exact putNode_rel hr h0 h

omit hR in
theorem installPreds_rel {l l' : Loc} (hl : LocR r l l') {es : List (Succ V × Option (Dep V))} {es' : List (Succ Q × Option (Dep Q))}
    (h : L2 (EdgeR r) es es') : MR r T (installPreds l es) (installPreds l' es') := by
  induction h with
  | nil => exact .pure trivial
  | @cons a b _ _ h _ ih =>
    obtain ⟨e, d⟩ := a
    obtain ⟨e', d'⟩ := b
    unfold installPreds
    exact (installPred_rel hr hl h.1 h.2).bind fun _ _ _ => ih

include ht hl in
theorem produceBody_rel {env : Env V} {env' : Env Q} (he : EnvR r env env') :
    MR r r.val (produceBody env R ty l) (produceBody env' R' ty' l') := by
  unfold produceBody
  refine (resNode_rel hr hl ht).bind fun n n' h => ?_
  cases h with
  | pure => exact .panic _
  | «mut» => exact .panic _
  | comp h0 h1 h2 h3 h4 h5 h6 =>
    refine (putNode_rel hr hl (.comp h0 h1 .nil h3 h4 h5 h6)).bind fun _ _ _ => (revokeSuccs_rel hr hl h2).bind fun _ _ _ => .getBind fun s t hs => ?_
    have hpath : PathR r l.path l'.path := by cases hl with | mk h _ => exact h
    refine MR.bind (by exact MR.modify fun s t hs => { hs with stack := .cons (.mk hl .nil) hs.stack, path := hpath }) (fun _ _ _ => ?_) s t hs
    refine (resNode_rel hr hl ht).bind fun n n' h => ?_
    cases h with
    | pure => exact .panic _
    | «mut» => exact .panic _
    | comp _ _ _ _ hfn ha _ =>
      refine MR.bind (by exact MR.modify fun s t hs => { hs with runs := .cons hl hs.runs }) fun _ _ _ => ?_
      refine (hR.run (he.code hfn ha)).bind fun v w hv => ?_
      refine MR.bind (by exact MR.modify fun s' t' hs' => { hs' with path := hs.path }) fun _ _ _ => .getBind fun s t hs => ?_
      have hst := hs.stack
      revert hst
      generalize hK : s.stack = K
      generalize hK' : t.stack = K'
      intro hst
      cases hst with
      | nil => exact .panic hs
      | cons hf hrest =>
        cases hf with
        | mk hf0 hf =>
          refine MR.bind (by exact MR.modify fun s t hs => { hs with stack := hrest }) (fun _ _ _ => ?_) s t hs
          refine .ite (LocR.eq_iff hr hf0 hl) (fun _ => ?_) fun _ => .panic _
          refine (installPreds_rel hr hl hf).bind fun _ _ _ => (resNode_rel hr hl ht).bind fun n n' h => ?_
          cases h with
          | pure => exact .panic _
          | «mut» => exact .panic _
          | comp h0 h1 _ h3 h4 h5 _ =>
            exact (putNode_rel hr hl (.comp h0 h1 (hf.map fun a b h => h.1) h3 h4 h5 (.some hv))).bind fun _ _ _ => .pure hv

include hl in
theorem cleanDep_rel {d : Dep V} {d' : Dep Q} (h : DepR r d d') : MR r Eq (cleanDep R d l) (cleanDep R' d' l') := by
  cases h with
  | allocStruct => exact .pure rfl
  | allocNom => exact .pure rfl
  | allocCell => exact .pure rfl
  | force ht hv => exact hR.cleanForce ht hv hl
  | forceMap ht hf hv => exact checkForceMapDep_rel hr hl ht hf hv
  | forceAbs => exact .pure rfl

include ht hl
variable {v : V} {w : Q} (hv : r.val v w)
include hv

theorem cleanLoop_rel {es : List (Succ V)} {es' : List (Succ Q)} (h : L2 (SuccR r) es es') :
    MR r Eq (cleanLoop R ty v l es) (cleanLoop R' ty' w l' es') := by
  induction h with
  | nil => exact .pure rfl
  | cons h _ ih =>
    cases h with
    | mk h0 h =>
      unfold cleanLoop
      refine (succDirty_rel hr h0 hl _).bind fun b _ e => ?_
      subst e
      refine .ite Iff.rfl (fun _ => ?_) fun _ => ih
      refine (evBegin_rel h0 _ (.some hl)).bind fun _ _ _ => (cleanDep_rel hr hR h0 h).bind fun b _ e => ?_
      subst e
      refine .ite Iff.rfl (fun _ => ?_) fun _ => ?_
      · refine (evBegin_rel h0 _ (.some hl)).bind fun _ _ _ => (hR.produce ht hl).bind fun v' w' h => evEnd_rel.bind fun _ _ _ => evEnd_rel.bind fun _ _ _ => ?_
        exact .pure (congrArg some (decide_eq_decide.2 (not_congr (hr.val h hv))))
      · exact (setSuccDirty_rel hr h0 hl _ _).bind fun _ _ _ => (evEff_rel h0 _ (.some hl)).bind fun _ _ _ => evEnd_rel.bind fun _ _ _ => ih

theorem cleanForceBody_rel : MR r Eq (cleanForceBody R ty v l) (cleanForceBody R' ty' w l') := by
  unfold cleanForceBody
  refine (resNode_rel hr hl ht).bind fun n n' h => ?_
  cases h with
  | pure => exact .pure rfl
  | «mut» _ _ h => exact .pure (decide_eq_decide.2 (not_congr (hr.val h hv)))
  | comp _ h1 h2 _ _ _ h6 =>
    cases h6 with
    | none =>
      exact (evBegin_rel hl _ .none).bind fun _ _ _ => (hR.produce ht hl).bind fun v w h => evEnd_rel.bind fun _ _ _ =>
        .pure (decide_eq_decide.2 (not_congr (hr.val hv h)))
    | some hc =>
      refine (cleanLoop_rel hr hR ht hl hv h2).bind fun a b e => ?_
      subst e
      cases a with
      | none => exact .pure (decide_eq_decide.2 (not_congr (hr.val hv hc)))
      | some ch => exact .pure rfl

omit hR ht hl hv
theorem recN_rel {env : Env V} {env' : Env Q} (he : EnvR r env env') (n : Nat) : RecR r (recN env n) (recN env' n) := by
  induction n with
  | zero => exact ⟨fun _ _ _ _ _ => .oof, fun _ _ _ _ _ _ => .oof, fun _ _ _ _ => .oof⟩
  | succ n ih =>
    exact ⟨fun ht hl => produceBody_rel hr ih ht hl he, fun ht hv hl => cleanForceBody_rel hr ih ht hl hv, fun h => runProg_rel hr ih he h⟩

theorem exec_rel {env : Env V} {env' : Env Q} (he : EnvR r env env') (n : Nat) {p : Prog V} {q : Prog Q} (h : ProgR r p q) :
    MR r r.val (exec env n p) (exec env' n q) := runProg_rel hr (recN_rel hr he n) he h

theorem runSession_rel {env : Env V} {env' : Env Q} (he : EnvR r env env') (n : Nat) {ps : List (Prog V)} {qs : List (Prog Q)}
    (h : L2 (ProgR r) ps qs) : MR r (L2 r.val) (runSession env n ps) (runSession env' n qs) := by
  induction h with
  | nil => exact .pure .nil
  | cons h _ ih => exact (exec_rel hr he n h).bind fun v w h => ih.bind fun vs ws h' => .pure (.cons h h')

end Laws

theorem initSt_rel (purity ign : Bool) : StR r (initSt purity ign) (initSt purity ign) := ⟨.nil, .nil, .empty, rfl, rfl, .nil, .nil⟩

end Adapton.Param
