import Verif.Trace.Count
/-
What the traces emitted by the engine look like.
-/
set_option linter.unusedSectionVars false
set_option linter.unusedVariables false
set_option linter.unusedSimpArgs false
namespace Adapton.Trace
open Adapton
variable {V α β : Type}

/-- Dirtying only causes dirtying. -/
inductive DirtyT : CTree → Prop
  | mk {ext} : (∀ t ∈ ext, DirtyT t) → DirtyT (.node (.eng .dirty) ext)

/-- Traces that occur while the archivist works. -/
inductive ArchT : CTree → Prop
  | dirty {ext} : (∀ t ∈ ext, DirtyT t) → ArchT (.node (.eng .dirty) ext)
  | remove : ArchT (.node (.eng .remove) [])
  | cleanEdge : ArchT (.node (.eng .cleanEdge) [])
  | fresh {k} : ArchT (.node (.eng (.alloc .locFresh k)) [])
  | refGet : ArchT (.node (.eng (.force .refGet)) [])
  | existing {d k ext} : (∀ t ∈ ext, DirtyT t ∨ t = .node (.eng .remove) []) → ArchT (.node (.eng (.alloc (.locExists d) k)) ext)
  | hit {ext} : (∀ t ∈ ext, ArchT t) → ArchT (.node (.eng (.force .compCacheHit)) ext)
  | miss {ext} : (∀ t ∈ ext, ArchT t) → ArchT (.node (.eng (.force .compCacheMiss)) ext)
  | cleanRec {ext} : (∀ t ∈ ext, ArchT t) → ArchT (.node (.eng .cleanRec) ext)
  | cleanEval {ext} : (∀ t ∈ ext, ArchT t) → ArchT (.node (.eng .cleanEval) ext)

/-- Effects that user code issues itself. -/
def userEff : CEff → Bool
  | .eng .dirty => true
  | .eng (.alloc _ _) => true
  | .eng (.force _) => true
  | _ => false

/-- Traces that user code issues itself. -/
def EdT (t : CTree) : Prop := ArchT t ∧ userEff t.eff = true

theorem toCL_eq (ts : List Tree) : toCL ts = ts.map Tree.toC := by
  induction ts with
  | nil => rfl
  | cons t ts ih => rw [toCL, ih]; rfl

theorem mem_toCL {P : CTree → Prop} {ts : List Tree} : (∀ t ∈ toCL ts, P t) ↔ ∀ t ∈ ts, P t.toC := by
  rw [toCL_eq]; simp

/-- On normal return the operation has emitted a forest of traces that satisfy `P`. -/
def Emits (P : CTree → Prop) (m : M V α) : Prop :=
  ∀ s a s', m s = .ok a s' → ∃ evs ts, s'.log = evs.reverse ++ s.log ∧ Parses evs ts ∧ ∀ t ∈ toCL ts, P t

/-- On normal return the operation has emitted a forest satisfying `Q`, the end of the enclosing extent, and a forest
satisfying `P`. -/
def Closes (Q P : CTree → Prop) (m : M V α) : Prop :=
  ∀ s a s', m s = .ok a s' → ∃ inner ext evs ts, s'.log = (inner ++ .end_ :: evs).reverse ++ s.log ∧
    Parses inner ext ∧ (∀ t ∈ toCL ext, Q t) ∧ Parses evs ts ∧ ∀ t ∈ toCL ts, P t

theorem bind_inv {m : M V α} {f : α → M V β} {s s' : St V} {b : β} (h : (m >>= f) s = .ok b s') :
    ∃ a s1, m s = .ok a s1 ∧ f a s1 = .ok b s' := by
  rw [M.bind_def] at h
  rcases hm : m s with ⟨a, s1⟩ | ⟨e, s1⟩ | _
  · rw [hm] at h; exact ⟨a, s1, rfl, h⟩
  · rw [hm] at h; cases h
  · rw [hm] at h; cases h

theorem Emits.mono {P Q : CTree → Prop} {m : M V α} (h : Emits P m) (hPQ : ∀ t, P t → Q t) : Emits Q m := by
  intro s a s' hm
  obtain ⟨evs, ts, h1, h2, h3⟩ := h s a s' hm
  exact ⟨evs, ts, h1, h2, fun t ht => hPQ t (h3 t ht)⟩

theorem Emits.quiet {P : CTree → Prop} {m : M V α} (h : ∀ s a s', m s = .ok a s' → s'.log = s.log) : Emits P m :=
  fun s a s' hm => ⟨[], [], by rw [h s a s' hm]; rfl, .nil, fun _ ht => by cases ht⟩

theorem Emits.pure {P : CTree → Prop} (a : α) : Emits P (Pure.pure a : M V α) :=
  .quiet fun s b s' h => by cases h; rfl

theorem Emits.get {P : CTree → Prop} : Emits P (M.get : M V (St V)) := .quiet fun s b s' h => by cases h; rfl

theorem Emits.panic {P : CTree → Prop} (e : Err) : Emits P (M.panic e : M V α) := fun s b s' h => by cases h

theorem Emits.modify {P : CTree → Prop} {f : St V → St V} (hf : ∀ s, (f s).log = s.log) : Emits P (M.modify f) :=
  .quiet fun s b s' h => by cases h; exact hf s

theorem Emits.bind {P : CTree → Prop} {m : M V α} {f : α → M V β} (hm : Emits P m) (hf : ∀ a, Emits P (f a)) :
    Emits P (m >>= f) := by
  intro s b s' h
  obtain ⟨a, s1, h1, h2⟩ := bind_inv h
  obtain ⟨e1, t1, p1, p2, p3⟩ := hm _ _ _ h1
  obtain ⟨e2, t2, q1, q2, q3⟩ := hf a _ _ _ h2
  refine ⟨e1 ++ e2, t1 ++ t2, by rw [q1, p1]; simp, p2.append q2, ?_⟩
  rw [mem_toCL] at *
  intro t ht
  rcases List.mem_append.1 ht with ht | ht
  · exact p3 t ht
  · exact q3 t ht

theorem Emits.eff {P : CTree → Prop} {e : TEff} {a : Option Loc} {b : Loc} (h : P (.node (.eng e) [])) :
    Emits P (evEff e a b : M V Unit) := by
  intro s x s' hm
  cases hm
  exact ⟨[.eff e a b], [.node e a b []], rfl, .eff .nil, by rw [mem_toCL]; intro t ht; cases List.mem_singleton.1 ht; exact h⟩

theorem Emits.ext {P Q : CTree → Prop} {e : TEff} {a : Option Loc} {b : Loc} {m : M V α}
    (hP : ∀ ext, (∀ t ∈ ext, Q t) → P (.node (.eng e) ext)) (hm : Closes Q P m) :
    Emits P (evBegin e a b >>= fun _ => m) := by
  intro s x s' h
  obtain ⟨_, s1, h1, h2⟩ := bind_inv h
  cases h1
  obtain ⟨inner, ext, evs, ts, g1, g2, g3, g4, g5⟩ := hm _ _ _ h2
  refine ⟨.begin e a b :: (inner ++ .end_ :: evs), .node e a b ext :: ts, ?_, .ext g2 g4, ?_⟩
  · rw [g1]; simp
  · rw [mem_toCL] at g5 ⊢
    intro t ht
    rcases List.mem_cons.1 ht with rfl | ht
    · exact hP _ g3
    · exact g5 t ht

theorem Closes.bind {P Q : CTree → Prop} {m : M V α} {f : α → M V β} (hm : Emits Q m) (hf : ∀ a, Closes Q P (f a)) :
    Closes Q P (m >>= f) := by
  intro s b s' h
  obtain ⟨a, s1, h1, h2⟩ := bind_inv h
  obtain ⟨e1, t1, p1, p2, p3⟩ := hm _ _ _ h1
  obtain ⟨inner, ext, evs, ts, g1, g2, g3, g4, g5⟩ := hf a _ _ _ h2
  refine ⟨e1 ++ inner, t1 ++ ext, evs, ts, by rw [g1, p1]; simp, p2.append g2, ?_, g4, g5⟩
  rw [mem_toCL] at *
  intro t ht
  rcases List.mem_append.1 ht with ht | ht
  · exact p3 t ht
  · exact g3 t ht

theorem Closes.end_ {P Q : CTree → Prop} : Closes Q P (evEnd : M V Unit) := by
  intro s a s' h
  cases h
  exact ⟨[], [], [], [], rfl, .nil, fun _ ht => (by cases ht), .nil, fun _ ht => (by cases ht)⟩

theorem Closes.then_ {P Q : CTree → Prop} {m : M V α} {f : α → M V β} (hm : Closes Q P m) (hf : ∀ a, Emits P (f a)) :
    Closes Q P (m >>= f) := by
  intro s b s' h
  obtain ⟨a, s1, h1, h2⟩ := bind_inv h
  obtain ⟨inner, ext, evs, ts, g1, g2, g3, g4, g5⟩ := hm _ _ _ h1
  obtain ⟨e2, t2, q1, q2, q3⟩ := hf a _ _ _ h2
  refine ⟨inner, ext, evs ++ e2, ts ++ t2, by rw [q1, g1]; simp, g2, g3, g4.append q2, ?_⟩
  rw [mem_toCL] at *
  intro t ht
  rcases List.mem_append.1 ht with ht | ht
  · exact g5 t ht
  · exact q3 t ht

theorem Closes.panic {P Q : CTree → Prop} (e : Err) : Closes Q P (M.panic e : M V α) := fun s b s' h => by cases h

theorem Emits.ite {P : CTree → Prop} {c : Prop} [Decidable c] {a b : M V α} (ha : Emits P a) (hb : Emits P b) : Emits P (if c then a else b) := by
  by_cases h : c
  · rw [if_pos h]; exact ha
  · rw [if_neg h]; exact hb

theorem Closes.ite {P Q : CTree → Prop} {c : Prop} [Decidable c] {a b : M V α} (ha : Closes Q P a) (hb : Closes Q P b) :
    Closes Q P (if c then a else b) := by
  by_cases h : c
  · rw [if_pos h]; exact ha
  · rw [if_neg h]; exact hb

theorem bind_assoc {γ : Type} (m : M V α) (f : α → M V β) (g : β → M V γ) :
    (m >>= f) >>= g = m >>= fun a => f a >>= g := by
  funext s
  rw [M.bind_def, M.bind_def, M.bind_def]
  rcases m s with ⟨a, s1⟩ | ⟨e, s1⟩ | _ <;> rfl

section
variable [UEq V]

theorem lookupAbs_emits {P} (l : Loc) : Emits P (lookupAbs l : M V (Node V)) := by
  refine .quiet fun s a s' h => ?_
  unfold lookupAbs at h
  rcases hg : s.table.get l with _ | n <;> rw [hg] at h <;> cases h
  rfl

theorem resNode_emits {P} (ty : Ty) (l : Loc) : Emits P (resNode ty l : M V (Node V)) := by
  unfold resNode
  refine (lookupAbs_emits l).bind fun n => ?_
  by_cases h : n.ty = ty
  · rw [if_pos h]; exact .pure _
  · rw [if_neg h]; exact .panic _

theorem putNode_emits {P} (l : Loc) (n : Node V) : Emits P (putNode l n) := .modify fun _ => rfl

theorem recordEdge_emits {P} (e : Succ V) (d : Option (Dep V)) : Emits P (recordEdge e d) := by
  refine .modify fun s => ?_
  cases s with
  | mk table stack path purity ign log runs => cases stack <;> rfl

theorem succDirty_emits {P} (p : Loc) (eff : Effect) (l : Loc) : Emits P (succDirty p eff l : M V Bool) := by
  unfold succDirty
  refine (lookupAbs_emits p).bind fun n => ?_
  match n with
  | .comp nd =>
    rcases h : nd.succs.find? (Succ.matches eff l) with _ | e
    · simp only [h]; exact .panic _
    · simp only [h]; exact .pure _
  | .mut _ => exact .panic _
  | .pure _ => exact .panic _

theorem setSuccDirty_emits {P} (p : Loc) (eff : Effect) (l : Loc) (b : Bool) : Emits P (setSuccDirty p eff l b : M V Unit) := by
  unfold setSuccDirty
  refine (lookupAbs_emits p).bind fun n => ?_
  match n with
  | .comp nd =>
    rcases h : nd.succs.find? (Succ.matches eff l) with _ | e
    · simp only [h]; exact .panic _
    · simp only [h]; exact putNode_emits _ _
  | .mut _ => exact .panic _
  | .pure _ => exact .panic _

theorem checkForceMapDep_emits {P} (ty : Ty) (f : V → V) (r : V) (l : Loc) : Emits P (checkForceMapDep ty f r l) := by
  unfold checkForceMapDep
  refine (resNode_emits ty l).bind fun n => ?_
  match n with
  | .comp nd => exact .panic _
  | .mut _ => exact .pure _
  | .pure _ => exact .panic _

theorem dirtyStop_emits {P} (d : Option (Dep V)) (l : Loc) : Emits P (dirtyStop d l) := by
  match d with
  | none => exact .pure _
  | some .forceAbs => exact .pure _
  | some (.forceMap ty f res) => exact (checkForceMapDep_emits ty f res l).bind fun _ => .pure _
  | some .allocStruct => exact .pure _
  | some (.allocNom _) => exact .pure _
  | some (.allocCell _) => exact .pure _
  | some (.force _ _) => exact .pure _

theorem dirtyObserver_emits {rec : Loc → M V Unit} (hr : ∀ l, Emits DirtyT (rec l)) (l p : Loc) (d : Option (Dep V)) :
    Emits DirtyT (dirtyObserver rec l p d) := by
  unfold dirtyObserver
  refine (dirtyStop_emits d l).bind fun st => ?_
  cases st
  · refine (succDirty_emits p .observe l).bind fun b => ?_
    cases b
    · simp only [Bool.false_eq_true, if_false]
      by_cases h : p = l
      · rw [if_pos h]; exact .panic _
      · rw [if_neg h]
        exact .ext (fun ext h => .mk h) (.bind (setSuccDirty_emits _ _ _ _) fun _ => .bind (hr p) fun _ => .end_)
    · exact .pure _
  · exact .pure _

theorem dirtyLoop_emits {rec : Loc → M V Unit} (hr : ∀ l, Emits DirtyT (rec l)) (l : Loc) (ps : List (Loc × Option (Dep V))) :
    Emits DirtyT (dirtyLoop rec l ps) := by
  induction ps with
  | nil => exact .pure _
  | cons hd tl ih => obtain ⟨p, d⟩ := hd; exact .bind (dirtyObserver_emits hr l p d) fun _ => ih

theorem dirtyPreds_emits (k : Nat) : ∀ l, Emits DirtyT (dirtyPreds k l : M V Unit) := by
  induction k with
  | zero => intro l s a s' h; cases h
  | succ k ih =>
    intro l
    unfold dirtyPreds
    refine (lookupAbs_emits l).bind fun n => ?_
    rcases h : n.predsObs with _ | ps
    · simp only [h]; exact .panic _
    · simp only [h]; exact dirtyLoop_emits ih l ps

theorem dirtyPredsTop_emits (l : Loc) : Emits DirtyT (dirtyPredsTop l : M V Unit) :=
  fun s a s' h => dirtyPreds_emits _ l s a s' h

theorem dirtyAllocator_emits (l p : Loc) : Emits DirtyT (dirtyAllocator l p : M V Unit) := by
  unfold dirtyAllocator
  refine (succDirty_emits p .allocate l).bind fun b => ?_
  cases b
  · refine (setSuccDirty_emits p .allocate l true).bind fun _ => ?_
    by_cases h : p = l
    · rw [if_pos h]; exact .panic _
    · rw [if_neg h]
      exact .ext (fun ext h => .mk h) (.bind (dirtyPredsTop_emits _) fun _ => .end_)
  · exact .pure _

theorem dirtyAllocLoop_emits (l : Loc) (ps : List Loc) : Emits DirtyT (dirtyAllocLoop l ps : M V Unit) := by
  induction ps with
  | nil => exact .pure _
  | cons p tl ih => exact .bind (dirtyAllocator_emits l p) fun _ => ih

theorem dirtyAlloc_emits (l : Loc) : Emits DirtyT (dirtyAlloc l : M V Unit) := by
  unfold dirtyAlloc
  refine (dirtyPredsTop_emits l).bind fun _ => (lookupAbs_emits l).bind fun n => ?_
  rcases h : n.predsAlloc with _ | ps
  · simp only [h]; exact .panic _
  · simp only [h]; exact dirtyAllocLoop_emits l ps

theorem setCell_emits (ty : Ty) (l : Loc) (v : V) : Emits DirtyT (setCell ty l v) := by
  unfold setCell
  refine (resNode_emits ty l).bind fun n => ?_
  match n with
  | .mut nd =>
    simp only []
    by_cases h : nd.val ≈ᵤ v
    · rw [if_pos h]; exact .pure _
    · rw [if_neg h]; exact (putNode_emits _ _).bind fun _ => dirtyAlloc_emits l
  | .comp _ => exact .panic _
  | .pure _ => exact .panic _

/-- What an allocation of an existing location may cause. -/
def InAlloc (t : CTree) : Prop := DirtyT t ∨ t = .node (.eng .remove) []

theorem removePred_emits (src tgt : Loc) {P : CTree → Prop} (hP : P (.node (.eng .remove) [])) : Emits P (removePred src tgt : M V Unit) := by
  unfold removePred
  refine (Emits.eff hP).bind fun _ => (lookupAbs_emits tgt).bind fun n => ?_
  rcases h : n.predsRemove src with _ | n'
  · simp only [h]; exact .panic _
  · simp only [h]; exact putNode_emits _ _

theorem revokeSuccs_emits (src : Loc) {P : CTree → Prop} (hP : P (.node (.eng .remove) [])) (es : List (Succ V)) :
    Emits P (revokeSuccs src es) := by
  induction es with
  | nil => exact .pure _
  | cons e es ih => exact .bind (removePred_emits src e.loc hP) fun _ => ih

theorem edT_existing {d k} : ∀ ext, (∀ t ∈ ext, InAlloc t) → EdT (.node (.eng (.alloc (.locExists d) k)) ext) :=
  fun ext h => ⟨.existing h, rfl⟩

theorem edT_fresh {k} : ∀ ext, (∀ t ∈ ext, False) → EdT (.node (.eng (.alloc .locFresh k)) ext) := by
  intro ext h
  cases ext with
  | nil => exact ⟨.fresh, rfl⟩
  | cons t ts => exact (h t (List.mem_cons_self ..)).elim

theorem setCell_user (ty : Ty) (l : Loc) (v : V) : Emits EdT (setCell ty l v) :=
  (setCell_emits ty l v).mono fun t h => by cases h with | mk h => exact ⟨.dirty h, rfl⟩

theorem opSet_emits (ty : Ty) (l : Loc) (v : V) : Emits EdT (opSet ty l v) := by
  unfold opSet
  refine Emits.get.bind fun s => ?_
  cases s.stack.isEmpty
  · exact .panic _
  · exact setCell_user ty l v

theorem cellTable_emits (ty : Ty) (l : Loc) (v : V) (b : Bool) : Emits EdT (cellTable ty l v b) := by
  unfold cellTable
  refine Emits.get.bind fun s => ?_
  rcases h : s.table.get l with _ | n
  · simp only [h]
    exact .ext edT_fresh (Closes.then_ .end_ fun _ => putNode_emits _ _)
  · simp only [h]
    refine (resNode_emits ty l).bind fun n => ?_
    match n with
    | .mut nd => exact .ext edT_existing (.bind ((setCell_emits ty l v).mono fun _ => .inl) fun _ => .end_)
    | .comp nd =>
      exact .ext edT_existing (.bind ((dirtyAlloc_emits l).mono fun _ => .inl) fun _ => .bind (revokeSuccs_emits l (.inr rfl) _) fun _ => .end_)
    | .pure nd => exact .ext edT_existing .end_

theorem opCell_emits (env : Env V) (ty : Ty) (nm : Name) (v : V) : Emits EdT (opCell env ty nm v) := by
  unfold opCell
  refine Emits.get.bind fun s => (cellTable_emits _ _ _ _).bind fun _ => Emits.bind ?_ fun _ => .pure _
  unfold cellRecord
  cases (s.ignoreNominal && s.purity)
  · exact recordEdge_emits _ _
  · exact .pure _

theorem thunkStructural_emits (env : Env V) (ty : Ty) (pp : ProgPt) (fn : FnId) (arg : V) :
    Emits EdT (thunkStructural env ty pp fn arg) := by
  unfold thunkStructural
  refine Emits.get.bind fun s => ?_
  rcases h : s.table.get ⟨s.path, .structural (env.hashApp pp arg)⟩ with _ | n
  · simp only [h]
    exact (recordEdge_emits _ _).bind fun _ => (putNode_emits _ _).bind fun _ => .pure _
  · simp only [h]; exact .pure _

theorem thunkNominal_emits (ty : Ty) (n : Name) (pp : ProgPt) (fn : FnId) (arg : V) : Emits EdT (thunkNominal ty n pp fn arg) := by
  unfold thunkNominal
  refine Emits.get.bind fun s => ?_
  rcases h : s.table.get ⟨s.path, .nominal n⟩ with _ | nd
  · simp only [h]
    exact .ext edT_fresh (Closes.then_ .end_ fun _ => (recordEdge_emits _ _).bind fun _ => (putNode_emits _ _).bind fun _ => .pure _)
  · simp only [h]
    refine (resNode_emits ty _).bind fun nd => ?_
    match nd with
    | .pure _ => exact .panic _
    | .mut _ =>
      exact .ext edT_existing (.bind ((dirtyAlloc_emits _).mono fun _ => .inl) fun _ => Closes.then_ .end_ fun _ =>
        (recordEdge_emits _ _).bind fun _ => (putNode_emits _ _).bind fun _ => .pure _)
    | .comp c =>
      simp only []
      by_cases hp : c.pp = pp
      · rw [if_pos hp]
        by_cases ha : c.arg ≈ᵤ arg
        · rw [if_pos ha]
          exact .ext edT_existing (Closes.then_ .end_ fun _ => (recordEdge_emits _ _).bind fun _ => .pure _)
        · rw [if_neg ha]
          refine (putNode_emits _ _).bind fun _ => .ext edT_existing (.bind ((dirtyAlloc_emits _).mono fun _ => .inl) fun _ =>
            Closes.then_ .end_ fun _ => (recordEdge_emits _ _).bind fun _ => .pure _)
      · rw [if_neg hp]; exact .panic _

theorem opThunk_emits (env : Env V) (ty : Ty) (nc : NameChoice) (pp : ProgPt) (fn : FnId) (arg : V) :
    Emits EdT (opThunk env ty nc pp fn arg) := by
  unfold opThunk
  refine Emits.get.bind fun s => ?_
  match nc with
  | .eager => exact .panic _
  | .naive => exact .panic _
  | .structural => exact thunkStructural_emits env ty pp fn arg
  | .nominal n => exact .ite (thunkStructural_emits env ty pp fn arg) (thunkNominal_emits ty n pp fn arg)

/-- What the recursive calls emit. -/
structure RecEmits (R : Rec V) : Prop where
  produce : ∀ ty l, Emits ArchT (R.produce ty l)
  cleanForce : ∀ ty v l, Emits ArchT (R.cleanForce ty v l)
  run : ∀ p, Emits EdT (R.run p)

theorem edT_hit : ∀ ext, (∀ t ∈ ext, ArchT t) → EdT (.node (.eng (.force .compCacheHit)) ext) := fun ext h => ⟨.hit h, rfl⟩
theorem edT_miss : ∀ ext, (∀ t ∈ ext, ArchT t) → EdT (.node (.eng (.force .compCacheMiss)) ext) := fun ext h => ⟨.miss h, rfl⟩
theorem edT_get : EdT (.node (.eng (.force .refGet)) []) := ⟨.refGet, rfl⟩

theorem opForce_emits {R : Rec V} (hR : RecEmits R) (ty : Ty) (l : Loc) (cyc : Option V) : Emits EdT (opForce R ty l cyc) := by
  unfold opForce
  refine Emits.get.bind fun s => (resNode_emits ty l).bind fun n => ?_
  have hrec : ∀ (b : Bool) (r : V), Emits EdT
      (if b = true then pure r else do recordEdge ⟨false, l, .observe, .force ty r⟩ none; pure r : M V V) := by
    intro b r
    cases b
    · exact (recordEdge_emits _ _).bind fun _ => .pure _
    · exact .pure _
  match n with
  | .pure nd => exact (Emits.eff edT_get).bind fun _ => .pure _
  | .mut nd => exact (Emits.eff edT_get).bind fun _ => hrec _ _
  | .comp nd =>
    simp only []
    have hfin : ∀ (b1 b2 : Bool) (r : V), Emits EdT
        (if b1 = true then pure r else (if b2 = true then pure r else do
          recordEdge ⟨false, l, .observe, .force ty r⟩ none; pure r) : M V V) :=
      fun b1 b2 r => .ite (.pure _) (hrec b2 r)
    by_cases hc : (s.stack.any fun fr => decide (fr.loc = l)) = true
    · rw [if_pos hc]
      match cyc with
      | none => exact .panic _
      | some out => exact .ext edT_hit (Closes.then_ .end_ fun _ => hfin _ _ out)
    · rw [if_neg hc]
      rcases hres : nd.res with _ | r
      · simp only []
        exact .ext edT_miss (.ite (.panic _) (.bind (hR.produce ty l) fun r => Closes.then_ .end_ fun _ => hfin _ _ r))
      · simp only []
        refine .ext edT_hit (.bind (hR.cleanForce ty r l) fun _ => Closes.then_ .end_ fun _ => (resNode_emits ty l).bind fun n' => ?_)
        match n' with
        | .comp nd' =>
          rcases hres' : nd'.res with _ | r'
          · simp only [hres']; exact .panic _
          · simp only [hres']; exact hfin _ _ r'
        | .mut _ => exact .panic _
        | .pure _ => exact .panic _

theorem opForceMap_emits {R : Rec V} (hR : RecEmits R) (ty : Ty) (l : Loc) (f : V → V) : Emits EdT (opForceMap R ty l f) := by
  unfold opForceMap
  refine Emits.get.bind fun s => (resNode_emits ty l).bind fun n => ?_
  match n with
  | .pure nd => exact (opForce_emits hR ty l none).bind fun _ => .pure _
  | .comp nd => exact (opForce_emits hR ty l none).bind fun _ => .pure _
  | .mut nd => exact (Emits.eff edT_get).bind fun _ => (recordEdge_emits _ _).bind fun _ => .pure _

theorem opForceAbs_emits {R : Rec V} (hR : RecEmits R) (ty : Ty) (l : Loc) (f : V → V) : Emits EdT (opForceAbs R ty l f) := by
  unfold opForceAbs
  refine Emits.get.bind fun s => (resNode_emits ty l).bind fun n => ?_
  match n with
  | .pure nd => exact (opForce_emits hR ty l none).bind fun _ => .pure _
  | .comp nd => exact (opForce_emits hR ty l none).bind fun _ => .pure _
  | .mut nd => exact (Emits.eff edT_get).bind fun _ => (recordEdge_emits _ _).bind fun _ => .pure _

theorem runProg_emits (env : Env V) {R : Rec V} (hR : RecEmits R) (p : Prog V) : Emits EdT (runProg env R p) := by
  induction p with
  | ret v => exact .pure _
  | force ty l cyc k ih => exact (opForce_emits hR ty l cyc).bind ih
  | forceMap ty l f k ih => exact (opForceMap_emits hR ty l f).bind ih
  | forceAbs ty l f k ih => exact (opForceAbs_emits hR ty l f).bind ih
  | cell ty n v k ih => exact (opCell_emits env ty n v).bind ih
  | thunk ty nc pp fn arg k ih => exact (opThunk_emits env ty nc pp fn arg).bind ih
  | set ty l v k ih => exact (opSet_emits ty l v).bind fun _ => ih
  | ns n body k ihb ihk =>
    exact Emits.get.bind fun _ => Emits.bind (by exact Emits.modify fun _ => rfl) fun _ => ihb.bind fun v => Emits.bind (by exact Emits.modify fun _ => rfl) fun _ => ihk v
  | structural body k ihb ihk =>
    exact Emits.get.bind fun _ => Emits.bind (by exact Emits.modify fun _ => rfl) fun _ => ihb.bind fun v => Emits.bind (by exact Emits.modify fun _ => rfl) fun _ => ihk v
  | call fn arg k ih => exact (hR.run _).bind ih
  | panic => exact .panic _

theorem installPreds_emits {P} (l : Loc) (es : List (Succ V × Option (Dep V))) : Emits P (installPreds l es) := by
  induction es with
  | nil => exact .pure _
  | cons hd tl ih =>
    obtain ⟨e, d⟩ := hd
    refine Emits.bind ?_ fun _ => ih
    unfold installPred
    cases e.dirty
    · refine (lookupAbs_emits e.loc).bind fun n => ?_
      rcases h : n.predsInsert e.effect l d with _ | n'
      · simp only [h]; exact .panic _
      · simp only [h]; exact putNode_emits _ _
    · exact .panic _

theorem produceBody_emits (env : Env V) {R : Rec V} (hR : RecEmits R) (ty : Ty) (l : Loc) : Emits ArchT (produceBody env R ty l) := by
  unfold produceBody
  refine (resNode_emits ty l).bind fun n => ?_
  match n with
  | .mut _ => exact .panic _
  | .pure _ => exact .panic _
  | .comp nd =>
    refine (putNode_emits _ _).bind fun _ => (revokeSuccs_emits l .remove _).bind fun _ => Emits.get.bind fun s =>
      Emits.bind (by exact Emits.modify fun _ => rfl) fun _ => (resNode_emits ty l).bind fun n => ?_
    match n with
    | .mut _ => exact .panic _
    | .pure _ => exact .panic _
    | .comp nd =>
      refine Emits.bind (by exact Emits.modify fun _ => rfl) fun _ => ((hR.run _).mono fun _ h => h.1).bind fun res =>
        Emits.bind (by exact Emits.modify fun _ => rfl) fun _ => Emits.get.bind fun s => ?_
      rcases h : s.stack with _ | ⟨fr, rest⟩
      · simp only [h]; exact .panic _
      · simp only [h]
        refine Emits.bind (by exact Emits.modify fun _ => rfl) fun _ => ?_
        by_cases hl : fr.loc = l
        · rw [if_pos hl]
          refine (installPreds_emits l _).bind fun _ => (resNode_emits ty l).bind fun n => ?_
          match n with
          | .mut _ => exact .panic _
          | .pure _ => exact .panic _
          | .comp nd => exact (putNode_emits _ _).bind fun _ => .pure _
        · rw [if_neg hl]; exact .panic _

theorem cleanDep_emits {R : Rec V} (hR : RecEmits R) (d : Dep V) (l : Loc) : Emits ArchT (cleanDep R d l) := by
  cases d with
  | allocStruct => exact .pure _
  | allocNom a => exact .pure _
  | allocCell a => exact .pure _
  | force ty res => exact hR.cleanForce ty res l
  | forceMap ty f res => exact checkForceMapDep_emits ty f res l
  | forceAbs => exact .pure _

theorem archT_cleanRec : ∀ ext, (∀ t ∈ ext, ArchT t) → ArchT (.node (.eng .cleanRec) ext) := fun ext h => .cleanRec h
theorem archT_cleanEval : ∀ ext, (∀ t ∈ ext, ArchT t) → ArchT (.node (.eng .cleanEval) ext) := fun ext h => .cleanEval h

theorem cleanLoop_emits {R : Rec V} (hR : RecEmits R) (ty : Ty) (res : V) (l : Loc) (es : List (Succ V)) :
    Emits ArchT (cleanLoop R ty res l es) := by
  induction es with
  | nil => exact .pure _
  | cons e es ih =>
    unfold cleanLoop
    refine (succDirty_emits _ _ _).bind fun d => ?_
    cases d
    · exact ih
    · simp only [if_true]
      refine .ext archT_cleanRec (.bind (cleanDep_emits hR _ _) fun ch => ?_)
      cases ch
      · simp only [Bool.false_eq_true, if_false]
        exact .bind (setSuccDirty_emits _ _ _ _) fun _ => .bind (Emits.eff .cleanEdge) fun _ => Closes.then_ .end_ fun _ => ih
      · simp only [if_true]
        have hre : (do
            evBegin .cleanEval (some l) e.loc
            let result ← R.produce ty l
            evEnd
            evEnd
            pure (some (decide (¬ result ≈ᵤ res))) : M V (Option Bool)) =
          (evBegin .cleanEval (some l) e.loc >>= fun _ => R.produce ty l >>= fun result => evEnd >>= fun _ => Pure.pure result) >>=
            fun result => evEnd >>= fun _ => Pure.pure (some (decide (¬ result ≈ᵤ res))) := by
          funext s
          simp only [M.bind_def, M.pure_def]
          rcases h1 : (evBegin .cleanEval (some l) e.loc : M V Unit) s with ⟨a, s1⟩ | ⟨er, s1⟩ | _
          · simp only []
            rcases h2 : R.produce ty l s1 with ⟨a, s2⟩ | ⟨er, s2⟩ | _
            · simp only []
              rcases h3 : (evEnd : M V Unit) s2 with ⟨a, s3⟩ | ⟨er, s3⟩ | _ <;> rfl
            · rfl
            · rfl
          · rfl
          · rfl
        rw [hre]
        exact .bind (.ext archT_cleanEval (.bind (hR.produce ty l) fun r => Closes.then_ .end_ fun _ => .pure _)) fun _ =>
          Closes.then_ .end_ fun _ => .pure _

theorem cleanForceBody_emits {R : Rec V} (hR : RecEmits R) (ty : Ty) (res : V) (l : Loc) : Emits ArchT (cleanForceBody R ty res l) := by
  unfold cleanForceBody
  refine (resNode_emits ty l).bind fun n => ?_
  match n with
  | .pure _ => exact .pure _
  | .mut _ => exact .pure _
  | .comp nd =>
    rcases h : nd.res with _ | c
    · simp only [h]
      exact .ext archT_cleanEval (.bind (hR.produce ty l) fun _ => Closes.then_ .end_ fun _ => .pure _)
    · simp only [h]
      refine (cleanLoop_emits hR ty res l _).bind fun r => ?_
      cases r <;> exact .pure _

theorem recN_emits (env : Env V) (n : Nat) : RecEmits (recN env n : Rec V) := by
  induction n with
  | zero => exact ⟨(fun _ _ _ _ _ h => by cases h), (fun _ _ _ _ _ _ h => by cases h), (fun _ _ _ _ h => by cases h)⟩
  | succ n ih => exact ⟨produceBody_emits env ih, cleanForceBody_emits ih, runProg_emits env ih⟩

theorem exec_emits (env : Env V) (n : Nat) (p : Prog V) : Emits EdT (exec env n p) := runProg_emits env (recN_emits env n) p

theorem runSession_emits (env : Env V) (n : Nat) (ps : List (Prog V)) : Emits EdT (runSession env n ps) := by
  induction ps with
  | nil => exact .pure _
  | cons p ps ih => exact (exec_emits env n p).bind fun _ => ih.bind fun _ => .pure _

end
end Adapton.Trace
