import Verif.Engine.Settled
import Verif.Engine.Wf
import Verif.Props.RecEngine
/-
C90: the folds of the documentation's level trees are incremental.
-/
set_option linter.unusedSectionVars false
set_option linter.unusedVariables false
namespace Adapton.RecProg
open Ref (Sig Kind Store Ctx Ext ES Means alloc)
open EditSession (World Below AncOk Cells Edit applyAll cellAt)
variable {X R : Type} [DecidableEq X] [DecidableEq R]

/-- Observing the articulations yields the tree. -/
def TreeOk (U : Loc → CV X R → Prop) : ATr X → Prop
  | .leaf _ => True
  | .bin _ l r => TreeOk U l ∧ TreeOk U r
  | .name _ _ t => TreeOk U t
  | .art a t => a.isStruct = false ∧ U a (.tree t.val) ∧ TreeOk U t

/-- The thunks, in the namespace `nm`, for the two subtrees of the binary node with the name `n`. -/
def leftOf (H : NameHash) (nm n : Name) : Loc := ⟨stagePath nm, .nominal (nameFork H n).1⟩
def rightOf (H : NameHash) (nm n : Name) : Loc := ⟨stagePath nm, .nominal (nameFork H n).2⟩

/-- In the fold of the tree, with the name just above it, there is a thunk `a` for the subtree `s`. -/
inductive Occ (H : NameHash) (nm : Name) : Option Name → ATr X → Loc → ATr X → Prop
  | left {n k l r} : Occ H nm (some n) (.bin k l r) (leftOf H nm n) l
  | right {n k l r} : Occ H nm (some n) (.bin k l r) (rightOf H nm n) r
  | binL {n k l r a s} : Occ H nm none l a s → Occ H nm (some n) (.bin k l r) a s
  | binR {n k l r a s} : Occ H nm none r a s → Occ H nm (some n) (.bin k l r) a s
  | name {o k m t a s} : Occ H nm (some m) t a s → Occ H nm o (.name k m t) a s
  | art {o b t a s} : Occ H nm o t a s → Occ H nm o (.art b t) a s

/-- The fold of a tree, with the name just above it. -/
def foldOf (f : Fns X R) (o : Option Name) (t : ATr X) : R := t.erase.foldUp f o

theorem foldOf_name (f : Fns X R) (o : Option Name) (k : Nat) (m : Name) (t : ATr X) : foldOf f o (.name k m t) = foldOf f (some m) t := by cases o <;> rfl
theorem foldOf_art (f : Fns X R) (o : Option Name) (a : Loc) (t : ATr X) : foldOf f o (.art a t) = foldOf f o t := by cases o <;> rfl
theorem foldOf_bin (f : Fns X R) (o : Option Name) (k : Nat) (l r : ATr X) : foldOf f o (.bin k l r) = f.namebin o k (f.art (foldOf f none l)) (f.art (foldOf f none r)) := by cases o <;> rfl

/-- The dependencies of a thunk that folds the tree. -/
inductive EdgeIn (H : NameHash) (nm : Name) (f : Fns X R) : Option Name → ATr X → Edge (CV X R) → Prop
  | la {n k l r} : EdgeIn H nm f (some n) (.bin k l r) (allocEdge (leftOf H nm n) (.args l.val none))
  | lo {n k l r} : EdgeIn H nm f (some n) (.bin k l r) (obsEdge tyR (leftOf H nm n) (.res (foldOf f none l)))
  | ra {n k l r} : EdgeIn H nm f (some n) (.bin k l r) (allocEdge (rightOf H nm n) (.args r.val none))
  | ro {n k l r} : EdgeIn H nm f (some n) (.bin k l r) (obsEdge tyR (rightOf H nm n) (.res (foldOf f none r)))
  | name {o k m t e} : EdgeIn H nm f (some m) t e → EdgeIn H nm f o (.name k m t) e
  | cell {o a t} : EdgeIn H nm f o (.art a t) (obsEdge tyT a (.tree t.val))
  | art {o a t e} : EdgeIn H nm f o t e → EdgeIn H nm f o (.art a t) e

section
variable {H : NameHash} {opAt : Name → Nat} {fs : Nat → Fns X R} {hv : CV X R → UInt64} {ha : ProgPt → CV X R → UInt64} {sig : Sig} {s : St (CV X R)} {σ : Store (CV X R)} {D : Loc → Prop}

theorem code_fold (i : Nat) (t : RecV X) (o : Option Name) : (env H opAt fs hv ha).code (fFold i) (.args t o) = foldUpNamebin H (fs i) (fFold i) t o := rfl

/-- All thunks for subtrees are up to date. -/
def ThunksOk (sig : Sig) (s : St (CV X R)) (σ : Store (CV X R)) (D : Loc → Prop) (H : NameHash) (nm : Name) (f : Fns X R) (o : Option Name) (t : ATr X) : Prop :=
  ∀ a u, Occ H nm o t a u → D a ∧ σ a = some (.args u.val none) ∧ UpToDate sig s σ D a (.res (foldOf f none u))

/-- What a thunk that folds the tree reads and allocates: the cells down to the nearest binary node, and the thunks for its two subtrees; nothing below it. -/
def readsOf (H : NameHash) (nm : Name) : ATr X → Option Name → List Loc
  | .leaf _, _ => []
  | .bin _ _ _, o => match o with
    | none => []
    | some n => [leftOf H nm n, leftOf H nm n, rightOf H nm n, rightOf H nm n]
  | .name _ m t, _ => readsOf H nm t (some m)
  | .art a t, o => a :: readsOf H nm t o

theorem EdgeIn.reads {nm : Name} {f : Fns X R} {o : Option Name} {t : ATr X} {e : Edge (CV X R)} (h : EdgeIn H nm f o t e) : e.loc ∈ readsOf H nm t o := by
  induction h with
  | la => simp [readsOf, allocEdge]
  | lo => simp [readsOf, obsEdge]
  | ra => simp [readsOf, allocEdge]
  | ro => simp [readsOf, obsEdge]
  | name _ ih => exact ih
  | cell => exact List.mem_cons_self ..
  | art _ ih => exact List.mem_cons_of_mem _ ih

theorem fold_replay {nm : Name} {i : Nat} (hsig : ∀ id, sig ⟨stagePath nm, id⟩ = .thunk tyR ppFold (fFold i)) (hm : sig.mode = false) (hI : Inv sig (env H opAt fs hv ha) s σ D) (t : ATr X) :
    ∀ (o : Option Name) (pre es : List (Edge (CV X R))) (v : CV X R), TreeOk (UpToDate sig s σ D) t → (∀ q ∈ t.erase.binNames o, q ≠ none) →
    Seen sig (env H opAt fs hv ha) s σ D (stagePath nm) (foldUpNamebin H (fs i) (fFold i) t.val o) pre es v →
    v = .res (foldOf (fs i) o t) ∧ (∀ e ∈ es, EdgeIn H nm (fs i) o t e) ∧ ThunksOk sig s σ D H nm (fs i) o t ∧ es.length ≤ (readsOf H nm t o).length := by
  induction t with
  | leaf xs =>
    intro o pre es v ht hn h
    have h : Seen sig (env H opAt fs hv ha) s σ D (stagePath nm) (.ret (.res ((fs i).leaf xs))) pre es v := h
    obtain ⟨rfl, rfl⟩ := h.ret
    refine ⟨by cases o <;> rfl, (fun _ h => by cases h), (fun _ _ h => by cases h), Nat.le_refl _⟩
  | bin k l r ihl ihr =>
    intro o pre es v ht hn h
    cases o with
    | none => exact absurd rfl (hn none (List.mem_cons_self ..))
    | some n =>
    have hn1 : ∀ q ∈ l.erase.binNames none, q ≠ none := fun q hq => hn q (List.mem_cons_of_mem _ (List.mem_append_left _ hq))
    have hn2 : ∀ q ∈ r.erase.binNames none, q ≠ none := fun q hq => hn q (List.mem_cons_of_mem _ (List.mem_append_right _ hq))
    have sub : ∀ (u : ATr X) (a : Loc) (w : CV X R), a.path = stagePath nm → UpToDate sig s σ D a w → σ a = some (.args u.val none) → TreeOk (UpToDate sig s σ D) u →
        (∀ q ∈ u.erase.binNames none, q ≠ none) →
        (∀ (o : Option Name) (pre es : List (Edge (CV X R))) (v : CV X R), TreeOk (UpToDate sig s σ D) u → (∀ q ∈ u.erase.binNames o, q ≠ none) →
          Seen sig (env H opAt fs hv ha) s σ D (stagePath nm) (foldUpNamebin H (fs i) (fFold i) u.val o) pre es v →
          v = .res (foldOf (fs i) o u) ∧ (∀ e ∈ es, EdgeIn H nm (fs i) o u e) ∧ ThunksOk sig s σ D H nm (fs i) o u ∧ es.length ≤ (readsOf H nm u o).length) →
        w = .res (foldOf (fs i) none u) ∧ D a ∧ ThunksOk sig s σ D H nm (fs i) none u := by
      intro u a w hp hu hσ hok hnn ih
      have hk : sig a = .thunk tyR ppFold (fFold i) := by
        obtain ⟨p, id⟩ := a
        cases hp
        exact hsig id
      have hD : D a := by
        have hu' := hu
        unfold UpToDate at hu'
        rw [hk] at hu'
        exact hu'.1
      obtain ⟨nd, v, _, _, _, _, g5, g6⟩ := Seen.ofDone hI hm hD hk hσ
      rw [code_fold, hp] at g6
      obtain ⟨rfl, _, h3, _⟩ := ih _ _ _ _ hok hnn g6
      exact ⟨hu.unique g5, hD, h3⟩
    have h : Seen sig (env H opAt fs hv ha) s σ D (stagePath nm) (.thunk tyR (.nominal (nameFork H n).1) ppFold (fFold i) (.args l.val none) fun t => .force tyR t none <| onRes fun r1 =>
        .thunk tyR (.nominal (nameFork H n).2) ppFold (fFold i) (.args r.val none) fun t => .force tyR t none <| onRes fun r2 =>
        .ret (.res ((fs i).namebin (some n) k ((fs i).art r1) ((fs i).art r2)))) pre es v := h
    obtain ⟨es3, g1, rfl, g2⟩ := Seen.thunk h
    obtain ⟨w1, new1, es4, k1, rfl, k2, k3⟩ := Seen.force1 g2 rfl
    obtain ⟨rfl, d1, t1⟩ := sub l _ w1 rfl k1 g1 ht.1 hn1 ihl
    obtain ⟨es5, j1, rfl, j2⟩ := Seen.thunk (arg := CV.args r.val none) (n := (nameFork H n).2) (pp := ppFold) (fn := fFold i) k3
    obtain ⟨w2, new2, es6, q1, rfl, q2, q3⟩ := Seen.force1 j2 rfl
    obtain ⟨rfl, d2, t2⟩ := sub r _ w2 rfl q1 j1 ht.2 hn2 ihr
    obtain ⟨rfl, rfl⟩ := Seen.ret (w := (.res ((fs i).namebin (some n) k ((fs i).art (foldOf (fs i) none l)) ((fs i).art (foldOf (fs i) none r))) : CV X R)) q3
    have a1 : new1.length ≤ 1 := by rcases k2 with rfl | rfl <;> simp
    have a2 : new2.length ≤ 1 := by rcases q2 with rfl | rfl <;> simp
    refine ⟨by rw [foldOf_bin], ?_, ?_, ?_⟩
    · intro e he
      simp only [List.append_nil, List.mem_append, List.mem_cons] at he
      rcases he with rfl | he | rfl | he
      · exact .la
      · rcases k2 with rfl | rfl
        · cases he
        · rw [List.mem_singleton] at he; subst he; exact .lo
      · exact .ra
      · rcases q2 with rfl | rfl
        · cases he
        · rw [List.mem_singleton] at he; subst he; exact .ro
    · intro a u ho
      cases ho with
      | left => exact ⟨d1, g1, k1⟩
      | right => exact ⟨d2, j1, q1⟩
      | binL ho => exact t1 a u ho
      | binR ho => exact t2 a u ho
    · simp only [readsOf, List.length_append, List.length_nil, List.length_cons]
      omega
  | name k m t ih =>
    intro o pre es v ht hn h
    have h : Seen sig (env H opAt fs hv ha) s σ D (stagePath nm) (.call (fFold i) (.args t.val (some m)) .ret) pre es v := h
    have hn : ∀ q ∈ t.erase.binNames (some m), q ≠ none := by cases o <;> exact hn
    obtain ⟨w, es1, es2, rfl, h1, h2⟩ := h.call
    obtain ⟨rfl, rfl⟩ := h2.ret
    rw [code_fold] at h1
    obtain ⟨rfl, g1, g2, g3⟩ := ih _ _ _ _ ht hn h1
    refine ⟨by rw [foldOf_name], ?_, ?_, by simpa [readsOf] using g3⟩
    · intro e he
      rw [List.append_nil] at he
      exact .name (g1 e he)
    · intro a u ho
      cases ho with
      | name ho => exact g2 a u ho
  | art a t ih =>
    intro o pre es v ht hn h
    have h : Seen sig (env H opAt fs hv ha) s σ D (stagePath nm) (.force tyT a none <| onRec fun t => .call (fFold i) (.args t o) .ret) pre es v := h
    have hn : ∀ q ∈ t.erase.binNames o, q ≠ none := by cases o <;> exact hn
    obtain ⟨w', new, es3, g1, rfl, g3, g4⟩ := h.force1 ht.1
    have := g1.unique ht.2.1
    subst this
    obtain ⟨w, es1, es2, rfl, h1, h2⟩ := Seen.call (fn := fFold i) (arg := CV.args t.val o) g4
    obtain ⟨rfl, rfl⟩ := h2.ret
    rw [code_fold] at h1
    obtain ⟨rfl, f1, f2, f3⟩ := ih _ _ _ _ ht.2.2 hn h1
    refine ⟨by rw [foldOf_art], ?_, ?_, ?_⟩
    · intro e he
      rw [List.append_nil] at he
      rcases List.mem_append.1 he with he | he
      · rcases g3 with rfl | rfl
        · cases he
        · rw [List.mem_singleton] at he; subst he; exact .cell
      · exact .art (f1 e he)
    · intro b u ho
      cases ho with
      | art ho => exact f2 b u ho
    · have a1 : new.length ≤ 1 := by rcases g3 with rfl | rfl <;> simp
      simp only [readsOf, List.length_append, List.length_cons, List.length_nil]
      omega

theorem TreeOk.occ {U : Loc → CV X R → Prop} {nm : Name} {o : Option Name} {t u : ATr X} {a : Loc} (h : Occ H nm o t a u) : TreeOk U t → TreeOk U u := by
  induction h with
  | left => exact fun h => h.1
  | right => exact fun h => h.2
  | binL _ ih => exact fun h => ih h.1
  | binR _ ih => exact fun h => ih h.2
  | name _ ih => exact fun h => ih h
  | art _ ih => exact fun h => ih h.2.2

theorem Occ.named {nm : Name} {o : Option Name} {t u : ATr X} {a : Loc} (h : Occ H nm o t a u) : (∀ q ∈ t.erase.binNames o, q ≠ none) → ∀ q ∈ u.erase.binNames none, q ≠ none := by
  induction h with
  | left => exact fun hn q hq => hn q (List.mem_cons_of_mem _ (List.mem_append_left _ hq))
  | right => exact fun hn q hq => hn q (List.mem_cons_of_mem _ (List.mem_append_right _ hq))
  | binL _ ih => exact fun hn => ih fun q hq => hn q (List.mem_cons_of_mem _ (List.mem_append_left _ hq))
  | binR _ ih => exact fun hn => ih fun q hq => hn q (List.mem_cons_of_mem _ (List.mem_append_right _ hq))
  | @name o _ _ _ _ _ _ ih => exact fun hn => ih (by cases o <;> exact hn)
  | @art o _ _ _ _ _ ih => exact fun hn => ih (by cases o <;> exact hn)

theorem Occ.trans {nm : Name} {o : Option Name} {t u w : ATr X} {a b : Loc} (h : Occ H nm o t a u) : Occ H nm none u b w → Occ H nm o t b w := by
  induction h with
  | left => exact .binL
  | right => exact .binR
  | binL _ ih => exact fun h => .binL (ih h)
  | binR _ ih => exact fun h => .binR (ih h)
  | name _ ih => exact fun h => .name (ih h)
  | art _ ih => exact fun h => .art (ih h)

theorem Occ.path {nm : Name} {o : Option Name} {t u : ATr X} {a : Loc} (h : Occ H nm o t a u) : ∃ n, a = ⟨stagePath nm, .nominal n⟩ := by
  induction h with
  | left => exact ⟨_, rfl⟩
  | right => exact ⟨_, rfl⟩
  | _ => assumption

/-! ### What is not run -/

variable {s1 s2 : St (CV X R)} {σ1 σ2 : Store (CV X R)} {D1 D0 D2 : Loc → Prop} {rs : List Loc}

/-- What an edge of the fold of a tree is, where the tree is up to date. -/
theorem EdgeIn.now {nm : Name} {f : Fns X R} {o : Option Name} {t : ATr X} {e : Edge (CV X R)} (h : EdgeIn H nm f o t e) : TreeOk (UpToDate sig s σ D) t → ThunksOk sig s σ D H nm f o t →
    (∃ ty w, e = obsEdge ty e.loc w ∧ UpToDate sig s σ D e.loc w) ∨ ∃ u, e = allocEdge e.loc (.args u.val none) ∧ Occ H nm o t e.loc u := by
  induction h with
  | la => exact fun _ _ => .inr ⟨_, rfl, .left⟩
  | lo => exact fun _ ho => .inl ⟨tyR, _, rfl, (ho _ _ .left).2.2⟩
  | ra => exact fun _ _ => .inr ⟨_, rfl, .right⟩
  | ro => exact fun _ ho => .inl ⟨tyR, _, rfl, (ho _ _ .right).2.2⟩
  | name _ ih =>
    intro ht ho
    rcases ih ht (fun a u h => ho a u (.name h)) with h | ⟨u, h1, h2⟩
    · exact .inl h
    · exact .inr ⟨u, h1, .name h2⟩
  | cell => exact fun ht _ => .inl ⟨tyT, _, rfl, ht.2.1⟩
  | art _ ih =>
    intro ht ho
    rcases ih ht.2.2 (fun a u h => ho a u (.art h)) with h | ⟨u, h1, h2⟩
    · exact .inl h
    · exact .inr ⟨u, h1, .art h2⟩

/-- The subtrees look the same to the thunk that folds them: the values are equal, and so is everything that is allocated and observed. -/
def Alike (H : NameHash) (nm : Name) (f : Fns X R) (o : Option Name) (u1 u2 : ATr X) : Prop := u1.val = u2.val ∧ ∀ e, EdgeIn H nm f o u1 e → EdgeIn H nm f o u2 e

/-- The recorded dependencies, if the trees look the same. -/
theorem alike_edges {nm : Name} {i : Nat} (hsig : ∀ id, sig ⟨stagePath nm, id⟩ = .thunk tyR ppFold (fFold i)) (hm : sig.mode = false) {E : Loc → Prop} (hown : ∀ m, ¬ E (⟨stagePath nm, .nominal m⟩ : Loc))
    (hI1 : Inv sig (env H opAt fs hv ha) s1 σ1 D1) (hf : EditSession.Frame E s1 s) (hr : RunsOK sig s D0 s2 σ2 D2 rs) {x : Loc} {ty : Ty} {pp : ProgPt} {fn : FnId} (hk : sig x = .thunk ty pp fn)
    (hx : D1 x) (hE : ¬ E x) {arg : CV X R} (hσ1 : σ1 x = some arg) (hσ2 : σ2 x = some arg)
    {o : Option Name} {u1 u2 : ATr X} (he : ∀ nd, s1.table.get x = some (.comp nd) → ∀ e ∈ nd.succs, EdgeIn H nm (fs i) o u1 e.edge) (hEd : ∀ e, EdgeIn H nm (fs i) o u1 e → EdgeIn H nm (fs i) o u2 e)
    (a1 : TreeOk (UpToDate sig s1 σ1 D1) u1) (a2 : ThunksOk sig s1 σ1 D1 H nm (fs i) o u1)
    (b1 : TreeOk (UpToDate sig s2 σ2 D2) u2) (b2 : ThunksOk sig s2 σ2 D2 H nm (fs i) o u2) : x ∉ rs := by
  obtain ⟨nd0, v, g1, g2, g3, g4, g5, g6⟩ := Seen.ofDone hI1 hm hx hk hσ1
  have key1 := fun e he' => (he nd0 g1 e he').now a1 a2
  have key2 := fun e he' => (hEd _ (he nd0 g1 e he')).now b1 b2
  refine not_run hI1 hf hr hx hE (hσ2.trans hσ1.symm) ?_ ?_
  · intro nd e hnd he' hobs
    rw [g1] at hnd; cases hnd
    rcases key2 e he' with h | ⟨w, h, _⟩
    · exact h
    · have : e.effect = .allocate := congrArg Edge.effect h
      rw [hobs] at this; cases this
  · intro nd e hnd he' hal
    rw [g1] at hnd; cases hnd
    rcases key1 e he' with ⟨ty, w, h, _⟩ | ⟨w1, h1, ho1⟩
    · have : e.effect = .observe := congrArg Edge.effect h
      rw [hal] at this; cases this
    rcases key2 e he' with ⟨ty, w, h, _⟩ | ⟨w2, h2, ho2⟩
    · have : e.effect = .observe := congrArg Edge.effect h
      rw [hal] at this; cases this
    have hw : (CV.args w1.val none : CV X R) = .args w2.val none := by
      have h3 := h1.symm.trans h2
      simpa [allocEdge] using h3
    have ho1 : Occ H nm o u1 e.loc w1 := ho1
    have ho2 : Occ H nm o u2 e.loc w2 := ho2
    obtain ⟨m, hm'⟩ := ho1.path
    refine ⟨by rw [hm']; exact hown m, .inl ?_⟩
    obtain ⟨d1, d2, _⟩ := a2 _ _ ho1
    obtain ⟨nd', _, z1, _, z3, _⟩ := Seen.ofDone hI1 hm d1 (by rw [hm']; exact hsig _) d2
    exact ⟨nd', z1, by rw [z3, hw]; exact (b2 _ _ ho2).2.1⟩

/-- The thunk for a subtree that looks the same as before. -/
theorem fold_not_run {nm : Name} {i : Nat} (hsig : ∀ id, sig ⟨stagePath nm, id⟩ = .thunk tyR ppFold (fFold i)) (hm : sig.mode = false) {E : Loc → Prop} (hown : ∀ m, ¬ E (⟨stagePath nm, .nominal m⟩ : Loc))
    (hI1 : Inv sig (env H opAt fs hv ha) s1 σ1 D1) (hf : EditSession.Frame E s1 s) (hr : RunsOK sig s D0 s2 σ2 D2 rs)
    {o1' o2' : Option Name} {t1 t2 u1 u2 : ATr X} {a : Loc} (o1 : Occ H nm o1' t1 a u1) (o2 : Occ H nm o2' t2 a u2) (hl : Alike H nm (fs i) none u1 u2) (hn : ∀ q ∈ u1.erase.binNames none, q ≠ none)
    (a1 : TreeOk (UpToDate sig s1 σ1 D1) t1) (a2 : ThunksOk sig s1 σ1 D1 H nm (fs i) o1' t1)
    (b1 : TreeOk (UpToDate sig s2 σ2 D2) t2) (b2 : ThunksOk sig s2 σ2 D2 H nm (fs i) o2' t2) : a ∉ rs := by
  obtain ⟨n, rfl⟩ := o1.path
  obtain ⟨k1, k2, _⟩ := a2 _ _ o1
  obtain ⟨j1, j2, _⟩ := b2 _ _ o2
  refine alike_edges hsig hm hown hI1 hf hr (hsig _) k1 (hown n) k2 (by rw [j2, hl.1]) ?_ hl.2 (TreeOk.occ o1 a1) (fun b w h => a2 b w (o1.trans h)) (TreeOk.occ o2 b1) (fun b w h => b2 b w (o2.trans h))
  intro nd hnd e he
  obtain ⟨nd0, v, g1, g2, g3, g4, g5, g6⟩ := Seen.ofDone hI1 hm k1 (hsig _) k2
  rw [g1] at hnd; cases hnd
  rw [code_fold] at g6
  exact (fold_replay hsig hm hI1 u1 _ _ _ _ (TreeOk.occ o1 a1) hn g6).2.1 _ (List.mem_map.2 ⟨e, he, rfl⟩)

/-- What is allocated. -/
theorem fold_alloc {nm : Name} (t : ATr X) : ∀ (o : Option Name), ∀ x ∈ aFold R H (stagePath nm) o t, ∃ u, Occ H nm o t x.1 u := by
  induction t with
  | leaf y => intro o x hx; cases o <;> cases hx
  | bin y l r ihl ihr =>
    intro o x hx
    cases o with
    | none => cases hx
    | some n =>
      simp only [aFold, List.mem_cons, List.mem_append] at hx
      rcases hx with rfl | rfl | hx | hx
      · exact ⟨l, .left⟩
      · exact ⟨r, .right⟩
      · obtain ⟨u, h⟩ := ihl _ x hx; exact ⟨u, .binL h⟩
      · obtain ⟨u, h⟩ := ihr _ x hx; exact ⟨u, .binR h⟩
  | name k m t ih =>
    intro o x hx
    obtain ⟨u, h⟩ := ih (some m) x (by cases o <;> exact hx)
    exact ⟨u, .name h⟩
  | art a t ih =>
    intro o x hx
    obtain ⟨u, h⟩ := ih o x (by cases o <;> exact hx)
    exact ⟨u, .art h⟩

theorem LiveC.treeOk {cs : Cells (CV X R)} (hsig : ∀ n, sig (cellAt n) = .cell tyT)
    (hc : ∀ n v, cs n = some v → σ (cellAt n) = some v) (t : ATr X) : LiveC cs t → TreeOk (UpToDate sig s σ D) t := by
  induction t with
  | leaf x => intro _; trivial
  | bin x l r ihl ihr => intro h; exact ⟨ihl h.1, ihr h.2⟩
  | name k n t ih => intro h; exact ih h
  | art a t ih =>
    rintro ⟨⟨n, rfl, h1⟩, h2⟩
    refine ⟨rfl, ?_, ih h2⟩
    unfold UpToDate
    rw [hsig]
    exact hc _ _ h1
end

/-! ### The statement

A tree is given with its cells: `ATr`; `LiveC cs t` says that the cells hold what `t` says, `t.val` is the value and `t.erase` the tree without the cells. -/

/-- One step down into a tree: to one of the subtrees of a binary node, below a name, or through the cell of the editor with a name. -/
inductive Step1 (X : Type) where
  | binL (lev : Nat) (r : ATr X)
  | binR (lev : Nat) (l : ATr X)
  | name (lev : Nat) (m : Name)
  | cell (c : Name)

/-- The tree with `t` at the end of the way. -/
def plug : List (Step1 X) → ATr X → ATr X
  | [], t => t
  | .binL lev r :: k, t => .bin lev (plug k t) r
  | .binR lev l :: k, t => .bin lev l (plug k t)
  | .name lev m :: k, t => .name lev m (plug k t)
  | .cell c :: k, t => .art (cellAt c) (plug k t)

/-- The name just above the end of the way, if there is one just above its beginning. -/
def nameAt : List (Step1 X) → Option Name → Option Name
  | [], o => o
  | .binL _ _ :: k, _ => nameAt k none
  | .binR _ _ :: k, _ => nameAt k none
  | .name _ m :: k, _ => nameAt k (some m)
  | .cell _ :: k, o => nameAt k o

/-- The thunks on the way: at each binary node the one for the subtree in which the way goes on. -/
def wayThunks (H : NameHash) (nm : Name) : List (Step1 X) → Option Name → List Loc
  | [], _ => []
  | .binL _ _ :: k, o => (match o with | none => [] | some n => [leftOf H nm n]) ++ wayThunks H nm k none
  | .binR _ _ :: k, o => (match o with | none => [] | some n => [rightOf H nm n]) ++ wayThunks H nm k none
  | .name _ m :: k, _ => wayThunks H nm k (some m)
  | .cell _ :: k, o => wayThunks H nm k o

/-- The number of binary nodes on the way. -/
def wayBins : List (Step1 X) → Nat
  | [] => 0
  | .binL _ _ :: k => wayBins k + 1
  | .binR _ _ :: k => wayBins k + 1
  | .name _ _ :: k => wayBins k
  | .cell _ :: k => wayBins k

/-- The thunks for binary nodes with names: one for each of the two subtrees. -/
def bothThunks (H : NameHash) (nm : Name) (ns : List (Option Name)) : List Loc := ns.flatMap (two H (stagePath nm))

theorem way_length {H : NameHash} {nm : Name} : ∀ (k : List (Step1 X)) (o : Option Name), (wayThunks H nm k o).length ≤ wayBins k
  | [], o => Nat.le_refl _
  | .binL _ _ :: k, o => by
    have := way_length (H := H) (nm := nm) k none
    cases o <;> simp [wayThunks, wayBins] <;> omega
  | .binR _ _ :: k, o => by
    have := way_length (H := H) (nm := nm) k none
    cases o <;> simp [wayThunks, wayBins] <;> omega
  | .name _ m :: k, o => way_length k (some m)
  | .cell _ :: k, o => way_length k o

theorem both_length {H : NameHash} {nm : Name} (ns : List (Option Name)) : (bothThunks H nm ns).length ≤ 2 * ns.length := by
  induction ns with
  | nil => exact Nat.le_refl _
  | cons n ns ih =>
    simp only [bothThunks, List.flatMap_cons, List.length_append, List.length_cons] at ih ⊢
    cases n <;> simp only [two, List.length_nil, List.length_cons] <;> omega

theorem Occ.both {H : NameHash} {nm : Name} {o : Option Name} {t u : ATr X} {a : Loc} (h : Occ H nm o t a u) : a ∈ bothThunks H nm (t.erase.binNames o) := by
  unfold bothThunks
  induction h with
  | left => simp [ATr.erase, LTree.binNames, two, leftOf]
  | right => simp [ATr.erase, LTree.binNames, two, rightOf]
  | binL _ ih => simp only [ATr.erase, LTree.binNames, List.flatMap_cons, List.flatMap_append, List.mem_append]; exact .inr (.inl ih)
  | binR _ ih => simp only [ATr.erase, LTree.binNames, List.flatMap_cons, List.flatMap_append, List.mem_append]; exact .inr (.inr ih)
  | @name o _ _ _ _ _ _ ih => cases o <;> exact ih
  | @art o _ _ _ _ _ ih => cases o <;> exact ih

/-- A thunk for the new tree is on the way, or below the place, or a thunk for the old tree with the same subtree. -/
theorem occ_plug {H : NameHash} {nm : Name} {s s' u : ATr X} {a : Loc} : ∀ (k : List (Step1 X)) (o : Option Name), Occ H nm o (plug k s') a u →
    a ∈ wayThunks H nm k o ∨ Occ H nm (nameAt k o) s' a u ∨ Occ H nm o (plug k s) a u
  | [], o, h => .inr (.inl h)
  | .binL lev r :: k, o, h => by
    cases h with
    | left => exact .inl (List.mem_append_left _ (List.mem_cons_self ..))
    | right => exact .inr (.inr .right)
    | binL h => exact (occ_plug k none h).imp (List.mem_append_right _) (Or.imp id .binL)
    | binR h => exact .inr (.inr (.binR h))
  | .binR lev l :: k, o, h => by
    cases h with
    | left => exact .inr (.inr .left)
    | right => exact .inl (List.mem_append_left _ (List.mem_cons_self ..))
    | binL h => exact .inr (.inr (.binL h))
    | binR h => exact (occ_plug k none h).imp (List.mem_append_right _) (Or.imp id .binR)
  | .name lev m :: k, o, h => by
    cases h with
    | name h => exact (occ_plug k (some m) h).imp id (Or.imp id .name)
  | .cell c :: k, o, h => by
    cases h with
    | art h => exact (occ_plug k o h).imp id (Or.imp id .art)

/-- A thunk for a subtree is one for the whole tree, if the binary nodes on the way have names. -/
theorem occ_under {H : NameHash} {nm : Name} {s u : ATr X} {a : Loc} : ∀ (k : List (Step1 X)) (o : Option Name), (∀ q ∈ (plug k s).erase.binNames o, q ≠ none) → Occ H nm (nameAt k o) s a u → Occ H nm o (plug k s) a u
  | [], o, _, h => h
  | .binL _ _ :: k, o, hn, h => by
    cases o with
    | none => exact absurd rfl (hn none (List.mem_cons_self ..))
    | some n => exact .binL (occ_under k none (fun q hq => hn q (List.mem_cons_of_mem _ (List.mem_append_left _ hq))) h)
  | .binR _ _ :: k, o, hn, h => by
    cases o with
    | none => exact absurd rfl (hn none (List.mem_cons_self ..))
    | some n => exact .binR (occ_under k none (fun q hq => hn q (List.mem_cons_of_mem _ (List.mem_append_right _ hq))) h)
  | .name _ m :: k, o, hn, h => .name (occ_under k (some m) (by cases o <;> exact hn) h)
  | .cell _ :: k, o, hn, h => .art (occ_under k o (by cases o <;> exact hn) h)

section
variable {H : NameHash} {opAt : Name → Nat} {fs : Nat → Fns X R} {hv : CV X R → UInt64} {ha : ProgPt → CV X R → UInt64}

/-- The thunk has recorded dependencies on these locations only, and no more of them than the list is long. -/
def ReadsOnly (s : St (CV X R)) (ls : List Loc) (x : Loc) : Prop :=
  ∃ nd, s.table.get x = some (.comp nd) ∧ (∀ e ∈ nd.succs, e.loc ∈ ls) ∧ nd.succs.length ≤ ls.length

/-- Two demands in a row, for any two trees: what is run is new, or does not look the same as before. -/
theorem two_folds (rn : Name) (ss : List (Step X R)) (ds : List (Name × LTree X)) (h0 : Demands (fun _ => none) ss ds) (purity : Bool) (nm : Name)
    (t1 t2 : ATr X) (es1 es2 : List (Edit (CV X R))) (cs1 cs2 : Cells (CV X R))
    (hc1 : applyAll (fun _ => none) (ss.flatMap Step.edits ++ es1) = some cs1) (hh1 : LiveC cs1 t1) (hg1 : t1.erase.WellNamed)
    (hc2 : applyAll cs1 es2 = some cs2) (hh2 : LiveC cs2 t2) (hg2 : t2.erase.WellNamed) :
    ∃ N s1 s2 rs, (∀ n, N ≤ n →
        runSession (env H opAt fs hv ha) n ((ss ++ [(⟨es1, nm, t1.val⟩ : Step X R)]).map (stepProg rn)) (initSt purity false) =
          .ok ((ds.map fun d => .res (d.2.foldUp (fs (opAt d.1)) none)) ++ [.res (foldOf (fs (opAt nm)) none t1)]) s1 ∧
        exec (env H opAt fs hv ha) n (stepProg rn ⟨es2, nm, t2.val⟩) s1 = .ok (.res (foldOf (fs (opAt nm)) none t2)) s2) ∧
      s2.runs = rs ++ s1.runs ∧ rs.Nodup ∧
      (∀ x ∈ rs, (x = ⟨rootPath, .nominal rn⟩ ∧ ¬ Alike H nm (fs (opAt nm)) none t1 t2) ∨
        ∃ u2, Occ H nm none t2 x u2 ∧ ∀ u1, Occ H nm none t1 x u1 → ¬ Alike H nm (fs (opAt nm)) none u1 u2) ∧
      ReadsOnly s2 (readsOf H nm t2 none) ⟨rootPath, .nominal rn⟩ ∧ ∀ x u, Occ H nm none t2 x u → ReadsOnly s2 (readsOf H nm u none) x := by
  obtain ⟨ds', d1, d2⟩ := demands (H := H) (opAt := opAt) (fs := fs) (hv := hv) (ha := ha) (rn := rn) h0
  have hle : Ref.SigLe (theRoot H opAt fs hv ha rn).sig ((sigR opAt).withPu purity) := ⟨fun _ => rfl, rfl, fun _ => rfl, fun _ => id⟩
  obtain ⟨N, s1, e1, D1, s, s2, e2, D2, σ0, D0, rs, r1, r2, r3, r4, r5, r6⟩ := EditSession.two_steps (lawful rn) hle (ss := ss.map fun s => ⟨s.edits, .root s.nm s.tree⟩) (ds := ds')
    (st1 := ⟨es1, .root nm t1.val⟩) (st2 := ⟨es2, .root nm t2.val⟩) (d1 := (nm, t1)) (d2 := (nm, t2)) (cs1 := cs1) (cs2 := cs2)
    d1 (by rw [List.flatMap_append, List.flatMap_map]; simpa using hc1) ⟨hh1, hg1⟩ rfl hc2 ⟨hh2, hg2⟩ rfl
  have hm : ((sigR opAt).withPu purity).mode = false := rfl
  have hsig : ∀ id, ((sigR opAt).withPu purity) ⟨stagePath nm, id⟩ = .thunk tyR ppFold (fFold (opAt nm)) := fun id => sig_stage nm id
  have hall : ∀ (cs : Cells (CV X R)) (u : ATr X) (e : ES (CV X R)) (s : St (CV X R)) (D : Loc → Prop), LiveC cs u → u.erase.WellNamed →
      EditSession.Done (theRoot H opAt fs hv ha rn) ((sigR opAt).withPu purity) cs (nm, u) e s D →
      TreeOk (UpToDate ((sigR opAt).withPu purity) s e.cur D) u ∧ ThunksOk ((sigR opAt).withPu purity) s e.cur D H nm (fs (opAt nm)) none u ∧
      e.cur ⟨rootPath, .nominal rn⟩ = some (.root nm u.val) ∧
      (∀ nd, s.table.get ⟨rootPath, .nominal rn⟩ = some (.comp nd) → ∀ e ∈ nd.succs, EdgeIn H nm (fs (opAt nm)) none u e.edge) ∧
      ReadsOnly s (readsOf H nm u none) ⟨rootPath, .nominal rn⟩ ∧ ∀ x w, Occ H nm none u x w → ReadsOnly s (readsOf H nm w none) x := by
    intro cs u e s D hu hw hd
    have hok : TreeOk (UpToDate ((sigR opAt).withPu purity) s e.cur D) u :=
      LiveC.treeOk (fun n => sig_cellAt n) (fun n v hn => hd.at_.ed.ext _ _ (hd.at_.ed.cells n v hn)) u hu
    have harg := hd.at_.ed.ext _ _ hd.arg
    refine ⟨hok, ?_⟩
    obtain ⟨nd, v, g1, _, _, _, _, g6⟩ := Seen.ofDone hd.inv hm hd.root (ty := tyR) (pp := ppMain) (fn := fMain) (arg := .root nm u.val) rfl harg
    have g6 : Seen ((sigR opAt).withPu purity) (env H opAt fs hv ha) s e.cur D rootPath (.ns nm (.call (fFold (opAt nm)) (.args u.val none) .ret) .ret) [] (nd.succs.map Succ.edge) v := g6
    obtain ⟨w, es1, es2, q1, h1, h2⟩ := g6.ns
    obtain ⟨w', es3, es4, rfl, k1, k2⟩ := h1.call
    rw [code_fold] at k1
    obtain ⟨rfl, f1, f2, f3⟩ := fold_replay hsig hm hd.inv u _ _ _ _ hok hw.1 k1
    obtain ⟨rfl, rfl⟩ := k2.ret
    obtain ⟨rfl, rfl⟩ := h2.ret
    have g1 : s.table.get ⟨rootPath, .nominal rn⟩ = some (.comp nd) := g1
    have f4 : ∀ e ∈ nd.succs, EdgeIn H nm (fs (opAt nm)) none u e.edge := by
      intro e he
      refine f1 _ ?_
      have : e.edge ∈ nd.succs.map Succ.edge := List.mem_map.2 ⟨e, he, rfl⟩
      rw [q1] at this
      simpa using this
    refine ⟨f2, harg, ?_, ⟨nd, g1, fun e he => (f4 e he).reads, ?_⟩, ?_⟩
    · intro nd' hnd' e he
      rw [g1] at hnd'; cases hnd'
      exact f4 e he
    · have := congrArg List.length q1
      simp only [List.length_map, List.append_nil] at this
      omega
    · intro x w ho
      obtain ⟨j1, j2, _⟩ := f2 x w ho
      obtain ⟨m, rfl⟩ := ho.path
      obtain ⟨nd2, v2, z1, _, _, _, _, z6⟩ := Seen.ofDone hd.inv hm j1 (hsig _) j2
      have z6 : Seen ((sigR opAt).withPu purity) (env H opAt fs hv ha) s e.cur D (stagePath nm) ((env H opAt fs hv ha).code (fFold (opAt nm)) (.args w.val none)) [] (nd2.succs.map Succ.edge) v2 := z6
      rw [code_fold] at z6
      obtain ⟨_, y1, _, y3⟩ := fold_replay hsig hm hd.inv w _ _ _ _ (TreeOk.occ ho hok) (ho.named hw.1) z6
      exact ⟨nd2, z1, fun e he => (y1 _ (List.mem_map.2 ⟨e, he, rfl⟩)).reads, by simpa using y3⟩
  obtain ⟨a1, a2, a3, a4, _⟩ := hall _ _ _ _ _ hh1 hg1 r2
  obtain ⟨b1, b2, b3, _, b5, b6⟩ := hall _ _ _ _ _ hh2 hg2 r6
  have hown : ∀ m, ¬ ((⟨stagePath nm, .nominal m⟩ : Loc).path = .empty ∨ ((⟨stagePath nm, .nominal m⟩ : Loc) = (theRoot H opAt fs hv ha rn).loc ∧
      (theRoot H opAt fs hv ha rn).arg (nm, t1) ≠ (theRoot H opAt fs hv ha rn).arg (nm, t2))) := by
    rintro m (h | ⟨h, _⟩)
    · cases h
    · have : stagePath nm = rootPath := congrArg Loc.path h
      simp [stagePath, rootPath] at this
  refine ⟨N, s1, s2, rs, ?_, by rw [r5.runs, r3.runs], r5.nodup, ?_, b5, b6⟩
  · intro n hn
    obtain ⟨q1, q2⟩ := r1 n hn
    rw [d2] at q1
    refine ⟨?_, q2⟩
    refine Eq.trans ?_ q1
    simp only [List.map_append, List.map_map, List.map_cons, List.map_nil]
    rfl
  · intro x hx
    rcases r6.ran (lawful rn) hle (r5.once x hx).2.1 with h1 | ⟨h1, ty, pp, fn, h2⟩ | ⟨b, hb, rfl⟩
    · refine .inl ⟨h1, ?_⟩
      rintro ⟨hv', he⟩
      subst h1
      refine absurd hx (alike_edges (x := ⟨rootPath, .nominal rn⟩) hsig hm hown r2.inv r3 r5 (ty := tyR) (pp := ppMain) (fn := fMain) rfl r2.root ?_ a3 (by rw [b3, hv']) a4 he a1 a2 b1 b2)
      rintro (h | ⟨_, h⟩)
      · cases h
      · refine h ?_
        show CV.root nm t1.val = CV.root nm t2.val
        rw [hv']
    · obtain ⟨p, id⟩ := x
      cases h1
      cases h2
    · have hb : b ∈ aFold R H (stagePath nm) none t2 := hb
      obtain ⟨u, hu⟩ := fold_alloc t2 none b hb
      exact .inr ⟨u, hu, fun u1 o1 hl => fold_not_run hsig hm hown r2.inv r3 r5 o1 hu hl (o1.named hg1.1) a1 a2 b1 b2 hx⟩

/-- **C90.** `fold_up_namebin` of level trees is incremental.  After any session of C89, the fold of a tree is demanded; then the editor edits its cells in any way such that the tree is the same except at
one place, at the end of the way `k`, where the subtree is `t'` instead of `t`.  Then the next demand returns the fold of the new tree, and it runs the code of the demanded thunk, of the thunks on the way and
of the thunks for the binary nodes in `t'`, of each at most once, and of no other thunk, however large the tree is.  Each of these runs reads the cells from its subtree down to the nearest binary node, and the two
thunks for this node, and nothing else. -/
theorem C90_edits_are_local (rn : Name) (ss : List (Step X R)) (ds : List (Name × LTree X)) (h0 : Demands (fun _ => none) ss ds) (purity : Bool) (nm : Name)
    (k : List (Step1 X)) (t t' : ATr X) (es1 es2 : List (Edit (CV X R))) (cs1 cs2 : Cells (CV X R))
    (hc1 : applyAll (fun _ => none) (ss.flatMap Step.edits ++ es1) = some cs1) (hh1 : LiveC cs1 (plug k t)) (hg1 : (plug k t).erase.WellNamed)
    (hc2 : applyAll cs1 es2 = some cs2) (hh2 : LiveC cs2 (plug k t')) (hg2 : (plug k t').erase.WellNamed) :
    ∃ N s1 s2 rs, (∀ n, N ≤ n →
        runSession (env H opAt fs hv ha) n ((ss ++ [(⟨es1, nm, (plug k t).val⟩ : Step X R)]).map (stepProg rn)) (initSt purity false) =
          .ok ((ds.map fun d => .res (d.2.foldUp (fs (opAt d.1)) none)) ++ [.res ((plug k t).erase.foldUp (fs (opAt nm)) none)]) s1 ∧
        exec (env H opAt fs hv ha) n (stepProg rn ⟨es2, nm, (plug k t').val⟩) s1 = .ok (.res ((plug k t').erase.foldUp (fs (opAt nm)) none)) s2) ∧
      s2.runs = rs ++ s1.runs ∧ rs.Nodup ∧
      (∀ x ∈ rs, x = ⟨rootPath, .nominal rn⟩ ∨ x ∈ wayThunks H nm k none ∨ x ∈ bothThunks H nm (t'.erase.binNames (nameAt k none))) ∧
      rs.length ≤ 1 + wayBins k + 2 * (t'.erase.binNames (nameAt k none)).length ∧
      ReadsOnly s2 (readsOf H nm (plug k t') none) ⟨rootPath, .nominal rn⟩ ∧
      ∀ x u, Occ H nm none (plug k t') x u → ReadsOnly s2 (readsOf H nm u none) x := by
  obtain ⟨N, s1, s2, rs, r1, r2, r3, r4, r5, r6⟩ := two_folds (H := H) (opAt := opAt) (fs := fs) (hv := hv) (ha := ha) rn ss ds h0 purity nm (plug k t) (plug k t') es1 es2 cs1 cs2 hc1 hh1 hg1 hc2 hh2 hg2
  have hwho : ∀ x ∈ rs, x = ⟨rootPath, .nominal rn⟩ ∨ x ∈ wayThunks H nm k none ∨ x ∈ bothThunks H nm (t'.erase.binNames (nameAt k none)) := by
    intro x hx
    rcases r4 x hx with ⟨h, _⟩ | ⟨u, hu, hno⟩
    · exact .inl h
    · rcases occ_plug (s := t) k none hu with h | h | h
      · exact .inr (.inl h)
      · exact .inr (.inr h.both)
      · exact absurd ⟨rfl, fun _ h => h⟩ (hno u h)
  refine ⟨N, s1, s2, rs, r1, r2, r3, hwho, ?_, r5, r6⟩
  have := Wf.length_le_of_subset (b := (⟨rootPath, .nominal rn⟩ : Loc) :: (wayThunks H nm k none ++ bothThunks H nm (t'.erase.binNames (nameAt k none)))) r3 ?_
  · refine Nat.le_trans this ?_
    have h1 := way_length (H := H) (nm := nm) k none
    have h2 := both_length (H := H) (nm := nm) (t'.erase.binNames (nameAt k none))
    rw [List.length_cons, List.length_append]
    omega
  · intro x hx
    rcases hwho x hx with rfl | h | h
    · exact List.mem_cons_self ..
    · exact List.mem_cons_of_mem _ (List.mem_append_left _ h)
    · exact List.mem_cons_of_mem _ (List.mem_append_right _ h)

/-! #### Early cutoff -/

/-- A step at a binary node. -/
def Step1.atBin : Step1 X → Bool
  | .binL _ _ => true
  | .binR _ _ => true
  | _ => false

/-- A step through a cell. -/
def Step1.isCell : Step1 X → Bool
  | .cell _ => true
  | _ => false

theorem plug_val {t t' : ATr X} : ∀ (k : List (Step1 X)), (∃ st ∈ k, st.isCell = true) → (plug k t).val = (plug k t').val
  | [], ⟨_, h, _⟩ => by cases h
  | .cell c :: k, _ => rfl
  | .binL lev r :: k, ⟨st, h, hc⟩ => by
    have := plug_val (t := t) (t' := t') k ⟨st, (List.mem_cons.1 h).resolve_left (fun h => by subst h; cases hc), hc⟩
    simp only [plug, ATr.val, this]
  | .binR lev r :: k, ⟨st, h, hc⟩ => by
    have := plug_val (t := t) (t' := t') k ⟨st, (List.mem_cons.1 h).resolve_left (fun h => by subst h; cases hc), hc⟩
    simp only [plug, ATr.val, this]
  | .name lev m :: k, ⟨st, h, hc⟩ => by
    have := plug_val (t := t) (t' := t') k ⟨st, (List.mem_cons.1 h).resolve_left (fun h => by subst h; cases hc), hc⟩
    simp only [plug, ATr.val, this]

/-- Below a binary node, what its thunks allocate and observe. -/
theorem alike_bin {nm : Name} {f : Fns X R} {o : Option Name} {lev : Nat} {l l' r r' : ATr X} (hl : l.val = l'.val) (hr : r.val = r'.val) (fl : foldOf f none l = foldOf f none l')
    (fr : foldOf f none r = foldOf f none r') : Alike H nm f o (.bin lev l r) (.bin lev l' r') := by
  refine ⟨by simp only [ATr.val, hl, hr], ?_⟩
  intro e he
  cases he with
  | la => rw [hl]; exact .la
  | lo => rw [fl]; exact .lo
  | ra => rw [hr]; exact .ra
  | ro => rw [fr]; exact .ro

/-- Above a binary node where neither the value nor the fold of the subtree changes, the trees look the same. -/
theorem alike_plug {nm : Name} {f : Fns X R} {st : Step1 X} {u u' : ATr X} (hst : st.atBin = true) (hv : u.val = u'.val) (hf : foldOf f none u = foldOf f none u') :
    ∀ (k1 : List (Step1 X)) (o : Option Name), Alike H nm f o (plug (k1 ++ [st]) u) (plug (k1 ++ [st]) u') ∧ foldOf f o (plug (k1 ++ [st]) u) = foldOf f o (plug (k1 ++ [st]) u')
  | [], o => by
    cases st with
    | binL lev r => exact ⟨alike_bin hv rfl hf rfl, by simp only [List.nil_append, plug, foldOf_bin, hf]⟩
    | binR lev l => exact ⟨alike_bin rfl hv rfl hf, by simp only [List.nil_append, plug, foldOf_bin, hf]⟩
    | _ => cases hst
  | .binL lev r :: k1, o => by
    obtain ⟨⟨h1, _⟩, h3⟩ := alike_plug (nm := nm) hst hv hf k1 none
    exact ⟨alike_bin h1 rfl h3 rfl, by simp only [List.cons_append, plug, foldOf_bin, h3]⟩
  | .binR lev l :: k1, o => by
    obtain ⟨⟨h1, _⟩, h3⟩ := alike_plug (nm := nm) hst hv hf k1 none
    exact ⟨alike_bin rfl h1 rfl h3, by simp only [List.cons_append, plug, foldOf_bin, h3]⟩
  | .name lev m :: k1, o => by
    obtain ⟨⟨h1, h2⟩, h3⟩ := alike_plug (nm := nm) hst hv hf k1 (some m)
    refine ⟨⟨by simp only [List.cons_append, plug, ATr.val, h1], ?_⟩, by simp only [List.cons_append, plug, foldOf_name, h3]⟩
    intro e he
    cases he with
    | name he => exact .name (h2 e he)
  | .cell c :: k1, o => by
    obtain ⟨⟨h1, h2⟩, h3⟩ := alike_plug (nm := nm) hst hv hf k1 o
    refine ⟨⟨rfl, ?_⟩, by simp only [List.cons_append, plug, foldOf_art, h3]⟩
    intro e he
    cases he with
    | cell => exact (congrArg (fun w => EdgeIn H nm f o (.art (cellAt c) (plug (k1 ++ [st]) u')) (obsEdge tyT (cellAt c) (.tree w))) h1).mpr .cell
    | art he => exact .art (h2 e he)

theorem plug_append (k1 k2 : List (Step1 X)) (t : ATr X) : plug (k1 ++ k2) t = plug k1 (plug k2 t) := by
  induction k1 with
  | nil => rfl
  | cons st k1 ih => cases st <;> simp only [List.cons_append, plug, ih]

/-- A thunk for the new tree is at the binary node, or below, or looks the same as before. -/
theorem occ_cut {nm : Name} {f : Fns X R} {st : Step1 X} {s s' u : ATr X} {a : Loc} (hst : st.atBin = true) (hv : s.val = s'.val) (hf : foldOf f none s = foldOf f none s') :
    ∀ (k1 : List (Step1 X)) (o : Option Name), Occ H nm o (plug (k1 ++ [st]) s') a u →
      a ∈ wayThunks H nm [st] (nameAt k1 o) ∨ Occ H nm none s' a u ∨ ∃ u0, Occ H nm o (plug (k1 ++ [st]) s) a u0 ∧ Alike H nm f none u0 u
  | [], o, h => by
    have : nameAt [st] o = none := by cases st <;> first | rfl | cases hst
    have h := occ_plug (s := s) [st] o h
    rw [this] at h
    exact h.imp id (Or.imp id fun h => ⟨u, h, rfl, fun _ h => h⟩)
  | .binL lev r :: k, o, h => by
    cases h with
    | left => exact .inr (.inr ⟨_, .left, (alike_plug hst hv hf k none).1⟩)
    | right => exact .inr (.inr ⟨u, .right, rfl, fun _ h => h⟩)
    | binL h => exact (occ_cut hst hv hf k none h).imp id (Or.imp id fun ⟨u0, h1, h2⟩ => ⟨u0, .binL h1, h2⟩)
    | binR h => exact .inr (.inr ⟨u, .binR h, rfl, fun _ h => h⟩)
  | .binR lev l :: k, o, h => by
    cases h with
    | left => exact .inr (.inr ⟨u, .left, rfl, fun _ h => h⟩)
    | right => exact .inr (.inr ⟨_, .right, (alike_plug hst hv hf k none).1⟩)
    | binL h => exact .inr (.inr ⟨u, .binL h, rfl, fun _ h => h⟩)
    | binR h => exact (occ_cut hst hv hf k none h).imp id (Or.imp id fun ⟨u0, h1, h2⟩ => ⟨u0, .binR h1, h2⟩)
  | .name lev m :: k, o, h => by
    cases h with
    | name h => exact (occ_cut hst hv hf k (some m) h).imp id (Or.imp id fun ⟨u0, h1, h2⟩ => ⟨u0, .name h1, h2⟩)
  | .cell c :: k, o, h => by
    cases h with
    | art h => exact (occ_cut hst hv hf k o h).imp id (Or.imp id fun ⟨u0, h1, h2⟩ => ⟨u0, .art h1, h2⟩)

theorem nameAt_append (k1 k2 : List (Step1 X)) : ∀ o, nameAt (k1 ++ k2) o = nameAt k2 (nameAt k1 o) := by
  induction k1 with
  | nil => intro o; rfl
  | cons st k1 ih => intro o; cases st <;> exact ih _

theorem way_append {nm : Name} (k1 k2 : List (Step1 X)) : ∀ o, wayThunks H nm (k1 ++ k2) o = wayThunks H nm k1 o ++ wayThunks H nm k2 (nameAt k1 o) := by
  induction k1 with
  | nil => intro o; rfl
  | cons st k1 ih => intro o; cases st <;> simp only [List.cons_append, wayThunks, nameAt, ih, List.append_assoc]

theorem bins_append (k1 k2 : List (Step1 X)) : wayBins (k1 ++ k2) = wayBins k1 + wayBins k2 := by
  induction k1 with
  | nil => simp [wayBins]
  | cons st k1 ih => cases st <;> simp only [List.cons_append, wayBins, ih] <;> omega

/-- **C90, early cutoff.**  If moreover there is a binary node on the way (`st`) such that the fold of the subtree below it is the same before and after, and a cell between that node and the place, then neither the
demanded thunk nor any thunk above that node is run: only that node's thunk, those further down the way, and those for the binary nodes in `t'`. -/
theorem C90_early_cutoff (rn : Name) (ss : List (Step X R)) (ds : List (Name × LTree X)) (h0 : Demands (fun _ => none) ss ds) (purity : Bool) (nm : Name)
    (k1 : List (Step1 X)) (st : Step1 X) (k2 : List (Step1 X)) (hst : st.atBin = true) (hcell : ∃ c ∈ k2, c.isCell = true)
    (t t' : ATr X) (hsame : (plug k2 t).erase.foldUp (fs (opAt nm)) none = (plug k2 t').erase.foldUp (fs (opAt nm)) none) (es1 es2 : List (Edit (CV X R))) (cs1 cs2 : Cells (CV X R))
    (hc1 : applyAll (fun _ => none) (ss.flatMap Step.edits ++ es1) = some cs1) (hh1 : LiveC cs1 (plug (k1 ++ st :: k2) t)) (hg1 : (plug (k1 ++ st :: k2) t).erase.WellNamed)
    (hc2 : applyAll cs1 es2 = some cs2) (hh2 : LiveC cs2 (plug (k1 ++ st :: k2) t')) (hg2 : (plug (k1 ++ st :: k2) t').erase.WellNamed) :
    ∃ N s1 s2 rs, (∀ n, N ≤ n →
        runSession (env H opAt fs hv ha) n ((ss ++ [(⟨es1, nm, (plug (k1 ++ st :: k2) t).val⟩ : Step X R)]).map (stepProg rn)) (initSt purity false) =
          .ok ((ds.map fun d => .res (d.2.foldUp (fs (opAt d.1)) none)) ++ [.res ((plug (k1 ++ st :: k2) t).erase.foldUp (fs (opAt nm)) none)]) s1 ∧
        exec (env H opAt fs hv ha) n (stepProg rn ⟨es2, nm, (plug (k1 ++ st :: k2) t').val⟩) s1 = .ok (.res ((plug (k1 ++ st :: k2) t').erase.foldUp (fs (opAt nm)) none)) s2) ∧
      s2.runs = rs ++ s1.runs ∧ rs.Nodup ∧
      (∀ x ∈ rs, x ∈ wayThunks H nm (st :: k2) (nameAt k1 none) ∨ x ∈ bothThunks H nm (t'.erase.binNames (nameAt k2 none))) ∧
      rs.length ≤ 1 + wayBins k2 + 2 * (t'.erase.binNames (nameAt k2 none)).length := by
  obtain ⟨N, s1, s2, rs, r1, r2, r3, r4, r5, r6⟩ := two_folds (H := H) (opAt := opAt) (fs := fs) (hv := hv) (ha := ha) rn ss ds h0 purity nm _ _ es1 es2 cs1 cs2 hc1 hh1 hg1 hc2 hh2 hg2
  have e : ∀ u, plug (k1 ++ st :: k2) u = plug (k1 ++ [st]) (plug k2 u) := fun u => by rw [← plug_append]; simp
  have hval := plug_val (t := t) (t' := t') k2 hcell
  have hnone : ∀ o, nameAt [st] o = none := by intro o; cases st <;> first | rfl | cases hst
  have hway : wayThunks H nm (st :: k2) (nameAt k1 none) = wayThunks H nm [st] (nameAt k1 none) ++ wayThunks H nm k2 none := by
    have := way_append (H := H) (nm := nm) [st] k2 (nameAt k1 none)
    rwa [hnone] at this
  have hnm : nameAt (k1 ++ [st]) none = none := by rw [nameAt_append, hnone]
  have hwho : ∀ x ∈ rs, x ∈ wayThunks H nm (st :: k2) (nameAt k1 none) ∨ x ∈ bothThunks H nm (t'.erase.binNames (nameAt k2 none)) := by
    intro x hx
    rw [hway]
    rcases r4 x hx with ⟨_, h⟩ | ⟨u, hu, hno⟩
    · refine absurd ?_ h
      rw [e, e]
      exact (alike_plug hst hval hsame k1 none).1
    · rw [e] at hu
      rcases occ_cut hst hval hsame k1 none hu with h | h | ⟨u0, h1, h2⟩
      · exact .inl (List.mem_append_left _ h)
      · rcases occ_plug (s := t) k2 none h with h | h | h
        · exact .inl (List.mem_append_right _ h)
        · exact .inr h.both
        · refine absurd ⟨rfl, fun _ h => h⟩ (hno u ?_)
          rw [e] at hg1 ⊢
          exact occ_under (k1 ++ [st]) none hg1.1 (by rw [hnm]; exact h)
      · exact absurd h2 (hno u0 (by rw [e]; exact h1))
  refine ⟨N, s1, s2, rs, r1, r2, r3, hwho, ?_⟩
  have := Wf.length_le_of_subset (b := wayThunks H nm (st :: k2) (nameAt k1 none) ++ bothThunks H nm (t'.erase.binNames (nameAt k2 none))) r3 ?_
  · refine Nat.le_trans this ?_
    have h1 := way_length (H := H) (nm := nm) (st :: k2) (nameAt k1 none)
    have h2 := both_length (H := H) (nm := nm) (t'.erase.binNames (nameAt k2 none))
    have h3 : wayBins (st :: k2) = wayBins k2 + 1 := by cases st <;> first | rfl | cases hst
    rw [List.length_append]
    omega
  · intro x hx
    rcases hwho x hx with h | h
    · exact List.mem_append_left _ h
    · exact List.mem_append_right _ h
end

end Adapton.RecProg

/-! ### A session that meets the hypotheses

A tree with eight leaves and seven binary nodes, each with a name and in a cell of its own; a leaf is edited. -/
namespace Adapton.RecProg.Example90
open EditSession (cellAt Edit applyAll Cells)
open Example89 (H nm fs opAt)

/-- A tree of height `h`, with names and cells from the number `k` on. -/
def full : Nat → Nat → ATr Nat
  | 0, k => .leaf [k]
  | h + 1, k => .name h (nm k) (.bin h (.art (cellAt (nm (100 + 2 * k))) (full h (2 * k))) (.art (cellAt (nm (101 + 2 * k))) (full h (2 * k + 1))))
/-- To the leaf number 10: left, right, left. -/
def way : List (Step1 Nat) :=
  [.name 2 (nm 1), .binL 2 (.art (cellAt (nm 103)) (full 2 3)), .cell (nm 102), .name 1 (nm 2), .binR 1 (.art (cellAt (nm 104)) (full 1 4)), .cell (nm 105),
   .name 0 (nm 5), .binL 0 (.art (cellAt (nm 111)) (.leaf [11])), .cell (nm 110)]
def writes : ATr Nat → List (Edit (CV Nat Nat))
  | .leaf _ => []
  | .bin _ l r => writes l ++ writes r
  | .name _ _ t => writes t
  | .art a t => (match a.id with | .nominal n => [.cell n (.tree t.val)] | _ => []) ++ writes t

theorem is_full : plug way (.leaf [10]) = full 3 1 := rfl

/-- A subtree with a binary node of its own. -/
def sub : ATr Nat := .name 0 (nm 50) (.bin 0 (.leaf [60]) (.leaf [61]))
/-- One with the sum 10. -/
def ten : ATr Nat := .name 0 (nm 50) (.bin 0 (.leaf [4]) (.leaf [1, 5]))
def cells1 : Cells (CV Nat Nat) := (applyAll (fun _ => none) (writes (full 3 1))).getD fun _ => none
def put (t : ATr Nat) : List (Edit (CV Nat Nat)) := [.set (nm 110) (.tree t.val)]
def cells2 (t : ATr Nat) : Cells (CV Nat Nat) := (applyAll cells1 (put t)).getD fun _ => none

theorem meets1 : applyAll (fun _ => none) (([] : List (Step Nat Nat)).flatMap Step.edits ++ writes (full 3 1)) = some cells1 ∧ LiveC cells1 (plug way (.leaf [10])) ∧
    (plug way (.leaf [10])).erase.WellNamed := by
  refine ⟨rfl, ?_, by decide, by decide⟩
  simp only [way, plug, full, LiveC, and_true]
  refine ⟨⟨⟨_, rfl, rfl⟩, ⟨⟨_, rfl, rfl⟩, ⟨_, rfl, rfl⟩, ⟨_, rfl, rfl⟩⟩, ⟨_, rfl, rfl⟩, ⟨_, rfl, rfl⟩, ⟨_, rfl, rfl⟩⟩, ⟨_, rfl, rfl⟩, ⟨⟨_, rfl, rfl⟩, ⟨_, rfl, rfl⟩, ⟨_, rfl, rfl⟩⟩, ⟨_, rfl, rfl⟩, ⟨_, rfl, rfl⟩, ⟨_, rfl, rfl⟩⟩
theorem meets2 : applyAll cells1 (put sub) = some (cells2 sub) ∧ LiveC (cells2 sub) (plug way sub) ∧ (plug way sub).erase.WellNamed := by
  refine ⟨rfl, ?_, by decide, by decide⟩
  simp only [way, plug, full, LiveC, sub, and_true]
  refine ⟨⟨⟨_, rfl, rfl⟩, ⟨⟨_, rfl, rfl⟩, ⟨_, rfl, rfl⟩, ⟨_, rfl, rfl⟩⟩, ⟨_, rfl, rfl⟩, ⟨_, rfl, rfl⟩, ⟨_, rfl, rfl⟩⟩, ⟨_, rfl, rfl⟩, ⟨⟨_, rfl, rfl⟩, ⟨_, rfl, rfl⟩, ⟨_, rfl, rfl⟩⟩, ⟨_, rfl, rfl⟩, ⟨_, rfl, rfl⟩, ⟨_, rfl, rfl⟩⟩
theorem meets3 : applyAll cells1 (put ten) = some (cells2 ten) ∧ LiveC (cells2 ten) (plug way ten) ∧ (plug way ten).erase.WellNamed := by
  refine ⟨rfl, ?_, by decide, by decide⟩
  simp only [way, plug, full, LiveC, ten, and_true]
  refine ⟨⟨⟨_, rfl, rfl⟩, ⟨⟨_, rfl, rfl⟩, ⟨_, rfl, rfl⟩, ⟨_, rfl, rfl⟩⟩, ⟨_, rfl, rfl⟩, ⟨_, rfl, rfl⟩, ⟨_, rfl, rfl⟩⟩, ⟨_, rfl, rfl⟩, ⟨⟨_, rfl, rfl⟩, ⟨_, rfl, rfl⟩, ⟨_, rfl, rfl⟩⟩, ⟨_, rfl, rfl⟩, ⟨_, rfl, rfl⟩, ⟨_, rfl, rfl⟩⟩

/-- The theorem applies: at most six of the seventeen thunks are run. -/
example := C90_edits_are_local (H := H) (opAt := opAt) (fs := fs) (hv := fun _ => 0) (ha := fun _ _ => 0) (nm 0) [] [] .nil true (nm 20) way (.leaf [10]) sub (writes (full 3 1)) (put sub)
  cells1 (cells2 sub) meets1.1 meets1.2.1 meets1.2.2 meets2.1 meets2.2.1 meets2.2.2
example : 1 + wayBins way + 2 * (sub.erase.binNames (nameAt way none)).length = 6 := rfl
/-- The early cutoff applies at the third binary node on the way: at most three thunks are run, two of them new. -/
example := C90_early_cutoff (H := H) (opAt := opAt) (fs := fs) (hv := fun _ => 0) (ha := fun _ _ => 0) (nm 0) [] [] .nil true (nm 20) (way.take 7) (.binL 0 (.art (cellAt (nm 111)) (.leaf [11])))
  [.cell (nm 110)] rfl ⟨_, List.mem_cons_self .., rfl⟩ (.leaf [10]) ten rfl (writes (full 3 1)) (put ten) cells1 (cells2 ten) meets1.1 meets1.2.1 meets1.2.2 meets3.1 meets3.2.1 meets3.2.2

/-- The sums returned, and the number of thunks run, before and after the edit. -/
def outcome (t : ATr Nat) : List (CV Nat Nat) × List Nat :=
  match exec (env H opAt fs (fun _ => 0) (fun _ _ => 0)) 60 (stepProg (nm 0) ⟨writes (full 3 1), nm 20, (full 3 1).val⟩) (initSt true false) with
  | .ok v s => match exec (env H opAt fs (fun _ => 0) (fun _ _ => 0)) 60 (stepProg (nm 0) ⟨put t, nm 20, (plug way t).val⟩) s with
    | .ok v' s' => ([v, v'], [s.runs.length, s'.runs.length - s.runs.length])
    | _ => ([], [])
  | _ => ([], [])

/-- The bounds are attained, also that of the early cutoff. -/
theorem C90_bound_attained : outcome (.leaf [20]) = ([.res 92, .res 102], [15, 4]) ∧ outcome sub = ([.res 92, .res 203], [15, 6]) ∧ outcome ten = ([.res 92, .res 92], [15, 3]) := by decide +kernel

end Adapton.RecProg.Example90
