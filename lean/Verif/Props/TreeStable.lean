import Verif.Engine.Settled
import Verif.Engine.Wf
import Verif.Props.FoldEngine
/-
C79: folds of trees are incremental.  After any history of edits and demands, edits below a place of the tree make the next demand run the code of the thunks on the way to that place,
and below it, and of no others.
-/
set_option linter.unusedSectionVars false
set_option linter.unusedVariables false
namespace Adapton.FoldProg
open Coll (NameElse Lst Tree Dir2 elmsOf namesOf)
open SortProg (LV TV AL AT)
open Ref (Sig Kind Store Ctx Ext ES Means alloc)
open EditSession (World Below AncOk Cells Edit applyAll cellAt)
variable {X R : Type} [DecidableEq X] [DecidableEq R]

/-- Observing the articulations yields the tree. -/
def TreeOk (U : Loc → CV X R → Prop) : AT X → Prop
  | .nil => True
  | .leaf _ => True
  | .bin _ l r => TreeOk U l ∧ TreeOk U r
  | .name _ _ l r => TreeOk U l ∧ TreeOk U r
  | .art a t => a.isStruct = false ∧ U a (.tree t.val) ∧ TreeOk U t

/-- The thunks of the stage `nm` for the two subtrees at a name. -/
def leftOf (H : NameHash) (nm n : Name) : Loc := ⟨stagePath nm, .nominal (nameFork H n).1⟩
def rightOf (H : NameHash) (nm n : Name) : Loc := ⟨stagePath nm, .nominal (nameFork H n).2⟩

/-- In the fold of the tree, there is a thunk `a` for the subtree `s`. -/
inductive Occ (H : NameHash) (nm : Name) : AT X → Loc → AT X → Prop
  | left {n x l r} : Occ H nm (.name n x l r) (leftOf H nm n) l
  | right {n x l r} : Occ H nm (.name n x l r) (rightOf H nm n) r
  | nameL {n x l r a s} : Occ H nm l a s → Occ H nm (.name n x l r) a s
  | nameR {n x l r a s} : Occ H nm r a s → Occ H nm (.name n x l r) a s
  | binL {x l r a s} : Occ H nm l a s → Occ H nm (.bin x l r) a s
  | binR {x l r a s} : Occ H nm r a s → Occ H nm (.bin x l r) a s
  | art {b t a s} : Occ H nm t a s → Occ H nm (.art b t) a s

/-- The fold of a tree. -/
def foldOf (f : PureUp X R) (t : AT X) : R := Coll.treeFoldUp f.nil f.leaf f.bin f.name t.erase

section
variable {H : NameHash} {opAt : Name → Op} {fs : Fns X R} {hv : CV X R → UInt64} {ha : ProgPt → CV X R → UInt64} {sig : Sig} {s : St (CV X R)} {σ : Store (CV X R)} {D : Loc → Prop}
  {π : Path}

/-- Looking at an articulation. -/
theorem fold_view {ty : Ty} {fn : FnId} {F : UpFns X R} {a : Loc} {t : TV X} {pre es : List (Edge (CV X R))} {v : CV X R} (ha' : a.isStruct = false) (hu : UpToDate sig s σ D a (.tree t))
    (h : Seen sig (env H opAt fs hv ha) s σ D π (foldUp H ty fn F (.art a)) pre es v) :
    ∃ new es', es = new ++ es' ∧ (new = [] ∨ new = [obsEdge tyT a (.tree t)]) ∧ Seen sig (env H opAt fs hv ha) s σ D π (foldUp H ty fn F t) (pre ++ new) es' v := by
  unfold foldUp at h ⊢
  obtain ⟨w, es1, es2, rfl, h1, h2⟩ := h.call
  obtain ⟨w', new, es3, g1, rfl, g3, g4⟩ := Seen.force1 (cyc := none) (k := fun v => .call fTView v .ret) h1 ha'
  have := g1.unique hu
  subst this
  obtain ⟨w2, es4, es5, rfl, k1, k2⟩ := g4.call
  obtain ⟨rfl, rfl⟩ := k2.ret
  simp only [List.append_nil] at h2 ⊢
  refine ⟨new, es4 ++ es2, by simp, g3, ?_, ?_⟩
  · exact Replay.call k1.1 (by rw [List.append_assoc]; exact h2.1)
  · intro e he
    exact h2.2 e (by simpa using he)

/-- The dependencies of a thunk that folds the tree. -/
def EdgeIn (H : NameHash) (nm : Name) (f : PureUp X R) : AT X → Edge (CV X R) → Prop
  | .nil, _ => False
  | .leaf _, _ => False
  | .bin _ l r, e => EdgeIn H nm f l e ∨ EdgeIn H nm f r e
  | .name n _ l r, e => e = allocEdge (leftOf H nm n) (.tree l.val) ∨ e = obsEdge tyR (leftOf H nm n) (.res (foldOf f l)) ∨
      e = allocEdge (rightOf H nm n) (.tree r.val) ∨ e = obsEdge tyR (rightOf H nm n) (.res (foldOf f r))
  | .art a t, e => e = obsEdge tyT a (.tree t.val) ∨ EdgeIn H nm f t e

/-- All thunks for subtrees are up to date. -/
def ThunksOk (sig : Sig) (s : St (CV X R)) (σ : Store (CV X R)) (D : Loc → Prop) (H : NameHash) (nm : Name) (f : PureUp X R) (t : AT X) : Prop :=
  ∀ a u, Occ H nm t a u → D a ∧ σ a = some (.tree u.val) ∧ UpToDate sig s σ D a (.res (foldOf f u))

theorem fold_replay {nm : Name} {i : Nat} (hsig : ∀ id, sig ⟨stagePath nm, id⟩ = .thunk tyR ppUp (fUp i)) (hm : sig.mode = false) (hI : Inv sig (env H opAt fs hv ha) s σ D) (t : AT X) :
    ∀ (pre es : List (Edge (CV X R))) (v : CV X R), TreeOk (UpToDate sig s σ D) t →
    Seen sig (env H opAt fs hv ha) s σ D (stagePath nm) (foldUp H tyR (fUp i) (fs.up i).fns t.val) pre es v →
    v = .res (foldOf (fs.up i) t) ∧ (∀ e ∈ es, EdgeIn H nm (fs.up i) t e) ∧ ThunksOk sig s σ D H nm (fs.up i) t := by
  induction t with
  | nil =>
    intro pre es v ht h
    unfold foldUp at h
    obtain ⟨w, es1, es2, rfl, h1, h2⟩ := h.call
    obtain ⟨rfl, rfl⟩ := Seen.ret (w := (.tree .nil : CV X R)) h1
    obtain ⟨rfl, rfl⟩ := Seen.ret (w := (.res (fs.up i).nil : CV X R)) h2
    exact ⟨rfl, (fun _ h => by cases h), (fun _ _ h => by cases h)⟩
  | leaf x =>
    intro pre es v ht h
    unfold foldUp at h
    obtain ⟨w, es1, es2, rfl, h1, h2⟩ := h.call
    obtain ⟨rfl, rfl⟩ := Seen.ret (w := (.tree (.leaf x) : CV X R)) h1
    obtain ⟨rfl, rfl⟩ := Seen.ret (w := (.res ((fs.up i).leaf x) : CV X R)) h2
    exact ⟨rfl, (fun _ h => by cases h), (fun _ _ h => by cases h)⟩
  | bin x l r ihl ihr =>
    intro pre es v ht h
    unfold foldUp at h
    obtain ⟨w, es1, es2, rfl, h1, h2⟩ := h.call
    obtain ⟨rfl, rfl⟩ := Seen.ret (w := (.tree (.bin x l.val r.val) : CV X R)) h1
    obtain ⟨w1, es3, es4, rfl, k1, k2⟩ := Seen.call (fn := fUp i) (arg := CV.tree l.val) h2
    rw [code_up] at k1
    obtain ⟨rfl, l2, l3⟩ := ihl _ _ _ ht.1 k1
    obtain ⟨w2, es5, es6, rfl, k3, k4⟩ := Seen.call (fn := fUp i) (arg := CV.tree r.val) k2
    rw [code_up] at k3
    obtain ⟨rfl, r2, r3⟩ := ihr _ _ _ ht.2 k3
    obtain ⟨rfl, rfl⟩ := Seen.ret (w := (.res ((fs.up i).bin x (foldOf (fs.up i) l) (foldOf (fs.up i) r)) : CV X R)) k4
    refine ⟨rfl, ?_, ?_⟩
    · intro e he
      simp only [List.nil_append, List.append_nil, List.mem_append] at he
      exact he.imp (l2 e) (r2 e)
    · intro a u ho
      cases ho with
      | binL ho => exact l3 a u ho
      | binR ho => exact r3 a u ho
  | name n x l r ihl ihr =>
    intro pre es v ht h
    unfold foldUp at h
    obtain ⟨w, es1, es2, rfl, h1, h2⟩ := h.call
    obtain ⟨rfl, rfl⟩ := Seen.ret (w := (.tree (.name n x l.val r.val) : CV X R)) h1
    have sub : ∀ (u : AT X) (a : Loc) (w : CV X R), a.path = stagePath nm → UpToDate sig s σ D a w → σ a = some (.tree u.val) → TreeOk (UpToDate sig s σ D) u →
        (∀ (pre es : List (Edge (CV X R))) (v : CV X R), TreeOk (UpToDate sig s σ D) u →
          Seen sig (env H opAt fs hv ha) s σ D (stagePath nm) (foldUp H tyR (fUp i) (fs.up i).fns u.val) pre es v →
          v = .res (foldOf (fs.up i) u) ∧ (∀ e ∈ es, EdgeIn H nm (fs.up i) u e) ∧ ThunksOk sig s σ D H nm (fs.up i) u) →
        w = .res (foldOf (fs.up i) u) ∧ D a ∧ ThunksOk sig s σ D H nm (fs.up i) u := by
      intro u a w hp hu hσ hok ih
      have hk : sig a = .thunk tyR ppUp (fUp i) := by
        obtain ⟨p, id⟩ := a
        cases hp
        exact hsig id
      have hD : D a := by
        have hu' := hu
        unfold UpToDate at hu'
        rw [hk] at hu'
        exact hu'.1
      obtain ⟨nd, v, _, _, _, _, g5, g6⟩ := Seen.ofDone hI hm hD hk hσ
      rw [code_up, hp] at g6
      obtain ⟨rfl, _, h3⟩ := ih _ _ _ hok g6
      exact ⟨hu.unique g5, hD, h3⟩
    obtain ⟨es3, g1, rfl, g2⟩ := Seen.thunk (arg := CV.tree l.val) (n := (nameFork H n).1) (pp := ppUp) (fn := fUp i) h2
    obtain ⟨w1, new1, es4, k1, rfl, k2, k3⟩ := Seen.force g2 rfl
    obtain ⟨rfl, d1, t1⟩ := sub l _ w1 rfl k1 g1 ht.1 ihl
    obtain ⟨es5, j1, rfl, j2⟩ := Seen.thunk (arg := CV.tree r.val) (n := (nameFork H n).2) (pp := ppUp) (fn := fUp i) k3
    obtain ⟨w2, new2, es6, q1, rfl, q2, q3⟩ := Seen.force j2 rfl
    obtain ⟨rfl, d2, t2⟩ := sub r _ w2 rfl q1 j1 ht.2 ihr
    obtain ⟨rfl, rfl⟩ := Seen.ret (w := (.res ((fs.up i).name n x (foldOf (fs.up i) l) (foldOf (fs.up i) r)) : CV X R)) q3
    refine ⟨rfl, ?_, ?_⟩
    · intro e he
      simp only [List.nil_append, List.append_nil, List.mem_append, List.mem_cons] at he
      rcases he with he | he | he | he
      · exact .inl he
      · exact .inr (.inl (k2 e he))
      · exact .inr (.inr (.inl he))
      · exact .inr (.inr (.inr (q2 e he)))
    · intro a u ho
      cases ho with
      | left => exact ⟨d1, g1, k1⟩
      | right => exact ⟨d2, j1, q1⟩
      | nameL ho => exact t1 a u ho
      | nameR ho => exact t2 a u ho
  | art a t ih =>
    intro pre es v ht h
    obtain ⟨new, es', rfl, h1, h2⟩ := fold_view ht.1 ht.2.1 h
    obtain ⟨rfl, g2, g3⟩ := ih _ _ _ ht.2.2 h2
    refine ⟨rfl, ?_, ?_⟩
    · intro e he
      rcases List.mem_append.1 he with he | he
      · rcases h1 with rfl | rfl
        · cases he
        · exact .inl (by simpa using he)
      · exact .inr (g2 e he)
    · intro b u ho
      cases ho with
      | art ho => exact g3 b u ho

/-! #### How much is recorded -/

/-- What a thunk that folds the tree reads and allocates: the cells down to the nearest names, and for each of these names the thunks for its two subtrees; nothing below those names. -/
def readsOf (H : NameHash) (nm : Name) : AT X → List Loc
  | .nil => []
  | .leaf _ => []
  | .bin _ l r => readsOf H nm l ++ readsOf H nm r
  | .name n _ _ _ => [leftOf H nm n, leftOf H nm n, rightOf H nm n, rightOf H nm n]
  | .art a t => a :: readsOf H nm t

theorem EdgeIn.reads {nm : Name} {f : PureUp X R} {e : Edge (CV X R)} (t : AT X) : EdgeIn H nm f t e → e.loc ∈ readsOf H nm t := by
  induction t with
  | nil => exact False.elim
  | leaf x => exact False.elim
  | bin x l r ihl ihr => exact fun h => List.mem_append.2 (h.imp ihl ihr)
  | name n x l r _ _ => rintro (rfl | rfl | rfl | rfl) <;> simp [readsOf, allocEdge, obsEdge]
  | art a t ih =>
    rintro (rfl | h)
    · exact List.mem_cons_self ..
    · exact List.mem_cons_of_mem _ (ih h)

theorem fold_count {nm : Name} {i : Nat} (hsig : ∀ id, sig ⟨stagePath nm, id⟩ = .thunk tyR ppUp (fUp i)) (hm : sig.mode = false) (hI : Inv sig (env H opAt fs hv ha) s σ D) (t : AT X) :
    ∀ (pre es : List (Edge (CV X R))) (v : CV X R), TreeOk (UpToDate sig s σ D) t →
    Seen sig (env H opAt fs hv ha) s σ D (stagePath nm) (foldUp H tyR (fUp i) (fs.up i).fns t.val) pre es v → es.length ≤ (readsOf H nm t).length := by
  induction t with
  | nil =>
    intro pre es v ht h
    unfold foldUp at h
    obtain ⟨w, es1, es2, rfl, h1, h2⟩ := h.call
    obtain ⟨rfl, rfl⟩ := Seen.ret (w := (.tree .nil : CV X R)) h1
    obtain ⟨rfl, rfl⟩ := Seen.ret (w := (.res (fs.up i).nil : CV X R)) h2
    exact Nat.le_refl _
  | leaf x =>
    intro pre es v ht h
    unfold foldUp at h
    obtain ⟨w, es1, es2, rfl, h1, h2⟩ := h.call
    obtain ⟨rfl, rfl⟩ := Seen.ret (w := (.tree (.leaf x) : CV X R)) h1
    obtain ⟨rfl, rfl⟩ := Seen.ret (w := (.res ((fs.up i).leaf x) : CV X R)) h2
    exact Nat.le_refl _
  | bin x l r ihl ihr =>
    intro pre es v ht h
    unfold foldUp at h
    obtain ⟨w, es1, es2, rfl, h1, h2⟩ := h.call
    obtain ⟨rfl, rfl⟩ := Seen.ret (w := (.tree (.bin x l.val r.val) : CV X R)) h1
    obtain ⟨w1, es3, es4, rfl, k1, k2⟩ := Seen.call (fn := fUp i) (arg := CV.tree l.val) h2
    rw [code_up] at k1
    obtain ⟨rfl, _, _⟩ := fold_replay hsig hm hI l _ _ _ ht.1 k1
    have c1 := ihl _ _ _ ht.1 k1
    obtain ⟨w2, es5, es6, rfl, k3, k4⟩ := Seen.call (fn := fUp i) (arg := CV.tree r.val) k2
    rw [code_up] at k3
    obtain ⟨rfl, _, _⟩ := fold_replay hsig hm hI r _ _ _ ht.2 k3
    have c2 := ihr _ _ _ ht.2 k3
    obtain ⟨rfl, rfl⟩ := Seen.ret (w := (.res ((fs.up i).bin x (foldOf (fs.up i) l) (foldOf (fs.up i) r)) : CV X R)) k4
    simp only [readsOf, List.length_append, List.length_nil]
    omega
  | name n x l r _ _ =>
    intro pre es v ht h
    obtain ⟨_, _, hth⟩ := fold_replay hsig hm hI _ _ _ _ ht h
    unfold foldUp at h
    obtain ⟨w, es1, es2, rfl, h1, h2⟩ := h.call
    obtain ⟨rfl, rfl⟩ := Seen.ret (w := (.tree (.name n x l.val r.val) : CV X R)) h1
    obtain ⟨es3, g1, rfl, g2⟩ := Seen.thunk (arg := CV.tree l.val) (n := (nameFork H n).1) (pp := ppUp) (fn := fUp i) h2
    obtain ⟨w1, new1, es4, k1, rfl, k2, k3⟩ := Seen.force1 g2 rfl
    have := k1.unique (hth _ _ .left).2.2
    subst this
    obtain ⟨es5, j1, rfl, j2⟩ := Seen.thunk (arg := CV.tree r.val) (n := (nameFork H n).2) (pp := ppUp) (fn := fUp i) k3
    obtain ⟨w2, new2, es6, q1, rfl, q2, q3⟩ := Seen.force1 j2 rfl
    have := q1.unique (hth _ _ .right).2.2
    subst this
    obtain ⟨rfl, rfl⟩ := Seen.ret (w := (.res ((fs.up i).name n x (foldOf (fs.up i) l) (foldOf (fs.up i) r)) : CV X R)) q3
    have a1 : new1.length ≤ 1 := by rcases k2 with rfl | rfl <;> simp
    have a2 : new2.length ≤ 1 := by rcases q2 with rfl | rfl <;> simp
    simp only [readsOf, List.length_append, List.length_nil, List.length_cons]
    omega
  | art a t ih =>
    intro pre es v ht h
    obtain ⟨new, es', rfl, h1, h2⟩ := fold_view ht.1 ht.2.1 h
    have c := ih _ _ _ ht.2.2 h2
    have a1 : new.length ≤ 1 := by rcases h1 with rfl | rfl <;> simp
    simp only [readsOf, List.length_append, List.length_cons]
    omega

theorem TreeOk.occ {U : Loc → CV X R → Prop} {nm : Name} {t u : AT X} {a : Loc} (h : Occ H nm t a u) : TreeOk U t → TreeOk U u := by
  induction h with
  | left => exact fun h => h.1
  | right => exact fun h => h.2
  | nameL _ ih => exact fun h => ih h.1
  | nameR _ ih => exact fun h => ih h.2
  | binL _ ih => exact fun h => ih h.1
  | binR _ ih => exact fun h => ih h.2
  | art _ ih => exact fun h => ih h.2.2

theorem Occ.trans {nm : Name} {t u w : AT X} {a b : Loc} (h : Occ H nm t a u) : Occ H nm u b w → Occ H nm t b w := by
  induction h with
  | left => exact .nameL
  | right => exact .nameR
  | nameL _ ih => exact fun h => .nameL (ih h)
  | nameR _ ih => exact fun h => .nameR (ih h)
  | binL _ ih => exact fun h => .binL (ih h)
  | binR _ ih => exact fun h => .binR (ih h)
  | art _ ih => exact fun h => .art (ih h)

theorem Occ.path {nm : Name} {t u : AT X} {a : Loc} (h : Occ H nm t a u) : ∃ n, a = ⟨stagePath nm, .nominal n⟩ := by
  induction h with
  | left => exact ⟨_, rfl⟩
  | right => exact ⟨_, rfl⟩
  | _ => assumption

/-! ### What is not run -/

variable {T : EditSession.Root (CV X R)} {s1 s2 : St (CV X R)} {σ1 σ2 : Store (CV X R)} {D1 D0 D2 : Loc → Prop} {rs : List Loc}

/-- What an edge of the fold of a tree is, where the tree is up to date. -/
theorem EdgeIn.now {nm : Name} {f : PureUp X R} {e : Edge (CV X R)} (t : AT X) : EdgeIn H nm f t e → TreeOk (UpToDate sig s σ D) t → ThunksOk sig s σ D H nm f t →
    (∃ ty w, e = obsEdge ty e.loc w ∧ UpToDate sig s σ D e.loc w) ∨ ∃ u, e = allocEdge e.loc (.tree u.val) ∧ Occ H nm t e.loc u := by
  induction t with
  | nil => intro h; exact h.elim
  | leaf x => intro h; exact h.elim
  | bin x l r ihl ihr =>
    intro h ht ho
    rcases h with h | h
    · rcases ihl h ht.1 (fun a u h => ho a u (.binL h)) with h | ⟨u, h1, h2⟩
      · exact .inl h
      · exact .inr ⟨u, h1, .binL h2⟩
    · rcases ihr h ht.2 (fun a u h => ho a u (.binR h)) with h | ⟨u, h1, h2⟩
      · exact .inl h
      · exact .inr ⟨u, h1, .binR h2⟩
  | name n x l r _ _ =>
    intro h ht ho
    rcases h with rfl | rfl | rfl | rfl
    · exact .inr ⟨l, rfl, .left⟩
    · exact .inl ⟨tyR, _, rfl, (ho _ _ .left).2.2⟩
    · exact .inr ⟨r, rfl, .right⟩
    · exact .inl ⟨tyR, _, rfl, (ho _ _ .right).2.2⟩
  | art a t ih =>
    intro h ht ho
    rcases h with rfl | h
    · exact .inl ⟨tyT, _, rfl, ht.2.1⟩
    · rcases ih h ht.2.2 (fun b u h => ho b u (.art h)) with h | ⟨u, h1, h2⟩
      · exact .inl h
      · exact .inr ⟨u, h1, .art h2⟩

/-- The subtrees look the same to the thunk that folds them: the values are equal, and so is everything that is allocated and observed. -/
def Alike (H : NameHash) (nm : Name) (f : PureUp X R) (u1 u2 : AT X) : Prop := u1.val = u2.val ∧ ∀ e, EdgeIn H nm f u1 e → EdgeIn H nm f u2 e

/-- The recorded dependencies, if the trees look the same. -/
theorem alike_edges {nm : Name} {i : Nat} (hsig : ∀ id, sig ⟨stagePath nm, id⟩ = .thunk tyR ppUp (fUp i)) (hm : sig.mode = false) {E : Loc → Prop} (hown : ∀ m, ¬ E (⟨stagePath nm, .nominal m⟩ : Loc))
    (hI1 : Inv sig (env H opAt fs hv ha) s1 σ1 D1) (hf : EditSession.Frame E s1 s) (hr : RunsOK sig s D0 s2 σ2 D2 rs) {x : Loc} {ty : Ty} {pp : ProgPt} {fn : FnId} (hk : sig x = .thunk ty pp fn)
    (hx : D1 x) (hE : ¬ E x) {arg : CV X R} (hσ1 : σ1 x = some arg) (hσ2 : σ2 x = some arg)
    {u1 u2 : AT X} (he : ∀ nd, s1.table.get x = some (.comp nd) → ∀ e ∈ nd.succs, EdgeIn H nm (fs.up i) u1 e.edge) (hEd : ∀ e, EdgeIn H nm (fs.up i) u1 e → EdgeIn H nm (fs.up i) u2 e)
    (a1 : TreeOk (UpToDate sig s1 σ1 D1) u1) (a2 : ThunksOk sig s1 σ1 D1 H nm (fs.up i) u1)
    (b1 : TreeOk (UpToDate sig s2 σ2 D2) u2) (b2 : ThunksOk sig s2 σ2 D2 H nm (fs.up i) u2) : x ∉ rs := by
  obtain ⟨nd0, v, g1, g2, g3, g4, g5, g6⟩ := Seen.ofDone hI1 hm hx hk hσ1
  have key1 := fun e he' => (he nd0 g1 e he').now u1 a1 a2
  have key2 := fun e he' => (hEd _ (he nd0 g1 e he')).now u2 b1 b2
  refine not_run hI1 hf hr hx hE (hσ2.trans hσ1.symm) ?_ ?_
  · intro nd e hnd he' hobs
    rw [g1] at hnd; cases hnd
    rcases key2 e he' with h | ⟨w, h, _⟩
    · exact h
    · have : e.effect = .allocate := congrArg Edge.effect h
      rw [hobs] at this; cases this
  · intro nd e hnd he' hal
    rw [g1] at hnd; cases hnd
    rcases key1 e he' with ⟨ty, w, h, _⟩ | ⟨w1, h1, ho1⟩
    · have : e.effect = .observe := congrArg Edge.effect h
      rw [hal] at this; cases this
    rcases key2 e he' with ⟨ty, w, h, _⟩ | ⟨w2, h2, ho2⟩
    · have : e.effect = .observe := congrArg Edge.effect h
      rw [hal] at this; cases this
    have hw : (CV.tree w1.val : CV X R) = .tree w2.val := by
      have h3 := h1.symm.trans h2
      simpa [allocEdge] using h3
    have ho1 : Occ H nm u1 e.loc w1 := ho1
    have ho2 : Occ H nm u2 e.loc w2 := ho2
    obtain ⟨m, hm'⟩ := ho1.path
    refine ⟨by rw [hm']; exact hown m, .inl ?_⟩
    obtain ⟨d1, d2, _⟩ := a2 _ _ ho1
    obtain ⟨nd', _, z1, _, z3, _⟩ := Seen.ofDone hI1 hm d1 (by rw [hm']; exact hsig _) d2
    exact ⟨nd', z1, by rw [z3, hw]; exact (b2 _ _ ho2).2.1⟩

/-- The thunk for a subtree that looks the same as before. -/
theorem fold_not_run {nm : Name} {i : Nat} (hsig : ∀ id, sig ⟨stagePath nm, id⟩ = .thunk tyR ppUp (fUp i)) (hm : sig.mode = false) {E : Loc → Prop} (hown : ∀ m, ¬ E (⟨stagePath nm, .nominal m⟩ : Loc))
    (hI1 : Inv sig (env H opAt fs hv ha) s1 σ1 D1) (hf : EditSession.Frame E s1 s) (hr : RunsOK sig s D0 s2 σ2 D2 rs)
    {t1 t2 u1 u2 : AT X} {a : Loc} (o1 : Occ H nm t1 a u1) (o2 : Occ H nm t2 a u2) (hl : Alike H nm (fs.up i) u1 u2)
    (a1 : TreeOk (UpToDate sig s1 σ1 D1) t1) (a2 : ThunksOk sig s1 σ1 D1 H nm (fs.up i) t1)
    (b1 : TreeOk (UpToDate sig s2 σ2 D2) t2) (b2 : ThunksOk sig s2 σ2 D2 H nm (fs.up i) t2) : a ∉ rs := by
  obtain ⟨n, rfl⟩ := o1.path
  obtain ⟨k1, k2, _⟩ := a2 _ _ o1
  obtain ⟨j1, j2, _⟩ := b2 _ _ o2
  refine alike_edges hsig hm hown hI1 hf hr (hsig _) k1 (hown n) k2 (by rw [j2, hl.1]) ?_ hl.2 (TreeOk.occ o1 a1) (fun b w h => a2 b w (o1.trans h)) (TreeOk.occ o2 b1) (fun b w h => b2 b w (o2.trans h))
  intro nd hnd e he
  obtain ⟨nd0, v, g1, g2, g3, g4, g5, g6⟩ := Seen.ofDone hI1 hm k1 (hsig _) k2
  rw [g1] at hnd; cases hnd
  rw [code_up] at g6
  exact (fold_replay hsig hm hI1 u1 _ _ _ (TreeOk.occ o1 a1) g6).2.1 _ (List.mem_map.2 ⟨e, he, rfl⟩)

/-- What is allocated. -/
theorem up_alloc {f : PureUp X R} {nm : Name} (t : AT X) : ∀ x ∈ (aUp H f.ann (stagePath nm) t).2, ∃ u, Occ H nm t x.1 u := by
  induction t with
  | nil => intro x hx; cases hx
  | leaf y => intro x hx; cases hx
  | bin y l r ihl ihr =>
    intro x hx
    rcases List.mem_append.1 hx with hx | hx
    · obtain ⟨u, h⟩ := ihl x hx; exact ⟨u, .binL h⟩
    · obtain ⟨u, h⟩ := ihr x hx; exact ⟨u, .binR h⟩
  | name n y l r ihl ihr =>
    intro x hx
    simp only [aUp, PureUp.ann, List.nil_append, List.mem_cons, List.mem_append] at hx
    rcases hx with rfl | rfl | hx | hx
    · exact ⟨l, .left⟩
    · exact ⟨r, .right⟩
    · obtain ⟨u, h⟩ := ihl x hx; exact ⟨u, .nameL h⟩
    · obtain ⟨u, h⟩ := ihr x hx; exact ⟨u, .nameR h⟩
  | art a t ih =>
    intro x hx
    obtain ⟨u, h⟩ := ih x hx; exact ⟨u, .art h⟩
end

/-! ### The statement

A tree is given with its cells: `SortProg.AT`; `LiveC cs t` says that the cells hold what `t` says, `t.val` is the value and `t.erase` the tree without the cells. -/

/-- One step down into a tree: to one of the subtrees of a node, or through the cell of the editor with a name. -/
inductive Step1 (X : Type) where
  | binL (lev : Nat) (r : AT X)
  | binR (lev : Nat) (l : AT X)
  | nameL (n : Name) (lev : Nat) (r : AT X)
  | nameR (n : Name) (lev : Nat) (l : AT X)
  | cell (c : Name)

/-- The tree with `t` at the end of the way. -/
def plug : List (Step1 X) → AT X → AT X
  | [], t => t
  | .binL lev r :: k, t => .bin lev (plug k t) r
  | .binR lev l :: k, t => .bin lev l (plug k t)
  | .nameL n lev r :: k, t => .name n lev (plug k t) r
  | .nameR n lev l :: k, t => .name n lev l (plug k t)
  | .cell c :: k, t => .art (cellAt c) (plug k t)

/-- The thunks on the way: at each name the one for the subtree in which the way goes on. -/
def wayThunks (H : NameHash) (nm : Name) : List (Step1 X) → List Loc
  | [] => []
  | .nameL n _ _ :: k => ⟨stagePath nm, .nominal (nameFork H n).1⟩ :: wayThunks H nm k
  | .nameR n _ _ :: k => ⟨stagePath nm, .nominal (nameFork H n).2⟩ :: wayThunks H nm k
  | _ :: k => wayThunks H nm k

/-- The thunks for names: one for each of the two subtrees. -/
def bothThunks (H : NameHash) (nm : Name) (ns : List Name) : List Loc := ns.flatMap fun n => [⟨stagePath nm, .nominal (nameFork H n).1⟩, ⟨stagePath nm, .nominal (nameFork H n).2⟩]

/-- The number of names on the way. -/
def wayNames : List (Step1 X) → Nat
  | [] => 0
  | .nameL _ _ _ :: k => wayNames k + 1
  | .nameR _ _ _ :: k => wayNames k + 1
  | _ :: k => wayNames k

theorem way_length {H : NameHash} {nm : Name} (k : List (Step1 X)) : (wayThunks H nm k).length = wayNames k := by
  induction k with
  | nil => rfl
  | cons f k ih => cases f <;> simp [wayThunks, wayNames, ih]

theorem both_length {H : NameHash} {nm : Name} (ns : List Name) : (bothThunks H nm ns).length = 2 * ns.length := by
  induction ns with
  | nil => rfl
  | cons n ns ih => simp only [bothThunks, List.flatMap_cons, List.length_append, List.length_cons, List.length_nil] at ih ⊢; omega

theorem Occ.both {H : NameHash} {nm : Name} {t u : AT X} {a : Loc} (h : Occ H nm t a u) : a ∈ bothThunks H nm t.erase.names := by
  have key : ∀ {ns ns' : List Name}, (∀ n ∈ ns, n ∈ ns') → a ∈ bothThunks H nm ns → a ∈ bothThunks H nm ns' := by
    intro ns ns' hs h
    obtain ⟨n, h1, h2⟩ := List.mem_flatMap.1 h
    exact List.mem_flatMap.2 ⟨n, hs n h1, h2⟩
  induction h with
  | @left n x l r => exact List.mem_flatMap.2 ⟨n, by rw [show AT.erase (.name n x l r) = .name n x l.erase r.erase from rfl, Coll.Tree.names_name]; simp, by simp [leftOf]⟩
  | @right n x l r => exact List.mem_flatMap.2 ⟨n, by rw [show AT.erase (.name n x l r) = .name n x l.erase r.erase from rfl, Coll.Tree.names_name]; simp, by simp [rightOf]⟩
  | @nameL n x l r _ _ _ ih => exact key (fun m hm => by rw [show AT.erase (.name n x l r) = .name n x l.erase r.erase from rfl, Coll.Tree.names_name]; simp [hm]) (ih key)
  | @nameR n x l r _ _ _ ih => exact key (fun m hm => by rw [show AT.erase (.name n x l r) = .name n x l.erase r.erase from rfl, Coll.Tree.names_name]; simp [hm]) (ih key)
  | @binL x l r _ _ _ ih => exact key (fun m hm => by rw [show AT.erase (.bin x l r) = .bin x l.erase r.erase from rfl, Coll.Tree.names_bin]; simp [hm]) (ih key)
  | @binR x l r _ _ _ ih => exact key (fun m hm => by rw [show AT.erase (.bin x l r) = .bin x l.erase r.erase from rfl, Coll.Tree.names_bin]; simp [hm]) (ih key)
  | art _ ih => exact ih key

/-- A thunk for the new tree is on the way, or below the place, or a thunk for the old tree with the same subtree. -/
theorem occ_plug {H : NameHash} {nm : Name} {s s' u : AT X} {a : Loc} : ∀ (k : List (Step1 X)), Occ H nm (plug k s') a u → a ∈ wayThunks H nm k ∨ Occ H nm s' a u ∨ Occ H nm (plug k s) a u
  | [], h => .inr (.inl h)
  | .binL lev r :: k, h => by
    cases h with
    | binL h => exact (occ_plug k h).imp id (Or.imp id .binL)
    | binR h => exact .inr (.inr (.binR h))
  | .binR lev l :: k, h => by
    cases h with
    | binL h => exact .inr (.inr (.binL h))
    | binR h => exact (occ_plug k h).imp id (Or.imp id .binR)
  | .nameL n lev r :: k, h => by
    cases h with
    | left => exact .inl (List.mem_cons_self ..)
    | right => exact .inr (.inr .right)
    | nameL h => exact (occ_plug k h).imp (List.mem_cons_of_mem _) (Or.imp id .nameL)
    | nameR h => exact .inr (.inr (.nameR h))
  | .nameR n lev l :: k, h => by
    cases h with
    | left => exact .inr (.inr .left)
    | right => exact .inl (List.mem_cons_self ..)
    | nameL h => exact .inr (.inr (.nameL h))
    | nameR h => exact (occ_plug k h).imp (List.mem_cons_of_mem _) (Or.imp id .nameR)
  | .cell c :: k, h => by
    cases h with
    | art h => exact (occ_plug k h).imp id (Or.imp id .art)

/-- A thunk for a subtree is one for the whole tree. -/
theorem occ_under {H : NameHash} {nm : Name} {s u : AT X} {a : Loc} : ∀ (k : List (Step1 X)), Occ H nm s a u → Occ H nm (plug k s) a u
  | [], h => h
  | .binL _ _ :: k, h => .binL (occ_under k h)
  | .binR _ _ :: k, h => .binR (occ_under k h)
  | .nameL _ _ _ :: k, h => .nameL (occ_under k h)
  | .nameR _ _ _ :: k, h => .nameR (occ_under k h)
  | .cell _ :: k, h => .art (occ_under k h)

theorem LiveC.treeOk {sig : Sig} {s : St (CV X R)} {σ : Store (CV X R)} {D : Loc → Prop} {cs : Cells (CV X R)} (hsig : ∀ n, sig (cellAt n) = .cell tyT)
    (hc : ∀ n v, cs n = some v → σ (cellAt n) = some v) (t : AT X) : LiveC cs t → TreeOk (UpToDate sig s σ D) t := by
  induction t with
  | nil => intro _; trivial
  | leaf x => intro _; trivial
  | bin x l r ihl ihr => intro h; exact ⟨ihl h.1, ihr h.2⟩
  | name n x l r ihl ihr => intro h; exact ⟨ihl h.1, ihr h.2⟩
  | art a t ih =>
    rintro ⟨⟨n, rfl, h1⟩, h2⟩
    refine ⟨rfl, ?_, ih h2⟩
    unfold UpToDate
    rw [hsig]
    exact hc _ _ h1

section
variable {H : NameHash} {opAt : Name → Op} {fs : Fns X R} {hv : CV X R → UInt64} {ha : ProgPt → CV X R → UInt64}

/-- The thunk has recorded dependencies on these locations only, and no more of them than the list is long. -/
def ReadsOnly (s : St (CV X R)) (ls : List Loc) (x : Loc) : Prop :=
  ∃ nd, s.table.get x = some (.comp nd) ∧ (∀ e ∈ nd.succs, e.loc ∈ ls) ∧ nd.succs.length ≤ ls.length

/-- Two demands in a row, for any two trees: what is run is new, or does not look the same as before. -/
theorem two_folds (rn : Name) (ss : List (Step X R)) (ds : List (Dem X)) (h0 : Demands opAt (fun _ => none) ss ds) (purity : Bool) (last : Name) (i : Nat) (hop : opAt last = .up i)
    (t1 t2 : AT X) (es1 es2 : List (Edit (CV X R))) (lim1 lim2 : Option Nat) (cs1 cs2 : Cells (CV X R))
    (hc1 : applyAll (fun _ => none) (ss.flatMap Step.edits ++ es1) = some cs1) (hh1 : LiveC cs1 t1) (hg1 : (t1.erase.names.map Name.sym).Nodup)
    (hc2 : applyAll cs1 es2 = some cs2) (hh2 : LiveC cs2 t2) (hg2 : (t2.erase.names.map Name.sym).Nodup) :
    ∃ N s1 s2 rs, (∀ n, N ≤ n →
        runSession (env H opAt fs hv ha) n ((ss ++ [(⟨es1, [], last, t1.val, lim1⟩ : Step X R)]).map (stepProg rn)) (initSt purity false) =
          .ok (ds.map (Dem.result H opAt fs) ++ [.res (foldOf (fs.up i) t1)]) s1 ∧
        exec (env H opAt fs hv ha) n (stepProg rn ⟨es2, [], last, t2.val, lim2⟩) s1 = .ok (.res (foldOf (fs.up i) t2)) s2) ∧
      s2.runs = rs ++ s1.runs ∧ rs.Nodup ∧
      (∀ x ∈ rs, (x = ⟨rootPath, .nominal rn⟩ ∧ ¬ (lim1 = lim2 ∧ Alike H last (fs.up i) t1 t2)) ∨
        ∃ u2, Occ H last t2 x u2 ∧ ∀ u1, Occ H last t1 x u1 → ¬ Alike H last (fs.up i) u1 u2) ∧
      ReadsOnly s2 (readsOf H last t2) ⟨rootPath, .nominal rn⟩ ∧ ∀ x u, Occ H last t2 x u → ReadsOnly s2 (readsOf H last u) x := by
  obtain ⟨ds', d1, d2⟩ := demands (H := H) (opAt := opAt) (fs := fs) (hv := hv) (ha := ha) (rn := rn) h0
  have hle : Ref.SigLe (theRoot H opAt fs hv ha rn).sig ((sigF opAt).withPu purity) := ⟨fun _ => rfl, rfl, fun _ => rfl, fun _ => id⟩
  have hgs : GoodStages opAt [] last := ⟨by simp, (fun _ h => by cases h), by rw [hop]; rfl⟩
  have hgt : ∀ u : AT X, (u.erase.names.map Name.sym).Nodup → GoodTree (opAt last) (nms u) := fun u h => ⟨h, fun h' => by rw [hop] at h'; cases h'⟩
  obtain ⟨N, s1, e1, D1, s, s2, e2, D2, σ0, D0, rs, r1, r2, r3, r4, r5, r6⟩ := EditSession.two_steps (lawful rn) hle (ss := ss.map fun s => ⟨s.edits, .root s.filters s.last s.tree s.limit⟩) (ds := ds')
    (st1 := ⟨es1, .root [] last t1.val lim1⟩) (st2 := ⟨es2, .root [] last t2.val lim2⟩) (d1 := ([], last, t1, lim1)) (d2 := ([], last, t2, lim2)) (cs1 := cs1) (cs2 := cs2)
    d1 (by rw [List.flatMap_append, List.flatMap_map]; simpa using hc1) ⟨hh1, hgt _ hg1, hgs⟩ rfl hc2 ⟨hh2, hgt _ hg2, hgs⟩ rfl
  have hm : ((sigF opAt).withPu purity).mode = false := rfl
  have hres : ∀ (u : AT X) (lim : Option Nat), (theRoot H opAt fs hv ha rn).res ([], last, u, lim) = .res (foldOf (fs.up i) u) := by
    intro u lim
    show (aLast H fs last lim u (opAt last)).1 = _
    rw [aLast_spec hgs.2.2, hop]
    rfl
  have hsig : ∀ id, ((sigF opAt).withPu purity) ⟨stagePath last, id⟩ = .thunk tyR ppUp (fUp i) := by
    intro id
    rw [show ((sigF opAt).withPu purity) ⟨stagePath last, id⟩ = sigF opAt ⟨stagePath last, id⟩ from rfl, sig_stage, hop]
    rfl
  have hall : ∀ (cs : Cells (CV X R)) (u : AT X) (lim : Option Nat) (e : ES (CV X R)) (s : St (CV X R)) (D : Loc → Prop), LiveC cs u →
      EditSession.Done (theRoot H opAt fs hv ha rn) ((sigF opAt).withPu purity) cs ([], last, u, lim) e s D →
      TreeOk (UpToDate ((sigF opAt).withPu purity) s e.cur D) u ∧ ThunksOk ((sigF opAt).withPu purity) s e.cur D H last (fs.up i) u ∧
      e.cur ⟨rootPath, .nominal rn⟩ = some (.root [] last u.val lim) ∧
      (∀ nd, s.table.get ⟨rootPath, .nominal rn⟩ = some (.comp nd) → ∀ e ∈ nd.succs, EdgeIn H last (fs.up i) u e.edge) ∧
      ReadsOnly s (readsOf H last u) ⟨rootPath, .nominal rn⟩ ∧ ∀ x w, Occ H last u x w → ReadsOnly s (readsOf H last w) x := by
    intro cs u lim e s D hu hd
    have hok : TreeOk (UpToDate ((sigF opAt).withPu purity) s e.cur D) u :=
      LiveC.treeOk (fun n => sig_cellAt n) (fun n v hn => hd.at_.ed.ext _ _ (hd.at_.ed.cells n v hn)) u hu
    have harg := hd.at_.ed.ext _ _ hd.arg
    refine ⟨hok, ?_⟩
    obtain ⟨nd, v, g1, _, _, _, _, g6⟩ := Seen.ofDone hd.inv hm hd.root (ty := tyV) (pp := ppRoot) (fn := fRoot) (arg := .root [] last u.val lim) rfl harg
    have g6 : Seen ((sigF opAt).withPu purity) (env H opAt fs hv ha) s e.cur D rootPath (.ns last (opCall fs (opAt last) u.val) (finish lim)) [] (nd.succs.map Succ.edge) v := g6
    obtain ⟨w, es1, es2, q1, h1, h2⟩ := g6.ns
    rw [hop] at h1
    obtain ⟨w', es3, es4, rfl, k1, k2⟩ := Seen.call (fn := fUp i) (arg := CV.tree u.val) h1
    rw [code_up] at k1
    obtain ⟨rfl, f1, f2⟩ := fold_replay hsig hm hd.inv u _ _ _ hok k1
    have f3 := fold_count hsig hm hd.inv u _ _ _ hok k1
    obtain ⟨rfl, rfl⟩ := Seen.ret (w := (.res (foldOf (fs.up i) u) : CV X R)) k2
    obtain ⟨rfl, rfl⟩ := Seen.ret (w := (.res (foldOf (fs.up i) u) : CV X R)) h2
    have g1 : s.table.get ⟨rootPath, .nominal rn⟩ = some (.comp nd) := g1
    have f4 : ∀ e ∈ nd.succs, EdgeIn H last (fs.up i) u e.edge := by
      intro e he
      refine f1 _ ?_
      have : e.edge ∈ nd.succs.map Succ.edge := List.mem_map.2 ⟨e, he, rfl⟩
      rw [q1] at this
      simpa using this
    refine ⟨f2, harg, ?_, ⟨nd, g1, fun e he => (f4 e he).reads u, ?_⟩, ?_⟩
    · intro nd' hnd' e he
      rw [g1] at hnd'; cases hnd'
      exact f4 e he
    · have := congrArg List.length q1
      simp only [List.length_map, List.append_nil] at this
      omega
    · intro x w ho
      obtain ⟨j1, j2, _⟩ := f2 x w ho
      obtain ⟨m, rfl⟩ := ho.path
      obtain ⟨nd2, v2, z1, _, _, _, _, z6⟩ := Seen.ofDone hd.inv hm j1 (hsig _) j2
      have z6 : Seen ((sigF opAt).withPu purity) (env H opAt fs hv ha) s e.cur D (stagePath last) ((env H opAt fs hv ha).code (fUp i) (.tree w.val)) [] (nd2.succs.map Succ.edge) v2 := z6
      rw [code_up] at z6
      refine ⟨nd2, z1, fun e he => ((fold_replay hsig hm hd.inv w _ _ _ (TreeOk.occ ho hok) z6).2.1 _ (List.mem_map.2 ⟨e, he, rfl⟩)).reads w, ?_⟩
      have := fold_count hsig hm hd.inv w _ _ _ (TreeOk.occ ho hok) z6
      simpa using this
  obtain ⟨a1, a2, a3, a4, _⟩ := hall _ _ _ _ _ _ hh1 r2
  obtain ⟨b1, b2, b3, _, b5, b6⟩ := hall _ _ _ _ _ _ hh2 r6
  have hown : ∀ m, ¬ ((⟨stagePath last, .nominal m⟩ : Loc).path = .empty ∨ ((⟨stagePath last, .nominal m⟩ : Loc) = (theRoot H opAt fs hv ha rn).loc ∧
      (theRoot H opAt fs hv ha rn).arg ([], last, t1, lim1) ≠ (theRoot H opAt fs hv ha rn).arg ([], last, t2, lim2))) := by
    rintro m (h | ⟨h, _⟩)
    · cases h
    · have : stagePath last = rootPath := congrArg Loc.path h
      simp [stagePath, rootPath] at this
  refine ⟨N, s1, s2, rs, ?_, by rw [r5.runs, r3.runs], r5.nodup, ?_, b5, b6⟩
  · intro n hn
    obtain ⟨q1, q2⟩ := r1 n hn
    rw [hres, d2] at q1
    rw [hres] at q2
    refine ⟨?_, q2⟩
    rw [← q1]
    simp only [List.map_append, List.map_map, List.map_cons, List.map_nil]
    rfl
  · intro x hx
    rcases r6.ran (lawful rn) hle (r5.once x hx).2.1 with h1 | ⟨h1, ty, pp, fn, h2⟩ | ⟨b, hb, rfl⟩
    · refine .inl ⟨h1, ?_⟩
      rintro ⟨rfl, hv, he⟩
      subst h1
      refine absurd hx (alike_edges (x := ⟨rootPath, .nominal rn⟩) hsig hm hown r2.inv r3 r5 (ty := tyV) (pp := ppRoot) (fn := fRoot) rfl r2.root ?_ a3 (by rw [b3, hv]) a4 he a1 a2 b1 b2)
      rintro (h | ⟨_, h⟩)
      · cases h
      · refine h ?_
        show CV.root [] last t1.val lim1 = CV.root [] last t2.val lim1
        rw [hv]
    · obtain ⟨p, id⟩ := x
      cases h1
      cases h2
    · have hb : b ∈ (aLast H fs last lim2 t2 (opAt last)).2 := hb
      rw [hop] at hb
      obtain ⟨u, hu⟩ := up_alloc _ b hb
      exact .inr ⟨u, hu, fun u1 o1 hl => fold_not_run hsig hm hown r2.inv r3 r5 o1 hu hl a1 a2 b1 b2 hx⟩

/-- The number of dependencies that the thunk has recorded. -/
def depCount (s : St (CV X R)) (x : Loc) : Nat :=
  match s.table.get x with
  | some (.comp nd) => nd.succs.length
  | _ => 0

theorem ReadsOnly.count {s : St (CV X R)} {ls : List Loc} {x : Loc} (h : ReadsOnly s ls x) : depCount s x ≤ ls.length := by
  obtain ⟨nd, h1, _, h2⟩ := h
  simpa [depCount, h1] using h2

theorem sum_le {f : Loc → Nat} {B : Nat} : ∀ (rs : List Loc), (∀ x ∈ rs, f x ≤ B) → (rs.map f).sum ≤ rs.length * B
  | [], _ => by simp
  | x :: rs, h => by
    have h1 := sum_le rs fun y hy => h y (List.mem_cons_of_mem _ hy)
    have h2 := h x (List.mem_cons_self ..)
    simp only [List.map_cons, List.sum_cons, List.length_cons, Nat.add_mul, Nat.one_mul]
    omega

/-- **C79.** `tree_fold_up` (with any pure functions, so also `monoid_of_tree` and `eager_tree_of_tree`) is incremental.  After any session of C76, the fold of a tree is demanded; then the editor edits its
cells in any way such that the tree is the same except at one place, at the end of the way `k`, where the subtree is `t'` instead of `t`.  Then the next demand returns the fold of the new tree,
and it runs the code of the demanded thunk, of the thunks on the way and of the thunks for the names in `t'`, of each at most once, and of no other thunk, however large the tree is.  Each of these runs reads the cells from its subtree down to the nearest names, and the thunks at these names, and nothing
else: so if no more than `B` such things lie between the names, the runs together record at most `B` times their number of dependencies. -/
theorem C79_edits_are_local (rn : Name) (ss : List (Step X R)) (ds : List (Dem X)) (h0 : Demands opAt (fun _ => none) ss ds) (purity : Bool) (last : Name) (i : Nat) (hop : opAt last = .up i)
    (k : List (Step1 X)) (t t' : AT X) (es1 es2 : List (Edit (CV X R))) (lim1 lim2 : Option Nat) (cs1 cs2 : Cells (CV X R))
    (hc1 : applyAll (fun _ => none) (ss.flatMap Step.edits ++ es1) = some cs1) (hh1 : LiveC cs1 (plug k t)) (hg1 : ((plug k t).erase.names.map Name.sym).Nodup)
    (hc2 : applyAll cs1 es2 = some cs2) (hh2 : LiveC cs2 (plug k t')) (hg2 : ((plug k t').erase.names.map Name.sym).Nodup) :
    ∃ N s1 s2 rs, (∀ n, N ≤ n →
        runSession (env H opAt fs hv ha) n ((ss ++ [(⟨es1, [], last, (plug k t).val, lim1⟩ : Step X R)]).map (stepProg rn)) (initSt purity false) =
          .ok (ds.map (Dem.result H opAt fs) ++ [.res (foldOf (fs.up i) (plug k t))]) s1 ∧
        exec (env H opAt fs hv ha) n (stepProg rn ⟨es2, [], last, (plug k t').val, lim2⟩) s1 = .ok (.res (foldOf (fs.up i) (plug k t'))) s2) ∧
      s2.runs = rs ++ s1.runs ∧ rs.Nodup ∧
      (∀ x ∈ rs, x = ⟨rootPath, .nominal rn⟩ ∨ x ∈ wayThunks H last k ∨ x ∈ bothThunks H last t'.erase.names) ∧
      rs.length ≤ 1 + wayNames k + 2 * t'.erase.names.length ∧
      ReadsOnly s2 (readsOf H last (plug k t')) ⟨rootPath, .nominal rn⟩ ∧
      (∀ x u, Occ H last (plug k t') x u → ReadsOnly s2 (readsOf H last u) x) ∧
      ∀ B, (readsOf H last (plug k t')).length ≤ B → (∀ x u, Occ H last (plug k t') x u → (readsOf H last u).length ≤ B) →
        (rs.map (depCount s2)).sum ≤ (1 + wayNames k + 2 * t'.erase.names.length) * B := by
  obtain ⟨N, s1, s2, rs, r1, r2, r3, r4, r5, r6⟩ := two_folds (H := H) (hv := hv) (ha := ha) rn ss ds h0 purity last i hop (plug k t) (plug k t') es1 es2 lim1 lim2 cs1 cs2 hc1 hh1 hg1 hc2 hh2 hg2
  have hwho : ∀ x ∈ rs, x = ⟨rootPath, .nominal rn⟩ ∨ x ∈ wayThunks H last k ∨ x ∈ bothThunks H last t'.erase.names := by
    intro x hx
    rcases r4 x hx with ⟨h, _⟩ | ⟨u, hu, hno⟩
    · exact .inl h
    · rcases occ_plug (s := t) k hu with h | h | h
      · exact .inr (.inl h)
      · exact .inr (.inr h.both)
      · exact absurd ⟨rfl, fun _ h => h⟩ (hno u h)
  have hlen : rs.length ≤ 1 + wayNames k + 2 * t'.erase.names.length := by
    have := Wf.length_le_of_subset (b := (⟨rootPath, .nominal rn⟩ : Loc) :: (wayThunks H last k ++ bothThunks H last t'.erase.names)) r3 ?_
    · refine Nat.le_trans this ?_
      rw [List.length_cons, List.length_append, way_length, both_length]
      omega
    · intro x hx
      rcases hwho x hx with rfl | h | h
      · exact List.mem_cons_self ..
      · exact List.mem_cons_of_mem _ (List.mem_append_left _ h)
      · exact List.mem_cons_of_mem _ (List.mem_append_right _ h)
  refine ⟨N, s1, s2, rs, r1, r2, r3, hwho, hlen, r5, r6, ?_⟩
  intro B hB1 hB2
  refine Nat.le_trans (sum_le (B := B) rs ?_) (Nat.mul_le_mul_right B hlen)
  intro x hx
  rcases r4 x hx with ⟨rfl, _⟩ | ⟨u, hu, _⟩
  · exact Nat.le_trans r5.count hB1
  · exact Nat.le_trans (r6 x u hu).count (hB2 x u hu)

/-- A step at a name. -/
def Step1.atName : Step1 X → Bool
  | .nameL _ _ _ => true
  | .nameR _ _ _ => true
  | _ => false

/-- A step through a cell. -/
def Step1.isCell : Step1 X → Bool
  | .cell _ => true
  | _ => false

theorem plug_val {t t' : AT X} : ∀ (k : List (Step1 X)), (∃ st ∈ k, st.isCell = true) → (plug k t).val = (plug k t').val
  | [], ⟨_, h, _⟩ => by cases h
  | .cell c :: k, _ => rfl
  | .binL lev r :: k, ⟨st, h, hc⟩ => by
    have := plug_val (t := t) (t' := t') k ⟨st, (List.mem_cons.1 h).resolve_left (fun h => by subst h; cases hc), hc⟩
    simp only [plug, AT.val, this]
  | .binR lev r :: k, ⟨st, h, hc⟩ => by
    have := plug_val (t := t) (t' := t') k ⟨st, (List.mem_cons.1 h).resolve_left (fun h => by subst h; cases hc), hc⟩
    simp only [plug, AT.val, this]
  | .nameL n lev r :: k, ⟨st, h, hc⟩ => by
    have := plug_val (t := t) (t' := t') k ⟨st, (List.mem_cons.1 h).resolve_left (fun h => by subst h; cases hc), hc⟩
    simp only [plug, AT.val, this]
  | .nameR n lev r :: k, ⟨st, h, hc⟩ => by
    have := plug_val (t := t) (t' := t') k ⟨st, (List.mem_cons.1 h).resolve_left (fun h => by subst h; cases hc), hc⟩
    simp only [plug, AT.val, this]

/-- Above a name where neither the value nor the fold changes, the trees look the same. -/
theorem alike_plug {nm : Name} {f : PureUp X R} {st : Step1 X} {u u' : AT X} (hst : st.atName = true) (hv : u.val = u'.val) (hf : foldOf f u = foldOf f u') : ∀ (k1 : List (Step1 X)),
    Alike H nm f (plug (k1 ++ [st]) u) (plug (k1 ++ [st]) u') ∧ foldOf f (plug (k1 ++ [st]) u) = foldOf f (plug (k1 ++ [st]) u')
  | [] => by
    cases st with
    | nameL n lev r =>
      refine ⟨⟨by simp only [List.nil_append, plug, AT.val, hv], ?_⟩, ?_⟩
      · intro e he
        simp only [List.nil_append, plug, EdgeIn] at he ⊢
        rw [← hv, ← hf]; exact he
      · simp only [foldOf] at hf
        simp only [List.nil_append, plug, foldOf, AT.erase, Coll.treeFoldUp, hf]
    | nameR n lev r =>
      refine ⟨⟨by simp only [List.nil_append, plug, AT.val, hv], ?_⟩, ?_⟩
      · intro e he
        simp only [List.nil_append, plug, EdgeIn] at he ⊢
        rw [← hv, ← hf]; exact he
      · simp only [foldOf] at hf
        simp only [List.nil_append, plug, foldOf, AT.erase, Coll.treeFoldUp, hf]
    | _ => cases hst
  | .nameL n lev r :: k1 => by
    obtain ⟨⟨h1, h2⟩, h3⟩ := alike_plug (nm := nm) hst hv hf k1
    refine ⟨⟨by simp only [List.cons_append, plug, AT.val, h1], ?_⟩, ?_⟩
    · intro e he
      simp only [List.cons_append, plug, EdgeIn] at he ⊢
      rw [← h1, ← h3]; exact he
    · simp only [foldOf] at h3
      simp only [List.cons_append, plug, foldOf, AT.erase, Coll.treeFoldUp, h3]
  | .nameR n lev r :: k1 => by
    obtain ⟨⟨h1, h2⟩, h3⟩ := alike_plug (nm := nm) hst hv hf k1
    refine ⟨⟨by simp only [List.cons_append, plug, AT.val, h1], ?_⟩, ?_⟩
    · intro e he
      simp only [List.cons_append, plug, EdgeIn] at he ⊢
      rw [← h1, ← h3]; exact he
    · simp only [foldOf] at h3
      simp only [List.cons_append, plug, foldOf, AT.erase, Coll.treeFoldUp, h3]
  | .binL lev r :: k1 => by
    obtain ⟨⟨h1, h2⟩, h3⟩ := alike_plug (nm := nm) hst hv hf k1
    refine ⟨⟨by simp only [List.cons_append, plug, AT.val, h1], ?_⟩, ?_⟩
    · intro e he
      exact he.imp (h2 e) id
    · simp only [foldOf] at h3
      simp only [List.cons_append, plug, foldOf, AT.erase, Coll.treeFoldUp, h3]
  | .binR lev r :: k1 => by
    obtain ⟨⟨h1, h2⟩, h3⟩ := alike_plug (nm := nm) hst hv hf k1
    refine ⟨⟨by simp only [List.cons_append, plug, AT.val, h1], ?_⟩, ?_⟩
    · intro e he
      exact he.imp id (h2 e)
    · simp only [foldOf] at h3
      simp only [List.cons_append, plug, foldOf, AT.erase, Coll.treeFoldUp, h3]
  | .cell c :: k1 => by
    obtain ⟨⟨h1, h2⟩, h3⟩ := alike_plug (nm := nm) hst hv hf k1
    refine ⟨⟨by simp only [List.cons_append, plug, AT.val], ?_⟩, ?_⟩
    · intro e he
      simp only [List.cons_append, plug, EdgeIn] at he ⊢
      rw [← h1]
      exact he.imp id (h2 e)
    · simp only [foldOf] at h3
      simp only [List.cons_append, plug, foldOf, AT.erase, Coll.treeFoldUp, h3]

theorem plug_append (k1 k2 : List (Step1 X)) (t : AT X) : plug (k1 ++ k2) t = plug k1 (plug k2 t) := by
  induction k1 with
  | nil => rfl
  | cons st k1 ih => cases st <;> simp only [List.cons_append, plug, ih]

/-- A thunk for the new tree is at the name, or below, or looks the same as before. -/
theorem occ_cut {nm : Name} {f : PureUp X R} {st : Step1 X} {s s' u : AT X} {a : Loc} (hst : st.atName = true) (hv : s.val = s'.val) (hf : foldOf f s = foldOf f s') :
    ∀ (k1 : List (Step1 X)), Occ H nm (plug (k1 ++ [st]) s') a u → a ∈ wayThunks H nm [st] ∨ Occ H nm s' a u ∨ ∃ u0, Occ H nm (plug (k1 ++ [st]) s) a u0 ∧ Alike H nm f u0 u
  | [], h => (occ_plug (s := s) [st] h).imp id (Or.imp id fun h => ⟨u, h, rfl, fun _ h => h⟩)
  | .binL lev r :: k, h => by
    cases h with
    | binL h => exact (occ_cut hst hv hf k h).imp id (Or.imp id fun ⟨u0, h1, h2⟩ => ⟨u0, .binL h1, h2⟩)
    | binR h => exact .inr (.inr ⟨u, .binR h, rfl, fun _ h => h⟩)
  | .binR lev l :: k, h => by
    cases h with
    | binL h => exact .inr (.inr ⟨u, .binL h, rfl, fun _ h => h⟩)
    | binR h => exact (occ_cut hst hv hf k h).imp id (Or.imp id fun ⟨u0, h1, h2⟩ => ⟨u0, .binR h1, h2⟩)
  | .nameL n lev r :: k, h => by
    cases h with
    | left => exact .inr (.inr ⟨_, .left, (alike_plug hst hv hf k).1⟩)
    | right => exact .inr (.inr ⟨u, .right, rfl, fun _ h => h⟩)
    | nameL h => exact (occ_cut hst hv hf k h).imp id (Or.imp id fun ⟨u0, h1, h2⟩ => ⟨u0, .nameL h1, h2⟩)
    | nameR h => exact .inr (.inr ⟨u, .nameR h, rfl, fun _ h => h⟩)
  | .nameR n lev l :: k, h => by
    cases h with
    | left => exact .inr (.inr ⟨u, .left, rfl, fun _ h => h⟩)
    | right => exact .inr (.inr ⟨_, .right, (alike_plug hst hv hf k).1⟩)
    | nameL h => exact .inr (.inr ⟨u, .nameL h, rfl, fun _ h => h⟩)
    | nameR h => exact (occ_cut hst hv hf k h).imp id (Or.imp id fun ⟨u0, h1, h2⟩ => ⟨u0, .nameR h1, h2⟩)
  | .cell c :: k, h => by
    cases h with
    | art h => exact (occ_cut hst hv hf k h).imp id (Or.imp id fun ⟨u0, h1, h2⟩ => ⟨u0, .art h1, h2⟩)

/-- **C79, early cutoff.**  If moreover there is a name on the way (`st`) such that the fold of the subtree below it is the same before and after, and a cell between that name and the place, then neither the
demanded thunk nor any thunk above that name is run: only that name's thunk, those further down the way, and those for the names in `t'`. -/
theorem C79_early_cutoff (rn : Name) (ss : List (Step X R)) (ds : List (Dem X)) (h0 : Demands opAt (fun _ => none) ss ds) (purity : Bool) (last : Name) (i : Nat) (hop : opAt last = .up i)
    (k1 : List (Step1 X)) (st : Step1 X) (k2 : List (Step1 X)) (hst : st.atName = true) (hcell : ∃ c ∈ k2, c.isCell = true)
    (t t' : AT X) (hsame : foldOf (fs.up i) (plug k2 t) = foldOf (fs.up i) (plug k2 t')) (es1 es2 : List (Edit (CV X R))) (lim : Option Nat) (cs1 cs2 : Cells (CV X R))
    (hc1 : applyAll (fun _ => none) (ss.flatMap Step.edits ++ es1) = some cs1) (hh1 : LiveC cs1 (plug (k1 ++ st :: k2) t)) (hg1 : ((plug (k1 ++ st :: k2) t).erase.names.map Name.sym).Nodup)
    (hc2 : applyAll cs1 es2 = some cs2) (hh2 : LiveC cs2 (plug (k1 ++ st :: k2) t')) (hg2 : ((plug (k1 ++ st :: k2) t').erase.names.map Name.sym).Nodup) :
    ∃ N s1 s2 rs, (∀ n, N ≤ n →
        runSession (env H opAt fs hv ha) n ((ss ++ [(⟨es1, [], last, (plug (k1 ++ st :: k2) t).val, lim⟩ : Step X R)]).map (stepProg rn)) (initSt purity false) =
          .ok (ds.map (Dem.result H opAt fs) ++ [.res (foldOf (fs.up i) (plug (k1 ++ st :: k2) t))]) s1 ∧
        exec (env H opAt fs hv ha) n (stepProg rn ⟨es2, [], last, (plug (k1 ++ st :: k2) t').val, lim⟩) s1 = .ok (.res (foldOf (fs.up i) (plug (k1 ++ st :: k2) t'))) s2) ∧
      s2.runs = rs ++ s1.runs ∧ rs.Nodup ∧
      (∀ x ∈ rs, x ∈ wayThunks H last (st :: k2) ∨ x ∈ bothThunks H last t'.erase.names) ∧
      rs.length ≤ 1 + wayNames k2 + 2 * t'.erase.names.length := by
  obtain ⟨N, s1, s2, rs, r1, r2, r3, r4, r5, r6⟩ := two_folds (H := H) (hv := hv) (ha := ha) rn ss ds h0 purity last i hop _ _ es1 es2 lim lim cs1 cs2 hc1 hh1 hg1 hc2 hh2 hg2
  have e : ∀ u, plug (k1 ++ st :: k2) u = plug (k1 ++ [st]) (plug k2 u) := fun u => by rw [← plug_append]; simp
  have hval := plug_val (t := t) (t' := t') k2 hcell
  have hway : wayThunks H last (st :: k2) = wayThunks H last [st] ++ wayThunks H last k2 := by cases st <;> first | rfl | cases hst
  have hwho : ∀ x ∈ rs, x ∈ wayThunks H last (st :: k2) ∨ x ∈ bothThunks H last t'.erase.names := by
    intro x hx
    rw [hway]
    rcases r4 x hx with ⟨_, h⟩ | ⟨u, hu, hno⟩
    · refine absurd ⟨rfl, ?_⟩ h
      rw [e, e]
      exact (alike_plug hst hval hsame k1).1
    · rw [e] at hu
      rcases occ_cut hst hval hsame k1 hu with h | h | ⟨u0, h1, h2⟩
      · exact .inl (List.mem_append_left _ h)
      · rcases occ_plug (s := t) k2 h with h | h | h
        · exact .inl (List.mem_append_right _ h)
        · exact .inr h.both
        · exact absurd ⟨rfl, fun _ h => h⟩ (hno u (by rw [e]; exact occ_under (k1 ++ [st]) h))
      · exact absurd h2 (hno u0 (by rw [e]; exact h1))
  refine ⟨N, s1, s2, rs, r1, r2, r3, hwho, ?_⟩
  have := Wf.length_le_of_subset (b := wayThunks H last (st :: k2) ++ bothThunks H last t'.erase.names) r3 ?_
  · refine Nat.le_trans this ?_
    rw [List.length_append, way_length, both_length]
    have : wayNames (st :: k2) = wayNames k2 + 1 := by cases st <;> first | rfl | cases hst
    omega
  · intro x hx
    rcases hwho x hx with h | h
    · exact List.mem_append_left _ h
    · exact List.mem_append_right _ h
end

end Adapton.FoldProg

/-! ### A session that meets the hypotheses

A tree with eight leaves and seven names, each subtree in a cell of its own; one leaf is edited, and then one leaf is replaced by a tree with two leaves. -/
namespace Adapton.FoldProg.Example79
open Coll (Tree NameElse)
open SortProg (TV AT)
open EditSession (cellAt Edit applyAll Cells)
open Example76 (H nm fs opAt)

/-- A tree of height `h`, with names and cells from the number `k` on. -/
def full : Nat → Nat → AT Nat
  | 0, k => .leaf k
  | h + 1, k => .name (nm k) h (.art (cellAt (nm (100 + 2 * k))) (full h (2 * k))) (.art (cellAt (nm (101 + 2 * k))) (full h (2 * k + 1)))
/-- To the leaf number 10: right, left, right … -/
def way : List (Step1 Nat) :=
  [.nameL (nm 1) 2 (.art (cellAt (nm 103)) (full 2 3)), .cell (nm 102), .nameR (nm 2) 1 (.art (cellAt (nm 104)) (full 1 4)), .cell (nm 105),
   .nameL (nm 5) 0 (.art (cellAt (nm 111)) (.leaf 11)), .cell (nm 110)]
def writes : AT Nat → List (Edit (CV Nat Nat))
  | .nil => []
  | .leaf _ => []
  | .bin _ l r => writes l ++ writes r
  | .name _ _ l r => writes l ++ writes r
  | .art a t => (match a.id with | .nominal n => [.cell n (.tree t.val)] | _ => []) ++ writes t

theorem is_full : plug way (.leaf 10) = full 3 1 := rfl

def sub : AT Nat := .name (nm 50) 0 (.leaf 60) (.leaf 61)
def cells1 : Cells (CV Nat Nat) := (applyAll (fun _ => none) (writes (full 3 1))).getD fun _ => none
def put (t : AT Nat) : List (Edit (CV Nat Nat)) := [.set (nm 110) (.tree t.val)]
def cells2 : Cells (CV Nat Nat) := (applyAll cells1 (put sub)).getD fun _ => none

theorem meets1 : applyAll (fun _ => none) (([] : List (Step Nat Nat)).flatMap Step.edits ++ writes (full 3 1)) = some cells1 ∧ LiveC cells1 (plug way (.leaf 10)) ∧
    ((plug way (.leaf 10)).erase.names.map Name.sym).Nodup := by
  refine ⟨rfl, ?_, by decide⟩
  simp only [way, plug, full, LiveC, and_true]
  refine ⟨⟨⟨_, rfl, rfl⟩, ⟨⟨_, rfl, rfl⟩, ⟨_, rfl, rfl⟩, ⟨_, rfl, rfl⟩⟩, ⟨_, rfl, rfl⟩, ⟨_, rfl, rfl⟩, ⟨_, rfl, rfl⟩⟩, ⟨_, rfl, rfl⟩, ⟨⟨_, rfl, rfl⟩, ⟨_, rfl, rfl⟩, ⟨_, rfl, rfl⟩⟩, ⟨_, rfl, rfl⟩, ⟨_, rfl, rfl⟩, ⟨_, rfl, rfl⟩⟩
theorem meets2 : applyAll cells1 (put sub) = some cells2 ∧ LiveC cells2 (plug way sub) ∧ ((plug way sub).erase.names.map Name.sym).Nodup := by
  refine ⟨rfl, ?_, by decide⟩
  simp only [way, plug, full, LiveC, sub, and_true]
  refine ⟨⟨⟨_, rfl, rfl⟩, ⟨⟨_, rfl, rfl⟩, ⟨_, rfl, rfl⟩, ⟨_, rfl, rfl⟩⟩, ⟨_, rfl, rfl⟩, ⟨_, rfl, rfl⟩, ⟨_, rfl, rfl⟩⟩, ⟨_, rfl, rfl⟩, ⟨⟨_, rfl, rfl⟩, ⟨_, rfl, rfl⟩, ⟨_, rfl, rfl⟩⟩, ⟨_, rfl, rfl⟩, ⟨_, rfl, rfl⟩, ⟨_, rfl, rfl⟩⟩

/-- The theorem applies: at most six of the seventeen thunks are run. -/
example := C79_edits_are_local (H := H) (opAt := opAt) (fs := fs) (hv := fun _ => 0) (ha := fun _ _ => 0) (nm 0) [] [] .nil true (nm 20) 0 rfl way (.leaf 10) sub (writes (full 3 1)) (put sub)
  none none cells1 cells2 meets1.1 meets1.2.1 meets1.2.2 meets2.1 meets2.2.1 meets2.2.2
example : 1 + wayNames way + 2 * sub.erase.names.length = 6 := rfl
/-- The subtrees below names. -/
def subs : AT Nat → List (AT Nat)
  | .nil => []
  | .leaf _ => []
  | .bin _ l r => subs l ++ subs r
  | .name _ _ l r => l :: r :: (subs l ++ subs r)
  | .art _ t => subs t
theorem occ_subs {t u : AT Nat} {a : Loc} (h : Occ H (nm 20) t a u) : u ∈ subs t := by
  induction h with
  | left => simp [subs]
  | right => simp [subs]
  | nameL _ ih => simp [subs, ih]
  | nameR _ ih => simp [subs, ih]
  | binL _ ih => simp [subs, ih]
  | binR _ ih => simp [subs, ih]
  | art _ ih => exact ih
/-- There is at most one cell, and one name with four dependencies, below each thunk: the six runs record at most 30 dependencies. -/
theorem reads_five : ∀ x u, Occ H (nm 20) (plug way sub) x u → (readsOf H (nm 20) u).length ≤ 5 :=
  fun _ _ h => (by decide : ∀ u ∈ subs (plug way sub), (readsOf H (nm 20) u).length ≤ 5) _ (occ_subs h)

/-- Another tree with the sum 10, and the theorem on the early cutoff for the third name on the way: at most three thunks are run, two of them new. -/
def ten : AT Nat := .name (nm 50) 0 (.leaf 4) (.leaf 6)
def cells3 : Cells (CV Nat Nat) := (applyAll cells1 (put ten)).getD fun _ => none
theorem meets3 : applyAll cells1 (put ten) = some cells3 ∧ LiveC cells3 (plug way ten) ∧ ((plug way ten).erase.names.map Name.sym).Nodup := by
  refine ⟨rfl, ?_, by decide⟩
  simp only [way, plug, full, LiveC, ten, and_true]
  refine ⟨⟨⟨_, rfl, rfl⟩, ⟨⟨_, rfl, rfl⟩, ⟨_, rfl, rfl⟩, ⟨_, rfl, rfl⟩⟩, ⟨_, rfl, rfl⟩, ⟨_, rfl, rfl⟩, ⟨_, rfl, rfl⟩⟩, ⟨_, rfl, rfl⟩, ⟨⟨_, rfl, rfl⟩, ⟨_, rfl, rfl⟩, ⟨_, rfl, rfl⟩⟩, ⟨_, rfl, rfl⟩, ⟨_, rfl, rfl⟩, ⟨_, rfl, rfl⟩⟩
example := C79_early_cutoff (H := H) (opAt := opAt) (fs := fs) (hv := fun _ => 0) (ha := fun _ _ => 0) (nm 0) [] [] .nil true (nm 20) 0 rfl (way.take 4) (.nameL (nm 5) 0 (.art (cellAt (nm 111)) (.leaf 11)))
  [.cell (nm 110)] rfl ⟨_, List.mem_cons_self .., rfl⟩ (.leaf 10) ten rfl (writes (full 3 1)) (put ten) none cells1 cells3 meets1.1 meets1.2.1 meets1.2.2 meets3.1 meets3.2.1 meets3.2.2

/-- The sums returned, and the number of thunks run, for the tree, with another leaf, and with the subtree. -/
def outcome (t : AT Nat) : List (List Nat) × List Nat :=
  match exec (env H opAt fs (fun _ => 0) (fun _ _ => 0)) 60 (stepProg (nm 0) ⟨writes (full 3 1), [], nm 20, (full 3 1).val, none⟩) (initSt true false) with
  | .ok v s => match exec (env H opAt fs (fun _ => 0) (fun _ _ => 0)) 60 (stepProg (nm 0) ⟨put t, [], nm 20, (plug way t).val, none⟩) s with
    | .ok v' s' => ([v, v'].map Example76.nums, [s.runs.length, s'.runs.length - s.runs.length])
    | _ => ([], [])
  | _ => ([], [])

/-- The bounds are attained, also that of the early cutoff. -/
theorem C79_bound_attained : outcome (.leaf 20) = ([[92], [102]], [15, 4]) ∧ outcome sub = ([[92], [203]], [15, 6]) ∧ outcome ten = ([[92], [92]], [15, 3]) := by decide +kernel

end Adapton.FoldProg.Example79
