import Verif.Engine.Reflect
import Verif.Props.Graph
/-
C64: the reflected DCG (`dcg_reflect_now`) is the DCG.
-/
set_option linter.unusedSectionVars false
set_option linter.unusedVariables false
namespace Adapton.RDcg
open Reflect (Val RLoc)
open Ref (Sig Means)
variable {V : Type}

/-! ### Specification -/

/-- The location has a name made by `name_of_hash64`, which users must not call. -/
def HashNamed (l : Loc) : Prop := ∃ h, l.id = .nominal (nameOfHash64 h)

/-- `order` presents the keys of the table. -/
def Presents (order : List Loc) (t : Table V) : Prop := ∀ l, l ∈ order ↔ ∃ n, t.get l = some n

/-- Some value of the node cannot be parsed. -/
def BadVal (pv : V → Option Val) : Node V → Prop
  | .comp nd => ∃ v, nd.res = some v ∧ pv v = none
  | .pure nd => pv nd.val = none
  | .mut nd => pv nd.val = none

/-- A reflected location: the names of the path from the root, and the name; a structural identity is shown as a `Hash64` name with
its hash. -/
def ShowsLoc (l : Loc) (r : RLoc) : Prop :=
  (∃ h, l.id = .structural h ∧ r.name = ⟨h, .hash64⟩ ∨ ∃ n, l.id = .nominal n ∧ r.name = n) ∧ r.path.reverse = names l.path
where names : Path → List Name
  | .empty => []
  | .child p n => n :: names p
/-- A reflected effect. -/
def ShowsEff (e : Effect) (r : REff) : Prop := r = .force ∧ e = .observe ∨ r = .alloc ∧ e = .allocate
/-- A reflected edge, without its value. -/
def ShowsSucc (e : Succ V) (r : RSucc) : Prop := r.dirty = e.dirty ∧ ShowsLoc e.loc r.loc ∧ ShowsEff e.effect r.effect
def ShowsPred (e : Pred V) (r : RPred) : Prop := ShowsLoc e.loc r.loc ∧ ShowsEff e.effect r.effect
/-- Two lists are related position by position. -/
inductive All2 {α β : Type} (R : α → β → Prop) : List α → List β → Prop
  | nil : All2 R [] []
  | cons {a b as bs} : R a b → All2 R as bs → All2 R (a :: as) (b :: bs)
/-- A reflected node. -/
inductive Shows (pv : V → Option Val) : Node V → RNode → Prop
  | done {ty preds succs pp fn arg v ps es w} : All2 ShowsPred preds ps → All2 ShowsSucc succs es → pv v = some w →
      Shows pv (.comp ⟨ty, preds, succs, pp, fn, arg, some v⟩) (.comp ps es pp (some w))
  | fresh {ty preds succs pp fn arg ps es} : All2 ShowsPred preds ps → All2 ShowsSucc succs es →
      Shows pv (.comp ⟨ty, preds, succs, pp, fn, arg, none⟩) (.comp ps es pp none)
  | ref {ty preds v ps w} : All2 ShowsPred preds ps → pv v = some w → Shows pv (.mut ⟨ty, preds, v⟩) (.ref ps w)
  | pure {ty v w} : pv v = some w → Shows pv (.pure ⟨ty, v⟩) (.pure w)
/-- A reflected frame. -/
def ShowsFrame (f : Frame V) (r : RFrame) : Prop := ShowsLoc f.loc r.loc ∧ All2 (fun e r => ShowsSucc e.1 r) f.succs r.succs

/-! ### Locations -/

theorem shows_loc (l : Loc) : ShowsLoc l (loc l) := by
  obtain ⟨p, i⟩ := l
  refine ⟨?_, ?_⟩
  · cases i with
    | structural h => exact ⟨h, .inl ⟨rfl, rfl⟩⟩
    | nominal n => exact ⟨0, .inr ⟨n, rfl, rfl⟩⟩
  · show (path p).reverse = ShowsLoc.names p
    induction p with
    | empty => rfl
    | child p n ih => simp [path, ShowsLoc.names, ih]
theorem shows_eff (e : Effect) : ShowsEff e (eff e) := by cases e <;> simp [ShowsEff, eff]
theorem shows_map {α β : Type} {R : α → β → Prop} {f : α → β} (h : ∀ a, R a (f a)) : ∀ as, All2 R as (as.map f)
  | [] => .nil
  | a :: as => .cons (h a) (shows_map h as)
theorem shows_succ (e : Succ V) : ShowsSucc e (succ e) := ⟨rfl, shows_loc _, shows_eff _⟩
theorem shows_pred (e : Pred V) : ShowsPred e (pred e) := ⟨shows_loc _, shows_eff _⟩
theorem shows_node {pv : V → Option Val} {n : Node V} {rn : RNode} (h : node pv n = some rn) : Shows pv n rn := by
  cases n with
  | comp nd =>
    obtain ⟨ty, preds, succs, pp, fn, arg, res⟩ := nd
    cases res with
    | none => simp only [node, Option.some.injEq] at h; subst h; exact .fresh (shows_map shows_pred _) (shows_map shows_succ _)
    | some v =>
      simp only [node, Option.map_eq_some_iff] at h
      obtain ⟨w, h1, rfl⟩ := h
      exact .done (shows_map shows_pred _) (shows_map shows_succ _) h1
  | pure nd => simp only [node, Option.map_eq_some_iff] at h; obtain ⟨w, h1, rfl⟩ := h; exact .pure h1
  | «mut» nd => simp only [node, Option.map_eq_some_iff] at h; obtain ⟨w, h1, rfl⟩ := h; exact .ref (shows_map shows_pred _) h1
theorem shows_frame (f : Frame V) : ShowsFrame f (frame f) := ⟨shows_loc _, shows_map (R := fun (e : Succ V × Option (Dep V)) r => ShowsSucc e.1 r) (f := fun e => succ e.1) (fun e => shows_succ e.1) f.succs⟩

theorem path_inj {p q : Path} (h : path p = path q) : p = q := by
  induction p generalizing q with
  | empty =>
    cases q with
    | empty => rfl
    | child q m => simp [path] at h
  | child p n ih =>
    cases q with
    | empty => simp [path] at h
    | child q m =>
      simp only [path] at h
      obtain ⟨h1, h2⟩ := List.append_inj' h rfl
      cases h2
      rw [ih h1]

/-- **C64.** Two locations have the same reflection only if they are the same, or one is the structural location with some hash and the
other was named with `name_of_hash64` of this hash. -/
theorem C64_locations (l l' : Loc) : loc l = loc l' ↔ l = l' ∨ l.path = l'.path ∧ ∃ h,
    l.id = .structural h ∧ l'.id = .nominal (nameOfHash64 h) ∨ l.id = .nominal (nameOfHash64 h) ∧ l'.id = .structural h := by
  obtain ⟨p, i⟩ := l
  obtain ⟨p', i'⟩ := l'
  constructor
  · intro h
    simp only [loc, RLoc.mk.injEq] at h
    obtain ⟨h1, h2⟩ := h
    have h1 := path_inj h1
    subst h1
    cases i <;> cases i' <;> simp only [nameOfHash64, Name.mk.injEq] at h2
    · left; rw [h2.1]
    · right; exact ⟨rfl, _, .inl ⟨rfl, by rw [← h2]; rfl⟩⟩
    · right; exact ⟨rfl, _, .inr ⟨by rw [h2]; rfl, rfl⟩⟩
    · left; rw [h2]
  · rintro (h | ⟨h, k, ⟨h1, h2⟩ | ⟨h1, h2⟩⟩)
    · rw [h]
    · simp only at h h1 h2; subst h; subst h1; subst h2; rfl
    · simp only at h h1 h2; subst h; subst h1; subst h2; rfl

theorem loc_inj {l l' : Loc} (h : ¬ HashNamed l) (h' : ¬ HashNamed l') (e : loc l = loc l') : l = l' := by
  rcases (C64_locations l l').1 e with h1 | ⟨_, k, ⟨_, h2⟩ | ⟨h2, _⟩⟩
  · exact h1
  · exact absurd ⟨k, h2⟩ h'
  · exact absurd ⟨k, h2⟩ h

theorem eff_inj {e e' : Effect} (h : eff e = eff e') : e = e' := by cases e <;> cases e' <;> first | rfl | cases h

/-! ### The table -/

theorem node_none {pv : V → Option Val} (n : Node V) : node pv n = none ↔ BadVal pv n := by
  cases n with
  | comp nd =>
    simp only [node, BadVal]
    rcases nd.res with _ | v
    · simp
    · simp
  | pure nd => simp [node, BadVal]
  | «mut» nd => simp [node, BadVal]

theorem table_none {pv : V → Option Val} {t : Table V} (order : List Loc) : ∀ acc,
    table pv t order acc = none ↔ ∃ l ∈ order, ∃ n, t.get l = some n ∧ BadVal pv n := by
  induction order with
  | nil => intro acc; simp [table]
  | cons l ls ih =>
    intro acc
    rcases hg : t.get l with _ | n
    · have e : table pv t (l :: ls) acc = table pv t ls acc := by simp [table, hg]
      rw [e]; simp [ih, hg]
    · rcases hn : node pv n with _ | rn
      · have e : table pv t (l :: ls) acc = none := by simp [table, hg, hn]
        rw [e]
        have := (node_none n).1 hn
        exact ⟨fun _ => ⟨l, by simp, n, hg, this⟩, fun _ => rfl⟩
      · have e : table pv t (l :: ls) acc = table pv t ls (insert acc (loc l) rn) := by simp [table, hg, hn]
        rw [e, ih]
        constructor
        · rintro ⟨x, h1, h2⟩; exact ⟨x, by simp [h1], h2⟩
        · rintro ⟨x, h1, m, h2, h3⟩
          rcases List.mem_cons.1 h1 with rfl | h1
          · rw [hg] at h2; cases h2
            rw [(node_none n).2 h3] at hn; cases hn
          · exact ⟨x, h1, m, h2, h3⟩

theorem table_some {pv : V → Option Val} {t : Table V} (hh : ∀ l n, t.get l = some n → ¬ HashNamed l) (order : List Loc) : ∀ acc t',
    table pv t order acc = some t' → (∀ r rn, t' r = some rn ↔
      (∃ l ∈ order, ∃ n, t.get l = some n ∧ loc l = r ∧ node pv n = some rn) ∨
      acc r = some rn ∧ ¬ ∃ l ∈ order, ∃ n, t.get l = some n ∧ loc l = r) := by
  induction order with
  | nil => intro acc t' h r rn; cases h; simp
  | cons l ls ih =>
    intro acc t' h r rn
    rcases hg : t.get l with _ | n
    · have h : table pv t ls acc = some t' := by simpa [table, hg] using h
      rw [ih acc t' h r rn]
      simp [hg]
    · rcases hn : node pv n with _ | m
      · simp [table, hg, hn] at h
      have h : table pv t ls (insert acc (loc l) m) = some t' := by simpa [table, hg, hn] using h
      rw [ih _ t' h r rn]
      have key : ∀ l' n', t.get l' = some n' → loc l' = loc l → l' = l := fun l' n' h1 h2 => loc_inj (hh _ _ h1) (hh _ _ hg) h2
      unfold insert
      constructor
      · rintro (⟨l', h1, h2⟩ | ⟨h1, h2⟩)
        · exact .inl ⟨l', by simp [h1], h2⟩
        · by_cases hr : r = loc l
          · rw [if_pos hr] at h1; cases h1
            exact .inl ⟨l, by simp, n, hg, hr.symm, hn⟩
          · rw [if_neg hr] at h1
            refine .inr ⟨h1, ?_⟩
            rintro ⟨l', h3, n', h4, h5⟩
            rcases List.mem_cons.1 h3 with rfl | h3
            · exact hr h5.symm
            · exact h2 ⟨l', h3, n', h4, h5⟩
      · rintro (⟨l', h1, n', h2, h3, h4⟩ | ⟨h1, h2⟩)
        · by_cases hx : ∃ l' ∈ ls, ∃ n, t.get l' = some n ∧ loc l' = r
          · obtain ⟨x, x1, y, y1, y2⟩ := hx
            have : x = l' := loc_inj (hh _ _ y1) (hh _ _ h2) (y2.trans h3.symm)
            subst this
            exact .inl ⟨x, x1, n', h2, h3, h4⟩
          · rcases List.mem_cons.1 h1 with rfl | h1
            · rw [hg] at h2; cases h2
              rw [hn] at h4; cases h4
              exact .inr ⟨by rw [if_pos h3.symm], hx⟩
            · exact absurd ⟨l', h1, n', h2, h3⟩ hx
        · refine .inr ⟨?_, ?_⟩
          · have : r ≠ loc l := fun e => h2 ⟨l, by simp, n, hg, e.symm⟩
            rw [if_neg this]; exact h1
          · rintro ⟨l', h3, n', h4, h5⟩; exact h2 ⟨l', by simp [h3], n', h4, h5⟩

/-- **C64.** `dcg_reflect_now` panics exactly if the DCG has a node with a value that cannot be parsed, whatever the order of the hash map; under
the naive engine it returns `None`. -/
theorem C64_panics_iff (pv : V → Option Val) (order : List Loc) (g : Globals V) (ho : ∀ s, g.engine = .dcg s → Presents order s.table) :
    (reflectNow pv order g = none ↔ ∃ s, g.engine = .dcg s ∧ ∃ l n, s.table.get l = some n ∧ BadVal pv n) ∧
    (reflectNow pv order g = some none ↔ g.engine = .naive) := by
  unfold reflectNow
  rcases hg : g.engine with s | _
  · have ho := ho s hg
    constructor
    · simp only [dcg, Option.map_eq_none_iff, table_none]
      constructor
      · rintro ⟨l, _, n, h1, h2⟩; exact ⟨s, rfl, l, n, h1, h2⟩
      · rintro ⟨s', e, l, n, h1, h2⟩
        cases e
        exact ⟨l, (ho l).2 ⟨n, h1⟩, n, h1, h2⟩
    · constructor
      · intro h
        simp at h
      · intro h; cases h
  · simp

/-- The same, in terms of the model's functions. -/
theorem faithful (pv : V → Option Val) (order : List Loc) (s : St V) (d : RDCG) (ho : Presents order s.table)
    (hh : ∀ l n, s.table.get l = some n → ¬ HashNamed l) (hd : dcg pv order s = some d) :
    (∀ r rn, d.table r = some rn ↔ ∃ l n, s.table.get l = some n ∧ loc l = r ∧ node pv n = some rn) ∧
    d.stack = s.stack.reverse.map frame ∧ d.path = path s.path := by
  unfold dcg at hd
  rcases ht : table pv s.table order (fun _ => none) with _ | t
  · rw [ht] at hd; cases hd
  rw [ht] at hd
  cases hd
  refine ⟨fun r rn => ?_, rfl, rfl⟩
  rw [table_some hh order _ _ ht]
  constructor
  · rintro (⟨l, _, n, h⟩ | ⟨h, _⟩)
    · exact ⟨l, n, h⟩
    · cases h
  · rintro ⟨l, n, h1, h⟩
    exact .inl ⟨l, (ho l).2 ⟨n, h1⟩, n, h1, h⟩

/-- **C64.** The reflected DCG has a node exactly where the DCG has one, which shows its edges (in order), its value and its program point; the
frames, from the bottom of the stack, and the current path are shown too.  For every state and every order in which the hash map presents its keys. -/
theorem C64_faithful (pv : V → Option Val) (order : List Loc) (s : St V) (d : RDCG) (ho : Presents order s.table)
    (hh : ∀ l n, s.table.get l = some n → ¬ HashNamed l) (hd : dcg pv order s = some d) :
    (∀ l n, s.table.get l = some n → ∃ r rn, d.table r = some rn ∧ ShowsLoc l r ∧ Shows pv n rn) ∧
    (∀ r rn, d.table r = some rn → ∃ l n, s.table.get l = some n ∧ ShowsLoc l r ∧ Shows pv n rn) ∧
    All2 ShowsFrame s.stack.reverse d.stack ∧ d.path.reverse = ShowsLoc.names s.path := by
  obtain ⟨h1, h2, h3⟩ := faithful pv order s d ho hh hd
  refine ⟨?_, ?_, ?_, ?_⟩
  · intro l n hl
    rcases hn : node pv n with _ | rn
    · have : dcg pv order s = none := by
        unfold dcg
        rw [(table_none order _).2 ⟨l, (ho l).2 ⟨n, hl⟩, n, hl, (node_none n).1 hn⟩]; rfl
      rw [this] at hd; cases hd
    · exact ⟨_, rn, (h1 _ _).2 ⟨l, n, hl, rfl, hn⟩, shows_loc l, shows_node hn⟩
  · intro r rn hr
    obtain ⟨l, n, g1, rfl, g3⟩ := (h1 r rn).1 hr
    exact ⟨l, n, g1, shows_loc l, shows_node g3⟩
  · rw [h2]; exact shows_map shows_frame _
  · rw [h3]; exact (shows_loc ⟨s.path, .structural 0⟩).2

/-- **C64.** The order in which the hash map presents its keys does not matter. -/
theorem C64_order (pv : V → Option Val) (o o' : List Loc) (s : St V) (ho : Presents o s.table) (ho' : Presents o' s.table)
    (hh : ∀ l n, s.table.get l = some n → ¬ HashNamed l) : dcg pv o s = dcg pv o' s := by
  rcases h : dcg pv o s with _ | d <;> rcases h' : dcg pv o' s with _ | d'
  · rfl
  · exfalso
    unfold dcg at h h'
    rw [Option.map_eq_none_iff, table_none] at h
    obtain ⟨l, _, n, h1, h2⟩ := h
    have : table pv s.table o' (fun _ => none) = none := (table_none o' _).2 ⟨l, (ho' l).2 ⟨n, h1⟩, n, h1, h2⟩
    rw [this] at h'; cases h'
  · exfalso
    unfold dcg at h h'
    rw [Option.map_eq_none_iff, table_none] at h'
    obtain ⟨l, _, n, h1, h2⟩ := h'
    have : table pv s.table o (fun _ => none) = none := (table_none o _).2 ⟨l, (ho l).2 ⟨n, h1⟩, n, h1, h2⟩
    rw [this] at h; cases h
  · obtain ⟨a1, a2, a3⟩ := faithful pv o s d ho hh h
    obtain ⟨b1, b2, b3⟩ := faithful pv o' s d' ho' hh h'
    have : d.table = d'.table := by
      funext r
      apply Option.ext
      intro rn
      rw [a1, b1]
    obtain ⟨_, _, _⟩ := d
    obtain ⟨_, _, _⟩ := d'
    simp only at this a2 a3 b2 b3
    rw [this, a2, a3, b2, b3]

/-! ### What a user can rely on in the reflected DCG -/

/-- The reflected thunk `r` has the reflected edge `e`. -/
def HasSucc (d : RDCG) (r : RLoc) (e : RSucc) : Prop := ∃ n es, d.table r = some n ∧ succsOf n = some es ∧ e ∈ es
/-- The reflected node `x` has the reflected predecessor `p`. -/
def HasPred (d : RDCG) (x : RLoc) (p : RPred) : Prop := ∃ n ps, d.table x = some n ∧ predsOf n = some ps ∧ p ∈ ps

theorem node_succs {pv : V → Option Val} {n : Node V} {rn : RNode} {es : List RSucc} (h : node pv n = some rn) (hs : succsOf rn = some es) :
    ∃ nd, n = .comp nd ∧ es = nd.succs.map succ := by
  cases n with
  | comp nd =>
    refine ⟨nd, rfl, ?_⟩
    simp only [node] at h
    rcases hr : nd.res with _ | v
    · rw [hr] at h; simp only [Option.some.injEq] at h; subst h; simp only [succsOf, Option.some.injEq] at hs; exact hs.symm
    · rw [hr] at h
      simp only [Option.map_eq_some_iff] at h
      obtain ⟨w, _, rfl⟩ := h; simp only [succsOf, Option.some.injEq] at hs; exact hs.symm
  | pure nd => simp only [node, Option.map_eq_some_iff] at h; obtain ⟨w, _, rfl⟩ := h; cases hs
  | «mut» nd => simp only [node, Option.map_eq_some_iff] at h; obtain ⟨w, _, rfl⟩ := h; cases hs

theorem node_succs' {pv : V → Option Val} {nd : CompNode V} {rn : RNode} (h : node pv (.comp nd) = some rn) :
    succsOf rn = some (nd.succs.map succ) := by
  simp only [node] at h
  rcases hr : nd.res with _ | v
  · rw [hr] at h; simp only [Option.some.injEq] at h; subst h; rfl
  · rw [hr] at h
    simp only [Option.map_eq_some_iff] at h
    obtain ⟨w, _, rfl⟩ := h; rfl

theorem node_preds {pv : V → Option Val} {n : Node V} {rn : RNode} {ps : List RPred} (h : node pv n = some rn) (hs : predsOf rn = some ps) :
    ps = n.preds.map pred := by
  cases n with
  | comp nd =>
    simp only [node] at h
    rcases hr : nd.res with _ | v
    · rw [hr] at h; simp only [Option.some.injEq] at h; subst h; simp only [predsOf, Option.some.injEq] at hs; exact hs.symm
    · rw [hr] at h
      simp only [Option.map_eq_some_iff] at h
      obtain ⟨w, _, rfl⟩ := h; simp only [predsOf, Option.some.injEq] at hs; exact hs.symm
  | pure nd => simp only [node, Option.map_eq_some_iff] at h; obtain ⟨w, _, rfl⟩ := h; cases hs
  | «mut» nd => simp only [node, Option.map_eq_some_iff] at h; obtain ⟨w, _, rfl⟩ := h; simp only [predsOf, Option.some.injEq] at hs; exact hs.symm

theorem node_preds' {pv : V → Option Val} {n : Node V} {rn : RNode} (h : node pv n = some rn) {p : Pred V} (hp : p ∈ n.preds) :
    predsOf rn = some (n.preds.map pred) := by
  cases n with
  | comp nd =>
    simp only [node] at h
    rcases hr : nd.res with _ | v
    · rw [hr] at h; simp only [Option.some.injEq] at h; subst h; rfl
    · rw [hr] at h
      simp only [Option.map_eq_some_iff] at h
      obtain ⟨w, _, rfl⟩ := h; rfl
  | pure nd => cases hp
  | «mut» nd => simp only [node, Option.map_eq_some_iff] at h; obtain ⟨w, _, rfl⟩ := h; rfl

variable [DecidableEq V]

/-- **C64.** In the reflected DCG, between the programs of every session that has a meaning: no frame, the empty path; every edge leads to a
node of the table, other than its source, which has the edge among its predecessors, and every predecessor has its edge; if one edge of a thunk is dirty, all `Force` edges to the
thunk are dirty; if no edge of a thunk is dirty, then no edge of what it forces is dirty. -/
theorem C64_reflected_invariants (sig : Sig) (env : Env V) (ps : List (Prog V)) (vs : List V) (h : Means sig env ps vs)
    (purity : Bool) (hp : purity = true → sig.pu = true) (n : Nat) (vs' : List V) (s : St V) (hr : runSession env n ps (initSt purity sig.mode) = .ok vs' s)
    (pv : V → Option Val) (order : List Loc) (d : RDCG) (ho : Presents order s.table)
    (hh : ∀ l n, s.table.get l = some n → ¬ HashNamed l) (hd : dcg pv order s = some d) :
    d.stack = [] ∧
    (∀ r e, HasSucc d r e → (∃ n, d.table e.loc = some n) ∧ e.loc ≠ r ∧ HasPred d e.loc ⟨r, e.effect⟩) ∧
    (∀ x p, HasPred d x p → ∃ e, HasSucc d p.loc e ∧ e.loc = x ∧ e.effect = p.effect) ∧
    (∀ r e q e', HasSucc d r e → e.dirty = true → HasSucc d q e' → e'.loc = r → e'.effect = .force → e'.dirty = true) ∧
    (∀ r e, (∀ e', HasSucc d r e' → e'.dirty = false) → HasSucc d r e → e.effect = .force → ∀ e', HasSucc d e.loc e' → e'.dirty = false) := by
  obtain ⟨f1, f2, f3⟩ := faithful pv order s d ho hh hd
  have hst := (session_state sig env ps vs h purity hp n vs' s hr).2.2
  have toDep : ∀ r e, HasSucc d r e → ∃ l e0, HasDep s.table l e0 ∧ loc l = r ∧ succ e0 = e ∧ ¬ HashNamed l := by
    rintro r e ⟨rn, es, h1, h2, h3⟩
    obtain ⟨l, n, g1, rfl, g3⟩ := (f1 r rn).1 h1
    obtain ⟨nd, rfl, rfl⟩ := node_succs g3 h2
    obtain ⟨e0, e1, rfl⟩ := List.mem_map.1 h3
    exact ⟨l, e0, ⟨nd, g1, e1⟩, rfl, rfl, hh _ _ g1⟩
  have total : ∀ l n, s.table.get l = some n → ∃ rn, node pv n = some rn ∧ d.table (loc l) = some rn := by
    intro l n hl
    rcases hn : node pv n with _ | rn
    · have : dcg pv order s = none := by
        unfold dcg
        rw [(table_none order _).2 ⟨l, (ho l).2 ⟨n, hl⟩, n, hl, (node_none n).1 hn⟩]; rfl
      rw [this] at hd; cases hd
    · exact ⟨rn, rfl, (f1 _ _).2 ⟨l, n, hl, rfl, hn⟩⟩
  have ofDep : ∀ l e0, HasDep s.table l e0 → HasSucc d (loc l) (succ e0) := by
    rintro l e0 ⟨nd, g1, g2⟩
    obtain ⟨rn, a1, a2⟩ := total l _ g1
    exact ⟨rn, _, a2, node_succs' a1, List.mem_map.2 ⟨e0, g2, rfl⟩⟩
  have c10 := C10_edge_symmetry sig env ps vs h purity hp n vs' s hr
  refine ⟨by rw [f2, hst]; rfl, ?_, ?_, ?_, ?_⟩
  · intro r e he
    obtain ⟨l, e0, h1, rfl, rfl, h4⟩ := toDep r e he
    obtain ⟨m, hm⟩ := (c10 l l .observe).2.1 e0 h1
    obtain ⟨rn, a1, a2⟩ := total _ _ hm
    obtain ⟨m', k1, p, k2, k3, k4⟩ := ((c10 l e0.loc e0.effect).1).1 ⟨e0, h1, rfl, rfl⟩
    rw [hm] at k1; cases k1
    refine ⟨⟨rn, a2⟩, fun e => (c10 l l .observe).2.2 e0 h1 (loc_inj (hh _ _ hm) h4 e), rn, _, a2, node_preds' a1 k2, ?_⟩
    exact List.mem_map.2 ⟨p, k2, by rw [pred, k3, k4]; rfl⟩
  · rintro x p ⟨rn, qs, h1, h2, h3⟩
    obtain ⟨l, m, g1, rfl, g3⟩ := (f1 x rn).1 h1
    rw [node_preds g3 h2] at h3
    obtain ⟨p0, h4, rfl⟩ := List.mem_map.1 h3
    obtain ⟨e, k1, k2, k3⟩ := ((c10 p0.loc l p0.effect).1).2 ⟨m, g1, p0, h4, rfl, rfl⟩
    exact ⟨succ e, ofDep _ _ k1, by rw [succ, k2], by rw [succ, k3]; rfl⟩
  · intro r e q e' he hde he' hl ho'
    obtain ⟨l, e0, h1, rfl, rfl, h4⟩ := toDep r e he
    obtain ⟨l', e1, i1, rfl, rfl, i4⟩ := toDep q e' he'
    obtain ⟨m, hm⟩ := (c10 l' l' .observe).2.1 e1 i1
    have : e1.loc = l := loc_inj (hh _ _ hm) h4 hl
    exact C09_dirty_is_transitive sig env ps vs h purity hp n vs' s hr l l' e0 e1 h1 hde i1 this (eff_inj (e' := .observe) ho')
  · intro r e hc he ho' e' he'
    obtain ⟨l, e0, h1, rfl, rfl, h4⟩ := toDep r e he
    obtain ⟨l', e1, i1, i2, rfl, i4⟩ := toDep _ e' he'
    obtain ⟨m, hm⟩ := (c10 l l .observe).2.1 e0 h1
    have : l' = e0.loc := loc_inj i4 (hh _ _ hm) i2
    subst this
    exact (C49_clean_is_current sig env ps vs h purity hp n vs' s hr l (fun e2 h2 => hc _ (ofDep _ _ h2)) e0 h1 (eff_inj (e' := .observe) ho')).2 e1 i1

/-- **C64 (violated).** The documented `value` of an edge is never there, and no edge is ever marked as a duplicate. -/
theorem C64_edge_values_missing (pv : V → Option Val) (order : List Loc) (s : St V) (d : RDCG) (ho : Presents order s.table)
    (hh : ∀ l n, s.table.get l = some n → ¬ HashNamed l) (hd : dcg pv order s = some d) (r : RLoc) (e : RSucc) (he : HasSucc d r e) :
    e.value = none ∧ e.isDup = false := by
  obtain ⟨rn, es, h1, h2, h3⟩ := he
  obtain ⟨l, n, g1, rfl, g3⟩ := ((faithful pv order s d ho hh hd).1 r rn).1 h1
  obtain ⟨nd, rfl, rfl⟩ := node_succs g3 h2
  obtain ⟨e0, _, rfl⟩ := List.mem_map.1 h3
  exact ⟨rfl, rfl⟩

/-- The keys of the table, in some order, present it. -/
theorem presents_keys (t : Table V) : Presents (t.map Prod.fst) t := by
  intro l
  induction t with
  | nil => simp [Table.get]
  | cons p t ih =>
    obtain ⟨k, n⟩ := p
    simp only [List.map_cons, List.mem_cons, Table.get]
    by_cases h : k = l
    · rw [if_pos h]; simp [h]
    · rw [if_neg h, ← ih]
      simp [Ne.symm h]

end Adapton.RDcg

/-! ### Names made by `name_of_hash64` -/
namespace Adapton.RDcg.Example64
open Reflect (Val RLoc)
variable {V : Type} [UEq V]

/-- A thunk with a structural identity, and a cell named with `name_of_hash64` of the hash of the thunk. -/
def clash (env : Env V) (pp : ProgPt) (fn : FnId) (a v : V) : Prog V :=
  .thunk 0 .structural pp fn a fun _ => .cell 1 (nameOfHash64 (env.hashApp pp a)) v fun _ => .ret v

/-- **C64**, the condition is needed: for all programs and hashes, the DCG then has two nodes with the same reflected location; the reflected
DCG has only one of them, and which one depends on the order of the hash map. -/
theorem C64_hash_names_collide (env : Env V) (pp : ProgPt) (fn : FnId) (a v : V) (w : Val) (n : Nat) (purity : Bool) :
    ∃ s l l', runSession env n [clash env pp fn a v] (initSt purity false) = .ok [v] s ∧ l ≠ l' ∧ loc l = loc l' ∧
      Presents [l, l'] s.table ∧ Presents [l', l] s.table ∧
      ((dcg (fun _ => some w) [l, l'] s).bind fun d => d.table (loc l)) = some (.ref [] w) ∧
      ((dcg (fun _ => some w) [l', l] s).bind fun d => d.table (loc l)) = some (.comp [] [] pp none) := by
  refine ⟨_, ⟨.empty, .structural (env.hashApp pp a)⟩, ⟨.empty, .nominal (nameOfHash64 (env.hashApp pp a))⟩,
    by simp [clash, runSession, exec, runProg, opThunk, thunkStructural, opCell, cellTable, cellRecord, M.bind_def, M.pure_def, M.modify_def, M.get_def, evBegin, evEnd,
      recordEdge, putNode, Table.get, Table.put, topLoc, initSt]; rfl, by simp, rfl, ?_, ?_, ?_, ?_⟩
  · intro l
    simp only [Table.get, List.mem_cons, List.not_mem_nil, or_false]
    by_cases h1 : l = ⟨.empty, .structural (env.hashApp pp a)⟩
    · subst h1; simp
    · by_cases h2 : l = ⟨.empty, .nominal (nameOfHash64 (env.hashApp pp a))⟩
      · subst h2; simp
      · simp [h1, h2, Ne.symm h1, Ne.symm h2]
  · intro l
    simp only [Table.get, List.mem_cons, List.not_mem_nil, or_false]
    by_cases h1 : l = ⟨.empty, .structural (env.hashApp pp a)⟩
    · subst h1; simp
    · by_cases h2 : l = ⟨.empty, .nominal (nameOfHash64 (env.hashApp pp a))⟩
      · subst h2; simp
      · simp [h1, h2, Ne.symm h1, Ne.symm h2]
  · simp [dcg, table, Table.get, node, insert, loc]
  · simp [dcg, table, Table.get, node, insert, loc]

/-! ### A session that meets the hypotheses, with duplicate edges

A thunk allocates the cell 5 twice, with the same content, and forces the cell 0. -/
def nm (n : Nat) : Name := ⟨0, .usize n⟩
def at_ (n : Nat) : Loc := ⟨.empty, .nominal (nm n)⟩
def code : FnId → Nat → Prog Nat
  | 1, _ => .force 0 (at_ 0) none fun x => .cell 0 (nm 5) x fun _ => .cell 0 (nm 5) x fun l => .force 0 l none .ret
  | _, _ => .panic
def env : Env Nat := ⟨code, fun _ => 0, fun _ _ => 0⟩
def sig : Ref.Sig := { kind := fun l => if l = at_ 2 then .thunk 0 11 1 else .cell 0 }
def ps : List (Prog Nat) :=
  [.cell 0 (nm 0) 3 fun _ => .thunk 0 (.nominal (nm 2)) 11 1 0 fun l => .force 0 l none .ret,
   .cell 0 (nm 5) 4 fun _ => .ret 0]
example : Ref.Means sig env ps [3, 0] := ⟨10, _, rfl⟩

def pv (n : Nat) : Option Val := some (.const (.nat n))
/-- The edges of the reflected thunk after the session: target, effect, dirty, duplicate. -/
def edgesOf (s : St Nat) : Option (List (RLoc × REff × Bool × Bool)) :=
  (dcg pv (s.table.map Prod.fst) s).bind fun d => (d.table (loc (at_ 2))).bind fun n => (succsOf n).map (·.map fun e => (e.loc, e.effect, e.dirty, e.isDup))

/-- The session reaches a state in which no location has a name made by `name_of_hash64`. -/
example : (match runSession env 10 ps (initSt true false) with
    | .ok _ s => s.table.map Prod.fst
    | _ => []) = [at_ 0, at_ 2, at_ 5] := by decide +kernel

/-- **C64 (violated).** The documentation says that duplicate edges are not stored, and that their dirty bits agree: after the session the reflected
thunk has two `Alloc` edges to the cell 5, of which only the first is dirty, and neither is marked as a duplicate. -/
theorem C64_duplicate_edges_differ : (match runSession env 10 ps (initSt true false) with
    | .ok _ s => edgesOf s
    | _ => none) = some [(loc (at_ 0), .force, false, false), (loc (at_ 5), .alloc, true, false), (loc (at_ 5), .alloc, false, false),
      (loc (at_ 5), .force, true, false)] := by decide +kernel

end Adapton.RDcg.Example64
