import Verif.Props.SortEngine
import Verif.Props.Sorting
/-
C63: sorting on the engine, end to end.  An editor edits the cells of a tree and demands `vec_of_list(mergesort_list_of_tree(t))`, again and
again; every demand returns the elements of the current tree, sorted.
-/
set_option linter.unusedSectionVars false
set_option linter.unusedVariables false
namespace Adapton.SortProg
open Coll (NameElse Lst Tree)
open Ref (Sig Kind Store Ctx Ext ES Means)
variable {X : Type} [DecidableEq X] (H : NameHash) (le : X → X → Bool)

/-! ### The specification -/

/-- What the editor has put into its cells. -/
abbrev Cells (X : Type) := Name → Option (TV X)

/-- The location of a cell of the editor. -/
def cellAt (n : Name) : Loc := ⟨.empty, .nominal n⟩

/-- One edit: `cell(name, tree)`, or `set(art, tree)` of a cell that exists. -/
inductive Edit (X : Type) where
  | cell (n : Name) (t : TV X)
  | set (n : Name) (t : TV X)

/-- The cells after an edit; `set` needs the cell to exist. -/
def Edit.apply (cs : Cells X) : Edit X → Option (Cells X)
  | .cell n t => some fun m => if m = n then some t else cs m
  | .set n t => if (cs n).isSome then some fun m => if m = n then some t else cs m else none
def applyAll (cs : Cells X) : List (Edit X) → Option (Cells X)
  | [] => some cs
  | e :: es => (e.apply cs).bind fun cs' => applyAll cs' es

/-- The tree `t` is what the value `v` stands for: the articulations in it are cells, and are replaced by what they hold. -/
inductive Unfolds (cs : Cells X) : TV X → Tree X → Prop
  | nil : Unfolds cs .nil .nil
  | leaf {x} : Unfolds cs (.leaf x) (.leaf x)
  | bin {lev l r l' r'} : Unfolds cs l l' → Unfolds cs r r' → Unfolds cs (.bin lev l r) (.bin lev l' r')
  | name {n lev l r l' r'} : Unfolds cs l l' → Unfolds cs r r' → Unfolds cs (.name n lev l r) (.name n lev l' r')
  | art {n v t} : cs n = some v → Unfolds cs v t → Unfolds cs (.art (cellAt n)) (.art t)

/-- The names of the tree are distinct, and none is itself a fork of a name. -/
def GoodNames (t : Tree X) : Prop := (t.names.map Name.sym).Nodup ∧ ∀ n ∈ t.names, isFork n.sym = false

/-- A step of the session: some edits, then a demand of the sorted elements of a tree. -/
structure Step (X : Type) where
  edits : List (Edit X)
  tree : TV X

/-- The trees demanded in a session are the trees `ts`, with good names. -/
inductive Demands : Cells X → List (Step X) → List (Tree X) → Prop
  | nil {cs} : Demands cs [] []
  | cons {cs cs' s ss t ts} : applyAll cs s.edits = some cs' → Unfolds cs' s.tree t → GoodNames t → Demands cs' ss ts →
      Demands cs (s :: ss) (t :: ts)

/-- The code of the editor for one step: the edits, and then
`ns("sort", || get!(thunk!([Some(root)]? vec_of_list(mergesort_list_of_tree(t)))))`. -/
def editProg : List (Edit X) → Prog (CV X) → Prog (CV X)
  | [], k => k
  | .cell n t :: es, k => .cell tyT n (.tree t) fun _ => editProg es k
  | .set n t :: es, k => .set tyT (cellAt n) (.tree t) (editProg es k)
def stepProg (rn : Name) (s : Step X) : Prog (CV X) :=
  editProg s.edits <| .ns sortNm (.thunk tyV (.nominal rn) ppRoot fRoot (.tree s.tree) fun l => .force tyV l none .ret) .ret

/-! ### From the specification to the annotated trees -/

theorem Unfolds.annot {cs : Cells X} {σ : Store (CV X)} (hσ : ∀ n v, cs n = some v → σ (cellAt n) = some (.tree v)) {v : TV X} {t : Tree X}
    (h : Unfolds cs v t) : ∃ a : AT X, a.val = v ∧ a.erase = t ∧ LiveT false σ a := by
  induction h with
  | nil => exact ⟨.nil, rfl, rfl, trivial⟩
  | leaf => exact ⟨.leaf _, rfl, rfl, trivial⟩
  | bin _ _ ih1 ih2 =>
    obtain ⟨a, rfl, rfl, a3⟩ := ih1
    obtain ⟨b, rfl, rfl, b3⟩ := ih2
    exact ⟨.bin _ a b, rfl, rfl, a3, b3⟩
  | name _ _ ih1 ih2 =>
    obtain ⟨a, rfl, rfl, a3⟩ := ih1
    obtain ⟨b, rfl, rfl, b3⟩ := ih2
    exact ⟨.name _ _ a b, rfl, rfl, a3, b3⟩
  | @art n v t hn _ ih =>
    obtain ⟨a, rfl, rfl, a3⟩ := ih
    refine ⟨.art (cellAt n) a, rfl, rfl, ?_, hσ _ _ hn, a3⟩
    have : (cellAt n).path ≠ sortPath := by simp [cellAt, sortPath]
    simp [sigS, sigKind, this]; rfl

theorem plain_of_names (t : AT X) (h : ∀ n ∈ t.erase.names, isFork n.sym = false) : Plain t := by
  induction t with
  | nil => trivial
  | leaf x => trivial
  | art a t ih => exact ih h
  | bin lev l r ihl ihr =>
    rw [show (AT.bin lev l r).erase.names = l.erase.names ++ r.erase.names from Coll.Tree.names_bin ..] at h
    exact ⟨ihl fun n hn => h n (List.mem_append_left _ hn), ihr fun n hn => h n (List.mem_append_right _ hn)⟩
  | name m lev l r ihl ihr =>
    rw [show (AT.name m lev l r).erase.names = l.erase.names ++ m :: r.erase.names from Coll.Tree.names_name ..] at h
    exact ⟨h m (by simp), ihl fun n hn => h n (List.mem_append_left _ hn), ihr fun n hn => h n (by simp [hn])⟩

theorem LiveT.unique {σ : Store (CV X)} {t : AT X} : ∀ {t' : AT X}, LiveT false σ t → LiveT false σ t' → t.val = t'.val → t = t' := by
  induction t with
  | nil => intro t' _ _ e; cases t' <;> simp [AT.val] at e ⊢
  | leaf x => intro t' _ _ e; cases t' <;> simp [AT.val] at e ⊢; exact e
  | bin lev l r ihl ihr =>
    intro t' h h' e
    cases t' <;> simp [AT.val] at e
    rename_i lev' l' r'
    obtain ⟨rfl, e1, e2⟩ := e
    rw [ihl h.1 h'.1 e1, ihr h.2 h'.2 e2]
  | name n lev l r ihl ihr =>
    intro t' h h' e
    cases t' <;> simp [AT.val] at e
    rename_i n' lev' l' r'
    obtain ⟨rfl, rfl, e1, e2⟩ := e
    rw [ihl h.1 h'.1 e1, ihr h.2 h'.2 e2]
  | art a t ih =>
    intro t' h h' e
    cases t' <;> simp [AT.val] at e
    rename_i a' t'
    subst e
    have := h.2.1
    rw [h'.2.1] at this
    injection this with this
    injection this with this
    rw [ih h.2.2 h'.2.2 this.symm]

/-! ### The invariant of the editor's store -/

/-- Between the operations of the editor: it has allocated cells and the root only; what else there is was allocated by the sort of
the current root. -/
structure EdOk (rn : Name) (cs : Cells X) (e : ES (CV X)) : Prop where
  ext : Ext e.base e.cur
  clear : ∀ l, l ≠ loc rn → l.path ≠ .empty → e.base l = none
  cells : ∀ n v, cs n = some v → e.base (cellAt n) = some (.tree v)
  below : e.cur = e.base ∨ ∃ t : AT X, e.base (loc rn) = some (.tree t.val) ∧ LiveT false e.base t ∧ NamesOk t ∧ Below e.cur (world H le e.base t)

variable {H le} {rn : Name}

theorem EdOk.cl {cs : Cells X} {e : ES (CV X)} (hr : isFork rn.sym = false) (h : EdOk H le rn cs e) : Clear e.base := by
  intro n hn
  refine h.clear _ (fun e => ?_) (by simp [loc, sortPath])
  have := congrArg Loc.id e
  simp [loc] at this
  rw [this, hr] at hn; cases hn

/-- What is in the store and not from the editor is at a fork. -/
theorem EdOk.fork {cs : Cells X} {e : ES (CV X)} (h : EdOk H le rn cs e) {l : Loc} {v : CV X} (hc : e.cur l = some v) :
    e.base l = some v ∨ ∃ n, l = loc n ∧ isFork n.sym = true := by
  rcases h.below with h1 | ⟨t, h1, h2, h3, h4⟩
  · rw [← h1]; exact .inl hc
  · obtain ⟨k, hk⟩ := h4 _ _ hc
    unfold world at hk
    rcases hb : e.base l with _ | w
    · rw [hb] at hk
      simp only [Option.map_eq_some_iff] at hk
      obtain ⟨x, hx, _⟩ := hk
      have hm := List.mem_of_find?_eq_some hx
      have hl := List.find?_some hx
      simp at hl
      exact .inr ⟨x.1, hl.symm, ((asort_kinds t h3.1).2 x hm).1⟩
    · have := h.ext _ _ hb
      rw [hc] at this; cases this
      exact .inl rfl

/-- An edit of a cell or of the root. -/
theorem EdOk.edit {cs cs' : Cells X} {e : ES (CV X)} (hr : isFork rn.sym = false) (h : EdOk H le rn cs e) {l : Loc} {v : CV X}
    (hl : l = loc rn ∨ l.path = .empty) (hcs : ∀ n w, cs' n = some w → (Ref.edit e l v).base (cellAt n) = some (.tree w)) :
    EdOk H le rn cs' (Ref.edit e l v) ∧ (Ref.edit e l v).base l = some v := by
  have hnf : ∀ n, l = loc n → isFork n.sym = true → False := by
    intro n e1 e2
    rcases hl with rfl | hl
    · have := congrArg Loc.id e1
      simp [loc] at this
      rw [← this, hr] at e2; cases e2
    · rw [e1] at hl; simp [loc, sortPath] at hl
  have hclear : ∀ l', l' ≠ loc rn → l'.path ≠ .empty → (Ref.edit e l v).base l' = none := by
    intro l' h1 h2
    rw [Ref.edit_dec]
    simp only [Ref.upd]
    have : l' ≠ l := by
      rintro rfl
      rcases hl with hl | hl
      · exact h1 hl
      · exact h2 hl
    rw [if_neg this]
    exact h.clear l' h1 h2
  have hbl : (Ref.edit e l v).base l = some v := by rw [Ref.edit_dec]; simp [Ref.upd]
  refine ⟨?_, hbl⟩
  rcases hcl : e.cur l with _ | w
  · -- fresh
    have hb : e.base l = none := by
      rcases hb : e.base l with _ | w
      · rfl
      · have := h.ext _ _ hb; rw [hcl] at this; cases this
    have e1 : Ref.edit e l v = ⟨Ref.upd e.base l v, Ref.upd e.cur l v⟩ := by rw [Ref.edit_dec]; simp [hcl]
    have hext : Ext e.base (Ref.upd e.base l v) := by
      intro l' w hw
      simp only [Ref.upd]
      by_cases h' : l' = l
      · rw [h', hb] at hw; cases hw
      · rw [if_neg h']; exact hw
    refine ⟨?_, hclear, hcs, ?_⟩
    · rw [e1]
      intro l' w hw
      simp only [Ref.upd] at hw ⊢
      by_cases h' : l' = l
      · rw [if_pos h'] at hw ⊢; exact hw
      · rw [if_neg h'] at hw ⊢; exact h.ext _ _ hw
    · rw [e1]
      rcases h.below with h1 | ⟨t, h1, h2, h3, h4⟩
      · exact .inl (by rw [h1])
      · refine .inr ⟨t, hext _ _ h1, h2.ext hext, h3, ?_⟩
        intro l' w hw
        simp only [Ref.upd] at hw
        by_cases h' : l' = l
        · rw [if_pos h'] at hw
          subst h'; cases hw
          exact ⟨_, world_base (by simp [Ref.upd])⟩
        · rw [if_neg h'] at hw
          obtain ⟨k, hk⟩ := h4 _ _ hw
          refine ⟨k, ?_⟩
          unfold world at hk ⊢
          simp only [Ref.upd, if_neg h']
          exact hk
  · by_cases hwv : w = v
    · subst hwv
      have hb : e.base l = some w := by
        rcases h.fork hcl with h1 | ⟨n, h1, h2⟩
        · exact h1
        · exact absurd (hnf n h1 h2) id
      have e1 : Ref.edit e l w = e := by
        have u1 : Ref.upd e.base l w = e.base := by
          funext x; simp only [Ref.upd]; by_cases h' : x = l
          · rw [if_pos h', h', hb]
          · rw [if_neg h']
        have u2 : Ref.upd e.cur l w = e.cur := by
          funext x; simp only [Ref.upd]; by_cases h' : x = l
          · rw [if_pos h', h', hcl]
          · rw [if_neg h']
        rw [Ref.edit_dec]; simp [hcl, u1, u2]
      rw [e1] at hcs ⊢
      exact ⟨h.ext, h.clear, hcs, h.below⟩
    · have e1 : Ref.edit e l v = ⟨Ref.upd e.base l v, Ref.upd e.base l v⟩ := by rw [Ref.edit_dec]; simp [hcl, hwv]
      refine ⟨?_, hclear, hcs, ?_⟩
      · rw [e1]; exact fun _ _ h => h
      · rw [e1]; exact .inl rfl

/-- The cells after an edit of a cell. -/
theorem EdOk.cellEdit {cs : Cells X} {e : ES (CV X)} (hr : isFork rn.sym = false) (h : EdOk H le rn cs e) (n : Name) (t : TV X) :
    EdOk H le rn (fun m => if m = n then some t else cs m) (Ref.edit e (cellAt n) (.tree t)) := by
  refine (h.edit hr (.inr rfl) ?_).1
  intro m w hw
  rw [Ref.edit_dec]
  simp only [Ref.upd]
  by_cases hm : m = n
  · simp only [hm, if_true] at hw ⊢
    cases hw; rfl
  · rw [if_neg (by simpa [cellAt] using hm)]
    rw [if_neg hm] at hw
    exact h.cells _ _ hw

theorem sig_cellAt (n : Name) : (sigS false) (cellAt n) = .cell tyT := by
  have : (cellAt n).path ≠ sortPath := by simp [cellAt, sortPath]
  simp [sigS, sigKind, this]; rfl

variable {K : Coll.Hashes X} {hv : CV X → UInt64} {ha : ProgPt → CV X → UInt64}

/-- The edits of a step. -/
theorem edits_ok (hr : isFork rn.sym = false) (es : List (Edit X)) : ∀ (cs cs' : Cells X) (e : ES (CV X)), applyAll cs es = some cs' → EdOk H le rn cs e →
    ∃ e', EdOk H le rn cs' e' ∧ ∀ env R callE k, Ref.evalEd (sigS false) env R callE false .empty (editProg es k) e = Ref.evalEd (sigS false) env R callE false .empty k e' := by
  induction es with
  | nil => intro cs cs' e h1 h2; cases h1; exact ⟨e, h2, fun _ _ _ _ => rfl⟩
  | cons ed es ih =>
    intro cs cs' e h1 h2
    cases ed with
    | cell n t =>
      obtain ⟨e', i1, i2⟩ := ih _ _ _ h1 (h2.cellEdit hr n t)
      refine ⟨e', i1, fun env R callE k => ?_⟩
      rw [← i2]
      have hl : Ref.cellLoc env false .empty n (.tree t) = cellAt n := rfl
      simp only [editProg, Ref.evalEd, hl]
      rw [if_pos ⟨sig_cellAt n, rfl⟩]
    | set n t =>
      by_cases hs : (cs n).isSome
      · simp only [applyAll, Edit.apply, if_pos hs, Option.bind] at h1
        obtain ⟨e', i1, i2⟩ := ih _ _ _ h1 (h2.cellEdit hr n t)
        refine ⟨e', i1, fun env R callE k => ?_⟩
        rw [← i2]
        obtain ⟨w, hw⟩ := Option.isSome_iff_exists.1 hs
        have hc : e.cur (cellAt n) ≠ none := by rw [h2.ext _ _ (h2.cells _ _ hw)]; simp
        simp only [editProg, Ref.evalEd]
        rw [if_pos ⟨sig_cellAt n, hc, rfl⟩]
      · simp [applyAll, Edit.apply, hs] at h1

/-- The program allocates nothing structurally. -/
theorem keepStruct_world {base σ : Store (CV X)} {t : AT X} (he : Ext base σ) (hb : Below σ (world H le base t)) : Ref.keepStruct base σ = base := by
  funext l
  unfold Ref.keepStruct
  by_cases hl : l.isStruct = true
  · rw [if_pos hl]
    rcases hbl : base l with _ | v
    · rcases hσ : σ l with _ | v
      · rfl
      · obtain ⟨k, hk⟩ := hb l v hσ
        unfold world at hk
        rw [hbl] at hk
        rcases hf : (asort H le t).2.find? (fun x => decide (loc x.1 = l)) with _ | x
        · simp [hf] at hk
        · have := List.find?_some hf
          rw [← of_decide_eq_true this] at hl
          cases hl
    · exact he l v hbl
  · rw [if_neg hl]

/-- One step. -/
theorem step_ok (hr : isFork rn.sym = false) {cs cs' : Cells X} {e : ES (CV X)} {s : Step X} {t : Tree X} (h : EdOk H le rn cs e)
    (h1 : applyAll cs s.edits = some cs') (h2 : Unfolds cs' s.tree t) (h3 : GoodNames t) :
    ∃ N e', EdOk H le rn cs' e' ∧ ∀ n, N ≤ n →
      Ref.evalEd (sigS false) (env H le K hv ha) (Ref.recN (sigS false) (env H le K hv ha) n) (Ref.callEN (sigS false) (env H le K hv ha) n) false .empty (stepProg rn s) e =
        some (e', .vec (Coll.vecOfList (Coll.mergesort1 H le t) none)) := by
  obtain ⟨e1, a1, a2⟩ := edits_ok hr s.edits cs cs' e h1 h
  -- the root
  have hcs : ∀ n w, cs' n = some w → (Ref.edit e1 (loc rn) (.tree s.tree)).base (cellAt n) = some (.tree w) := by
    intro n w hw
    rw [Ref.edit_dec]
    simp only [Ref.upd]
    rw [if_neg (by simp [cellAt, loc, sortPath])]
    exact a1.cells _ _ hw
  obtain ⟨b1, b2⟩ := a1.edit hr (.inl rfl) hcs
  obtain ⟨a, a4, rfl, a5⟩ := h2.annot b1.cells
  obtain ⟨ses, st⟩ := s
  simp only at a4
  subst a4
  have hn : NamesOk a := ⟨plain_of_names a h3.2, h3.1⟩
  have hbel : Below (Ref.edit e1 (loc rn) (.tree a.val)).cur (world H le (Ref.edit e1 (loc rn) (.tree a.val)).base a) := by
    rcases b1.below with hb | ⟨t', t1, t2, t3, t4⟩
    · rw [hb]; exact fun l v hl => ⟨_, world_base hl⟩
    · rw [b2] at t1
      injection t1 with t1
      injection t1 with t1
      have := t2.unique a5 t1.symm
      rw [this] at t4; exact t4
  obtain ⟨N, σ', d1, d2, d3⟩ := demand_conv (K := K) (hv := hv) (ha := ha) hr (b1.cl hr) b2 a5 hn b1.ext hbel
  have hs : (sigS false) (loc rn) = .thunk tyV ppRoot fRoot := by
    have h2 : isFork2 rn.sym = false := by
      cases h : isFork2 rn.sym with
      | false => rfl
      | true => rw [isFork_of2 h] at hr; cases hr
    simp [sigS, sigKind, loc, hr, h2]
  refine ⟨N, ⟨(Ref.edit e1 (loc rn) (.tree a.val)).base, σ'⟩, ⟨b1.ext.trans d1, b1.clear, b1.cells, .inr ⟨a, b2, a5, hn, d2⟩⟩, fun n hnN => ?_⟩
  unfold stepProg
  rw [a2]
  have hs' : (sigS false) ⟨.child .empty sortNm, .nominal rn⟩ = .thunk tyV ppRoot fRoot := hs
  have hks : Ref.keepStruct (Ref.edit e1 (loc rn) (.tree a.val)).base σ' = (Ref.edit e1 (loc rn) (.tree a.val)).base := keepStruct_world (b1.ext.trans d1) d2
  have hd : Ref.demand (sigS false) (Ref.recN (sigS false) (env H le K hv ha) n) false tyV ⟨.child .empty sortNm, .nominal rn⟩ (Ref.edit e1 ⟨.child .empty sortNm, .nominal rn⟩ (.tree a.val)) =
      some (⟨(Ref.edit e1 (loc rn) (.tree a.val)).base, σ'⟩, .vec (Coll.vecOfList (Coll.mergesort1 H le a.erase) none)) := by
    have d3 : (Ref.recN (sigS false) (env H le K hv ha) n).frc [] (Ref.edit e1 ⟨.child .empty sortNm, .nominal rn⟩ (.tree a.val)).cur ⟨.child .empty sortNm, .nominal rn⟩ = _ := d3 n hnN
    have hmo : (sigS false).mode = false := rfl
    simp only [Ref.demand, hs', hmo, and_self, if_true, Ref.editorForce, d3]
    rw [← hks]
    rfl
  have hl : Ref.thunkLoc (env H le K hv ha) false (.child .empty sortNm) (.nominal rn) ppRoot (.tree a.val) = some (loc rn) := rfl
  simp only [Ref.evalEd, hl]
  rw [if_pos ⟨hs, rfl⟩]
  rw [show Ref.demand (sigS false) (Ref.recN (sigS false) (env H le K hv ha) n) false tyV (loc rn) (Ref.edit e1 (loc rn) (.tree a.val)) = _ from hd]

theorem session_means (hr : isFork rn.sym = false) (ss : List (Step X)) : ∀ (cs : Cells X) (ts : List (Tree X)) (e : ES (CV X)), Demands cs ss ts → EdOk H le rn cs e →
    ∃ N e', ∀ n, N ≤ n → Ref.session (sigS false) (env H le K hv ha) n (ss.map (stepProg rn)) e =
      some (e', ts.map fun t => .vec (Coll.vecOfList (Coll.mergesort1 H le t) none)) := by
  induction ss with
  | nil => intro cs ts e h he; cases h; exact ⟨0, e, fun _ _ => rfl⟩
  | cons s ss ih =>
    intro cs ts e h he
    cases h with
    | cons h1 h2 h3 h4 =>
      obtain ⟨N, e1, s1, s2⟩ := step_ok (K := K) (hv := hv) (ha := ha) hr he h1 h2 h3
      obtain ⟨N', e2, i⟩ := ih _ _ e1 h4 s1
      refine ⟨max N N', e2, fun n hn => ?_⟩
      simp only [List.map_cons, Ref.session]
      rw [show (sigS false).mode = false from rfl, s2 n (by omega)]
      simp only [i n (by omega)]

/-- The sessions have a meaning. -/
theorem sort_session_means (hr : isFork rn.sym = false) (ss : List (Step X)) (ts : List (Tree X)) (h : Demands (fun _ => none) ss ts) :
    Means (sigS false) (env H le K hv ha) (ss.map (stepProg rn)) (ts.map fun t => .vec (Coll.vecOfList (Coll.mergesort1 H le t) none)) := by
  have he : EdOk H le rn (fun _ => none) (Ref.emptyES : ES (CV X)) :=
    ⟨(fun _ _ h => by cases h), fun _ _ _ => rfl, (fun _ _ h => by cases h), .inl rfl⟩
  obtain ⟨N, e, hN⟩ := session_means hr ss _ ts _ h he
  exact ⟨N, e, hN N (Nat.le_refl _)⟩

/-- **C63.** Sorting on the engine.  The editor edits cells that hold trees, in any way, and demands `vec_of_list(mergesort_list_of_tree(t))`, again and again.
If at each demand the articulations of the tree can be followed to the end, and the names in it are distinct and not forks, then the engine
terminates without panic and returns, at each demand, the elements of the tree as it is then, sorted. -/
theorem C63_sort_session (ho : Coll.TotalOrder le) (hr : isFork rn.sym = false) (ss : List (Step X)) (ts : List (Tree X))
    (h : Demands (fun _ => none) ss ts) (purity : Bool) :
    ∃ vs : List (List (NameElse X)), vs.length = ts.length ∧ (∀ p ∈ ts.zip vs, Coll.SortOf le p.1.leaves (Coll.elmsOf p.2)) ∧
      (∃ N s', ∀ n, N ≤ n → runSession (env H le K hv ha) n (ss.map (stepProg rn)) (initSt purity false) = .ok (vs.map .vec) s') ∧
      (∀ n err s', runSession (env H le K hv ha) n (ss.map (stepProg rn)) (initSt purity false) ≠ .panic err s') ∧
      ∀ n vs' s', runSession (env H le K hv ha) n (ss.map (stepProg rn)) (initSt purity false) = .ok vs' s' → vs' = vs.map .vec := by
  have hm := sort_session_means (H := H) (le := le) (K := K) (hv := hv) (ha := ha) hr ss ts h
  refine ⟨ts.map fun t => Coll.vecOfList (Coll.mergesort1 H le t) none, by simp, ?_, ?_, ?_, ?_⟩
  · clear hm h
    induction ts with
    | nil => intro p hp; cases hp
    | cons t ts ih =>
      intro p hp
      simp only [List.map_cons, List.zip_cons_cons] at hp
      rcases List.mem_cons.1 hp with rfl | hp
      · have := Coll.mergesort1_sorts H le ho t
        unfold Coll.Lst.elems at this
        rw [← (Coll.vec_of_list_items _).1] at this
        exact this
      · exact ih p hp
  · rw [List.map_map]
    exact (C02_terminates_without_panic (sigS false) (env H le K hv ha) _ _ hm purity fun _ => rfl).1
  · exact (C02_terminates_without_panic (sigS false) (env H le K hv ha) _ _ hm purity fun _ => rfl).2
  · intro n vs' s' he
    rw [List.map_map]
    exact C01_from_scratch_consistency (sigS false) (env H le K hv ha) _ _ hm purity (fun _ => rfl) n vs' s' he

/-! ### A session that meets the hypotheses

The tree `name 1 ⟨cell 10⟩ (name 2 (leaf 6) ⟨cell 11⟩)`, of which the cells are edited between demands. -/
end Adapton.SortProg
namespace Adapton.SortProg.Example63
open Coll (Tree)
def H : NameHash := ⟨fun a b => a + 3 * b, fun n => n.toUInt64, fun _ => 0, fun _ => 7, fun h i => 5 * h + i.toUInt64⟩
def nm (n : Nat) : Name := nameOfUsize H n
def le (a b : Nat) : Bool := decide (a ≤ b)
def K : Coll.Hashes Nat := ⟨fun n => n.toUInt64, fun n => n.hash⟩
def theTree : TV Nat := .name (nm 1) 3 (.art (cellAt (nm 10))) (.name (nm 2) 2 (.leaf 6) (.art (cellAt (nm 11))))
def steps : List (Step Nat) :=
  [⟨[.cell (nm 10) (.leaf 8), .cell (nm 11) (.bin 1 (.leaf 7) (.leaf 3))], theTree⟩,
   ⟨[.set (nm 11) (.bin 1 (.leaf 9) (.leaf 1))], theTree⟩,
   ⟨[.cell (nm 12) (.name (nm 3) 1 (.leaf 5) .nil), .cell (nm 10) (.bin 2 (.art (cellAt (nm 12))) (.leaf 2))], theTree⟩]
def trees : List (Tree Nat) :=
  [.name (nm 1) 3 (.art (.leaf 8)) (.name (nm 2) 2 (.leaf 6) (.art (.bin 1 (.leaf 7) (.leaf 3)))),
   .name (nm 1) 3 (.art (.leaf 8)) (.name (nm 2) 2 (.leaf 6) (.art (.bin 1 (.leaf 9) (.leaf 1)))),
   .name (nm 1) 3 (.art (.bin 2 (.art (.name (nm 3) 1 (.leaf 5) .nil)) (.leaf 2))) (.name (nm 2) 2 (.leaf 6) (.art (.bin 1 (.leaf 9) (.leaf 1))))]

example : Coll.TotalOrder le := ⟨fun a b => by simp [le]; omega, fun a b c => by simp [le]; omega⟩
example : isFork (nm 0).sym = false := rfl
theorem meets : Demands (fun _ => none) steps trees := by
  refine .cons rfl (.name (.art rfl .leaf) (.name .leaf (.art rfl (.bin .leaf .leaf)))) ⟨by decide, by decide⟩ ?_
  refine .cons rfl (.name (.art rfl .leaf) (.name .leaf (.art rfl (.bin .leaf .leaf)))) ⟨by decide, by decide⟩ ?_
  refine .cons rfl (.name (.art rfl (.bin (.art rfl (.name .leaf .nil)) .leaf)) (.name .leaf (.art rfl (.bin .leaf .leaf)))) ⟨by decide, by decide⟩ ?_
  exact .nil

/-- What the engine returns in this session: the elements. -/
def elems : CV Nat → List Nat
  | .vec v => Coll.elmsOf v
  | _ => []
example : (match runSession (env H le K (fun _ => 0) (fun _ _ => 0)) 40 (steps.map (stepProg (nm 0))) (initSt true false) with
    | .ok vs _ => vs.map elems
    | _ => []) = [[3, 6, 7, 8], [1, 6, 8, 9], [1, 2, 5, 6, 9]] := by decide +kernel

/-! ### `mergesort_list_of_tree2`

The merges of `mergesort_list_of_tree2` use a name of the tree twice (C62): on the engine the second allocation replaces the first thunk, and the list
becomes a cycle. -/

/-- `list_demand(mergesort_list_of_tree2(name 7 (leaf 4) (bin (bin (leaf 5) (leaf 6)) (leaf 3)), None), limit)`. -/
def prog2 (limit : Nat) : Prog (CV Nat) :=
  .ns sortNm (main2 (.name (nm 7) 3 (.leaf 4) (.bin 2 (.bin 1 (.leaf 5) (.leaf 6)) (.leaf 3))) none limit) .ret

/-- **C63**, the other sort: the engine does not sort; the element 6 is lost and 4 and 5 come again and again. -/
theorem C63_mergesort2_does_not_sort : (match runSession (env H le K (fun _ => 0) (fun _ _ => 0)) 60 [prog2 11] (initSt true false) with
    | .ok vs _ => vs.map elems
    | _ => []) = [[3, 4, 5, 4, 5, 4, 5]] := by decide +kernel

end Adapton.SortProg.Example63
