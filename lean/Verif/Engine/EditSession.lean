import Verif.Engine.Conv
import Verif.Props.Consistency
/-
Sessions in which an editor edits cells and then demands one thunk, again and again, in general: what is needed of the program of that thunk so that
the sessions have a meaning in the reference semantics.  Used for the programs of the catalog.
-/
set_option linter.unusedSectionVars false
set_option linter.unusedVariables false
namespace Adapton.EditSession
open Ref (Sig Kind Store Ctx Ext ES Means alloc)
variable {V : Type} [DecidableEq V]

/-- What will have been allocated when everything is demanded, with ranks: a thunk forces only thunks of smaller rank. -/
abbrev World (V : Type) := Loc → Option (V × Nat)

/-- Everything in the store is as in the world. -/
def Below (σ : Store V) (W : World V) : Prop := ∀ l v, σ l = some v → ∃ k, W l = some (v, k)

/-- The thunks being evaluated have rank at least `k`. -/
def AncOk (W : World V) (c : Ctx) (k : Nat) : Prop := ∀ a ∈ c.anc, ∃ v j, W a = some (v, j) ∧ k ≤ j

variable {W : World V} {σ σ' : Store V}

theorem AncOk.mono {c : Ctx} {k j : Nat} (h : AncOk W c k) (hj : j ≤ k) : AncOk W c j := by
  intro a ha
  obtain ⟨v, i, h1, h2⟩ := h a ha
  exact ⟨v, i, h1, Nat.le_trans hj h2⟩

theorem AncOk.cons {c : Ctx} {k j : Nat} {a : Loc} {v : V} (h : AncOk W c k) (hw : W a = some (v, j)) (hj : j ≤ k) : AncOk W ⟨a, a :: c.anc⟩ j := by
  intro b hb
  rcases List.mem_cons.1 hb with rfl | hb
  · exact ⟨v, j, hw, Nat.le_refl _⟩
  · exact h.mono hj b hb

theorem AncOk.not_mem {c : Ctx} {k j : Nat} {a : Loc} {v : V} (h : AncOk W c k) (hw : W a = some (v, j)) (hj : j < k) : a ∉ c.anc := by
  intro hm
  obtain ⟨w, i, h1, h2⟩ := h a hm
  rw [hw] at h1
  cases h1
  omega

/-- Allocating what the world has. -/
theorem alloc_below (hb : Below σ W) {l : Loc} {v : V} {k : Nat} (hw : W l = some (v, k)) :
    ∃ σ1, alloc σ l v = some σ1 ∧ Ext σ σ1 ∧ Below σ1 W ∧ σ1 l = some v := by
  have key : ∃ σ1, alloc σ l v = some σ1 := by
    rw [Ref.alloc_dec]
    rcases h : σ l with _ | w
    · exact ⟨_, rfl⟩
    · obtain ⟨j, hj⟩ := hb l w h
      rw [hw] at hj
      cases hj
      simp
  obtain ⟨σ1, h1⟩ := key
  obtain ⟨h2, h3⟩ := Ref.alloc_ext h1
  refine ⟨σ1, h1, h2, ?_, h3⟩
  intro x w hx
  rw [Ref.alloc_dec] at h1
  rcases h : σ l with _ | u
  · rw [h] at h1
    cases h1
    unfold Ref.upd at hx
    split at hx
    · rename_i hxl
      cases hx
      subst hxl
      exact ⟨k, hw⟩
    · exact hb x w hx
  · rw [h] at h1
    simp only at h1
    split at h1
    · cases h1; exact hb x w hx
    · cases h1

/-! ### What the editor does -/

/-- What the editor has put into its cells. -/
abbrev Cells (V : Type) := Name → Option V

/-- One edit: `cell(name, v)`, or `set(art, v)` of a cell that exists. -/
inductive Edit (V : Type) where
  | cell (n : Name) (v : V)
  | set (n : Name) (v : V)

/-- The cells after an edit; `set` needs the cell to exist. -/
def Edit.apply (cs : Cells V) : Edit V → Option (Cells V)
  | .cell n l => some fun m => if m = n then some l else cs m
  | .set n l => if (cs n).isSome then some fun m => if m = n then some l else cs m else none
def applyAll (cs : Cells V) : List (Edit V) → Option (Cells V)
  | [] => some cs
  | e :: es => (e.apply cs).bind fun cs' => applyAll cs' es

/-- The cells of the editor are at the root namespace. -/
def cellAt (n : Name) : Loc := ⟨.empty, .nominal n⟩

/-- A step of the session: some edits, then a demand with an argument. -/
structure Step (V : Type) where
  edits : List (Edit V)
  arg : V

/-- A thunk that the editor demands. -/
structure Root (V : Type) [DecidableEq V] where
  sig : Sig
  env : Env V
  /-- it is allocated in this namespace, -/
  ns : Name
  /-- under this name -/
  rn : Name
  ty : Ty
  pp : ProgPt
  fn : FnId
  /-- the type of the cells of the editor -/
  cty : Ty
  /-- a demand, with the contents of the cells that it reads -/
  D : Type
  arg : D → V
  res : D → V
  rank : D → Nat
  allocs : D → List (Loc × V × Nat)
  /-- the cells hold what the demand says, and all is well -/
  ok : Cells V → D → Prop

/-- The location of the thunk. -/
def Root.loc (R : Root V) : Loc := ⟨.child .empty R.ns, .nominal R.rn⟩

/-- The world of a demand. -/
def Root.world (R : Root V) (base : Store V) (d : R.D) : World V := fun l =>
  match base l with
  | some v => some (v, R.rank d)
  | none => ((R.allocs d).find? fun x => decide (x.1 = l)).map Prod.snd

/-- What the program must satisfy. -/
structure Root.Lawful (R : Root V) : Prop where
  mode : R.sig.mode = false ∧ ∀ l, R.sig.only l = true
  sig_root : R.sig R.loc = .thunk R.ty R.pp R.fn
  sig_cell : ∀ n, R.sig (cellAt n) = .cell R.cty
  ext : ∀ cs cs' d, (∀ n v, cs n = some v → cs' n = some v) → R.ok cs d → R.ok cs' d
  unique : ∀ cs d d', R.ok cs d → R.ok cs d' → R.arg d = R.arg d' → d = d'
  nodup : ∀ cs d, R.ok cs d → ((R.allocs d).map Prod.fst).Nodup
  away : ∀ cs d, R.ok cs d → ∀ x ∈ R.allocs d, x.1.path ≠ .empty ∧ x.1 ≠ R.loc ∧ x.1.isStruct = false
  conv : ∀ cs d, R.ok cs d → ∀ (W : World V) (σ : Store V), (∀ n v, cs n = some v → σ (cellAt n) = some v) → (∀ x ∈ R.allocs d, W x.1 = some x.2) → Below σ W →
    W R.loc = some (R.arg d, R.rank d) →
    Conv R.sig R.env ⟨R.loc, [R.loc]⟩ R.loc.path (R.env.code R.fn (R.arg d)) σ fun σ' v => Ext σ σ' ∧ Below σ' W ∧ v = R.res d

/-- The code of the editor for one step: the edits, and then `ns(…, || get!(thunk!([Some(rn)]? f ; arg)))`. -/
def editProg (cty : Ty) : List (Edit V) → Prog V → Prog V
  | [], k => k
  | .cell n l :: es, k => .cell cty n l fun _ => editProg cty es k
  | .set n l :: es, k => .set cty (cellAt n) l (editProg cty es k)
def Root.stepProg (R : Root V) (s : Step V) : Prog V :=
  editProg R.cty s.edits <| .ns R.ns (.thunk R.ty (.nominal R.rn) R.pp R.fn s.arg fun l => .force R.ty l none .ret) .ret

/-- The demands of a session. -/
inductive Root.Demands (R : Root V) : Cells V → List (Step V) → List R.D → Prop
  | nil {cs} : Demands R cs [] []
  | cons {cs cs' s ss d ds} : applyAll cs s.edits = some cs' → R.ok cs' d → R.arg d = s.arg → Demands R cs' ss ds → Demands R cs (s :: ss) (d :: ds)

/-! ### The world -/

variable {R : Root V} (hR : R.Lawful) {base : Store V} {d : R.D} {cs cs' : Cells V} {e : ES V}

theorem find_nodup {as : List (Loc × V × Nat)} (hnd : (as.map Prod.fst).Nodup) {x : Loc × V × Nat} (hx : x ∈ as) :
    as.find? (fun y => decide (y.1 = x.1)) = some x := by
  induction as with
  | nil => cases hx
  | cons y as ih =>
    rw [List.map_cons, List.nodup_cons] at hnd
    rcases List.mem_cons.1 hx with rfl | hx
    · simp
    · have hne : y.1 ≠ x.1 := fun e => hnd.1 (e ▸ List.mem_map.2 ⟨x, hx, rfl⟩)
      rw [List.find?_cons_of_neg (by simpa using hne)]
      exact ih hnd.2 hx

theorem world_base {l : Loc} {v : V} (h : base l = some v) : R.world base d l = some (v, R.rank d) := by
  simp only [Root.world, h]

theorem world_none {l : Loc} {v : V} {k : Nat} (h : base l = none) (hk : R.world base d l = some (v, k)) : ∃ x ∈ R.allocs d, x.1 = l := by
  simp only [Root.world, h, Option.map_eq_some_iff] at hk
  obtain ⟨x, hx, _⟩ := hk
  exact ⟨x, List.mem_of_find?_eq_some hx, by simpa using List.find?_some hx⟩

include hR
theorem world_allocs (hok : R.ok cs d) (hcl : ∀ l, l ≠ R.loc → l.path ≠ .empty → base l = none) : ∀ x ∈ R.allocs d, R.world base d x.1 = some x.2 := by
  intro x hx
  obtain ⟨h1, h2, -⟩ := hR.away cs d hok x hx
  simp only [Root.world, hcl _ h2 h1, find_nodup (hR.nodup cs d hok) hx, Option.map_some]

/-! ### The invariant of the editor's store -/
omit hR in
/-- The cells in a store. -/
def cellsIn (σ : Store V) : Cells V := fun n => σ (cellAt n)

omit hR in
/-- Between the operations of the editor: it has allocated cells and the thunk only; what else there is was allocated by the demand of the thunk. -/
structure EdOk (R : Root V) (cs : Cells V) (e : ES V) : Prop where
  ext : Ext e.base e.cur
  clear : ∀ l, l ≠ R.loc → l.path ≠ .empty → e.base l = none
  cells : ∀ n v, cs n = some v → e.base (cellAt n) = some v
  below : e.cur = e.base ∨ ∃ d : R.D, e.base R.loc = some (R.arg d) ∧ R.ok (cellsIn e.base) d ∧ Below e.cur (R.world e.base d)

theorem EdOk.edit (h : EdOk R cs e) {l : Loc} {v : V} (hl : l = R.loc ∨ l.path = .empty)
    (hcs : ∀ n w, cs' n = some w → (Ref.edit e l v).base (cellAt n) = some w) : EdOk R cs' (Ref.edit e l v) ∧ (Ref.edit e l v).base l = some v := by
  have hclear : ∀ l', l' ≠ R.loc → l'.path ≠ .empty → (Ref.edit e l v).base l' = none := by
    intro l' h1 h2
    rw [Ref.edit_dec]
    simp only [Ref.upd]
    have : l' ≠ l := by
      rintro rfl
      rcases hl with hl | hl
      · exact h1 hl
      · exact h2 hl
    rw [if_neg this]
    exact h.clear l' h1 h2
  have hbl : (Ref.edit e l v).base l = some v := by rw [Ref.edit_dec]; simp [Ref.upd]
  refine ⟨?_, hbl⟩
  rcases hcl : e.cur l with _ | w
  · have hb : e.base l = none := by
      rcases hb : e.base l with _ | w
      · rfl
      · have := h.ext _ _ hb; rw [hcl] at this; cases this
    have e1 : Ref.edit e l v = ⟨Ref.upd e.base l v, Ref.upd e.cur l v⟩ := by rw [Ref.edit_dec]; simp [hcl]
    have hext : Ext e.base (Ref.upd e.base l v) := by
      intro l' w hw
      simp only [Ref.upd]
      by_cases h' : l' = l
      · rw [h', hb] at hw; cases hw
      · rw [if_neg h']; exact hw
    refine ⟨?_, hclear, hcs, ?_⟩
    · rw [e1]
      intro l' w hw
      simp only [Ref.upd] at hw ⊢
      by_cases h' : l' = l
      · rw [if_pos h'] at hw ⊢; exact hw
      · rw [if_neg h'] at hw ⊢; exact h.ext _ _ hw
    · rw [e1]
      rcases h.below with h1 | ⟨d, h1, h2, h4⟩
      · exact .inl (by rw [h1])
      · refine .inr ⟨d, hext _ _ h1, hR.ext _ _ _ (fun n v hv => hext _ _ hv) h2, ?_⟩
        intro l' w hw
        simp only [Ref.upd] at hw
        by_cases h' : l' = l
        · rw [if_pos h'] at hw
          subst h'; cases hw
          exact ⟨_, world_base (by simp [Ref.upd])⟩
        · rw [if_neg h'] at hw
          obtain ⟨k, hk⟩ := h4 _ _ hw
          refine ⟨k, ?_⟩
          unfold Root.world at hk ⊢
          simp only [Ref.upd, if_neg h']
          exact hk
  · by_cases hwv : w = v
    · subst hwv
      have hb : e.base l = some w := by
        rcases hb : e.base l with _ | u
        · rcases h.below with h1 | ⟨d, h1, h2, h4⟩
          · rw [h1, hb] at hcl; cases hcl
          · obtain ⟨k, hk⟩ := h4 _ _ hcl
            obtain ⟨x, hx, rfl⟩ := world_none hb hk
            obtain ⟨a1, a2, -⟩ := hR.away _ _ h2 x hx
            rcases hl with hl | hl
            · exact absurd hl a2
            · exact absurd hl a1
        · have := h.ext _ _ hb
          rw [hcl] at this; cases this; rfl
      have e1 : Ref.edit e l w = e := by
        have u1 : Ref.upd e.base l w = e.base := by
          funext x; simp only [Ref.upd]; by_cases h' : x = l
          · rw [if_pos h', h', hb]
          · rw [if_neg h']
        have u2 : Ref.upd e.cur l w = e.cur := by
          funext x; simp only [Ref.upd]; by_cases h' : x = l
          · rw [if_pos h', h', hcl]
          · rw [if_neg h']
        rw [Ref.edit_dec]; simp [hcl, u1, u2]
      rw [e1] at hcs ⊢
      exact ⟨h.ext, h.clear, hcs, h.below⟩
    · have e1 : Ref.edit e l v = ⟨Ref.upd e.base l v, Ref.upd e.base l v⟩ := by rw [Ref.edit_dec]; simp [hcl, hwv]
      refine ⟨?_, hclear, hcs, ?_⟩
      · rw [e1]; exact fun _ _ h => h
      · rw [e1]; exact .inl rfl

theorem EdOk.cellEdit (h : EdOk R cs e) (n : Name) (l : V) : EdOk R (fun m => if m = n then some l else cs m) (Ref.edit e (cellAt n) l) := by
  refine (h.edit hR (.inr rfl) ?_).1
  intro m w hw
  rw [Ref.edit_dec]
  simp only [Ref.upd]
  by_cases hm : m = n
  · simp only [hm, if_true] at hw ⊢
    cases hw; rfl
  · rw [if_neg (by simpa [cellAt] using hm)]
    rw [if_neg hm] at hw
    exact h.cells _ _ hw

/-- The edits of a step. -/
theorem edits_ok (es : List (Edit V)) : ∀ (cs cs' : Cells V) (e : ES V), applyAll cs es = some cs' → EdOk R cs e →
    ∃ e', EdOk R cs' e' ∧ ∀ env R' callE k, Ref.evalEd R.sig env R' callE false .empty (editProg R.cty es k) e = Ref.evalEd R.sig env R' callE false .empty k e' := by
  induction es with
  | nil => intro cs cs' e h1 h2; cases h1; exact ⟨e, h2, fun _ _ _ _ => rfl⟩
  | cons ed es ih =>
    intro cs cs' e h1 h2
    cases ed with
    | cell n t =>
      obtain ⟨e', i1, i2⟩ := ih _ _ _ h1 (h2.cellEdit hR n t)
      refine ⟨e', i1, fun env R callE k => ?_⟩
      rw [← i2]
      have hl : Ref.cellLoc env false .empty n t = cellAt n := rfl
      simp only [editProg, Ref.evalEd, hl]
      rw [if_pos ⟨hR.sig_cell n, rfl⟩]
    | set n t =>
      by_cases hs : (cs n).isSome
      · simp only [applyAll, Edit.apply, if_pos hs, Option.bind] at h1
        obtain ⟨e', i1, i2⟩ := ih _ _ _ h1 (h2.cellEdit hR n t)
        refine ⟨e', i1, fun env R callE k => ?_⟩
        rw [← i2]
        obtain ⟨w, hw⟩ := Option.isSome_iff_exists.1 hs
        have hc : e.cur (cellAt n) ≠ none := by rw [h2.ext _ _ (h2.cells _ _ hw)]; simp
        simp only [editProg, Ref.evalEd]
        rw [if_pos ⟨hR.sig_cell n, hc, rfl⟩]
      · simp [applyAll, Edit.apply, hs] at h1

/-- The program allocates nothing structurally. -/
theorem keepStruct_world {base σ : Store V} (hok : R.ok cs d) (he : Ext base σ) (hb : Below σ (R.world base d)) : Ref.keepStruct base σ = base := by
  funext l
  unfold Ref.keepStruct
  by_cases hl : l.isStruct = true
  · rw [if_pos hl]
    rcases hbl : base l with _ | v
    · rcases hσ : σ l with _ | v
      · rfl
      · obtain ⟨k, hk⟩ := hb l v hσ
        obtain ⟨x, hx, rfl⟩ := world_none hbl hk
        rw [(hR.away _ _ hok x hx).2.2] at hl
        cases hl
    · exact he l v hbl
  · rw [if_neg hl]

/-- One step. -/
theorem step_ok {s : Step V} (h : EdOk R cs e) (h1 : applyAll cs s.edits = some cs') (h2 : R.ok cs' d) (h3 : R.arg d = s.arg) :
    ∃ N e', EdOk R cs' e' ∧ (e'.base R.loc = some (R.arg d) ∧ R.ok (cellsIn e'.base) d ∧ Below e'.cur (R.world e'.base d)) ∧ ∀ n, N ≤ n →
      Ref.evalEd R.sig R.env (Ref.recN R.sig R.env n) (Ref.callEN R.sig R.env n) false .empty (R.stepProg s) e = some (e', R.res d) := by
  obtain ⟨e1, a1, a2⟩ := edits_ok hR s.edits cs cs' e h1 h
  have hcs : ∀ n w, cs' n = some w → (Ref.edit e1 R.loc s.arg).base (cellAt n) = some w := by
    intro n w hw
    rw [Ref.edit_dec]
    simp only [Ref.upd]
    rw [if_neg (by simp [cellAt, Root.loc])]
    exact a1.cells _ _ hw
  obtain ⟨b1, b2⟩ := a1.edit hR (.inl rfl) hcs
  obtain ⟨ses, sarg⟩ := s
  simp only at h3 h1 a2 hcs b1 b2
  subst h3
  have hok : R.ok (cellsIn (Ref.edit e1 R.loc (R.arg d)).base) d := hR.ext _ _ _ b1.cells h2
  have hbel : Below (Ref.edit e1 R.loc (R.arg d)).cur (R.world (Ref.edit e1 R.loc (R.arg d)).base d) := by
    rcases b1.below with hb | ⟨d', t1, t2, t4⟩
    · rw [hb]; exact fun l v hl => ⟨_, world_base hl⟩
    · rw [b2] at t1
      injection t1 with t1
      cases hR.unique _ _ _ hok t2 t1
      exact t4
  have hconv := hR.conv _ _ hok (R.world (Ref.edit e1 R.loc (R.arg d)).base d) (Ref.edit e1 R.loc (R.arg d)).cur (fun n v hv => b1.ext _ _ hv)
    (world_allocs hR hok b1.clear) hbel (world_base b2)
  obtain ⟨N, σ', v, ⟨d1, d2, rfl⟩, d3⟩ := Conv.frc hR.sig_root (b1.ext _ _ b2) hR.mode rfl hconv
  refine ⟨N, ⟨(Ref.edit e1 R.loc (R.arg d)).base, σ'⟩, ⟨b1.ext.trans d1, b1.clear, b1.cells, .inr ⟨d, b2, hok, d2⟩⟩, ⟨b2, hok, d2⟩, fun n hnN => ?_⟩
  unfold Root.stepProg
  rw [a2]
  have hks : Ref.keepStruct (Ref.edit e1 R.loc (R.arg d)).base σ' = (Ref.edit e1 R.loc (R.arg d)).base := keepStruct_world hR hok (b1.ext.trans d1) d2
  have hd : Ref.demand R.sig (Ref.recN R.sig R.env n) false R.ty R.loc (Ref.edit e1 R.loc (R.arg d)) =
      some (⟨(Ref.edit e1 R.loc (R.arg d)).base, σ'⟩, R.res d) := by
    simp only [Ref.demand, hR.sig_root, hR.mode.1, and_self, if_true, Ref.editorForce, d3 n hnN]
    show some (_, _) = _
    rw [hks]
  have hl : Ref.thunkLoc R.env false (.child .empty R.ns) (.nominal R.rn) R.pp (R.arg d) = some R.loc := rfl
  simp only [Ref.evalEd, hl]
  rw [if_pos ⟨hR.sig_root, rfl⟩]
  rw [hd]

theorem session_means (ss : List (Step V)) : ∀ (cs : Cells V) (ds : List R.D) (e : ES V), R.Demands cs ss ds → EdOk R cs e →
    ∃ N e', ∀ n, N ≤ n → Ref.session R.sig R.env n (ss.map R.stepProg) e = some (e', ds.map R.res) := by
  induction ss with
  | nil => intro cs ts e h he; cases h; exact ⟨0, e, fun _ _ => rfl⟩
  | cons s ss ih =>
    intro cs ts e h he
    cases h with
    | cons h1 h2 h3 h4 =>
      obtain ⟨N, e1, s1, -, s2⟩ := step_ok hR he h1 h2 h3
      obtain ⟨N', e2, i⟩ := ih _ _ e1 h4 s1
      refine ⟨max N N', e2, fun n hn => ?_⟩
      simp only [List.map_cons, Ref.session]
      rw [hR.mode.1, s2 n (by omega)]
      simp only [i n (by omega)]

/-- The sessions have a meaning. -/
theorem means (ss : List (Step V)) (ds : List R.D) (h : R.Demands (fun _ => none) ss ds) : Means R.sig R.env (ss.map R.stepProg) (ds.map R.res) := by
  have he : EdOk R (fun _ => none) (Ref.emptyES : ES V) := ⟨(fun _ _ h => by cases h), fun _ _ _ => rfl, (fun _ _ h => by cases h), .inl rfl⟩
  obtain ⟨N, e, hN⟩ := session_means hR ss _ ds _ h he
  exact ⟨N, e, hN N (Nat.le_refl _)⟩

end Adapton.EditSession
