import Verif.Engine.Act
import Verif.Engine.EditSession
import Verif.Props.MergeEngine
import Verif.Props.ListEngine
import Verif.Props.FoldEngine
import Verif.Props.TrieEngine
import Verif.Props.RecEngine
/-
C88: what the editor runs itself, outside of any thunk.  The programs of the catalog are often called directly by the editor (as in `test_engine_alternation`); their thunks and cells are then
allocated, used again and changed by the editor, and what an earlier part of the program has made is used by a later part, after such changes.
-/
set_option linter.unusedSectionVars false
set_option linter.unusedVariables false
namespace Adapton
open Ref (Sig Kind Store Ctx Ext ES Means upd)
variable {V : Type} [DecidableEq V]

theorem Acts.run {sig : Sig} {env : Env V} {ps : List (Prog V)} {vs : List V} {τ : Store V} (h : Acts sig env ps (fun _ => none) vs τ) (purity : Bool) (hp : purity = true → sig.pu = true) :
    ∃ N s', ∀ n, N ≤ n → runSession env n ps (initSt purity sig.mode) = .ok vs s' := by
  have hle : Ref.SigLe sig (sig.withPu purity) := ⟨fun _ => rfl, rfl, hp, fun _ => id⟩
  obtain ⟨s', N, h1, _⟩ := (h.le hle).engine (initSt purity sig.mode) (EInv.init (sig.withPu purity) env) rfl rfl
  exact ⟨N, s', h1⟩

/-- C88: every session that `Act` explains ends without panic, with the results that it says.  `Act` lets the editor use what thunks have allocated for as long as it is there, whatever was edited since. -/
theorem C88_editor_actions (sig : Sig) (env : Env V) (ps : List (Prog V)) (vs : List V) (τ : Store V) (h : Acts sig env ps (fun _ => none) vs τ) (purity : Bool) (hp : purity = true → sig.pu = true) :
    (∃ N s', ∀ n, N ≤ n → runSession env n ps (initSt purity sig.mode) = .ok vs s') ∧
    (∀ n err s', runSession env n ps (initSt purity sig.mode) ≠ .panic err s') ∧
    ∀ n vs' s', runSession env n ps (initSt purity sig.mode) = .ok vs' s' → vs' = vs := by
  obtain ⟨N, s2, h1⟩ := h.run purity hp
  refine ⟨⟨N, s2, h1⟩, ?_, ?_⟩
  · intro n err s' hpn
    have h2 := h1 (max n N) (Nat.le_max_right ..)
    have h3 := runSession_mono env (Nat.le_max_left n N) ps (initSt purity sig.mode) (by rw [hpn]; simp)
    rw [h2, hpn] at h3
    cases h3
  · intro n vs' s' hr
    have h2 := h1 (max n N) (Nat.le_max_right ..)
    have h3 := runSession_mono env (Nat.le_max_left n N) ps (initSt purity sig.mode) (by rw [hr]; simp)
    rw [h2, hr] at h3
    cases h3
    rfl

/-- C88: however a session is explained, the results are the same. -/
theorem C88_one_meaning (sig : Sig) (env : Env V) (ps : List (Prog V)) (vs vs' : List V) (τ τ' : Store V) (h : Acts sig env ps (fun _ => none) vs τ) (h' : Acts sig env ps (fun _ => none) vs' τ') :
    vs = vs' := by
  obtain ⟨N, s, h1⟩ := h.run false (fun h => by cases h)
  exact (C88_editor_actions sig env ps vs' τ' h' false (fun h => by cases h)).2.2 N vs s (h1 N (Nat.le_refl _))

/-- C88: the editor may run itself, at any time, what it could demand in a thunk.  After a session `ps`, in the store `σ`, let the program `p`, evaluated from scratch as the code of a thunk on a part
`σ0` of the store (the inputs of `p`: anything else may be there from earlier runs of `p` or of other programs), return `v`.  Then the editor, running `p` itself, gets `v`, and the session goes on
from what `p` has made. -/
theorem C88_code_at_top_level (sig : Sig) (env : Env V) (ps : List (Prog V)) (vs : List V) (σ σ0 : Store V) (h : Acts sig env ps (fun _ => none) vs σ) (h1 : Ext σ0 σ) (h2 : Ref.SameS σ0 σ)
    (p : Prog V) (c : Ctx) (n : Nat) (r : Ref.RS V) (v : V) (he : Ref.eval sig env (Ref.recN sig env n) c sig.mode .empty p ⟨σ0, []⟩ = some (r, v)) :
    Acts sig env (ps ++ [p]) (fun _ => none) (vs ++ [v]) r.store ∧
    ∀ purity, (purity = true → sig.pu = true) → (∃ N s', ∀ n, N ≤ n → runSession env n (ps ++ [p]) (initSt purity sig.mode) = .ok (vs ++ [v]) s') ∧
      ∀ n err s', runSession env n (ps ++ [p]) (initSt purity sig.mode) ≠ .panic err s' := by
  have ha : Acts sig env (ps ++ [p]) (fun _ => none) (vs ++ [v]) r.store := h.append (.cons (.forget h1 h2 (eval_act n p c _ _ _ _ _ he)) .nil)
  exact ⟨ha, fun purity hp => ⟨(C88_editor_actions sig env _ _ _ ha purity hp).1, (C88_editor_actions sig env _ _ _ ha purity hp).2.1⟩⟩

/-! ### The programs of the catalog -/

namespace EditSession
variable {R : Root V}

/-- The code of the editor for one step: the edits, and then `ns(…, || f(arg))`, without a thunk. -/
def Root.directProg (R : Root V) (s : Step V) : Prog V := editProg R.cty s.edits <| .ns R.ns (R.env.code R.fn s.arg) .ret

/-- The store between the steps: the cells of the editor are as they should be. -/
structure DirOk (cs : Cells V) (σ : Store V) : Prop where
  cells : ∀ n v, cs n = some v → σ (cellAt n) = some v
  nominal : ∀ l, l.isStruct = true → σ l = none

theorem DirOk.upd {cs : Cells V} {σ : Store V} (h : DirOk cs σ) (n : Name) (v : V) : DirOk (fun m => if m = n then some v else cs m) (upd σ (cellAt n) v) := by
  refine ⟨?_, ?_⟩
  · intro m w hw
    simp only [Ref.upd]
    by_cases hm : m = n
    · simp only [hm, if_true] at hw ⊢; exact hw
    · rw [if_neg (by simpa [cellAt] using hm)]
      rw [if_neg hm] at hw
      exact h.cells _ _ hw
  · intro l hl
    simp only [Ref.upd]
    rw [if_neg (by rintro rfl; cases hl)]
    exact h.nominal l hl

theorem edits_act (hR : R.Lawful) (es : List (Edit V)) : ∀ (cs cs' : Cells V) (σ : Store V), applyAll cs es = some cs' → DirOk cs σ →
    ∃ σ', DirOk cs' σ' ∧ ∀ k v τ, Act R.sig R.env false .empty k σ' v τ → Act R.sig R.env false .empty (editProg R.cty es k) σ v τ := by
  induction es with
  | nil => intro cs cs' σ h1 h2; cases h1; exact ⟨σ, h2, fun _ _ _ h => h⟩
  | cons ed es ih =>
    intro cs cs' σ h1 h2
    cases ed with
    | cell n t =>
      obtain ⟨σ', i1, i2⟩ := ih _ _ _ h1 (h2.upd n t)
      refine ⟨σ', i1, fun k v τ h => ?_⟩
      refine .cell (hR.sig_cell n) ?_ (i2 k v τ h)
      intro h; cases h
    | set n t =>
      by_cases hs : (cs n).isSome
      · simp only [applyAll, Edit.apply, if_pos hs, Option.bind] at h1
        obtain ⟨σ', i1, i2⟩ := ih _ _ _ h1 (h2.upd n t)
        refine ⟨σ', i1, fun k v τ h => ?_⟩
        obtain ⟨w, hw⟩ := Option.isSome_iff_exists.1 hs
        exact .set (hR.sig_cell n) (by rw [h2.cells _ _ hw]; simp) rfl (i2 k v τ h)
      · simp [applyAll, Edit.apply, hs] at h1

theorem direct_step (hR : R.Lawful) {s : Step V} {cs cs' : Cells V} {σ : Store V} {d : R.D} (h : DirOk cs σ) (h1 : applyAll cs s.edits = some cs') (h2 : R.ok cs' d) (h3 : R.arg d = s.arg) :
    ∃ σ', DirOk cs' σ' ∧ Act R.sig R.env false .empty (R.directProg s) σ (R.res d) σ' := by
  obtain ⟨σ1, a1, a2⟩ := edits_act hR s.edits cs cs' σ h1 h
  generalize hσ0 : (fun l : Loc => if l.path = .empty then σ1 l else none) = σ0
  have e0 : Ext σ0 σ1 := by
    subst hσ0
    intro l v hl
    simp only at hl
    split at hl
    · exact hl
    · cases hl
  have s0 : Ref.SameS σ0 σ1 := by
    intro l hl
    rw [a1.nominal l hl]
    rcases hs : σ0 l with _ | w
    · rfl
    · have := e0 _ _ hs; rw [a1.nominal l hl] at this; cases this
  have hloc : σ0 R.loc = none := by subst hσ0; rfl
  have c0 : ∀ n v, cs' n = some v → σ0 (cellAt n) = some v := by subst hσ0; exact a1.cells
  have hclear : ∀ l, l ≠ R.loc → l.path ≠ .empty → (Ref.upd σ0 R.loc (R.arg d)) l = none := by
    intro l n1 n2
    simp only [Ref.upd, if_neg n1]
    subst hσ0
    simp only [if_neg n2]
  have hW : R.world (Ref.upd σ0 R.loc (R.arg d)) d R.loc = some (R.arg d, R.rank d) := world_base (by simp [Ref.upd])
  have hbel : Below σ0 (R.world (Ref.upd σ0 R.loc (R.arg d)) d) := by
    intro l v hl
    refine ⟨_, world_base ?_⟩
    simp only [Ref.upd]
    rw [if_neg (by rintro rfl; rw [hloc] at hl; cases hl)]
    exact hl
  obtain ⟨N, σ', v, obs, _, ⟨q1, q2, rfl⟩, q3⟩ := hR.conv cs' d h2 _ σ0 c0 (world_allocs hR h2 hclear) hbel hW hR.mode rfl [] (fun _ h => by cases h)
  have q4 := eval_act N _ _ _ _ _ _ _ (q3 N (Nat.le_refl _))
  rw [hR.mode.1, h3] at q4
  refine ⟨σ', ⟨fun n v hv => q1 _ _ (c0 n v hv), ?_⟩, a2 _ _ _ (.forget e0 s0 (.ns q4 .ret))⟩
  intro l hl
  rcases hs : σ' l with _ | w
  · rfl
  · obtain ⟨k, hk⟩ := q2 l w hs
    rcases hb : (Ref.upd σ0 R.loc (R.arg d)) l with _ | u
    · obtain ⟨x, hx, rfl⟩ := world_none hb hk
      rw [(hR.away _ _ h2 x hx).2.2] at hl
      cases hl
    · simp only [Ref.upd] at hb
      split at hb
      · subst_vars; cases hl
      · have := e0 _ _ hb; rw [a1.nominal l hl] at this; cases this

theorem direct_acts (hR : R.Lawful) (ss : List (Step V)) : ∀ (cs : Cells V) (ds : List R.D) (σ : Store V), R.Demands cs ss ds → DirOk cs σ →
    ∃ τ, Acts R.sig R.env (ss.map R.directProg) σ (ds.map R.res) τ := by
  induction ss with
  | nil => intro cs ds σ h _; cases h; exact ⟨σ, .nil⟩
  | cons s ss ih =>
    intro cs ds σ h hs
    cases h with
    | cons h1 h2 h3 h4 =>
      obtain ⟨σ1, s1, s2⟩ := direct_step hR hs h1 h2 h3
      obtain ⟨τ, i⟩ := ih _ _ σ1 h4 s1
      exact ⟨τ, .cons (by rw [hR.mode.1]; exact s2) i⟩

/-- C88: the programs of the catalog for which sessions of edits and demands are proved right (lists C75, folds C76, tries C80, `mergesort_list_of_tree3` C81; `R.Lawful`) are right as well when the editor calls
them itself, again and again after edits, instead of demanding a thunk that calls them. -/
theorem C88_catalog_at_top_level (hR : R.Lawful) (ss : List (Step V)) (ds : List R.D) (h : R.Demands (fun _ => none) ss ds) (purity : Bool) (hp : purity = true → R.sig.pu = true) :
    (∃ N s', ∀ n, N ≤ n → runSession R.env n (ss.map R.directProg) (initSt purity R.sig.mode) = .ok (ds.map R.res) s') ∧
    ∀ n err s', runSession R.env n (ss.map R.directProg) (initSt purity R.sig.mode) ≠ .panic err s' := by
  obtain ⟨τ, ha⟩ := direct_acts hR ss _ ds (fun _ => none) h ⟨(fun _ _ h => by cases h), fun _ _ => rfl⟩
  obtain ⟨h1, h2, _⟩ := C88_editor_actions R.sig R.env _ _ _ ha purity hp
  exact ⟨h1, h2⟩
end EditSession

/-! ### The four instances -/

/-- C88 for the list functions (C75): the editor itself calls `vec_of_list(f_k(… f_1(l)), limit)` after each round of edits. -/
theorem ListProg.C88_lists {X : Type} [DecidableEq X] {H : NameHash} {opAt : Name → ListProg.Op} {g : Nat → X → Option X} {hv : ListProg.CV X → UInt64} {ha : Nat → ListProg.CV X → UInt64} (rn : Name)
    (ss : List (ListProg.Step X)) (ls : List (List Name × Coll.Lst X × Option Nat)) (h : ListProg.Demands (fun _ => none) ss ls) (purity : Bool) :
    (∃ N s', ∀ n, N ≤ n → runSession (ListProg.env H opAt g hv ha) n (ss.map fun s => (ListProg.theRoot H opAt g hv ha rn).directProg ⟨s.edits, .root s.stages s.list s.limit⟩) (initSt purity false) =
      .ok (ls.map fun p => .vec (ListProg.limited p.2.2 (ListProg.specChain H opAt g p.1 p.2.1.items))) s') ∧
    ∀ n err s', runSession (ListProg.env H opAt g hv ha) n (ss.map fun s => (ListProg.theRoot H opAt g hv ha rn).directProg ⟨s.edits, .root s.stages s.list s.limit⟩) (initSt purity false) ≠ .panic err s' := by
  obtain ⟨ds, d1, d2⟩ := ListProg.demands (H := H) (opAt := opAt) (g := g) (hv := hv) (ha := ha) (rn := rn) h
  have := EditSession.C88_catalog_at_top_level (ListProg.lawful rn) _ ds d1 purity (fun _ => rfl)
  rw [d2, List.map_map] at this
  exact this

/-- C88 for the tree folds (C76). -/
theorem FoldProg.C88_folds {X R : Type} [DecidableEq X] [DecidableEq R] {H : NameHash} {opAt : Name → FoldProg.Op} {fs : FoldProg.Fns X R} {hv : FoldProg.CV X R → UInt64} {ha : Nat → FoldProg.CV X R → UInt64} (rn : Name)
    (ss : List (FoldProg.Step X R)) (ds : List (FoldProg.Dem X)) (h : FoldProg.Demands opAt (fun _ => none) ss ds) (purity : Bool) :
    (∃ N s', ∀ n, N ≤ n → runSession (FoldProg.env H opAt fs hv ha) n (ss.map fun s => (FoldProg.theRoot H opAt fs hv ha rn).directProg ⟨s.edits, .root s.filters s.last s.tree s.limit⟩) (initSt purity false) =
      .ok (ds.map (FoldProg.Dem.result H opAt fs)) s') ∧
    ∀ n err s', runSession (FoldProg.env H opAt fs hv ha) n (ss.map fun s => (FoldProg.theRoot H opAt fs hv ha rn).directProg ⟨s.edits, .root s.filters s.last s.tree s.limit⟩) (initSt purity false) ≠ .panic err s' := by
  obtain ⟨es, d1, d2⟩ := FoldProg.demands (H := H) (fs := fs) (hv := hv) (ha := ha) (rn := rn) h
  have := EditSession.C88_catalog_at_top_level (FoldProg.lawful rn) _ es d1 purity (fun _ => rfl)
  rw [d2, List.map_map] at this
  exact this

/-- C88 for tries (C80). -/
theorem TrieProg.C88_tries {X R : Type} [DecidableEq X] [DecidableEq R] {H : NameHash} {opAt : Name → Option Nat} {fs : TrieProg.Fns X R} {hv : TrieProg.CV X R → UInt64} {ha : Nat → TrieProg.CV X R → UInt64} (rn : Name)
    (ss : List (TrieProg.Step X R)) (ds : List (TrieM.Trie X × TrieProg.Query X R)) (h : TrieProg.Demands H opAt (fun _ => none) ss ds) (purity : Bool) :
    (∃ N s', ∀ n, N ≤ n → runSession (TrieProg.env H opAt fs hv ha) n (ss.map fun s => (TrieProg.theRoot H opAt fs hv ha rn).directProg ⟨s.edits, .root s.src s.q⟩) (initSt purity false) =
      .ok (ds.map fun d => TrieProg.answer opAt fs d.1 d.2) s') ∧
    ∀ n err s', runSession (TrieProg.env H opAt fs hv ha) n (ss.map fun s => (TrieProg.theRoot H opAt fs hv ha rn).directProg ⟨s.edits, .root s.src s.q⟩) (initSt purity false) ≠ .panic err s' := by
  obtain ⟨es, d1, d2⟩ := TrieProg.demands (H := H) (fs := fs) (hv := hv) (ha := ha) (rn := rn) h
  have := EditSession.C88_catalog_at_top_level (TrieProg.lawful rn) _ es d1 purity (fun _ => rfl)
  rw [d2, List.map_map] at this
  exact this

/-- C88 for `mergesort_list_of_tree3` (C81). -/
theorem MergeProg.C88_mergesort3 {X : Type} [DecidableEq X] {H : NameHash} {le : X → X → Bool} {hv : MergeProg.CV X → UInt64} {ha : Nat → MergeProg.CV X → UInt64} (rn : Name)
    (ss : List (MergeProg.Step X)) (ds : List (MergeProg.Dem X)) (h : MergeProg.Demands (fun _ => none) ss ds) (purity : Bool) :
    (∃ N s', ∀ n, N ≤ n → runSession (MergeProg.env H le hv ha) n (ss.map fun s => (MergeProg.theRoot H le hv ha rn).directProg ⟨s.edits, .root s.stage s.tree s.nm s.limit⟩) (initSt purity false) =
      .ok (ds.map (MergeProg.answer H le)) s') ∧
    ∀ n err s', runSession (MergeProg.env H le hv ha) n (ss.map fun s => (MergeProg.theRoot H le hv ha rn).directProg ⟨s.edits, .root s.stage s.tree s.nm s.limit⟩) (initSt purity false) ≠ .panic err s' := by
  obtain ⟨es, d1, d2⟩ := MergeProg.demands (H := H) (le := le) (hv := hv) (ha := ha) (rn := rn) h
  have := EditSession.C88_catalog_at_top_level (MergeProg.lawful rn) _ es d1 purity (fun _ => rfl)
  rw [d2, List.map_map] at this
  exact this

/-- C88 for the level trees of the documentation (C89). -/
theorem RecProg.C88_level_trees {X R : Type} [DecidableEq X] [DecidableEq R] {H : NameHash} {opAt : Name → Nat} {fs : Nat → RecProg.Fns X R} {hv : RecProg.CV X R → UInt64} {ha : Nat → RecProg.CV X R → UInt64} (rn : Name)
    (ss : List (RecProg.Step X R)) (ds : List (Name × RecProg.LTree X)) (h : RecProg.Demands (fun _ => none) ss ds) (purity : Bool) :
    (∃ N s', ∀ n, N ≤ n → runSession (RecProg.env H opAt fs hv ha) n (ss.map fun s => (RecProg.theRoot H opAt fs hv ha rn).directProg ⟨s.edits, .root s.nm s.tree⟩) (initSt purity false) =
      .ok (ds.map fun d => .res (d.2.foldUp (fs (opAt d.1)) none)) s') ∧
    ∀ n err s', runSession (RecProg.env H opAt fs hv ha) n (ss.map fun s => (RecProg.theRoot H opAt fs hv ha rn).directProg ⟨s.edits, .root s.nm s.tree⟩) (initSt purity false) ≠ .panic err s' := by
  obtain ⟨es, d1, d2⟩ := RecProg.demands (H := H) (opAt := opAt) (fs := fs) (hv := hv) (ha := ha) (rn := rn) h
  have := EditSession.C88_catalog_at_top_level (RecProg.lawful rn) _ es d1 purity (fun _ => rfl)
  rw [d2, List.map_map] at this
  exact this

/-! ### Sessions that meet the hypotheses -/

/-- The session of C75's example (ListEngine.lean, which shows that it meets the hypotheses: `Example75.meets`), with the calls made by the editor. -/
example : (match runSession (ListProg.env ListProg.Example75.H ListProg.Example75.opAt ListProg.Example75.g (fun _ => 0) (fun _ _ => 0)) 60
      (ListProg.Example75.steps.map fun s => (ListProg.theRoot ListProg.Example75.H ListProg.Example75.opAt ListProg.Example75.g (fun _ => 0) (fun _ _ => 0) (ListProg.Example75.nm 0)).directProg
        ⟨s.edits, .root s.stages s.list s.limit⟩) (initSt true false) with
    | .ok vs _ => vs.map ListProg.Example75.elems
    | _ => []) = [[8, 4], [2, 10, 4], [3, 9], [9]] := by decide +kernel

/-! The thunk `maker` reads the cell `x` and allocates the cell `made`, with the content of `x` in it.  The editor demands it, changes `x`, and reads `made`: nobody has run `maker` since, so
the old content is there.  C01 gives no meaning to this session (after the change of `x` it forgets all that the demand has made), and C88 does. -/
namespace StaleEx
inductive SV where
  | num (n : Nat)
  | art (l : Loc)
deriving DecidableEq
def at_ (n : Nat) : Loc := ⟨.empty, .nominal ⟨n.toUInt64, .usize n⟩⟩
def nm (n : Nat) : Name := ⟨n.toUInt64, .usize n⟩
def code : FnId → SV → Prog SV
  | 0, _ => .force 0 (at_ 0) none fun v => .cell 0 (nm 2) v fun l => .ret (.art l)
  | _, _ => .panic
def env : Env SV := ⟨code, fun _ => 0, fun _ _ => 0⟩
def sig : Sig := { kind := fun l => if l = at_ 1 then .thunk 1 0 0 else .cell 0 }
def session : List (Prog SV) :=
  [.cell 0 (nm 0) (.num 7) fun _ => .thunk 1 (.nominal (nm 1)) 0 0 (.num 0) fun l => .force 1 l none .ret,
   .set 0 (at_ 0) (.num 8) (.ret (.num 0)),
   .force 0 (at_ 2) none .ret,
   .force 1 (at_ 1) none .ret,
   .force 0 (at_ 2) none .ret]

/-- The store with `x` and `maker`. -/
def inputs (n : Nat) : Store SV := upd (upd (fun _ => none) (at_ 0) (.num n)) (at_ 1) (.num 0)

theorem acts : ∃ τ, Acts sig env session (fun _ => none) [.art (at_ 2), .num 0, .num 7, .art (at_ 2), .num 8] τ := by
  refine ⟨upd (inputs 8) (at_ 2) (.num 8), .cons (σ' := upd (inputs 7) (at_ 2) (.num 7)) ?_ <| .cons (σ' := upd (upd (inputs 7) (at_ 2) (.num 7)) (at_ 0) (.num 8)) ?_ <|
    .cons (σ' := upd (upd (inputs 7) (at_ 2) (.num 7)) (at_ 0) (.num 8)) ?_ <| .cons (σ' := upd (inputs 8) (at_ 2) (.num 8)) ?_ <| .cons ?_ .nil⟩
  · refine .cell rfl (fun h => by cases h) <| .thunk (l := at_ 1) rfl (by decide) (fun h => by cases h) ?_
    exact .forceThunk (pp := 0) (fn := 0) (n := 2) (by decide) rfl (show (Ref.recN sig env 2).frc [] (inputs 7) (at_ 1) = some (upd (inputs 7) (at_ 2) (.num 7), .art (at_ 2)) from rfl) .ret
  · exact .set (by decide) (by decide) rfl .ret
  · exact .forceCell (c := .num 7) (by decide) (by decide) .ret
  · refine .forget (σ' := inputs 8) ?_ ?_ ?_
    · intro l v h
      simp only [inputs, upd] at h ⊢
      split at h
      · subst_vars; simpa [at_] using h
      · split at h
        · subst_vars; simpa [at_] using h
        · cases h
    · intro l h
      simp only [inputs, upd]
      rw [if_neg, if_neg, if_neg, if_neg, if_neg, if_neg]
      all_goals rintro rfl; cases h
    · exact .forceThunk (pp := 0) (fn := 0) (n := 2) (by decide) rfl (show (Ref.recN sig env 2).frc [] (inputs 8) (at_ 1) = some (upd (inputs 8) (at_ 2) (.num 8), .art (at_ 2)) from rfl) .ret
  · exact .forceCell (c := .num 8) (by decide) (by decide) .ret

theorem no_meaning (vs : List SV) : ¬ Ref.Means sig env session vs := by
  rintro ⟨n, e, h⟩
  have : ∀ n, Ref.session sig env n session Ref.emptyES = none := by
    intro n
    rcases n with _ | _ | n <;> rfl
  rw [this] at h
  cases h

example (purity : Bool) : ∃ N s', ∀ n, N ≤ n → runSession env n session (initSt purity false) = .ok [.art (at_ 2), .num 0, .num 7, .art (at_ 2), .num 8] s' := by
  obtain ⟨τ, h⟩ := acts
  exact (C88_editor_actions sig env _ _ τ h purity (fun _ => rfl)).1
end StaleEx
end Adapton
