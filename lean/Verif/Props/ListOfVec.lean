import Verif.Props.MapEngine
import Verif.Collections.Spec
import Verif.Props.Lists
import Verif.Props.Macros
/-
C98: lists made by `list_of_vec`, on the engine: as the vector says if its names are distinct, endless if a name is repeated.
-/
set_option linter.unusedSectionVars false
set_option linter.unusedVariables false
namespace Adapton.MapProg
open Ref (Sig Means)
open EditSession (Cells Edit applyAll cellAt Step)
open Query (QReads Dem)
open Coll (NameElse elmsOf namesOf)
variable {D C R : Type} [DecidableEq D] [DecidableEq C] [DecidableEq R]

/-! ### What it makes -/

/-- The list: at a name, the rest is in the cell of that name. -/
def vecList : List (NameElse (D × C)) → MapV D C
  | [] => .nil
  | .name n :: _ => .name n (.art (cellAt n))
  | .elm e :: v => .cons e.1 e.2 (vecList v)

/-- The edits of cells. -/
def vecEdits : List (NameElse (D × C)) → List (Edit (CV D C R))
  | [] => []
  | .name n :: v => vecEdits v ++ [.cell n (.map (vecList v))]
  | .elm _ :: v => vecEdits v

/-- The cells afterwards. -/
def vecCells (cs : Cells (CV D C R)) : List (NameElse (D × C)) → Cells (CV D C R)
  | [] => cs
  | .name n :: v => fun m => if m = n then some (.map (vecList v)) else vecCells cs v m
  | .elm _ :: v => vecCells cs v

theorem applyAll_append {V : Type} (es es' : List (Edit V)) : ∀ cs : Cells V, applyAll cs (es ++ es') = (applyAll cs es).bind fun cs' => applyAll cs' es' := by
  induction es with
  | nil => intro cs; rfl
  | cons e es ih =>
    intro cs
    show (e.apply cs).bind _ = ((e.apply cs).bind _).bind _
    rcases e.apply cs with _ | cs'
    · rfl
    · exact ih cs'

theorem vecEdits_apply (cs : Cells (CV D C R)) (v : List (NameElse (D × C))) : applyAll cs (vecEdits v) = some (vecCells cs v) := by
  induction v with
  | nil => rfl
  | cons x v ih =>
    cases x with
    | name n =>
      show applyAll cs (vecEdits v ++ _) = _
      rw [applyAll_append, ih]; rfl
    | elm e => exact ih

/-- A name is looked up at its first occurrence. -/
theorem vecCells_first (cs : Cells (CV D C R)) {n : Name} {r : List (NameElse (D × C))} : ∀ {p : List (NameElse (D × C))}, n ∉ namesOf p → vecCells cs (p ++ .name n :: r) n = some (.map (vecList r)) := by
  intro p
  induction p with
  | nil => intro _; exact if_pos rfl
  | cons x p ih =>
    intro h
    cases x with
    | name n' =>
      have h : n ∉ n' :: namesOf p := h
      rw [List.mem_cons, not_or] at h
      exact (if_neg h.1).trans (ih h.2)
    | elm e => exact ih h

/-- With distinct names, the list is as the vector. -/
theorem vecList_walk (cs : Cells (CV D C R)) {v : List (NameElse (D × C))} : ∀ {p q : List (NameElse (D × C))}, v = p ++ q → (namesOf v).Nodup → Walk (vecCells cs v) (vecList q) (elmsOf q) (namesOf q) .nil := by
  intro p q
  induction q generalizing p with
  | nil => intro _ _; exact .here
  | cons x q ih =>
    intro e hn
    have h1 := ih (p := p ++ [x]) (by rw [e, List.append_assoc]; rfl) hn
    cases x with
    | name n =>
      refine .name (.art ?_ h1)
      rw [e]
      refine vecCells_first cs fun hp => ?_
      rw [e, Coll.namesOf_append] at hn
      exact (List.nodup_append.1 hn).2.2 n hp n (List.mem_cons_self ..) rfl
    | elm x => exact .cons h1

/-! ### Running it -/

section
variable {u : C} {body : Nat → D → C → R → R} {hv : CV D C R → UInt64} {ha : ProgPt → CV D C R → UInt64}

/-- `cell` changes neither the namespace nor the mode, and returns the location of that name. -/
theorem opCell_at {env : Env (CV D C R)} {n : Name} {v : CV D C R} {s s' : St (CV D C R)} {l : Loc} (hp : s.path = .empty) (hi : s.ignoreNominal = false) (h : opCell env tyM n v s = .ok l s') :
    l = cellAt n ∧ s'.path = .empty ∧ s'.ignoreNominal = false := by
  have hg := opCell_gen env 0 tyM n v s
  rw [h] at hg
  refine ⟨?_, hg.path.trans hp, hg.ign.trans hi⟩
  unfold opCell at h
  rw [M.bind_ok (M.get_def s)] at h
  obtain ⟨_, s1, h1, h⟩ := M.bind_inv h
  obtain ⟨_, s2, h2, h⟩ := M.bind_inv h
  cases h
  simp only [hp, hi]
  rfl

theorem editCell_congr {env : Env (CV D C R)} {Rc : Rec (CV D C R)} {v : List (NameElse (D × C))} : ∀ {p p' : Prog (CV D C R)}, (∀ s, s.path = .empty → s.ignoreNominal = false → runProg env Rc p s = runProg env Rc p' s) →
    ∀ s, s.path = .empty → s.ignoreNominal = false → runProg env Rc (EditSession.editProg tyM (vecEdits v) p) s = runProg env Rc (EditSession.editProg tyM (vecEdits v) p') s := by
  have app : ∀ (es es' : List (Edit (CV D C R))) (p : Prog (CV D C R)), EditSession.editProg tyM (es ++ es') p = EditSession.editProg tyM es (EditSession.editProg tyM es' p) := by
    intro es es' p
    induction es with
    | nil => rfl
    | cons e es ih => cases e <;> simp only [List.cons_append, EditSession.editProg, ih]
  induction v with
  | nil => intro p p' h s h1 h2; exact h s h1 h2
  | cons x v ih =>
    intro p p' h s h1 h2
    cases x with
    | name n =>
      show runProg env Rc (EditSession.editProg tyM (vecEdits v ++ _) p) s = runProg env Rc (EditSession.editProg tyM (vecEdits v ++ _) p') s
      rw [app, app]
      refine ih (fun s h1 h2 => ?_) s h1 h2
      show (opCell env tyM n _ >>= fun _ => runProg env Rc p) s = (opCell env tyM n _ >>= fun _ => runProg env Rc p') s
      rw [M.bind_def, M.bind_def]
      rcases ho : opCell env tyM n (.map (vecList v)) s with ⟨l, s'⟩ | _ | _
      · obtain ⟨_, h3, h4⟩ := opCell_at h1 h2 ho
        exact h _ h3 h4
      · rfl
      · rfl
    | elm e => exact ih h s h1 h2

/-- `list_of_vec` is those edits, and returns that list. -/
theorem listOfVec_edits {env : Env (CV D C R)} {Rc : Rec (CV D C R)} {v : List (NameElse (D × C))} : ∀ {k : MapV D C → Prog (CV D C R)} {s : St (CV D C R)}, s.path = .empty → s.ignoreNominal = false →
    runProg env Rc (listOfVec v k) s = runProg env Rc (EditSession.editProg tyM (vecEdits v) (k (vecList v))) s := by
  have app : ∀ (es es' : List (Edit (CV D C R))) (p : Prog (CV D C R)), EditSession.editProg tyM (es ++ es') p = EditSession.editProg tyM es (EditSession.editProg tyM es' p) := by
    intro es es' p
    induction es with
    | nil => rfl
    | cons e es ih => cases e <;> simp only [List.cons_append, EditSession.editProg, ih]
  induction v with
  | nil => intro k s _ _; rfl
  | cons x v ih =>
    intro k s h1 h2
    cases x with
    | name n =>
      show runProg env Rc (listOfVec v _) s = runProg env Rc (EditSession.editProg tyM (vecEdits v ++ _) _) s
      rw [ih h1 h2, app]
      refine editCell_congr (fun s h1 h2 => ?_) s h1 h2
      show (opCell env tyM n _ >>= fun a => runProg env Rc (k (.name n (.art a)))) s = (opCell env tyM n _ >>= fun _ => runProg env Rc (k (.name n (.art (cellAt n))))) s
      rw [M.bind_def, M.bind_def]
      rcases ho : opCell env tyM n (.map (vecList v)) s with ⟨l, s'⟩ | _ | _
      · obtain ⟨rfl, h3, h4⟩ := opCell_at h1 h2 ho
        rfl
      · rfl
      · rfl
    | elm e => exact ih h1 h2

/-! ### Distinct names -/

/-- The code of the editor: `let l = list_of_vec(&v); ns("map", || get!(thunk!([Some(rn)]? { f(l, …) })))`. -/
def vecStep (rn : Name) (v : List (NameElse (D × C))) (arg : MapV D C → CV D C R) : Prog (CV D C R) :=
  listOfVec v fun l => .ns rootNm (.thunk tyA (.nominal rn) ppRoot fRoot (arg l) fun a => .force tyA a none .ret) .ret

/-- After a session, such a step is the step of the session with these edits. -/
theorem vecStep_eq (rn : Name) (ss : List (Step (CV D C R))) (v : List (NameElse (D × C))) (arg : MapV D C → CV D C R) (n : Nat) (purity : Bool) :
    runSession (env u body hv ha) n (ss.map (stepProg rn) ++ [vecStep rn v arg]) (initSt purity false) =
      runSession (env u body hv ha) n ((ss ++ [(⟨vecEdits v, arg (vecList v)⟩ : Step (CV D C R))]).map (stepProg rn)) (initSt purity false) := by
  rw [List.map_append, runSession_append, runSession_append, M.bind_def, M.bind_def]
  rcases ho : runSession (env u body hv ha) n (ss.map (stepProg rn)) (initSt purity false) with ⟨vs, s⟩ | _ | _
  · have hg := runSession_gen (env u body hv ha) n (ss.map (stepProg rn)) (initSt purity false)
    rw [ho] at hg
    have h1 : s.path = .empty := hg.path
    have h2 : s.ignoreNominal = false := hg.ign
    have key : runProg (env u body hv ha) (recN (env u body hv ha) n) (vecStep rn v arg) s = runProg (env u body hv ha) (recN (env u body hv ha) n) (stepProg rn ⟨vecEdits v, arg (vecList v)⟩) s :=
      listOfVec_edits h1 h2
    show (do let vs' ← runSession (env u body hv ha) n [vecStep rn v arg]; pure (vs ++ vs')) s = (do let vs' ← runSession (env u body hv ha) n [stepProg rn ⟨vecEdits v, arg (vecList v)⟩]; pure (vs ++ vs')) s
    have key' : runSession (env u body hv ha) n [vecStep rn v arg] s = runSession (env u body hv ha) n [stepProg rn ⟨vecEdits v, arg (vecList v)⟩] s := by
      simp only [runSession]
      rw [M.bind_def, M.bind_def, show exec (env u body hv ha) n (vecStep rn v arg) s = _ from key]; rfl
    rw [M.bind_def, M.bind_def, key']
  · rfl
  · rfl

/-- **C98 (distinct names).** After any session of C96, `list_of_vec` of a vector with distinct names (also of names that cells of the session have), and a demand for the list that it returns: the engine terminates
without panic; `find` returns the content of the first entry of the vector for the key, `is_mem` whether there is one, and `fold` the fold of the entries of the vector.  (Only one of the three is demanded.) -/
theorem C98_list_of_vec (rn : Name) (ss : List (Step (CV D C R))) (ds : List (List Name × CV D C R)) (h : Demands u body (fun _ => none) ss ds) (purity : Bool)
    (v : List (NameElse (D × C))) (hn : (namesOf v).Nodup) (arg : MapV D C → CV D C R) (w : CV D C R)
    (hw : (∃ d, arg = (fun l => .find l d) ∧ w = .opt (((elmsOf v).find? fun e => decide (e.1 = d)).map Prod.snd)) ∨
      (∃ d, arg = (fun l => .mem l d) ∧ w = .bool ((elmsOf v).any fun e => decide (e.1 = d))) ∨
      (∃ i r, arg = (fun l => .fold i l r) ∧ w = .res ((elmsOf v).foldr (fun e r => body i e.1 e.2 r) r))) :
    (∃ N s', ∀ n, N ≤ n → runSession (env u body hv ha) n (ss.map (stepProg rn) ++ [vecStep rn v arg]) (initSt purity false) = .ok (ds.map Prod.snd ++ [w]) s') ∧
    ∀ n err s', runSession (env u body hv ha) n (ss.map (stepProg rn) ++ [vecStep rn v arg]) (initSt purity false) ≠ .panic err s' := by
  have hall : ∃ cs, applyAll (fun _ => none) (ss.flatMap Step.edits) = some cs ∧ ∀ ns, Answers u body (vecCells cs v) (arg (vecList v)) ns w →
      Demands u body (fun _ => none) (ss ++ [(⟨vecEdits v, arg (vecList v)⟩ : Step (CV D C R))]) (ds ++ [(ns, w)]) := by
    generalize (fun _ => none : Cells (CV D C R)) = cs0 at h ⊢
    induction h with
    | @nil cs => exact ⟨cs, rfl, fun ns hans => .cons (vecEdits_apply _ _) hans .nil⟩
    | @cons cs cs' s ss ns w' ds h1 h2 _ ih =>
      obtain ⟨cs2, g1, g2⟩ := ih
      refine ⟨cs2, ?_, fun ns hans => .cons h1 h2 (g2 ns hans)⟩
      rw [List.flatMap_cons, applyAll_append, h1]
      exact g1
  obtain ⟨cs, _, hd⟩ := hall
  have hwalk : Walk (vecCells cs v) (vecList v) (elmsOf v) (namesOf v) .nil := vecList_walk cs (p := []) rfl hn
  have hans : ∃ ns, Answers u body (vecCells cs v) (arg (vecList v)) ns w := by
    rcases hw with ⟨d, rfl, rfl⟩ | ⟨d, rfl, rfl⟩ | ⟨i, r, rfl, rfl⟩
    · obtain ⟨ns, h1, _⟩ := hwalk.finds d rfl
      exact ⟨ns, .find h1⟩
    · obtain ⟨ns, h1, _⟩ := hwalk.finds d rfl
      refine ⟨ns, ?_⟩
      have := Answers.mem (u := u) (body := body) h1
      have he : (((elmsOf v).find? fun e => decide (e.1 = d)).map Prod.snd).isSome = (elmsOf v).any fun e => decide (e.1 = d) := by
        rw [Option.isSome_map, Bool.eq_iff_iff, List.find?_isSome, List.any_eq_true]
      rwa [he] at this
    · exact ⟨_, .fold hwalk⟩
  obtain ⟨ns, hans⟩ := hans
  have := C96_maps_and_sets (hv := hv) (ha := ha) rn _ _ (hd ns hans) purity
  rw [List.map_append (f := Prod.snd)] at this
  obtain ⟨⟨N, s', h1⟩, h2, _⟩ := this
  refine ⟨⟨N, s', fun n hN => ?_⟩, fun n err s' => ?_⟩
  · rw [vecStep_eq]; exact h1 n hN
  · rw [vecStep_eq]; exact h2 n err s'

/-! ### A repeated name -/

/-- The engine holds these cells. -/
def Holds (cs : Cells (CV D C R)) (s : St (CV D C R)) : Prop := ∀ n v, cs n = some v → ∃ nd : MutNode (CV D C R), s.table.get (cellAt n) = some (.mut nd) ∧ nd.ty = tyM ∧ nd.val = v

/-- Nothing has been demanded: there are only cells, and nothing is recorded in them. -/
structure Fresh (s : St (CV D C R)) : Prop where
  stack : s.stack = []
  path : s.path = .empty
  ign : s.ignoreNominal = false
  cells : ∀ x n, s.table.get x = some n → ∃ v, n = .mut ⟨tyM, [], v⟩

theorem fresh_cell {env : Env (CV D C R)} {cs : Cells (CV D C R)} {s : St (CV D C R)} (h : Fresh s) (hc : Holds cs s) (n : Name) (v : CV D C R) :
    ∃ s', opCell env tyM n v s = .ok (cellAt n) s' ∧ Fresh s' ∧ Holds (fun m => if m = n then some v else cs m) s' := by
  have hcell : ∃ s1, cellTable tyM (cellAt n) v false s = .ok () s1 ∧ s1.stack = [] ∧ s1.path = .empty ∧ s1.ignoreNominal = false ∧ ∀ x, s1.table.get x = if x = cellAt n then some (.mut ⟨tyM, [], v⟩) else s.table.get x := by
    unfold cellTable
    rw [M.bind_ok (M.get_def s)]
    rcases hg : s.table.get (cellAt n) with _ | n0
    · refine ⟨_, rfl, h.stack, h.path, h.ign, fun x => ?_⟩
      exact Table.get_put _ _ _ _
    · obtain ⟨w, rfl⟩ := h.cells _ _ hg
      have hset : ∀ s1 : St (CV D C R), s1.table = s.table → ∃ s2, setCell tyM (cellAt n) v s1 = .ok () s2 ∧ s2.stack = s1.stack ∧ s2.path = s1.path ∧ s2.ignoreNominal = s1.ignoreNominal ∧
          ∀ x, s2.table.get x = if x = cellAt n then some (.mut ⟨tyM, [], v⟩) else s.table.get x := by
        intro s1 t1
        rw [← t1] at hg ⊢
        by_cases hw : w = v
        · subst hw
          refine ⟨s1, ?_, rfl, rfl, rfl, fun x => ?_⟩
          · unfold setCell
            rw [M.bind_ok (resNode_ok (ty := tyM) hg rfl)]
            simp only []
            rw [ueq_self]; rfl
          · by_cases hx : x = cellAt n
            · rw [if_pos hx, hx, hg]
            · rw [if_neg hx]
        · refine ⟨{ s1 with table := s1.table.put (cellAt n) (.mut ⟨tyM, [], v⟩) }, ?_, rfl, rfl, rfl, fun x => Table.get_put _ _ _ _⟩
          unfold setCell
          rw [M.bind_ok (resNode_ok (ty := tyM) hg rfl)]
          simp only []
          rw [ueq_neg hw, M.bind_ok (m := putNode _ _) rfl]
          have hl : ({ s1 with table := s1.table.put (cellAt n) (.mut ⟨tyM, [], v⟩) } : St (CV D C R)).table.get (cellAt n) = some (.mut ⟨tyM, [], v⟩) := Table.get_put_self _ _ _
          unfold dirtyAlloc
          have hd : dirtyPredsTop (cellAt n) { s1 with table := s1.table.put (cellAt n) (.mut ⟨tyM, [], v⟩) } = .ok () { s1 with table := s1.table.put (cellAt n) (.mut ⟨tyM, [], v⟩) } := by
            unfold dirtyPredsTop dirtyPreds
            rw [M.bind_ok (lookupAbs_ok hl)]
            rfl
          rw [M.bind_ok hd, M.bind_ok (lookupAbs_ok hl)]
          rfl
      simp only []
      rw [M.bind_ok (resNode_ok (ty := tyM) hg rfl), M.bind_ok (m := evBegin _ _ _) rfl]
      obtain ⟨s2, e1, a1, a2, a3, a4⟩ := hset { s with log := .begin (.alloc (.locExists (cellDiff (.mut ⟨tyM, [], w⟩) v)) .refCell) (topLoc s) (cellAt n) :: s.log } rfl
      simp only []
      rw [M.bind_ok e1]
      exact ⟨_, rfl, a1.trans h.stack, a2.trans h.path, a3.trans h.ign, a4⟩
  obtain ⟨s1, e1, a1, a2, a3, a4⟩ := hcell
  refine ⟨s1, ?_, ⟨a1, a2, a3, fun x n' hx => ?_⟩, fun m w hm => ?_⟩
  · unfold opCell
    rw [M.bind_ok (M.get_def s)]
    simp only [h.path, h.ign, Bool.false_and, Bool.false_eq_true, if_false]
    have e1 : cellTable tyM ⟨.empty, .nominal n⟩ v false s = .ok () s1 := e1
    rw [M.bind_ok e1]
    have e2 : cellRecord ⟨.empty, .nominal n⟩ v false s1 = .ok () s1 := by
      unfold cellRecord recordEdge
      simp only [Bool.false_eq_true, if_false, M.modify_def, a1]
    rw [M.bind_ok e2]; rfl
  · rw [a4] at hx
    split at hx
    · cases hx; exact ⟨v, rfl⟩
    · exact h.cells _ _ hx
  · have hm : (if m = n then some v else cs m) = some w := hm
    by_cases hmn : m = n
    · rw [if_pos hmn] at hm
      cases hm
      exact ⟨⟨tyM, [], v⟩, by rw [a4, if_pos (by rw [hmn])], rfl, rfl⟩
    · rw [if_neg hmn] at hm
      obtain ⟨nd, g⟩ := hc m w hm
      exact ⟨nd, by rw [a4, if_neg (by simpa [cellAt] using hmn)]; exact g.1, g.2⟩

theorem listOfVec_fresh {env : Env (CV D C R)} {cs : Cells (CV D C R)} {v : List (NameElse (D × C))} : ∀ {k : MapV D C → Prog (CV D C R)} {s : St (CV D C R)}, Fresh s → Holds cs s →
    ∃ s', (∀ Rc, runProg env Rc (listOfVec v k) s = runProg env Rc (k (vecList v)) s') ∧ Fresh s' ∧ Holds (vecCells cs v) s' := by
  induction v with
  | nil => intro k s h1 h2; exact ⟨s, fun _ => rfl, h1, h2⟩
  | cons x v ih =>
    intro k s h1 h2
    cases x with
    | name n =>
      obtain ⟨s1, e1, f1, f2⟩ := ih (k := fun l => .cell tyM n (.map l) fun a => k (.name n (.art a))) h1 h2
      obtain ⟨s2, e2, g1, g2⟩ := fresh_cell (env := env) f1 f2 n (.map (vecList v))
      refine ⟨s2, fun Rc => (e1 Rc).trans ?_, g1, g2⟩
      show (opCell env tyM n _ >>= fun a => runProg env Rc (k (.name n (.art a)))) s1 = _
      rw [M.bind_ok e2]; rfl
    | elm e => exact ih h1 h2

/-- One can go on for ever from here, over entries with such keys. -/
def Endless (cs : Cells (CV D C R)) (ok : D → Prop) (m : MapV D C) : Prop :=
  ∃ P : MapV D C → Prop, P m ∧ ∀ m, P m → (∃ d c tl, m = .cons d c tl ∧ ok d ∧ P tl) ∨ (∃ n tl, m = .name n tl ∧ P tl) ∨ ∃ n tl, m = .art (cellAt n) ∧ cs n = some (.map tl) ∧ P tl

theorem find_endless {cs : Cells (CV D C R)} {d : D} (k : Nat) : ∀ {m : MapV D C} {s : St (CV D C R)}, Endless cs (· ≠ d) m → Holds cs s → runProg (env u body hv ha) (recN (env u body hv ha) k) (find m d) s = .oof := by
  induction k with
  | zero =>
    intro m s ⟨P, h0, hP⟩ hs
    rcases hP m h0 with ⟨d', c, tl, rfl, hd, h1⟩ | ⟨n, tl, rfl, h1⟩ | ⟨n, tl, rfl, hc, h1⟩
    · rw [show (find (.cons d' c tl) d : Prog (CV D C R)) = .call fFun (.find tl d) .ret from if_neg fun e => hd e.symm]; rfl
    · rfl
    · obtain ⟨nd, g1, g2, g3⟩ := hs _ _ hc
      obtain ⟨s', e1, e2⟩ := forceCell (recN (env u body hv ha) 0) _ none s nd g1
      rw [g2, g3] at e1
      show (opForce _ tyM (cellAt n) none >>= _) s = _
      rw [M.bind_ok e1]; rfl
  | succ k ih =>
    intro m s ⟨P, h0, hP⟩ hs
    rcases hP m h0 with ⟨d', c, tl, rfl, hd, h1⟩ | ⟨n, tl, rfl, h1⟩ | ⟨n, tl, rfl, hc, h1⟩
    · rw [show (find (.cons d' c tl) d : Prog (CV D C R)) = .call fFun (.find tl d) .ret from if_neg fun e => hd e.symm]
      show (runProg (env u body hv ha) (recN (env u body hv ha) k) (find tl d) >>= _) s = _
      rw [M.bind_def, ih ⟨P, h1, hP⟩ hs]
    · show (runProg (env u body hv ha) (recN (env u body hv ha) k) (find tl d) >>= _) s = _
      rw [M.bind_def, ih ⟨P, h1, hP⟩ hs]
    · obtain ⟨nd, g1, g2, g3⟩ := hs _ _ hc
      obtain ⟨s', e1, e2⟩ := forceCell (recN (env u body hv ha) (k + 1)) _ none s nd g1
      rw [g2, g3] at e1
      show (opForce _ tyM (cellAt n) none >>= _) s = _
      rw [M.bind_ok e1]
      show (runProg (env u body hv ha) (recN (env u body hv ha) k) (find tl d) >>= _) s' = _
      rw [M.bind_def, ih ⟨P, h1, hP⟩ (fun n v hn => by rw [e2.graph]; exact hs n v hn)]

theorem view_endless {cs : Cells (CV D C R)} {ok : D → Prop} (k : Nat) : ∀ {m : MapV D C} {s : St (CV D C R)}, Endless cs ok m → Holds cs s →
    runProg (env u body hv ha) (recN (env u body hv ha) k) (view m) s = .oof ∨
    ∃ m' s', runProg (env u body hv ha) (recN (env u body hv ha) k) (view m) s = .ok (.map m') s' ∧ Holds cs s' ∧ ((∃ d c tl, m' = .cons d c tl ∧ Endless cs ok tl) ∨ ∃ n tl, m' = .name n tl ∧ Endless cs ok tl) := by
  induction k with
  | zero =>
    intro m s ⟨P, h0, hP⟩ hs
    rcases hP m h0 with ⟨d', c, tl, rfl, hd, h1⟩ | ⟨n, tl, rfl, h1⟩ | ⟨n, tl, rfl, hc, h1⟩
    · exact .inr ⟨_, s, rfl, hs, .inl ⟨_, _, _, rfl, P, h1, hP⟩⟩
    · exact .inr ⟨_, s, rfl, hs, .inr ⟨_, _, rfl, P, h1, hP⟩⟩
    · obtain ⟨nd, g1, g2, g3⟩ := hs _ _ hc
      obtain ⟨s', e1, e2⟩ := forceCell (recN (env u body hv ha) 0) _ none s nd g1
      rw [g2, g3] at e1
      refine .inl ?_
      show (opForce _ tyM (cellAt n) none >>= _) s = _
      rw [M.bind_ok e1]; rfl
  | succ k ih =>
    intro m s ⟨P, h0, hP⟩ hs
    rcases hP m h0 with ⟨d', c, tl, rfl, hd, h1⟩ | ⟨n, tl, rfl, h1⟩ | ⟨n, tl, rfl, hc, h1⟩
    · exact .inr ⟨_, s, rfl, hs, .inl ⟨_, _, _, rfl, P, h1, hP⟩⟩
    · exact .inr ⟨_, s, rfl, hs, .inr ⟨_, _, rfl, P, h1, hP⟩⟩
    · obtain ⟨nd, g1, g2, g3⟩ := hs _ _ hc
      obtain ⟨s', e1, e2⟩ := forceCell (recN (env u body hv ha) (k + 1)) _ none s nd g1
      rw [g2, g3] at e1
      have hs' : Holds cs s' := fun n v hn => by rw [e2.graph]; exact hs n v hn
      have e3 : runProg (env u body hv ha) (recN (env u body hv ha) (k + 1)) (view (.art (cellAt n))) s = (runProg (env u body hv ha) (recN (env u body hv ha) k) (view tl) >>= fun v => pure v) s' := by
        show (opForce _ tyM (cellAt n) none >>= _) s = _
        rw [M.bind_ok e1]; rfl
      rw [e3, M.bind_def]
      rcases ih (m := tl) (s := s') ⟨P, h1, hP⟩ hs' with h2 | ⟨m', s2, h2, h3⟩
      · rw [h2]; exact .inl rfl
      · rw [h2]; exact .inr ⟨m', s2, rfl, h3⟩

theorem fold_endless {cs : Cells (CV D C R)} {ok : D → Prop} {i : Nat} {r : R} (k : Nat) : ∀ {m : MapV D C} {s : St (CV D C R)}, Endless cs ok m → Holds cs s →
    runProg (env u body hv ha) (recN (env u body hv ha) k) (fold body i m r) s = .oof := by
  induction k with
  | zero => intro m s _ _; rfl
  | succ k ih =>
    intro m s h hs
    show (runProg (env u body hv ha) (recN (env u body hv ha) k) (view m) >>= _) s = _
    rw [M.bind_def]
    rcases view_endless (u := u) (body := body) (hv := hv) (ha := ha) k h hs with h2 | ⟨m', s', h2, h3, ⟨d, c, tl, rfl, h4⟩ | ⟨n, tl, rfl, h4⟩⟩
    · rw [h2]
    · rw [h2]
      show (runProg (env u body hv ha) (recN (env u body hv ha) k) (fold body i tl r) >>= _) s' = _
      rw [M.bind_def, ih h4 h3]
    · rw [h2]
      show (runProg (env u body hv ha) (recN (env u body hv ha) k) (fold body i tl r) >>= _) s' = _
      rw [M.bind_def, ih h4 h3]

/-- Code that reads cells, run on a state that holds them. -/
theorem QReads.runs {e : Env (CV D C R)} {cs : Cells (CV D C R)} {p : Prog (CV D C R)} {ns : List Name} {v : CV D C R} (h : QReads e tyM cs p ns v) :
    ∀ {s : St (CV D C R)}, Holds cs s → ∃ N s', (∀ n, N ≤ n → runProg e (recN e n) p s = .ok v s') ∧ Holds cs s' := by
  induction h with
  | ret => intro s hs; exact ⟨0, s, fun _ _ => rfl, hs⟩
  | @force n w k ns v h1 _ ih =>
    intro s hs
    obtain ⟨nd, g1, g2, g3⟩ := hs _ _ h1
    have e1 : ∃ s', (∀ n', opForce (recN e n') tyM (cellAt n) none s = .ok w s') ∧ Holds cs s' := by
      obtain ⟨s', e1, e2⟩ := forceCell (recN e 0) _ none s nd g1
      rw [g2, g3] at e1
      refine ⟨s', fun n' => ?_, fun n v hn => by rw [e2.graph]; exact hs n v hn⟩
      rw [← e1]
      unfold opForce
      rw [M.bind_ok (M.get_def s), M.bind_ok (M.get_def s), M.bind_ok (resNode_ok (ty := tyM) g1 g2), M.bind_ok (resNode_ok (ty := tyM) g1 g2)]
    obtain ⟨s', e1, hs'⟩ := e1
    obtain ⟨N, s2, h2, h3⟩ := ih hs'
    refine ⟨N, s2, fun n' hN => ?_, h3⟩
    show (opForce _ tyM (cellAt n) none >>= _) s = _
    rw [M.bind_ok (e1 n')]
    exact h2 n' hN
  | @call fn arg k ns1 w ns2 v _ _ ih1 ih2 =>
    intro s hs
    obtain ⟨N1, s1, a1, a2⟩ := ih1 hs
    obtain ⟨N2, s2, b1, b2⟩ := ih2 a2
    refine ⟨N1 + N2 + 1, s2, fun n hN => ?_, b2⟩
    obtain ⟨n, rfl⟩ : ∃ m, n = m + 1 := ⟨n - 1, by omega⟩
    show (runProg e (recN e n) (e.code fn arg) >>= _) s = _
    rw [M.bind_ok (a1 n (by omega))]
    exact b1 (n + 1) (by omega)

/-- The first repeated name. -/
theorem first_repeated {v : List (NameElse (D × C))} (h : ¬ (namesOf v).Nodup) : ∃ w n c, v = w ++ .name n :: c ∧ n ∈ namesOf w ∧ (namesOf w).Nodup := by
  have key : ∀ (q p : List (NameElse (D × C))), (namesOf p).Nodup → ¬ (namesOf (p ++ q)).Nodup → ∃ w n c, p ++ q = w ++ .name n :: c ∧ n ∈ namesOf w ∧ (namesOf w).Nodup := by
    intro q
    induction q with
    | nil => intro p h1 h2; rw [List.append_nil] at h2; exact absurd h1 h2
    | cons x q ih =>
      intro p h1 h2
      rw [show p ++ x :: q = (p ++ [x]) ++ q by rw [List.append_assoc]; rfl] at h2 ⊢
      cases x with
      | elm e => exact ih _ (by rw [Coll.namesOf_append]; show (namesOf p ++ []).Nodup; rwa [List.append_nil]) h2
      | name n =>
        by_cases hn : n ∈ namesOf p
        · exact ⟨p, n, q, by rw [List.append_assoc]; rfl, hn, h1⟩
        · refine ih _ ?_ h2
          rw [Coll.namesOf_append]
          show (namesOf p ++ [n]).Nodup
          rw [List.nodup_append]
          exact ⟨h1, by simp, fun a ha b hb e => by rw [List.mem_singleton] at hb; subst hb; subst e; exact hn ha⟩
  exact key v [] List.nodup_nil h

theorem mem_names {w : List (NameElse (D × C))} {n : Name} (h : n ∈ namesOf w) : ∃ p q, w = p ++ .name n :: q := by
  induction w with
  | nil => cases h
  | cons x w ih =>
    cases x with
    | elm e => obtain ⟨p, q, rfl⟩ := ih h; exact ⟨.elm e :: p, q, rfl⟩
    | name n' =>
      rcases List.mem_cons.1 (show n ∈ n' :: namesOf w from h) with rfl | h
      · exact ⟨[], w, rfl⟩
      · obtain ⟨p, q, rfl⟩ := ih h; exact ⟨.name n' :: p, q, rfl⟩

/-- Behind the first repeated name, the list goes back to where the name was first. -/
theorem endless (cs : Cells (CV D C R)) {w c : List (NameElse (D × C))} {n : Name} (hn : n ∈ namesOf w) (hw : (namesOf w).Nodup) {ok : D → Prop} (hok : ∀ e ∈ elmsOf w, ok e.1) :
    Endless (vecCells cs (w ++ .name n :: c)) ok (vecList (w ++ .name n :: c)) := by
  refine ⟨fun m => (∃ p q, w = p ++ q ∧ m = vecList (q ++ .name n :: c)) ∨ ∃ n' ∈ namesOf w, m = .art (cellAt n'), .inl ⟨[], w, rfl, rfl⟩, ?_⟩
  rintro m (⟨p, q, rfl, rfl⟩ | ⟨n', h, rfl⟩)
  · cases q with
    | nil => exact .inr (.inl ⟨n, _, rfl, .inr ⟨n, hn, rfl⟩⟩)
    | cons x q =>
      cases x with
      | name n' => exact .inr (.inl ⟨n', _, rfl, .inr ⟨n', by rw [Coll.namesOf_append]; exact List.mem_append_right _ (List.mem_cons_self ..), rfl⟩⟩)
      | elm e => exact .inl ⟨e.1, e.2, _, rfl, hok e (by rw [Coll.elmsOf_append]; exact List.mem_append_right _ (List.mem_cons_self ..)), .inl ⟨p ++ [.elm e], q, by rw [List.append_assoc]; rfl, rfl⟩⟩
  · obtain ⟨p, q, rfl⟩ := mem_names h
    refine .inr (.inr ⟨n', vecList (q ++ .name n :: c), rfl, ?_, .inl ⟨p ++ [.name n'], q, by rw [List.append_assoc]; rfl, rfl⟩⟩)
    rw [List.append_assoc]
    refine vecCells_first cs fun hp => ?_
    rw [Coll.namesOf_append] at hw
    exact (List.nodup_append.1 hw).2.2 n' hp n' (List.mem_cons_self ..) rfl

/-- Entries before the first repeated name are found. -/
theorem found (cs : Cells (CV D C R)) {w c : List (NameElse (D × C))} {n : Name} (hw : (namesOf w).Nodup) {d : D} {x : C} : ∀ {p q : List (NameElse (D × C))}, w = p ++ q →
    ((elmsOf q).find? fun e => decide (e.1 = d)).map Prod.snd = some x → ∃ ns, Finds (vecCells cs (w ++ .name n :: c)) (vecList (q ++ .name n :: c)) d (some x) ns := by
  intro p q
  induction q generalizing p with
  | nil => intro _ h; cases h
  | cons y q ih =>
    intro e h
    have e' : w = (p ++ [y]) ++ q := by rw [e, List.append_assoc]; rfl
    cases y with
    | name n' =>
      obtain ⟨ns, h1⟩ := ih e' h
      have hc : vecCells cs (w ++ .name n :: c) n' = some (.map (vecList (q ++ .name n :: c))) := by
        rw [e, List.append_assoc]
        refine vecCells_first cs fun hp => ?_
        rw [e, Coll.namesOf_append] at hw
        exact (List.nodup_append.1 hw).2.2 n' hp n' (List.mem_cons_self ..) rfl
      cases h1 with
      | hit a b => exact ⟨_, .hit (.name (.art hc a)) b⟩
    | elm y =>
      have h : ((y :: elmsOf q).find? fun e => decide (e.1 = d)).map Prod.snd = some x := h
      by_cases hd : y.1 = d
      · rw [List.find?_cons_of_pos (by simpa using hd)] at h
        cases h
        subst hd
        exact ⟨[], .hit .here (fun _ h => by cases h)⟩
      · rw [List.find?_cons_of_neg (by simpa using hd)] at h
        obtain ⟨ns, h1⟩ := ih e' h
        cases h1 with
        | hit a b => exact ⟨_, .hit (.cons a) (by intro z hz; rcases List.mem_cons.1 hz with rfl | hz; exact hd; exact b z hz)⟩

/-- **C98 (a repeated name).** If a name occurs twice in the vector, then the list that `list_of_vec` makes in a new engine is endless: behind the first name that has occurred before, the list goes on where that name was first.
The entries up to there are found.  A look-up of any other key, also of one that the vector has an entry for further on, never returns, and neither does a fold; in the naive engine the same look-up returns the first entry of the vector for
the key.  (The model counts recursion depth: `oof` at each depth is the overflow of every stack.) -/
theorem C98_repeated_name (v : List (NameElse (D × C))) (h : ¬ (namesOf v).Nodup) (purity : Bool) : ∃ w n c, v = w ++ .name n :: c ∧ n ∈ namesOf w ∧ (namesOf w).Nodup ∧
    (∀ d x, ((elmsOf w).find? fun e => decide (e.1 = d)).map Prod.snd = some x →
      ∃ N s', ∀ k, N ≤ k → exec (env u body hv ha) k (listOfVec v fun l => .call fFun (.find l d) .ret) (initSt purity false) = .ok (.opt (some x)) s') ∧
    (∀ d, (∀ e ∈ elmsOf w, e.1 ≠ d) → ∀ k, exec (env u body hv ha) k (listOfVec v fun l => .call fFun (.find l d) .ret) (initSt purity false) = .oof) ∧
    (∀ i r k, exec (env u body hv ha) k (listOfVec v fun l => .call fFun (.fold i l r) .ret) (initSt purity false) = .oof) ∧
    ∀ d, Coll.mapFind d (Coll.listOfVec v) = ((elmsOf v).find? fun e => decide (e.1 = d)).map Prod.snd := by
  obtain ⟨w, n, c, rfl, hn, hw⟩ := first_repeated h
  have hf : Fresh (initSt purity false : St (CV D C R)) := ⟨rfl, rfl, rfl, fun x n h => by cases h⟩
  have hc : Holds (fun _ => none) (initSt purity false : St (CV D C R)) := fun n v h => by cases h
  refine ⟨w, n, c, rfl, hn, hw, fun d x hx => ?_, fun d hd k => ?_, fun i r k => ?_, fun d => ?_⟩
  · obtain ⟨ns, h1⟩ := found (R := R) (fun _ => none) (c := c) (n := n) hw (p := []) rfl hx
    have h2 := (Answers.find (u := u) (body := body) h1).reads (hv := hv) (ha := ha)
    obtain ⟨s', e1, _, hs⟩ := listOfVec_fresh (env := env u body hv ha) (v := w ++ .name n :: c) (k := fun l => .call fFun (.find l d) .ret) hf hc
    obtain ⟨N, s2, h4, _⟩ := QReads.runs h2 hs
    exact ⟨N, s2, fun k hk => (e1 _).trans (h4 k hk)⟩
  · obtain ⟨s', e1, _, hs⟩ := listOfVec_fresh (env := env u body hv ha) (v := w ++ .name n :: c) (k := fun l => .call fFun (.find l d) .ret) hf hc
    show runProg _ _ _ _ = _
    rw [e1 _]
    cases k with
    | zero => rfl
    | succ k =>
      show (runProg (env u body hv ha) (recN (env u body hv ha) k) (find _ d) >>= _) s' = _
      rw [M.bind_def, find_endless k (endless _ hn hw hd) hs]
  · obtain ⟨s', e1, _, hs⟩ := listOfVec_fresh (env := env u body hv ha) (v := w ++ .name n :: c) (k := fun l => .call fFun (.fold i l r) .ret) hf hc
    show runProg _ _ _ _ = _
    rw [e1 _]
    cases k with
    | zero => rfl
    | succ k =>
      show (runProg (env u body hv ha) (recN (env u body hv ha) k) (fold body i _ r) >>= _) s' = _
      rw [M.bind_def, fold_endless k (endless (ok := fun _ => True) _ hn hw (fun _ _ => trivial)) hs]
  · rw [Coll.map_find_eq, show (Coll.listOfVec (w ++ NameElse.name n :: c)).elems = elmsOf (w ++ NameElse.name n :: c) from congrArg elmsOf (Coll.listOfVec_items _)]
    congr 2
    funext e
    exact decide_eq_decide.2 eq_comm
end

/-! ### An example -/

namespace VecEx
open Ex (V e a b rn)
def v : List (NameElse (Nat × Nat)) := [.elm (1, 10), .name a, .elm (2, 20), .name b, .elm (1, 11), .elm (3, 30)]
/-- The same with a repeated name. -/
def v2 : List (NameElse (Nat × Nat)) := [.elm (1, 10), .name a, .elm (2, 20), .name a, .elm (1, 11), .elm (3, 30)]

example : (namesOf v).Nodup := by decide
example : ¬ (namesOf v2).Nodup := by decide

/-- A session: the list of C96, and then a vector that reuses two of its names. -/
example : ∃ N s', ∀ n, N ≤ n → runSession e n ([Ex.s0].map (stepProg rn) ++ [vecStep rn v fun l => .find l 3]) (initSt true false) = .ok ([.res 490] ++ [.opt (some 30)]) s' :=
  (C98_list_of_vec (u := 0) (body := fun _ d c r => 2 * r + d * c) (hv := fun _ => 0) (ha := fun _ _ => 0) rn [Ex.s0] _ (.cons (cs' := Ex.cs0) rfl (.fold Ex.walk0) .nil) true v (by decide) _ (.opt (some 30)) (.inl ⟨3, rfl, rfl⟩)).1

def result (v : List (NameElse (Nat × Nat))) (d : Nat) : Option V :=
  match exec e 40 (listOfVec v fun l => .call fFun (.find l d) .ret) (initSt true false) with
  | .ok r _ => some r
  | _ => none
/-- With distinct names all is found; with the repeated name, 2 is found and 3 is not, after 40 levels of recursion (nor after any other number: C98). -/
example : [result v 2, result v 3, result v 4, result v2 2, result v2 3, result v2 4] = [some (.opt (some 20)), some (.opt (some 30)), some (.opt none), some (.opt (some 20)), none, none] := by decide +kernel
example : Coll.mapFind 3 (Coll.listOfVec v2) = some 30 := by decide
end VecEx
end Adapton.MapProg
