import Verif.Trace.Shape
import Verif.Props.Scoping
/-
C54: counting the effects of a recorded trace (`reflect::trace::trace_count`).
-/
set_option linter.unusedSectionVars false
set_option linter.unusedVariables false
namespace Adapton.Trace
open Adapton
variable {V : Type} [UEq V]

/-! ### Specification: which traces are counted -/

/-- A fresh allocation. -/
def isFresh : CTree → Bool | .node (.eng (.alloc .locFresh _)) _ => true | _ => false
/-- An allocation of an existing location with the same content. -/
def isSame : CTree → Bool | .node (.eng (.alloc (.locExists false) _)) _ => true | _ => false
/-- An allocation of an existing location with changed content. -/
def isDiff : CTree → Bool | .node (.eng (.alloc (.locExists true) _)) _ => true | _ => false
/-- A dirtied edge. -/
def isDirty : CTree → Bool | .node (.eng .dirty) _ => true | _ => false
/-- The recursive cleaning of an edge. -/
def isCleanRec : CTree → Bool | .node (.eng .cleanRec) _ => true | _ => false
/-- A re-evaluation. -/
def isReeval : CTree → Bool | .node (.eng .cleanEval) _ => true | _ => false
/-- A demand of a thunk that has no cached result. -/
def isFirstRun : CTree → Bool | .node (.eng (.force .compCacheMiss)) _ => true | _ => false
/-- Something changed in the extent: a location was allocated or its content changed, a thunk was run for the first time, or an
edge was dirtied. -/
def hasChange : CTree → Bool | .node _ ext => ext.any fun t => isFresh t || isDiff t || isFirstRun t || isDirty t
/-- The demand of a thunk. -/
def isCompForce : CTree → Bool
  | .node (.eng (.force .compCacheHit)) _ => true
  | .node (.eng (.force .compCacheMiss)) _ => true
  | _ => false
/-- The extent of a trace. -/
def CTree.ext : CTree → List CTree | .node _ ext => ext

/-- The traces of the archivist: everything inside the editor's demands of thunks. -/
def archivistPart (trs : List CTree) : List CTree := allL ((trs.filter isCompForce).flatMap CTree.ext)
/-- The dirtying done by the editor: everything outside those demands. -/
def editorPart (trs : List CTree) : List CTree := allL (trs.filter fun t => !isCompForce t)

/-- What `trace_count` should return. -/
def countSpec (trs : List CTree) (total : Option Nat) : Count where
  updates := total.getD 1
  archivist := trs.countP isCompForce
  reevalNochange := (archivistPart trs).countP fun t => isReeval t && !hasChange t
  reevalChange := (archivistPart trs).countP fun t => isReeval t && hasChange t
  cleanRec := (archivistPart trs).countP isCleanRec
  dirty := ((editorPart trs).countP isDirty, (archivistPart trs).countP isDirty)
  fresh := (trs.countP isFresh, (archivistPart trs).countP isFresh)
  nochange := (trs.countP isSame, (archivistPart trs).countP isSame)
  change := (trs.countP isDiff, (archivistPart trs).countP isDiff)

/-! ### The archivist's part -/

theorem isChange_eq (t : CTree) : isChange t.eff = (isFresh t || isDiff t || isFirstRun t || isDirty t) := by
  match t with
  | .node .debug _ => rfl
  | .node (.eng (.alloc .locFresh _)) _ => rfl
  | .node (.eng (.alloc (.locExists true) _)) _ => rfl
  | .node (.eng (.alloc (.locExists false) _)) _ => rfl
  | .node (.eng (.force .refGet)) _ => rfl
  | .node (.eng (.force .compCacheHit)) _ => rfl
  | .node (.eng (.force .compCacheMiss)) _ => rfl
  | .node (.eng .dirty) _ => rfl
  | .node (.eng .cleanRec) _ => rfl
  | .node (.eng .cleanEdge) _ => rfl
  | .node (.eng .cleanEval) _ => rfl
  | .node (.eng .remove) _ => rfl

/-- What one trace of the archivist adds. -/
def add1 (c : Count) (t : CTree) : Count :=
  { c with
    reevalNochange := c.reevalNochange + (if isReeval t && !hasChange t then 1 else 0)
    reevalChange := c.reevalChange + (if isReeval t && hasChange t then 1 else 0)
    cleanRec := c.cleanRec + (if isCleanRec t then 1 else 0)
    dirty := (c.dirty.1, c.dirty.2 + (if isDirty t then 1 else 0))
    fresh := (c.fresh.1, c.fresh.2 + (if isFresh t then 1 else 0))
    nochange := (c.nochange.1, c.nochange.2 + (if isSame t then 1 else 0))
    change := (c.change.1, c.change.2 + (if isDiff t then 1 else 0)) }

def addA (c : Count) (l : List CTree) : Count := l.foldl add1 c

theorem addA_append (c : Count) (a b : List CTree) : addA c (a ++ b) = addA (addA c a) b := List.foldl_append

theorem addA_spec (l : List CTree) : ∀ c : Count, addA c l =
    { c with
      reevalNochange := c.reevalNochange + l.countP fun t => isReeval t && !hasChange t
      reevalChange := c.reevalChange + l.countP fun t => isReeval t && hasChange t
      cleanRec := c.cleanRec + l.countP isCleanRec
      dirty := (c.dirty.1, c.dirty.2 + l.countP isDirty)
      fresh := (c.fresh.1, c.fresh.2 + l.countP isFresh)
      nochange := (c.nochange.1, c.nochange.2 + l.countP isSame)
      change := (c.change.1, c.change.2 + l.countP isDiff) } := by
  induction l with
  | nil => intro c; rfl
  | cons t l ih =>
    intro c
    show addA (add1 c t) l = _
    rw [ih]
    simp only [add1, List.countP_cons, Count.mk.injEq, Prod.mk.injEq, true_and]
    omega

mutual
/-- What dirtying adds. -/
theorem countDirty_arch : ∀ (t : CTree), DirtyT t → ∀ c, countDirty .archivist t c = addA c t.all
  | .node e ext, h, c => by
    cases h with
    | mk h =>
      unfold countDirty CTree.all
      rw [if_pos rfl, countDirtyL_arch ext h]
      show addA { c with dirty := (c.dirty.1, c.dirty.2 + 1) } (allL ext) = addA (add1 c (.node (.eng .dirty) ext)) (allL ext)
      rfl
theorem countDirtyL_arch : ∀ (ts : List CTree), (∀ t ∈ ts, DirtyT t) → ∀ c, countDirtyL .archivist ts c = addA c (allL ts)
  | [], _, c => rfl
  | t :: ts, h, c => by
    unfold countDirtyL allL
    rw [countDirty_arch t (h t (List.mem_cons_self ..)), countDirtyL_arch ts (fun t ht => h t (List.mem_cons_of_mem _ ht)), addA_append]
end

theorem countRecL_of {r : Role} {f : Count → List CTree → Count} (hf0 : ∀ c, f c [] = c) (hf : ∀ c a b, f c (a ++ b) = f (f c a) b)
    (ts : List CTree) (h : ∀ t ∈ ts, ∀ c, countRec r t c = some (f c t.all)) : ∀ c, countRecL r ts c = some (f c (allL ts)) := by
  induction ts with
  | nil => intro c; unfold countRecL allL; rw [hf0]
  | cons t ts ih =>
    intro c
    unfold countRecL allL
    rw [h t (List.mem_cons_self ..), hf]
    exact ih (fun t ht => h t (List.mem_cons_of_mem _ ht)) _

theorem countRec_dirty (t : CTree) (h : DirtyT t) (c : Count) : countRec .archivist t c = some (addA c t.all) := by
  rw [← countDirty_arch t h]
  cases h with
  | mk h => unfold countRec; rfl

theorem countRec_arch (t : CTree) (h : ArchT t) : ∀ c, countRec .archivist t c = some (addA c t.all) := by
  have key := @countRecL_of .archivist addA (fun _ => rfl) addA_append
  induction h with
  | dirty h => intro c; exact countRec_dirty _ (.mk h) c
  | remove => intro c; rfl
  | cleanEdge => intro c; rfl
  | fresh => intro c; rfl
  | refGet => intro c; rfl
  | @existing d k ext h =>
    intro c
    have := key ext (fun t ht c => by
      rcases h t ht with h | rfl
      · exact countRec_dirty t h c
      · rfl)
    cases d
    · unfold countRec; simp only []; rw [this]; rfl
    · unfold countRec; simp only []; rw [this]; rfl
  | @hit ext h ih => intro c; unfold countRec; simp only []; rw [key ext ih]; rfl
  | @miss ext h ih => intro c; unfold countRec; simp only []; rw [key ext ih]; rfl
  | @cleanRec ext h ih => intro c; unfold countRec; simp only []; rw [key ext ih]; rfl
  | @cleanEval ext h ih =>
    intro c
    unfold countRec CTree.all
    simp only []
    rw [key ext ih]
    show _ = some (addA (add1 c _) (allL ext))
    rw [show (fun t : CTree => isChange t.eff) = fun t => isFresh t || isDiff t || isFirstRun t || isDirty t from funext isChange_eq]
    have hh : hasChange (.node (.eng .cleanEval) ext) = ext.any fun t => isFresh t || isDiff t || isFirstRun t || isDirty t := rfl
    rw [← hh]
    unfold add1
    cases hc : hasChange (.node (.eng .cleanEval) ext) <;> rfl

theorem countRecL_arch (ts : List CTree) (h : ∀ t ∈ ts, ArchT t) (c : Count) :
    countRecL .archivist ts c = some (addA c (allL ts)) :=
  countRecL_of (fun _ => rfl) addA_append ts (fun t ht => countRec_arch t (h t ht)) c

/-! ### The editor's part -/

def addD (c : Count) (l : List CTree) : Count := { c with dirty := (c.dirty.1 + l.countP isDirty, c.dirty.2) }

theorem addD_append (c : Count) (a b : List CTree) : addD c (a ++ b) = addD (addD c a) b := by
  simp [addD, List.countP_append, Nat.add_assoc]

mutual
theorem countDirty_ed : ∀ (t : CTree) (c : Count), countDirty .editor t c = addD c t.all
  | .node e ext, c => by
    unfold countDirty CTree.all
    rw [countDirtyL_ed ext]
    show _ = addD c ([CTree.node e ext] ++ allL ext)
    rw [addD_append]
    congr 1
    by_cases h : e = .eng .dirty
    · subst h; rw [if_pos rfl]; rfl
    · rw [if_neg h]
      have : isDirty (.node e ext) = false := by
        match e, h with
        | .debug, _ => rfl
        | .eng (.alloc _ _), _ => rfl
        | .eng (.force _), _ => rfl
        | .eng .dirty, h => exact absurd rfl h
        | .eng .cleanRec, _ => rfl
        | .eng .cleanEdge, _ => rfl
        | .eng .cleanEval, _ => rfl
        | .eng .remove, _ => rfl
      simp [addD, this]
theorem countDirtyL_ed : ∀ (ts : List CTree) (c : Count), countDirtyL .editor ts c = addD c (allL ts)
  | [], c => rfl
  | t :: ts, c => by
    unfold countDirtyL allL
    rw [countDirty_ed t, countDirtyL_ed ts, addD_append]
end

/-- What one trace of the editor adds. -/
def addE (c : Count) (t : CTree) : Count :=
  if isCompForce t then addA { c with archivist := c.archivist + 1 } (allL t.ext)
  else addD { c with
    fresh := (c.fresh.1 + (if isFresh t then 1 else 0), c.fresh.2)
    nochange := (c.nochange.1 + (if isSame t then 1 else 0), c.nochange.2)
    change := (c.change.1 + (if isDiff t then 1 else 0), c.change.2) } t.all

theorem countRec_ed (t : CTree) (h : EdT t) (c : Count) : countRec .editor t c = some (addE c t) := by
  obtain ⟨h, hu⟩ := h
  cases h with
  | dirty h => unfold countRec; simp only []; rw [countDirty_ed]; rfl
  | remove => cases hu
  | cleanEdge => cases hu
  | fresh => rfl
  | refGet => rfl
  | @existing d k ext h =>
    cases d
    · unfold countRec; simp only []; rw [countDirtyL_ed]
      show _ = some (addD _ ([CTree.node _ ext] ++ allL ext)); rw [addD_append]; rfl
    · unfold countRec; simp only []; rw [countDirtyL_ed]
      show _ = some (addD _ ([CTree.node _ ext] ++ allL ext)); rw [addD_append]; rfl
  | hit h => unfold countRec; simp only []; rw [countRecL_arch _ h]; rfl
  | miss h => unfold countRec; simp only []; rw [countRecL_arch _ h]; rfl
  | cleanRec h => cases hu
  | cleanEval h => cases hu

theorem countRecL_ed (ts : List CTree) (h : ∀ t ∈ ts, EdT t) : ∀ c, countRecL .editor ts c = some (ts.foldl addE c) := by
  induction ts with
  | nil => intro c; rfl
  | cons t ts ih =>
    intro c
    unfold countRecL
    rw [countRec_ed t (h t (List.mem_cons_self ..))]
    exact ih (fun t ht => h t (List.mem_cons_of_mem _ ht)) _

theorem allL_append (a b : List CTree) : allL (a ++ b) = allL a ++ allL b := by
  induction a with
  | nil => rfl
  | cons t a ih => simp [allL, ih]

theorem compForce_other {t : CTree} (h : isCompForce t = true) : isFresh t = false ∧ isSame t = false ∧ isDiff t = false := by
  match t, h with
  | .node (.eng (.force .compCacheHit)) _, _ => exact ⟨rfl, rfl, rfl⟩
  | .node (.eng (.force .compCacheMiss)) _, _ => exact ⟨rfl, rfl, rfl⟩

theorem foldl_addE (ts : List CTree) : ∀ c : Count, ts.foldl addE c =
    { updates := c.updates
      archivist := c.archivist + ts.countP isCompForce
      reevalNochange := c.reevalNochange + (archivistPart ts).countP fun t => isReeval t && !hasChange t
      reevalChange := c.reevalChange + (archivistPart ts).countP fun t => isReeval t && hasChange t
      cleanRec := c.cleanRec + (archivistPart ts).countP isCleanRec
      dirty := (c.dirty.1 + (editorPart ts).countP isDirty, c.dirty.2 + (archivistPart ts).countP isDirty)
      fresh := (c.fresh.1 + ts.countP isFresh, c.fresh.2 + (archivistPart ts).countP isFresh)
      nochange := (c.nochange.1 + ts.countP isSame, c.nochange.2 + (archivistPart ts).countP isSame)
      change := (c.change.1 + ts.countP isDiff, c.change.2 + (archivistPart ts).countP isDiff) } := by
  induction ts with
  | nil => intro c; rfl
  | cons t ts ih =>
    intro c
    rw [List.foldl_cons, ih]
    cases ht : isCompForce t
    · have h1 : archivistPart (t :: ts) = archivistPart ts := by simp [archivistPart, ht]
      have h2 : editorPart (t :: ts) = t.all ++ editorPart ts := by simp [editorPart, ht, allL]
      rw [h1, h2]
      simp only [addE, ht, Bool.false_eq_true, if_false, addD, List.countP_cons, List.countP_append, Count.mk.injEq, Prod.mk.injEq, true_and]
      simp only [Nat.add_comm, Nat.add_left_comm, Nat.add_zero, and_self]
    · have h1 : archivistPart (t :: ts) = allL t.ext ++ archivistPart ts := by
        simp [archivistPart, ht, allL_append]
      have h2 : editorPart (t :: ts) = editorPart ts := by simp [editorPart, ht]
      obtain ⟨g1, g2, g3⟩ := compForce_other ht
      rw [h1, h2]
      simp only [addE, ht, if_true, addA_spec, List.countP_cons, List.countP_append, Count.mk.injEq, Prod.mk.injEq, true_and, g1, g2, g3,
        Bool.false_eq_true, if_false]
      omega

theorem traceCount_spec (ts : List CTree) (h : ∀ t ∈ ts, EdT t) (total : Option Nat) :
    traceCount ts total = some (countSpec ts total) := by
  unfold traceCount
  rw [countRecL_ed ts h, foldl_addE]
  simp [countSpec, Count.zero]

/-- The recorder's forest is determined by the events. -/
theorem runs_parses {evs : List Ev} {ts : List Tree} (h : Parses evs ts) : ∀ (top : List Tree) (K : TrSt) (rest : List Ev),
    runs (evs ++ rest) (top :: K) = runs rest ((ts.reverse ++ top) :: K) := by
  induction h with
  | nil => intro top K rest; rfl
  | @eff e a b evs ts h ih =>
    intro top K rest
    show runs (evs ++ rest) ((.node e a b [] :: top) :: K) = _
    rw [ih]; simp
  | @ext e a b inner ex rst ts hi hr ihi ihr =>
    intro top K rest
    show (step (.begin e a b) (top :: K)).bind (runs ((inner ++ .end_ :: rst) ++ rest)) = _
    simp only [step, Option.bind_some, List.append_assoc, List.cons_append]
    rw [ihi, runs]
    simp only [step, Option.bind_some, List.append_nil, List.reverse_reverse]
    rw [ihr]; simp

/-- **C54.** Recording a sequence of editor programs, whatever they do and from whatever state: the recorder returns a forest
(`dcg_reflect_end` does not panic), `trace_count` on this forest does not panic either, and every count it returns is the number
of traces of that kind: the editor's at the top level, the archivist's inside the editor's demands of thunks. -/
theorem C54_trace_count (env : Env V) (n : Nat) (ps : List (Prog V)) (s s' : St V) (vs : List V)
    (h : runSession env n ps s = .ok vs s') (total : Option Nat) :
    ∃ evs tr ts, s'.log = evs.reverse ++ s.log ∧ runs evs [[]] = some tr ∧ reflectEnd (some tr) = some (none, ts) ∧
      traceCount (toCL ts) total = some (countSpec (toCL ts) total) := by
  obtain ⟨evs, ts, h1, h2, h3⟩ := runSession_emits env n ps s vs s' h
  have hr := runs_parses h2 [] [] []
  refine ⟨evs, [ts.reverse], ts, h1, ?_, ?_, traceCount_spec _ h3 total⟩
  · simpa [runs] using hr
  · simp [reflectEnd]

/-- **C54.** Inside a `Debug` extent, only dirtied edges are counted: whatever else happened there (allocations, demands,
re-evaluations) is not. -/
theorem C54_debug_extent (ext : List CTree) (c : Count) :
    countRec .editor (.node .debug ext) c = some { c with dirty := (c.dirty.1 + (allL ext).countP isDirty, c.dirty.2) } := by
  show some (countDirty .editor (.node .debug ext) c) = _
  rw [countDirty_ed]
  simp [addD, CTree.all, isDirty]

/-! ### The hypotheses are met -/
namespace Ex
open Adapton.Example1

/-- The session of C01: build, demand, edit, demand again. -/
example : (match runSession env 10 ps (initSt true false) with
    | .ok _ s => (runs s.log.reverse [[]]).bind fun tr => (reflectEnd (some tr)).bind fun r => traceCount (toCL r.2) none
    | _ => none) = some ⟨1, 4, 4, 0, 4, (4, 0), (3, 1), (0, 2), (2, 0)⟩ := by decide +kernel

end Ex
end Adapton.Trace
