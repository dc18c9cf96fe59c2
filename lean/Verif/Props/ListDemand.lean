import Verif.Engine.Query
import Verif.Props.ListEngine
/-
C100: a demand for the first items of a list depends on the cells before the last of them only.
-/
set_option linter.unusedSectionVars false
set_option linter.unusedVariables false
namespace Adapton.ListProg
open Coll (NameElse)
open SortProg (LV)
open EditSession (Cells Edit applyAll cellAt)
open Adapton.Query (QReads Dem)
variable {X : Type} [DecidableEq X]

/-! ### The specification -/

/-- Going through the list from `l`, one passes the elements and names `its` and reads the cells `ns`, and comes to `l'`. -/
inductive Passes (cs : Cells (CV X)) : LV X → List (NameElse X) → List Name → LV X → Prop
  | here {l} : Passes cs l [] [] l
  | cons {x tl its ns l'} : Passes cs tl its ns l' → Passes cs (.cons x tl) (.elm x :: its) ns l'
  | name {n tl its ns l'} : Passes cs tl its ns l' → Passes cs (.name n tl) (.name n :: its) ns l'
  | art {n l its ns l'} : cs n = some (.lst l) → Passes cs l its ns l' → Passes cs (.art (cellAt n)) its (n :: ns) l'

/-- What `vec_of_list(l, limit)` returns, and the cells it reads: the list ends before the limit is reached (or there is none: a limit of 0 is never reached), or the last of `limit` items is an element or a name.
Nothing is said of what is behind the last item. -/
inductive Takes (cs : Cells (CV X)) (l : LV X) : Option Nat → List Name → List (NameElse X) → Prop
  | all {limit its ns} : Passes cs l its ns .nil → (∀ k, limit = some k → k = 0 ∨ its.length < k) → Takes cs l limit ns its
  | elm {its ns x tl} : Passes cs l its ns (.cons x tl) → Takes cs l (some (its.length + 1)) ns (its ++ [.elm x])
  | name {its ns n tl} : Passes cs l its ns (.name n tl) → Takes cs l (some (its.length + 1)) ns (its ++ [.name n])

/-! ### The specification is met -/

section
variable {H : NameHash} {opAt : Name → Op} {g : Nat → X → Option X} {hv : CV X → UInt64} {ha : ProgPt → CV X → UInt64} {cs : Cells (CV X)}

local notation "ENV" => env H opAt g hv ha

theorem QReads.tail {e : Env (CV X)} {fn : FnId} {arg v : CV X} {ns : List Name} (h : QReads e tyL cs (e.code fn arg) ns v) : QReads e tyL cs (.call fn arg .ret) ns v := by
  have := QReads.call (k := .ret) h .ret
  rwa [List.append_nil] at this

/-- Reading through `elim_arg`: an articulation at the head adds its cell. -/
theorem reads_art {l : LV X} {n : Name} {ns : List Name} {v : CV X} {k : CV X → Prog (CV X)} (h1 : cs n = some (.lst l))
    (h : QReads ENV tyL cs (.call fLView (.lst l) k) ns v) : QReads ENV tyL cs (.call fLView (.lst (.art (cellAt n))) k) (n :: ns) v := by
  cases h with
  | @call _ _ _ ns1 w ns2 _ h2 h3 =>
    have h2 : QReads ENV tyL cs ((ENV).code fLView (.lst l)) ns1 w := h2
    refine QReads.call (ns1 := n :: ns1) ?_ h3
    show QReads ENV tyL cs (.force tyL (cellAt n) none fun v => .call fLView v .ret) (n :: ns1) w
    exact .force h1 (QReads.tail h2)

theorem reads_here {l : LV X} {ns : List Name} {v : CV X} {k : CV X → Prog (CV X)} (hl : ∀ a, l ≠ .art a) (h : QReads ENV tyL cs (k (.lst l)) ns v) : QReads ENV tyL cs (.call fLView (.lst l) k) ns v := by
  refine QReads.call (ns1 := []) (w := .lst l) ?_ h
  show QReads ENV tyL cs (lview l) [] (.lst l)
  cases l with
  | art a => exact absurd rfl (hl a)
  | _ => exact .ret

/-- The turns of the loop before the limit is reached. -/
theorem Passes.reads {l l' : LV X} {its : List (NameElse X)} {ns : List Name} (h : Passes cs l its ns l') : ∀ {out : List (NameElse X)} {limit : Option Nat} {ns' : List Name} {v : CV X},
    (∀ k, limit = some k → k ≤ out.length ∨ out.length + its.length < k) → QReads ENV tyL cs (vec l' (out ++ its) limit) ns' v → QReads ENV tyL cs (vec l out limit) (ns ++ ns') v := by
  induction h with
  | here => intro out limit ns' v _ hr; rwa [List.append_nil] at hr
  | @cons x tl its ns l' h ih =>
    intro out limit ns' v hk hr
    refine reads_here (by simp) ?_
    have hne : limit ≠ some (out.length + 1) := fun e => by
      have := hk _ e
      rw [List.length_cons] at this
      omega
    show QReads ENV tyL cs (if limit = some (out.length + 1) then _ else _) _ _
    rw [if_neg hne]
    refine QReads.tail ?_
    show QReads ENV tyL cs (vec tl (out ++ [.elm x]) limit) _ _
    refine ih (out := out ++ [.elm x]) (limit := limit) (fun k e => ?_) (by rw [List.append_assoc]; exact hr)
    have := hk k e
    have hk' : k ≠ out.length + 1 := fun e' => hne (e.trans (congrArg some e'))
    simp only [List.length_append, List.length_cons, List.length_nil] at this ⊢
    omega
  | @name n tl its ns l' h ih =>
    intro out limit ns' v hk hr
    refine reads_here (by simp) ?_
    have hne : limit ≠ some (out.length + 1) := fun e => by
      have := hk _ e
      rw [List.length_cons] at this
      omega
    show QReads ENV tyL cs (if limit = some (out.length + 1) then _ else _) _ _
    rw [if_neg hne]
    refine QReads.tail ?_
    show QReads ENV tyL cs (vec tl (out ++ [.name n]) limit) _ _
    refine ih (out := out ++ [.name n]) (limit := limit) (fun k e => ?_) (by rw [List.append_assoc]; exact hr)
    have := hk k e
    have hk' : k ≠ out.length + 1 := fun e' => hne (e.trans (congrArg some e'))
    simp only [List.length_append, List.length_cons, List.length_nil] at this ⊢
    omega
  | art h1 h ih => exact fun hk hr => reads_art h1 (ih hk hr)

theorem Takes.reads {l : LV X} {limit : Option Nat} {its : List (NameElse X)} {ns : List Name} (h : Takes cs l limit ns its) :
    QReads ENV tyL cs ((ENV).code fRoot (.root [] l limit)) ns (.vec its) := by
  refine QReads.tail ?_
  show QReads ENV tyL cs (vec l [] limit) ns (.vec its)
  cases h with
  | all h hk =>
    rw [← List.append_nil ns]
    refine h.reads (fun k e => ?_) (reads_here (by simp) .ret)
    have := hk k e
    simp only [List.length_nil]
    omega
  | @elm its ns x tl h =>
    rw [← List.append_nil ns]
    refine h.reads (fun k e => ?_) (reads_here (by simp) ?_)
    · cases e
      exact .inr (by simp)
    · show QReads ENV tyL cs (if _ then _ else _) _ _
      rw [List.nil_append, if_pos rfl]
      exact .ret
  | @name its ns n tl h =>
    rw [← List.append_nil ns]
    refine h.reads (fun k e => ?_) (reads_here (by simp) ?_)
    · cases e
      exact .inr (by simp)
    · show QReads ENV tyL cs (if _ then _ else _) _ _
      rw [List.nil_append, if_pos rfl]
      exact .ret

/-! ### Sessions -/

/-- The demanded thunk. -/
def vecOf (H : NameHash) (opAt : Name → Op) (g : Nat → X → Option X) (hv : CV X → UInt64) (ha : ProgPt → CV X → UInt64) (rn : Name) : Adapton.Query.Spec (CV X) where
  env := env H opAt g hv ha
  ns := rootNm
  rn := rn
  ty := tyV
  pp := ppRoot
  fn := fRoot
  cty := tyL

/-- A demand of a session: edits, and then `vec_of_list(l, limit)`. -/
structure DStep (X : Type) where
  edits : List (Edit (CV X))
  l : LV X
  limit : Option Nat

def DStep.step (s : DStep X) : Step X := ⟨s.edits, [], s.l, s.limit⟩

/-- The demands of a session, with the cells read and the results. -/
inductive TakesAll : Cells (CV X) → List (DStep X) → List (List Name × List (NameElse X)) → Prop
  | nil {c0 : Cells (CV X)} : TakesAll c0 [] []
  | cons {c0 c1 : Cells (CV X)} {s ss ns its ds} : applyAll c0 s.edits = some c1 → Takes c1 s.l s.limit ns its → TakesAll c1 ss ds → TakesAll c0 (s :: ss) ((ns, its) :: ds)

/-- **C100.** After any session in which the editor edits cells that hold lists and demands `vec_of_list` of them with limits: a demand, and then, after some edits of cells, the same demand again.  The thunk is run again, once,
if one of the cells read before the last item demanded has another content, and otherwise nothing is run, whatever was edited behind it.  The recorded dependencies are exactly those cells. -/
theorem C100_rerun_iff_before_the_limit (rn : Name) (ss : List (DStep X)) (ds : List (List Name × List (NameElse X))) (h0 : TakesAll (fun _ => none) ss ds) (purity : Bool)
    (l : LV X) (limit : Option Nat) (its1 its2 : List (NameElse X)) (ns1 ns2 : List Name) (es1 es2 : List (Edit (CV X))) (cs1 cs2 : Cells (CV X))
    (hc1 : applyAll (fun _ => none) (ss.flatMap DStep.edits ++ es1) = some cs1) (h1 : Takes cs1 l limit ns1 its1) (hc2 : applyAll cs1 es2 = some cs2) (h2 : Takes cs2 l limit ns2 its2) :
    ∃ N s1 s2, (∀ n, N ≤ n →
        runSession ENV n ((ss ++ [(⟨es1, l, limit⟩ : DStep X)]).map fun s => stepProg rn s.step) (initSt purity false) = .ok ((ds.map fun d => .vec d.2) ++ [.vec its1]) s1 ∧
        exec ENV n (stepProg rn ⟨es2, [], l, limit⟩) s1 = .ok (.vec its2) s2) ∧
      (s2.runs = s1.runs ∨ s2.runs = ⟨rootPath, .nominal rn⟩ :: s1.runs) ∧
      (s2.runs = s1.runs ↔ ∀ m ∈ ns1, cs2 m = cs1 m) ∧
      Adapton.Query.Deps s1 ⟨rootPath, .nominal rn⟩ ns1 ∧ Adapton.Query.Deps s2 ⟨rootPath, .nominal rn⟩ ns2 := by
  have hq : ∀ {cs : Cells (CV X)} {ss : List (DStep X)} {ds : List (List Name × List (NameElse X))}, TakesAll cs ss ds →
      ∃ es, Adapton.Query.Demands (vecOf H opAt g hv ha rn) cs (ss.map fun s => ⟨s.edits, .root [] s.l s.limit⟩) es ∧ es.map Dem.res = ds.map fun d => .vec d.2 := by
    intro cs ss ds h
    induction h with
    | nil => exact ⟨[], .nil, rfl⟩
    | @cons c0 c1 s ss ns its ds h1 h2 _ ih =>
      obtain ⟨es, e1, e2⟩ := ih
      exact ⟨⟨.root [] s.l s.limit, ns, .vec its⟩ :: es, .cons h1 h2.reads rfl e1, congrArg (List.cons _) e2⟩
  obtain ⟨es, e1, e2⟩ := hq h0
  have hfm : (ss.map fun s => (⟨s.edits, .root [] s.l s.limit⟩ : EditSession.Step (CV X))).flatMap EditSession.Step.edits = ss.flatMap DStep.edits := by
    rw [List.flatMap_map]
  obtain ⟨N, s1, s2, r1, r2⟩ := Adapton.Query.query_twice e1 purity ⟨.root [] l limit, ns1, .vec its1⟩ ⟨.root [] l limit, ns2, .vec its2⟩ rfl es1 es2 cs1 cs2 (by rw [hfm]; exact hc1) h1.reads hc2 h2.reads
  rw [e2] at r1
  refine ⟨N, s1, s2, fun n hN => ?_, r2⟩
  obtain ⟨a, b⟩ := r1 n hN
  refine ⟨?_, b⟩
  rw [List.map_append, List.map_map] at a
  rw [List.map_append]
  exact a

theorem Passes.congr {cs' : Cells (CV X)} {l l' : LV X} {its : List (NameElse X)} {ns : List Name} (h : Passes cs l its ns l') (he : ∀ n ∈ ns, cs' n = cs n) : Passes cs' l its ns l' := by
  induction h with
  | here => exact .here
  | cons _ ih => exact .cons (ih he)
  | name _ ih => exact .name (ih he)
  | art h1 _ ih => exact .art ((he _ (List.mem_cons_self ..)).trans h1) (ih fun n hn => he n (List.mem_cons_of_mem _ hn))

theorem Takes.congr {cs' : Cells (CV X)} {l : LV X} {limit : Option Nat} {its : List (NameElse X)} {ns : List Name} (h : Takes cs l limit ns its) (he : ∀ n ∈ ns, cs' n = cs n) : Takes cs' l limit ns its := by
  cases h with
  | all h hk => exact .all (h.congr he) hk
  | elm h => exact .elm (h.congr he)
  | name h => exact .name (h.congr he)

/-- **C100.** What is edited behind the last item demanded (the rest may be cut off, or become endless) runs nothing, and the same demand returns the same. -/
theorem C100_behind_the_limit_runs_nothing (rn : Name) (ss : List (DStep X)) (ds : List (List Name × List (NameElse X))) (h0 : TakesAll (fun _ => none) ss ds) (purity : Bool)
    (l : LV X) (limit : Option Nat) (its : List (NameElse X)) (ns : List Name) (es1 es2 : List (Edit (CV X))) (cs1 cs2 : Cells (CV X))
    (hc1 : applyAll (fun _ => none) (ss.flatMap DStep.edits ++ es1) = some cs1) (h1 : Takes cs1 l limit ns its) (hc2 : applyAll cs1 es2 = some cs2) (hsame : ∀ n ∈ ns, cs2 n = cs1 n) :
    ∃ N s1 s2, (∀ n, N ≤ n →
        runSession ENV n ((ss ++ [(⟨es1, l, limit⟩ : DStep X)]).map fun s => stepProg rn s.step) (initSt purity false) = .ok ((ds.map fun d => .vec d.2) ++ [.vec its]) s1 ∧
        exec ENV n (stepProg rn ⟨es2, [], l, limit⟩) s1 = .ok (.vec its) s2) ∧ s2.runs = s1.runs := by
  obtain ⟨N, s1, s2, r1, _, r2, _⟩ := C100_rerun_iff_before_the_limit (H := H) (opAt := opAt) (g := g) (hv := hv) (ha := ha) rn ss ds h0 purity l limit _ _ _ _ es1 es2 cs1 cs2 hc1 h1 hc2 (h1.congr hsame)
  exact ⟨N, s1, s2, r1, r2.2 hsame⟩

/-! ### Limits -/

/-- On a list that does not end before it, every positive demand is answered: the first `k` items of any walk. -/
theorem Passes.takes {l l' : LV X} {its : List (NameElse X)} {ns : List Name} (h : Passes cs l its ns l') : ∀ {k : Nat}, 0 < k → k ≤ its.length →
    ∃ ns', Takes cs l (some k) ns' (its.take k) ∧ ∃ ms, ns = ns' ++ ms := by
  have key : ∀ {k : Nat}, k < its.length → ∃ ns' ms, ns = ns' ++ ms ∧ ((∃ x tl, its[k]? = some (.elm x) ∧ Passes cs l (its.take k) ns' (.cons x tl)) ∨ ∃ n tl, its[k]? = some (.name n) ∧ Passes cs l (its.take k) ns' (.name n tl)) := by
    induction h with
    | here => exact fun hk => absurd hk (Nat.not_lt_zero _)
    | @cons x tl its ns l' h ih =>
      intro k hk
      cases k with
      | zero => exact ⟨[], ns, rfl, .inl ⟨x, tl, rfl, .here⟩⟩
      | succ k =>
        obtain ⟨ns', ms, e, h⟩ := ih (Nat.lt_of_succ_lt_succ hk)
        exact ⟨ns', ms, e, h.imp (fun ⟨y, tl', a, b⟩ => ⟨y, tl', a, .cons b⟩) fun ⟨y, tl', a, b⟩ => ⟨y, tl', a, .cons b⟩⟩
    | @name n tl its ns l' h ih =>
      intro k hk
      cases k with
      | zero => exact ⟨[], ns, rfl, .inr ⟨n, tl, rfl, .here⟩⟩
      | succ k =>
        obtain ⟨ns', ms, e, h⟩ := ih (Nat.lt_of_succ_lt_succ hk)
        exact ⟨ns', ms, e, h.imp (fun ⟨y, tl', a, b⟩ => ⟨y, tl', a, .name b⟩) fun ⟨y, tl', a, b⟩ => ⟨y, tl', a, .name b⟩⟩
    | @art n l its ns l' h1 h ih =>
      intro k hk
      obtain ⟨ns', ms, e, h⟩ := ih hk
      exact ⟨n :: ns', ms, congrArg (List.cons n) e, h.imp (fun ⟨y, tl', a, b⟩ => ⟨y, tl', a, .art h1 b⟩) fun ⟨y, tl', a, b⟩ => ⟨y, tl', a, .art h1 b⟩⟩
  intro k h0 hk
  obtain ⟨k, rfl⟩ : ∃ j, k = j + 1 := ⟨k - 1, by omega⟩
  obtain ⟨ns', ms, e, h⟩ := key hk
  refine ⟨ns', ?_, ms, e⟩
  have hlen : (its.take k).length = k := List.length_take_of_le (Nat.le_of_lt hk)
  have happ : ∀ y, its[k]? = some y → its.take (k + 1) = its.take k ++ [y] := fun y hy => by rw [List.take_add_one, hy]; rfl
  rcases h with ⟨x, tl, a, b⟩ | ⟨n, tl, a, b⟩
  · have := Takes.elm b
    rw [hlen] at this
    rwa [happ _ a]
  · have := Takes.name b
    rw [hlen] at this
    rwa [happ _ a]

/-- C100: a positive demand is answered on every list of which as many items can be reached, also if it is endless, and reads a part of the cells of any walk that passes these items. -/
theorem C100_demand_is_answered {l l' : LV X} {its : List (NameElse X)} {ns : List Name} (h : Passes cs l its ns l') {k : Nat} (h0 : 0 < k) (hk : k ≤ its.length) :
    ∃ ns', Takes cs l (some k) ns' (its.take k) ∧ ns'.length ≤ ns.length := by
  obtain ⟨ns', a, ms, rfl⟩ := h.takes h0 hk
  exact ⟨ns', a, by rw [List.length_append]; exact Nat.le_add_right _ _⟩
end

/-! ### An example: the first three items of a list that becomes endless -/

namespace Example100
abbrev V := CV Nat
def H : NameHash := ⟨fun _ _ => 0, fun _ => 0, fun _ => 0, fun _ => 0, fun _ _ => 0⟩
def nm (i : Nat) : Name := ⟨0, .usize i⟩
def opAt (_ : Name) : Op := .rev
def g (_ : Nat) (x : Nat) : Option Nat := some x
def e : Env V := env H opAt g (fun _ => 0) (fun _ _ => 0)
def rn : Name := nm 0
/-- 8, 〈name 1〉, [cell 10: 3, 〈name 2〉, [cell 11: 7]] -/
def l : LV Nat := .cons 8 (.name (nm 1) (.art (cellAt (nm 10))))
def build : List (Edit V) := [.cell (nm 11) (.lst (.cons 7 .nil)), .cell (nm 10) (.lst (.cons 3 (.name (nm 2) (.art (cellAt (nm 11))))))]
/-- From the cell 11 the list goes on in the cell 11. -/
def behind : List (Edit V) := [.set (nm 11) (.lst (.art (cellAt (nm 11))))]
def cs0 : Cells V := (applyAll (fun _ => none) build).getD fun _ => none
def cs1 : Cells V := (applyAll cs0 behind).getD fun _ => none

theorem all0 : Takes cs0 l none [nm 10, nm 11] [.elm 8, .name (nm 1), .elm 3, .name (nm 2), .elm 7] :=
  .all (.cons (.name (.art rfl (.cons (.name (.art rfl (.cons .here))))))) (by simp)
theorem three0 : Takes cs0 l (some 3) [nm 10] [.elm 8, .name (nm 1), .elm 3] :=
  .elm (its := [.elm 8, .name (nm 1)]) (x := 3) (.cons (.name (.art rfl .here)))

/-- The hypotheses of C100 are met: that the rest becomes endless runs nothing. -/
example : ∃ N s1 s2, (∀ n, N ≤ n →
    runSession e n (([(⟨build, l, none⟩ : DStep Nat)] ++ [(⟨[], l, some 3⟩ : DStep Nat)]).map fun s => stepProg rn s.step) (initSt true false) =
      .ok ([.vec [.elm 8, .name (nm 1), .elm 3, .name (nm 2), .elm 7]] ++ [.vec [.elm 8, .name (nm 1), .elm 3]]) s1 ∧
    exec e n (stepProg rn ⟨behind, [], l, some 3⟩) s1 = .ok (.vec [.elm 8, .name (nm 1), .elm 3]) s2) ∧ s2.runs = s1.runs :=
  C100_behind_the_limit_runs_nothing (H := H) (opAt := opAt) (g := g) (hv := fun _ => 0) (ha := fun _ _ => 0) rn [⟨build, l, none⟩] [_] (.cons (c1 := cs0) rfl all0 .nil) true l (some 3) _ _ [] behind cs0 cs1 rfl three0 rfl (by decide +kernel)

/-- A demand of nothing does not end on the endless list. -/
def out (k : Nat) (fuel : Nat) : Bool :=
  match runSession e fuel [stepProg rn ⟨build ++ behind, [], l, some k⟩] (initSt true false) with
  | .oof => true
  | _ => false
example : [out 3 40, out 4 40, out 0 40] = [false, false, true] := by decide +kernel
end Example100
end Adapton.ListProg
