import Verif.Engine.Space
import Verif.Engine.Wf
import Verif.Props.Graph
import Verif.Props.CleanCost
/-
C94: the size of the graph.  How many nodes, edges and predecessor records the engine keeps does not depend on how long the history is, only on which locations exist and on how many demands the code
of a thunk makes.
-/
set_option linter.unusedSectionVars false
set_option linter.unusedVariables false
set_option linter.unusedSimpArgs false
namespace Adapton
open Ref (Sig Kind Means)

section
variable {V α : Type} [UEq V]

/-! ### Specification
`Demands` (how many forces and allocations a program makes) is in Engine/Space.lean, `edgeCount` (the number of edges) in Props/Dirtying.lean. -/

/-- Number of predecessor records in the graph: every node keeps the list of the thunks that depend on it. -/
def recordCount : Table V → Nat
  | [] => 0
  | (_, n) :: t => n.preds.length + recordCount t

/-- How many edges lead from `p` to `x`. -/
def edgesBetween (t : Table V) (p x : Loc) : Nat := match t.get p with
  | some n => n.succsList.countP fun e => decide (e.loc = x)
  | none => 0
/-- How many predecessor records `x` keeps for `p`. -/
def recordsBetween (t : Table V) (p x : Loc) : Nat := match t.get x with
  | some n => n.preds.countP fun q => decide (q.loc = p)
  | none => 0

/-! ### Proofs -/

theorem get_of_mem {t : Table V} (h : (t.map (·.1)).Nodup) {x : Loc} {n : Node V} (hm : (x, n) ∈ t) : t.get x = some n := by
  induction t with
  | nil => cases hm
  | cons a t ih =>
    obtain ⟨k, m⟩ := a
    simp only [List.map_cons, List.nodup_cons] at h
    unfold Table.get
    rcases List.mem_cons.1 hm with hm | hm
    · cases hm; rw [if_pos rfl]
    · rw [if_neg]
      · exact ih h.2 hm
      · rintro rfl
        exact h.1 (List.mem_map.2 ⟨_, hm, rfl⟩)

theorem edgeCount_le {W : Nat} : ∀ (t : Table V), (∀ q ∈ t, q.2.succsList.length ≤ W) → edgeCount t ≤ W * t.length
  | [], _ => Nat.zero_le _
  | (x, n) :: t, h => by
    have h1 := h (x, n) (List.mem_cons_self ..)
    have h2 := edgeCount_le t fun q hq => h q (List.mem_cons_of_mem _ hq)
    simp only [edgeCount, List.length_cons, Nat.mul_add, Nat.mul_one]
    simp only at h1
    omega

theorem Fits.init {W : Nat} (purity mode : Bool) : Fits W (initSt purity mode : St V) := ⟨by simp [initSt], fun x nd h => by cases h⟩

theorem Fits.edges {W : Nat} {s : St V} (h : Fits W s) : edgeCount s.table ≤ W * s.table.length :=
  edgeCount_le _ fun q hq => h.node (get_of_mem h.keys (x := q.1) (n := q.2) hq)

theorem KeepsW.after {W : Nat} {m : M V α} (hm : KeepsW W m) {s s' : St V} (hs : Fits W s) (h : (m s).After s') : Fits W s' := by
  have := hm s hs
  rcases h with ⟨a, h⟩ | ⟨e, h⟩
  · rw [h] at this; exact this
  · rw [h] at this; exact this

/-- **C94.** However long the history, and whether or not it ended in a panic: no location has two nodes; a thunk has at most as many edges as its code makes demands in one run; so there are at most
`W` times as many edges as locations. -/
theorem C94_edges_bounded (env : Env V) (W : Nat) (he : ∀ fn a, Demands env W (env.code fn a)) (n : Nat) (ps : List (Prog V)) (purity mode : Bool) (s' : St V)
    (h : (runSession env n ps (initSt purity mode)).After s') :
    (s'.table.map (·.1)).Nodup ∧ (∀ x nd, s'.table.get x = some (.comp nd) → nd.succs.length ≤ W) ∧ edgeCount s'.table ≤ W * s'.table.length := by
  have hf := (runSession_keeps env W he n ps).after (Fits.init purity mode) h
  exact ⟨hf.keys, hf.width, hf.edges⟩

/-- **C94.** The number of nodes is at most the number of locations ever used. -/
theorem C94_nodes_bounded (env : Env V) (W : Nat) (he : ∀ fn a, Demands env W (env.code fn a)) (n : Nat) (ps : List (Prog V)) (purity mode : Bool) (s' : St V)
    (h : (runSession env n ps (initSt purity mode)).After s') (L : List Loc) (hL : ∀ x nd, s'.table.get x = some nd → x ∈ L) :
    s'.table.length ≤ L.length ∧ edgeCount s'.table ≤ W * L.length := by
  have hf := (runSession_keeps env W he n ps).after (Fits.init purity mode) h
  have h1 : (s'.table.map (·.1)).length ≤ L.length := by
    refine Wf.length_le_of_subset hf.keys fun x hx => ?_
    obtain ⟨q, hq, rfl⟩ := List.mem_map.1 hx
    exact hL q.1 q.2 (get_of_mem hf.keys hq)
  rw [List.length_map] at h1
  exact ⟨h1, Nat.le_trans hf.edges (Nat.mul_le_mul_left _ h1)⟩

/-! #### Double counting -/

theorem sum_swap {α β : Type} (f : α → β → Nat) (a : List α) (b : List β) :
    (a.map fun x => (b.map fun y => f x y).sum).sum = (b.map fun y => (a.map fun x => f x y).sum).sum := by
  induction a with
  | nil =>
    simp only [List.map_nil, List.sum_nil]
    induction b with
    | nil => rfl
    | cons y b ih => simp only [List.map_cons, List.sum_cons, Nat.zero_add]; exact ih
  | cons x a ih =>
    simp only [List.map_cons, List.sum_cons, ih]
    clear ih
    induction b with
    | nil => rfl
    | cons y b ih => simp only [List.map_cons, List.sum_cons]; omega

theorem sum_zero {α : Type} (f : α → Nat) (a : List α) (h : ∀ x ∈ a, f x = 0) : (a.map f).sum = 0 := by
  induction a with
  | nil => rfl
  | cons x a ih =>
    simp only [List.map_cons, List.sum_cons, h x (List.mem_cons_self ..), ih fun y hy => h y (List.mem_cons_of_mem _ hy)]

theorem sum_indicator (t : Table V) (h : (t.map (·.1)).Nodup) (x : Loc) (hx : x ∈ t.map (·.1)) : (t.map fun q => if x = q.1 then 1 else 0).sum = 1 := by
  induction t with
  | nil => cases hx
  | cons a t ih =>
    simp only [List.map_cons, List.nodup_cons, List.sum_cons] at h ⊢
    by_cases hxa : x = a.1
    · rw [if_pos hxa, sum_zero]
      intro q hq
      rw [if_neg]
      rintro rfl
      exact h.1 (hxa ▸ List.mem_map.2 ⟨q, hq, rfl⟩)
    · rw [if_neg hxa, ih h.2]
      simp only [List.map_cons, List.mem_cons] at hx
      rcases hx with hx | hx
      · exact absurd hx hxa
      · exact hx

theorem length_sum {β : Type} (t : Table V) (h : (t.map (·.1)).Nodup) (f : β → Loc) (es : List β) (he : ∀ e ∈ es, f e ∈ t.map (·.1)) :
    es.length = (t.map fun q => es.countP fun e => decide (f e = q.1)).sum := by
  induction es with
  | nil => simp only [List.countP_nil, List.length_nil]; exact (sum_zero _ _ fun _ _ => rfl).symm
  | cons e es ih =>
    have h1 := ih fun e he' => he e (List.mem_cons_of_mem _ he')
    have h2 := sum_indicator t h (f e) (he e (List.mem_cons_self ..))
    simp only [List.length_cons, List.countP_cons, decide_eq_true_eq]
    rw [h1]
    have h3 : ∀ (t : Table V), (t.map fun q => (es.countP fun e => decide (f e = q.1)) + (if f e = q.1 then 1 else 0)).sum =
        (t.map fun q => es.countP fun e => decide (f e = q.1)).sum + (t.map fun q => if f e = q.1 then 1 else 0).sum := by
      intro t
      induction t with
      | nil => rfl
      | cons a t ih => simp only [List.map_cons, List.sum_cons, ih]; omega
    rw [h3 t, h2]

theorem edgeCount_sum : ∀ t : Table V, edgeCount t = (t.map fun q => q.2.succsList.length).sum
  | [] => rfl
  | _ :: t => by simp only [edgeCount, List.map_cons, List.sum_cons, edgeCount_sum t]
theorem recordCount_sum : ∀ t : Table V, recordCount t = (t.map fun q => q.2.preds.length).sum
  | [] => rfl
  | _ :: t => by simp only [recordCount, List.map_cons, List.sum_cons, recordCount_sum t]

theorem countP_effects {β : Type} (p : β → Prop) [DecidablePred p] (eff : β → Effect) (es : List β) :
    (es.countP fun e => decide (p e)) = (es.countP fun e => decide (p e ∧ eff e = .observe)) + es.countP fun e => decide (p e ∧ eff e = .allocate) := by
  induction es with
  | nil => rfl
  | cons e es ih =>
    simp only [List.countP_cons, ih, decide_eq_true_eq]
    by_cases h : p e <;> cases h2 : eff e <;> simp [h] <;> omega

end

section
variable {V : Type} [DecidableEq V]

theorem Balanced.between {t : Table V} (h : Balanced t) {x : Loc} {n : Node V} (hx : t.get x = some n) (p : Loc) :
    recordsBetween t p x = edgesBetween t p x := by
  have h1 := h x n p .observe hx
  have h2 := h x n p .allocate hx
  unfold recordsBetween edgesBetween
  rw [hx]
  simp only []
  rw [countP_effects (fun q : Pred V => q.loc = p) (fun q => q.effect)]
  rcases hp : t.get p with _ | m
  · rw [hp] at h1 h2; simp only [predCount, succCount] at h1 h2; simp only []; omega
  · rw [hp] at h1 h2
    simp only [predCount, succCount, recCount, List.countP_map] at h1 h2
    simp only []
    rw [countP_effects (fun e : Succ V => e.loc = x) (fun e => e.effect)]
    rw [h1, h2]
    rfl

theorem records_eq_edges {sig : Sig} {t : Table V} (hg : Graph sig t) (hk : (t.map (·.1)).Nodup) : recordCount t = edgeCount t := by
  have h1 : ∀ q ∈ t, q.2.preds.length = (t.map fun r => q.2.preds.countP fun e => decide (e.loc = r.1)).sum := by
    intro q hq
    refine length_sum t hk (fun e : Pred V => e.loc) _ fun e he => ?_
    obtain ⟨nd, h, -⟩ := hg.bwd q.1 q.2 e (get_of_mem hk hq) he
    exact Wf.mem_keys h
  have h2 : ∀ r ∈ t, r.2.succsList.length = (t.map fun q => r.2.succsList.countP fun e => decide (e.loc = q.1)).sum := by
    intro r hr
    refine length_sum t hk (fun e : Succ V => e.loc) _ fun e he => ?_
    obtain ⟨x, n⟩ := r
    match n with
    | .comp nd =>
      obtain ⟨m, h, -⟩ := hg.fwd x nd e (get_of_mem hk hr) he
      exact Wf.mem_keys h
    | .mut _ => cases he
    | .pure _ => cases he
  rw [recordCount_sum, edgeCount_sum, List.map_congr_left h1, List.map_congr_left h2, sum_swap]
  congr 1
  refine List.map_congr_left fun r hr => ?_
  congr 1
  refine List.map_congr_left fun q hq => ?_
  have hx := get_of_mem hk (x := q.1) (n := q.2) hq
  have hp := get_of_mem hk (x := r.1) (n := r.2) hr
  have := hg.cnt.between hx r.1
  unfold recordsBetween edgesBetween at this
  rw [hx, hp] at this
  exact this

/-- **C94.** In every state between editor programs of a session that has a meaning, for each two locations: the one keeps exactly as many predecessor records for the other as there are edges — no
record is left behind by an earlier run, and none is missing; the number of records in the whole graph is the number of edges. -/
theorem C94_no_stale_records (sig : Sig) (env : Env V) (ps : List (Prog V)) (vs : List V) (h : Means sig env ps vs) (purity : Bool)
    (hp : purity = true → sig.pu = true) (W : Nat) (he : ∀ fn a, Demands env W (env.code fn a)) (n : Nat) (vs' : List V) (s' : St V)
    (hr : runSession env n ps (initSt purity sig.mode) = .ok vs' s') :
    (∀ x nd p, s'.table.get x = some nd → recordsBetween s'.table p x = edgesBetween s'.table p x) ∧ recordCount s'.table = edgeCount s'.table := by
  obtain ⟨⟨σ, D, hI⟩, -, -⟩ := session_state sig env ps vs h purity hp n vs' s' hr
  have hf := (runSession_keeps env W he n ps).after (Fits.init purity sig.mode) (.inl ⟨_, hr⟩)
  exact ⟨fun x nd p hx => hI.graph.cnt.between hx p, records_eq_edges hI.graph hf.keys⟩

/-- **C94.** So the space of the graph is bounded by the locations alone: with the locations `L`, at most `|L|` nodes, `W · |L|` edges and `W · |L|` predecessor records, whatever the number of edits
and demands there have been. -/
theorem C94_space_bounded (sig : Sig) (env : Env V) (ps : List (Prog V)) (vs : List V) (h : Means sig env ps vs) (purity : Bool)
    (hp : purity = true → sig.pu = true) (W : Nat) (he : ∀ fn a, Demands env W (env.code fn a)) (n : Nat) (vs' : List V) (s' : St V)
    (hr : runSession env n ps (initSt purity sig.mode) = .ok vs' s') (L : List Loc) (hL : ∀ x nd, s'.table.get x = some nd → x ∈ L) :
    s'.table.length ≤ L.length ∧ edgeCount s'.table ≤ W * L.length ∧ recordCount s'.table ≤ W * L.length := by
  obtain ⟨h1, h2⟩ := C94_nodes_bounded env W he n ps purity sig.mode s' (.inl ⟨_, hr⟩) L hL
  refine ⟨h1, h2, ?_⟩
  rw [(C94_no_stale_records sig env ps vs h purity hp W he n vs' s' hr).2]
  exact h2

end

/-! ### The hypotheses are met -/

namespace SpaceEx
open AmortEx (nm at_)

theorem demands : ∀ fn a, Demands AmortEx.env 2 (AmortEx.env.code fn a)
  | 0, _ => .force _ _ _ _ fun _ => .force _ _ _ _ fun _ => .ret _ _
  | _ + 1, _ => .force _ _ _ _ fun _ => .ret _ _

/-- What the session returned; nodes, edges, predecessor records. -/
def sizes (env : Env Int) (ps : List (Prog Int)) : List Int × Nat × Nat × Nat :=
  match runSession env 20 ps (initSt true false) with
  | .ok vs s => (vs, s.table.length, edgeCount s.table, recordCount s.table)
  | _ => ([], 0, 0, 0)

def change (a : Int) : Prog Int := .set 0 (at_ 0) a (.ret 0)

-- Two cells and two thunks, three edges: after one demand and after any number of edits and demands.
example : sizes AmortEx.env [AmortEx.start] = ([30], 4, 3, 3) := by decide +kernel
example : sizes AmortEx.env [AmortEx.start, change 3, AmortEx.ask, change 4, AmortEx.ask, change 5, AmortEx.ask] = ([30, 0, 50, 0, 60, 0, 70], 4, 3, 3) := by decide +kernel

-- The theorem, for a history of six editor programs with demands after edits: four locations, at most eight edges and records.
example (n : Nat) (vs : List Int) (s : St Int) (hr : runSession AmortEx.env n CleanCostEx.hist (initSt true false) = .ok vs s)
    (hL : ∀ x nd, s.table.get x = some nd → x ∈ [at_ 0, at_ 1, at_ 2, at_ 3]) : s.table.length ≤ 4 ∧ edgeCount s.table ≤ 8 ∧ recordCount s.table ≤ 8 :=
  C94_space_bounded CleanCostEx.sig AmortEx.env CleanCostEx.hist _ CleanCostEx.means true (fun _ => rfl) 2 demands n vs s hr [at_ 0, at_ 1, at_ 2, at_ 3] hL
example : sizes AmortEx.env CleanCostEx.hist = ([30, 0, 30, 0, 100, 100], 4, 3, 3) := by decide +kernel

/-- `A` reads the cell, adds one to it (by allocating it again, which a meaning forbids) and, if it was 0, forces `B`; `B` forces `A`. -/
def code : FnId → Int → Prog Int
  | 0, _ => .force 0 (at_ 0) none fun v => .cell 0 (nm 0) (v + 1) fun _ => if v = 0 then .force 0 (at_ 2) none .ret else .ret v
  | _, _ => .force 0 (at_ 1) none .ret
def env : Env Int := ⟨code, fun _ => 0, fun _ _ => 0⟩
def start : Prog Int := .cell 0 (nm 0) 1 fun _ => .thunk 0 (.nominal (nm 1)) 0 0 0 fun _ => .thunk 0 (.nominal (nm 2)) 1 1 0 fun _ => .force 0 (at_ 2) none .ret
def again : Prog Int := .cell 0 (nm 0) 0 fun _ => .thunk 0 (.nominal (nm 1)) 0 0 1 fun l => .force 0 l none .ret
/-- **C94.** Without a meaning records can be left behind: here `A` is run a second time while it is running (its dependence on itself through `B` is found by cleaning, which does not look for cycles), the
edges of the inner run are overwritten by those of the outer one, and their records stay: six records for four edges. -/
theorem C94_needs_meaning : sizes env [start] = ([1], 3, 3, 3) ∧ sizes env [start, again] = ([1, 1], 3, 4, 6) := by decide +kernel

end SpaceEx
end Adapton
