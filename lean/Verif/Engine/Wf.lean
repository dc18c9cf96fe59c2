import Verif.Engine.Editor
/-
The well-formedness checker of the engine, `mod wf` of /repo/src/engine.rs (2626-2716), which a user switches on with the
environment variable ADAPTON_CHECK_DCG.
-/
set_option linter.unusedSectionVars false
set_option linter.unusedVariables false
namespace Adapton.Wf
open Adapton Ref
variable {V : Type} [UEq V]

/-- `NodeStatus`, engine.rs:2638-2640. -/
inductive Status
  | dirty | clean | unknown
deriving DecidableEq

/-- `type Cs = HashMap<Rc<Loc>, NodeStatus>`, engine.rs:2642. -/
abbrev Cs := Loc → Option Status

/-- How a run of the checker ends: the Rust stack is exhausted (recursion deeper than `fuel`), it panics, or it returns. -/
inductive Chk (α : Type)
  | deep
  | panic
  | ok (a : α)

def Chk.bind {α β : Type} : Chk α → (α → Chk β) → Chk β
  | .deep, _ => .deep
  | .panic, _ => .panic
  | .ok a, k => k a

/-- `cs.insert`. -/
def insert (cs : Cs) (l : Loc) (st : Status) : Cs := fun x => if x = l then some st else cs x

/-- `add_constraint`, engine.rs:2644-2659. -/
def addConstraint (cs : Cs) (l : Loc) (new : Status) : Chk Cs :=
  let old : Status := match cs l with | none => .unknown | some st => st
  match old, new with
  | .clean, .dirty => .panic
  | .dirty, .clean => .panic
  | .unknown, new => .ok (insert cs l new)
  | old, .unknown => .ok (insert cs l old)
  | .dirty, .dirty => .ok cs
  | .clean, .clean => .ok cs

/-- `get_succ`, engine.rs:1279-1291: `none` is a panic. -/
def getSucc (t : Table V) (src : Loc) (eff : Effect) (tgt : Loc) : Option (Succ V) :=
  match t.get src with
  | some (.comp nd) => nd.succs.find? (Succ.matches eff tgt)
  | _ => none

/-- The loop of `dirty`, engine.rs:2665-2674. -/
def dirtyLoop (t : Table V) (rec : Loc → Cs → Chk Cs) (l : Loc) : List (Loc × Option (Dep V)) → Cs → Chk Cs
  | [], cs => .ok cs
  | (p, _) :: ps, cs =>
    match getSucc t p .observe l with
    | none => .panic
    | some e => if e.dirty then (rec p cs).bind (dirtyLoop t rec l ps) else .panic

/-- `dirty`, engine.rs:2661-2675. -/
def dirty (t : Table V) : Nat → Loc → Cs → Chk Cs
  | 0, _, _ => .deep
  | k + 1, l, cs =>
    (addConstraint cs l .dirty).bind fun cs =>
      match t.get l with
      | none => .panic
      | some n =>
        match n.predsObs with
        | none => .panic
        | some ps => dirtyLoop t (dirty t k) l ps cs

/-- The loop of `clean`, engine.rs:2685-2689. -/
def cleanLoop (t : Table V) (rec : Loc → Cs → Chk Cs) (l : Loc) : List (Succ V) → Cs → Chk Cs
  | [], cs => .ok cs
  | e :: es, cs =>
    match getSucc t l .observe e.loc with
    | none => .panic
    | some e' => if e'.dirty then .panic else (rec e.loc cs).bind (cleanLoop t rec l es)

/-- `clean`, engine.rs:2677-2690. -/
def clean (t : Table V) : Nat → Loc → Cs → Chk Cs
  | 0, _, _ => .deep
  | k + 1, l, cs =>
    (addConstraint cs l .clean).bind fun cs =>
      match t.get l with
      | none => .panic
      | some (.comp nd) => cleanLoop t (clean t k) l nd.succs cs
      | some _ => .ok cs

/-- The loop over the frames, engine.rs:2704-2706. -/
def frames (t : Table V) (k : Nat) : List Loc → Cs → Chk Cs
  | [], cs => .ok cs
  | l :: ls, cs => (clean t k l cs).bind (frames t k ls)

/-- The inner loop over the edges of one node, engine.rs:2709-2713. -/
def edges (t : Table V) (k : Nat) (l : Loc) : List (Succ V) → Cs → Chk Cs
  | [], cs => .ok cs
  | e :: es, cs => if e.dirty then (dirty t k l cs).bind (edges t k l es) else edges t k l es cs

/-- The loop over the table, engine.rs:2707-2714. `order` is the order in which the hash map presents its keys. -/
def nodes (t : Table V) (k : Nat) : List Loc → Cs → Chk Cs
  | [], cs => .ok cs
  | l :: ls, cs =>
    match t.get l with
    | some (.comp nd) => (edges t k l nd.succs cs).bind (nodes t k ls)
    | _ => nodes t k ls cs

/-- `check_dcg` with `check_dcg_is_wf` set, engine.rs:2702-2715. `k` bounds the depth of the recursion. -/
def checkDcg (k : Nat) (order : List Loc) (s : St V) : Chk Cs :=
  (frames s.table k s.locs fun _ => none).bind (nodes s.table k order)

/-! ### The checker passes -/

/-- The state the checker has reached: nothing marked dirty is on the stack, and only stack locations are marked clean. -/
structure CsOk (K : List Loc) (cs : Cs) : Prop where
  clean : ∀ x, cs x = some .clean → x ∈ K
  dirty : ∀ x, cs x = some .dirty → x ∉ K
  known : ∀ x, cs x ≠ some .unknown

theorem addDirty {K : List Loc} {cs : Cs} (h : CsOk K cs) {l : Loc} (hl : l ∉ K) :
    ∃ cs', addConstraint cs l .dirty = .ok cs' ∧ CsOk K cs' := by
  unfold addConstraint
  rcases hc : cs l with _ | st
  · refine ⟨_, rfl, ⟨?_, ?_, ?_⟩⟩ <;> intro x
    · unfold insert; split
      · rintro h; cases h
      · exact h.clean x
    · unfold insert; split
      · intro _; rw [‹x = l›]; exact hl
      · exact h.dirty x
    · unfold insert; split
      · rintro h; cases h
      · exact h.known x
  · cases st
    · exact ⟨_, rfl, h⟩
    · exact absurd (h.clean l hc) hl
    · exact absurd hc (h.known l)

theorem addClean {K : List Loc} {cs : Cs} (h : CsOk K cs) {l : Loc} (hl : l ∈ K) :
    ∃ cs', addConstraint cs l .clean = .ok cs' ∧ CsOk K cs' := by
  unfold addConstraint
  rcases hc : cs l with _ | st
  · refine ⟨_, rfl, ⟨?_, ?_, ?_⟩⟩ <;> intro x
    · unfold insert; split
      · intro _; rw [‹x = l›]; exact hl
      · exact h.clean x
    · unfold insert; split
      · rintro h; cases h
      · exact h.dirty x
    · unfold insert; split
      · rintro h; cases h
      · exact h.known x
  · cases st
    · exact absurd hl (h.dirty l hc)
    · exact ⟨_, rfl, h⟩
    · exact absurd hc (h.known l)

/-- Downward reachability along observations. -/
inductive Reach (t : Table V) : Loc → Loc → Prop
  | one {p x} : ObsEdge t p x → Reach t p x
  | step {p x y} : ObsEdge t p x → Reach t x y → Reach t p y

theorem Reach.snoc {t : Table V} {p x y : Loc} (h : Reach t p x) (e : ObsEdge t x y) : Reach t p y := by
  induction h with
  | one e' => exact .step e' (.one e)
  | step e' _ ih => exact .step e' (ih e)

theorem Reach.no_cycle {t : Table V} (h : Acyc t) (p : Loc) : ¬ Reach t p p := by
  induction h p with
  | intro p _ ih =>
    intro h1
    cases h1 with
    | one e => exact ih p e (.one e)
    | step e h1 => exact ih _ e (h1.snoc e)

theorem mem_predsObs {n : Node V} {ps : List (Loc × Option (Dep V))} (h : n.predsObs = some ps) {q : Loc × Option (Dep V)}
    (hq : q ∈ ps) : ∃ p ∈ n.preds, p.effect = .observe ∧ p.loc = q.1 := by
  match n with
  | .pure nd => cases h
  | .mut nd =>
    cases h
    rw [List.mem_filterMap] at hq
    obtain ⟨p, h1, h2⟩ := hq
    split at h2
    · cases h2; exact ⟨p, h1, by assumption, rfl⟩
    · cases h2
  | .comp nd =>
    cases h
    rw [List.mem_filterMap] at hq
    obtain ⟨p, h1, h2⟩ := hq
    split at h2
    · cases h2; exact ⟨p, h1, by assumption, rfl⟩
    · cases h2

theorem length_le_of_subset {α : Type} [DecidableEq α] : ∀ {a b : List α}, a.Nodup → (∀ x ∈ a, x ∈ b) → a.length ≤ b.length
  | [], _, _, _ => Nat.zero_le _
  | x :: a, b, hn, hs => by
    have hn := List.nodup_cons.1 hn
    have hx := hs x (List.mem_cons_self ..)
    have := length_le_of_subset (b := b.erase x) hn.2 (by
      intro y hy
      exact (List.mem_erase_of_ne (by rintro rfl; exact hn.1 hy)).2 (hs y (List.mem_cons_of_mem _ hy)))
    rw [List.length_erase_of_mem hx] at this
    have : 0 < b.length := List.length_pos_of_mem hx
    simp only [List.length_cons]
    omega

theorem mem_keys {t : Table V} {l : Loc} {n : Node V} (h : t.get l = some n) : l ∈ t.map (·.1) := by
  induction t with
  | nil => cases h
  | cons a t ih =>
    obtain ⟨l', n'⟩ := a
    unfold Table.get at h
    split at h
    · subst_vars; exact List.mem_cons_self ..
    · exact List.mem_cons_of_mem _ (ih h)

end Adapton.Wf

namespace Adapton.Wf
open Adapton Ref
variable {V : Type} [DecidableEq V]

/-- `dirty` passes at every thunk that has a dirty edge, and its recursion is no deeper than the table is large. `vis` is the
path from the thunk the recursion started at. -/
theorem dirty_passes {sig : Sig} {env : Env V} {s : St V} {σ : Store V} {D : Loc → Prop} (h : Inv sig env s σ D) :
    ∀ (k : Nat) (l : Loc) (vis : List Loc) (cs : Cs), (l :: vis).Nodup → (∀ v ∈ l :: vis, v ∈ s.table.map (·.1)) →
      (∀ v ∈ vis, Reach s.table l v) → (s.table.map (·.1)).length < k + (l :: vis).length →
      (∃ nd, s.table.get l = some (.comp nd) ∧ ∃ eff x, KeyDirty nd.succs eff x) → CsOk s.locs cs →
      ∃ cs', dirty s.table k l cs = .ok cs' ∧ CsOk s.locs cs' := by
  intro k
  induction k with
  | zero =>
    intro l vis cs hnd hsub _ hlen
    have : (l :: vis).length ≤ (s.table.map (·.1)).length := length_le_of_subset hnd hsub
    omega
  | succ k ih =>
    rintro l vis cs hnd hsub hre hlen ⟨nd, hl, eff, x, hd⟩ hcs
    have hlk : l ∉ s.locs := by
      intro hk
      obtain ⟨nd', g1, g2⟩ := h.stk l hk
      rw [hl] at g1; cases g1
      obtain ⟨e, g3, _⟩ := hd
      rw [g2] at g3; cases g3
    obtain ⟨cs1, h1, h2⟩ := addDirty hcs hlk
    unfold dirty
    rw [h1]
    simp only [Chk.bind, hl]
    have hloop : ∀ (ps : List (Loc × Option (Dep V))), (∀ q ∈ ps, ∃ p ∈ nd.preds, p.effect = .observe ∧ p.loc = q.1) →
        ∀ cs, CsOk s.locs cs → ∃ cs', dirtyLoop s.table (dirty s.table k) l ps cs = .ok cs' ∧ CsOk s.locs cs' := by
      intro ps
      induction ps with
      | nil => intro _ cs hcs; exact ⟨cs, rfl, hcs⟩
      | cons q ps ihp =>
        intro hq cs hcs
        obtain ⟨p, hp1, hp2, hp3⟩ := hq q (List.mem_cons_self ..)
        obtain ⟨ndq, g1, e, g2, g3, g4, _⟩ := h.graph.bwd l _ p hl hp1
        rw [hp3] at g1
        rw [hp2] at g4
        have hnk : ¬ KeyClean ndq.succs .observe l := by
          intro hc
          rcases h.clean q.1 ndq e g1 g2 (by rw [g4, g3]; exact hc) with hg | hg
          · exact hg
          · unfold Good at hg
            rw [show e.edge.effect = .observe from g4, show e.edge.loc = l from g3] at hg
            simp only [hl] at hg
            obtain ⟨e0, k1, k2⟩ := hd
            have hm := Succ.matches_iff.1 (List.find?_some k1)
            have := hg.2.2 e0 (List.mem_of_find?_eq_some k1)
            rw [hm.1, hm.2] at this
            exact not_clean_of_dirty ⟨e0, k1, k2⟩ this
        obtain ⟨e1, f1⟩ := find_of_mem g2
        rw [g3, g4] at f1
        have hd1 : e1.dirty = true := by
          cases hd : e1.dirty
          · exact absurd ⟨e1, f1, hd⟩ hnk
          · rfl
        have hobs : ObsEdge s.table q.1 l := ⟨ndq, e, g1, g2, g4, g3⟩
        have hqv : q.1 ∉ l :: vis := by
          intro hm
          rcases List.mem_cons.1 hm with hm | hm
          · rw [hm] at hobs
            exact Reach.no_cycle h.acyc _ (.one hobs)
          · exact Reach.no_cycle h.acyc _ ((hre _ hm).snoc hobs)
        obtain ⟨cs2, a1, a2⟩ := ih q.1 (l :: vis) cs (List.nodup_cons.2 ⟨hqv, hnd⟩)
          (by
            intro v hv
            rcases List.mem_cons.1 hv with rfl | hv
            · exact mem_keys g1
            · exact hsub v hv)
          (by
            intro v hv
            rcases List.mem_cons.1 hv with rfl | hv
            · exact .one hobs
            · exact .step hobs (hre v hv))
          (by simp only [List.length_cons] at hlen ⊢; omega)
          ⟨ndq, g1, .observe, l, e1, f1, hd1⟩ hcs
        unfold dirtyLoop
        have hgs : getSucc s.table q.1 .observe l = some e1 := by
          unfold getSucc; rw [g1]; exact f1
        rw [hgs]
        simp only [hd1, if_true]
        rw [a1]
        simp only [Chk.bind]
        exact ihp (fun q' hq' => hq q' (List.mem_cons_of_mem _ hq')) cs2 a2
    have hpo : (Node.comp nd).predsObs = some (nd.preds.filterMap fun p => if p.effect = .observe then some (p.loc, none) else none) := rfl
    rw [hpo]
    exact hloop _ (fun q hq => mem_predsObs hpo hq) cs1 h2

theorem nodes_pass {sig : Sig} {env : Env V} {s : St V} {σ : Store V} {D : Loc → Prop} (h : Inv sig env s σ D)
    (hd : ∀ p nd e, s.table.get p = some (.comp nd) → e ∈ nd.succs → e.dirty = true → KeyDirty nd.succs e.effect e.loc)
    (k : Nat) (hk : s.table.length ≤ k) (order : List Loc) :
    ∀ cs, CsOk s.locs cs → ∃ cs', nodes s.table k order cs = .ok cs' ∧ CsOk s.locs cs' := by
  induction order with
  | nil => intro cs hcs; exact ⟨cs, rfl, hcs⟩
  | cons l ls ih =>
    intro cs hcs
    unfold nodes
    rcases hg : s.table.get l with _ | n
    · exact ih cs hcs
    · match n with
      | .mut nd => exact ih cs hcs
      | .pure nd => exact ih cs hcs
      | .comp nd =>
        simp only
        have hed : ∀ (es : List (Succ V)), (∀ e ∈ es, e ∈ nd.succs) → ∀ cs, CsOk s.locs cs →
            ∃ cs', edges s.table k l es cs = .ok cs' ∧ CsOk s.locs cs' := by
          intro es
          induction es with
          | nil => intro _ cs hcs; exact ⟨cs, rfl, hcs⟩
          | cons e es ihe =>
            intro hes cs hcs
            unfold edges
            cases hde : e.dirty
            · simp only [Bool.false_eq_true, if_false]
              exact ihe (fun e he => hes e (List.mem_cons_of_mem _ he)) cs hcs
            · simp only [if_true]
              obtain ⟨cs1, a1, a2⟩ := dirty_passes h k l [] cs (by simp) (by
                intro v hv
                rw [List.mem_singleton] at hv
                rw [hv]; exact mem_keys hg) (by simp) (by simp; omega)
                ⟨nd, hg, e.effect, e.loc, hd l nd e hg (hes e (List.mem_cons_self ..)) hde⟩ hcs
              rw [a1]
              exact ihe (fun e he => hes e (List.mem_cons_of_mem _ he)) cs1 a2
        obtain ⟨cs1, a1, a2⟩ := hed nd.succs (fun _ h => h) cs hcs
        rw [a1]
        exact ih cs1 a2

theorem frames_pass {sig : Sig} {env : Env V} {s : St V} {σ : Store V} {D : Loc → Prop} (h : Inv sig env s σ D)
    (k : Nat) (hk : 0 < k) : ∀ (ls : List Loc), (∀ l ∈ ls, l ∈ s.locs) → ∀ cs, CsOk s.locs cs →
    ∃ cs', frames s.table k ls cs = .ok cs' ∧ CsOk s.locs cs' := by
  intro ls
  induction ls with
  | nil => intro _ cs hcs; exact ⟨cs, rfl, hcs⟩
  | cons l ls ih =>
    intro hls cs hcs
    obtain ⟨nd, g1, g2⟩ := h.stk l (hls l (List.mem_cons_self ..))
    obtain ⟨cs1, a1, a2⟩ := addClean hcs (hls l (List.mem_cons_self ..))
    obtain ⟨k, rfl⟩ : ∃ j, k = j + 1 := ⟨k - 1, by omega⟩
    have hc : clean s.table (k + 1) l cs = .ok cs1 := by
      unfold clean
      rw [a1]
      simp only [Chk.bind, g1, g2, cleanLoop]
    unfold frames
    rw [hc]
    exact ih (fun l hl => hls l (List.mem_cons_of_mem _ hl)) cs1 a2

/-- The checker passes in every state that satisfies the engine's invariant. -/
theorem check_passes {sig : Sig} {env : Env V} {s : St V} {σ : Store V} {D : Loc → Prop} (h : Inv sig env s σ D)
    (hd : ∀ p nd e, s.table.get p = some (.comp nd) → e ∈ nd.succs → e.dirty = true → KeyDirty nd.succs e.effect e.loc)
    (k : Nat) (hk : s.table.length < k) (order : List Loc) : ∃ cs, checkDcg k order s = .ok cs := by
  obtain ⟨cs1, a1, a2⟩ := frames_pass h k (by omega) s.locs (fun _ h => h) (fun _ => none) ⟨by simp, by simp, by simp⟩
  obtain ⟨cs2, b1, b2⟩ := nodes_pass h hd k (by omega) order cs1 a2
  refine ⟨cs2, ?_⟩
  unfold checkDcg
  rw [a1]; exact b1

end Adapton.Wf
