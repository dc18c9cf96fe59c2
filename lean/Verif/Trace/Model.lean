import Verif.Engine.GeneralOps
/-
The trace recorder (thread-local `TRACES`): engine.rs:37, 140-258, reflect.rs:420-435.
-/
set_option linter.unusedSectionVars false
set_option linter.unusedVariables false
namespace Adapton.Trace
open Adapton

/-- `reflect::trace::Trace`, reflect.rs:420-435: a rose tree of effects.  The edge is the pair of source and target. -/
inductive Tree where
  | node (e : TEff) (src : Option Loc) (tgt : Loc) (extent : List Tree)

/-- `TraceSt`, engine.rs:34-37: the stack of trace sequences, top first; each sequence has its latest trace first
(the `Vec`s of the code have it last). -/
abbrev TrSt := List (List Tree)

/-- One macro call while a trace is being recorded.
`dcg_effect_begin!` with extent, 180-206: push a trace on the top sequence, then push an empty sequence.
`dcg_effect!`, 261-266: only the first.
`dcg_effect_end!`, 234-258: pop a sequence, which becomes the extent of the last trace of the next one, whose extent
must be empty (`assert_eq!`, 251).  `none` is a panic (`unreachable!` in 189, 246, 247, 250, or the assertion). -/
def step : Ev → TrSt → Option TrSt
  | .begin e a b, ts :: K => some ([] :: (.node e a b [] :: ts) :: K)
  | .eff e a b, ts :: K => some ((.node e a b [] :: ts) :: K)
  | .end_, ext :: (.node e a b [] :: ts) :: K => some ((.node e a b ext.reverse :: ts) :: K)
  | _, _ => none

/-- A sequence of macro calls, in chronological order. -/
def runs : List Ev → TrSt → Option TrSt
  | [], t => some t
  | e :: es, t => (step e t).bind (runs es)

/-- `dcg_reflect_begin`, 141-152: `none` while no trace is recorded; panics (outer `none`) if one is. -/
def reflectBegin : Option TrSt → Option (Option TrSt)
  | none => some (some [[]])
  | some _ => none

/-- `dcg_reflect_end`, 156-174: the assertion on the height of the stack, then the forest in chronological order. -/
def reflectEnd : Option TrSt → Option (Option TrSt × List Tree)
  | some [ts] => some (none, ts.reverse)
  | _ => none

/-- Specification: the forest `ts` is the bracket structure of the event sequence (chronological). -/
inductive Parses : List Ev → List Tree → Prop
  | nil : Parses [] []
  | eff {e a b evs ts} : Parses evs ts → Parses (.eff e a b :: evs) (.node e a b [] :: ts)
  | ext {e a b inner ext rest ts} : Parses inner ext → Parses rest ts →
      Parses (.begin e a b :: (inner ++ .end_ :: rest)) (.node e a b ext :: ts)

theorem Parses.append {a b : List Ev} {s t : List Tree} (h1 : Parses a s) (h2 : Parses b t) : Parses (a ++ b) (s ++ t) := by
  induction h1 with
  | nil => exact h2
  | eff _ ih => exact .eff ih
  | @ext e x y inner ex rest ts hi hr ihi ihr =>
    have := Parses.ext (e := e) (a := x) (b := y) hi ihr
    simpa using this

/-- An event sequence with open extents, and the recorder's stack. -/
inductive Open : List Ev → TrSt → Prop
  | base {evs ts} : Parses evs ts → Open evs [ts.reverse]
  | push {evs ts rest e a b inner ext} : Open evs (ts :: rest) → Parses inner ext →
      Open (evs ++ .begin e a b :: inner) (ext.reverse :: (.node e a b [] :: ts) :: rest)

/-- Appending completed events to the top sequence. -/
theorem Open.snoc {evs : List Ev} {ts : List Tree} {rest : TrSt} (h : Open evs (ts :: rest)) {new : List Ev} {nt : List Tree}
    (hn : Parses new nt) : Open (evs ++ new) ((nt.reverse ++ ts) :: rest) := by
  cases h with
  | base hp => have := Open.base (hp.append hn); simpa using this
  | @push evs ts' rest' e a b inner ext ho hi =>
    have := Open.push (e := e) (a := a) (b := b) ho (hi.append hn)
    simpa using this

theorem Open.len {evs : List Ev} {K : TrSt} (h : Open evs K) : K ≠ [] := by
  cases h <;> simp

theorem open_step {evs : List Ev} {K : TrSt} (h : Open evs K) (ev : Ev) {d d' : Nat} (hd : K.length = d + 1)
    (hs : ev.depth d = some d') : ∃ K', step ev K = some K' ∧ Open (evs ++ [ev]) K' ∧ K'.length = d' + 1 := by
  match ev, K, h with
  | .begin e a b, ts :: K, h =>
    cases hs
    exact ⟨_, rfl, Open.push h .nil, by simp at hd ⊢; exact hd⟩
  | .eff e a b, ts :: K, h =>
    cases hs
    refine ⟨_, rfl, ?_, by simp at hd ⊢; exact hd⟩
    have := h.snoc (.eff .nil : Parses [.eff e a b] [.node e a b []])
    simpa using this
  | .end_, K, h =>
    cases h with
    | base hp => simp at hd; subst hd; cases hs
    | @push evs ts rest e a b inner ext ho hi =>
      cases d with
      | zero => cases hs
      | succ d =>
        cases hs
        refine ⟨_, rfl, ?_, by simp at hd ⊢; exact hd⟩
        have := ho.snoc (.ext (e := e) (a := a) (b := b) hi .nil : Parses (.begin e a b :: (inner ++ [.end_])) _)
        simpa using this
  | .begin e a b, [], h => exact absurd rfl h.len
  | .eff e a b, [], h => exact absurd rfl h.len

theorem runs_append (a b : List Ev) (t : TrSt) : runs (a ++ b) t = (runs a t).bind (runs b) := by
  induction a generalizing t with
  | nil => rfl
  | cons e a ih =>
    simp only [List.cons_append, runs]
    cases step e t with
    | none => rfl
    | some t' => simp [ih]

/-- Any prefix-balanced event sequence (latest first, as in the engine's log) is recorded without panic. -/
theorem record_ok (evs : List Ev) : ∀ d, evDepth evs 0 = some d →
    ∃ K, runs evs.reverse [[]] = some K ∧ Open evs.reverse K ∧ K.length = d + 1 := by
  induction evs with
  | nil => intro d h; cases h; exact ⟨[[]], rfl, Open.base .nil, rfl⟩
  | cons e evs ih =>
    intro d h
    simp only [evDepth] at h
    rcases h1 : evDepth evs 0 with _ | d1
    · rw [h1] at h; cases h
    · rw [h1] at h
      simp only [Option.bind_some] at h
      obtain ⟨K, k1, k2, k3⟩ := ih d1 h1
      obtain ⟨K', g1, g2, g3⟩ := open_step k2 e k3 h
      refine ⟨K', ?_, ?_, g3⟩
      · rw [List.reverse_cons, runs_append, k1]; simp [runs, g1]
      · rw [List.reverse_cons]; exact g2

theorem record_closed {evs : List Ev} (h : evDepth evs 0 = some 0) :
    ∃ ts, runs evs.reverse [[]] = some [ts] ∧ Parses evs.reverse ts.reverse := by
  obtain ⟨K, h1, h2, h3⟩ := record_ok evs 0 h
  generalize evs.reverse = L at *
  cases h2 with
  | base hp => exact ⟨_, h1, by simpa using hp⟩
  | push _ _ => simp at h3

end Adapton.Trace
