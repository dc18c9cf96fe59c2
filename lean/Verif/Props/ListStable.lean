import Verif.Engine.Settled
import Verif.Engine.Wf
import Verif.Props.ListEngine
/-
C78: pipelines of `list_map_eager` and `list_filter_eager` are incremental.  After any history of edits and demands, edits of a part of the list make the next demand run the
code of the thunks of that part, and of the two before it, and of no others.
-/
set_option linter.unusedSectionVars false
set_option linter.unusedVariables false
namespace Adapton.ListProg
open Coll (NameElse Lst elmsOf namesOf)
open SortProg (LV AL)
open Ref (Sig Kind Store Ctx Ext ES Means alloc)
open EditSession (World Below AncOk Cells Edit applyAll cellAt)
variable {X : Type} [DecidableEq X]

/-- Some elements, then `tl`. -/
def chunk (xs : List X) (tl : LV X) : LV X := xs.foldr .cons tl

/-- A list as a sequence of segments: a name, an articulation, and the elements up to the next name. -/
abbrev Sp (X : Type) := List (Name × Loc × List X)

/-- The list that starts at the first name. -/
def tl : Sp X → LV X
  | [] => .nil
  | (n, a, _) :: _ => .name n (.art a)

/-- Observing the articulations yields the segments. -/
def SpineOk (U : Loc → CV X → Prop) : Sp X → Prop
  | [] => True
  | (_, a, xs) :: r => a.isStruct = false ∧ U a (.lst (chunk xs (tl r))) ∧ SpineOk U r

theorem SpineOk.suffix {U : Loc → CV X → Prop} {q : Sp X} : ∀ (p : Sp X), SpineOk U (p ++ q) → SpineOk U q
  | [], h => h
  | _ :: p, h => suffix p h.2.2

/-- The thunk of a stage for a name. -/
def thunkAt (nm n : Name) : Loc := ⟨stagePath nm, .nominal n⟩

/-- What a stage makes of the segments. -/
def outSp (nm : Name) (f : X → Option X) (sp : Sp X) : Sp X := sp.map fun s => (s.1, thunkAt nm s.1, s.2.2.filterMap f)

theorem tl_out {nm : Name} {f : X → Option X} {p q : Sp X} (h : tl p = tl q) : tl (outSp nm f p) = tl (outSp nm f q) := by
  rcases p with _ | ⟨⟨n, a, xs⟩, p⟩ <;> rcases q with _ | ⟨⟨m, b, ys⟩, q⟩
  · rfl
  · cases h
  · cases h
  · injection h with h1 h2; subst h1; rfl

section
variable {H : NameHash} {opAt : Name → Op} {g : Nat → X → Option X} {hv : CV X → UInt64} {ha : ProgPt → CV X → UInt64} {sig : Sig} {s : St (CV X)} {σ : Store (CV X)} {D : Loc → Prop}
  {π : Path} {pre es : List (Edge (CV X))} {v : CV X}

/-- Looking at an articulation. -/
theorem each_view {st : Style} {i : Nat} {a : Loc} {l : LV X} (ha' : a.isStruct = false) (hu : UpToDate sig s σ D a (.lst l)) (hl : ∀ b, l ≠ .art b)
    (h : Seen sig (env H opAt g hv ha) s σ D π (each H st i (g i) (.art a)) pre es v) :
    ∃ new es', es = new ++ es' ∧ (new = [] ∨ new = [obsEdge tyL a (.lst l)]) ∧ Seen sig (env H opAt g hv ha) s σ D π (each H st i (g i) l) (pre ++ new) es' v := by
  have hlv : (env H opAt g hv ha).code fLView (.lst l) = .ret (.lst l) := by
    show lview l = _
    cases l with
    | art b => exact absurd rfl (hl b)
    | _ => rfl
  unfold each at h ⊢
  obtain ⟨w, es1, es2, rfl, h1, h2⟩ := h.call
  obtain ⟨w', new, es3, g1, rfl, g3, g4⟩ := Seen.force1 (cyc := none) (k := fun v => .call fLView v .ret) h1 ha'
  have := g1.unique hu
  subst this
  obtain ⟨w2, es4, es5, rfl, k1, k2⟩ := g4.call
  rw [hlv] at k1
  obtain ⟨rfl, rfl⟩ := k1.ret
  obtain ⟨rfl, rfl⟩ := k2.ret
  simp only [List.append_nil] at h2 ⊢
  refine ⟨new, es2, rfl, g3, ?_, ?_⟩
  · have := Replay.call (es1 := []) (es2 := es2) (m := false) (sig := sig) (t := s.table) (π := π) (pre := pre ++ new) (fn := fLView) (arg := (.lst l : CV X))
      (env := env H opAt g hv ha) (by rw [hlv]; exact Replay.ret) (by rw [List.append_nil]; exact h2.1)
    exact this
  · exact h2.2

/-- What `list_map_eager` or `list_filter_eager` does with a segment. -/
theorem each_replay {nm : Name} {i : Nat} (hsig : ∀ n, sig (thunkAt nm n) = .thunk tyL (ppEach .eager) (fEach .eager i)) (r : Sp X) : ∀ (xs : List X) (pre es : List (Edge (CV X))) (v : CV X),
    Seen sig (env H opAt g hv ha) s σ D (stagePath nm) (each H .eager i (g i) (chunk xs (tl r))) pre es v →
    v = .lst (chunk (xs.filterMap (g i)) (tl (outSp nm (g i) r))) ∧
    (∀ e ∈ es, ∃ n a ys q, r = (n, a, ys) :: q ∧ (e = allocEdge (thunkAt nm n) (.lst (.art a)) ∨ ∃ w, e = obsEdge tyL (thunkAt nm n) w ∧ UpToDate sig s σ D (thunkAt nm n) w)) ∧
    ∀ n a ys q, r = (n, a, ys) :: q → σ (thunkAt nm n) = some (.lst (.art a)) ∧ D (thunkAt nm n) := by
  intro xs
  induction xs with
  | nil =>
    intro pre es v h
    rcases r with _ | ⟨⟨n, a, ys⟩, q⟩
    · unfold each at h
      obtain ⟨w, es1, es2, rfl, h1, h2⟩ := h.call
      obtain ⟨rfl, rfl⟩ := Seen.ret (w := (.lst .nil : CV X)) h1
      obtain ⟨rfl, rfl⟩ := Seen.ret (w := (.lst .nil : CV X)) h2
      exact ⟨rfl, (fun _ h => by cases h), (fun _ _ _ _ h => by cases h)⟩
    · unfold each at h
      obtain ⟨w, es1, es2, rfl, h1, h2⟩ := h.call
      obtain ⟨rfl, rfl⟩ := Seen.ret (w := (.lst (.name n (.art a)) : CV X)) h1
      have h2 : Seen sig (env H opAt g hv ha) s σ D (stagePath nm) (.thunk tyL (.nominal n) (ppEach .eager) (fEach .eager i) (.lst (.art a)) fun a => .force tyL a none <| onLst fun _ =>
        .ret (.lst (.name n (.art a)))) (pre ++ []) es2 v := h2
      obtain ⟨es3, g1, rfl, g2⟩ := h2.thunk
      obtain ⟨w, new, es4, k1, rfl, k2, k3⟩ := Seen.force g2 rfl
      have k4 : ∃ l, w = .lst l := by
        obtain ⟨k3, _⟩ := k3
        cases w <;> first | exact ⟨_, rfl⟩ | (cases k3)
      obtain ⟨l, rfl⟩ := k4
      obtain ⟨rfl, rfl⟩ := Seen.ret (w := (.lst (.name n (.art (thunkAt nm n))) : CV X)) k3
      refine ⟨rfl, ?_, ?_⟩
      · intro e he
        refine ⟨n, a, ys, q, rfl, ?_⟩
        simp only [List.nil_append, List.append_nil, List.mem_cons] at he
        rcases he with he | he
        · exact .inl he
        · exact .inr ⟨_, k2 e he, k1⟩
      · intro n' a' ys' q' e
        cases e
        refine ⟨g1, ?_⟩
        unfold UpToDate at k1
        have hs := hsig n
        unfold thunkAt at hs
        rw [hs] at k1
        exact k1.1
  | cons x xs ih =>
    intro pre es v h
    have hch : chunk (x :: xs) (tl r) = .cons x (chunk xs (tl r)) := rfl
    rw [hch] at h
    generalize hL : chunk xs (tl r) = L at h ih
    unfold each at h
    obtain ⟨w, es1, es2, rfl, h1, h2⟩ := h.call
    obtain ⟨rfl, rfl⟩ := Seen.ret (w := (.lst (.cons x L) : CV X)) h1
    simp only [onLst] at h2
    rcases hg : g i x with _ | y
    · rw [hg] at h2
      obtain ⟨w, es3, es4, rfl, k1, k2⟩ := Seen.call (fn := fEach .eager i) (arg := CV.lst L) h2
      obtain ⟨rfl, rfl⟩ := Seen.ret k2
      rw [show (env H opAt g hv ha).code (fEach .eager i) (.lst L) = each H .eager i (g i) L from code_each H opAt g .eager i L] at k1
      obtain ⟨q1, q2, q3⟩ := ih _ _ _ k1
      refine ⟨?_, fun e he => q2 e (by simpa using he), q3⟩
      rw [q1, List.filterMap_cons, hg]
    · rw [hg] at h2
      obtain ⟨w, es3, es4, rfl, k1, k2⟩ := Seen.call (fn := fEach .eager i) (arg := CV.lst L) h2
      rw [show (env H opAt g hv ha).code (fEach .eager i) (.lst L) = each H .eager i (g i) L from code_each H opAt g .eager i L] at k1
      obtain ⟨q1, q2, q3⟩ := ih _ _ _ k1
      subst q1
      obtain ⟨rfl, rfl⟩ := Seen.ret (w := (.lst (.cons y (chunk (xs.filterMap (g i)) (tl (outSp nm (g i) r)))) : CV X)) k2
      refine ⟨?_, fun e he => q2 e (by simpa using he), q3⟩
      rw [List.filterMap_cons, hg]; rfl

theorem chunk_art {xs : List X} {r : Sp X} {b : Loc} : chunk xs (tl r) ≠ .art b := by
  rcases xs with _ | ⟨x, xs⟩
  · rcases r with _ | ⟨⟨n, a, ys⟩, q⟩ <;> intro h <;> cases h
  · intro h; cases h

/-- How many dependencies are recorded for a segment. -/
theorem each_count {nm : Name} {i : Nat} (hsig : ∀ n, sig (thunkAt nm n) = .thunk tyL (ppEach .eager) (fEach .eager i)) (r : Sp X) : ∀ (xs : List X) (pre es : List (Edge (CV X))) (v : CV X),
    Seen sig (env H opAt g hv ha) s σ D (stagePath nm) (each H .eager i (g i) (chunk xs (tl r))) pre es v → es.length ≤ 2 := by
  intro xs
  induction xs with
  | nil =>
    intro pre es v h
    rcases r with _ | ⟨⟨n, a, ys⟩, q⟩
    · unfold each at h
      obtain ⟨w, es1, es2, rfl, h1, h2⟩ := h.call
      obtain ⟨rfl, rfl⟩ := Seen.ret (w := (.lst .nil : CV X)) h1
      obtain ⟨rfl, rfl⟩ := Seen.ret (w := (.lst .nil : CV X)) h2
      exact Nat.zero_le _
    · unfold each at h
      obtain ⟨w, es1, es2, rfl, h1, h2⟩ := h.call
      obtain ⟨rfl, rfl⟩ := Seen.ret (w := (.lst (.name n (.art a)) : CV X)) h1
      have h2 : Seen sig (env H opAt g hv ha) s σ D (stagePath nm) (.thunk tyL (.nominal n) (ppEach .eager) (fEach .eager i) (.lst (.art a)) fun a => .force tyL a none <| onLst fun _ =>
        .ret (.lst (.name n (.art a)))) (pre ++ []) es2 v := h2
      obtain ⟨es3, g1, rfl, g2⟩ := h2.thunk
      obtain ⟨w, new, es4, k1, rfl, k2, k3⟩ := Seen.force1 g2 rfl
      have k4 : ∃ l, w = .lst l := by
        obtain ⟨k3, _⟩ := k3
        cases w <;> first | exact ⟨_, rfl⟩ | (cases k3)
      obtain ⟨l, rfl⟩ := k4
      obtain ⟨rfl, rfl⟩ := Seen.ret (w := (.lst (.name n (.art (thunkAt nm n))) : CV X)) k3
      rcases k2 with rfl | rfl <;> simp
  | cons x xs ih =>
    intro pre es v h
    rw [show chunk (x :: xs) (tl r) = .cons x (chunk xs (tl r)) from rfl] at h
    have rep := each_replay (H := H) (opAt := opAt) (g := g) (hv := hv) (ha := ha) (s := s) (σ := σ) (D := D) hsig r xs
    generalize hL : chunk xs (tl r) = L at h ih rep
    unfold each at h
    obtain ⟨w, es1, es2, rfl, h1, h2⟩ := h.call
    obtain ⟨rfl, rfl⟩ := Seen.ret (w := (.lst (.cons x L) : CV X)) h1
    simp only [onLst] at h2
    rcases hg : g i x with _ | y
    · rw [hg] at h2
      obtain ⟨w, es3, es4, rfl, k1, k2⟩ := Seen.call (fn := fEach .eager i) (arg := CV.lst L) h2
      obtain ⟨rfl, rfl⟩ := Seen.ret k2
      rw [show (env H opAt g hv ha).code (fEach .eager i) (.lst L) = each H .eager i (g i) L from code_each H opAt g .eager i L] at k1
      simpa using ih _ _ _ k1
    · rw [hg] at h2
      obtain ⟨w, es3, es4, rfl, k1, k2⟩ := Seen.call (fn := fEach .eager i) (arg := CV.lst L) h2
      rw [show (env H opAt g hv ha).code (fEach .eager i) (.lst L) = each H .eager i (g i) L from code_each H opAt g .eager i L] at k1
      obtain ⟨q1, _⟩ := rep _ _ _ k1
      subst q1
      obtain ⟨rfl, rfl⟩ := Seen.ret (w := (.lst (.cons y (chunk (xs.filterMap (g i)) (tl (outSp nm (g i) r)))) : CV X)) k2
      simpa using ih _ _ _ k1

/-- A thunk of a stage that is up to date has recorded at most three dependencies. -/
theorem stage_count {nm : Name} {i : Nat} (hsig : ∀ n, sig (thunkAt nm n) = .thunk tyL (ppEach .eager) (fEach .eager i)) (hm : sig.mode = false)
    (hI : Inv sig (env H opAt g hv ha) s σ D) {n : Name} {a : Loc} {xs : List X} {r : Sp X} (ha' : a.isStruct = false) (hu : UpToDate sig s σ D a (.lst (chunk xs (tl r))))
    (hD : D (thunkAt nm n)) (hσ : σ (thunkAt nm n) = some (.lst (.art a))) : ∃ nd, s.table.get (thunkAt nm n) = some (.comp nd) ∧ nd.succs.length ≤ 3 := by
  obtain ⟨nd, v, g1, g2, g3, g4, g5, g6⟩ := Seen.ofDone hI hm hD (hsig n) hσ
  rw [show (env H opAt g hv ha).code (fEach .eager i) (.lst (.art a)) = each H .eager i (g i) (.art a) from code_each H opAt g .eager i _] at g6
  obtain ⟨new, es', e1, e2, e3⟩ := each_view ha' hu (fun b => chunk_art) g6
  have h1 := each_count hsig r _ _ _ _ e3
  have h2 : new.length ≤ 1 := by rcases e2 with rfl | rfl <;> simp
  have h3 := congrArg List.length e1
  simp only [List.length_map, List.length_append] at h3
  exact ⟨nd, g1, by omega⟩

/-- A thunk of a stage that is up to date: its value, its dependencies, and the thunk after it. -/
theorem stage_thunk {nm : Name} {i : Nat} (hsig : ∀ n, sig (thunkAt nm n) = .thunk tyL (ppEach .eager) (fEach .eager i)) (hm : sig.mode = false)
    (hI : Inv sig (env H opAt g hv ha) s σ D) {n : Name} {a : Loc} {xs : List X} {r : Sp X} (ha' : a.isStruct = false) (hu : UpToDate sig s σ D a (.lst (chunk xs (tl r))))
    (hD : D (thunkAt nm n)) (hσ : σ (thunkAt nm n) = some (.lst (.art a))) :
    UpToDate sig s σ D (thunkAt nm n) (.lst (chunk (xs.filterMap (g i)) (tl (outSp nm (g i) r)))) ∧
    (∃ nd, s.table.get (thunkAt nm n) = some (.comp nd) ∧ nd.arg = .lst (.art a) ∧ ∀ e ∈ nd.succs, e.edge = obsEdge tyL a (.lst (chunk xs (tl r))) ∨
      ∃ n' a' ys q, r = (n', a', ys) :: q ∧ (e.edge = allocEdge (thunkAt nm n') (.lst (.art a')) ∨
        ∃ w, e.edge = obsEdge tyL (thunkAt nm n') w ∧ UpToDate sig s σ D (thunkAt nm n') w)) ∧
    ∀ n' a' ys q, r = (n', a', ys) :: q → σ (thunkAt nm n') = some (.lst (.art a')) ∧ D (thunkAt nm n') := by
  obtain ⟨nd, v, g1, g2, g3, g4, g5, g6⟩ := Seen.ofDone hI hm hD (hsig n) hσ
  rw [show (env H opAt g hv ha).code (fEach .eager i) (.lst (.art a)) = each H .eager i (g i) (.art a) from code_each H opAt g .eager i _] at g6
  obtain ⟨new, es', e1, e2, e3⟩ := each_view ha' hu (fun b => chunk_art) g6
  obtain ⟨rfl, q2, q3⟩ := each_replay hsig r _ _ _ _ e3
  refine ⟨g5, ⟨nd, g1, g3, ?_⟩, q3⟩
  intro e he
  have hme : e.edge ∈ new ++ es' := by rw [← e1]; exact List.mem_map.2 ⟨e, he, rfl⟩
  rcases List.mem_append.1 hme with h | h
  · rcases e2 with rfl | rfl
    · cases h
    · exact .inl (by simpa using h)
  · exact .inr (q2 _ h)

/-- All thunks of a stage. -/
def StageOk (σ : Store (CV X)) (D : Loc → Prop) (nm : Name) (sp : Sp X) : Prop := ∀ x ∈ sp, D (thunkAt nm x.1) ∧ σ (thunkAt nm x.1) = some (.lst (.art x.2.1))

theorem spine_out {nm : Name} {i : Nat} (hsig : ∀ n, sig (thunkAt nm n) = .thunk tyL (ppEach .eager) (fEach .eager i)) (hm : sig.mode = false)
    (hI : Inv sig (env H opAt g hv ha) s σ D) : ∀ (sp : Sp X), SpineOk (UpToDate sig s σ D) sp →
      (∀ n a xs r, sp = (n, a, xs) :: r → σ (thunkAt nm n) = some (.lst (.art a)) ∧ D (thunkAt nm n)) →
      StageOk σ D nm sp ∧ SpineOk (UpToDate sig s σ D) (outSp nm (g i) sp) := by
  intro sp
  induction sp with
  | nil => intro _ _; exact ⟨(fun _ h => by cases h), trivial⟩
  | cons x r ih =>
    obtain ⟨n, a, xs⟩ := x
    intro hs hh
    obtain ⟨h1, h2⟩ := hh _ _ _ _ rfl
    obtain ⟨k1, _, k2⟩ := stage_thunk hsig hm hI hs.1 hs.2.1 h2 h1
    obtain ⟨i1, i2⟩ := ih hs.2.2 k2
    refine ⟨?_, rfl, k1, i2⟩
    intro x hx
    rcases List.mem_cons.1 hx with rfl | hx
    · exact ⟨h2, h1⟩
    · exact i1 x hx

/-- The segments at each stage. -/
def AllSt (U : Loc → CV X → Prop) (σ : Store (CV X)) (D : Loc → Prop) (g : Nat → X → Option X) (idx : Name → Nat) : List Name → Sp X → Prop
  | [], _ => True
  | nm :: nms, sp => SpineOk U sp ∧ StageOk σ D nm sp ∧ SpineOk U (outSp nm (g (idx nm)) sp) ∧ AllSt U σ D g idx nms (outSp nm (g (idx nm)) sp)

theorem root_replay {idx : Name → Nat} (hm : sig.mode = false) (hI : Inv sig (env H opAt g hv ha) s σ D) {lim : Option Nat} : ∀ (nms : List Name),
    (∀ nm ∈ nms, opAt nm = .each .eager (idx nm)) → (∀ nm ∈ nms, ∀ n, sig (thunkAt nm n) = .thunk tyL (ppEach .eager) (fEach .eager (idx nm))) →
    ∀ (h : List X) (sp : Sp X) (pre es : List (Edge (CV X))) (v : CV X), SpineOk (UpToDate sig s σ D) sp →
    Seen sig (env H opAt g hv ha) s σ D rootPath (root opAt nms (chunk h (tl sp)) lim) pre es v → AllSt (UpToDate sig s σ D) σ D g idx nms sp := by
  intro nms
  induction nms with
  | nil => intro _ _ h sp pre es v _ _; trivial
  | cons nm nms ih =>
    intro hop hsig h sp pre es v hs hseen
    unfold root at hseen
    obtain ⟨w, es1, es2, rfl, h1, h2⟩ := hseen.ns
    rw [hop nm (List.mem_cons_self ..)] at h1
    obtain ⟨w', es3, es4, rfl, k1, k2⟩ := Seen.call (fn := fEach .eager (idx nm)) (arg := CV.lst (chunk h (tl sp))) h1
    rw [show (env H opAt g hv ha).code (fEach .eager (idx nm)) (.lst (chunk h (tl sp))) = each H .eager (idx nm) (g (idx nm)) (chunk h (tl sp)) from code_each H opAt g .eager _ _] at k1
    obtain ⟨rfl, rfl⟩ := Seen.ret k2
    obtain ⟨rfl, q2, q3⟩ := each_replay (hsig nm (List.mem_cons_self ..)) sp _ _ _ _ k1
    obtain ⟨j1, j2⟩ := spine_out (hsig nm (List.mem_cons_self ..)) hm hI sp hs q3
    exact ⟨hs, j1, j2, ih (fun m hm => hop m (List.mem_cons_of_mem _ hm)) (fun m hm => hsig m (List.mem_cons_of_mem _ hm)) _ _ _ _ _ j2 h2⟩

/-! ### What is not run -/

/-- What follows is the same, as far as a thunk can see it. -/
inductive SameNext : Sp X → Sp X → Prop
  | nil : SameNext [] []
  | cons {x q1 q2} : tl q1 = tl q2 → SameNext (x :: q1) (x :: q2)

theorem SameNext.refl : (r : Sp X) → SameNext r r
  | [] => .nil
  | _ :: _ => .cons rfl
theorem SameNext.tl {r1 r2 : Sp X} (h : SameNext r1 r2) : ListProg.tl r1 = ListProg.tl r2 := by
  cases h with
  | nil => rfl
  | cons _ => rfl
theorem SameNext.out {nm : Name} {f : X → Option X} {r1 r2 : Sp X} (h : SameNext r1 r2) : SameNext (outSp nm f r1) (outSp nm f r2) := by
  cases h with
  | nil => exact .nil
  | cons h => exact .cons (tl_out h)

variable {R : EditSession.Root (CV X)} {s1 s2 : St (CV X)} {σ1 σ2 : Store (CV X)} {D1 D0 D2 : Loc → Prop} {rs : List Loc}

/-- A thunk of a stage for a segment that is the same as before, as are the next segment and the name after it. -/
theorem stage_not_run {nm : Name} {i : Nat} (hsig : ∀ n, sig (thunkAt nm n) = .thunk tyL (ppEach .eager) (fEach .eager i)) (hm : sig.mode = false) (hR : R.loc.path = rootPath)
    (hI1 : Inv sig (env H opAt g hv ha) s1 σ1 D1) (hI2 : Inv sig (env H opAt g hv ha) s2 σ2 D2) (hf : EditSession.Frame (EditSession.Own R) s1 s) (hr : RunsOK sig s D0 s2 σ2 D2 rs)
    {x : Name × Loc × List X} {r1 r2 : Sp X} (hx : SameNext r1 r2)
    (a1 : SpineOk (UpToDate sig s1 σ1 D1) (x :: r1)) (a2 : StageOk σ1 D1 nm (x :: r1)) (a3 : SpineOk (UpToDate sig s1 σ1 D1) (outSp nm (g i) (x :: r1)))
    (b1 : SpineOk (UpToDate sig s2 σ2 D2) (x :: r2)) (b2 : StageOk σ2 D2 nm (x :: r2)) (b3 : SpineOk (UpToDate sig s2 σ2 D2) (outSp nm (g i) (x :: r2))) : thunkAt nm x.1 ∉ rs := by
  obtain ⟨n, a, xs⟩ := x
  have hown : ∀ m, ¬ EditSession.Own R (thunkAt nm m) := by
    rintro m (h | h)
    · cases h
    · have := congrArg Loc.path h
      rw [hR] at this
      simp [thunkAt, stagePath, rootPath] at this
  obtain ⟨k1, k2⟩ := a2 _ (List.mem_cons_self ..)
  obtain ⟨j1, j2⟩ := b2 _ (List.mem_cons_self ..)
  obtain ⟨_, ⟨nd0, q1, q2, q3⟩, q4⟩ := stage_thunk hsig hm hI1 a1.1 a1.2.1 k1 k2
  refine not_run hI1 hf hr k1 (hown n) (j2.trans k2.symm) ?_ ?_
  · intro nd e hnd he hobs
    rw [q1] at hnd; cases hnd
    rcases q3 e he with h | ⟨n', a', ys, q, rfl, h | ⟨w, h, hw⟩⟩
    · have hl : e.loc = a := congrArg Edge.loc h
      refine ⟨tyL, _, by rw [hl]; exact h, ?_⟩
      rw [hl, hx.tl]
      exact b1.2.1
    · have : e.effect = .allocate := congrArg Edge.effect h
      rw [hobs] at this; cases this
    · have hl : e.loc = thunkAt nm n' := congrArg Edge.loc h
      refine ⟨tyL, w, by rw [hl]; exact h, ?_⟩
      rw [hl]
      have hw' : w = .lst (chunk (ys.filterMap (g i)) (ListProg.tl (outSp nm (g i) q))) := hw.unique a3.2.2.2.1
      cases hx with
      | cons hq =>
        rw [hw', tl_out hq]
        exact b3.2.2.2.1
  · intro nd e hnd he hal
    rw [q1] at hnd; cases hnd
    rcases q3 e he with h | ⟨n', a', ys, q, rfl, h | ⟨w, h, hw⟩⟩
    · have : e.effect = .observe := congrArg Edge.effect h
      rw [hal] at this; cases this
    · have hl : e.loc = thunkAt nm n' := congrArg Edge.loc h
      rw [hl]
      refine ⟨hown n', .inl ?_⟩
      obtain ⟨g1, g2⟩ := q4 _ _ _ _ rfl
      obtain ⟨_, ⟨nd', z1, z2, _⟩, _⟩ := stage_thunk hsig hm hI1 a1.2.2.1 a1.2.2.2.1 g2 g1
      refine ⟨nd', z1, ?_⟩
      rw [z2]
      cases hx with
      | cons hq => exact (b2 _ (List.mem_cons_of_mem _ (List.mem_cons_self ..))).2
    · have : e.effect = .observe := congrArg Edge.effect h
      rw [hal] at this; cases this

/-- The same for all stages. -/
theorem chain_not_run {idx : Name → Nat} (hm : sig.mode = false) (hR : R.loc.path = rootPath)
    (hI1 : Inv sig (env H opAt g hv ha) s1 σ1 D1) (hI2 : Inv sig (env H opAt g hv ha) s2 σ2 D2) (hf : EditSession.Frame (EditSession.Own R) s1 s) (hr : RunsOK sig s D0 s2 σ2 D2 rs) :
    ∀ (nms : List Name), (∀ nm ∈ nms, ∀ n, sig (thunkAt nm n) = .thunk tyL (ppEach .eager) (fEach .eager (idx nm))) →
    ∀ (p1 p2 : Sp X) (x : Name × Loc × List X) (r1 r2 : Sp X), SameNext r1 r2 → AllSt (UpToDate sig s1 σ1 D1) σ1 D1 g idx nms (p1 ++ x :: r1) →
    AllSt (UpToDate sig s2 σ2 D2) σ2 D2 g idx nms (p2 ++ x :: r2) → ∀ nm ∈ nms, thunkAt nm x.1 ∉ rs := by
  intro nms
  induction nms with
  | nil => intro _ p1 p2 x r1 r2 _ _ _ nm h; cases h
  | cons m nms ih =>
    intro hsig p1 p2 x r1 r2 hx h1 h2 nm hnm
    obtain ⟨a1, a2, a3, a4⟩ := h1
    obtain ⟨b1, b2, b3, b4⟩ := h2
    have e : ∀ p r : Sp X, outSp m (g (idx m)) (p ++ x :: r) = outSp m (g (idx m)) p ++ (x.1, thunkAt m x.1, x.2.2.filterMap (g (idx m))) :: outSp m (g (idx m)) r := by
      intro p r; simp [outSp]
    rcases List.mem_cons.1 hnm with rfl | hnm
    · refine stage_not_run (hsig nm (List.mem_cons_self ..)) hm hR hI1 hI2 hf hr hx a1.suffix (fun y hy => a2 y (List.mem_append_right _ hy)) ?_ b1.suffix
        (fun y hy => b2 y (List.mem_append_right _ hy)) ?_
      · rw [e] at a3; exact a3.suffix
      · rw [e] at b3; exact b3.suffix
    · rw [e] at a4 b4
      exact ih (fun k hk => hsig k (List.mem_cons_of_mem _ hk)) _ _ _ _ _ hx.out a4 b4 nm hnm

/-- All thunks of all stages have recorded at most three dependencies. -/
theorem chain_count {idx : Name → Nat} (hm : sig.mode = false) (hI : Inv sig (env H opAt g hv ha) s σ D) :
    ∀ (nms : List Name), (∀ nm ∈ nms, ∀ n, sig (thunkAt nm n) = .thunk tyL (ppEach .eager) (fEach .eager (idx nm))) →
    ∀ (sp : Sp X), AllSt (UpToDate sig s σ D) σ D g idx nms sp → ∀ nm ∈ nms, ∀ x ∈ sp, ∃ nd, s.table.get (thunkAt nm x.1) = some (.comp nd) ∧ nd.succs.length ≤ 3 := by
  intro nms
  induction nms with
  | nil => intro _ sp _ nm h; cases h
  | cons m nms ih =>
    intro hsig sp h1 nm hnm x hx
    obtain ⟨a1, a2, a3, a4⟩ := h1
    rcases List.mem_cons.1 hnm with rfl | hnm
    · obtain ⟨p, q, rfl⟩ := List.append_of_mem hx
      obtain ⟨n, a, xs⟩ := x
      have b1 := a1.suffix
      obtain ⟨c1, c2⟩ := a2 _ hx
      exact stage_count (hsig nm (List.mem_cons_self ..)) hm hI b1.1 b1.2.1 c1 c2
    · exact ih (fun k hk => hsig k (List.mem_cons_of_mem _ hk)) _ a4 nm hnm (x.1, thunkAt m x.1, x.2.2.filterMap (g (idx m))) (List.mem_map.2 ⟨x, hx, rfl⟩)

/-- What is allocated. -/
theorem eager_alloc {idx : Name → Nat} {nms : List Name} : (∀ nm ∈ nms, opAt nm = .each .eager (idx nm)) → ∀ (r : Nat) (l : AL X), ∀ x ∈ (aChain H opAt g nms r l).2.1,
    ∃ nm ∈ nms, ∃ n ∈ namesOf l.erase.items, x.1 = thunkAt nm n := by
  induction nms with
  | nil => intro _ r l x hx; cases hx
  | cons nm nms ih =>
    intro hop r l x hx
    rcases List.mem_append.1 hx with hx | hx
    · have : x.1 ∈ (aOp H g (opAt nm) (stagePath nm) r l).2.map Prod.fst := List.mem_map_of_mem hx
      rw [aOp_alloc, hop nm (List.mem_cons_self ..)] at this
      obtain ⟨n, hn, e⟩ := List.mem_map.1 this
      obtain ⟨m, hm, hn⟩ := List.mem_flatMap.1 hn
      have : n = m := by simpa [opNames] using hn
      subst this
      exact ⟨nm, List.mem_cons_self .., n, hm, e.symm⟩
    · obtain ⟨nm', h1, n, h2, h3⟩ := ih (fun m hm => hop m (List.mem_cons_of_mem _ hm)) _ _ x hx
      refine ⟨nm', List.mem_cons_of_mem _ h1, n, ?_, h3⟩
      rw [aOp_items, hop nm (List.mem_cons_self ..)] at h2
      rw [show namesOf (specOp H g (.each .eager (idx nm)) l.erase.items) = _ from namesOf_filterMap _] at h2
      exact h2
end

/-! ### Counting -/

theorem near_end {A : Type} {x : A} : ∀ {l : List A}, x ∈ l → x ∈ l.drop (l.length - 2) ∨ ∃ p y z q, l = p ++ x :: y :: z :: q
  | [], h => by cases h
  | [a], h => .inl h
  | [a, b], h => .inl h
  | a :: b :: c :: l, h => by
    have hd : (a :: b :: c :: l).drop ((a :: b :: c :: l).length - 2) = (b :: c :: l).drop ((b :: c :: l).length - 2) := by
      simp only [List.length_cons]
      rw [show l.length + 1 + 1 + 1 - 2 = (l.length + 1 + 1 - 2) + 1 by omega]
      rfl
    rw [hd]
    rcases List.mem_cons.1 h with rfl | h
    · exact .inr ⟨[], b, c, l, rfl⟩
    · rcases near_end h with h | ⟨p, y, z, q, h⟩
      · exact .inl h
      · exact .inr ⟨a :: p, y, z, q, by rw [h]; rfl⟩

/-! ### The statement -/

/-- A segment of a list: a name, the cell with what follows it, and the elements in that cell up to the next name. -/
structure Seg (X : Type) where
  name : Name
  cell : Name
  elems : List X

/-- The list that starts with the elements `h` and goes on with the segments, as a value. -/
def listOf (h : List X) : List (Seg X) → LV X
  | [] => h.foldr .cons .nil
  | s :: _ => h.foldr .cons (.name s.name (.art (cellAt s.cell)))

/-- The cells hold the segments. -/
def Holds (cs : Cells (CV X)) : List (Seg X) → Prop
  | [] => True
  | s :: r => cs s.cell = some (.lst (listOf s.elems r)) ∧ Holds cs r

/-- The items of such a list. -/
def itemsOf (h : List X) (segs : List (Seg X)) : List (NameElse X) := h.map .elm ++ segs.flatMap fun s => .name s.name :: s.elems.map .elm

/-- The last two. -/
def lastTwo {A : Type} (l : List A) : List A := l.drop (l.length - 2)

def Seg.sp (s : Seg X) : Name × Loc × List X := (s.name, cellAt s.cell, s.elems)

theorem listOf_eq (h : List X) (segs : List (Seg X)) : listOf h segs = chunk h (tl (segs.map Seg.sp)) := by
  cases segs <;> rfl

/-- The list as a list of the model. -/
def asLst (h : List X) : List (Seg X) → Lst X
  | [] => h.foldr .cons .nil
  | s :: r => h.foldr .cons (.name s.name (.art (asLst s.elems r)))

theorem items_foldr (h : List X) (l : Lst X) : (h.foldr Lst.cons l).items = h.map .elm ++ l.items := by
  induction h with
  | nil => rfl
  | cons x h ih => simp [Lst.items, ih]

theorem asLst_items (segs : List (Seg X)) : ∀ (h : List X), (asLst h segs).items = itemsOf h segs := by
  induction segs with
  | nil => intro h; simp [asLst, itemsOf, items_foldr, Lst.items]
  | cons s r ih => intro h; simp [asLst, itemsOf, items_foldr, Lst.items, ih, List.flatMap_cons]

theorem unfolds_foldr {cs : Cells (CV X)} {v : LV X} {l : Lst X} (hu : Unfolds cs v l) (h : List X) : Unfolds cs (h.foldr .cons v) (h.foldr .cons l) := by
  induction h with
  | nil => exact hu
  | cons x h ih => exact .cons ih

theorem Holds.unfolds {cs : Cells (CV X)} (segs : List (Seg X)) : ∀ (h : List X), Holds cs segs → Unfolds cs (listOf h segs) (asLst h segs) := by
  induction segs with
  | nil => intro h _; exact unfolds_foldr .nil h
  | cons s r ih => intro h hs; exact unfolds_foldr (.name (.art hs.1 (ih _ hs.2))) h

theorem names_items (segs : List (Seg X)) (h : List X) : namesOf (itemsOf h segs) = segs.map Seg.name := by
  have h1 : ∀ t : List X, namesOf (t.map .elm) = [] := fun t => by induction t with
    | nil => rfl
    | cons x t ih => exact ih
  unfold itemsOf
  rw [Coll.namesOf_append, h1, List.nil_append]
  induction segs with
  | nil => rfl
  | cons s r ih => simp [List.flatMap_cons, namesOf, Coll.namesOf_append, h1, ih]

theorem Holds.spine {sig : Sig} {s : St (CV X)} {σ : Store (CV X)} {D : Loc → Prop} {cs : Cells (CV X)} (hsig : ∀ n, sig (cellAt n) = .cell tyL)
    (hc : ∀ n v, cs n = some v → σ (cellAt n) = some v) : ∀ (segs : List (Seg X)), Holds cs segs → SpineOk (UpToDate sig s σ D) (segs.map Seg.sp)
  | [], _ => trivial
  | x :: r, h => by
    refine ⟨rfl, ?_, Holds.spine hsig hc r h.2⟩
    unfold UpToDate
    rw [hsig]
    have := hc _ _ h.1
    rw [listOf_eq] at this
    exact this

section
variable {H : NameHash} {opAt : Name → Op} {g : Nat → X → Option X} {hv : CV X → UInt64} {ha : ProgPt → CV X → UInt64}

/-- **C78.** Pipelines of `list_map_eager` and `list_filter_eager` are incremental.  After any session of C75, the list is demanded through a chain of stages; it consists of the
elements `h` and of the segments `A`, `B` and `C`.  Then the editor edits its cells in any way that leaves the segments `A` and `C`: there are the segments `B'` in place of `B`, and the
first elements and the limit may be others.  Then the next demand returns what the stages make of the new list, and it runs the code of the demanded thunk, and of the thunks of the stages
for the names of `B'` and for the last two names of `A`, of each at most once, and of no other thunk, however long `A` and `C` are.  A thunk of a stage accesses at most three articulations: its segment, and the next thunk of the stage twice. -/
theorem C78_edits_are_local (rn : Name) (ss : List (Step X)) (ls : List (List Name × Lst X × Option Nat)) (h0 : Demands (fun _ => none) ss ls) (purity : Bool)
    (nms : List Name) (hnms : nms.Nodup) (hop : ∀ nm ∈ nms, ∃ i, opAt nm = .each .eager i)
    (h h' : List X) (A B B' C : List (Seg X)) (es1 es2 : List (Edit (CV X))) (lim1 lim2 : Option Nat) (cs1 cs2 : Cells (CV X))
    (hc1 : applyAll (fun _ => none) (ss.flatMap Step.edits ++ es1) = some cs1) (hh1 : Holds cs1 (A ++ B ++ C)) (hg1 : GoodNames (itemsOf h (A ++ B ++ C)))
    (hc2 : applyAll cs1 es2 = some cs2) (hh2 : Holds cs2 (A ++ B' ++ C)) (hg2 : GoodNames (itemsOf h' (A ++ B' ++ C))) :
    ∃ N s1 s2 rs, (∀ n, N ≤ n →
        runSession (env H opAt g hv ha) n ((ss ++ [(⟨es1, nms, listOf h (A ++ B ++ C), lim1⟩ : Step X)]).map (stepProg rn)) (initSt purity false) =
          .ok ((ls.map fun p => .vec (limited p.2.2 (specChain H opAt g p.1 p.2.1.items))) ++ [.vec (limited lim1 (specChain H opAt g nms (itemsOf h (A ++ B ++ C))))]) s1 ∧
        exec (env H opAt g hv ha) n (stepProg rn ⟨es2, nms, listOf h' (A ++ B' ++ C), lim2⟩) s1 =
          .ok (.vec (limited lim2 (specChain H opAt g nms (itemsOf h' (A ++ B' ++ C))))) s2) ∧
      s2.runs = rs ++ s1.runs ∧ rs.Nodup ∧
      (∀ x ∈ rs, x = ⟨rootPath, .nominal rn⟩ ∨ ∃ nm ∈ nms, ∃ seg ∈ lastTwo A ++ B', x = ⟨stagePath nm, .nominal seg.name⟩) ∧
      rs.length ≤ 1 + nms.length * (B'.length + 2) ∧
      ∀ nm ∈ nms, ∀ seg ∈ A ++ B' ++ C, ∃ nd, s2.table.get ⟨stagePath nm, .nominal seg.name⟩ = some (.comp nd) ∧ nd.succs.length ≤ 3 := by
  have hidx : ∃ idx : Name → Nat, ∀ nm ∈ nms, opAt nm = .each .eager (idx nm) := by
    refine ⟨fun nm => match opAt nm with | .each _ i => i | .rev => 0, fun nm hnm => ?_⟩
    obtain ⟨i, hi⟩ := hop nm hnm
    simp only [hi]
  obtain ⟨idx, hidx⟩ := hidx
  obtain ⟨ds, d1, d2⟩ := demands (H := H) (opAt := opAt) (g := g) (hv := hv) (ha := ha) (rn := rn) h0
  obtain ⟨a1, a11, a12, a13⟩ := (Holds.unfolds _ h hh1).annot
  obtain ⟨a2, a21, a22, a23⟩ := (Holds.unfolds _ h' hh2).annot
  have hle : Ref.SigLe (theRoot H opAt g hv ha rn).sig ((sigL opAt).withPu purity) := ⟨fun _ => rfl, rfl, fun _ => rfl, fun _ => id⟩
  obtain ⟨N, s1, e1, D1, s, s2, e2, D2, σ0, D0, rs, r1, r2, r3', r4, r5, r6⟩ := EditSession.two_steps (lawful rn) hle (ss := ss.map fun s => ⟨s.edits, .root s.stages s.list s.limit⟩) (ds := ds)
    (st1 := ⟨es1, .root nms (listOf h (A ++ B ++ C)) lim1⟩) (st2 := ⟨es2, .root nms (listOf h' (A ++ B' ++ C)) lim2⟩) (d1 := (nms, a1, lim1)) (d2 := (nms, a2, lim2)) (cs1 := cs1) (cs2 := cs2)
    d1 (by rw [List.flatMap_append, List.flatMap_map]; simpa using hc1) ⟨a13, by rw [a12, asLst_items]; exact hg1, hnms⟩ (by show CV.root _ _ _ = _; rw [a11])
    hc2 ⟨a23, by rw [a22, asLst_items]; exact hg2, hnms⟩ (by show CV.root _ _ _ = _; rw [a21])
  have r3 := r3'.mono (E' := EditSession.Own (theRoot H opAt g hv ha rn)) fun x h => h.imp id And.left
  have hm : ((sigL opAt).withPu purity).mode = false := rfl
  have hres : ∀ (a : AL X) (lim : Option Nat) (h : List X) (segs : List (Seg X)), a.erase = asLst h segs →
      (theRoot H opAt g hv ha rn).res (nms, a, lim) = .vec (limited lim (specChain H opAt g nms (itemsOf h segs))) := by
    intro a lim h segs e
    show CV.vec _ = _
    rw [res_eq, e, asLst_items]
  have hsig : ∀ nm ∈ nms, ∀ n, ((sigL opAt).withPu purity) (thunkAt nm n) = .thunk tyL (ppEach .eager) (fEach .eager (idx nm)) :=
    fun nm hnm n => sig_each (hidx nm hnm) (by decide)
  have hall : ∀ (cs : Cells (CV X)) (h : List X) (segs : List (Seg X)) (a : AL X) (lim : Option Nat) (e : ES (CV X)) (s : St (CV X)) (D : Loc → Prop), a.val = listOf h segs → Holds cs segs →
      EditSession.Done (theRoot H opAt g hv ha rn) ((sigL opAt).withPu purity) cs (nms, a, lim) e s D →
      AllSt (UpToDate ((sigL opAt).withPu purity) s e.cur D) e.cur D g idx nms (segs.map Seg.sp) := by
    intro cs h segs a lim e s D hav hh hd
    have hsp : SpineOk (UpToDate ((sigL opAt).withPu purity) s e.cur D) (segs.map Seg.sp) :=
      Holds.spine (fun n => sig_cellAt n) (fun n v hn => hd.at_.ed.ext _ _ (hd.at_.ed.cells n v hn)) segs hh
    obtain ⟨nd, v, _, _, _, _, _, g6⟩ := Seen.ofDone hd.inv hm hd.root (ty := tyV) (pp := ppRoot) (fn := fRoot) (arg := .root nms a.val lim) rfl (hd.at_.ed.ext _ _ hd.arg)
    rw [hav, listOf_eq] at g6
    exact root_replay hm hd.inv nms hidx hsig h _ _ _ _ hsp g6
  have all1 := hall _ _ _ _ _ _ _ _ a11 hh1 r2
  have all2 := hall _ _ _ _ _ _ _ _ a21 hh2 r6
  have hkept := chain_not_run hm rfl r2.inv r6.inv r3 r5 nms hsig
  have hwho : ∀ x ∈ rs, x = ⟨rootPath, .nominal rn⟩ ∨ ∃ nm ∈ nms, ∃ seg ∈ lastTwo A ++ B', x = ⟨stagePath nm, .nominal seg.name⟩ := by
    intro x hx
    rcases r6.ran (lawful rn) hle (r5.once x hx).2.1 with h1 | ⟨h1, ty, pp, fn, h2⟩ | ⟨b, hb, rfl⟩
    · exact .inl h1
    · obtain ⟨p, id⟩ := x
      cases h1
      cases h2
    · obtain ⟨nm, hnm, n, hn, e⟩ := eager_alloc hidx _ _ b hb
      rw [e] at hx ⊢
      rw [a22, asLst_items, names_items] at hn
      obtain ⟨seg, hseg, rfl⟩ := List.mem_map.1 hn
      refine .inr ⟨nm, hnm, seg, ?_, rfl⟩
      rcases List.mem_append.1 hseg with hseg | hseg
      · rcases List.mem_append.1 hseg with hseg | hseg
        · rcases near_end hseg with h | ⟨p, y, z, q, rfl⟩
          · exact List.mem_append_left _ h
          · exfalso
            refine hkept (p.map Seg.sp) (p.map Seg.sp) seg.sp (y.sp :: z.sp :: ((q ++ B ++ C).map Seg.sp)) (y.sp :: z.sp :: ((q ++ B' ++ C).map Seg.sp)) (.cons rfl) ?_ ?_ nm hnm hx
            · simpa using all1
            · simpa using all2
        · exact List.mem_append_right _ hseg
      · obtain ⟨p, q, rfl⟩ := List.append_of_mem hseg
        exfalso
        refine hkept ((A ++ B ++ p).map Seg.sp) ((A ++ B' ++ p).map Seg.sp) seg.sp (q.map Seg.sp) (q.map Seg.sp) (SameNext.refl _) ?_ ?_ nm hnm hx
        · simpa using all1
        · simpa using all2
  refine ⟨N, s1, s2, rs, ?_, by rw [r5.runs, r3.runs], r5.nodup, hwho, ?_, fun nm hnm seg hseg => chain_count hm r6.inv nms hsig _ all2 nm hnm seg.sp (List.mem_map_of_mem hseg)⟩
  · intro n hn
    obtain ⟨q1, q2⟩ := r1 n hn
    rw [hres a1 lim1 _ _ a12, d2] at q1
    rw [hres a2 lim2 _ _ a22] at q2
    refine ⟨?_, q2⟩
    rw [← q1]
    simp only [List.map_append, List.map_map, List.map_cons, List.map_nil]
    rfl
  · have := Adapton.Wf.length_le_of_subset (b := (⟨rootPath, .nominal rn⟩ : Loc) :: nms.flatMap fun nm => (lastTwo A ++ B').map fun seg => (⟨stagePath nm, .nominal seg.name⟩ : Loc)) r5.nodup ?_
    · refine Nat.le_trans this ?_
      have hlen : (nms.flatMap fun nm => (lastTwo A ++ B').map fun seg => (⟨stagePath nm, .nominal seg.name⟩ : Loc)).length = nms.length * (lastTwo A ++ B').length := by
        clear hnms hop hidx d1 d2 r1 r2 r3 r3' r4 r5 r6 hall all1 all2 hkept hwho hres this hsig
        induction nms with
        | nil => simp
        | cons m nms ih => rw [List.flatMap_cons, List.length_append, ih, List.length_map, List.length_cons, Nat.succ_mul, Nat.add_comm]
      rw [List.length_cons, hlen, Nat.add_comm]
      refine Nat.add_le_add_left (Nat.mul_le_mul_left _ ?_) _
      simp [lastTwo]
      omega
    · intro x hx
      rcases hwho x hx with rfl | ⟨nm, hnm, seg, hseg, rfl⟩
      · exact List.mem_cons_self ..
      · exact List.mem_cons_of_mem _ (List.mem_flatMap.2 ⟨nm, hnm, List.mem_map.2 ⟨seg, hseg, rfl⟩⟩)
end

end Adapton.ListProg

/-! ### A session that meets the hypotheses

The list `1, ⟨1⟩ 10, ⟨2⟩ 20, ⟨3⟩ 30, ⟨4⟩ 40, ⟨5⟩ 50, ⟨6⟩ 60`, with a cell after each name, is mapped and then filtered.  Then a segment is inserted after the fourth. -/
namespace Adapton.ListProg.Example78
open Coll (Lst NameElse)
open EditSession (cellAt Edit applyAll Cells)
open Example75 (H nm)
/-- Body 0 adds one, body 1 keeps what is not divisible by three. -/
def g : Nat → Nat → Option Nat
  | 0, x => some (x + 1)
  | _, x => if x % 3 = 0 then none else some x
def opAt (n : Name) : Op := if n = nm 20 then .each .eager 0 else .each .eager 1
def seg (i : Nat) : Seg Nat := ⟨nm i, nm (100 + i), [10 * i]⟩
def A : List (Seg Nat) := [seg 1, seg 2, seg 3, seg 4]
def C : List (Seg Nat) := [seg 5, seg 6]
def B' : List (Seg Nat) := [seg 7]
/-- The edits that write the segments. -/
def writes : List (Seg Nat) → List (Edit (CV Nat))
  | [] => []
  | s :: r => .cell s.cell (.lst (listOf s.elems r)) :: writes r
def ins : List (Edit (CV Nat)) := [.cell (seg 7).cell (.lst (listOf [70] C)), .set (seg 4).cell (.lst (listOf [40] (B' ++ C)))]
def cells1 : Cells (CV Nat) := (applyAll (fun _ => none) (writes (A ++ [] ++ C))).getD fun _ => none
def cells2 : Cells (CV Nat) := (applyAll cells1 ins).getD fun _ => none
def stages : List Name := [nm 20, nm 21]

theorem meets1 : applyAll (fun _ => none) (([] : List (Step Nat)).flatMap Step.edits ++ writes (A ++ [] ++ C)) = some cells1 ∧ Holds cells1 (A ++ [] ++ C) ∧ GoodNames (itemsOf [1] (A ++ [] ++ C)) :=
  ⟨rfl, ⟨rfl, rfl, rfl, rfl, rfl, rfl, trivial⟩, by decide, by decide⟩
theorem meets2 : applyAll cells1 ins = some cells2 ∧ Holds cells2 (A ++ B' ++ C) ∧ GoodNames (itemsOf [1] (A ++ B' ++ C)) :=
  ⟨rfl, ⟨rfl, rfl, rfl, rfl, rfl, rfl, rfl, trivial⟩, by decide, by decide⟩

/-- The theorem applies: at most seven of the fifteen thunks are run. -/
example := C78_edits_are_local (H := H) (opAt := opAt) (g := g) (hv := fun _ => 0) (ha := fun _ _ => 0) (nm 0) [] [] .nil true stages (by decide)
  (fun n _ => by by_cases h : n = nm 20 <;> simp [opAt, h]) [1] [1] A [] B' C (writes (A ++ [] ++ C)) ins none none cells1 cells2 meets1.1 meets1.2.1 meets1.2.2 meets2.1 meets2.2.1 meets2.2.2

/-- The elements returned, and the number of thunks run in each step. -/
def outcome : List (List Nat) × List Nat :=
  match runSession (env H opAt g (fun _ => 0) (fun _ _ => 0)) 60 [stepProg (nm 0) ⟨writes (A ++ [] ++ C), stages, listOf [1] (A ++ [] ++ C), none⟩] (initSt true false) with
  | .ok vs s => match exec (env H opAt g (fun _ => 0) (fun _ _ => 0)) 60 (stepProg (nm 0) ⟨ins, stages, listOf [1] (A ++ B' ++ C), none⟩) s with
    | .ok v s' => ((vs ++ [v]).map Example75.elems, [s.runs.length, s'.runs.length - s.runs.length])
    | _ => ([], [])
  | _ => ([], [])

/-- The bound is attained: the thunks of the two segments before the new one are run as well. -/
theorem C78_bound_attained : outcome = ([[2, 11, 31, 41, 61], [2, 11, 31, 41, 71, 61]], [13, 7]) := by decide +kernel

end Adapton.ListProg.Example78
