import Verif.Props.ListStable
/-
C85: nominal independence (lib.rs:1318-1380, "Simple example of nominal independence").  Reversing a list with an accumulator is incremental, since the accumulator is put into a cell at
each name: after any history, edits of a part of the list make the next demand run the code of the thunks of that part, and of the two before it, and not of the thunks after it,
although all the accumulators after it have another content.
-/
set_option linter.unusedSectionVars false
set_option linter.unusedVariables false
namespace Adapton.ListProg
open Coll (NameElse Lst elmsOf namesOf)
open SortProg (LV AL)
open Ref (Sig Kind Store Ctx Ext ES Means alloc)
open EditSession (World Below AncOk Cells Edit applyAll cellAt)
variable {X : Type} [DecidableEq X]

/-- The cell with the accumulator, for a name. -/
def accAt (H : NameHash) (nm n : Name) : Loc := ⟨stagePath nm, .nominal (revNm H n)⟩

/-- The value of `list_reverse` on a segment, when `acc` is the accumulator after it. -/
def revVal (nm : Name) (acc : LV X) : Sp X → CV X
  | [] => .lst acc
  | (n, _, _) :: _ => .lst (.name n (.art (thunkAt nm n)))

theorem revVal_tl {nm : Name} {acc : LV X} {p q : Sp X} (h : tl p = tl q) : revVal nm acc p = revVal nm acc q := by
  rcases p with _ | ⟨⟨n, a, xs⟩, p⟩ <;> rcases q with _ | ⟨⟨m, b, ys⟩, q⟩
  · rfl
  · cases h
  · cases h
  · injection h with h1 h2; subst h1; rfl

theorem chunk_rev (x : X) (xs : List X) (acc : LV X) : chunk (x :: xs).reverse acc = chunk xs.reverse (.cons x acc) := by
  simp [chunk, List.foldr_append]

section
variable {H : NameHash} {opAt : Name → Op} {g : Nat → X → Option X} {hv : CV X → UInt64} {ha : ProgPt → CV X → UInt64} {sig : Sig} {s : St (CV X)} {σ : Store (CV X)} {D : Loc → Prop}
  {π : Path} {pre es : List (Edge (CV X))} {v : CV X}

/-- Looking at an articulation. -/
theorem rev_view {a : Loc} {l acc : LV X} (ha' : a.isStruct = false) (hu : UpToDate sig s σ D a (.lst l)) (hl : ∀ b, l ≠ .art b)
    (h : Seen sig (env H opAt g hv ha) s σ D π (reverse H (.art a) acc) pre es v) :
    ∃ new es', es = new ++ es' ∧ (new = [] ∨ new = [obsEdge tyL a (.lst l)]) ∧ Seen sig (env H opAt g hv ha) s σ D π (reverse H l acc) (pre ++ new) es' v := by
  have hlv : (env H opAt g hv ha).code fLView (.lst l) = .ret (.lst l) := by
    show lview l = _
    cases l with
    | art b => exact absurd rfl (hl b)
    | _ => rfl
  unfold reverse at h ⊢
  obtain ⟨w, es1, es2, rfl, h1, h2⟩ := h.call
  obtain ⟨w', new, es3, g1, rfl, g3, g4⟩ := Seen.force1 (cyc := none) (k := fun v => .call fLView v .ret) h1 ha'
  have := g1.unique hu
  subst this
  obtain ⟨w2, es4, es5, rfl, k1, k2⟩ := g4.call
  rw [hlv] at k1
  obtain ⟨rfl, rfl⟩ := k1.ret
  obtain ⟨rfl, rfl⟩ := k2.ret
  simp only [List.append_nil] at h2 ⊢
  refine ⟨new, es2, rfl, g3, ?_, ?_⟩
  · have := Replay.call (es1 := []) (es2 := es2) (m := false) (sig := sig) (t := s.table) (π := π) (pre := pre ++ new) (fn := fLView) (arg := (.lst l : CV X))
      (env := env H opAt g hv ha) (by rw [hlv]; exact Replay.ret) (by rw [List.append_nil]; exact h2.1)
    exact this
  · exact h2.2

/-- What `list_reverse` does with a segment. -/
theorem rev_replay {nm : Name} (r : Sp X) (hsig : ∀ x ∈ r, sig (thunkAt nm x.1) = .thunk tyL ppRev fRev) : ∀ (xs : List X) (acc : LV X) (pre es : List (Edge (CV X))) (v : CV X),
    Seen sig (env H opAt g hv ha) s σ D (stagePath nm) (reverse H (chunk xs (tl r)) acc) pre es v →
    v = revVal nm (chunk xs.reverse acc) r ∧ es.length ≤ 3 ∧
    (∀ e ∈ es, ∃ n a ys q, r = (n, a, ys) :: q ∧ (e = cellEdge (accAt H nm n) (.lst (chunk xs.reverse acc)) ∨ e = allocEdge (thunkAt nm n) (.rargs (.art a) (.art (accAt H nm n))) ∨
      ∃ w, e = obsEdge tyL (thunkAt nm n) w ∧ UpToDate sig s σ D (thunkAt nm n) w)) ∧
    ∀ n a ys q, r = (n, a, ys) :: q → σ (accAt H nm n) = some (.lst (chunk xs.reverse acc)) ∧ σ (thunkAt nm n) = some (.rargs (.art a) (.art (accAt H nm n))) ∧ D (thunkAt nm n) := by
  intro xs
  induction xs with
  | nil =>
    intro acc pre es v h
    rcases r with _ | ⟨⟨n, a, ys⟩, q⟩
    · unfold reverse at h
      obtain ⟨w, es1, es2, rfl, h1, h2⟩ := h.call
      obtain ⟨rfl, rfl⟩ := Seen.ret (w := (.lst .nil : CV X)) h1
      obtain ⟨rfl, rfl⟩ := Seen.ret (w := (.lst acc : CV X)) h2
      exact ⟨rfl, Nat.zero_le _, (fun _ h => by cases h), (fun _ _ _ _ h => by cases h)⟩
    · unfold reverse at h
      obtain ⟨w, es1, es2, rfl, h1, h2⟩ := h.call
      obtain ⟨rfl, rfl⟩ := Seen.ret (w := (.lst (.name n (.art a)) : CV X)) h1
      have h2 : Seen sig (env H opAt g hv ha) s σ D (stagePath nm) (.cell tyL (revNm H n) (.lst acc) fun c => .thunk tyL (.nominal n) ppRev fRev (.rargs (.art a) (.art c)) fun t =>
        .force tyL t none <| onLst fun _ => .ret (.lst (.name n (.art t)))) (pre ++ []) es2 v := h2
      obtain ⟨es3, c1, rfl, h3⟩ := h2.cell
      obtain ⟨es4, g1, rfl, g2⟩ := h3.thunk
      obtain ⟨w, new, es5, k1, rfl, k2, k3⟩ := Seen.force1 g2 rfl
      have k4 : ∃ l, w = .lst l := by
        obtain ⟨k3, _⟩ := k3
        cases w <;> first | exact ⟨_, rfl⟩ | (cases k3)
      obtain ⟨l, rfl⟩ := k4
      obtain ⟨rfl, rfl⟩ := Seen.ret (w := (.lst (.name n (.art (thunkAt nm n))) : CV X)) k3
      refine ⟨rfl, by rcases k2 with rfl | rfl <;> simp, ?_, ?_⟩
      · intro e he
        refine ⟨n, a, ys, q, rfl, ?_⟩
        simp only [List.nil_append, List.append_nil, List.mem_cons] at he
        rcases he with he | he | he
        · exact .inl he
        · exact .inr (.inl he)
        · refine .inr (.inr ⟨_, ?_, k1⟩)
          rcases k2 with rfl | rfl
          · cases he
          · exact List.mem_singleton.1 he
      · intro n' a' ys' q' e
        cases e
        refine ⟨c1, g1, ?_⟩
        unfold UpToDate at k1
        have hs := hsig _ (List.mem_cons_self ..)
        unfold thunkAt at hs
        simp only at hs
        rw [hs] at k1
        exact k1.1
  | cons x xs ih =>
    intro acc pre es v h
    rw [show chunk (x :: xs) (tl r) = .cons x (chunk xs (tl r)) from rfl] at h
    generalize hL : chunk xs (tl r) = L at h ih
    unfold reverse at h
    obtain ⟨w, es1, es2, rfl, h1, h2⟩ := h.call
    obtain ⟨rfl, rfl⟩ := Seen.ret (w := (.lst (.cons x L) : CV X)) h1
    obtain ⟨w, es3, es4, rfl, k1, k2⟩ := Seen.call (fn := fRev) (arg := CV.rargs L (.cons x acc)) h2
    obtain ⟨rfl, rfl⟩ := Seen.ret k2
    rw [show (env H opAt g hv ha).code fRev (.rargs L (.cons x acc)) = reverse H L (.cons x acc) from rfl] at k1
    obtain ⟨q1, q2, q3, q4⟩ := ih _ _ _ _ k1
    rw [chunk_rev]
    exact ⟨q1, by simpa using q2, fun e he => q3 e (by simpa using he), q4⟩

/-- A thunk of `list_reverse` that is up to date: its value, its dependencies, and the thunk after it. -/
theorem rev_thunk {nm : Name} (hm : sig.mode = false) (hI : Inv sig (env H opAt g hv ha) s σ D) {n : Name} {a : Loc} {xs : List X} {r : Sp X}
    (hsig : ∀ x ∈ (n, a, xs) :: r, sig (thunkAt nm x.1) = .thunk tyL ppRev fRev) (ha' : a.isStruct = false) (hu : UpToDate sig s σ D a (.lst (chunk xs (tl r))))
    (hD : D (thunkAt nm n)) (hσ : σ (thunkAt nm n) = some (.rargs (.art a) (.art (accAt H nm n)))) :
    UpToDate sig s σ D (thunkAt nm n) (revVal nm (chunk xs.reverse (.art (accAt H nm n))) r) ∧
    (∃ nd, s.table.get (thunkAt nm n) = some (.comp nd) ∧ nd.arg = .rargs (.art a) (.art (accAt H nm n)) ∧ nd.succs.length ≤ 4 ∧
      ∀ e ∈ nd.succs, e.edge = obsEdge tyL a (.lst (chunk xs (tl r))) ∨ ∃ n' a' ys q, r = (n', a', ys) :: q ∧
        (e.edge = cellEdge (accAt H nm n') (.lst (chunk xs.reverse (.art (accAt H nm n)))) ∨ e.edge = allocEdge (thunkAt nm n') (.rargs (.art a') (.art (accAt H nm n'))) ∨
        ∃ w, e.edge = obsEdge tyL (thunkAt nm n') w ∧ UpToDate sig s σ D (thunkAt nm n') w)) ∧
    ∀ n' a' ys q, r = (n', a', ys) :: q → σ (accAt H nm n') = some (.lst (chunk xs.reverse (.art (accAt H nm n)))) ∧
      σ (thunkAt nm n') = some (.rargs (.art a') (.art (accAt H nm n'))) ∧ D (thunkAt nm n') := by
  obtain ⟨nd, v, g1, g2, g3, g4, g5, g6⟩ := Seen.ofDone hI hm hD (hsig _ (List.mem_cons_self ..)) hσ
  rw [show (env H opAt g hv ha).code fRev (.rargs (.art a) (.art (accAt H nm n))) = reverse H (.art a) (.art (accAt H nm n)) from rfl] at g6
  obtain ⟨new, es', e1, e2, e3⟩ := rev_view ha' hu (fun b => chunk_art) g6
  obtain ⟨rfl, q1, q2, q3⟩ := rev_replay r (fun x hx => hsig x (List.mem_cons_of_mem _ hx)) _ _ _ _ _ e3
  refine ⟨g5, ⟨nd, g1, g3, ?_, ?_⟩, q3⟩
  · have h2 : new.length ≤ 1 := by rcases e2 with rfl | rfl <;> simp
    have h3 := congrArg List.length e1
    simp only [List.length_map, List.length_append] at h3
    omega
  · intro e he
    have hme : e.edge ∈ new ++ es' := by rw [← e1]; exact List.mem_map.2 ⟨e, he, rfl⟩
    rcases List.mem_append.1 hme with h | h
    · rcases e2 with rfl | rfl
      · cases h
      · exact .inl (by simpa using h)
    · exact .inr (q2 _ h)

/-- All thunks of the stage, and the accumulators after the first. -/
def RevOk (U : Loc → CV X → Prop) (H : NameHash) (σ : Store (CV X)) (D : Loc → Prop) (nm : Name) : Sp X → Prop
  | [] => True
  | (n, a, xs) :: r => D (thunkAt nm n) ∧ σ (thunkAt nm n) = some (.rargs (.art a) (.art (accAt H nm n))) ∧ U (thunkAt nm n) (revVal nm (chunk xs.reverse (.art (accAt H nm n))) r) ∧
    (∀ n' a' ys q, r = (n', a', ys) :: q → σ (accAt H nm n') = some (.lst (chunk xs.reverse (.art (accAt H nm n))))) ∧ RevOk U H σ D nm r

theorem RevOk.suffix {U : Loc → CV X → Prop} {nm : Name} {q : Sp X} : ∀ (p : Sp X), RevOk U H σ D nm (p ++ q) → RevOk U H σ D nm q
  | [], h => h
  | (_, _, _) :: p, h => suffix p h.2.2.2.2

theorem rev_out {nm : Name} (hm : sig.mode = false) (hI : Inv sig (env H opAt g hv ha) s σ D) : ∀ (sp : Sp X), (∀ x ∈ sp, sig (thunkAt nm x.1) = .thunk tyL ppRev fRev) →
      SpineOk (UpToDate sig s σ D) sp → (∀ n a xs r, sp = (n, a, xs) :: r → σ (thunkAt nm n) = some (.rargs (.art a) (.art (accAt H nm n))) ∧ D (thunkAt nm n)) →
      RevOk (UpToDate sig s σ D) H σ D nm sp := by
  intro sp
  induction sp with
  | nil => intro _ _ _; trivial
  | cons x r ih =>
    obtain ⟨n, a, xs⟩ := x
    intro hsig hs hh
    obtain ⟨h1, h2⟩ := hh _ _ _ _ rfl
    obtain ⟨k1, _, k2⟩ := rev_thunk hm hI hsig hs.1 hs.2.1 h2 h1
    exact ⟨h2, h1, k1, fun n' a' ys q e => (k2 _ _ _ _ e).1, ih (fun x hx => hsig x (List.mem_cons_of_mem _ hx)) hs.2.2 fun n' a' ys q e => (k2 _ _ _ _ e).2⟩

/-- What the stages make of the segments. -/
def outAll (g : Nat → X → Option X) (idx : Name → Nat) : List Name → Sp X → Sp X
  | [], sp => sp
  | nm :: nms, sp => outAll g idx nms (outSp nm (g (idx nm)) sp)

/-- What the stages make of one segment. -/
def outOne (g : Nat → X → Option X) (idx : Name → Nat) : List Name → Name × Loc × List X → Name × Loc × List X
  | [], x => x
  | nm :: nms, x => outOne g idx nms (x.1, thunkAt nm x.1, x.2.2.filterMap (g (idx nm)))

theorem outAll_map {idx : Name → Nat} : ∀ (nms : List Name) (sp : Sp X), outAll g idx nms sp = sp.map (outOne g idx nms)
  | [], sp => by simp [outAll, outOne]
  | nm :: nms, sp => by
    rw [outAll, outAll_map nms]
    simp [outSp, outOne]

theorem outOne_name {idx : Name → Nat} : ∀ (nms : List Name) (x : Name × Loc × List X), (outOne g idx nms x).1 = x.1
  | [], _ => rfl
  | nm :: nms, x => by rw [outOne, outOne_name nms]

theorem SameNext.outAll {idx : Name → Nat} : ∀ (nms : List Name) {r1 r2 : Sp X}, SameNext r1 r2 → SameNext (ListProg.outAll g idx nms r1) (ListProg.outAll g idx nms r2)
  | [], _, _, h => h
  | _ :: nms, _, _, h => SameNext.outAll nms h.out

/-- The stages of maps and filters, then the others. -/
theorem root_replay' {idx : Name → Nat} (hm : sig.mode = false) (hI : Inv sig (env H opAt g hv ha) s σ D) {lim : Option Nat} {rest : List Name} : ∀ (nms : List Name),
    (∀ nm ∈ nms, opAt nm = .each .eager (idx nm)) → (∀ nm ∈ nms, ∀ n, sig (thunkAt nm n) = .thunk tyL (ppEach .eager) (fEach .eager (idx nm))) →
    ∀ (h : List X) (sp : Sp X) (pre es : List (Edge (CV X))) (v : CV X), SpineOk (UpToDate sig s σ D) sp →
    Seen sig (env H opAt g hv ha) s σ D rootPath (root opAt (nms ++ rest) (chunk h (tl sp)) lim) pre es v →
    AllSt (UpToDate sig s σ D) σ D g idx nms sp ∧ SpineOk (UpToDate sig s σ D) (outAll g idx nms sp) ∧
      ∃ h' pre' es', Seen sig (env H opAt g hv ha) s σ D rootPath (root opAt rest (chunk h' (tl (outAll g idx nms sp))) lim) pre' es' v := by
  intro nms
  induction nms with
  | nil => intro _ _ h sp pre es v hs hseen; exact ⟨trivial, hs, h, pre, es, hseen⟩
  | cons nm nms ih =>
    intro hop hsig h sp pre es v hs hseen
    rw [List.cons_append] at hseen
    unfold root at hseen
    obtain ⟨w, es1, es2, rfl, h1, h2⟩ := hseen.ns
    rw [hop nm (List.mem_cons_self ..)] at h1
    obtain ⟨w', es3, es4, rfl, k1, k2⟩ := Seen.call (fn := fEach .eager (idx nm)) (arg := CV.lst (chunk h (tl sp))) h1
    rw [show (env H opAt g hv ha).code (fEach .eager (idx nm)) (.lst (chunk h (tl sp))) = each H .eager (idx nm) (g (idx nm)) (chunk h (tl sp)) from code_each H opAt g .eager _ _] at k1
    obtain ⟨rfl, rfl⟩ := Seen.ret k2
    obtain ⟨rfl, q2, q3⟩ := each_replay (hsig nm (List.mem_cons_self ..)) sp _ _ _ _ k1
    obtain ⟨j1, j2⟩ := spine_out (hsig nm (List.mem_cons_self ..)) hm hI sp hs q3
    obtain ⟨i1, i2, i3⟩ := ih (fun m hm => hop m (List.mem_cons_of_mem _ hm)) (fun m hm => hsig m (List.mem_cons_of_mem _ hm)) _ _ _ _ _ j2 h2
    exact ⟨⟨hs, j1, j2, i1⟩, i2, i3⟩

/-- The last stage reverses. -/
theorem root_rev {nm : Name} (hm : sig.mode = false) (hI : Inv sig (env H opAt g hv ha) s σ D) {lim : Option Nat} (hop : opAt nm = .rev) {h : List X} {sp : Sp X}
    (hsig : ∀ x ∈ sp, sig (thunkAt nm x.1) = .thunk tyL ppRev fRev) (hs : SpineOk (UpToDate sig s σ D) sp)
    (hseen : Seen sig (env H opAt g hv ha) s σ D rootPath (root opAt [nm] (chunk h (tl sp)) lim) pre es v) : RevOk (UpToDate sig s σ D) H σ D nm sp := by
  unfold root at hseen
  obtain ⟨w, es1, es2, rfl, h1, h2⟩ := hseen.ns
  rw [hop] at h1
  obtain ⟨w', es3, es4, rfl, k1, k2⟩ := Seen.call (fn := fRev) (arg := CV.rargs (chunk h (tl sp)) .nil) h1
  rw [show (env H opAt g hv ha).code fRev (.rargs (chunk h (tl sp)) .nil) = reverse H (chunk h (tl sp)) .nil from rfl] at k1
  obtain ⟨_, _, _, q3⟩ := rev_replay sp hsig _ _ _ _ _ k1
  exact rev_out hm hI sp hsig hs fun n a xs r e => (q3 _ _ _ _ e).2

/-! ### What is not run -/

variable {R : EditSession.Root (CV X)} {s1 s2 : St (CV X)} {σ1 σ2 : Store (CV X)} {D1 D0 D2 : Loc → Prop} {rs : List Loc}

theorem rev_not_run {nm : Name} (hm : sig.mode = false) (hR : R.loc.path = rootPath)
    (hI1 : Inv sig (env H opAt g hv ha) s1 σ1 D1) (hI2 : Inv sig (env H opAt g hv ha) s2 σ2 D2) (hf : EditSession.Frame (EditSession.Own R) s1 s) (hr : RunsOK sig s D0 s2 σ2 D2 rs)
    {x : Name × Loc × List X} {r1 r2 : Sp X} (hx : SameNext r1 r2) (hsig : ∀ y ∈ x :: r1, sig (thunkAt nm y.1) = .thunk tyL ppRev fRev)
    (a1 : SpineOk (UpToDate sig s1 σ1 D1) (x :: r1)) (a2 : RevOk (UpToDate sig s1 σ1 D1) H σ1 D1 nm (x :: r1))
    (b1 : SpineOk (UpToDate sig s2 σ2 D2) (x :: r2)) (b2 : RevOk (UpToDate sig s2 σ2 D2) H σ2 D2 nm (x :: r2)) : thunkAt nm x.1 ∉ rs := by
  obtain ⟨n, a, xs⟩ := x
  have hown : ∀ id, ¬ EditSession.Own R ⟨stagePath nm, id⟩ := by
    rintro m (h | h)
    · cases h
    · have := congrArg Loc.path h
      rw [hR] at this
      simp [stagePath, rootPath] at this
  obtain ⟨k1, k2, _, k4, k5⟩ := a2
  obtain ⟨j1, j2, _, j4, j5⟩ := b2
  obtain ⟨_, ⟨nd0, q1, q2, _, q3⟩, q4⟩ := rev_thunk hm hI1 hsig a1.1 a1.2.1 k1 k2
  refine not_run hI1 hf hr k1 (hown _) (j2.trans k2.symm) ?_ ?_
  · intro nd e hnd he hobs
    rw [q1] at hnd; cases hnd
    rcases q3 e he with h | ⟨n', a', ys, q, rfl, h | h | ⟨w, h, hw⟩⟩
    · have hl : e.loc = a := congrArg Edge.loc h
      refine ⟨tyL, _, by rw [hl]; exact h, ?_⟩
      rw [hl, hx.tl]
      exact b1.2.1
    · have : e.effect = .allocate := congrArg Edge.effect h
      rw [hobs] at this; cases this
    · have : e.effect = .allocate := congrArg Edge.effect h
      rw [hobs] at this; cases this
    · have hl : e.loc = thunkAt nm n' := congrArg Edge.loc h
      refine ⟨tyL, w, by rw [hl]; exact h, ?_⟩
      rw [hl]
      cases hx with
      | cons hq =>
        rw [hw.unique k5.2.2.1, revVal_tl hq]
        exact j5.2.2.1
  · intro nd e hnd he hal
    rw [q1] at hnd; cases hnd
    rcases q3 e he with h | ⟨n', a', ys, q, rfl, h | h | ⟨w, h, hw⟩⟩
    · have : e.effect = .observe := congrArg Edge.effect h
      rw [hal] at this; cases this
    · have hl : e.loc = accAt H nm n' := congrArg Edge.loc h
      rw [hl]
      refine ⟨hown _, .inr (.inr ?_)⟩
      cases hx with
      | cons hq =>
        have := k4 _ _ _ _ rfl
        exact ⟨by rw [this]; simp, (j4 _ _ _ _ rfl).trans this.symm⟩
    · have hl : e.loc = thunkAt nm n' := congrArg Edge.loc h
      rw [hl]
      refine ⟨hown _, .inr (.inr ?_)⟩
      cases hx with
      | cons hq => exact ⟨by rw [k5.2.1]; simp, j5.2.1.trans k5.2.1.symm⟩
    · have : e.effect = .observe := congrArg Edge.effect h
      rw [hal] at this; cases this

/-- What is allocated. -/
theorem rev_alloc {idx : Name → Nat} {rv : Name} {nms : List Name} (hrv : opAt rv = .rev) : (∀ nm ∈ nms, opAt nm = .each .eager (idx nm)) → ∀ (r : Nat) (l : AL X),
    ∀ x ∈ (aChain H opAt g (nms ++ [rv]) r l).2.1, (∃ nm ∈ nms ++ [rv], ∃ n ∈ namesOf l.erase.items, x.1 = thunkAt nm n) ∨ ∃ n, x.1 = accAt H rv n := by
  induction nms with
  | nil =>
    intro _ r l x hx
    rcases List.mem_append.1 hx with hx | hx
    · have : x.1 ∈ (aOp H g (opAt rv) (stagePath rv) r l).2.map Prod.fst := List.mem_map_of_mem hx
      rw [aOp_alloc, hrv] at this
      obtain ⟨n, hn, e⟩ := List.mem_map.1 this
      obtain ⟨m, hm, hn⟩ := List.mem_flatMap.1 hn
      have : n = revNm H m ∨ n = m := by simpa [opNames] using hn
      rcases this with rfl | rfl
      · exact .inr ⟨m, e.symm⟩
      · exact .inl ⟨rv, by simp, n, hm, e.symm⟩
    · cases hx
  | cons nm nms ih =>
    intro hop r l x hx
    rcases List.mem_append.1 hx with hx | hx
    · have : x.1 ∈ (aOp H g (opAt nm) (stagePath nm) r l).2.map Prod.fst := List.mem_map_of_mem hx
      rw [aOp_alloc, hop nm (List.mem_cons_self ..)] at this
      obtain ⟨n, hn, e⟩ := List.mem_map.1 this
      obtain ⟨m, hm, hn⟩ := List.mem_flatMap.1 hn
      have : n = m := by simpa [opNames] using hn
      subst this
      exact .inl ⟨nm, List.mem_cons_self .., n, hm, e.symm⟩
    · rcases ih (fun m hm => hop m (List.mem_cons_of_mem _ hm)) _ _ x hx with ⟨nm', h1, n, h2, h3⟩ | h
      · refine .inl ⟨nm', List.mem_cons_of_mem _ h1, n, ?_, h3⟩
        rw [aOp_items, hop nm (List.mem_cons_self ..)] at h2
        rw [show namesOf (specOp H g (.each .eager (idx nm)) l.erase.items) = _ from namesOf_filterMap _] at h2
        exact h2
      · exact .inr h

/-- **C85.** Reversing a list is incremental, by nominal independence.  After any session of C75, the list is demanded through any chain of `list_map_eager` and `list_filter_eager` and then
`list_reverse`; it consists of the elements `h` and of the segments `A`, `B` and `C`.  Then the editor edits its cells in any way that leaves the segments `A` and `C`: there are the segments
`B'` in place of `B`, and the first elements and the limit may be others.  Then the next demand returns the stages' result for the new list, reversed, and it runs the code of the demanded
thunk, and of the thunks of the stages for the names of `B'` and for the last two names of `A`, of each at most once, and of no other thunk.  In particular the thunks for `C` are not run,
although the accumulator of each of them holds the elements before it.  A thunk of `list_reverse` accesses at most four articulations. -/
theorem C85_reverse_is_incremental (rn : Name) (ss : List (Step X)) (ls : List (List Name × Lst X × Option Nat)) (h0 : Demands (fun _ => none) ss ls) (purity : Bool)
    (nms : List Name) (rv : Name) (hnms : (nms ++ [rv]).Nodup) (hop : ∀ nm ∈ nms, ∃ i, opAt nm = .each .eager i) (hrv : opAt rv = .rev)
    (h h' : List X) (A B B' C : List (Seg X)) (es1 es2 : List (Edit (CV X))) (lim1 lim2 : Option Nat) (cs1 cs2 : Cells (CV X))
    (hc1 : applyAll (fun _ => none) (ss.flatMap Step.edits ++ es1) = some cs1) (hh1 : Holds cs1 (A ++ B ++ C)) (hg1 : GoodNames (itemsOf h (A ++ B ++ C)))
    (hc2 : applyAll cs1 es2 = some cs2) (hh2 : Holds cs2 (A ++ B' ++ C)) (hg2 : GoodNames (itemsOf h' (A ++ B' ++ C))) :
    ∃ N s1 s2 rs, (∀ n, N ≤ n →
        runSession (env H opAt g hv ha) n ((ss ++ [(⟨es1, nms ++ [rv], listOf h (A ++ B ++ C), lim1⟩ : Step X)]).map (stepProg rn)) (initSt purity false) =
          .ok ((ls.map fun p => .vec (limited p.2.2 (specChain H opAt g p.1 p.2.1.items))) ++ [.vec (limited lim1 (specChain H opAt g (nms ++ [rv]) (itemsOf h (A ++ B ++ C))))]) s1 ∧
        exec (env H opAt g hv ha) n (stepProg rn ⟨es2, nms ++ [rv], listOf h' (A ++ B' ++ C), lim2⟩) s1 =
          .ok (.vec (limited lim2 (specChain H opAt g (nms ++ [rv]) (itemsOf h' (A ++ B' ++ C))))) s2) ∧
      s2.runs = rs ++ s1.runs ∧ rs.Nodup ∧
      (∀ x ∈ rs, x = ⟨rootPath, .nominal rn⟩ ∨ ∃ nm ∈ nms ++ [rv], ∃ seg ∈ lastTwo A ++ B', x = ⟨stagePath nm, .nominal seg.name⟩) ∧
      rs.length ≤ 1 + (nms.length + 1) * (B'.length + 2) ∧
      ∀ seg ∈ A ++ B' ++ C, ∃ nd, s2.table.get ⟨stagePath rv, .nominal seg.name⟩ = some (.comp nd) ∧ nd.succs.length ≤ 4 := by
  have hidx : ∃ idx : Name → Nat, ∀ nm ∈ nms, opAt nm = .each .eager (idx nm) := by
    refine ⟨fun nm => match opAt nm with | .each _ i => i | .rev => 0, fun nm hnm => ?_⟩
    obtain ⟨i, hi⟩ := hop nm hnm
    simp only [hi]
  obtain ⟨idx, hidx⟩ := hidx
  obtain ⟨ds, d1, d2⟩ := demands (H := H) (opAt := opAt) (g := g) (hv := hv) (ha := ha) (rn := rn) h0
  obtain ⟨a1, a11, a12, a13⟩ := (Holds.unfolds _ h hh1).annot
  obtain ⟨a2, a21, a22, a23⟩ := (Holds.unfolds _ h' hh2).annot
  have hle : Ref.SigLe (theRoot H opAt g hv ha rn).sig ((sigL opAt).withPu purity) := ⟨fun _ => rfl, rfl, fun _ => rfl, fun _ => id⟩
  obtain ⟨N, s1, e1, D1, s, s2, e2, D2, σ0, D0, rs, r1, r2, r3', r4, r5, r6⟩ := EditSession.two_steps (lawful rn) hle (ss := ss.map fun s => ⟨s.edits, .root s.stages s.list s.limit⟩) (ds := ds)
    (st1 := ⟨es1, .root (nms ++ [rv]) (listOf h (A ++ B ++ C)) lim1⟩) (st2 := ⟨es2, .root (nms ++ [rv]) (listOf h' (A ++ B' ++ C)) lim2⟩) (d1 := (nms ++ [rv], a1, lim1))
    (d2 := (nms ++ [rv], a2, lim2)) (cs1 := cs1) (cs2 := cs2)
    d1 (by rw [List.flatMap_append, List.flatMap_map]; simpa using hc1) ⟨a13, by rw [a12, asLst_items]; exact hg1, hnms⟩ (by show CV.root _ _ _ = _; rw [a11])
    hc2 ⟨a23, by rw [a22, asLst_items]; exact hg2, hnms⟩ (by show CV.root _ _ _ = _; rw [a21])
  have r3 := r3'.mono (E' := EditSession.Own (theRoot H opAt g hv ha rn)) fun x h => h.imp id And.left
  have hm : ((sigL opAt).withPu purity).mode = false := rfl
  have hres : ∀ (a : AL X) (lim : Option Nat) (h : List X) (segs : List (Seg X)), a.erase = asLst h segs →
      (theRoot H opAt g hv ha rn).res (nms ++ [rv], a, lim) = .vec (limited lim (specChain H opAt g (nms ++ [rv]) (itemsOf h segs))) := by
    intro a lim h segs e
    show CV.vec _ = _
    rw [res_eq, e, asLst_items]
  have hsig : ∀ nm ∈ nms, ∀ n, ((sigL opAt).withPu purity) (thunkAt nm n) = .thunk tyL (ppEach .eager) (fEach .eager (idx nm)) :=
    fun nm hnm n => sig_each (hidx nm hnm) (by decide)
  have hsigr : ∀ (h : List X) (segs : List (Seg X)), GoodNames (itemsOf h segs) → ∀ x ∈ outAll g idx nms (segs.map Seg.sp),
      ((sigL opAt).withPu purity) (thunkAt rv x.1) = .thunk tyL ppRev fRev := by
    intro h segs hg x hx
    rw [outAll_map, List.map_map] at hx
    obtain ⟨seg, hseg, rfl⟩ := List.mem_map.1 hx
    rw [Function.comp, outOne_name]
    exact sig_rev hrv (hg.2 _ (by rw [names_items]; exact List.mem_map_of_mem hseg))
  have hall : ∀ (cs : Cells (CV X)) (h : List X) (segs : List (Seg X)) (a : AL X) (lim : Option Nat) (e : ES (CV X)) (s : St (CV X)) (D : Loc → Prop), a.val = listOf h segs → Holds cs segs →
      GoodNames (itemsOf h segs) → EditSession.Done (theRoot H opAt g hv ha rn) ((sigL opAt).withPu purity) cs (nms ++ [rv], a, lim) e s D →
      AllSt (UpToDate ((sigL opAt).withPu purity) s e.cur D) e.cur D g idx nms (segs.map Seg.sp) ∧
      SpineOk (UpToDate ((sigL opAt).withPu purity) s e.cur D) (outAll g idx nms (segs.map Seg.sp)) ∧
      RevOk (UpToDate ((sigL opAt).withPu purity) s e.cur D) H e.cur D rv (outAll g idx nms (segs.map Seg.sp)) := by
    intro cs h segs a lim e s D hav hh hg hd
    have hsp : SpineOk (UpToDate ((sigL opAt).withPu purity) s e.cur D) (segs.map Seg.sp) :=
      Holds.spine (fun n => sig_cellAt n) (fun n v hn => hd.at_.ed.ext _ _ (hd.at_.ed.cells n v hn)) segs hh
    obtain ⟨nd, v, _, _, _, _, _, g6⟩ := Seen.ofDone hd.inv hm hd.root (ty := tyV) (pp := ppRoot) (fn := fRoot) (arg := .root (nms ++ [rv]) a.val lim) rfl (hd.at_.ed.ext _ _ hd.arg)
    rw [hav, listOf_eq] at g6
    obtain ⟨i1, i2, h2, pre', es', i3⟩ := root_replay' hm hd.inv nms hidx hsig h _ _ _ _ hsp g6
    exact ⟨i1, i2, root_rev hm hd.inv hrv (hsigr h segs hg) i2 i3⟩
  obtain ⟨all1, spine1, rev1⟩ := hall _ _ _ _ _ _ _ _ a11 hh1 hg1 r2
  obtain ⟨all2, spine2, rev2⟩ := hall _ _ _ _ _ _ _ _ a21 hh2 hg2 r6
  have hkept : ∀ (p1 p2 : List (Seg X)) (x : Seg X) (q1 q2 : List (Seg X)), SameNext (q1.map Seg.sp) (q2.map Seg.sp) → A ++ B ++ C = p1 ++ x :: q1 → A ++ B' ++ C = p2 ++ x :: q2 →
      ∀ nm ∈ nms ++ [rv], thunkAt nm x.name ∉ rs := by
    intro p1 p2 x q1 q2 hx w1 w2 nm hnm
    rw [w1] at all1 spine1 rev1
    rw [w2] at all2 spine2 rev2
    rcases List.mem_append.1 hnm with hnm | hnm
    · exact chain_not_run hm rfl r2.inv r6.inv r3 r5 nms hsig (p1.map Seg.sp) (p2.map Seg.sp) x.sp (q1.map Seg.sp) (q2.map Seg.sp) hx (by simpa using all1) (by simpa using all2) nm hnm
    · have hnm := List.mem_singleton.1 hnm
      subst hnm
      have hs := hsigr h _ hg1
      rw [w1] at hs
      rw [List.map_append, List.map_cons, outAll_map, List.map_append, List.map_cons, ← outAll_map, ← outAll_map] at spine1 rev1 spine2 rev2 hs
      have := rev_not_run hm rfl r2.inv r6.inv r3 r5 (SameNext.outAll (g := g) (idx := idx) nms hx) (fun y hy => hs y (List.mem_append_right _ hy))
        (spine1.suffix _) (rev1.suffix _) (spine2.suffix _) (rev2.suffix _)
      rw [outOne_name] at this
      exact this
  have hwho : ∀ x ∈ rs, x = ⟨rootPath, .nominal rn⟩ ∨ ∃ nm ∈ nms ++ [rv], ∃ seg ∈ lastTwo A ++ B', x = ⟨stagePath nm, .nominal seg.name⟩ := by
    intro x hx
    rcases r6.ran (lawful rn) hle (r5.once x hx).2.1 with h1 | ⟨h1, ty, pp, fn, h2⟩ | ⟨b, hb, rfl⟩
    · exact .inl h1
    · obtain ⟨p, id⟩ := x
      cases h1
      cases h2
    · rcases rev_alloc hrv hidx _ _ b hb with ⟨nm, hnm, n, hn, e⟩ | ⟨n, e⟩
      · rw [e] at hx ⊢
        rw [a22, asLst_items, names_items] at hn
        obtain ⟨seg, hseg, rfl⟩ := List.mem_map.1 hn
        refine .inr ⟨nm, hnm, seg, ?_, rfl⟩
        rcases List.mem_append.1 hseg with hseg | hseg
        · rcases List.mem_append.1 hseg with hseg | hseg
          · rcases near_end hseg with h | ⟨p, y, z, q, rfl⟩
            · exact List.mem_append_left _ h
            · exact absurd hx (hkept p p seg (y :: z :: (q ++ B ++ C)) (y :: z :: (q ++ B' ++ C)) (.cons rfl) (by simp) (by simp) nm hnm)
          · exact List.mem_append_right _ hseg
        · obtain ⟨p, q, rfl⟩ := List.append_of_mem hseg
          exact absurd hx (hkept (A ++ B ++ p) (A ++ B' ++ p) seg q q (SameNext.refl _) (by simp) (by simp) nm hnm)
      · exfalso
        obtain ⟨nd, g1, _⟩ := r6.inv.settled _ (r5.once _ hx).2.1
        have hk := r6.inv.thunkKind g1
        rw [e, show ((sigL opAt).withPu purity) (accAt H rv n) = .cell tyL from sig_revNm H hrv] at hk
        cases hk
  refine ⟨N, s1, s2, rs, ?_, by rw [r5.runs, r3.runs], r5.nodup, hwho, ?_, ?_⟩
  · intro n hn
    obtain ⟨q1, q2⟩ := r1 n hn
    rw [hres a1 lim1 _ _ a12, d2] at q1
    rw [hres a2 lim2 _ _ a22] at q2
    refine ⟨?_, q2⟩
    rw [← q1]
    simp only [List.map_append, List.map_map, List.map_cons, List.map_nil]
    rfl
  · have := Adapton.Wf.length_le_of_subset (b := (⟨rootPath, .nominal rn⟩ : Loc) :: (nms ++ [rv]).flatMap fun nm => (lastTwo A ++ B').map fun seg => (⟨stagePath nm, .nominal seg.name⟩ : Loc)) r5.nodup ?_
    · refine Nat.le_trans this ?_
      have hlen : ∀ ms : List Name, (ms.flatMap fun nm => (lastTwo A ++ B').map fun seg => (⟨stagePath nm, .nominal seg.name⟩ : Loc)).length = ms.length * (lastTwo A ++ B').length := by
        intro ms
        induction ms with
        | nil => simp
        | cons m ms ih => rw [List.flatMap_cons, List.length_append, ih, List.length_map, List.length_cons, Nat.succ_mul, Nat.add_comm]
      rw [List.length_cons, hlen, Nat.add_comm, List.length_append (as := nms)]
      refine Nat.add_le_add_left (Nat.mul_le_mul_left _ ?_) _
      simp [lastTwo]
      omega
    · intro x hx
      rcases hwho x hx with rfl | ⟨nm, hnm, seg, hseg, rfl⟩
      · exact List.mem_cons_self ..
      · exact List.mem_cons_of_mem _ (List.mem_flatMap.2 ⟨nm, hnm, List.mem_map.2 ⟨seg, hseg, rfl⟩⟩)
  · intro seg hseg
    obtain ⟨p, q, hpq⟩ := List.append_of_mem hseg
    have hs := hsigr h' _ hg2
    rw [hpq] at spine2 rev2 hs
    rw [List.map_append, List.map_cons, outAll_map, List.map_append, List.map_cons] at spine2 rev2 hs
    have sp' := spine2.suffix
    have rv' := rev2.suffix
    generalize hx : outOne g idx nms seg.sp = x at sp' rv' hs
    obtain ⟨n, a, xs⟩ := x
    have hn : n = seg.name := by have := outOne_name (g := g) (idx := idx) nms seg.sp; rw [hx] at this; exact this
    obtain ⟨_, ⟨nd, z1, _, z2, _⟩, _⟩ := rev_thunk hm r6.inv (fun y hy => hs y (List.mem_append_right _ hy)) sp'.1 sp'.2.1 rv'.1 rv'.2.1
    rw [hn] at z1
    exact ⟨nd, z1, z2⟩

end
end Adapton.ListProg

/-! ### A session that meets the hypotheses

The list `1, ⟨1⟩ 10, ⟨2⟩ 20, ⟨3⟩ 30, ⟨4⟩ 40, ⟨5⟩ 50, ⟨6⟩ 60` of C78 is mapped and then reversed.  Then a segment is inserted after the fourth. -/
namespace Adapton.ListProg.Example85
open Coll (Lst NameElse)
open EditSession (cellAt Edit applyAll Cells)
open Example75 (H nm)
open Example78 (g seg A B' C writes ins cells1 cells2 meets1 meets2)
def opAt (n : Name) : Op := if n = nm 20 then .each .eager 0 else .rev

/-- The theorem applies: at most seven of the fifteen thunks are run. -/
example := C85_reverse_is_incremental (H := H) (opAt := opAt) (g := g) (hv := fun _ => 0) (ha := fun _ _ => 0) (nm 0) [] [] .nil true [nm 20] (nm 21) (by decide)
  (fun n h => ⟨0, by rw [List.mem_singleton.1 h]; rfl⟩) (by decide) [1] [1] A [] B' C (writes (A ++ [] ++ C)) ins none none cells1 cells2 meets1.1 meets1.2.1 meets1.2.2 meets2.1 meets2.2.1 meets2.2.2

/-- The elements returned, and the number of thunks run in each step. -/
def outcome (stages : List Name) : List (List Nat) × List Nat :=
  match runSession (env H opAt g (fun _ => 0) (fun _ _ => 0)) 80 [stepProg (nm 0) ⟨writes (A ++ [] ++ C), stages, listOf [1] (A ++ [] ++ C), none⟩] (initSt true false) with
  | .ok vs s => match exec (env H opAt g (fun _ => 0) (fun _ _ => 0)) 80 (stepProg (nm 0) ⟨ins, stages, listOf [1] (A ++ B' ++ C), none⟩) s with
    | .ok v s' => ((vs ++ [v]).map Example75.elems, [s.runs.length, s'.runs.length - s.runs.length])
    | _ => ([], [])
  | _ => ([], [])

/-- The bound is attained, with and without the map before the reversal: the thunks of the two segments before the new one are run as well, those after it are not. -/
theorem C85_bound_attained : outcome [nm 20, nm 21] = ([[61, 51, 41, 31, 21, 11, 2], [61, 51, 71, 41, 31, 21, 11, 2]], [13, 7]) ∧
    outcome [nm 21] = ([[60, 50, 40, 30, 20, 10, 1], [60, 50, 70, 40, 30, 20, 10, 1]], [7, 4]) := by decide +kernel

/-- The first version of `rev` in lib.rs:1343-1348, in the setting of `list_reverse`: the accumulator is passed itself, not in a cell. -/
def reverseDirect (l rev : SortProg.LV Nat) : Prog (CV Nat) :=
  .call fLView (.lst l) <| onLst fun
  | .nil => .ret (.lst rev)
  | .cons x tl => .call fRev (.rargs tl (.cons x rev)) .ret
  | .name n tl => .thunk tyL (.nominal n) ppRev fRev (.rargs tl rev) fun t => .force tyL t none <| onLst fun _ => .ret (.lst (.name n (.art t)))
  | .art _ => .panic
def envDirect : Env (CV Nat) := ⟨fun fn v => match v with | .rargs l rev => if fn = fRev then reverseDirect l rev else .panic | v => code H opAt g fn v, fun _ => 0, fun _ _ => 0⟩
def outcomeDirect : List (List Nat) × List Nat :=
  match runSession envDirect 80 [stepProg (nm 0) ⟨writes (A ++ [] ++ C), [nm 21], listOf [1] (A ++ [] ++ C), none⟩] (initSt true false) with
  | .ok vs s => match exec envDirect 80 (stepProg (nm 0) ⟨ins, [nm 21], listOf [1] (A ++ B' ++ C), none⟩) s with
    | .ok v s' => ((vs ++ [v]).map Example75.elems, [s.runs.length, s'.runs.length - s.runs.length])
    | _ => ([], [])
  | _ => ([], [])

/-- Without the cells the claim is false: the thunks after the edit are run as well, as lib.rs:1356-1364 says. -/
theorem C85_fails_without_the_cells : outcomeDirect = ([[60, 50, 40, 30, 20, 10, 1], [60, 50, 70, 40, 30, 20, 10, 1]], [7, 6]) := by decide +kernel

end Adapton.ListProg.Example85
