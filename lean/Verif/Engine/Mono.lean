import Verif.Engine.Util
/-
More recursion depth never changes an outcome of the engine, once there is one.
-/
set_option linter.unusedSectionVars false
namespace Adapton
variable {V α β : Type}

/-- `m2` agrees with `m1` wherever `m1` has enough depth. -/
def M.le (m1 m2 : M V α) : Prop := ∀ s, m1 s = .oof ∨ m2 s = m1 s

theorem M.le.refl (m : M V α) : M.le m m := fun _ => .inr rfl

theorem M.le.bind {m1 m2 : M V α} {f1 f2 : α → M V β} (hm : M.le m1 m2) (hf : ∀ a, M.le (f1 a) (f2 a)) :
    M.le (m1 >>= f1) (m2 >>= f2) := by
  intro s
  show M.bind m1 f1 s = .oof ∨ M.bind m2 f2 s = M.bind m1 f1 s
  unfold M.bind
  rcases hm s with h | h
  · left; rw [h]
  · rw [h]
    cases m1 s with
    | ok a s' => exact hf a s'
    | panic e s' => exact .inr rfl
    | oof => exact .inl rfl

theorem M.le.ite {c : Prop} [Decidable c] {a b a' b' : M V α} (h1 : M.le a a') (h2 : M.le b b') :
    M.le (if c then a else b) (if c then a' else b') := by
  by_cases h : c
  · rw [if_pos h, if_pos h]; exact h1
  · rw [if_neg h, if_neg h]; exact h2

variable [UEq V]

/-- The recursion at greater depth agrees with the one at smaller depth. -/
structure Rec.le (R1 R2 : Rec V) : Prop where
  produce : ∀ ty l, M.le (R1.produce ty l) (R2.produce ty l)
  cleanForce : ∀ ty v l, M.le (R1.cleanForce ty v l) (R2.cleanForce ty v l)
  run : ∀ p, M.le (R1.run p) (R2.run p)

variable {R1 R2 : Rec V} {env : Env V}

theorem opForce_le (h : R1.le R2) (ty : Ty) (l : Loc) (cyc : Option V) :
    M.le (opForce R1 ty l cyc) (opForce R2 ty l cyc) := by
  refine M.le.bind (M.le.refl _) fun s => M.le.bind (M.le.refl _) fun n => ?_
  match n with
  | .pure nd => exact M.le.refl _
  | .mut nd => exact M.le.refl _
  | .comp nd =>
    refine M.le.ite (M.le.refl _) ?_
    match nd.res with
    | none =>
      refine M.le.bind (M.le.refl _) fun _ => M.le.ite (M.le.refl _) ?_
      exact M.le.bind (h.produce _ _) fun r => M.le.refl _
    | some r =>
      refine M.le.bind (M.le.refl _) fun _ => ?_
      exact M.le.bind (h.cleanForce _ _ _) fun _ => M.le.refl _

theorem opForceMap_le (h : R1.le R2) (ty : Ty) (l : Loc) (f : V → V) :
    M.le (opForceMap R1 ty l f) (opForceMap R2 ty l f) := by
  refine M.le.bind (M.le.refl _) fun s => M.le.bind (M.le.refl _) fun n => ?_
  match n with
  | .mut nd => exact M.le.refl _
  | .pure nd => exact M.le.bind (opForce_le h _ _ _) fun _ => M.le.refl _
  | .comp nd => exact M.le.bind (opForce_le h _ _ _) fun _ => M.le.refl _

theorem opForceAbs_le (h : R1.le R2) (ty : Ty) (l : Loc) (f : V → V) :
    M.le (opForceAbs R1 ty l f) (opForceAbs R2 ty l f) := by
  refine M.le.bind (M.le.refl _) fun s => M.le.bind (M.le.refl _) fun n => ?_
  match n with
  | .mut nd => exact M.le.refl _
  | .pure nd => exact M.le.bind (opForce_le h _ _ _) fun _ => M.le.refl _
  | .comp nd => exact M.le.bind (opForce_le h _ _ _) fun _ => M.le.refl _

theorem runProg_le (h : R1.le R2) (p : Prog V) : M.le (runProg env R1 p) (runProg env R2 p) := by
  induction p with
  | ret v => exact M.le.refl _
  | force ty l cyc k ih => exact M.le.bind (opForce_le h _ _ _) ih
  | forceMap ty l f k ih => exact M.le.bind (opForceMap_le h _ _ _) ih
  | forceAbs ty l f k ih => exact M.le.bind (opForceAbs_le h _ _ _) ih
  | cell ty n v k ih => exact M.le.bind (M.le.refl _) ih
  | thunk ty nc pp fn arg k ih => exact M.le.bind (M.le.refl _) ih
  | set ty l v k ih => exact M.le.bind (M.le.refl _) fun _ => ih
  | ns n body k ihb ihk =>
    exact M.le.bind (M.le.refl _) fun _ => M.le.bind (M.le.refl _) fun _ => M.le.bind ihb fun v =>
      M.le.bind (M.le.refl _) fun _ => ihk v
  | structural body k ihb ihk =>
    exact M.le.bind (M.le.refl _) fun _ => M.le.bind (M.le.refl _) fun _ => M.le.bind ihb fun v =>
      M.le.bind (M.le.refl _) fun _ => ihk v
  | call fn arg k ih => exact M.le.bind (h.run _) ih
  | panic => exact M.le.refl _

theorem produceBody_le (h : R1.le R2) (ty : Ty) (l : Loc) : M.le (produceBody env R1 ty l) (produceBody env R2 ty l) := by
  refine M.le.bind (M.le.refl _) fun n => ?_
  match n with
  | .pure nd => exact M.le.refl _
  | .mut nd => exact M.le.refl _
  | .comp nd =>
    refine M.le.bind (M.le.refl _) fun _ => M.le.bind (M.le.refl _) fun _ => M.le.bind (M.le.refl _) fun s =>
      M.le.bind (M.le.refl _) fun _ => M.le.bind (M.le.refl _) fun n => ?_
    match n with
    | .pure nd => exact M.le.refl _
    | .mut nd => exact M.le.refl _
    | .comp nd =>
      exact M.le.bind (M.le.refl _) fun _ => M.le.bind (h.run _) fun _ => M.le.refl _

theorem cleanDep_le (h : R1.le R2) (d : Dep V) (l : Loc) : M.le (cleanDep R1 d l) (cleanDep R2 d l) := by
  cases d with
  | force ty r => exact h.cleanForce _ _ _
  | _ => exact M.le.refl _

theorem cleanLoop_le (h : R1.le R2) (ty : Ty) (res : V) (l : Loc) (es : List (Succ V)) :
    M.le (cleanLoop R1 ty res l es) (cleanLoop R2 ty res l es) := by
  induction es with
  | nil => exact M.le.refl _
  | cons e es ih =>
    refine M.le.bind (M.le.refl _) fun d => M.le.ite ?_ ih
    refine M.le.bind (M.le.refl _) fun _ => M.le.bind (cleanDep_le h _ _) fun ch => M.le.ite ?_ ?_
    · exact M.le.bind (M.le.refl _) fun _ => M.le.bind (h.produce _ _) fun _ => M.le.refl _
    · exact M.le.bind (M.le.refl _) fun _ => M.le.bind (M.le.refl _) fun _ => M.le.bind (M.le.refl _) fun _ => ih

theorem cleanForceBody_le (h : R1.le R2) (ty : Ty) (res : V) (l : Loc) :
    M.le (cleanForceBody R1 ty res l) (cleanForceBody R2 ty res l) := by
  refine M.le.bind (M.le.refl _) fun n => ?_
  match n with
  | .pure nd => exact M.le.refl _
  | .mut nd => exact M.le.refl _
  | .comp nd =>
    show M.le (match nd.res with | some cache => _ | none => _) (match nd.res with | some cache => _ | none => _)
    match nd.res with
    | some c => exact M.le.bind (cleanLoop_le h _ _ _ _) fun _ => M.le.refl _
    | none => exact M.le.bind (M.le.refl _) fun _ => M.le.bind (h.produce _ _) fun _ => M.le.refl _

theorem recN_le_succ (env : Env V) : ∀ n, (recN env n).le (recN env (n+1)) := by
  intro n
  induction n with
  | zero => exact ⟨fun _ _ _ => .inl rfl, fun _ _ _ _ => .inl rfl, fun _ _ => .inl rfl⟩
  | succ n ih => exact ⟨produceBody_le ih, cleanForceBody_le ih, runProg_le ih⟩

theorem M.le.trans {a b c : M V α} (h1 : M.le a b) (h2 : M.le b c) : M.le a c := by
  intro s
  rcases h1 s with h | h
  · exact .inl h
  · rcases h2 s with h' | h'
    · left; rw [← h, h']
    · right; rw [h', h]

theorem recN_le (env : Env V) {n m : Nat} (h : n ≤ m) : (recN env n).le (recN env m) := by
  induction h with
  | refl => exact ⟨fun _ _ => M.le.refl _, fun _ _ _ => M.le.refl _, fun _ => M.le.refl _⟩
  | step _ ih =>
    have := recN_le_succ env
    exact ⟨fun ty l => (ih.produce ty l).trans ((this _).produce ty l),
      fun ty v l => (ih.cleanForce ty v l).trans ((this _).cleanForce ty v l),
      fun p => (ih.run p).trans ((this _).run p)⟩

/-- More depth never changes an outcome. -/
theorem exec_mono (env : Env V) {n m : Nat} (h : n ≤ m) (p : Prog V) (s : St V) (hn : exec env n p s ≠ .oof) :
    exec env m p s = exec env n p s := by
  rcases runProg_le (env := env) (recN_le env h) p s with h' | h'
  · exact absurd h' hn
  · exact h'

theorem runSession_mono (env : Env V) {n m : Nat} (h : n ≤ m) (ps : List (Prog V)) (s : St V)
    (hn : runSession env n ps s ≠ .oof) : runSession env m ps s = runSession env n ps s := by
  have key : ∀ ps : List (Prog V), M.le (runSession env n ps) (runSession env m ps) := by
    intro ps
    induction ps with
    | nil => exact M.le.refl _
    | cons p ps ih => exact M.le.bind (runProg_le (recN_le env h) p) fun _ => M.le.bind ih fun _ => M.le.refl _
  rcases key ps s with h' | h'
  · exact absurd h' hn
  · exact h'

end Adapton
