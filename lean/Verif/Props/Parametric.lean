import Verif.Engine.Rename
import Verif.Props.Names
/-
C92: representation independence.  The engine uses names, hashes, program points, type tags, locations and values only by comparing them, so that
two sessions that correspond up to a one-to-one change of representation behave in the same way: corresponding results, the same panics, the same
trace and the same evaluations, up to that change.  For all programs, all histories and all states.
-/
set_option linter.unusedSectionVars false
set_option linter.unusedVariables false
namespace Adapton
namespace Param
variable {V Q : Type} {r : Rel V Q}

/-! ### Specification -/

/-- What can be observed of a session: how it ends, its trace (latest event first) and the thunks that were evaluated (latest first). -/
inductive Observed (r : Rel V Q) : Out V (List V) → Out Q (List Q) → Prop
  | returns {vs ws s t} : L2 r.val vs ws → L2 (EvR r) s.log t.log → L2 (LocR r) s.runs t.runs → Observed r (.ok vs s) (.ok ws t)
  | panics {e s t} : L2 (EvR r) s.log t.log → L2 (LocR r) s.runs t.runs → Observed r (.panic e s) (.panic e t)
  | tooDeep : Observed r .oof .oof

/-- The kind of an event, without the locations. -/
inductive Kind
  | «begin» (e : TEff) (inThunk : Bool)
  | «end»
  | eff (e : TEff) (inThunk : Bool)
deriving DecidableEq

/-- The kind of an event. -/
def kind : Ev → Kind
  | .begin e src _ => .begin e src.isSome
  | .end_ => .end
  | .eff e src _ => .eff e src.isSome

/-- How a session ends (`none`: it returns, `some e`: the panic `e`), the kinds of its events and the number of evaluations. -/
def cost {V α : Type} : Out V α → Option (Option Err × List Kind × Nat)
  | .ok _ s => some (none, s.log.map kind, s.runs.length)
  | .panic e s => some (some e, s.log.map kind, s.runs.length)
  | .oof => none

/-! ### Proofs -/

theorem kind_rel {a b : Ev} (h : EvR r a b) : kind a = kind b := by
  cases h with
  | «begin» h _ => cases h <;> rfl
  | end_ => rfl
  | eff h _ => cases h <;> rfl

theorem Observed.cost_eq {o : Out V (List V)} {o' : Out Q (List Q)} (h : Observed r o o') : cost o = cost o' := by
  have hk : ∀ {as bs : List Ev}, L2 (EvR r) as bs → as.map kind = bs.map kind := fun h =>
    (h.map (S := Eq) fun a b h => kind_rel h).eq
  cases h with
  | returns _ h1 h2 => simp only [cost, hk h1, h2.length]
  | panics h1 h2 => simp only [cost, hk h1, h2.length]
  | tooDeep => rfl

theorem OutR.observed {o : Out V (List V)} {o' : Out Q (List Q)} (h : OutR r (L2 r.val) o o') : Observed r o o' := by
  cases h with
  | ok h hs => exact .returns h hs.log hs.runs
  | panic hs => exact .panics hs.log hs.runs
  | oof => exact .tooDeep

/-- **C92.** Sessions that correspond under a correspondence that respects the comparisons made by the engine are observed to be the same. -/
theorem C92_representation_independence [UEq V] [UEq Q] (hr : r.Lawful) {env : Env V} {env' : Env Q} (he : EnvR r env env')
    {ps : List (Prog V)} {qs : List (Prog Q)} (h : L2 (ProgR r) ps qs) (n : Nat) (purity ign : Bool) :
    Observed r (runSession env n ps (initSt purity ign)) (runSession env' n qs (initSt purity ign)) :=
  (runSession_rel hr he n h _ _ (initSt_rel purity ign)).observed

/-- **C92.** In particular the engine does the same work: the same kinds of events in the same order, the same number of evaluations, and the
same panic if any. -/
theorem C92_same_work [UEq V] [UEq Q] (hr : r.Lawful) {env : Env V} {env' : Env Q} (he : EnvR r env env')
    {ps : List (Prog V)} {qs : List (Prog Q)} (h : L2 (ProgR r) ps qs) (n : Nat) (purity ign : Bool) :
    cost (runSession env n ps (initSt purity ign)) = cost (runSession env' n qs (initSt purity ign)) :=
  (C92_representation_independence hr he h n purity ign).cost_eq

/-- The same name made with two hash functions: the same symbol. -/
def SameSymbol (H H' : NameHash) (n m : Name) : Prop := Built H n ∧ Built H' m ∧ n.sym = m.sym

/-- **C92.** The hash function used for names does not matter, however bad it is: making the same names with another one keeps every comparison
of names (names are compared by hash and symbol), hence everything that is observed. -/
theorem C92_hash_function_of_names [UEq V] [UEq Q] (H H' : NameHash) (hname : ∀ n m, r.name n m → SameSymbol H H' n m)
    (hval : ∀ a a' b b', r.val a b → r.val a' b' → (a ≈ᵤ a' ↔ b ≈ᵤ b')) (hhash : ∀ a a' b b', r.hash a b → r.hash a' b' → (a = a' ↔ b = b'))
    (hty : ∀ a b, r.ty a b → a = b) (hpp : ∀ a b, r.pp a b → a = b) {env : Env V} {env' : Env Q} (he : EnvR r env env')
    {ps : List (Prog V)} {qs : List (Prog Q)} (h : L2 (ProgR r) ps qs) (n : Nat) (purity ign : Bool) :
    Observed r (runSession env n ps (initSt purity ign)) (runSession env' n qs (initSt purity ign)) := by
  refine C92_representation_independence ⟨fun h h' => hval _ _ _ _ h h', ?_, fun h h' => hhash _ _ _ _ h h', ?_, ?_⟩ he h n purity ign
  · intro a a' b b' h h'
    obtain ⟨ha, hb, e⟩ := hname _ _ h
    obtain ⟨ha', hb', e'⟩ := hname _ _ h'
    exact ⟨fun x => hb.eq_of_sym H' hb' (by rw [← e, ← e', x]), fun x => ha.eq_of_sym H ha' (by rw [e, e', x])⟩
  · intro a a' b b' h h'; rw [hty _ _ h, hty _ _ h']
  · intro a a' b b' h h'; rw [hpp _ _ h, hpp _ _ h']

/-! ### An example: two cells, their sum, an edit; with any two hash functions -/

namespace Example

/-- Values: numbers, and pairs of articulations. -/
inductive EV
  | num (n : Nat)
  | two (a b : Loc)
deriving DecidableEq, Repr

/-- The number. -/
def EV.get : EV → Nat
  | .num n => n
  | .two _ _ => 0

/-- `force a + force b`. -/
def code : FnId → EV → Prog EV
  | _, .two a b => .force 0 a none fun x => .force 0 b none fun y => .ret (.num (x.get + y.get))
  | _, .num n => .ret (.num n)

/-- The environment, with a choice of the hash function `k + ·`. -/
def env (k : UInt64) : Env EV := ⟨code, fun v => k + v.get.toUInt64, fun pp _ => k + pp.toUInt64⟩

/-- The cells. -/
def cellLoc (H : NameHash) (s : String) : Loc := ⟨.empty, .nominal (nameOfString H s)⟩

/-- Make the cells `a`, `b`, a nominal thunk of their sum named by forking the name `"t"`, and the thunk with a structural name; force both. -/
def build (H : NameHash) : Prog EV :=
  .cell 0 (nameOfString H "a") (.num 3) fun a => .cell 0 (nameOfString H "b") (.num 4) fun b =>
    .thunk 0 (.nominal (nameFork H (nameOfString H "t")).1) 5 0 (.two a b) fun t => .thunk 0 .structural 6 0 (.two a b) fun u =>
      .force 0 t none fun x => .force 0 u none fun y => .ret (.num (10 * x.get + y.get))
/-- Edit `a`, ask again. -/
def edit (H : NameHash) : Prog EV :=
  .set 0 (cellLoc H "a") (.num 9) (.force 0 ⟨.empty, .nominal (nameFork H (nameOfString H "t")).1⟩ none fun x => .ret x)
/-- The session. -/
def session (H : NameHash) : List (Prog EV) := [build H, edit H]

/-- Values that differ in the representation of locations only. -/
inductive EVR (L : Loc → Loc → Prop) : EV → EV → Prop
  | num (n) : EVR L (.num n) (.num n)
  | two {a b a' b'} : L a a' → L b b' → EVR L (.two a b) (.two a' b')

/-- Locations over the same symbols and shifted hashes. -/
def baseRel (H H' : NameHash) (k k' : UInt64) : Rel EV EV where
  val := fun _ _ => False
  name := SameSymbol H H'
  hash := fun a b => a - k = b - k'
  ty := Eq
  pp := Eq
  fn := Eq
/-- The correspondence. -/
def rel (H H' : NameHash) (k k' : UInt64) : Rel EV EV := { baseRel H H' k k' with val := EVR (LocR (baseRel H H' k k')) }

variable (H H' : NameHash) (k k' : UInt64)

theorem locR_base {l l' : Loc} (h : LocR (rel H H' k k') l l') : LocR (baseRel H H' k k') l l' := by
  have hp : ∀ {p q}, PathR (rel H H' k k') p q → PathR (baseRel H H' k k') p q := by
    intro p q h
    induction h with
    | empty => exact .empty
    | child _ h ih => exact .child ih h
  cases h with
  | mk h1 h2 =>
    refine .mk (hp h1) ?_
    cases h2 with
    | structural h => exact .structural h
    | nominal h => exact .nominal h

theorem locR_rel {l l' : Loc} (h : LocR (baseRel H H' k k') l l') : LocR (rel H H' k k') l l' := by
  have hp : ∀ {p q}, PathR (baseRel H H' k k') p q → PathR (rel H H' k k') p q := by
    intro p q h
    induction h with
    | empty => exact .empty
    | child _ h ih => exact .child ih h
  cases h with
  | mk h1 h2 =>
    refine .mk (hp h1) ?_
    cases h2 with
    | structural h => exact .structural h
    | nominal h => exact .nominal h

theorem hash_law (a a' b b' : UInt64) (h : a - k = b - k') (h' : a' - k = b' - k') : a = a' ↔ b = b' := by
  constructor
  · intro e
    rw [e, h'] at h
    have := congrArg (· + k') h
    simpa using this.symm
  · intro e
    rw [e, ← h'] at h
    have := congrArg (· + k) h
    simpa using this

theorem base_lawful : (baseRel H H' k k').Lawful where
  val := fun h => h.elim
  name := by
    rintro a a' b b' ⟨ha, hb, e⟩ ⟨ha', hb', e'⟩
    exact ⟨fun x => hb.eq_of_sym H' hb' (by rw [← e, ← e', x]), fun x => ha.eq_of_sym H ha' (by rw [e, e', x])⟩
  hash := fun h h' => hash_law k k' _ _ _ _ h h'
  ty := by rintro _ _ _ _ rfl rfl; exact Iff.rfl
  pp := by rintro _ _ _ _ rfl rfl; exact Iff.rfl

theorem val_law (a a' b b' : EV) (h : (rel H H' k k').val a b) (h' : (rel H H' k k').val a' b') : a ≈ᵤ a' ↔ b ≈ᵤ b' := by
  show a = a' ↔ b = b'
  cases h with
  | num n =>
    cases h' with
    | num m => exact Iff.rfl
    | two => simp
  | two h1 h2 =>
    cases h' with
    | num m => simp
    | two g1 g2 => simp only [EV.two.injEq, h1.eq_iff (base_lawful H H' k k') g1, h2.eq_iff (base_lawful H H' k k') g2]

theorem get_eq {v w : EV} (h : (rel H H' k k').val v w) : v.get = w.get := by cases h <;> rfl

theorem env_rel : EnvR (rel H H' k k') (env k) (env k') where
  code := by
    intro fn fn' v w hf h
    cases h with
    | num n => exact .ret (.num n)
    | two h1 h2 =>
      refine .force rfl (locR_rel H H' k k' h1) .none fun v w hv => .force rfl (locR_rel H H' k k' h2) .none fun v' w' hv' => .ret ?_
      rw [get_eq H H' k k' hv, get_eq H H' k k' hv']
      exact .num _
  hashVal := by
    intro v w h
    show k + v.get.toUInt64 - k = k' + w.get.toUInt64 - k'
    rw [get_eq H H' k k' h, UInt64.add_comm, UInt64.add_sub_cancel, UInt64.add_comm, UInt64.add_sub_cancel]
  hashApp := by
    intro pp pp' v w h _
    cases h
    show k + pp.toUInt64 - k = k' + pp.toUInt64 - k'
    rw [UInt64.add_comm, UInt64.add_sub_cancel, UInt64.add_comm, UInt64.add_sub_cancel]

theorem str_rel (s : String) : (rel H H' k k').name (nameOfString H s) (nameOfString H' s) := ⟨.string s, .string s, rfl⟩
theorem fork_rel (s : String) : (rel H H' k k').name (nameFork H (nameOfString H s)).1 (nameFork H' (nameOfString H' s)).1 :=
  ⟨.forkL (.string s), .forkL (.string s), rfl⟩

theorem session_rel : L2 (ProgR (rel H H' k k')) (session H) (session H') := by
  refine .cons ?_ (.cons ?_ .nil)
  · refine .cell rfl (str_rel H H' k k' "a") (.num 3) fun a a' ha => .cell rfl (str_rel H H' k k' "b") (.num 4) fun b b' hb => ?_
    have hab : (rel H H' k k').val (.two a b) (.two a' b') := .two (locR_base H H' k k' ha) (locR_base H H' k k' hb)
    refine .thunk rfl (.nominal (fork_rel H H' k k' "t")) rfl rfl hab fun t t' ht => .thunk rfl .structural rfl rfl hab fun u u' hu => ?_
    refine .force rfl ht .none fun v w hv => .force rfl hu .none fun v' w' hv' => .ret ?_
    rw [get_eq H H' k k' hv, get_eq H H' k k' hv']
    exact .num _
  · exact .set rfl (.mk .empty (.nominal (str_rel H H' k k' "a"))) (.num 9)
      (.force rfl (.mk .empty (.nominal (fork_rel H H' k k' "t"))) .none fun v w hv => .ret hv)

/-- The theorem applies to this session, for any two hash functions on names and any two of the hash functions on values. -/
theorem session_observed (n : Nat) (purity ign : Bool) :
    Observed (rel H H' k k') (runSession (env k) n (session H) (initSt purity ign)) (runSession (env k') n (session H') (initSt purity ign)) :=
  C92_hash_function_of_names H H' (fun _ _ h => h) (val_law H H' k k') (fun a a' b b' h h' => hash_law k k' a a' b b' h h') (fun _ _ h => h) (fun _ _ h => h)
    (env_rel H H' k k') (session_rel H H' k k') n purity ign

/-- A hash function that gives every name the same hash. -/
def badHash : NameHash := ⟨fun _ _ => 0, fun _ => 0, fun _ => 0, fun _ => 0, fun _ _ => 0⟩

/-- The answers of a session. -/
def answers : Out EV (List EV) → List Nat
  | .ok vs _ => vs.map EV.get
  | _ => []

/-- The session makes three evaluations of thunks and returns 77 and 13, even with the worst hash function. -/
theorem bad_hash : answers (runSession (env 0) 4 (session badHash) (initSt true false)) = [77, 13] ∧
    (cost (runSession (env 0) 4 (session badHash) (initSt true false))).map (·.2.2) = some 3 := by
  exact ⟨by decide +kernel, by decide +kernel⟩

/-- Hence it does so with every hash function. -/
theorem any_hash : answers (runSession (env k) 4 (session H) (initSt true false)) = [77, 13] ∧
    (cost (runSession (env k) 4 (session H) (initSt true false))).map (·.2.2) = some 3 := by
  have h := session_observed H badHash k 0 4 true false
  refine ⟨?_, by rw [h.cost_eq]; exact bad_hash.2⟩
  rw [← bad_hash.1]
  revert h
  generalize runSession (env k) 4 (session H) (initSt true false) = o
  generalize runSession (env 0) 4 (session badHash) (initSt true false) = o'
  intro h
  cases h with
  | returns h _ _ => exact (h.map (S := Eq) fun a b h => get_eq H badHash k 0 h).eq
  | panics => rfl
  | tooDeep => rfl

/-- One-to-one is needed: if the cells `a` and `b` are given the same name, the answers are others. -/
def merged : Prog EV :=
  .cell 0 nameUnit (.num 3) fun a => .cell 0 nameUnit (.num 4) fun b =>
    .thunk 0 (.nominal (nameFork badHash (nameOfString badHash "t")).1) 5 0 (.two a b) fun t => .thunk 0 .structural 6 0 (.two a b) fun u =>
      .force 0 t none fun x => .force 0 u none fun y => .ret (.num (10 * x.get + y.get))
theorem merged_differs : answers (runSession (env 0) 4 [merged] (initSt true false)) = [88] := by decide +kernel

end Example
end Param
end Adapton
