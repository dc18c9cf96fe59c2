import Verif.Props.UserEquality
/-
C61: articulations as values.  A cell may contain an articulation, and a thunk may take one as its argument; the engine then
compares articulations with the library's own `==` (engine.rs:2133-2154).  Two arts made by `thunk_map` are always `==`
(engine.rs:2203-2216 compares the name, the program point and the argument, which are the same for all of them; the mapped
thunk and the map are captured by the closure, which is not compared), so the engine takes one for the other.
-/
set_option linter.unusedSectionVars false
set_option linter.unusedSimpArgs false
namespace Adapton.ArtEq
open Adapton UserEq

/-- User values of one type that includes articulations (`EnumArt`, engine.rs:2113-2121).  `frc` is `EnumArt::Force` of a
`NaiveThunk` (2168-2175); its closure, with whatever it captures, is `fn`. -/
inductive AV where
  | unit
  | num (n : Nat)
  | rc (v : AV)
  | loc (l : Loc)
  | frc (id : NameChoice) (pp : ProgPt) (arg : AV) (fn : FnId)

/-- `==` on articulations: engine.rs:2133-2144, and 2203-2216 for naive thunks. -/
def artEq : AV → AV → Bool
  | .unit, .unit => true
  | .num n, .num m => n == m
  | .rc v, .rc w => artEq v w
  | .loc l, .loc l' => decide (l = l')
  | .frc id pp arg _, .frc id' pp' arg' _ => decide (id = id') && decide (pp = pp') && artEq arg arg'
  | _, _ => false

instance : UEq AV := ⟨fun a b => artEq a b = true, fun _ _ => inferInstance⟩
theorem eqv_iff (a b : AV) : a ≈ᵤ b ↔ artEq a b = true := Iff.rfl

theorem artEq_refl (a : AV) : artEq a a = true := by
  induction a with
  | frc id pp arg fn ih => simp [artEq, ih]
  | rc v ih => simp [artEq, ih]
  | _ => simp [artEq]

theorem artEq_symm (a : AV) : ∀ b, artEq a b = true → artEq b a = true := by
  induction a with
  | frc id pp arg fn ih =>
    intro b h
    cases b <;> simp [artEq] at h
    simp [artEq, h, ih _ h.2]
  | rc v ih =>
    intro b h
    cases b <;> simp [artEq] at h
    simp [artEq, ih _ h]
  | _ =>
    intro b h
    cases b <;> simp [artEq] at h <;> simp [artEq, h]

theorem artEq_trans (a : AV) : ∀ b c, artEq a b = true → artEq b c = true → artEq a c = true := by
  induction a with
  | frc id pp arg fn ih =>
    intro b c h h'
    cases b <;> simp [artEq] at h
    cases c <;> simp [artEq] at h'
    simp [artEq, h, h', ih _ _ h.2 h'.2]
  | rc v ih =>
    intro b c h h'
    cases b <;> simp [artEq] at h
    cases c <;> simp [artEq] at h'
    simp [artEq, ih _ _ h h']
  | _ =>
    intro b c h h'
    cases b <;> simp [artEq] at h <;> cases c <;> simp [artEq] at h' <;> simp [artEq, h, h']

/-- The value holds no naive thunk. -/
def NoNaive : AV → Prop
  | .rc v => NoNaive v
  | .frc .. => False
  | _ => True

/-- **C61.** `==` on articulations is an equivalence, and on articulations without naive thunks, that is on cells and thunks of
the incremental engine, it is identity of the location, so that equal articulations are the same articulation. -/
theorem C61_art_equality : IsEquiv AV ∧ ∀ a b : AV, NoNaive a → (a ≈ᵤ b ↔ a = b) := by
  refine ⟨⟨artEq_refl, fun h => artEq_symm _ _ h, fun h h' => artEq_trans _ _ _ h h'⟩, fun a b ha => ?_⟩
  constructor
  · intro h
    rw [eqv_iff] at h
    induction a generalizing b with
    | frc => exact ha.elim
    | rc v ih =>
      cases b <;> simp [artEq] at h
      rw [ih _ ha h]
    | _ => cases b <;> simp [artEq] at h <;> simp [h]
  · rintro rfl; exact artEq_refl a

/-- **C61.** Two articulations with a naive thunk are `==` exactly if their names, program points and arguments are; what they compute is not compared. -/
theorem C61_naive_thunk_equality (id id' : NameChoice) (pp pp' : ProgPt) (a a' : AV) (f f' : FnId) :
    AV.frc id pp a f ≈ᵤ AV.frc id' pp' a' f' ↔ id = id' ∧ pp = pp' ∧ a ≈ᵤ a' := by
  simp only [eqv_iff, artEq, Bool.and_eq_true, decide_eq_true_eq, and_assoc]

/-- `thunk_map(thunk, map_fn)`, engine.rs:2457-2474: no name, the one program point, no argument; `fn` is the closure that
captures `thunk` and `map_fn`. -/
def thunkMap (fn : FnId) : AV := .frc .naive 42 .unit fn

/-- `force`, engine.rs:2478-2494, on an articulation that is a value of the program. -/
def forceArt (ty : Ty) : AV → (AV → Prog AV) → Prog AV
  | .rc v, k => k v
  | .loc l, k => .force ty l none k
  | .frc _ _ arg fn, k => .call fn arg k
  | _, _ => .panic

def nm (n : Nat) : Name := ⟨0, .usize n⟩
def at_ (n : Nat) : Loc := ⟨.empty, .nominal (nm n)⟩

/-- Closures 10 and 11 are `thunk_map(x, f)` and `thunk_map(x, g)` for the cell `x` at name 3.  Closure 1 forces the cell at name
0, which contains an articulation, and forces that.  Closure 2 forces the articulation it is given as argument. -/
def code (f g : AV → AV) : FnId → AV → Prog AV
  | 1, _ => .force 0 (at_ 0) none fun a => forceArt 0 a .ret
  | 2, a => forceArt 0 a .ret
  | 10, _ => .force 0 (at_ 3) none fun v => .ret (f v)
  | 11, _ => .force 0 (at_ 3) none fun v => .ret (g v)
  | _, _ => .panic

section
variable (f g : AV → AV) (hv : AV → UInt64) (ha : ProgPt → AV → UInt64)

/-- **C61 (the half that holds).** Forcing `thunk_map(x, f)` is forcing `x` and applying `f`, in every state; all effects are
those of forcing `x`, so that the observation is tracked. -/
theorem C61_thunk_map_maps (n : Nat) (s : St AV) :
    exec ⟨code f g, hv, ha⟩ (n + 1) (forceArt 0 (thunkMap 10) .ret) s =
      match exec ⟨code f g, hv, ha⟩ n (.force 0 (at_ 3) none .ret) s with
      | .ok v s' => .ok (f v) s'
      | .panic e s' => .panic e s'
      | .oof => .oof := by
  show (M.bind (exec ⟨code f g, hv, ha⟩ n (.force 0 (at_ 3) none fun v => .ret (f v))) _) s = _
  unfold M.bind exec
  simp only [runProg, M.bind_def, M.pure_def]
  rcases opForce (recN ⟨code f g, hv, ha⟩ n) 0 (at_ 3) none s with ⟨v, s'⟩ | ⟨e, s'⟩ | _ <;> rfl

/-- **C61 (violated).** All articulations made by `thunk_map` are `==`, whatever they map and with whatever map. -/
theorem C61_thunk_maps_all_equal (fn fn' : FnId) : thunkMap fn ≈ᵤ thunkMap fn' := by
  rw [eqv_iff]; rfl

attribute [local simp] eqv_iff runSession exec runProg opCell opForce opThunk thunkNominal thunkStructural cellTable cellRecord
  M.bind_def M.pure_def M.modify_def M.get_def M.panic_def evBegin evEnd evEff recordEdge putNode Table.get Table.put resNode
  lookupAbs produceBody revokeSuccs removePred installPreds installPred Node.predsInsert Node.predsRemove
  Node.ty initSt topLoc opSet setCell dirtyAlloc dirtyPredsTop dirtyPreds dirtyLoop dirtyObserver dirtyStop checkForceMapDep
  Node.predsObs Node.predsAlloc cleanForceBody cleanLoop cleanDep succDirty setSuccDirty Succ.matches setFirst step recN
  tableClean cleanCount Node.succsList dirtyAllocLoop dirtyAllocator at_ nm code thunkMap forceArt artEq

/-- The cell `x` contains `v`, the cell at name 0 the articulation `m`; force closure 1. -/
def start (v m : AV) : Prog AV :=
  .cell 0 (nm 3) v fun _ => .cell 0 (nm 0) m fun _ => .thunk 0 (.nominal (nm 1)) 1 1 .unit fun l => .force 0 l none .ret

/-- **C61 (violated).** A cell contains `thunk_map(x, f)`; a thunk forces what the cell contains.  After the cell has been set to
`thunk_map(x, g)`, the thunk still answers `f x`.  Run in a new engine with `thunk_map(x, g)` in the cell, it answers `g x`.  For
all maps and all contents of `x`. -/
theorem C61_set_to_other_map_is_dropped (v : AV) (purity : Bool) (n : Nat) :
    (∃ s, runSession ⟨code f g, hv, ha⟩ (n + 7) [start v (thunkMap 10), .set 0 (at_ 0) (thunkMap 11) (.force 0 (at_ 1) none .ret)]
      (initSt purity false) = .ok [f v, f v] s) ∧
    ∃ s, runSession ⟨code f g, hv, ha⟩ (n + 7) [start v (thunkMap 11)] (initSt purity false) = .ok [g v] s := by
  constructor <;> simp [start]

/-- The thunk at name 1 gets the articulation `m` as its argument and forces it. -/
def startArg (v m : AV) : Prog AV :=
  .cell 0 (nm 3) v fun _ => .thunk 0 (.nominal (nm 1)) 1 2 m fun l => .force 0 l none .ret

/-- **C61 (violated).** The same for arguments of thunks: re-allocating a named thunk with `thunk_map(x, g)` instead of
`thunk_map(x, f)` as its argument is taken for a memo match, and the old result is returned. -/
theorem C61_memo_match_on_other_map (v : AV) (purity : Bool) (n : Nat) :
    (∃ s, runSession ⟨code f g, hv, ha⟩ (n + 7) [startArg v (thunkMap 10), startArg v (thunkMap 11)]
      (initSt purity false) = .ok [f v, f v] s) ∧
    ∃ s, runSession ⟨code f g, hv, ha⟩ (n + 7) [startArg v (thunkMap 11)] (initSt purity false) = .ok [g v] s := by
  constructor <;> simp [startArg, artEq_refl]

/-- Why C60 does not apply: forcing does not respect `==` on these articulations. -/
theorem C61_force_does_not_respect_equality :
    ∃ a b : AV, a ≈ᵤ b ∧ ¬ PEq (forceArt 0 a .ret) (forceArt 0 b .ret) := by
  refine ⟨thunkMap 10, thunkMap 11, C61_thunk_maps_all_equal 10 11, ?_⟩
  intro h
  cases h
end

/-- Concrete: `x` contains 5, `f` adds 1, `g` doubles. -/
example : ∃ (f g : AV → AV) (v : AV), f v ≠ g v :=
  ⟨fun | .num n => .num (n + 1) | a => a, fun | .num n => .num (2 * n) | a => a, .num 5, by simp⟩

end Adapton.ArtEq
