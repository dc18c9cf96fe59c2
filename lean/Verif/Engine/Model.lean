import Verif.Engine.Basic
/-
Executable model of the DCG engine, function by function.
Source: /repo/src/engine.rs; line numbers refer to that file.
-/
namespace Adapton
variable {V : Type} [UEq V]

/-! ### Trace macros -/

/-- `dcg_effect_begin!` with an extent, 180-230. -/
def evBegin (e : TEff) (src : Option Loc) (tgt : Loc) : M V Unit :=
  M.modify fun s => { s with log := .begin e src tgt :: s.log }
/-- `dcg_effect_end!`, 234-258. -/
def evEnd : M V Unit := M.modify fun s => { s with log := .end_ :: s.log }
/-- `dcg_effect!`, 261-266. -/
def evEff (e : TEff) (src : Option Loc) (tgt : Loc) : M V Unit :=
  M.modify fun s => { s with log := .eff e src tgt :: s.log }

/-- `current_loc!`, 268-275, and `get_top_stack_loc`, 792-798. -/
def topLoc (s : St V) : Option Loc := s.stack.head?.map (·.loc)

/-! ### Location resolution -/

/-- `lookup_abs`, 785-790. -/
def lookupAbs (l : Loc) : M V (Node V) := fun s =>
  match s.table.get l with
  | none => .panic .dangling s
  | some n => .ok n s

/-- `res_node_of_loc`, 821-826, with `assert_graphnode_res_type`, 800-816. -/
def resNode (ty : Ty) (l : Loc) : M V (Node V) := do
  let n ← lookupAbs l
  if n.ty = ty then pure n else M.panic .typeError

/-- Write a node back (in-place mutation through `&mut` in Rust). -/
def putNode (l : Loc) (n : Node V) : M V Unit :=
  M.modify fun s => { s with table := s.table.put l n }

/-! ### Node operations -/

/-- `preds_alloc`, 836-840 (`none` = the `unreachable!()` on `Pure`). -/
def Node.predsAlloc : Node V → Option (List Loc)
  | .mut nd => some (nd.preds.filterMap fun p => if p.effect = .allocate then some p.loc else none)
  | .comp nd => some (nd.preds.filterMap fun p => if p.effect = .allocate then some p.loc else none)
  | .pure _ => none

/-- `preds_obs`, 842-859: a thunk's observers carry no dependency object. -/
def Node.predsObs : Node V → Option (List (Loc × Option (Dep V)))
  | .mut nd => some (nd.preds.filterMap fun p => if p.effect = .observe then some (p.loc, p.dep) else none)
  | .comp nd => some (nd.preds.filterMap fun p => if p.effect = .observe then some (p.loc, none) else none)
  | .pure _ => none

/-- `preds_insert`, 860-864. -/
def Node.predsInsert (n : Node V) (e : Effect) (l : Loc) (d : Option (Dep V)) : Option (Node V) :=
  match n with
  | .mut nd => some (.mut { nd with preds := nd.preds ++ [⟨l, e, d⟩] })
  | .comp nd => some (.comp { nd with preds := nd.preds ++ [⟨l, e, d⟩] })
  | .pure _ => none

/-- `preds_remove`, 865-869: drops every predecessor edge from `l`, whatever its effect. -/
def Node.predsRemove (n : Node V) (l : Loc) : Option (Node V) :=
  match n with
  | .mut nd => some (.mut { nd with preds := nd.preds.filter fun p => decide (p.loc ≠ l) })
  | .comp nd => some (.comp { nd with preds := nd.preds.filter fun p => decide (p.loc ≠ l) })
  | .pure _ => none

/-- The successor edges of a node (`succs`, 878-882); empty for cells. -/
def Node.succsList : Node V → List (Succ V)
  | .comp nd => nd.succs
  | _ => []

/-! ### Edges -/

/-- An edge for effect `eff` to `tgt`. -/
def Succ.matches (eff : Effect) (tgt : Loc) (e : Succ V) : Bool := decide (e.effect = eff ∧ e.loc = tgt)

/-- Set the dirty bit of the first edge for `(eff, tgt)`: the edge returned by `get_succ_mut`, 1296-1304. -/
def setFirst (eff : Effect) (tgt : Loc) (b : Bool) : List (Succ V) → List (Succ V)
  | [] => []
  | e :: es => if e.matches eff tgt then { e with dirty := b } :: es else e :: setFirst eff tgt b es

/-- `get_succ_mut(st,src,eff,tgt).dirty`, 1296-1304. -/
def succDirty (src : Loc) (eff : Effect) (tgt : Loc) : M V Bool := do
  let n ← lookupAbs src
  match n with
  | .comp nd =>
    match nd.succs.find? (Succ.matches eff tgt) with
    | some e => pure e.dirty
    | none => M.panic .tgtDangling
  | _ => M.panic .noSuccs

/-- `get_succ_mut(st,src,eff,tgt).dirty = b`, 1296-1304. -/
def setSuccDirty (src : Loc) (eff : Effect) (tgt : Loc) (b : Bool) : M V Unit := do
  let n ← lookupAbs src
  match n with
  | .comp nd =>
    match nd.succs.find? (Succ.matches eff tgt) with
    | some _ => putNode src (.comp { nd with succs := setFirst eff tgt b nd.succs })
    | none => M.panic .tgtDangling
  | _ => M.panic .noSuccs

/-- Body of the loop of `revoke_succs`, 1267-1271: `lookup_abs(st,&succ.loc).preds_remove(src)`. -/
def removePred (src tgt : Loc) : M V Unit := do
  evEff .remove (some src) tgt
  let n ← lookupAbs tgt
  match n.predsRemove src with
  | some n' => putNode tgt n'
  | none => M.panic .purePreds

/-- `revoke_succs`, 1265-1272. -/
def revokeSuccs (src : Loc) : List (Succ V) → M V Unit
  | [] => pure ()
  | e :: es => do
    removePred src e.loc
    revokeSuccs src es

/-- Push an edge on the top frame (`st.stack.last_mut()` … `frame.succs.push`), e.g. 1604-1613, 2071-2078. -/
def recordEdge (e : Succ V) (d : Option (Dep V)) : M V Unit :=
  M.modify fun s =>
    match s.stack with
    | [] => s
    | fr :: rest => { s with stack := { fr with succs := fr.succs ++ [(e, d)] } :: rest }

/-! ### Dirtying -/

/-- `check_force_map_dep`, 1164-1180: has the mapped value changed? -/
def checkForceMapDep (ty : Ty) (f : V → V) (res : V) (l : Loc) : M V Bool := do
  let n ← resNode ty l
  match n with
  | .mut nd => pure (decide (¬ res ≈ᵤ f nd.val))
  | _ => M.panic .mapOnNonCell

/-- The pre-test of `dirty_pred_observers`, 1309-1312: should dirtying stop at this observer?
`none` dependency: never.  Otherwise `dep.is_absmap() != None || dep.dirty(st,loc).changed == false`. -/
def dirtyStop (d : Option (Dep V)) (l : Loc) : M V Bool :=
  match d with
  | none => pure false
  | some .forceAbs => pure true
  | some (.forceMap ty f res) => do let ch ← checkForceMapDep ty f res l; pure (!ch)
  | some _ => pure false

/-- Loop body of `dirty_pred_observers`, 1308-1326, for the observer `p` of `l`; `rec` is the recursive call. -/
def dirtyObserver (rec : Loc → M V Unit) (l p : Loc) (d : Option (Dep V)) : M V Unit := do
  let stop1 ← dirtyStop d l
  if stop1 then pure ()
  else
    let b ← succDirty p .observe l
    if b then pure ()
    else
      if p = l then M.panic .selfEdge
      else
        evBegin .dirty (some p) l
        setSuccDirty p .observe l true
        rec p
        evEnd

/-- The loop of `dirty_pred_observers`, 1308-1326, over the remaining observers of `l`. -/
def dirtyLoop (rec : Loc → M V Unit) (l : Loc) : List (Loc × Option (Dep V)) → M V Unit
  | [] => pure ()
  | (p, d) :: rest => do
    dirtyObserver rec l p d
    dirtyLoop rec l rest

/-- `dirty_pred_observers`, 1306-1327, with explicit fuel (see `dirtyPreds_fuel`: the fuel used by
`dirtyPredsTop` never runs out). -/
def dirtyPreds : Nat → Loc → M V Unit
  | 0, _ => fun _ => .oof
  | k + 1, l => do
    let n ← lookupAbs l
    match n.predsObs with
    | some ps => dirtyLoop (dirtyPreds k) l ps
    | none => M.panic .purePreds

/-- Number of clean edges in a list. -/
def cleanCount : List (Succ V) → Nat
  | [] => 0
  | e :: es => (if e.dirty then 0 else 1) + cleanCount es

/-- Number of clean edges in a table. -/
def tableClean : Table V → Nat
  | [] => 0
  | (_, n) :: t => cleanCount n.succsList + tableClean t

/-- `dirty_pred_observers` as called by the engine. -/
def dirtyPredsTop (l : Loc) : M V Unit := fun s => dirtyPreds (tableClean s.table + 1) l s

/-- Loop body over allocators in `dirty_alloc`, 1333-1347. -/
def dirtyAllocator (l p : Loc) : M V Unit := do
  let b ← succDirty p .allocate l
  if b then pure ()
  else
    setSuccDirty p .allocate l true
    if p = l then M.panic .selfEdge
    else
      evBegin .dirty (some p) l
      dirtyPredsTop p
      evEnd

/-- Loop over allocators in `dirty_alloc`, 1333-1347. -/
def dirtyAllocLoop (l : Loc) : List Loc → M V Unit
  | [] => pure ()
  | p :: rest => do
    dirtyAllocator l p
    dirtyAllocLoop l rest

/-- `dirty_alloc`, 1330-1351. -/
def dirtyAlloc (l : Loc) : M V Unit := do
  dirtyPredsTop l
  let n ← lookupAbs l
  match n.predsAlloc with
  | some ps => dirtyAllocLoop l ps
  | none => M.panic .purePreds

/-- `set_`, 1366-1401. -/
def setCell (ty : Ty) (l : Loc) (v : V) : M V Unit := do
  let n ← resNode ty l
  match n with
  | .mut nd =>
    if nd.val ≈ᵤ v then pure ()
    else
      putNode l (.mut { nd with val := v })
      dirtyAlloc l
  | _ => M.panic .setNonCell

/-! ### Allocation -/

/-- `DCG::set`, 1620-1625. -/
def opSet (ty : Ty) (l : Loc) (v : V) : M V Unit := do
  let s ← M.get
  if s.stack.isEmpty then setCell ty l v else M.panic .setInThunk

/-- `check_cell_change` inside the trace macro, 1354-1363: does the allocation change the content? -/
def cellDiff (n : Node V) (v : V) : Bool :=
  match n with
  | .mut nd => decide (¬ nd.val ≈ᵤ v)
  | _ => true

/-- The part of `DCG::cell` that changes the table, 1552-1601: `set_` on an existing cell, dirtying and revoking on an
existing thunk (which stays a thunk), nothing on an existing pure value, insertion otherwise. -/
def cellTable (ty : Ty) (l : Loc) (v : V) (isPure : Bool) : M V Unit := do
  let s ← M.get
  match s.table.get l with
  | none => do
    evBegin (.alloc .locFresh .refCell) (topLoc s) l
    evEnd
    putNode l (if isPure then .pure ⟨ty, v⟩ else .mut ⟨ty, [], v⟩)
  | some _ => do
    let n ← resNode ty l
    evBegin (.alloc (.locExists (cellDiff n v)) .refCell) (topLoc s) l
    match n with
    | .mut _ => do
      setCell ty l v
      evEnd
    | .comp nd => do
      dirtyAlloc l
      revokeSuccs l nd.succs
      evEnd
    | .pure _ => evEnd

/-- The last part of `DCG::cell`, 1602-1613: record the allocation edge on the top frame unless the cell is pure. -/
def cellRecord (l : Loc) (v : V) (isPure : Bool) : M V Unit :=
  if isPure then pure () else recordEdge ⟨false, l, .allocate, .allocCell v⟩ none

/-- `DCG::cell`, 1533-1618. -/
def opCell (env : Env V) (ty : Ty) (nm : Name) (v : V) : M V Loc := do
  let s ← M.get
  let isPure := s.ignoreNominal && s.purity
  let id := if s.ignoreNominal then ArtId.structural (env.hashVal v) else ArtId.nominal nm
  let l : Loc := ⟨s.path, id⟩
  cellTable ty l v isPure
  cellRecord l v isPure
  pure l

/-- The `NameChoice::Structural` case of `DCG::thunk`, 1656-1694. -/
def thunkStructural (env : Env V) (ty : Ty) (pp : ProgPt) (fn : FnId) (arg : V) : M V Loc := do
  let s ← M.get
  let l : Loc := ⟨s.path, .structural (env.hashApp pp arg)⟩
  match s.table.get l with
  | some _ => pure l
  | none =>
    recordEdge ⟨false, l, .allocate, .allocStruct⟩ none
    putNode l (.comp ⟨ty, [], [], pp, fn, arg, none⟩)
    pure l

/-- The `NameChoice::Nominal` case of `DCG::thunk`, 1695-1811. -/
def thunkNominal (ty : Ty) (n : Name) (pp : ProgPt) (fn : FnId) (arg : V) : M V Loc := do
  let s ← M.get
  let l : Loc := ⟨s.path, .nominal n⟩
  match s.table.get l with
  | none =>
    evBegin (.alloc .locFresh .thunk) (topLoc s) l
    evEnd
    recordEdge ⟨false, l, .allocate, .allocNom arg⟩ none
    putNode l (.comp ⟨ty, [], [], pp, fn, arg, none⟩)
    pure l
  | some _ =>
    let nd ← resNode ty l
    match nd with
    | .pure _ => M.panic .thunkOverPure
    | .mut _ =>
      evBegin (.alloc (.locExists true) .thunk) (topLoc s) l
      dirtyAlloc l
      evEnd
      recordEdge ⟨false, l, .allocate, .allocNom arg⟩ none
      putNode l (.comp ⟨ty, [], [], pp, fn, arg, none⟩)
      pure l
    | .comp c =>
      if c.pp = pp then
        if c.arg ≈ᵤ arg then
          evBegin (.alloc (.locExists false) .thunk) (topLoc s) l
          evEnd
          recordEdge ⟨false, l, .allocate, .allocNom arg⟩ none
          pure l
        else
          putNode l (.comp { c with arg := arg, res := none })
          evBegin (.alloc (.locExists true) .thunk) (topLoc s) l
          dirtyAlloc l
          evEnd
          recordEdge ⟨false, l, .allocate, .allocNom arg⟩ none
          pure l
      else M.panic .progPtMismatch

/-- `DCG::thunk`, 1627-1812, as called by the API function `thunk` (2423-2446), which turns the `AbsArt::Rc` of
an eager choice into `unreachable!()`.  (For an eager choice the function is called first, 1645, while the engine is borrowed mutably, 2433, so that
any engine call in it panics as well; that call is left out: if it returns, the panic follows.)  In structural mode nominal choices are treated as
structural (1633-1639). -/
def opThunk (env : Env V) (ty : Ty) (nc : NameChoice) (pp : ProgPt) (fn : FnId) (arg : V) : M V Loc := do
  let s ← M.get
  match nc with
  | .eager => M.panic .eagerUnreachable
  | .naive => M.panic .naiveUnimplemented
  | .structural => thunkStructural env ty pp fn arg
  | .nominal n => if s.ignoreNominal then thunkStructural env ty pp fn arg else thunkNominal ty n pp fn arg

/-! ### Forcing, cleaning, re-evaluation (mutually recursive through user code) -/

/-- The recursive entry points; `run` is the execution of user code. -/
structure Rec (V : Type) where
  produce : Ty → Loc → M V V
  cleanForce : Ty → V → Loc → M V Bool
  run : Prog V → M V V

/-- `DCG::force`, 1944-2082, on a location. -/
def opForce (R : Rec V) (ty : Ty) (l : Loc) (cyc : Option V) : M V V := do
  let s ← M.get
  let isCycle : Bool := s.stack.any fun fr => decide (fr.loc = l)
  let isDup : Bool := match s.stack with
    | [] => false
    | fr :: _ => fr.succs.any fun p => decide (p.1.loc = l ∧ p.1.effect = .observe)
  let src := topLoc s
  let n ← resNode ty l
  let record (r : V) : M V V :=
    if isDup then pure r
    else do recordEdge ⟨false, l, .observe, .force ty r⟩ none; pure r
  match n with
  | .pure nd =>
    evEff (.force .refGet) src l
    pure nd.val
  | .mut nd =>
    evEff (.force .refGet) src l
    record nd.val
  | .comp nd =>
    let isPure : Bool := match l.id with
      | .structural _ => decide (nd.succs.length = 0) && s.purity
      | .nominal _ => false
    let fin (r : V) : M V V := if isPure then pure r else record r
    if isCycle then
      match cyc with
      | none => M.panic .unexpectedCycle
      | some out =>
        evBegin (.force .compCacheHit) src l
        evEnd
        fin out
    else
      match nd.res with
      | none =>
        evBegin (.force .compCacheMiss) src l
        if isDup then M.panic .dupMiss
        else
          let r ← R.produce ty l
          evEnd
          fin r
      | some r =>
        evBegin (.force .compCacheHit) src l
        let _ ← R.cleanForce ty r l
        evEnd
        let n' ← resNode ty l
        match n' with
        | .comp nd' =>
          match nd'.res with
          | some r' => fin r'
          | none => M.panic .resMissing
        | _ => M.panic .resMissing

/-- `DCG::force_map`, 1814-1873, on a location.  Cells are observed through the map; everything else is
forced and then mapped. -/
def opForceMap (R : Rec V) (ty : Ty) (l : Loc) (f : V → V) : M V V := do
  let s ← M.get
  let n ← resNode ty l
  match n with
  | .mut nd =>
    evEff (.force .refGet) (topLoc s) l
    let r := f nd.val
    recordEdge ⟨false, l, .observe, .forceMap ty f r⟩ (some (.forceMap ty f r))
    pure r
  | _ => do
    let v ← opForce R ty l none
    pure (f v)

/-- `DCG::force_abs`, 1879-1942, on a location; `f` is `absmapfam.map(arg,·)`. -/
def opForceAbs (R : Rec V) (ty : Ty) (l : Loc) (f : V → V) : M V V := do
  let s ← M.get
  let n ← resNode ty l
  match n with
  | .mut nd =>
    evEff (.force .refGet) (topLoc s) l
    recordEdge ⟨false, l, .observe, .forceAbs⟩ (some .forceAbs)
    pure (f nd.val)
  | _ => do
    let v ← opForce R ty l none
    pure (f v)

/-- Running user code: each public API call is the corresponding engine operation.
`ns`: 1517-1529, `structural`: 1503-1515. -/
def runProg (env : Env V) (R : Rec V) : Prog V → M V V
  | .ret v => pure v
  | .force ty l cyc k => do let v ← opForce R ty l cyc; runProg env R (k v)
  | .forceMap ty l f k => do let v ← opForceMap R ty l f; runProg env R (k v)
  | .forceAbs ty l f k => do let v ← opForceAbs R ty l f; runProg env R (k v)
  | .cell ty n v k => do let l ← opCell env ty n v; runProg env R (k l)
  | .thunk ty nc pp fn arg k => do let l ← opThunk env ty nc pp fn arg; runProg env R (k l)
  | .set ty l v k => do opSet ty l v; runProg env R k
  | .ns n body k => do
    let s ← M.get
    M.modify fun s => { s with path := .child s.path n }
    let v ← runProg env R body
    M.modify fun s' => { s' with path := s.path }
    runProg env R (k v)
  | .structural body k => do
    let s ← M.get
    M.modify fun s => { s with ignoreNominal := true }
    let v ← runProg env R body
    M.modify fun s' => { s' with ignoreNominal := s.ignoreNominal }
    runProg env R (k v)
  | .call fn arg k => do let v ← R.run (env.code fn arg); runProg env R (k v)
  | .panic => M.panic .user

/-- Loop body of 973-980: install one predecessor edge of a finished frame. -/
def installPred (l : Loc) (e : Succ V) (d : Option (Dep V)) : M V Unit :=
  if e.dirty then M.panic .dirtyFresh
  else do
    let n ← lookupAbs e.loc
    match n.predsInsert e.effect l d with
    | some n' => putNode e.loc n'
    | none => M.panic .purePreds

/-- Install the predecessor edges of a finished frame, 973-980. -/
def installPreds (l : Loc) : List (Succ V × Option (Dep V)) → M V Unit
  | [] => pure ()
  | (e, d) :: rest => do
    installPred l e d
    installPreds l rest

/-- `loc_produce`, 933-991. -/
def produceBody (env : Env V) (R : Rec V) (ty : Ty) (l : Loc) : M V V := do
  -- 937-942: take the old successors out of the node
  let n ← resNode ty l
  match n with
  | .comp nd => do
    putNode l (.comp { nd with succs := [] })
    revokeSuccs l nd.succs
    -- 943-947: push the frame, enter the thunk's namespace
    let s ← M.get
    let prevPath := s.path
    M.modify fun s => { s with stack := ⟨l, []⟩ :: s.stack, path := l.path }
    let n ← resNode ty l
    match n with
    | .comp nd => do
      -- 963: run the user's code
      M.modify fun s => { s with runs := l :: s.runs }
      let res ← R.run (env.code nd.fn nd.arg)
      -- 966-972: restore the namespace, pop the frame
      M.modify fun s => { s with path := prevPath }
      let s ← M.get
      match s.stack with
      | [] => M.panic .stackBroken
      | fr :: rest => do
        M.modify fun s => { s with stack := rest }
        if fr.loc = l then
          -- 973-988: install the new edges and the result
          installPreds l fr.succs
          let n ← resNode ty l
          match n with
          | .comp nd => do
            putNode l (.comp { nd with succs := fr.succs.map (·.1), res := some res })
            pure res
          | _ => M.panic .internal
        else M.panic .stackBroken
    | _ => M.panic .internal
  | _ => M.panic .noSuccs

/-- `succ_dep.clean(g, loc)`: the `clean` methods of the `DCGDep` implementations
(1034, 1042, 1050, 1145-1152, 1192-1194, 1220). Result: changed? -/
def cleanDep (R : Rec V) (d : Dep V) (l : Loc) : M V Bool :=
  match d with
  | .allocStruct => pure false
  | .allocNom _ => pure true
  | .allocCell _ => pure true
  | .force ty res => R.cleanForce ty res l
  | .forceMap ty f res => checkForceMapDep ty f res l
  | .forceAbs => pure true

/-- The loop of `clean_comp`, 999-1024, over the successors as they were when cleaning started.
`some ch`: the thunk was re-evaluated, with changed-bit `ch`; `none`: every edge was found clean. -/
def cleanLoop (R : Rec V) (ty : Ty) (res : V) (l : Loc) : List (Succ V) → M V (Option Bool)
  | [] => pure none
  | e :: es => do
    let d ← succDirty l e.effect e.loc
    if d then
      evBegin .cleanRec (some l) e.loc
      let ch ← cleanDep R e.dep e.loc
      if ch then
        evBegin .cleanEval (some l) e.loc
        let result ← R.produce ty l
        evEnd
        evEnd
        pure (some (decide (¬ result ≈ᵤ res)))
      else
        setSuccDirty l e.effect e.loc false
        evEff .cleanEdge (some l) e.loc
        evEnd
        cleanLoop R ty res l es
    else cleanLoop R ty res l es

/-- `ForceDep::clean`, 1220-1258, with `clean_comp`, 994-1027. -/
def cleanForceBody (R : Rec V) (ty : Ty) (res : V) (l : Loc) : M V Bool := do
  let n ← resNode ty l
  match n with
  | .pure _ => pure false
  | .mut nd => pure (decide (¬ nd.val ≈ᵤ res))
  | .comp nd =>
    match nd.res with
    | some cache => do
      let r ← cleanLoop R ty res l nd.succs
      match r with
      | some ch => pure ch
      | none => pure (decide (¬ res ≈ᵤ cache))
    | none => do
      evBegin .cleanEval none l
      let r ← R.produce ty l
      evEnd
      pure (decide (¬ res ≈ᵤ r))

/-- One unfolding of the recursion. -/
def step (env : Env V) (R : Rec V) : Rec V where
  produce := produceBody env R
  cleanForce := cleanForceBody R
  run := runProg env R

/-- The recursion with recursion depth at most `n`. -/
def recN (env : Env V) : Nat → Rec V
  | 0 => ⟨fun _ _ _ => .oof, fun _ _ _ _ => .oof, fun _ _ => .oof⟩
  | n + 1 => step env (recN env n)

/-- `DCG::new`, 1483-1501, with the flags that the environment variables select. -/
def initSt (purity ignoreNominal : Bool) : St V :=
  { table := [], stack := [], path := .empty, purity := purity, ignoreNominal := ignoreNominal, log := [], runs := [] }

/-- Run a program (editor code if the stack is empty) with recursion depth at most `n`. -/
def exec (env : Env V) (n : Nat) (p : Prog V) (s : St V) : Out V V := runProg env (recN env n) p s

/-- Sessions: the editor runs one program after the other (at the top level, empty stack), collecting the results. -/
def runSession (env : Env V) (n : Nat) : List (Prog V) → M V (List V)
  | [] => pure []
  | p :: ps => do
    let v ← exec env n p
    let vs ← runSession env n ps
    pure (v :: vs)

end Adapton
