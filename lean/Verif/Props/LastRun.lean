import Verif.Props.Deps
/-
C12: dependencies follow the last run.  Part (a): the dependencies recorded for a thunk are those of its latest run.
-/
set_option linter.unusedSectionVars false
set_option linter.unusedVariables false
set_option linter.unusedSimpArgs false
namespace Adapton
variable {V : Type} [UEq V]

/-! ### Specification -/

/-- A call that user code makes on the engine and that can make it depend on a location. -/
inductive Call (V : Type) where
  | force (ty : Ty) (l : Loc) (v : V)
  | forceMap (ty : Ty) (l : Loc) (f : V → V) (v : V)
  | forceAbs (l : Loc)
  | cell (l : Loc) (v : V)
  | thunk (nc : NameChoice) (l : Loc) (arg : V)

/-- The run of a program from a state, listing the calls it makes itself (not those made by thunks that it forces), each with
the state in which it was made and what it returned. -/
inductive Calls (env : Env V) : Prog V → St V → List (St V × Call V) → V → St V → Prop
  | ret {v s} : Calls env (.ret v) s [] v s
  | force {ty l cyc k s n v s1 cs r s'} : exec env n (.force ty l cyc .ret) s = .ok v s1 → Calls env (k v) s1 cs r s' →
      Calls env (.force ty l cyc k) s ((s, .force ty l v) :: cs) r s'
  | forceMap {ty l f k s n v s1 cs r s'} : exec env n (.forceMap ty l f .ret) s = .ok v s1 → Calls env (k v) s1 cs r s' →
      Calls env (.forceMap ty l f k) s ((s, .forceMap ty l f v) :: cs) r s'
  | forceAbs {ty l f k s n v s1 cs r s'} : exec env n (.forceAbs ty l f .ret) s = .ok v s1 → Calls env (k v) s1 cs r s' →
      Calls env (.forceAbs ty l f k) s ((s, .forceAbs l) :: cs) r s'
  | cell {ty nm v k s l s1 cs r s'} : opCell env ty nm v s = .ok l s1 → Calls env (k l) s1 cs r s' →
      Calls env (.cell ty nm v k) s ((s, .cell l v) :: cs) r s'
  | thunk {ty nc pp fn arg k s l s1 cs r s'} : opThunk env ty nc pp fn arg s = .ok l s1 → Calls env (k l) s1 cs r s' →
      Calls env (.thunk ty nc pp fn arg k) s ((s, .thunk nc l arg) :: cs) r s'
  | set {ty l v k s s1 cs r s'} : opSet ty l v s = .ok () s1 → Calls env k s1 cs r s' → Calls env (.set ty l v k) s cs r s'
  | ns {nm body k s cs1 v s1 cs2 r s'} : Calls env body { s with path := .child s.path nm } cs1 v s1 →
      Calls env (k v) { s1 with path := s.path } cs2 r s' → Calls env (.ns nm body k) s (cs1 ++ cs2) r s'
  | structural {body k s cs1 v s1 cs2 r s'} : Calls env body { s with ignoreNominal := true } cs1 v s1 →
      Calls env (k v) { s1 with ignoreNominal := s.ignoreNominal } cs2 r s' → Calls env (.structural body k) s (cs1 ++ cs2) r s'
  | call {fn arg k s cs1 v s1 cs2 r s'} : Calls env (env.code fn arg) s cs1 v s1 → Calls env (k v) s1 cs2 r s' →
      Calls env (.call fn arg k) s (cs1 ++ cs2) r s'

/-- The dependency `e` is one that the call accounts for, with the value that the call saw. -/
inductive Justifies : Call V → Succ V → Prop
  | force {ty l v} : Justifies (.force ty l v) ⟨false, l, .observe, .force ty v⟩
  | forceMap {ty l f v} : Justifies (.forceMap ty l f v) ⟨false, l, .observe, .forceMap ty f v⟩
  | forceMapThunk {ty l f v} : Justifies (.forceMap ty l f (f v)) ⟨false, l, .observe, .force ty v⟩
  | forceAbs {l} : Justifies (.forceAbs l) ⟨false, l, .observe, .forceAbs⟩
  | forceAbsThunk {ty l v} : Justifies (.forceAbs l) ⟨false, l, .observe, .force ty v⟩
  | cell {l v} : Justifies (.cell l v) ⟨false, l, .allocate, .allocCell v⟩
  | thunk {nc l arg} : Justifies (.thunk nc l arg) ⟨false, l, .allocate, .allocNom arg⟩
  | thunkStruct {nc l arg} : Justifies (.thunk nc l arg) ⟨false, l, .allocate, .allocStruct⟩

/-- `l` holds something whose observation is always recorded: a cell, or a thunk with a name. (Not a pure value; and the
purity optimisation skips some structural thunks.) -/
def Tracked (t : Table V) (l : Loc) : Prop :=
  (∃ nd, t.get l = some (.mut nd)) ∨ (∃ nd nm, t.get l = some (.comp nd) ∧ l.id = .nominal nm)

/-- The call must be recorded, as an effect of this kind on this location. -/
inductive MustRecord : St V × Call V → Effect → Loc → Prop
  | force {s ty l v} : Tracked s.table l → MustRecord (s, .force ty l v) .observe l
  | forceMap {s ty l f v} : Tracked s.table l → MustRecord (s, .forceMap ty l f v) .observe l
  | forceAbs {s l} : Tracked s.table l → MustRecord (s, .forceAbs l) .observe l
  | cell {s l v} : ¬ (s.ignoreNominal = true ∧ s.purity = true) → MustRecord (s, .cell l v) .allocate l
  | thunk {s nm l arg} : s.ignoreNominal = false → MustRecord (s, .thunk (.nominal nm) l arg) .allocate l
  | thunkNew {s nc l arg} : s.table.get l = none → MustRecord (s, .thunk nc l arg) .allocate l

/-- The recorded dependencies are those of the calls. -/
structure DepsOf (cs : List (St V × Call V)) (es : List (Succ V)) : Prop where
  sound : ∀ e ∈ es, ∃ c ∈ cs, Justifies c.2 e
  complete : ∀ c ∈ cs, ∀ eff l, MustRecord c eff l → ∃ e ∈ es, e.effect = eff ∧ e.loc = l

/-! ### Each call extends the running frame -/

/-- From `s` to `s'` the running frame was extended by edges that the calls justify. -/
structure Recorded (s s' : St V) (me : Loc) (fs : List (Succ V × Option (Dep V))) (K : List (Frame V)) (cs : List (St V × Call V))
    (new : List (Succ V × Option (Dep V))) : Prop where
  stack : s'.stack = ⟨me, fs ++ new⟩ :: K
  sound : ∀ q ∈ new, ∃ c ∈ cs, Justifies c.2 q.1
  complete : ∀ c ∈ cs, ∀ eff l, MustRecord c eff l → ∃ q ∈ fs ++ new, q.1.effect = eff ∧ q.1.loc = l

theorem Recorded.nil {s s' : St V} {me fs K} (h : s'.stack = ⟨me, fs⟩ :: K) : Recorded s s' me fs K [] [] :=
  ⟨by rw [List.append_nil]; exact h, fun q hq => (by cases hq), fun c hc => (by cases hc)⟩

theorem Recorded.append {s s1 s2 : St V} {me fs K cs1 cs2 n1 n2} (h1 : Recorded s s1 me fs K cs1 n1)
    (h2 : Recorded s1 s2 me (fs ++ n1) K cs2 n2) : Recorded s s2 me fs K (cs1 ++ cs2) (n1 ++ n2) := by
  refine ⟨by rw [h2.stack, List.append_assoc], ?_, ?_⟩
  · intro q hq
    rcases List.mem_append.1 hq with hq | hq
    · obtain ⟨c, hc, hj⟩ := h1.sound q hq
      exact ⟨c, List.mem_append_left _ hc, hj⟩
    · obtain ⟨c, hc, hj⟩ := h2.sound q hq
      exact ⟨c, List.mem_append_right _ hc, hj⟩
  · intro c hc eff l hm
    rcases List.mem_append.1 hc with hc | hc
    · obtain ⟨q, hq, hj⟩ := h1.complete c hc eff l hm
      exact ⟨q, by rw [← List.append_assoc]; exact List.mem_append_left _ hq, hj⟩
    · obtain ⟨q, hq, hj⟩ := h2.complete c hc eff l hm
      exact ⟨q, by rw [← List.append_assoc]; exact hq, hj⟩

theorem recordEdge_frame {e : Succ V} {d : Option (Dep V)} {s s' : St V} {u : Unit} {me fs K} (hs : s.stack = ⟨me, fs⟩ :: K)
    (h : recordEdge e d s = .ok u s') : s'.stack = ⟨me, fs ++ [(e, d)]⟩ :: K := by
  unfold recordEdge at h
  rw [M.modify_def] at h
  simp only [hs] at h
  cases h; rfl

theorem record_frame {ty : Ty} {l : Loc} {r v : V} {s s1 s' : St V} {me fs K} (hs : s.stack = ⟨me, fs⟩ :: K)
    (hs1 : s1.stack = ⟨me, fs⟩ :: K)
    (h : (if dupOf s l then (Pure.pure r : M V V) else do
      recordEdge ⟨false, l, .observe, .force ty r⟩ none; Pure.pure r) s1 = .ok v s') :
    v = r ∧ ∃ new, s'.stack = ⟨me, fs ++ new⟩ :: K ∧ (∀ q ∈ new, q.1 = ⟨false, l, .observe, .force ty r⟩) ∧
      ∃ q ∈ fs ++ new, q.1.effect = .observe ∧ q.1.loc = l := by
  rcases hd : dupOf s l with _ | _ <;> rw [hd] at h
  · simp only [Bool.false_eq_true, if_false] at h
    obtain ⟨_, s2, h2, h⟩ := M.bind_inv h
    cases h
    refine ⟨rfl, [(⟨false, l, .observe, .force ty r⟩, none)], recordEdge_frame hs1 h2, ?_, ?_⟩
    · intro q hq; rw [List.mem_singleton.1 hq]
    · exact ⟨_, List.mem_append_right _ (List.mem_singleton.2 rfl), rfl, rfl⟩
  · simp only [if_true] at h
    cases h
    refine ⟨rfl, [], by rw [List.append_nil]; exact hs1, fun q hq => (by cases hq), ?_⟩
    unfold dupOf at hd
    rw [hs] at hd
    simp only [List.any_eq_true] at hd
    obtain ⟨q, hq, hq2⟩ := hd
    have hq2 : q.1.loc = l ∧ q.1.effect = .observe := by simpa using hq2
    exact ⟨q, List.mem_append_left _ hq, hq2.2, hq2.1⟩

theorem opForce_frame {R : Rec V} (hR : RGen R) {ty : Ty} {l : Loc} {cyc : Option V} {v : V} {s s' : St V} {me fs K}
    (hs : s.stack = ⟨me, fs⟩ :: K) (h : opForce R ty l cyc s = .ok v s') :
    ∃ new, s'.stack = ⟨me, fs ++ new⟩ :: K ∧ (∀ q ∈ new, q.1 = ⟨false, l, .observe, .force ty v⟩) ∧
      (Tracked s.table l → ∃ q ∈ fs ++ new, q.1.effect = .observe ∧ q.1.loc = l) := by
  unfold opForce at h
  rw [M.bind_ok (M.get_def s)] at h
  replace h := M.bind_inv h
  obtain ⟨n, s1, h1, h⟩ := h
  obtain ⟨rfl, g1, g2⟩ := resNode_inv h1
  match n with
  | .pure nd =>
    simp only [] at h
    rw [M.bind_ok (m := evEff _ _ _) rfl] at h
    cases h
    refine ⟨[], by rw [List.append_nil]; exact hs, fun q hq => (by cases hq), ?_⟩
    rintro (⟨nd', h⟩ | ⟨nd', nm, h, _⟩) <;> rw [g1] at h <;> cases h
  | .mut nd =>
    simp only [] at h
    rw [M.bind_ok (m := evEff _ _ _) rfl] at h
    obtain ⟨rfl, new, k1, k2, k3⟩ := record_frame (s1 := { s1 with log := .eff (.force .refGet) (topLoc s1) l :: s1.log }) hs hs h
    exact ⟨new, k1, k2, fun _ => k3⟩
  | .comp nd =>
    have hfin : ∀ (r : V) (s2 : St V), s2.stack = s1.stack → ∀ s',
        ((if (match l.id with
            | .structural _ => decide (nd.succs.length = 0) && s1.purity
            | .nominal _ => false) then (Pure.pure r : M V V) else (if dupOf s1 l then (Pure.pure r : M V V) else do
          recordEdge ⟨false, l, .observe, .force ty r⟩ none; Pure.pure r)) s2) = .ok v s' →
        ∃ new, s'.stack = ⟨me, fs ++ new⟩ :: K ∧ (∀ q ∈ new, q.1 = ⟨false, l, .observe, .force ty v⟩) ∧
          (Tracked s1.table l → ∃ q ∈ fs ++ new, q.1.effect = .observe ∧ q.1.loc = l) := by
      intro r s2 hs2 s' h
      by_cases hc : (match l.id with
            | .structural _ => decide (nd.succs.length = 0) && s1.purity
            | .nominal _ => false) = true
      · rw [if_pos hc] at h
        cases h
        refine ⟨[], by rw [List.append_nil, hs2]; exact hs, fun q hq => (by cases hq), ?_⟩
        rintro (⟨nd', h⟩ | ⟨nd', nm, h, hid⟩)
        · rw [g1] at h; cases h
        · rw [hid] at hc; cases hc
      · rw [if_neg hc] at h
        obtain ⟨rfl, new, k1, k2, k3⟩ := record_frame hs (hs2.trans hs) h
        exact ⟨new, k1, k2, fun _ => k3⟩
    simp only [] at h
    rcases hcyc : (s1.stack.any fun fr => decide (fr.loc = l)) with _ | _ <;> rw [hcyc] at h
    · simp only [Bool.false_eq_true, if_false] at h
      rcases hres : nd.res with _ | r
      · simp only [hres] at h
        rw [M.bind_ok (m := evBegin _ _ _) rfl] at h
        change (if dupOf s1 l = true then M.panic .dupMiss else _) _ = _ at h
        rcases hd : dupOf s1 l with _ | _
        · rw [if_neg (by rw [hd]; simp)] at h
          obtain ⟨r, s3, g3, h⟩ := M.bind_inv h
          rw [M.bind_ok (m := evEnd) rfl] at h
          have := hR.produce ty l { s1 with log := .begin (.force .compCacheMiss) (topLoc s1) l :: s1.log }
          rw [g3] at this
          have hst := Ok.stackEq (show Ok true 0 0 { s1 with log := .begin (.force .compCacheMiss) (topLoc s1) l :: s1.log } s3 from this)
          exact hfin r { s3 with log := .end_ :: s3.log } hst s' h
        · rw [if_pos hd] at h; cases h
      · simp only [hres] at h
        rw [M.bind_ok (m := evBegin _ _ _) rfl] at h
        obtain ⟨b, s3, g3, h⟩ := M.bind_inv h
        rw [M.bind_ok (m := evEnd) rfl] at h
        obtain ⟨n', s4, g4, h⟩ := M.bind_inv h
        obtain ⟨rfl, k1, k2⟩ := resNode_inv g4
        have := hR.cleanForce ty r l { s1 with log := .begin (.force .compCacheHit) (topLoc s1) l :: s1.log }
        rw [g3] at this
        have hst := Ok.stackEq (show Ok true 0 0 { s1 with log := .begin (.force .compCacheHit) (topLoc s1) l :: s1.log } s3 from this)
        match n' with
        | .mut _ => cases h
        | .pure _ => cases h
        | .comp nd' =>
          rcases hr' : nd'.res with _ | r'
          · simp only [hr'] at h; cases h
          · simp only [hr'] at h
            exact hfin r' { s3 with log := .end_ :: s3.log } hst s' h
    · simp only [if_true] at h
      match cyc with
      | none => cases h
      | some out =>
        simp only [] at h
        rw [M.bind_ok (m := evBegin _ _ _) rfl, M.bind_ok (m := evEnd) rfl] at h
        exact hfin out { s1 with log := .end_ :: .begin (.force .compCacheHit) (topLoc s1) l :: s1.log } rfl s' h

theorem exec_force_inv {env : Env V} {n : Nat} {ty : Ty} {l : Loc} {cyc : Option V} {s s' : St V} {v : V}
    (h : exec env n (.force ty l cyc .ret) s = .ok v s') : opForce (recN env n) ty l cyc s = .ok v s' := by
  unfold exec runProg at h
  obtain ⟨a, s1, h1, h⟩ := M.bind_inv h
  cases h; exact h1

theorem exec_forceMap_inv {env : Env V} {n : Nat} {ty : Ty} {l : Loc} {f : V → V} {s s' : St V} {v : V}
    (h : exec env n (.forceMap ty l f .ret) s = .ok v s') : opForceMap (recN env n) ty l f s = .ok v s' := by
  unfold exec runProg at h
  obtain ⟨a, s1, h1, h⟩ := M.bind_inv h
  cases h; exact h1

theorem exec_forceAbs_inv {env : Env V} {n : Nat} {ty : Ty} {l : Loc} {f : V → V} {s s' : St V} {v : V}
    (h : exec env n (.forceAbs ty l f .ret) s = .ok v s') : opForceAbs (recN env n) ty l f s = .ok v s' := by
  unfold exec runProg at h
  obtain ⟨a, s1, h1, h⟩ := M.bind_inv h
  cases h; exact h1

theorem force_recorded {env : Env V} {n : Nat} {ty : Ty} {l : Loc} {cyc : Option V} {s s' : St V} {v : V} {me fs K}
    (hs : s.stack = ⟨me, fs⟩ :: K) (h : exec env n (.force ty l cyc .ret) s = .ok v s') :
    ∃ new, Recorded s s' me fs K [(s, .force ty l v)] new := by
  obtain ⟨new, h1, h2, h3⟩ := opForce_frame (recN_gen env n) hs (exec_force_inv h)
  refine ⟨new, h1, fun q hq => ⟨_, List.mem_singleton.2 rfl, ?_⟩, ?_⟩
  · rw [h2 q hq]; exact .force
  · intro c hc eff x hm
    rw [List.mem_singleton.1 hc] at hm
    cases hm with
    | force ht => exact h3 ht

theorem forceMap_recorded {env : Env V} {n : Nat} {ty : Ty} {l : Loc} {f : V → V} {s s' : St V} {v : V} {me fs K}
    (hs : s.stack = ⟨me, fs⟩ :: K) (h : exec env n (.forceMap ty l f .ret) s = .ok v s') :
    ∃ new, Recorded s s' me fs K [(s, .forceMap ty l f v)] new := by
  replace h := exec_forceMap_inv h
  unfold opForceMap at h
  rw [M.bind_ok (M.get_def s)] at h
  replace h := M.bind_inv h
  obtain ⟨n0, s1, h1, h⟩ := h
  obtain ⟨rfl, g1, g2⟩ := resNode_inv h1
  have thunkCase : ∀ w, opForce (recN env n) ty l none s1 = .ok w s' → v = f w →
      ∃ new, Recorded s1 s' me fs K [(s1, .forceMap ty l f v)] new := by
    rintro w hw rfl
    obtain ⟨new, h1, h2, h3⟩ := opForce_frame (recN_gen env n) hs hw
    refine ⟨new, h1, fun q hq => ⟨_, List.mem_singleton.2 rfl, ?_⟩, ?_⟩
    · rw [h2 q hq]; exact .forceMapThunk
    · intro c hc eff x hm
      rw [List.mem_singleton.1 hc] at hm
      cases hm with
      | forceMap ht => exact h3 ht
  match n0 with
  | .mut nd =>
    simp only [] at h
    rw [M.bind_ok (m := evEff _ _ _) rfl] at h
    obtain ⟨_, s2, h2, h⟩ := M.bind_inv h
    cases h
    refine ⟨_, recordEdge_frame (s := { s1 with log := .eff (.force .refGet) (topLoc s1) l :: s1.log }) hs h2, ?_, ?_⟩
    · intro q hq
      rw [List.mem_singleton.1 hq]
      exact ⟨_, List.mem_singleton.2 rfl, .forceMap⟩
    · intro c hc eff x hm
      rw [List.mem_singleton.1 hc] at hm
      cases hm with
      | forceMap ht => exact ⟨_, List.mem_append_right _ (List.mem_singleton.2 rfl), rfl, rfl⟩
  | .comp nd =>
    obtain ⟨w, s2, h2, h⟩ := M.bind_inv h
    cases h
    exact thunkCase w h2 rfl
  | .pure nd =>
    obtain ⟨w, s2, h2, h⟩ := M.bind_inv h
    cases h
    exact thunkCase w h2 rfl

theorem forceAbs_recorded {env : Env V} {n : Nat} {ty : Ty} {l : Loc} {f : V → V} {s s' : St V} {v : V} {me fs K}
    (hs : s.stack = ⟨me, fs⟩ :: K) (h : exec env n (.forceAbs ty l f .ret) s = .ok v s') :
    ∃ new, Recorded s s' me fs K [(s, .forceAbs l)] new := by
  replace h := exec_forceAbs_inv h
  unfold opForceAbs at h
  rw [M.bind_ok (M.get_def s)] at h
  replace h := M.bind_inv h
  obtain ⟨n0, s1, h1, h⟩ := h
  obtain ⟨rfl, g1, g2⟩ := resNode_inv h1
  have thunkCase : ∀ w, opForce (recN env n) ty l none s1 = .ok w s' →
      ∃ new, Recorded s1 s' me fs K [(s1, .forceAbs l)] new := by
    rintro w hw
    obtain ⟨new, h1, h2, h3⟩ := opForce_frame (recN_gen env n) hs hw
    refine ⟨new, h1, fun q hq => ⟨_, List.mem_singleton.2 rfl, ?_⟩, ?_⟩
    · rw [h2 q hq]; exact .forceAbsThunk
    · intro c hc eff x hm
      rw [List.mem_singleton.1 hc] at hm
      cases hm with
      | forceAbs ht => exact h3 ht
  match n0 with
  | .mut nd =>
    simp only [] at h
    rw [M.bind_ok (m := evEff _ _ _) rfl] at h
    obtain ⟨_, s2, h2, h⟩ := M.bind_inv h
    cases h
    refine ⟨_, recordEdge_frame (s := { s1 with log := .eff (.force .refGet) (topLoc s1) l :: s1.log }) hs h2, ?_, ?_⟩
    · intro q hq
      rw [List.mem_singleton.1 hq]
      exact ⟨_, List.mem_singleton.2 rfl, .forceAbs⟩
    · intro c hc eff x hm
      rw [List.mem_singleton.1 hc] at hm
      cases hm with
      | forceAbs ht => exact ⟨_, List.mem_append_right _ (List.mem_singleton.2 rfl), rfl, rfl⟩
  | .comp nd =>
    obtain ⟨w, s2, h2, h⟩ := M.bind_inv h
    cases h
    exact thunkCase w h2
  | .pure nd =>
    obtain ⟨w, s2, h2, h⟩ := M.bind_inv h
    cases h
    exact thunkCase w h2

theorem cell_recorded {env : Env V} {ty : Ty} {nm : Name} {l : Loc} {s s' : St V} {v : V} {me fs K}
    (hs : s.stack = ⟨me, fs⟩ :: K) (h : opCell env ty nm v s = .ok l s') :
    ∃ new, Recorded s s' me fs K [(s, .cell l v)] new := by
  unfold opCell at h
  rw [M.bind_ok (M.get_def s)] at h
  obtain ⟨_, s1, h1, h⟩ := M.bind_inv h
  obtain ⟨_, s2, h2, h⟩ := M.bind_inv h
  cases h
  have hg := cellTable_gen true 0 ty ⟨s.path, if s.ignoreNominal then .structural (env.hashVal v) else .nominal nm⟩ v (s.ignoreNominal && s.purity) s
  rw [h1] at hg
  have hst : s1.stack = ⟨me, fs⟩ :: K := (Ok.stackEq (show Ok true 0 0 _ s1 from hg)).trans hs
  unfold cellRecord at h2
  rcases hp : (s.ignoreNominal && s.purity) with _ | _ <;> rw [hp] at h2
  · simp only [Bool.false_eq_true, if_false] at h2
    refine ⟨_, recordEdge_frame hst h2, ?_, ?_⟩
    · intro q hq
      rw [List.mem_singleton.1 hq]
      exact ⟨_, List.mem_singleton.2 rfl, .cell⟩
    · intro c hc eff x hm
      rw [List.mem_singleton.1 hc] at hm
      cases hm with
      | cell ht => exact ⟨_, List.mem_append_right _ (List.mem_singleton.2 rfl), rfl, rfl⟩
  · simp only [if_true] at h2
    cases h2
    refine ⟨[], by rw [List.append_nil]; exact hst, fun q hq => (by cases hq), ?_⟩
    intro c hc eff x hm
    rw [List.mem_singleton.1 hc] at hm
    cases hm with
    | cell ht => exact absurd (by simpa using hp) ht

theorem thunkStructural_recorded {env : Env V} {ty : Ty} {nc : NameChoice} {pp : ProgPt} {fn : FnId} {arg : V} {l : Loc} {s s' : St V}
    {me fs K} (hs : s.stack = ⟨me, fs⟩ :: K) (hnc : ∀ nm, nc = .nominal nm → s.ignoreNominal = true)
    (h : thunkStructural env ty pp fn arg s = .ok l s') :
    ∃ new, Recorded s s' me fs K [(s, .thunk nc l arg)] new := by
  unfold thunkStructural at h
  rw [M.bind_ok (M.get_def s)] at h
  rcases hg : s.table.get (⟨s.path, .structural (env.hashApp pp arg)⟩ : Loc) with _ | n0
  · simp only [hg] at h
    obtain ⟨_, s1, h1, h⟩ := M.bind_inv h
    rw [M.bind_ok (m := putNode _ _) rfl] at h
    cases h
    have hst := recordEdge_frame hs h1
    refine ⟨_, hst, ?_, ?_⟩
    · intro q hq
      rw [List.mem_singleton.1 hq]
      exact ⟨_, List.mem_singleton.2 rfl, .thunkStruct⟩
    · intro c hc eff x hm
      rw [List.mem_singleton.1 hc] at hm
      cases hm <;> exact ⟨_, List.mem_append_right _ (List.mem_singleton.2 rfl), rfl, rfl⟩
  · simp only [hg] at h
    cases h
    refine ⟨[], by rw [List.append_nil]; exact hs, fun q hq => (by cases hq), ?_⟩
    intro c hc eff x hm
    rw [List.mem_singleton.1 hc] at hm
    cases hm with
    | thunk hi => rw [hnc _ rfl] at hi; cases hi
    | thunkNew hn => rw [hg] at hn; cases hn

theorem thunkNominal_recorded {ty : Ty} {nm : Name} {pp : ProgPt} {fn : FnId} {arg : V} {l : Loc} {s s' : St V}
    {me fs K} (hs : s.stack = ⟨me, fs⟩ :: K) (h : thunkNominal ty nm pp fn arg s = .ok l s') :
    ∃ new, Recorded s s' me fs K [(s, .thunk (.nominal nm) l arg)] new := by
  have fin : ∀ s1 s2 : St V, s1.stack = ⟨me, fs⟩ :: K →
      recordEdge ⟨false, ⟨s.path, .nominal nm⟩, .allocate, .allocNom arg⟩ none s1 = .ok () s2 → s'.stack = s2.stack →
      l = ⟨s.path, .nominal nm⟩ → ∃ new, Recorded s s' me fs K [(s, .thunk (.nominal nm) l arg)] new := by
    intro s1 s2 hs1 h1 hst hl
    refine ⟨_, hst.trans (recordEdge_frame hs1 h1), ?_, ?_⟩
    · intro q hq
      rw [List.mem_singleton.1 hq, hl]
      exact ⟨_, List.mem_singleton.2 rfl, .thunk⟩
    · intro c hc eff x hm
      rw [List.mem_singleton.1 hc] at hm
      cases hm <;> exact ⟨_, List.mem_append_right _ (List.mem_singleton.2 rfl), rfl, hl.symm⟩
  unfold thunkNominal at h
  rw [M.bind_ok (M.get_def s)] at h
  rcases hg : s.table.get (⟨s.path, .nominal nm⟩ : Loc) with _ | n0
  · simp only [hg] at h
    rw [M.bind_ok (m := evBegin _ _ _) rfl, M.bind_ok (m := evEnd) rfl] at h
    obtain ⟨_, s1, h1, h⟩ := M.bind_inv h
    rw [M.bind_ok (m := putNode _ _) rfl] at h
    cases h
    exact fin _ s1 (by exact hs) h1 rfl rfl
  · simp only [hg] at h
    replace h := M.bind_inv h
    obtain ⟨nd, s1, h1, h⟩ := h
    obtain ⟨rfl, g1, g2⟩ := resNode_inv h1
    match nd with
    | .pure _ => cases h
    | .mut _ =>
      simp only [] at h
      rw [M.bind_ok (m := evBegin _ _ _) rfl] at h
      obtain ⟨_, s2, h2, h⟩ := M.bind_inv h
      rw [M.bind_ok (m := evEnd) rfl] at h
      obtain ⟨_, s3, h3, h⟩ := M.bind_inv h
      rw [M.bind_ok (m := putNode _ _) rfl] at h
      cases h
      have hup := (dirtyAlloc_general _ _).ok h2
      exact fin _ s3 (by exact hup.stack.trans hs) h3 rfl rfl
    | .comp c =>
      simp only [] at h
      by_cases hpp : c.pp = pp
      · rw [if_pos hpp] at h
        by_cases ha : c.arg ≈ᵤ arg
        · rw [if_pos ha, M.bind_ok (m := evBegin _ _ _) rfl, M.bind_ok (m := evEnd) rfl] at h
          obtain ⟨_, s3, h3, h⟩ := M.bind_inv h
          cases h
          exact fin _ s' (by exact hs) h3 rfl rfl
        · rw [if_neg ha, M.bind_ok (m := putNode _ _) rfl, M.bind_ok (m := evBegin _ _ _) rfl] at h
          obtain ⟨_, s2, h2, h⟩ := M.bind_inv h
          rw [M.bind_ok (m := evEnd) rfl] at h
          obtain ⟨_, s3, h3, h⟩ := M.bind_inv h
          cases h
          have hup := (dirtyAlloc_general _ _).ok h2
          exact fin _ s' (by exact hup.stack.trans hs) h3 rfl rfl
      · rw [if_neg hpp] at h; cases h

theorem thunk_recorded {env : Env V} {ty : Ty} {nc : NameChoice} {pp : ProgPt} {fn : FnId} {arg : V} {l : Loc} {s s' : St V}
    {me fs K} (hs : s.stack = ⟨me, fs⟩ :: K) (h : opThunk env ty nc pp fn arg s = .ok l s') :
    ∃ new, Recorded s s' me fs K [(s, .thunk nc l arg)] new := by
  unfold opThunk at h
  rw [M.bind_ok (M.get_def s)] at h
  match nc with
  | .eager => cases h
  | .naive => cases h
  | .structural => exact thunkStructural_recorded hs (fun nm h => by cases h) h
  | .nominal nm =>
    simp only [] at h
    rcases hi : s.ignoreNominal with _ | _ <;> rw [hi] at h
    · simp only [Bool.false_eq_true, if_false] at h
      exact thunkNominal_recorded hs h
    · simp only [if_true] at h
      exact thunkStructural_recorded hs (fun _ _ => hi) h

theorem opSet_stack {ty : Ty} {l : Loc} {v : V} {s s' : St V} {u : Unit} (h : opSet ty l v s = .ok u s') : s.stack = [] := by
  unfold opSet at h
  rw [M.bind_ok (M.get_def s)] at h
  cases hst : s.stack.isEmpty
  · rw [hst] at h; cases h
  · exact List.isEmpty_iff.1 hst

/-- A run records, on the frame it runs in, the dependencies of its calls. -/
theorem Calls.recorded {env : Env V} {p : Prog V} {s s' : St V} {cs r} (h : Calls env p s cs r s') :
    ∀ me fs K, s.stack = ⟨me, fs⟩ :: K → ∃ new, Recorded s s' me fs K cs new := by
  induction h with
  | ret => intro me fs K hs; exact ⟨[], Recorded.nil hs⟩
  | force h1 _ ih =>
    intro me fs K hs
    obtain ⟨n1, r1⟩ := force_recorded hs h1
    obtain ⟨n2, r2⟩ := ih me _ K r1.stack
    exact ⟨_, r1.append r2⟩
  | forceMap h1 _ ih =>
    intro me fs K hs
    obtain ⟨n1, r1⟩ := forceMap_recorded hs h1
    obtain ⟨n2, r2⟩ := ih me _ K r1.stack
    exact ⟨_, r1.append r2⟩
  | forceAbs h1 _ ih =>
    intro me fs K hs
    obtain ⟨n1, r1⟩ := forceAbs_recorded hs h1
    obtain ⟨n2, r2⟩ := ih me _ K r1.stack
    exact ⟨_, r1.append r2⟩
  | cell h1 _ ih =>
    intro me fs K hs
    obtain ⟨n1, r1⟩ := cell_recorded hs h1
    obtain ⟨n2, r2⟩ := ih me _ K r1.stack
    exact ⟨_, r1.append r2⟩
  | thunk h1 _ ih =>
    intro me fs K hs
    obtain ⟨n1, r1⟩ := thunk_recorded hs h1
    obtain ⟨n2, r2⟩ := ih me _ K r1.stack
    exact ⟨_, r1.append r2⟩
  | set h1 _ ih =>
    intro me fs K hs
    rw [opSet_stack h1] at hs; cases hs
  | @ns nm body k s cs1 v s1 cs2 r s' _ _ ih1 ih2 =>
    intro me fs K hs
    obtain ⟨n1, r1⟩ := ih1 me fs K hs
    obtain ⟨n2, r2⟩ := ih2 me _ K r1.stack
    exact ⟨_, Recorded.append (s := s) (s1 := s1) ⟨r1.stack, r1.sound, r1.complete⟩ ⟨r2.stack, r2.sound, r2.complete⟩⟩
  | @structural body k s cs1 v s1 cs2 r s' _ _ ih1 ih2 =>
    intro me fs K hs
    obtain ⟨n1, r1⟩ := ih1 me fs K hs
    obtain ⟨n2, r2⟩ := ih2 me _ K r1.stack
    exact ⟨_, Recorded.append (s := s) (s1 := s1) ⟨r1.stack, r1.sound, r1.complete⟩ ⟨r2.stack, r2.sound, r2.complete⟩⟩
  | call _ _ ih1 ih2 =>
    intro me fs K hs
    obtain ⟨n1, r1⟩ := ih1 me fs K hs
    obtain ⟨n2, r2⟩ := ih2 me _ K r1.stack
    exact ⟨_, r1.append r2⟩

/-- Every execution that returns has a list of calls. -/
theorem exec_calls (env : Env V) : ∀ (n : Nat) (p : Prog V) (s s' : St V) (r : V), exec env n p s = .ok r s' →
    ∃ cs, Calls env p s cs r s' := by
  intro n
  induction n with
  | zero =>
    intro p
    induction p with
    | call fn arg k ih =>
      intro s s' r h
      unfold exec runProg at h
      obtain ⟨v, s1, h1, h⟩ := M.bind_inv h
      cases h1
    | ret v => intro s s' r h; cases h; exact ⟨_, .ret⟩
    | force ty l cyc k ih =>
      intro s s' r h
      unfold exec runProg at h
      obtain ⟨v, s1, h1, h⟩ := M.bind_inv h
      obtain ⟨cs, hc⟩ := ih v s1 s' r h
      exact ⟨_, .force (exec_force env 0 _ _ _ _ _ _ h1) hc⟩
    | forceMap ty l f k ih =>
      intro s s' r h
      unfold exec runProg at h
      obtain ⟨v, s1, h1, h⟩ := M.bind_inv h
      obtain ⟨cs, hc⟩ := ih v s1 s' r h
      exact ⟨_, .forceMap (n := 0) (by unfold exec runProg; rw [M.bind_ok h1]; rfl) hc⟩
    | forceAbs ty l f k ih =>
      intro s s' r h
      unfold exec runProg at h
      obtain ⟨v, s1, h1, h⟩ := M.bind_inv h
      obtain ⟨cs, hc⟩ := ih v s1 s' r h
      exact ⟨_, .forceAbs (n := 0) (by unfold exec runProg; rw [M.bind_ok h1]; rfl) hc⟩
    | cell ty nm v k ih =>
      intro s s' r h
      unfold exec runProg at h
      obtain ⟨l, s1, h1, h⟩ := M.bind_inv h
      obtain ⟨cs, hc⟩ := ih l s1 s' r h
      exact ⟨_, .cell h1 hc⟩
    | thunk ty nc pp fn arg k ih =>
      intro s s' r h
      unfold exec runProg at h
      obtain ⟨l, s1, h1, h⟩ := M.bind_inv h
      obtain ⟨cs, hc⟩ := ih l s1 s' r h
      exact ⟨_, .thunk h1 hc⟩
    | set ty l v k ih =>
      intro s s' r h
      unfold exec runProg at h
      obtain ⟨_, s1, h1, h⟩ := M.bind_inv h
      obtain ⟨cs, hc⟩ := ih s1 s' r h
      exact ⟨_, .set h1 hc⟩
    | ns nm body k ihb ihk =>
      intro s s' r h
      unfold exec runProg at h
      rw [M.bind_ok (M.get_def s), M.bind_ok (m := M.modify _) rfl] at h
      obtain ⟨v, s1, h1, h⟩ := M.bind_inv h
      rw [M.bind_ok (m := M.modify _) rfl] at h
      obtain ⟨cs1, hc1⟩ := ihb _ s1 v h1
      obtain ⟨cs2, hc2⟩ := ihk v _ s' r h
      exact ⟨_, .ns hc1 hc2⟩
    | structural body k ihb ihk =>
      intro s s' r h
      unfold exec runProg at h
      rw [M.bind_ok (M.get_def s), M.bind_ok (m := M.modify _) rfl] at h
      obtain ⟨v, s1, h1, h⟩ := M.bind_inv h
      rw [M.bind_ok (m := M.modify _) rfl] at h
      obtain ⟨cs1, hc1⟩ := ihb _ s1 v h1
      obtain ⟨cs2, hc2⟩ := ihk v _ s' r h
      exact ⟨_, .structural hc1 hc2⟩
    | panic => intro s s' r h; cases h
  | succ n ihn =>
    intro p
    induction p with
    | call fn arg k ih =>
      intro s s' r h
      unfold exec runProg at h
      obtain ⟨v, s1, h1, h⟩ := M.bind_inv h
      obtain ⟨cs1, hc1⟩ := ihn (env.code fn arg) s s1 v h1
      obtain ⟨cs2, hc2⟩ := ih v s1 s' r h
      exact ⟨_, .call hc1 hc2⟩
    | ret v => intro s s' r h; cases h; exact ⟨_, .ret⟩
    | force ty l cyc k ih =>
      intro s s' r h
      unfold exec runProg at h
      obtain ⟨v, s1, h1, h⟩ := M.bind_inv h
      obtain ⟨cs, hc⟩ := ih v s1 s' r h
      exact ⟨_, .force (exec_force env _ _ _ _ _ _ _ h1) hc⟩
    | forceMap ty l f k ih =>
      intro s s' r h
      unfold exec runProg at h
      obtain ⟨v, s1, h1, h⟩ := M.bind_inv h
      obtain ⟨cs, hc⟩ := ih v s1 s' r h
      exact ⟨_, .forceMap (n := n + 1) (by unfold exec runProg; rw [M.bind_ok h1]; rfl) hc⟩
    | forceAbs ty l f k ih =>
      intro s s' r h
      unfold exec runProg at h
      obtain ⟨v, s1, h1, h⟩ := M.bind_inv h
      obtain ⟨cs, hc⟩ := ih v s1 s' r h
      exact ⟨_, .forceAbs (n := n + 1) (by unfold exec runProg; rw [M.bind_ok h1]; rfl) hc⟩
    | cell ty nm v k ih =>
      intro s s' r h
      unfold exec runProg at h
      obtain ⟨l, s1, h1, h⟩ := M.bind_inv h
      obtain ⟨cs, hc⟩ := ih l s1 s' r h
      exact ⟨_, .cell h1 hc⟩
    | thunk ty nc pp fn arg k ih =>
      intro s s' r h
      unfold exec runProg at h
      obtain ⟨l, s1, h1, h⟩ := M.bind_inv h
      obtain ⟨cs, hc⟩ := ih l s1 s' r h
      exact ⟨_, .thunk h1 hc⟩
    | set ty l v k ih =>
      intro s s' r h
      unfold exec runProg at h
      obtain ⟨_, s1, h1, h⟩ := M.bind_inv h
      obtain ⟨cs, hc⟩ := ih s1 s' r h
      exact ⟨_, .set h1 hc⟩
    | ns nm body k ihb ihk =>
      intro s s' r h
      unfold exec runProg at h
      rw [M.bind_ok (M.get_def s), M.bind_ok (m := M.modify _) rfl] at h
      obtain ⟨v, s1, h1, h⟩ := M.bind_inv h
      rw [M.bind_ok (m := M.modify _) rfl] at h
      obtain ⟨cs1, hc1⟩ := ihb _ s1 v h1
      obtain ⟨cs2, hc2⟩ := ihk v _ s' r h
      exact ⟨_, .ns hc1 hc2⟩
    | structural body k ihb ihk =>
      intro s s' r h
      unfold exec runProg at h
      rw [M.bind_ok (M.get_def s), M.bind_ok (m := M.modify _) rfl] at h
      obtain ⟨v, s1, h1, h⟩ := M.bind_inv h
      rw [M.bind_ok (m := M.modify _) rfl] at h
      obtain ⟨cs1, hc1⟩ := ihb _ s1 v h1
      obtain ⟨cs2, hc2⟩ := ihk v _ s' r h
      exact ⟨_, .structural hc1 hc2⟩
    | panic => intro s s' r h; cases h

/-- **C12.** Whenever the engine runs a thunk (`loc_produce`) and the run returns: the thunk's code was executed in the
thunk's namespace, with an empty frame; its value is cached; and the dependencies now recorded for the thunk are those of the
calls of this run (see `DepsOf`) — none of an earlier run is left — and all of them are clean. -/
theorem C12_deps_of_last_run (env : Env V) (n : Nat) (s s' : St V) (ty : Ty) (l : Loc) (v : V)
    (h : (recN env n).produce ty l s = .ok v s') :
    ∃ s0 cs s1 fn arg nd, s0.stack = ⟨l, []⟩ :: s.stack ∧ s0.path = l.path ∧ s0.ignoreNominal = s.ignoreNominal ∧
      s0.runs = l :: s.runs ∧ (∃ nd0, s0.table.get l = some (.comp nd0) ∧ nd0.fn = fn ∧ nd0.arg = arg ∧ nd0.succs = []) ∧
      Calls env (env.code fn arg) s0 cs v s1 ∧
      s'.table.get l = some (.comp nd) ∧ nd.res = some v ∧ DepsOf cs nd.succs ∧ (∀ e ∈ nd.succs, e.dirty = false) := by
  match n with
  | 0 => cases h
  | n + 1 =>
    have h : produceBody env (recN env n) ty l s = .ok v s' := h
    unfold produceBody at h
    replace h := M.bind_inv h
    obtain ⟨n0, s1, h1, h⟩ := h
    obtain ⟨rfl, g1, g2⟩ := resNode_inv h1
    match n0 with
    | .mut _ => cases h
    | .pure _ => cases h
    | .comp nd =>
      simp only [] at h
      rw [M.bind_ok (m := putNode _ _) rfl] at h
      replace h := M.bind_inv h
      obtain ⟨_, s2, h2, h⟩ := h
      rw [M.bind_ok (M.get_def s2), M.bind_ok (m := M.modify _) rfl] at h
      replace h := M.bind_inv h
      obtain ⟨n3, s3, h3, h⟩ := h
      obtain ⟨hs3, k1, k2⟩ := resNode_inv h3
      match n3 with
      | .mut _ => cases h
      | .pure _ => cases h
      | .comp nd3 =>
        simp only [] at h
        rw [M.bind_ok (m := M.modify _) rfl] at h
        replace h := M.bind_inv h
        obtain ⟨res, s4, h4, h⟩ := h
        rw [M.bind_ok (m := M.modify _) rfl, M.bind_ok (M.get_def _)] at h
        have hgr := revokeSuccs_gen true 0 l nd.succs { s1 with table := s1.table.put l (.comp { nd with succs := [] }) }
        rw [h2] at hgr
        have hgr : Ok true 0 0 _ s2 := hgr
        have hstk2 : s2.stack = s1.stack := hgr.stackEq
        have hruns := (revokeSuccs_runs l nd.succs { s1 with table := s1.table.put l (.comp { nd with succs := [] }) }).ok h2
        -- the node keeps its empty successors while edges are revoked
        have hsuccs : ∀ (es : List (Succ V)) (s s' : St V) (u : Unit), revokeSuccs l es s = .ok u s' →
            ∀ nd, s.table.get l = some (.comp nd) → nd.succs = [] →
            ∃ nd', s'.table.get l = some (.comp nd') ∧ nd'.succs = [] := by
          intro es
          induction es with
          | nil => intro s s' u h nd hn he; cases h; exact ⟨nd, hn, he⟩
          | cons e es ih =>
            intro s s' u h nd hn he
            unfold revokeSuccs at h
            obtain ⟨_, s1, h1, h⟩ := M.bind_inv h
            have : ∃ nd', s1.table.get l = some (.comp nd') ∧ nd'.succs = [] := by
              unfold removePred at h1
              rw [M.bind_ok (m := evEff _ _ _) rfl] at h1
              replace h1 := M.bind_inv h1
              obtain ⟨nt, s2, h2, h1⟩ := h1
              obtain ⟨rfl, j1⟩ := lookupAbs_inv h2
              rcases hp : nt.predsRemove l with _ | nt'
              · simp only [hp] at h1; cases h1
              · simp only [hp] at h1
                cases h1
                by_cases hel : e.loc = l
                · rw [hel] at j1
                  have hn' : ({ s with log := Ev.eff .remove (some l) e.loc :: s.log } : St V).table.get l = some (.comp nd) := hn
                  rw [hn'] at j1; cases j1
                  simp only [Node.predsRemove] at hp
                  cases hp
                  exact ⟨{ nd with preds := nd.preds.filter fun p => decide (p.loc ≠ l) }, by rw [hel]; exact Table.get_put_self _ _ _, he⟩
                · exact ⟨nd, by simp only [Table.get_put_ne _ _ (Ne.symm hel)]; exact hn, he⟩
            obtain ⟨nd', j1, j2⟩ := this
            exact ih s1 s' u h nd' j1 j2
        obtain ⟨nd2, j1, j2⟩ := hsuccs nd.succs _ s2 _ h2 _ (Table.get_put_self _ _ _) rfl
        have hnd3 : nd3.succs = [] := by
          have k1' : s2.table.get l = some (.comp nd3) := by simpa using k1
          rw [j1] at k1'; cases k1'; exact j2
        -- the run
        have hrun : ∃ n', exec env n' (env.code nd3.fn nd3.arg) { s3 with runs := l :: s3.runs } = .ok res s4 := by
          match n, h4 with
          | 0, h4 => cases h4
          | n + 1, h4 => exact ⟨n, h4⟩
        obtain ⟨n', hrun⟩ := hrun
        obtain ⟨cs, hcs⟩ := exec_calls env n' _ _ _ _ hrun
        have hst0 : ({ s3 with runs := l :: s3.runs } : St V).stack = ⟨l, []⟩ :: s1.stack := by
          rw [← hstk2]; rw [hs3]
        obtain ⟨new, hrec⟩ := hcs.recorded l [] s1.stack hst0
        have hst4 := hrec.stack
        simp only [List.nil_append] at hst4
        simp only [hst4] at h
        rw [M.bind_ok (m := M.modify _) rfl] at h
        simp only [if_true] at h
        replace h := M.bind_inv h
        obtain ⟨_, s5, h5, h⟩ := h
        replace h := M.bind_inv h
        obtain ⟨n6, s6, h6, h⟩ := h
        obtain ⟨hs6, m1, m2⟩ := resNode_inv h6
        match n6 with
        | .mut _ => cases h
        | .pure _ => cases h
        | .comp nd6 =>
          simp only [] at h
          rw [M.bind_ok (m := putNode _ _) rfl] at h
          cases h
          refine ⟨{ s3 with runs := l :: s3.runs }, cs, s4, nd3.fn, nd3.arg, _, hst0, ?_, ?_, ?_, ⟨nd3, ?_, rfl, rfl, hnd3⟩,
            hcs, Table.get_put_self _ _ _, rfl, ⟨?_, ?_⟩, ?_⟩
          · rw [hs3]
          · rw [hs3]; exact hgr.ign
          · rw [hs3]; show l :: s2.runs = _; rw [hruns]
          · rw [hs3]; exact k1
          · intro e he
            obtain ⟨q, hq, rfl⟩ := List.mem_map.1 he
            exact hrec.sound q hq
          · intro c hc eff x hm
            obtain ⟨q, hq, hqe⟩ := hrec.complete c hc eff x hm
            exact ⟨q.1, List.mem_map.2 ⟨q, hq, rfl⟩, hqe⟩
          · intro e he
            obtain ⟨q, hq, rfl⟩ := List.mem_map.1 he
            obtain ⟨c, hc, hj⟩ := hrec.sound q hq
            generalize q.1 = e at hj
            generalize c.2 = c0 at hj
            cases hj <;> rfl


/-! ### The hypotheses are met -/
namespace Example1

theorem get_cellN : st2.table.get (at_ 1) = some (.mut cellN) := rfl
theorem get_thunkN : st2.table.get (at_ 2) = some (.comp thunkN) := rfl

/-- C03: a clean thunk with a cached result. -/
example : st2.table.get (at_ 2) = some (.comp thunkN) ∧ thunkN.res = some 1 ∧ (∀ e ∈ thunkN.succs, e.dirty = false) ∧
    (∀ fr ∈ st2.stack, fr.loc ≠ at_ 2) :=
  ⟨rfl, rfl, by decide, by decide⟩

/-- C11: the cell was changed and changed back, so the edge is dirty but the dependency holds; a second thunk depends on the
first one. -/
def dirtyN : CompNode Nat := { thunkN with succs := [⟨true, at_ 1, .observe, .force 0 25⟩] }
def outerN : CompNode Nat := ⟨0, [], [⟨true, at_ 2, .observe, .force 0 1⟩], 13, 3, 0, some 5⟩
def st3 : St Nat := { initSt true false with table := [ (at_ 1, .mut cellN), (at_ 2, .comp dirtyN), (at_ 3, .comp outerN) ] }
example : Holds st3.table (.force outerN.ty 5) (at_ 3) := by
  refine .thunk (nd := outerN) rfl rfl rfl ?_
  intro e he _
  cases List.mem_singleton.1 he
  refine Holds.thunk (nd := dirtyN) rfl rfl rfl ?_
  intro e he _
  cases List.mem_singleton.1 he
  exact Holds.cell (nd := cellN) rfl rfl
example : (match exec env 9 (.force 0 (at_ 3) none .ret) st3 with | .ok v s => (v, s.runs, tableClean s.table) | _ => (0, [], 0)) =
    (5, [], 2) := by decide +kernel

/-- C12: an unrelated cell is set; and the thunk does not depend on it. -/
def st4 : St Nat := { st2 with table := (at_ 4, .mut ⟨0, [], 3⟩) :: st2.table }
example : (match opSet 0 (at_ 4) 9 st4 with | .ok _ _ => true | _ => false) = true := by decide +kernel
example : ¬ DependsOn st4.table (at_ 2) (at_ 4) := by
  have hget2 : st4.table.get (at_ 2) = some (.comp thunkN) := rfl
  have hget1 : st4.table.get (at_ 1) = some (.mut cellN) := rfl
  have hne : at_ 1 ≠ at_ 4 := by decide +kernel
  intro h
  cases h with
  | edge h1 h2 h3 =>
    rw [hget2] at h1; cases h1
    cases List.mem_singleton.1 h2
    exact hne h3
  | chain h1 h2 h3 h4 =>
    rw [hget2] at h1; cases h1
    cases List.mem_singleton.1 h2
    subst h3
    cases h4 with
    | edge h1 => rw [hget1] at h1; cases h1
    | chain h1 => rw [hget1] at h1; cases h1

/-- C12: a run of the example session's thunk returns, and records dependencies (it allocates and forces, forces through a
map, and calls a function). -/
example : (match runSession env 9 (ps.take 1) (initSt true false) with
    | .ok _ s => (match (recN env 9).produce 0 (at_ 2) s with
      | .ok v s' => (match s'.table.get (at_ 2) with | some (.comp nd) => decide (nd.res = some v) && decide (0 < nd.succs.length) | _ => false)
      | _ => false)
    | _ => false) = true := by decide +kernel

/-- C20, C21: a thunk that is being evaluated. -/
def st5 : St Nat := { st2 with stack := [⟨at_ 2, []⟩] }
example : st5.table.get (at_ 2) = some (.comp thunkN) ∧ (⟨at_ 2, []⟩ : Frame Nat) ∈ st5.stack := ⟨rfl, List.mem_singleton.2 rfl⟩

end Example1
end Adapton
