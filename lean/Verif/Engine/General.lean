import Verif.Engine.Dirty
/-
What holds of every program, disciplined or not, and of every state: scoping of namespace, mode and stack, persistence
of locations, bracketing of the trace, shape of edge lists.
-/
set_option linter.unusedSectionVars false
set_option linter.unusedVariables false
namespace Adapton
variable {V α β : Type}

/-! ### Depth of the trace -/

/-- Effect of one event on the depth of the trace stack (engine.rs:180-258); `none`: `unreachable!()`. -/
def Ev.depth : Ev → Nat → Option Nat
  | .begin _ _ _, d => some (d + 1)
  | .end_, d + 1 => some d
  | .end_, 0 => none
  | .eff _ _ _, d => some d

/-- Effect of a sequence of events (latest first). -/
def evDepth : List Ev → Nat → Option Nat
  | [], d => some d
  | e :: es, d => (evDepth es d).bind e.depth

theorem evDepth_append (a b : List Ev) (d : Nat) : evDepth (a ++ b) d = (evDepth b d).bind (evDepth a) := by
  induction a with
  | nil => simp [evDepth]
  | cons e a ih =>
    simp only [List.cons_append, evDepth, ih]
    cases evDepth b d <;> rfl

theorem evDepth_lift (es : List Ev) : ∀ {i j : Nat} (d : Nat), evDepth es i = some j → evDepth es (i + d) = some (j + d) := by
  induction es with
  | nil => intro i j d h; cases h; rfl
  | cons e es ih =>
    intro i j d h
    simp only [evDepth] at h ⊢
    rcases h1 : evDepth es i with _ | k
    · rw [h1] at h; cases h
    · rw [h1] at h
      rw [ih d h1]
      simp only [Option.bind_some] at h ⊢
      cases e with
      | begin e a b => simp only [Ev.depth] at h ⊢; cases h; congr 1; omega
      | end_ =>
        cases k with
        | zero => cases h
        | succ k => simp only [Ev.depth] at h; cases h; rw [Nat.succ_add]; rfl
      | eff e a b => simp only [Ev.depth] at h ⊢; cases h; rfl

/-! ### Shape of edge lists -/

/-- Recorded by a plain `force`. -/
def Dep.isForce : Dep V → Bool
  | .force _ _ => true
  | _ => false

/-- A plain observation is recorded only if it is the first observation of its target. -/
def ForceFirst (es : List (Edge V)) : Prop :=
  es.Pairwise fun a b => ¬ (a.loc = b.loc ∧ a.effect = .observe ∧ b.effect = .observe ∧ b.dep.isForce = true)

/-- Only the first edge of a key is ever dirty. -/
def OnlyFirst (es : List (Succ V)) : Prop :=
  es.Pairwise fun a b => b.dirty = true → ¬ (a.loc = b.loc ∧ a.effect = b.effect)

theorem mem_setFirst {eff : Effect} {x : Loc} {b : Bool} {es : List (Succ V)} {e : Succ V} (h : e ∈ setFirst eff x b es) :
    e ∈ es ∨ (e.effect = eff ∧ e.loc = x) := by
  induction es with
  | nil => cases h
  | cons a es ih =>
    simp only [setFirst] at h
    split at h
    · rename_i hm
      rcases List.mem_cons.1 h with rfl | h
      · exact .inr (Succ.matches_iff.1 hm)
      · exact .inl (List.mem_cons_of_mem _ h)
    · rcases List.mem_cons.1 h with rfl | h
      · exact .inl (List.mem_cons_self ..)
      · rcases ih h with h | h
        · exact .inl (List.mem_cons_of_mem _ h)
        · exact .inr h

theorem OnlyFirst.setFirst {es : List (Succ V)} (h : OnlyFirst es) (eff : Effect) (x : Loc) (b : Bool) :
    OnlyFirst (setFirst eff x b es) := by
  unfold OnlyFirst at *
  induction es with
  | nil => exact h
  | cons a es ih =>
    rw [List.pairwise_cons] at h
    simp only [Adapton.setFirst]
    split
    · rw [List.pairwise_cons]
      exact ⟨fun c hc hd => h.1 c hc hd, h.2⟩
    · rename_i hm
      rw [List.pairwise_cons]
      refine ⟨fun c hc hd hk => ?_, ih h.2⟩
      rcases mem_setFirst hc with hc | ⟨h1, h2⟩
      · exact h.1 c hc hd hk
      · exact hm (Succ.matches_iff.2 ⟨hk.2.trans h1, hk.1.trans h2⟩)

/-- A dirty edge is the one the engine looks at. -/
theorem OnlyFirst.key {es : List (Succ V)} (h : OnlyFirst es) {e : Succ V} (he : e ∈ es) (hd : e.dirty = true) :
    KeyDirty es e.effect e.loc := by
  obtain ⟨a, b, rfl⟩ := List.append_of_mem he
  refine ⟨e, ?_, hd⟩
  rw [List.find?_append]
  have : a.find? (Succ.matches e.effect e.loc) = none := by
    rw [List.find?_eq_none]
    intro c hc hm
    obtain ⟨h1, h2⟩ := Succ.matches_iff.1 hm
    have := (List.pairwise_append.1 h).2.2 c hc e (List.mem_cons_self ..) hd
    exact this ⟨h2, h1⟩
  rw [this]
  simp [List.find?, Succ.matches_self]

theorem onlyFirst_of_clean {es : List (Succ V)} (h : ∀ e ∈ es, e.dirty = false) : OnlyFirst es := by
  unfold OnlyFirst
  induction es with
  | nil => exact .nil
  | cons a es ih =>
    rw [List.pairwise_cons]
    refine ⟨fun c hc hd => ?_, ih fun e he => h e (List.mem_cons_of_mem _ he)⟩
    rw [h c (List.mem_cons_of_mem _ hc)] at hd; cases hd

/-- Shape of the edge lists of all nodes. -/
def ShapeT (t : Table V) : Prop :=
  ∀ p nd, t.get p = some (.comp nd) → ForceFirst (nd.succs.map Succ.edge) ∧ OnlyFirst nd.succs

/-- Shape of the edge list of the running frame. -/
def ShapeF (K : List (Frame V)) : Prop :=
  ∀ f K0, K = f :: K0 → ForceFirst (f.succs.map (·.1.edge)) ∧ (∀ q ∈ f.succs, q.1.dirty = false)

/-! ### The relation between the states before and after -/

/-- How a node may change its kind: a pure cell never changes at all, a thunk stays a thunk, a cell becomes no pure cell. -/
def Node.KindOk : Node V → Node V → Prop
  | .pure a, .pure b => b = a
  | .mut _, .mut _ => True
  | .mut _, .comp _ => True
  | .comp _, .comp _ => True
  | _, _ => False

theorem Node.KindOk.refl (n : Node V) : n.KindOk n := by cases n <;> trivial
theorem Node.KindOk.trans {a b c : Node V} (h1 : a.KindOk b) (h2 : b.KindOk c) : a.KindOk c := by
  cases a <;> cases b <;> cases c <;> simp_all [Node.KindOk]

/-- Locations persist, with their type. -/
def Grow (t t' : Table V) : Prop := ∀ l n, t.get l = some n → ∃ n', t'.get l = some n' ∧ n'.ty = n.ty ∧ n.KindOk n'

theorem Grow.refl (t : Table V) : Grow t t := fun _ n h => ⟨n, h, rfl, .refl n⟩
theorem Grow.trans {a b c : Table V} (h1 : Grow a b) (h2 : Grow b c) : Grow a c := by
  intro l n h
  obtain ⟨n1, g1, g2, k2⟩ := h1 l n h
  obtain ⟨n2, g3, g4, k4⟩ := h2 l n1 g1
  exact ⟨n2, g3, g4.trans g2, k2.trans k4⟩
theorem Grow.put {t : Table V} {l : Loc} {n' : Node V} (h : ∀ n, t.get l = some n → n'.ty = n.ty ∧ n.KindOk n') : Grow t (t.put l n') := by
  intro x n hx
  rw [Table.get_put]
  split
  · subst_vars; exact ⟨n', rfl, h n hx⟩
  · exact ⟨n, hx, rfl, .refl n⟩

/-- Only the top frame has grown (`b = false`), or nothing has (`b = true`). -/
def StackExt (b : Bool) (K K' : List (Frame V)) : Prop :=
  K' = K ∨ (b = false ∧ ∃ fr K0 new, K = fr :: K0 ∧ K' = ⟨fr.loc, fr.succs ++ new⟩ :: K0)

theorem StackExt.trans {b : Bool} {K1 K2 K3 : List (Frame V)} (h1 : StackExt b K1 K2) (h2 : StackExt b K2 K3) :
    StackExt b K1 K3 := by
  rcases h1 with rfl | ⟨hb, fr, K0, new, rfl, rfl⟩
  · exact h2
  · rcases h2 with rfl | ⟨_, fr', K0', new', h3, rfl⟩
    · exact .inr ⟨hb, fr, K0, new, rfl, rfl⟩
    · cases h3
      exact .inr ⟨hb, fr, K0, new ++ new', rfl, by rw [List.append_assoc]⟩

theorem StackExt.locs {b : Bool} {K K' : List (Frame V)} (h : StackExt b K K') : K'.map (·.loc) = K.map (·.loc) := by
  rcases h with rfl | ⟨_, fr, K0, new, rfl, rfl⟩
  · rfl
  · rfl

/-- What a normal return guarantees: namespace, modes and stack are restored (up to edges recorded on the top frame),
locations persist, the trace goes from depth `i` to depth `j`, edge lists keep their shape. -/
structure Ok (b : Bool) (i j : Nat) (s s' : St V) : Prop where
  path : s'.path = s.path
  ign : s'.ignoreNominal = s.ignoreNominal
  purity : s'.purity = s.purity
  stack : StackExt b s.stack s'.stack
  grow : Grow s.table s'.table
  log : ∃ evs, s'.log = evs ++ s.log ∧ evDepth evs i = some j
  runs : ∃ rs, s'.runs = rs ++ s.runs
  tbl : ShapeT s.table → ShapeT s'.table
  top : ShapeF s.stack → ShapeF s'.stack

/-- What a panic guarantees. -/
structure Pk (s s' : St V) : Prop where
  purity : s'.purity = s.purity
  grow : Grow s.table s'.table
  log : ∃ evs, s'.log = evs ++ s.log
  runs : ∃ rs, s'.runs = rs ++ s.runs
  stack : s.stack.map (·.loc) <:+ s'.stack.map (·.loc)

theorem Ok.trans {b : Bool} {i j k : Nat} {s1 s2 s3 : St V} (h1 : Ok b i j s1 s2) (h2 : Ok b j k s2 s3) : Ok b i k s1 s3 where
  path := h2.path.trans h1.path
  ign := h2.ign.trans h1.ign
  purity := h2.purity.trans h1.purity
  stack := h1.stack.trans h2.stack
  grow := h1.grow.trans h2.grow
  log := by
    obtain ⟨e1, g1, g2⟩ := h1.log
    obtain ⟨e2, g3, g4⟩ := h2.log
    exact ⟨e2 ++ e1, by rw [g3, g1, List.append_assoc], by rw [evDepth_append, g2]; exact g4⟩
  runs := by
    obtain ⟨e1, g1⟩ := h1.runs
    obtain ⟨e2, g3⟩ := h2.runs
    exact ⟨e2 ++ e1, by rw [g3, g1, List.append_assoc]⟩
  tbl := fun h => h2.tbl (h1.tbl h)
  top := fun h => h2.top (h1.top h)

theorem Ok.pk {b : Bool} {i j : Nat} {s1 s2 : St V} (h : Ok b i j s1 s2) : Pk s1 s2 :=
  ⟨h.purity, h.grow, by obtain ⟨e, h, _⟩ := h.log; exact ⟨e, h⟩, h.runs, by rw [h.stack.locs]; exact List.suffix_rfl⟩

theorem Pk.trans {s1 s2 s3 : St V} (h1 : Pk s1 s2) (h2 : Pk s2 s3) : Pk s1 s3 where
  purity := h2.purity.trans h1.purity
  grow := h1.grow.trans h2.grow
  log := by
    obtain ⟨e1, g1⟩ := h1.log
    obtain ⟨e2, g3⟩ := h2.log
    exact ⟨e2 ++ e1, by rw [g3, g1, List.append_assoc]⟩
  runs := by
    obtain ⟨e1, g1⟩ := h1.runs
    obtain ⟨e2, g3⟩ := h2.runs
    exact ⟨e2 ++ e1, by rw [g3, g1, List.append_assoc]⟩
  stack := h1.stack.trans h2.stack

theorem Ok.refl (b : Bool) (i : Nat) (s : St V) : Ok b i i s s :=
  ⟨rfl, rfl, rfl, .inl rfl, Grow.refl _, ⟨[], rfl, rfl⟩, ⟨[], rfl⟩, fun h => h, fun h => h⟩
theorem Pk.refl (s : St V) : Pk s s := (Ok.refl true 0 s).pk

theorem Ok.lift {b : Bool} {i j : Nat} {s1 s2 : St V} (h : Ok b i j s1 s2) (d : Nat) : Ok b (i + d) (j + d) s1 s2 :=
  { h with log := by obtain ⟨e, g1, g2⟩ := h.log; exact ⟨e, g1, evDepth_lift e d g2⟩ }

theorem Ok.weaken {i j : Nat} {s1 s2 : St V} (h : Ok true i j s1 s2) (b : Bool) : Ok b i j s1 s2 :=
  { h with stack := (by
      rcases h.stack with h | ⟨h, _⟩
      · exact .inl h
      · cases h) }

/-- The outcome of an operation started in `s`. -/
def Res (b : Bool) (i j : Nat) (s : St V) : Out V α → Prop
  | .ok _ s' => Ok b i j s s'
  | .panic _ s' => Pk s s'
  | .oof => True

/-- Every execution of the operation is as described. -/
def Gen (b : Bool) (i j : Nat) (m : M V α) : Prop := ∀ s, Res b i j s (m s)

theorem Res.bind {b : Bool} {i j k : Nat} {m : M V α} {f : α → M V β} {s : St V} (h1 : Res b i j s (m s))
    (h2 : ∀ a s', m s = .ok a s' → Res b j k s' (f a s')) : Res b i k s ((m >>= f) s) := by
  rw [M.bind_def]
  rcases hm : m s with ⟨a, s'⟩ | ⟨e, s'⟩ | _
  · rw [hm] at h1
    have := h2 a s' hm
    simp only []
    rcases hf : f a s' with ⟨c, s2⟩ | ⟨e, s2⟩ | _
    · rw [hf] at this; exact Ok.trans h1 this
    · rw [hf] at this; exact (Ok.pk h1).trans this
    · trivial
  · rw [hm] at h1; exact h1
  · trivial

theorem Gen.bind {b : Bool} {i j k : Nat} {m : M V α} {f : α → M V β} (h1 : Gen b i j m) (h2 : ∀ a, Gen b j k (f a)) :
    Gen b i k (m >>= f) := fun s => Res.bind (h1 s) fun a s' _ => h2 a s'

theorem Gen.pure (b : Bool) (i : Nat) (a : α) : Gen b i i (Pure.pure a : M V α) := fun s => Ok.refl b i s
theorem Gen.panic (b : Bool) (i j : Nat) (e : Err) : Gen b i j (M.panic e : M V α) := fun s => Pk.refl s
theorem Gen.get (b : Bool) (i : Nat) : Gen b i i (M.get : M V (St V)) := fun s => Ok.refl b i s
theorem Gen.ite {b : Bool} {i j : Nat} {c : Prop} [Decidable c] {m1 m2 : M V α} (h1 : Gen b i j m1) (h2 : Gen b i j m2) :
    Gen b i j (if c then m1 else m2) := by
  split
  · exact h1
  · exact h2
theorem Gen.lift {b : Bool} {i j : Nat} {m : M V α} (h : Gen b i j m) (d : Nat) : Gen b (i + d) (j + d) m := by
  intro s
  have := h s
  unfold Res at *
  split <;> rename_i hm <;> rw [hm] at this
  · exact this.lift d
  · exact this
  · trivial
theorem Gen.weaken {i j : Nat} {m : M V α} (h : Gen true i j m) (b : Bool) : Gen b i j m := by
  intro s
  have := h s
  unfold Res at *
  split <;> rename_i hm <;> rw [hm] at this
  · exact this.weaken b
  · exact this
  · trivial
theorem Gen.up {b : Bool} {m : M V α} (h : Gen b 0 0 m) (d : Nat) : Gen b d d m := by
  have := h.lift d; rwa [Nat.zero_add] at this

/-! ### Elementary operations -/

theorem Ok.ofLog {b : Bool} {i j : Nat} {s : St V} (e : Ev) (h : e.depth i = some j) : Ok b i j s { s with log := e :: s.log } :=
  { Ok.refl b i s with
    log := ⟨[e], rfl, by simp only [evDepth, Option.bind_some]; exact h⟩ }

theorem Gen.evBegin (b : Bool) (i : Nat) (e : TEff) (src : Option Loc) (tgt : Loc) :
    Gen b i (i+1) (evBegin e src tgt : M V Unit) := fun s => Ok.ofLog (.begin e src tgt) rfl
theorem Gen.evEnd (b : Bool) (i : Nat) : Gen b (i+1) i (evEnd : M V Unit) := fun s => Ok.ofLog .end_ rfl
theorem Gen.evEff (b : Bool) (i : Nat) (e : TEff) (src : Option Loc) (tgt : Loc) :
    Gen b i i (evEff e src tgt : M V Unit) := fun s => Ok.ofLog (.eff e src tgt) rfl

/-- Reading operations. -/
def Reads (m : M V α) : Prop := ∀ s, (∃ a, m s = .ok a s) ∨ ∃ e, m s = .panic e s

theorem Reads.gen {m : M V α} (h : Reads m) (b : Bool) (i : Nat) : Gen b i i m := by
  intro s
  rcases h s with ⟨a, h⟩ | ⟨e, h⟩
  · rw [h]; exact Ok.refl b i s
  · rw [h]; exact Pk.refl s

theorem Reads.bind {m : M V α} {f : α → M V β} (h : Reads m) (hf : ∀ a, Reads (f a)) : Reads (m >>= f) := by
  intro s
  rw [M.bind_def]
  rcases h s with ⟨a, h⟩ | ⟨e, h⟩
  · rw [h]; exact hf a s
  · rw [h]; exact .inr ⟨e, rfl⟩
theorem Reads.pure (a : α) : Reads (Pure.pure a : M V α) := fun s => .inl ⟨a, rfl⟩
theorem Reads.panic (e : Err) : Reads (M.panic e : M V α) := fun s => .inr ⟨e, rfl⟩

theorem lookupAbs_reads (l : Loc) : Reads (lookupAbs l : M V (Node V)) := by
  intro s
  unfold lookupAbs
  split
  · exact .inr ⟨_, rfl⟩
  · exact .inl ⟨_, rfl⟩
theorem resNode_reads (ty : Ty) (l : Loc) : Reads (resNode ty l : M V (Node V)) := by
  refine (lookupAbs_reads l).bind fun n => ?_
  split
  · exact Reads.pure _
  · exact Reads.panic _

theorem lookupAbs_inv {l : Loc} {s s' : St V} {n : Node V} (h : lookupAbs l s = .ok n s') : s' = s ∧ s.table.get l = some n := by
  unfold lookupAbs at h
  split at h
  · cases h
  · cases h; exact ⟨rfl, by assumption⟩
theorem resNode_inv {ty : Ty} {l : Loc} {s s' : St V} {n : Node V} (h : resNode ty l s = .ok n s') :
    s' = s ∧ s.table.get l = some n ∧ n.ty = ty := by
  unfold resNode at h
  rw [M.bind_def] at h
  rcases hl : lookupAbs l s with ⟨m, s1⟩ | ⟨e, s1⟩ | _
  · rw [hl] at h
    obtain ⟨rfl, h1⟩ := lookupAbs_inv hl
    by_cases ht : m.ty = ty
    · simp only [ht, if_true] at h
      cases h
      exact ⟨rfl, h1, ht⟩
    · simp only [ht, if_false] at h
      cases h
  · rw [hl] at h; cases h
  · rw [hl] at h; cases h

theorem succDirty_reads (p : Loc) (eff : Effect) (x : Loc) : Reads (succDirty p eff x : M V Bool) := by
  refine (lookupAbs_reads p).bind fun n => ?_
  match n with
  | .comp nd =>
    show Reads (match nd.succs.find? (Succ.matches eff x) with | some e => _ | none => _)
    split
    · exact Reads.pure _
    · exact Reads.panic _
  | .mut nd => exact Reads.panic _
  | .pure nd => exact Reads.panic _

/-- Replacing a node by one of the same type, whose edge list has the right shape. -/
theorem Ok.put {b : Bool} {i : Nat} {s : St V} {l : Loc} {n' : Node V} (hty : ∀ n, s.table.get l = some n → n'.ty = n.ty ∧ n.KindOk n')
    (hsh : ShapeT s.table → ∀ nd, n' = .comp nd → ForceFirst (nd.succs.map Succ.edge) ∧ OnlyFirst nd.succs) :
    Ok b i i s { s with table := s.table.put l n' } :=
  { Ok.refl b i s with
    grow := Grow.put hty
    tbl := fun hs => (by
      intro p nd hp
      simp only [Table.get_put] at hp
      split at hp
      · cases hp; exact hsh hs nd rfl
      · exact hs p nd hp) }

theorem setSuccDirty_gen (b : Bool) (i : Nat) (p : Loc) (eff : Effect) (x : Loc) (v : Bool) :
    Gen b i i (setSuccDirty p eff x v : M V Unit) := by
  intro s
  refine Res.bind ((lookupAbs_reads p).gen b i s) fun n s' h => ?_
  obtain ⟨rfl, h⟩ := lookupAbs_inv h
  match n with
  | .comp nd =>
    rcases hf : nd.succs.find? (Succ.matches eff x) with _ | e
    · simp only [hf]; exact Pk.refl _
    · simp only [hf]
      refine Ok.put (fun n hn => ?_) (fun hs nd' hnd => ?_)
      · rw [h] at hn; cases hn; exact ⟨rfl, trivial⟩
      · cases hnd
        obtain ⟨h1, h2⟩ := hs p nd h
        exact ⟨by simp only [setFirst_edges]; exact h1, h2.setFirst _ _ _⟩
  | .mut nd => exact Pk.refl _
  | .pure nd => exact Pk.refl _

theorem removePred_gen (b : Bool) (i : Nat) (src tgt : Loc) : Gen b i i (removePred src tgt : M V Unit) := by
  refine Gen.bind (Gen.evEff _ _ _ _ _) fun _ s => ?_
  refine Res.bind ((lookupAbs_reads tgt).gen b i s) fun n s' h => ?_
  obtain ⟨rfl, h⟩ := lookupAbs_inv h
  match n with
  | .comp nd =>
    refine Ok.put (fun n hn => ?_) (fun hs nd' hnd => ?_)
    · rw [h] at hn; cases hn; exact ⟨rfl, trivial⟩
    · cases hnd; exact hs tgt nd h
  | .mut nd =>
    refine Ok.put (fun n hn => ?_) (fun hs nd' hnd => ?_)
    · rw [h] at hn; cases hn; exact ⟨rfl, trivial⟩
    · cases hnd
  | .pure nd => exact Pk.refl _

theorem revokeSuccs_gen (b : Bool) (i : Nat) (src : Loc) (es : List (Succ V)) : Gen b i i (revokeSuccs src es) := by
  induction es with
  | nil => exact Gen.pure _ _ _
  | cons e es ih => exact Gen.bind (removePred_gen _ _ _ _) fun _ => ih

theorem recordEdge_gen (i : Nat) (e : Succ V) (d : Option (Dep V)) (s : St V) (hd : e.dirty = false)
    (hf : e.effect = .observe → e.dep.isForce = true → ∀ fr K, s.stack = fr :: K →
      ∀ q ∈ fr.succs, ¬ (q.1.loc = e.loc ∧ q.1.effect = .observe)) :
    Res false i i s (recordEdge e d s) := by
  unfold recordEdge
  rw [M.modify_def]
  rcases hs : s.stack with _ | ⟨fr, K⟩
  · exact Ok.refl _ _ _
  · refine { Ok.refl false i s with stack := .inr ⟨rfl, fr, K, [(e, d)], hs, rfl⟩, top := fun h => ?_ }
    intro f K0 hfm
    cases hfm
    · obtain ⟨h1, h2⟩ := h fr K hs
      constructor
      · simp only [List.map_append, List.map]
        unfold ForceFirst at *
        rw [List.pairwise_append]
        refine ⟨h1, List.pairwise_singleton _ _, ?_⟩
        intro a ha c hc
        rw [List.mem_singleton] at hc
        subst hc
        obtain ⟨q, hq, rfl⟩ := List.mem_map.1 ha
        rintro ⟨k1, k2, k3, k4⟩
        exact hf k3 k4 fr K hs q hq ⟨k1, k2⟩
      · intro q hq
        rcases List.mem_append.1 hq with hq | hq
        · exact h2 q hq
        · rw [List.mem_singleton] at hq; subst hq; exact hd

theorem recordAlloc_gen (i : Nat) (e : Succ V) (d : Option (Dep V)) (hd : e.dirty = false) (hf : e.dep.isForce = false) :
    Gen false i i (recordEdge e d) := fun s => recordEdge_gen i e d s hd (fun _ h => by rw [hf] at h; cases h)

/-! ### Dirtying -/
section
variable [UEq V]

theorem checkForceMapDep_reads (ty : Ty) (f : V → V) (res : V) (l : Loc) : Reads (checkForceMapDep ty f res l) := by
  refine (resNode_reads ty l).bind fun n => ?_
  match n with
  | .comp nd => exact Reads.panic _
  | .mut nd => exact Reads.pure _
  | .pure nd => exact Reads.panic _

theorem dirtyStop_reads (d : Option (Dep V)) (l : Loc) : Reads (dirtyStop d l) := by
  match d with
  | none => exact Reads.pure _
  | some .forceAbs => exact Reads.pure _
  | some (.forceMap ty f r) => exact (checkForceMapDep_reads ty f r l).bind fun _ => Reads.pure _
  | some .allocStruct => exact Reads.pure _
  | some (.allocNom _) => exact Reads.pure _
  | some (.allocCell _) => exact Reads.pure _
  | some (.force _ _) => exact Reads.pure _

theorem dirtyLoop_gen (b : Bool) (i : Nat) (rec : Loc → M V Unit) (hrec : ∀ p i, Gen b i i (rec p)) (l : Loc)
    (ps : List (Loc × Option (Dep V))) : Gen b i i (dirtyLoop rec l ps) := by
  induction ps with
  | nil => exact Gen.pure _ _ _
  | cons q ps ih =>
    obtain ⟨p, d⟩ := q
    refine Gen.bind ?_ fun _ => ih
    refine Gen.bind ((dirtyStop_reads d l).gen b i) fun st => Gen.ite (Gen.pure _ _ _) ?_
    refine Gen.bind ((succDirty_reads p .observe l).gen b i) fun bb => Gen.ite (Gen.pure _ _ _) (Gen.ite (Gen.panic _ _ _ _) ?_)
    exact Gen.bind (Gen.evBegin _ _ _ _ _) fun _ => Gen.bind (setSuccDirty_gen _ _ _ _ _ _) fun _ =>
      Gen.bind (hrec p _) fun _ => Gen.evEnd _ _

theorem dirtyPreds_gen (b : Bool) : ∀ (k : Nat) (l : Loc) (i : Nat), Gen b i i (dirtyPreds k l : M V Unit) := by
  intro k
  induction k with
  | zero => intro l i s; trivial
  | succ k ih =>
    intro l i
    refine Gen.bind ((lookupAbs_reads l).gen b i) fun n => ?_
    show Gen b i i (match n.predsObs with | some ps => _ | none => _)
    split
    · exact dirtyLoop_gen b i _ ih l _
    · exact Gen.panic _ _ _ _

theorem dirtyPredsTop_gen (b : Bool) (i : Nat) (l : Loc) : Gen b i i (dirtyPredsTop l : M V Unit) :=
  fun s => dirtyPreds_gen b _ l i s

theorem dirtyAllocLoop_gen (b : Bool) (i : Nat) (l : Loc) (ps : List Loc) : Gen b i i (dirtyAllocLoop l ps : M V Unit) := by
  induction ps with
  | nil => exact Gen.pure _ _ _
  | cons p ps ih =>
    refine Gen.bind ?_ fun _ => ih
    refine Gen.bind ((succDirty_reads p .allocate l).gen b i) fun bb => Gen.ite (Gen.pure _ _ _) ?_
    refine Gen.bind (setSuccDirty_gen _ _ _ _ _ _) fun _ => Gen.ite (Gen.panic _ _ _ _) ?_
    exact Gen.bind (Gen.evBegin _ _ _ _ _) fun _ => Gen.bind (dirtyPredsTop_gen _ _ _) fun _ => Gen.evEnd _ _

theorem dirtyAlloc_gen (b : Bool) (i : Nat) (l : Loc) : Gen b i i (dirtyAlloc l : M V Unit) := by
  refine Gen.bind (dirtyPredsTop_gen _ _ _) fun _ => Gen.bind ((lookupAbs_reads l).gen b i) fun n => ?_
  show Gen b i i (match n.predsAlloc with | some ps => _ | none => _)
  split
  · exact dirtyAllocLoop_gen _ _ _ _
  · exact Gen.panic _ _ _ _

theorem setCell_gen (b : Bool) (i : Nat) (ty : Ty) (l : Loc) (v : V) : Gen b i i (setCell ty l v) := by
  intro s
  refine Res.bind ((resNode_reads ty l).gen b i s) fun n s' h => ?_
  obtain ⟨rfl, h1, h2⟩ := resNode_inv h
  match n with
  | .comp nd => exact Pk.refl _
  | .pure nd => exact Pk.refl _
  | .mut nd =>
    show Res b i i s' ((if nd.val ≈ᵤ v then _ else _ : M V Unit) s')
    split
    · exact Ok.refl _ _ _
    · refine Res.bind (j := i) ?_ fun _ s2 _ => dirtyAlloc_gen b i l s2
      refine Ok.put (fun n hn => ?_) (fun hs nd' hnd => ?_)
      · rw [h1] at hn; cases hn; exact ⟨rfl, trivial⟩
      · cases hnd

theorem opSet_gen (b : Bool) (i : Nat) (ty : Ty) (l : Loc) (v : V) : Gen b i i (opSet ty l v) :=
  Gen.bind (Gen.get _ _) fun s => Gen.ite (setCell_gen _ _ _ _ _) (Gen.panic _ _ _ _)

end
end Adapton
