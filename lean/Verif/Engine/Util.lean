import Verif.Engine.Model
/-
Helper lemmas: the monad, the table, edge lists, "runs with enough fuel".
-/
namespace Adapton
variable {V α β : Type}

/-! ### The monad -/

theorem M.bind_def (m : M V α) (f : α → M V β) (s : St V) :
    (m >>= f) s = match m s with
      | .ok a s' => f a s' | .panic e s' => .panic e s' | .oof => .oof := rfl
theorem M.pure_def (a : α) (s : St V) : (Pure.pure a : M V α) s = .ok a s := rfl
theorem M.modify_def (f : St V → St V) (s : St V) : (M.modify f) s = .ok () (f s) := rfl
theorem M.get_def (s : St V) : (M.get : M V (St V)) s = .ok s s := rfl
theorem M.panic_def (e : Err) (s : St V) : (M.panic e : M V α) s = .panic e s := rfl
theorem M.bind_ok {m : M V α} {f : α → M V β} {s s' : St V} {a : α} (h : m s = .ok a s') :
    (m >>= f) s = f a s' := by rw [M.bind_def, h]

/-! ### Table -/

theorem Table.get_put (t : Table V) (l : Loc) (n : Node V) (x : Loc) :
    (t.put l n).get x = if x = l then some n else t.get x := by
  induction t with
  | nil =>
    show (if l = x then some n else Table.get [] x) = _
    by_cases h : x = l
    · rw [if_pos h, if_pos h.symm]
    · rw [if_neg h, if_neg (fun h' => h h'.symm)]
  | cons hd tl ih =>
    obtain ⟨k, m⟩ := hd
    by_cases hk : k = l
    · subst hk
      rw [show Table.put ((k, m) :: tl) k n = (k, n) :: tl by simp [Table.put]]
      show (if k = x then some n else Table.get tl x) = if x = k then some n else (if k = x then some m else Table.get tl x)
      by_cases h : x = k
      · rw [if_pos h, if_pos h.symm]
      · rw [if_neg h, if_neg (fun h' => h h'.symm), if_neg (fun h' => h h'.symm)]
    · rw [show Table.put ((k, m) :: tl) l n = (k, m) :: Table.put tl l n by simp [Table.put, hk]]
      show (if k = x then some m else Table.get (Table.put tl l n) x) = if x = l then some n else (if k = x then some m else Table.get tl x)
      rw [ih]
      by_cases h : x = l
      · subst h; rw [if_neg hk, if_pos rfl, if_pos rfl]
      · simp only [if_neg h]

theorem Table.get_put_self (t : Table V) (l : Loc) (n : Node V) : (t.put l n).get l = some n := by
  simp [Table.get_put]

theorem Table.get_put_ne (t : Table V) {l x : Loc} (n : Node V) (h : x ≠ l) : (t.put l n).get x = t.get x := by
  simp [Table.get_put, h]

/-- The locations on the stack. -/
def St.locs (s : St V) : List Loc := s.stack.map (·.loc)

/-! ### Edges without their dirty bit -/

/-- An edge without its dirty bit. -/
structure Edge (V : Type) where
  loc : Loc
  effect : Effect
  dep : Dep V

/-- Forget the dirty bit. -/
def Succ.edge (e : Succ V) : Edge V := ⟨e.loc, e.effect, e.dep⟩

/-- An edge for effect `eff` to `tgt`. -/
def Edge.matches (eff : Effect) (tgt : Loc) (e : Edge V) : Bool := decide (e.effect = eff ∧ e.loc = tgt)

theorem Succ.matches_edge (eff : Effect) (tgt : Loc) (e : Succ V) :
    e.matches eff tgt = e.edge.matches eff tgt := rfl

theorem Succ.matches_iff {eff : Effect} {tgt : Loc} {e : Succ V} :
    e.matches eff tgt = true ↔ e.effect = eff ∧ e.loc = tgt := by simp [Succ.matches]

theorem Edge.matches_iff {eff : Effect} {tgt : Loc} {e : Edge V} :
    e.matches eff tgt = true ↔ e.effect = eff ∧ e.loc = tgt := by simp [Edge.matches]

theorem Succ.matches_self (e : Succ V) : e.matches e.effect e.loc = true := by simp [Succ.matches]

/-- The (shared) dirty bit of the edges for `(eff, x)` is off. -/
def KeyClean (es : List (Succ V)) (eff : Effect) (x : Loc) : Prop :=
  ∃ e, es.find? (Succ.matches eff x) = some e ∧ e.dirty = false

/-- The (shared) dirty bit of the edges for `(eff, x)` is on. -/
def KeyDirty (es : List (Succ V)) (eff : Effect) (x : Loc) : Prop :=
  ∃ e, es.find? (Succ.matches eff x) = some e ∧ e.dirty = true

theorem find_of_mem {es : List (Succ V)} {e : Succ V} (h : e ∈ es) :
    ∃ e', es.find? (Succ.matches e.effect e.loc) = some e' := by
  rcases hf : es.find? (Succ.matches e.effect e.loc) with _ | e'
  · rw [List.find?_eq_none] at hf
    exact absurd (Succ.matches_self e) (hf e h)
  · exact ⟨e', rfl⟩

theorem key_cases {es : List (Succ V)} {e : Succ V} (h : e ∈ es) :
    KeyClean es e.effect e.loc ∨ KeyDirty es e.effect e.loc := by
  obtain ⟨e', he⟩ := find_of_mem h
  cases hd : e'.dirty
  · exact .inl ⟨e', he, hd⟩
  · exact .inr ⟨e', he, hd⟩

theorem not_clean_of_dirty {es : List (Succ V)} {eff : Effect} {x : Loc} (h : KeyDirty es eff x) :
    ¬ KeyClean es eff x := by
  rintro ⟨e, h1, h2⟩
  obtain ⟨e', h3, h4⟩ := h
  rw [h1] at h3; cases h3; rw [h2] at h4; cases h4

/-- Pointwise: same edges, dirty bits only raised. -/
inductive SuccsUp : List (Succ V) → List (Succ V) → Prop where
  | nil : SuccsUp [] []
  | cons {e e' : Succ V} {es es' : List (Succ V)} : e.edge = e'.edge → (e.dirty = true → e'.dirty = true) →
      SuccsUp es es' → SuccsUp (e :: es) (e' :: es')

theorem SuccsUp.refl : (es : List (Succ V)) → SuccsUp es es
  | [] => .nil
  | _ :: es => .cons rfl id (SuccsUp.refl es)

theorem SuccsUp.trans {a b c : List (Succ V)} (h1 : SuccsUp a b) (h2 : SuccsUp b c) : SuccsUp a c := by
  induction h1 generalizing c with
  | nil => exact h2
  | cons he hd _ ih =>
    cases h2 with
    | cons he' hd' ht => exact .cons (he.trans he') (hd' ∘ hd) (ih ht)

theorem SuccsUp.edges {a b : List (Succ V)} (h : SuccsUp a b) : b.map Succ.edge = a.map Succ.edge := by
  induction h with
  | nil => rfl
  | cons he _ _ ih => simp [he, ih]

theorem SuccsUp.keyClean {a b : List (Succ V)} (h : SuccsUp a b) {eff : Effect} {x : Loc}
    (hk : KeyClean b eff x) : KeyClean a eff x := by
  induction h with
  | nil => exact hk
  | @cons e e' es es' he hd ht ih =>
    obtain ⟨w, h1, h2⟩ := hk
    simp only [List.find?] at h1
    have hm : e.matches eff x = e'.matches eff x := by rw [Succ.matches_edge, Succ.matches_edge, he]
    cases hb : e'.matches eff x
    · simp only [hb] at h1
      obtain ⟨w', h3, h4⟩ := ih ⟨w, h1, h2⟩
      exact ⟨w', by simp only [List.find?, hm, hb]; exact h3, h4⟩
    · simp only [hb] at h1
      cases h1
      refine ⟨e, by simp only [List.find?, hm, hb], ?_⟩
      cases hde : e.dirty
      · rfl
      · rw [hd hde] at h2; cases h2

theorem SuccsUp.keyDirty {a b : List (Succ V)} (h : SuccsUp a b) {eff : Effect} {x : Loc}
    (hk : KeyDirty a eff x) : KeyDirty b eff x := by
  obtain ⟨w, h1, h2⟩ := hk
  have : ∃ e, b.find? (Succ.matches eff x) = some e := by
    rcases hf : b.find? (Succ.matches eff x) with _ | e
    · exfalso
      have hb : (b.map Succ.edge).find? (Edge.matches eff x) = none := by
        rw [List.find?_map]; show Option.map _ (b.find? (Succ.matches eff x)) = none; rw [hf]; rfl
      rw [h.edges, List.find?_map] at hb
      have : Option.map Succ.edge (a.find? (Succ.matches eff x)) = none := hb
      rw [h1] at this; cases this
    · exact ⟨e, rfl⟩
  obtain ⟨e, he⟩ := this
  cases hd : e.dirty
  · exact absurd (h.keyClean ⟨e, he, hd⟩) (not_clean_of_dirty ⟨w, h1, h2⟩)
  · exact ⟨e, he, hd⟩

theorem SuccsUp.mem_right {a b : List (Succ V)} (h : SuccsUp a b) {e' : Succ V} (hm : e' ∈ b) :
    ∃ e ∈ a, e.edge = e'.edge := by
  have : e'.edge ∈ b.map Succ.edge := List.mem_map_of_mem hm
  rw [h.edges, List.mem_map] at this
  obtain ⟨e, h1, h2⟩ := this
  exact ⟨e, h1, h2⟩

theorem SuccsUp.mem_left {a b : List (Succ V)} (h : SuccsUp a b) {e : Succ V} (hm : e ∈ a) :
    ∃ e' ∈ b, e'.edge = e.edge := by
  have : e.edge ∈ a.map Succ.edge := List.mem_map_of_mem hm
  rw [← h.edges, List.mem_map] at this
  obtain ⟨e, h1, h2⟩ := this
  exact ⟨e, h1, h2⟩

theorem SuccsUp.count {a b : List (Succ V)} (h : SuccsUp a b) : cleanCount b ≤ cleanCount a := by
  induction h with
  | nil => exact Nat.le_refl _
  | @cons e e' es es' he hd ht ih =>
    simp only [cleanCount]
    cases h1 : e.dirty <;> cases h2 : e'.dirty <;> simp_all <;> omega

/-! ### `setFirst` -/

theorem setFirst_edges (eff : Effect) (x : Loc) (b : Bool) (es : List (Succ V)) :
    (setFirst eff x b es).map Succ.edge = es.map Succ.edge := by
  induction es with
  | nil => rfl
  | cons e es ih =>
    simp only [setFirst]
    split
    · rfl
    · simp [ih]

theorem setFirst_up (eff : Effect) (x : Loc) (es : List (Succ V)) : SuccsUp es (setFirst eff x true es) := by
  induction es with
  | nil => exact .nil
  | cons e es ih =>
    simp only [setFirst]
    split
    · exact .cons rfl (fun _ => rfl) (SuccsUp.refl es)
    · exact .cons rfl id ih

theorem setFirst_find (eff : Effect) (x : Loc) (b : Bool) (es : List (Succ V)) {e : Succ V}
    (h : es.find? (Succ.matches eff x) = some e) :
    (setFirst eff x b es).find? (Succ.matches eff x) = some { e with dirty := b } := by
  induction es with
  | nil => cases h
  | cons e' es ih =>
    simp only [setFirst]
    simp only [List.find?] at h
    split
    · rename_i hm
      simp only [hm] at h
      cases h
      have : Succ.matches eff x { e with dirty := b } = true := hm
      simp only [List.find?, this]
    · rename_i hm
      have hm' : e'.matches eff x = false := by simpa using hm
      simp only [hm'] at h
      simp only [List.find?, hm']
      exact ih h

theorem setFirst_find_ne (eff : Effect) (x : Loc) (b : Bool) (es : List (Succ V)) {eff' : Effect} {x' : Loc}
    (h : ¬ (eff' = eff ∧ x' = x)) :
    (setFirst eff x b es).find? (Succ.matches eff' x') = es.find? (Succ.matches eff' x') := by
  induction es with
  | nil => rfl
  | cons e es ih =>
    simp only [setFirst]
    split
    · rename_i hm
      rw [Succ.matches_iff] at hm
      have h1 : e.matches eff' x' = false := by
        simp only [Succ.matches, decide_eq_false_iff_not]
        rintro ⟨h2, h3⟩
        exact h ⟨by rw [← h2, hm.1], by rw [← h3, hm.2]⟩
      have h2 : ({ e with dirty := b } : Succ V).matches eff' x' = false := h1
      simp only [List.find?, h1, h2]
    · simp only [List.find?]
      rw [ih]

theorem setFirst_count (eff : Effect) (x : Loc) (es : List (Succ V)) {e : Succ V}
    (h : es.find? (Succ.matches eff x) = some e) (hd : e.dirty = false) :
    cleanCount (setFirst eff x true es) + 1 = cleanCount es := by
  induction es with
  | nil => cases h
  | cons e' es ih =>
    simp only [List.find?] at h
    simp only [setFirst]
    cases hm : e'.matches eff x
    · simp only [hm] at h
      have := ih h
      simp only [cleanCount, Bool.false_eq_true, if_false]
      omega
    · simp only [hm] at h
      cases h
      simp [cleanCount, hd]; omega

theorem setFirst_dirty (eff : Effect) (x : Loc) (es : List (Succ V)) {e : Succ V}
    (h : es.find? (Succ.matches eff x) = some e) : KeyDirty (setFirst eff x true es) eff x :=
  ⟨_, setFirst_find eff x true es h, rfl⟩

theorem setFirst_keyClean_ne {eff : Effect} {x : Loc} {b : Bool} {es : List (Succ V)} {eff' : Effect} {x' : Loc}
    (h : ¬ (eff' = eff ∧ x' = x)) : KeyClean (setFirst eff x b es) eff' x' ↔ KeyClean es eff' x' := by
  simp only [KeyClean, setFirst_find_ne eff x b es h]

theorem setFirst_keyDirty_ne {eff : Effect} {x : Loc} {b : Bool} {es : List (Succ V)} {eff' : Effect} {x' : Loc}
    (h : ¬ (eff' = eff ∧ x' = x)) : KeyDirty (setFirst eff x b es) eff' x' ↔ KeyDirty es eff' x' := by
  simp only [KeyDirty, setFirst_find_ne eff x b es h]

/-! ### Measure of a table -/

theorem tableClean_put (t : Table V) (l : Loc) (n n' : Node V) (h : t.get l = some n) :
    tableClean (t.put l n') + cleanCount n.succsList = tableClean t + cleanCount n'.succsList := by
  induction t with
  | nil => cases h
  | cons hd tl ih =>
    obtain ⟨k, m⟩ := hd
    simp only [Table.get] at h
    simp only [Table.put]
    split
    · rename_i hk
      simp only [hk, if_true] at h
      cases h
      simp only [tableClean]; omega
    · rename_i hk
      simp only [hk, if_false] at h
      have := ih h
      simp only [tableClean]; omega

/-! ### Basic operations in equational form -/

theorem lookupAbs_ok {l : Loc} {s : St V} {n : Node V} (h : s.table.get l = some n) :
    lookupAbs l s = .ok n s := by simp only [lookupAbs, h]

theorem resNode_ok {ty : Ty} {l : Loc} {s : St V} {n : Node V} (h : s.table.get l = some n) (ht : n.ty = ty) :
    resNode ty l s = .ok n s := by
  simp only [resNode, M.bind_def, lookupAbs_ok h, ht, if_true, M.pure_def]

theorem succDirty_ok {p : Loc} {s : St V} {nd : CompNode V} {eff : Effect} {x : Loc} {e : Succ V}
    (h : s.table.get p = some (.comp nd)) (hf : nd.succs.find? (Succ.matches eff x) = some e) :
    succDirty p eff x s = .ok e.dirty s := by
  simp only [succDirty, M.bind_def, lookupAbs_ok h, hf, M.pure_def]

theorem setSuccDirty_ok {p : Loc} {s : St V} {nd : CompNode V} {eff : Effect} {x : Loc} {e : Succ V} (b : Bool)
    (h : s.table.get p = some (.comp nd)) (hf : nd.succs.find? (Succ.matches eff x) = some e) :
    setSuccDirty p eff x b s =
      .ok () { s with table := s.table.put p (.comp { nd with succs := setFirst eff x b nd.succs }) } := by
  simp only [setSuccDirty, M.bind_def, lookupAbs_ok h, hf]; rfl

/-! ### Enough fuel -/

/-- `f` with any large enough recursion depth returns `a` and moves `s` to `s'`. -/
def Runs (env : Env V) [UEq V] (f : Rec V → M V α) (s : St V) (a : α) (s' : St V) : Prop :=
  ∃ N, ∀ n, N ≤ n → f (recN env n) s = .ok a s'

section
variable [UEq V] {env : Env V}

theorem Runs.bind {f : Rec V → M V α} {g : Rec V → α → M V β} {s s1 s2 : St V} {a : α} {b : β}
    (h1 : Runs env f s a s1) (h2 : Runs env (fun R => g R a) s1 b s2) :
    Runs env (fun R => f R >>= g R) s b s2 := by
  obtain ⟨N1, h1⟩ := h1
  obtain ⟨N2, h2⟩ := h2
  refine ⟨max N1 N2, fun n hn => ?_⟩
  show (f (recN env n) >>= g (recN env n)) s = _
  rw [M.bind_def, h1 n (by omega)]
  exact h2 n (by omega)

theorem Runs.const {m : M V α} {s s' : St V} {a : α} (h : m s = .ok a s') : Runs env (fun _ => m) s a s' :=
  ⟨0, fun _ _ => h⟩

theorem Runs.pure {a : α} {s : St V} : Runs env (fun _ => (Pure.pure a : M V α)) s a s := Runs.const rfl

theorem Runs.det {f : Rec V → M V α} {s s1 s2 : St V} {a1 a2 : α} (h1 : Runs env f s a1 s1)
    (h2 : Runs env f s a2 s2) : a1 = a2 ∧ s1 = s2 := by
  obtain ⟨N1, h1⟩ := h1
  obtain ⟨N2, h2⟩ := h2
  have := (h1 (max N1 N2) (by omega)).symm.trans (h2 (max N1 N2) (by omega))
  cases this; exact ⟨rfl, rfl⟩

theorem Runs.ofEq {f : Rec V → M V α} {s s' : St V} {a : α} (h : ∀ R, f R s = .ok a s') : Runs env f s a s' :=
  ⟨0, fun _ _ => h _⟩

theorem Runs.produce {ty : Ty} {l : Loc} {s s' : St V} {v : V}
    (h : Runs env (fun R => produceBody env R ty l) s v s') : Runs env (fun R => R.produce ty l) s v s' := by
  obtain ⟨N, h⟩ := h
  refine ⟨N + 1, fun n hn => ?_⟩
  obtain ⟨m, rfl⟩ : ∃ m, n = m + 1 := ⟨n - 1, by omega⟩
  exact h m (by omega)

theorem Runs.cleanForce {ty : Ty} {res : V} {l : Loc} {s s' : St V} {b : Bool}
    (h : Runs env (fun R => cleanForceBody R ty res l) s b s') :
    Runs env (fun R => R.cleanForce ty res l) s b s' := by
  obtain ⟨N, h⟩ := h
  refine ⟨N + 1, fun n hn => ?_⟩
  obtain ⟨m, rfl⟩ : ∃ m, n = m + 1 := ⟨n - 1, by omega⟩
  exact h m (by omega)

theorem Runs.run {p : Prog V} {s s' : St V} {v : V}
    (h : Runs env (fun R => runProg env R p) s v s') : Runs env (fun R => R.run p) s v s' := by
  obtain ⟨N, h⟩ := h
  refine ⟨N + 1, fun n hn => ?_⟩
  obtain ⟨m, rfl⟩ : ∃ m, n = m + 1 := ⟨n - 1, by omega⟩
  exact h m (by omega)
end

/-- Has the running thunk already observed `x`? -/
def dupOf (s : St V) (x : Loc) : Bool :=
  match s.stack with
  | [] => false
  | fr :: _ => fr.succs.any fun p => decide (p.1.loc = x ∧ p.1.effect = .observe)

end Adapton
