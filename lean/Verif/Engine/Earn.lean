import Verif.Engine.Stay
import Verif.Engine.Cost
/-
How often thunks are run: every run of a thunk is paid for by an allocation (of a new thunk, or with another argument) or by an edge that was examined and found changed.  For every program and every
state; but only as long as no thunk is run twice between the two states, or while it is running.
-/
set_option linter.unusedSectionVars false
set_option linter.unusedVariables false
set_option linter.unusedSimpArgs false
namespace Adapton
variable {V α β : Type} [UEq V]

/-- Allocations of thunks that are new, or that change the argument, as the trace says. -/
def newThunks : List Ev → Nat
  | [] => 0
  | .begin (.alloc .locFresh .thunk) _ _ :: es => newThunks es + 1
  | .begin (.alloc (.locExists true) .thunk) _ _ :: es => newThunks es + 1
  | _ :: es => newThunks es

/-- A thunk without a result. -/
def Node.blank : Node V → Bool
  | .comp nd => nd.res.isNone
  | _ => false

/-- Number of thunks without a result, apart from the locations `K`. -/
def missing : List Loc → Table V → Nat
  | _, [] => 0
  | K, (l, n) :: t => (if n.blank = true ∧ l ∉ K then 1 else 0) + missing (l :: K) t

theorem missing_congr {K K' : List Loc} (t : Table V) (h : ∀ x, x ∈ K ↔ x ∈ K') : missing K t = missing K' t := by
  induction t generalizing K K' with
  | nil => rfl
  | cons a t ih =>
    obtain ⟨l, n⟩ := a
    simp only [missing, h l]
    rw [ih (K := l :: K) (K' := l :: K') (fun x => by simp only [List.mem_cons, h x])]

theorem missing_same {t : Table V} {l : Loc} {n n' : Node V} (hg : t.get l = some n) (h : n'.blank = n.blank) (K : List Loc) :
    missing K (t.put l n') = missing K t := by
  induction t generalizing K with
  | nil => cases hg
  | cons a t ih =>
    obtain ⟨k, m⟩ := a
    simp only [Table.get] at hg
    simp only [Table.put]
    by_cases hk : k = l
    · rw [if_pos hk] at hg ⊢
      cases hg
      simp only [missing, h]
    · rw [if_neg hk] at hg ⊢
      simp only [missing, ih hg]

theorem missing_put (t : Table V) (l : Loc) (n' : Node V) (K : List Loc) : missing K (t.put l n') ≤ missing K t + 1 := by
  induction t generalizing K with
  | nil => simp only [Table.put, missing]; split <;> omega
  | cons a t ih =>
    obtain ⟨k, m⟩ := a
    simp only [Table.put]
    by_cases hk : k = l
    · rw [if_pos hk]
      simp only [missing]
      split <;> split <;> omega
    · rw [if_neg hk]
      have := ih (k :: K)
      simp only [missing]; omega

theorem missing_done (t : Table V) (l : Loc) (n' : Node V) (h : n'.blank = false) (K : List Loc) : missing K (t.put l n') ≤ missing (l :: K) t := by
  induction t generalizing K with
  | nil => simp [Table.put, missing, h]
  | cons a t ih =>
    obtain ⟨k, m⟩ := a
    simp only [Table.put]
    by_cases hk : k = l
    · rw [if_pos hk]
      subst hk
      simp only [missing, h]
      rw [missing_congr (K := k :: k :: K) (K' := k :: K) t (fun x => by simp)]
      simp
    · rw [if_neg hk]
      have := ih (k :: K)
      simp only [missing]
      rw [missing_congr (K := k :: l :: K) (K' := l :: k :: K) t (fun x => by simp only [List.mem_cons]; constructor <;> (rintro (h | h | h) <;> simp [h]))]
      have h2 : (k ∉ l :: K) ↔ k ∉ K := by simp [hk]
      simp only [h2]
      omega

/-- Writing something that is not a thunk without result. -/
theorem missing_full (t : Table V) (l : Loc) (n' : Node V) (h : n'.blank = false) (K : List Loc) : missing K (t.put l n') ≤ missing K t := by
  induction t generalizing K with
  | nil => simp [Table.put, missing, h]
  | cons a t ih =>
    obtain ⟨k, m⟩ := a
    simp only [Table.put]
    by_cases hk : k = l
    · rw [if_pos hk]; simp [missing, h]
    · rw [if_neg hk]
      have := ih (k :: K)
      simp only [missing]; omega

theorem missing_push (t : Table V) (l : Loc) (K : List Loc) : missing (l :: K) t ≤ missing K t := by
  induction t generalizing K with
  | nil => exact Nat.le_refl _
  | cons a t ih =>
    obtain ⟨k, m⟩ := a
    have := ih (k :: K)
    simp only [missing]
    rw [missing_congr (K := k :: l :: K) (K' := l :: k :: K) t (fun x => by simp only [List.mem_cons]; constructor <;> (rintro (h | h | h) <;> simp [h]))]
    have h2 : (m.blank = true ∧ k ∉ l :: K) → (m.blank = true ∧ k ∉ K) := fun h => ⟨h.1, fun h3 => h.2 (List.mem_cons_of_mem _ h3)⟩
    by_cases h3 : m.blank = true ∧ k ∉ l :: K
    · rw [if_pos h3, if_pos (h2 h3)]; omega
    · rw [if_neg h3]; omega

theorem missing_start {t : Table V} {l : Loc} {n : Node V} (hg : t.get l = some n) (h : n.blank = true) {K : List Loc} (hl : l ∉ K) :
    missing (l :: K) t + 1 ≤ missing K t := by
  induction t generalizing K with
  | nil => cases hg
  | cons a t ih =>
    obtain ⟨k, m⟩ := a
    simp only [Table.get] at hg
    simp only [missing]
    by_cases hk : k = l
    · rw [if_pos hk] at hg
      cases hg; subst hk
      rw [if_neg (by simp), if_pos ⟨h, hl⟩]
      rw [missing_congr (K := k :: k :: K) (K' := k :: K) t (fun x => by simp)]
      omega
    · rw [if_neg hk] at hg
      have := ih hg (K := k :: K) (by simp [Ne.symm hk, hl])
      rw [missing_congr (K := k :: l :: K) (K' := l :: k :: K) t (fun x => by simp only [List.mem_cons]; constructor <;> (rintro (h | h | h) <;> simp [h]))]
      have h2 : (k ∉ l :: K) ↔ k ∉ K := by simp [hk]
      simp only [h2]
      omega

/-! ### Accounts -/

/-- The runs of thunks, the edges found unchanged, the runs still due. -/
def spent (s : St V) : Nat := s.runs.length + cleanings s.log + missing s.locs s.table
/-- The edges examined and the thunks allocated. -/
def earned (s : St V) : Nat := cleanRecs s.log + newThunks s.log + structurals s.table
/-- Between the two states, with `i` paid in advance at the start and `j` at the end. -/
def EarnTo (i j : Nat) (s s' : St V) : Prop := spent s' + earned s + j ≤ spent s + earned s' + i
def Earn (s s' : St V) : Prop := EarnTo 0 0 s s'

def ERes (i j : Nat) (s : St V) : Out V α → Prop
  | .ok _ s' => s'.locs = s.locs ∧ ∃ rs, s'.runs = rs ++ s.runs ∧ ((rs ++ s.locs).Nodup → EarnTo i j s s')
  | .panic _ _ => True
  | .oof => True
def Earns (i j : Nat) (m : M V α) : Prop := ∀ s, ERes i j s (m s)

theorem ERes.bind {i j k : Nat} {m : M V α} {f : α → M V β} {s : St V} (h1 : ERes i j s (m s))
    (h2 : ∀ a s', m s = .ok a s' → ERes j k s' (f a s')) : ERes i k s ((m >>= f) s) := by
  rw [M.bind_def]
  rcases hm : m s with ⟨a, s'⟩ | ⟨e, s'⟩ | _
  · rw [hm] at h1
    have h3 := h2 a s' hm
    simp only []
    obtain ⟨g1, rs1, g2, g3⟩ := h1
    rcases hf : f a s' with ⟨b, s2⟩ | ⟨e, s2⟩ | _
    · rw [hf] at h3
      obtain ⟨k1, rs2, k2, k3⟩ := h3
      refine ⟨k1.trans g1, rs2 ++ rs1, by rw [k2, g2, List.append_assoc], fun hn => ?_⟩
      rw [List.append_assoc] at hn
      have a1 := g3 (List.nodup_append.1 hn).2.1
      have a2 := k3 (by
        rw [g1]
        rw [List.nodup_append] at hn ⊢
        obtain ⟨n1, n2, n3⟩ := hn
        exact ⟨n1, (List.nodup_append.1 n2).2.1, fun x hx y hy => n3 x hx y (List.mem_append_right _ hy)⟩)
      unfold EarnTo at *; omega
    · trivial
    · trivial
  · trivial
  · trivial
theorem ERes.wk {i j i' j' : Nat} {s : St V} {o : Out V α} (h : ERes i j s o) (hi : i + j' ≤ i' + j) : ERes i' j' s o := by
  match o with
  | .ok a s' =>
    obtain ⟨h1, rs, h2, h3⟩ := h
    refine ⟨h1, rs, h2, fun hn => ?_⟩
    have := h3 hn
    unfold EarnTo at *; omega
  | .panic e s' => trivial
  | .oof => trivial
theorem Earns.wk {i j i' j' : Nat} {m : M V α} (h : Earns i j m) (hi : i + j' ≤ i' + j := by omega) : Earns i' j' m := fun s => (h s).wk hi
theorem Earns.keep {i : Nat} {m : M V α} (h : Earns 0 0 m) : Earns i i m := h.wk
theorem Earns.bind {i j k : Nat} {m : M V α} {f : α → M V β} (h1 : Earns i j m) (h2 : ∀ a, Earns j k (f a)) : Earns i k (m >>= f) :=
  fun s => ERes.bind (h1 s) fun a s' _ => h2 a s'
theorem ERes.same {a : α} {s s' : St V} (h1 : s'.locs = s.locs) (h2 : s'.runs = s.runs) (h3 : EarnTo 0 0 s s') : ERes 0 0 s (.ok a s') := ⟨h1, [], h2, fun _ => h3⟩
theorem ERes.refl (a : α) (s : St V) : ERes 0 0 s (.ok a s) := .same rfl rfl (Nat.le_refl _)
theorem Earns.pure {i j : Nat} (a : α) (h : j ≤ i := by omega) : Earns i j (Pure.pure a : M V α) := Earns.wk (i := 0) (j := 0) (fun s => ERes.refl a s)
theorem Earns.panic {i j : Nat} (e : Err) : Earns i j (M.panic e : M V α) := fun _ => trivial
theorem Earns.get : Earns 0 0 (M.get : M V (St V)) := fun s => ERes.refl s s
theorem Earns.ite {i j : Nat} {c : Prop} [Decidable c] {m1 m2 : M V α} (h1 : Earns i j m1) (h2 : Earns i j m2) :
    Earns i j (if c then m1 else m2) := by
  split
  · exact h1
  · exact h2
theorem ERes.ite {i j : Nat} {c : Prop} [Decidable c] {m1 m2 : M V α} {s : St V} (h1 : ERes i j s (m1 s)) (h2 : ERes i j s (m2 s)) :
    ERes i j s ((if c then m1 else m2) s) := by
  split
  · exact h1
  · exact h2
theorem Reads.earns {m : M V α} (h : Reads m) {i : Nat} : Earns i i m := by
  refine Earns.keep fun s => ?_
  rcases h s with ⟨a, h⟩ | ⟨e, h⟩
  · rw [h]; exact ERes.refl a s
  · rw [h]; trivial

theorem newThunks_mono (evs l : List Ev) : newThunks l ≤ newThunks (evs ++ l) := by
  induction evs with
  | nil => exact Nat.le_refl _
  | cons e evs ih =>
    refine Nat.le_trans ih ?_
    show newThunks (evs ++ l) ≤ newThunks (e :: (evs ++ l))
    generalize evs ++ l = r
    rcases e with ⟨⟨c, k⟩ | c | _ | _ | _ | _ | _, a, b⟩ | _ | ⟨e, a, b⟩
    · rcases c with _ | ⟨_ | _⟩ <;> cases k <;> first | exact Nat.le_refl _ | exact Nat.le_succ _
    all_goals exact Nat.le_refl _
theorem cleanRecs_mono (evs l : List Ev) : cleanRecs l ≤ cleanRecs (evs ++ l) := by
  induction evs with
  | nil => exact Nat.le_refl _
  | cons e evs ih =>
    refine Nat.le_trans ih ?_
    show cleanRecs (evs ++ l) ≤ cleanRecs (e :: (evs ++ l))
    generalize evs ++ l = r
    rcases e with ⟨⟨c, k⟩ | c | _ | _ | _ | _ | _, a, b⟩ | _ | ⟨e, a, b⟩ <;> first | exact Nat.le_refl _ | exact Nat.le_succ _

/-- Events other than those that mark an edge clean. -/
theorem Earns.ev (e : Ev) (i : Nat) (h : ∀ lg, cleanings (e :: lg) = cleanings lg)
    (hi : ∀ lg, cleanRecs lg + newThunks lg + i ≤ cleanRecs (e :: lg) + newThunks (e :: lg)) :
    Earns (V := V) 0 i (M.modify fun s => { s with log := e :: s.log }) := by
  intro s
  refine ⟨rfl, [], rfl, fun _ => ?_⟩
  have h1 := h s.log
  have h2 := hi s.log
  unfold EarnTo spent earned
  show s.runs.length + cleanings (e :: s.log) + missing s.locs s.table + _ + _ ≤ _ + (cleanRecs (e :: s.log) + newThunks (e :: s.log) + structurals s.table) + _
  omega
theorem Earns.ev0 (e : Ev) (h : ∀ lg, cleanings (e :: lg) = cleanings lg) : Earns (V := V) 0 0 (M.modify fun s => { s with log := e :: s.log }) :=
  Earns.ev e 0 h fun lg => by
    have h1 := cleanRecs_mono [e] lg
    have h2 := newThunks_mono [e] lg
    simp only [List.cons_append, List.nil_append] at h1 h2
    omega
theorem Earns.evBegin (e : TEff) (src : Option Loc) (tgt : Loc) : Earns 0 0 (evBegin e src tgt : M V Unit) := Earns.ev0 _ fun _ => rfl
theorem Earns.evEnd : Earns 0 0 (evEnd : M V Unit) := Earns.ev0 _ fun _ => rfl
theorem Earns.evEff (e : TEff) (src : Option Loc) (tgt : Loc) (h : e ≠ .cleanEdge) : Earns 0 0 (evEff e src tgt : M V Unit) :=
  Earns.ev0 _ fun _ => by cases e <;> first | rfl | exact absurd rfl h
theorem Earns.cleanEdge (src : Option Loc) (tgt : Loc) : Earns 1 0 (Adapton.evEff .cleanEdge src tgt : M V Unit) := by
  intro s
  refine ⟨rfl, [], rfl, fun _ => ?_⟩
  unfold EarnTo spent earned
  show s.runs.length + (cleanings s.log + 1) + missing s.locs s.table + _ + _ ≤ _ + (cleanRecs s.log + newThunks s.log + structurals s.table) + _
  omega
theorem Earns.cleanRec (src : Option Loc) (tgt : Loc) : Earns 0 1 (Adapton.evBegin .cleanRec src tgt : M V Unit) :=
  Earns.ev _ 1 (fun _ => rfl) fun lg => by simp only [cleanRecs, newThunks]; omega
theorem Earns.fresh (src : Option Loc) (tgt : Loc) : Earns 0 1 (Adapton.evBegin (.alloc .locFresh .thunk) src tgt : M V Unit) :=
  Earns.ev _ 1 (fun _ => rfl) fun lg => by simp only [cleanRecs, newThunks]; omega
theorem Earns.changed (src : Option Loc) (tgt : Loc) : Earns 0 1 (Adapton.evBegin (.alloc (.locExists true) .thunk) src tgt : M V Unit) :=
  Earns.ev _ 1 (fun _ => rfl) fun lg => by simp only [cleanRecs, newThunks]; omega

theorem Earns.modify (f : St V → St V) (h1 : ∀ s, (f s).table = s.table) (h2 : ∀ s, (f s).log = s.log) (h3 : ∀ s, (f s).stack = s.stack)
    (h4 : ∀ s, (f s).runs = s.runs) : Earns 0 0 (M.modify f) := by
  intro s
  refine ERes.same (by unfold St.locs; rw [h3]) (h4 s) ?_
  unfold EarnTo spent earned St.locs
  rw [h1, h2, h3, h4]
  exact Nat.le_refl _

theorem Earns.recordEdge (e : Succ V) (d : Option (Dep V)) : Earns 0 0 (recordEdge e d) := by
  intro s
  unfold Adapton.recordEdge
  rw [M.modify_def]
  rcases hk : s.stack with _ | ⟨fr, K⟩
  · exact ERes.same rfl rfl (Nat.le_refl _)
  · have hl : (⟨s.table, { fr with succs := fr.succs ++ [(e, d)] } :: K, s.path, s.purity, s.ignoreNominal, s.log, s.runs⟩ : St V).locs = s.locs := by
      unfold St.locs; rw [hk]; rfl
    refine ERes.same hl rfl ?_
    unfold EarnTo spent earned
    simp only []
    rw [hl]
    exact Nat.le_refl _

/-- Writing a node. -/
theorem ERes.put {s : St V} (l : Loc) (n : Node V) {i : Nat} (h : missing s.locs (s.table.put l n) ≤ missing s.locs s.table + i) : ERes i 0 s (putNode l n s) := by
  refine ⟨rfl, [], rfl, fun _ => ?_⟩
  have h2 := structurals_put s.table l n
  unfold EarnTo spent earned
  show s.runs.length + cleanings s.log + missing s.locs (s.table.put l n) + _ + _ ≤ _ + (cleanRecs s.log + newThunks s.log + structurals (s.table.put l n)) + _
  omega
theorem ERes.putSame {s : St V} {l : Loc} {n n' : Node V} (hg : s.table.get l = some n) (h : n'.blank = n.blank) : ERes 0 0 s (putNode l n' s) :=
  ERes.put l n' (Nat.le_of_eq (missing_same hg h _))
theorem Earns.putFull (l : Loc) (n : Node V) (h : n.blank = false) : Earns 0 0 (putNode l n) := fun s => ERes.put l n (missing_full _ _ _ h _)
theorem Earns.putAny (l : Loc) (n : Node V) : Earns 1 0 (putNode l n) := fun s => ERes.put l n (missing_put _ _ _ _)

theorem setSuccDirty_earns (p : Loc) (eff : Effect) (x : Loc) (v : Bool) : Earns 0 0 (setSuccDirty p eff x v : M V Unit) := by
  intro s
  refine ERes.bind ((lookupAbs_reads p).earns s) fun n s' h => ?_
  obtain ⟨rfl, h⟩ := lookupAbs_inv h
  match n with
  | .comp nd =>
    rcases hf : nd.succs.find? (Succ.matches eff x) with _ | e
    · simp only [hf]; trivial
    · simp only [hf]; exact ERes.putSame h rfl
  | .mut nd => trivial
  | .pure nd => trivial

theorem removePred_earns (src tgt : Loc) : Earns 0 0 (removePred src tgt : M V Unit) := by
  refine Earns.bind (Earns.evEff _ _ _ (by simp)) fun _ s => ?_
  refine ERes.bind ((lookupAbs_reads tgt).earns s) fun n s' h => ?_
  obtain ⟨rfl, h⟩ := lookupAbs_inv h
  match n with
  | .comp nd => exact ERes.putSame h rfl
  | .mut nd => exact ERes.putSame h rfl
  | .pure nd => trivial

theorem revokeSuccs_earns (src : Loc) (es : List (Succ V)) : Earns 0 0 (revokeSuccs src es) := by
  induction es with
  | nil => exact Earns.pure _
  | cons e es ih => exact Earns.bind (removePred_earns _ _) fun _ => ih

theorem dirtyLoop_earns (rec : Loc → M V Unit) (hrec : ∀ p, Earns 0 0 (rec p)) (l : Loc)
    (ps : List (Loc × Option (Dep V))) : Earns 0 0 (dirtyLoop rec l ps) := by
  induction ps with
  | nil => exact Earns.pure _
  | cons q ps ih =>
    obtain ⟨p, d⟩ := q
    refine Earns.bind ?_ fun _ => ih
    refine Earns.bind (dirtyStop_reads d l).earns fun st => Earns.ite (Earns.pure _) ?_
    refine Earns.bind (succDirty_reads p .observe l).earns fun bb => Earns.ite (Earns.pure _) (Earns.ite (Earns.panic _) ?_)
    exact Earns.bind (Earns.evBegin _ _ _) fun _ => Earns.bind (setSuccDirty_earns _ _ _ _) fun _ =>
      Earns.bind (hrec p) fun _ => Earns.evEnd

theorem dirtyPreds_earns : ∀ (k : Nat) (l : Loc), Earns 0 0 (dirtyPreds k l : M V Unit) := by
  intro k
  induction k with
  | zero => intro l s; trivial
  | succ k ih =>
    intro l
    refine Earns.bind (lookupAbs_reads l).earns fun n => ?_
    show Earns 0 0 (match n.predsObs with | some ps => _ | none => _)
    split
    · exact dirtyLoop_earns _ ih l _
    · exact Earns.panic _

theorem dirtyPredsTop_earns (l : Loc) : Earns 0 0 (dirtyPredsTop l : M V Unit) := fun s => dirtyPreds_earns _ l s

theorem dirtyAllocLoop_earns (l : Loc) (ps : List Loc) : Earns 0 0 (dirtyAllocLoop l ps : M V Unit) := by
  induction ps with
  | nil => exact Earns.pure _
  | cons p ps ih =>
    refine Earns.bind ?_ fun _ => ih
    refine Earns.bind (succDirty_reads p .allocate l).earns fun bb => Earns.ite (Earns.pure _) ?_
    refine Earns.bind (setSuccDirty_earns _ _ _ _) fun _ => Earns.ite (Earns.panic _) ?_
    exact Earns.bind (Earns.evBegin _ _ _) fun _ => Earns.bind (dirtyPredsTop_earns _) fun _ => Earns.evEnd

theorem dirtyAlloc_earns (l : Loc) : Earns 0 0 (dirtyAlloc l : M V Unit) := by
  refine Earns.bind (dirtyPredsTop_earns _) fun _ => Earns.bind (lookupAbs_reads l).earns fun n => ?_
  show Earns 0 0 (match n.predsAlloc with | some ps => _ | none => _)
  split
  · exact dirtyAllocLoop_earns _ _
  · exact Earns.panic _

theorem setCell_earns (ty : Ty) (l : Loc) (v : V) : Earns 0 0 (setCell ty l v) := by
  refine Earns.bind (resNode_reads ty l).earns fun n => ?_
  match n with
  | .comp nd => exact Earns.panic _
  | .pure nd => exact Earns.panic _
  | .mut nd =>
    show Earns 0 0 (if nd.val ≈ᵤ v then _ else _ : M V Unit)
    exact Earns.ite (Earns.pure _) (Earns.bind (Earns.putFull _ _ rfl) fun _ => dirtyAlloc_earns _)

theorem opSet_earns (ty : Ty) (l : Loc) (v : V) : Earns 0 0 (opSet ty l v) :=
  Earns.bind Earns.get fun s => Earns.ite (setCell_earns _ _ _) (Earns.panic _)

theorem cellTable_earns (ty : Ty) (l : Loc) (v : V) (pu : Bool) : Earns 0 0 (cellTable ty l v pu) := by
  intro s
  refine ERes.bind (Earns.get s) fun s0 s1 h0 => ?_
  cases h0
  rcases hg : s.table.get l with _ | n0
  · simp only [hg]
    exact Earns.bind (Earns.evBegin _ _ _) (fun _ => Earns.bind Earns.evEnd fun _ => Earns.putFull _ _ (by split <;> rfl)) s
  · simp only [hg]
    refine ERes.bind ((resNode_reads ty l).earns s) fun n s1 h1 => ?_
    refine Earns.bind (Earns.evBegin _ _ _) (fun _ => ?_) s1
    match n with
    | .mut nd => exact Earns.bind (setCell_earns ty l v) fun _ => Earns.evEnd
    | .comp nd => exact Earns.bind (dirtyAlloc_earns l) fun _ => Earns.bind (revokeSuccs_earns l nd.succs) fun _ => Earns.evEnd
    | .pure nd => exact Earns.evEnd

theorem opCell_earns (env : Env V) (ty : Ty) (nm : Name) (v : V) : Earns 0 0 (opCell env ty nm v) := by
  refine Earns.bind Earns.get fun s => Earns.bind (cellTable_earns _ _ _ _) fun _ => Earns.bind (j := 0) ?_ fun _ => Earns.pure _
  unfold cellRecord
  exact Earns.ite (Earns.pure _) (Earns.recordEdge _ _)

theorem thunkStructural_earns (env : Env V) (ty : Ty) (pp : ProgPt) (fn : FnId) (arg : V) : Earns 0 0 (thunkStructural env ty pp fn arg) := by
  intro s
  refine ERes.bind (Earns.get s) fun s0 s1 h0 => ?_
  cases h0
  rcases hg : s.table.get (⟨s.path, .structural (env.hashApp pp arg)⟩ : Loc) with _ | n0
  · simp only [hg]
    refine ERes.bind (Earns.recordEdge _ _ s) fun _ s1 h1 => ?_
    have ht : s1.table = s.table := by
      unfold recordEdge at h1
      rw [M.modify_def] at h1
      cases h1
      split <;> rfl
    refine ERes.bind (j := 0) ?_ fun _ s2 _ => ERes.refl _ _
    refine ⟨rfl, [], rfl, fun _ => ?_⟩
    have h1 := structurals_insert s1.table s.path (env.hashApp pp arg) (.comp ⟨ty, [], [], pp, fn, arg, none⟩ : Node V) (by rw [ht]; exact hg)
    have h2 := missing_put s1.table ⟨s.path, .structural (env.hashApp pp arg)⟩ (.comp ⟨ty, [], [], pp, fn, arg, none⟩ : Node V) s1.locs
    unfold EarnTo spent earned
    show s1.runs.length + cleanings s1.log + missing s1.locs (s1.table.put _ _) + _ + _ ≤ _ + (cleanRecs s1.log + newThunks s1.log + structurals (s1.table.put _ _)) + _
    omega
  · simp only [hg]; exact ERes.refl _ _

theorem thunkNominal_earns (ty : Ty) (nm : Name) (pp : ProgPt) (fn : FnId) (arg : V) : Earns 0 0 (thunkNominal ty nm pp fn arg) := by
  intro s
  refine ERes.bind (Earns.get s) fun s0 s1 h0 => ?_
  cases h0
  rcases hg : s.table.get (⟨s.path, .nominal nm⟩ : Loc) with _ | n0
  · simp only [hg]
    exact Earns.bind (Earns.fresh _ _) (fun _ => Earns.bind Earns.evEnd.keep fun _ => Earns.bind (Earns.recordEdge _ _).keep fun _ =>
      Earns.bind (Earns.putAny _ _) fun _ => Earns.pure _) s
  · simp only [hg]
    refine ERes.bind ((resNode_reads ty _).earns s) fun n s1 h1 => ?_
    obtain ⟨rfl, h1, h2⟩ := resNode_inv h1
    match n with
    | .pure _ => trivial
    | .mut mn =>
      simp only []
      exact Earns.bind (Earns.changed _ _) (fun _ => Earns.bind (dirtyAlloc_earns _).keep fun _ => Earns.bind Earns.evEnd.keep fun _ =>
        Earns.bind (Earns.recordEdge _ _).keep fun _ => Earns.bind (Earns.putAny _ _) fun _ => Earns.pure _) _
    | .comp c =>
      simp only []
      by_cases hpp : c.pp = pp
      · rw [if_pos hpp]
        by_cases ha : c.arg ≈ᵤ arg
        · rw [if_pos ha]
          exact Earns.bind (Earns.evBegin _ _ _) (fun _ => Earns.bind Earns.evEnd fun _ => Earns.bind (Earns.recordEdge _ _) fun _ => Earns.pure _) _
        · rw [if_neg ha]
          have hc : Earns (V := V) 0 0 (do
              putNode (⟨s1.path, .nominal nm⟩ : Loc) (.comp { c with arg := arg, res := none })
              evBegin (.alloc (.locExists true) .thunk) (topLoc s1) (⟨s1.path, .nominal nm⟩ : Loc)
              dirtyAlloc (⟨s1.path, .nominal nm⟩ : Loc)
              evEnd
              recordEdge ⟨false, ⟨s1.path, .nominal nm⟩, .allocate, .allocNom arg⟩ none
              Pure.pure (⟨s1.path, .nominal nm⟩ : Loc)) :=
            Earns.wk (i := 1) (j := 1) (Earns.bind (Earns.putAny _ _) fun _ => Earns.bind (Earns.changed _ _) fun _ => Earns.bind (dirtyAlloc_earns _).keep fun _ =>
              Earns.bind Earns.evEnd.keep fun _ => Earns.bind (Earns.recordEdge _ _).keep fun _ => Earns.pure _)
          exact hc s1
      · rw [if_neg hpp]; trivial

theorem opThunk_earns (env : Env V) (ty : Ty) (nc : NameChoice) (pp : ProgPt) (fn : FnId) (arg : V) :
    Earns 0 0 (opThunk env ty nc pp fn arg) := by
  refine Earns.bind Earns.get fun s => ?_
  match nc with
  | .eager => exact Earns.panic _
  | .naive => exact Earns.panic _
  | .structural => exact thunkStructural_earns _ _ _ _ _
  | .nominal nm => exact Earns.ite (thunkStructural_earns _ _ _ _ _) (thunkNominal_earns _ _ _ _ _)

/-- `l` is a thunk without a result. -/
def BlankAt (s : St V) (l : Loc) : Prop := ∃ n, s.table.get l = some n ∧ n.blank = true

/-- What the recursive calls guarantee: a run is paid for in advance, unless the thunk has no result. -/
structure REarns (R : Rec V) : Prop where
  produce : ∀ ty l, Earns 1 0 (R.produce ty l)
  blank : ∀ ty l s, BlankAt s l → ERes 0 0 s (R.produce ty l s)
  cleanForce : ∀ ty r l, Earns 0 0 (R.cleanForce ty r l)
  run : ∀ p, Earns 0 0 (R.run p)

theorem evBegin_table {e : TEff} {src : Option Loc} {tgt : Loc} {s s' : St V} (h : evBegin e src tgt s = .ok () s') : s'.table = s.table := by
  cases h; rfl

theorem opForce_earns {R : Rec V} (hR : REarns R) (ty : Ty) (l : Loc) (cyc : Option V) : Earns 0 0 (opForce R ty l cyc) := by
  intro s
  refine ERes.bind (Earns.get s) fun s0 s1 h0 => ?_
  cases h0
  refine ERes.bind ((resNode_reads ty _).earns s) fun n s1 h1 => ?_
  obtain ⟨rfl, h1, -⟩ := resNode_inv h1
  have hrec : ∀ (c : Bool) (r : V), Earns 0 0 (if c then (Pure.pure r : M V V) else do
      recordEdge ⟨false, l, .observe, .force ty r⟩ none; Pure.pure r) := fun c r =>
    Earns.ite (Earns.pure _) (Earns.bind (Earns.recordEdge _ _) fun _ => Earns.pure _)
  match n with
  | .pure nd => exact Earns.bind (Earns.evEff _ _ _ (by simp)) (fun _ => Earns.pure _) _
  | .mut nd => exact Earns.bind (Earns.evEff _ _ _ (by simp)) (fun _ => hrec _ _) _
  | .comp nd =>
    simp only []
    split
    · match cyc with
      | none => trivial
      | some out =>
        exact Earns.bind (Earns.evBegin _ _ _) (fun _ => Earns.bind Earns.evEnd fun _ => Earns.ite (Earns.pure _) (hrec _ _)) _
    · rcases hres : nd.res with _ | r
      · simp only []
        refine ERes.bind (Earns.evBegin _ _ _ _) fun _ s2 h2 => ?_
        have ht := evBegin_table h2
        refine ERes.ite trivial ?_
        refine ERes.bind (hR.blank ty l s2 ⟨_, by rw [ht]; exact h1, by simp [Node.blank, hres]⟩) fun r s3 _ => ?_
        exact Earns.bind Earns.evEnd (fun _ => Earns.ite (Earns.pure _) (hrec _ _)) _
      · simp only []
        refine Earns.bind (Earns.evBegin _ _ _) (fun _ => Earns.bind (hR.cleanForce ty r l) fun b => Earns.bind Earns.evEnd fun _ =>
          Earns.bind (resNode_reads ty _).earns fun n' => ?_) _
        match n' with
        | .comp nd' =>
          rcases hr' : nd'.res with _ | r'
          · simp only [hr']; exact Earns.panic _
          · simp only [hr']; exact Earns.ite (Earns.pure _) (hrec _ _)
        | .mut _ => exact Earns.panic _
        | .pure _ => exact Earns.panic _

theorem opForceMap_earns {R : Rec V} (hR : REarns R) (ty : Ty) (l : Loc) (f : V → V) : Earns 0 0 (opForceMap R ty l f) := by
  refine Earns.bind Earns.get fun s => Earns.bind (resNode_reads ty l).earns fun n => ?_
  match n with
  | .mut nd => exact Earns.bind (Earns.evEff _ _ _ (by simp)) fun _ => Earns.bind (Earns.recordEdge _ _) fun _ => Earns.pure _
  | .comp nd => exact Earns.bind (opForce_earns hR _ _ _) fun _ => Earns.pure _
  | .pure nd => exact Earns.bind (opForce_earns hR _ _ _) fun _ => Earns.pure _
theorem opForceAbs_earns {R : Rec V} (hR : REarns R) (ty : Ty) (l : Loc) (f : V → V) : Earns 0 0 (opForceAbs R ty l f) := by
  refine Earns.bind Earns.get fun s => Earns.bind (resNode_reads ty l).earns fun n => ?_
  match n with
  | .mut nd => exact Earns.bind (Earns.evEff _ _ _ (by simp)) fun _ => Earns.bind (Earns.recordEdge _ _) fun _ => Earns.pure _
  | .comp nd => exact Earns.bind (opForce_earns hR _ _ _) fun _ => Earns.pure _
  | .pure nd => exact Earns.bind (opForce_earns hR _ _ _) fun _ => Earns.pure _

theorem runProg_earns (env : Env V) {R : Rec V} (hR : REarns R) (p : Prog V) : Earns 0 0 (runProg env R p) := by
  induction p with
  | ret v => exact Earns.pure _
  | force ty l cyc k ih => exact Earns.bind (opForce_earns hR _ _ _) ih
  | forceMap ty l f k ih => exact Earns.bind (opForceMap_earns hR _ _ _) ih
  | forceAbs ty l f k ih => exact Earns.bind (opForceAbs_earns hR _ _ _) ih
  | cell ty n v k ih => exact Earns.bind (opCell_earns _ _ _ _) ih
  | thunk ty nc pp fn arg k ih => exact Earns.bind (opThunk_earns _ _ _ _ _ _) ih
  | set ty l v k ih => exact Earns.bind (opSet_earns _ _ _) fun _ => ih
  | ns n body k ihb ih =>
    exact Earns.bind Earns.get fun s => Earns.bind (Earns.modify _ (fun _ => rfl) (fun _ => rfl) (fun _ => rfl) (fun _ => rfl)) fun _ =>
      Earns.bind ihb fun v => Earns.bind (Earns.modify _ (fun _ => rfl) (fun _ => rfl) (fun _ => rfl) (fun _ => rfl)) fun _ => ih v
  | structural body k ihb ih =>
    exact Earns.bind Earns.get fun s => Earns.bind (Earns.modify _ (fun _ => rfl) (fun _ => rfl) (fun _ => rfl) (fun _ => rfl)) fun _ =>
      Earns.bind ihb fun v => Earns.bind (Earns.modify _ (fun _ => rfl) (fun _ => rfl) (fun _ => rfl) (fun _ => rfl)) fun _ => ih v
  | call fn arg k ih => exact Earns.bind (hR.run _) ih
  | panic => exact Earns.panic _

/-- What installing the predecessor records leaves as it is. -/
theorem installPreds_same (l : Loc) (es : List (Succ V × Option (Dep V))) : ∀ {s s' : St V}, installPreds l es s = .ok () s' →
    s'.stack = s.stack ∧ s'.runs = s.runs ∧ s'.log = s.log ∧ structurals s.table ≤ structurals s'.table ∧ ∀ K, missing K s'.table = missing K s.table := by
  induction es with
  | nil => intro s s' h; cases h; exact ⟨rfl, rfl, rfl, Nat.le_refl _, fun _ => rfl⟩
  | cons q es ih =>
    obtain ⟨e, d⟩ := q
    intro s s' h
    obtain ⟨_, s1, h1, h2⟩ := bind_inv h
    obtain ⟨a1, a2, a3, a4, a5⟩ := ih h2
    suffices hs : s1.stack = s.stack ∧ s1.runs = s.runs ∧ s1.log = s.log ∧ structurals s.table ≤ structurals s1.table ∧ ∀ K, missing K s1.table = missing K s.table by
      obtain ⟨b1, b2, b3, b4, b5⟩ := hs
      exact ⟨a1.trans b1, a2.trans b2, a3.trans b3, Nat.le_trans b4 a4, fun K => (a5 K).trans (b5 K)⟩
    unfold installPred at h1
    by_cases hl : e.dirty = true
    · rw [if_pos hl] at h1; cases h1
    · rw [if_neg hl] at h1
      obtain ⟨m, s2, h5, h6⟩ := bind_inv h1
      obtain ⟨rfl, h5⟩ := lookupAbs_inv h5
      match m with
      | .comp nd => cases h6; exact ⟨rfl, rfl, rfl, structurals_put _ _ _, fun K => missing_same (n' := .comp { nd with preds := nd.preds ++ [⟨l, e.effect, d⟩] }) h5 rfl K⟩
      | .mut nd => cases h6; exact ⟨rfl, rfl, rfl, structurals_put _ _ _, fun K => missing_same (n' := .mut { nd with preds := nd.preds ++ [⟨l, e.effect, d⟩] }) h5 rfl K⟩
      | .pure nd => cases h6

theorem revokeSuccs_get (src : Loc) (es : List (Succ V)) : ∀ {s s' : St V}, revokeSuccs src es s = .ok () s' → ∀ l n, s.table.get l = some n →
    ∃ n', s'.table.get l = some n' ∧ n'.blank = n.blank := by
  induction es with
  | nil => intro s s' h l n hl; cases h; exact ⟨n, hl, rfl⟩
  | cons e es ih =>
    intro s s' h l n hl
    obtain ⟨_, s1, h1, h2⟩ := bind_inv h
    suffices hs : ∃ n1, s1.table.get l = some n1 ∧ n1.blank = n.blank by
      obtain ⟨n1, g1, g2⟩ := hs
      obtain ⟨n2, g3, g4⟩ := ih h2 l n1 g1
      exact ⟨n2, g3, g4.trans g2⟩
    obtain ⟨_, s0, h3, h4⟩ := bind_inv h1
    cases h3
    obtain ⟨m, s2, h5, h6⟩ := bind_inv h4
    obtain ⟨rfl, h7⟩ := lookupAbs_inv h5
    have h5 : s.table.get e.loc = some m := h7
    match m with
    | .comp nd =>
      cases h6
      simp only [Table.get_put]
      split
      · rename_i hx; subst hx; rw [h5] at hl; cases hl; exact ⟨_, rfl, rfl⟩
      · exact ⟨n, hl, rfl⟩
    | .mut nd =>
      cases h6
      simp only [Table.get_put]
      split
      · rename_i hx; subst hx; rw [h5] at hl; cases hl; exact ⟨_, rfl, rfl⟩
      · exact ⟨n, hl, rfl⟩
    | .pure nd => cases h6

theorem produceBody_earns (env : Env V) {R : Rec V} (hR : REarns R) (ty : Ty) (l : Loc) (s : St V) :
    ERes 1 0 s (produceBody env R ty l s) ∧ (BlankAt s l → ERes 0 0 s (produceBody env R ty l s)) := by
  -- `i` is what is paid in advance
  suffices key : ∀ i, (i = 1 ∨ (i = 0 ∧ BlankAt s l)) → ERes i 0 s (produceBody env R ty l s) from ⟨key 1 (.inl rfl), fun h => key 0 (.inr ⟨rfl, h⟩)⟩
  intro i hi
  refine ERes.bind (j := i) ((resNode_reads ty l).earns s) fun n s1 h1 => ?_
  obtain ⟨rfl, h1, -⟩ := resNode_inv h1
  match n with
  | .mut _ => trivial
  | .pure _ => trivial
  | .comp nd =>
    refine ERes.bind (j := i) (ERes.wk (i := 0) (j := 0) (ERes.putSame h1 rfl) (by omega)) fun _ s2 g2 => ?_
    have hb2 : i = 1 ∨ (i = 0 ∧ BlankAt s2 l) := by
      rcases hi with hi | ⟨hi, n, b1, b2⟩
      · exact .inl hi
      · refine .inr ⟨hi, ?_⟩
        cases g2
        rw [h1] at b1; cases b1
        exact ⟨.comp { nd with succs := [] }, by simp only [Table.get_put, if_true], b2⟩
    clear g2
    refine ERes.bind (j := i) ((revokeSuccs_earns l nd.succs s2).wk (by omega)) fun _ s3 g3 => ?_
    have hb3 : i = 1 ∨ (i = 0 ∧ BlankAt s3 l) := by
      rcases hb2 with hi | ⟨hi, n, b1, b2⟩
      · exact .inl hi
      · obtain ⟨n', b3, b4⟩ := revokeSuccs_get l nd.succs g3 l n b1
        exact .inr ⟨hi, n', b3, b4.trans b2⟩
    clear g3 hb2 hi h1
    rw [M.bind_ok (M.get_def s3), M.bind_ok (m := M.modify _) rfl]
    generalize hs4 : ({ s3 with stack := ⟨l, []⟩ :: s3.stack, path := l.path } : St V) = s4
    rw [M.bind_def]
    rcases hrn : resNode ty l s4 with ⟨n5, s5⟩ | ⟨e, s5⟩ | _
    · obtain ⟨rfl, -, -⟩ := resNode_inv hrn
      simp only []
      match n5 with
      | .mut _ => trivial
      | .pure _ => trivial
      | .comp nd5 =>
        simp only []
        rw [M.bind_ok (m := M.modify _) rfl, M.bind_def]
        have hrun := hR.run (env.code nd5.fn nd5.arg) { s5 with runs := l :: s5.runs }
        revert hrun
        generalize R.run (env.code nd5.fn nd5.arg) { s5 with runs := l :: s5.runs } = o
        intro hrun
        match o with
        | .oof => trivial
        | .panic e s6 => trivial
        | .ok res s6 =>
          obtain ⟨hl6, rs, hr6, hrun⟩ := hrun
          simp only []
          rw [M.bind_ok (m := M.modify _) rfl, M.bind_ok (M.get_def _)]
          rcases hst : s6.stack with _ | ⟨fr, K⟩
          · trivial
          · simp only []
            rw [M.bind_ok (m := M.modify _) rfl]
            by_cases hfr : fr.loc = l
            · rw [if_pos hfr]
              generalize hs7 : ({ s6 with path := s3.path, stack := K } : St V) = s7
              rw [M.bind_def]
              rcases hin : installPreds l fr.succs s7 with ⟨u, s8⟩ | ⟨e, s8⟩ | _
              · obtain ⟨i1, i2, i3, i4, i5⟩ := installPreds_same l fr.succs hin
                simp only []
                rw [M.bind_def]
                rcases hrn : resNode ty l s8 with ⟨n9, s9⟩ | ⟨e, s9⟩ | _
                · obtain ⟨rfl, k1, k2⟩ := resNode_inv hrn
                  simp only []
                  match n9 with
                  | .mut _ => trivial
                  | .pure _ => trivial
                  | .comp nd9 =>
                    simp only []
                    rw [M.bind_ok (m := putNode _ _) rfl]
                    have hl5 : ({ s5 with runs := l :: s5.runs } : St V).locs = l :: s3.locs := by rw [← hs4]; rfl
                    rw [hl5] at hl6 hrun
                    have hl6' : s6.locs = fr.loc :: K.map (·.loc) := by unfold St.locs; rw [hst]; rfl
                    have hK : K.map (·.loc) = s3.locs := by rw [hl6'] at hl6; exact (List.cons.inj hl6).2
                    have hl7 : s9.locs = s3.locs := by unfold St.locs; rw [i1, ← hs7]; exact hK
                    have hr5 : s5.runs = s3.runs := by rw [← hs4]
                    have hr7 : s9.runs = rs ++ l :: s3.runs := by rw [i2, ← hs7]; exact hr6.trans (by rw [hr5])
                    refine ⟨hl7, rs ++ [l], ?_, fun hn => ?_⟩
                    · show s9.runs = _
                      rw [hr7, List.append_assoc]; rfl
                    · rw [List.append_assoc] at hn
                      have hrun := hrun hn
                      have hn2 := (List.nodup_append.1 hn).2.1
                      have hl3 : l ∉ s3.locs := (List.nodup_cons.1 hn2).1
                      have hpush : missing (l :: s3.locs) s3.table + 1 ≤ missing s3.locs s3.table + i := by
                        rcases hb3 with rfl | ⟨rfl, n, b1, b2⟩
                        · have := missing_push s3.table l s3.locs; omega
                        · exact missing_start b1 b2 hl3
                      have hdone := missing_done s9.table l (.comp { nd9 with succs := fr.succs.map (·.1), res := some res }) rfl s3.locs
                      have hst9 := structurals_put s9.table l (.comp { nd9 with succs := fr.succs.map (·.1), res := some res })
                      rw [i5 (l :: s3.locs)] at hdone
                      have e1 : s7.table = s6.table := by rw [← hs7]
                      have e2 : s9.log = s6.log := by rw [i3, ← hs7]
                      have e3 : s5.table = s3.table := by rw [← hs4]
                      have e4 : s5.log = s3.log := by rw [← hs4]
                      rw [e1] at hdone i4
                      unfold EarnTo spent earned at hrun ⊢
                      simp only [] at hrun
                      rw [hl6, hl5, hr6, e3, e4, hr5] at hrun
                      show s9.runs.length + cleanings s9.log + missing s9.locs (s9.table.put l _) + _ + _ ≤ _ + (cleanRecs s9.log + newThunks s9.log + structurals (s9.table.put l _)) + _
                      rw [hr7, hl7, e2]
                      simp only [List.length_append, List.length_cons, List.length_nil] at hrun ⊢
                      omega
                · trivial
                · trivial
              · trivial
              · trivial
            · rw [if_neg hfr]; trivial
    · trivial
    · trivial

theorem cleanDep_earns {R : Rec V} (hR : REarns R) (d : Dep V) (l : Loc) : Earns 0 0 (cleanDep R d l) := by
  match d with
  | .allocStruct => exact Earns.pure _
  | .allocNom _ => exact Earns.pure _
  | .allocCell _ => exact Earns.pure _
  | .force ty res => exact hR.cleanForce _ _ _
  | .forceMap ty f res => exact (checkForceMapDep_reads _ _ _ _).earns
  | .forceAbs => exact Earns.pure _

theorem cleanLoop_earns {R : Rec V} (hR : REarns R) (ty : Ty) (res : V) (l : Loc) (es : List (Succ V)) : Earns 0 0 (cleanLoop R ty res l es) := by
  induction es with
  | nil => exact Earns.pure _
  | cons e es ih =>
    refine Earns.bind (succDirty_reads _ _ _).earns fun d => Earns.ite ?_ ih
    refine Earns.bind (Earns.cleanRec _ _) fun _ => Earns.bind (cleanDep_earns hR _ _).keep fun ch => Earns.ite ?_ ?_
    · exact Earns.bind (Earns.evBegin _ _ _).keep fun _ => Earns.bind (hR.produce _ _) fun _ =>
        Earns.bind Earns.evEnd fun _ => Earns.bind Earns.evEnd fun _ => Earns.pure _
    · exact Earns.bind (setSuccDirty_earns _ _ _ _).keep fun _ => Earns.bind (Earns.cleanEdge _ _) fun _ => Earns.bind Earns.evEnd fun _ => ih

theorem cleanForceBody_earns {R : Rec V} (hR : REarns R) (ty : Ty) (res : V) (l : Loc) : Earns 0 0 (cleanForceBody R ty res l) := by
  intro s
  refine ERes.bind ((resNode_reads _ _).earns s) fun n s1 h1 => ?_
  obtain ⟨rfl, h1, -⟩ := resNode_inv h1
  match n with
  | .pure _ => exact ERes.refl _ _
  | .mut _ => exact ERes.refl _ _
  | .comp nd =>
    rcases hres : nd.res with _ | cache
    · simp only [hres]
      refine ERes.bind (Earns.evBegin _ _ _ _) fun _ s2 h2 => ?_
      have ht := evBegin_table h2
      refine ERes.bind (hR.blank ty l s2 ⟨_, by rw [ht]; exact h1, by simp [Node.blank, hres]⟩) fun r s3 _ => ?_
      exact Earns.bind Earns.evEnd (fun _ => Earns.pure _) _
    · simp only [hres]
      refine Earns.bind (cleanLoop_earns hR _ _ _ _) (fun r => ?_) _
      match r with
      | some ch => exact Earns.pure _
      | none => exact Earns.pure _

theorem recN_earns (env : Env V) : ∀ n, REarns (recN env n)
  | 0 => ⟨fun _ _ _ => trivial, fun _ _ _ _ => trivial, fun _ _ _ _ => trivial, fun _ _ => trivial⟩
  | n + 1 => ⟨fun ty l s => (produceBody_earns env (recN_earns env n) ty l s).1, fun ty l s => (produceBody_earns env (recN_earns env n) ty l s).2,
      cleanForceBody_earns (recN_earns env n), runProg_earns env (recN_earns env n)⟩

/-- An operation at top level that runs no thunk twice. -/
theorem Earns.top {m : M V α} (h : Earns 0 0 m) {s s' : St V} {a : α} (hm : m s = .ok a s') (hs : s.stack = []) {rs : List Loc} (hr : s'.runs = rs ++ s.runs) (hn : rs.Nodup) : Earn s s' := by
  have := h s
  rw [hm] at this
  obtain ⟨-, rs', h2, h3⟩ := this
  have : rs' = rs := by rw [h2] at hr; exact List.append_cancel_right hr
  subst this
  refine h3 ?_
  have : s.locs = [] := by unfold St.locs; rw [hs]; rfl
  rw [this, List.append_nil]; exact hn
theorem Earn.refl (s : St V) : Earn s s := Nat.le_refl _
theorem Earn.trans {a b c : St V} (h1 : Earn a b) (h2 : Earn b c) : Earn a c := by unfold Earn EarnTo at *; omega

/-- Both accounts: of cleaning (C93) and of running thunks (C95). -/
def Dues (s s' : St V) : Prop := Paid s s' ∧ Earn s s'
theorem Dues.refl (s : St V) : Dues s s := ⟨Paid.refl s, Earn.refl s⟩
theorem Dues.trans {a b c : St V} (h1 : Dues a b) (h2 : Dues b c) : Dues a c := ⟨h1.1.trans h2.1, h1.2.trans h2.2⟩

end Adapton
