import Verif.Engine.Dirty
import Verif.Engine.Spec
/-
The invariants of the dependency graph, and dirtying under these invariants.
-/
set_option linter.unusedSectionVars false
namespace Adapton
open Ref (Sig Kind Store)
variable {V α β : Type}

/-- An observation edge's dependency object agrees with the content `v` of its target. -/
def Dep.okVal : Dep V → V → Prop
  | .force _ w, v => w = v
  | .forceMap _ f r, v => r = f v
  | _, _ => False

/-- An allocation edge's dependency object agrees with the content `v` of its target; for a structural thunk there is nothing to compare. -/
def Dep.allocOk : Dep V → V → Prop
  | .allocCell w, v => w = v
  | .allocNom a, v => a = v
  | .allocStruct, _ => True
  | _, _ => False

/-- The dependency object put on the predecessor edge. -/
def predDep : Dep V → Option (Dep V)
  | .forceMap ty f r => some (.forceMap ty f r)
  | _ => none

/-- Cell value or thunk argument. -/
def Node.cont : Node V → Option V
  | .comp nd => some nd.arg
  | .mut nd => some nd.val
  | .pure nd => some nd.val

theorem Node.cont_some (n : Node V) : ∃ c, n.cont = some c := by
  cases n <;> exact ⟨_, rfl⟩

/-- The cached result of a thunk, the value of a pure cell. -/
def Node.pv : Node V → Option V
  | .comp nd => nd.res
  | .mut _ => none
  | .pure nd => some nd.val

/-- Predecessor edges. -/
def Node.preds : Node V → List (Pred V)
  | .comp nd => nd.preds
  | .mut nd => nd.preds
  | .pure _ => []

/-- The location is not a pure cell. -/
def Vis (sig : Sig) (l : Loc) : Prop := ∀ ty, sig l = .cell ty → l.isStruct = true → sig.pu = false

/-- The dependency object fits the effect and the kind of the target. -/
def EdgeWf (sig : Sig) (e : Edge V) : Prop :=
  Vis sig e.loc ∧
  match e.effect, sig e.loc with
  | .observe, .cell ty => (∃ w, e.dep = .force ty w) ∨ ∃ f r, e.dep = .forceMap ty f r
  | .observe, .thunk ty _ _ => ∃ w, e.dep = .force ty w
  | .allocate, .cell _ => ∃ v, e.dep = .allocCell v
  | .allocate, .thunk _ _ _ => if e.loc.isStruct then e.dep = .allocStruct else ∃ a, e.dep = .allocNom a

/-- The node fits the signature. -/
def NodeWf (sig : Sig) (l : Loc) (n : Node V) : Prop :=
  match n with
  | .comp nd => sig l = .thunk nd.ty nd.pp nd.fn
  | .mut nd => sig l = .cell nd.ty ∧ Vis sig l
  | .pure nd => sig l = .cell nd.ty ∧ l.isStruct = true ∧ sig.pu = true

theorem Vis.thunk {sig : Sig} {l : Loc} {ty pp fn} (h : sig l = .thunk ty pp fn) : Vis sig l := by
  intro ty' h'; rw [h] at h'; cases h'

theorem NodeWf.pure_vis {sig : Sig} {l : Loc} {nd : PureNode V} (h : NodeWf sig l (.pure nd)) (hv : Vis sig l) : False := by
  obtain ⟨h1, h2, h3⟩ := h
  have := hv _ h1 h2
  rw [h3] at this; cases this

theorem NodeWf.vis {sig : Sig} {l : Loc} {n : Node V} (h : NodeWf sig l n) (hp : ∀ nd, n ≠ .pure nd) : Vis sig l := by
  match n with
  | .comp nd => exact Vis.thunk h
  | .mut nd => exact h.2
  | .pure nd => exact absurd rfl (hp nd)

/-- Among the observations of one target, agreement of the first one implies agreement of the others. -/
def FirstSub (es : List (Edge V)) : Prop :=
  ∀ x e1, es.find? (Edge.matches .observe x) = some e1 →
    ∀ e' ∈ es, e'.matches .observe x = true → ∀ v, e1.dep.okVal v → e'.dep.okVal v

/-- How often `p` is recorded as a predecessor with this effect. -/
def predCount (p : Loc) (eff : Effect) (ps : List (Pred V)) : Nat := ps.countP fun q => decide (q.loc = p ∧ q.effect = eff)
/-- How often `x` is recorded as the target of an edge with this effect. -/
def recCount (x : Loc) (eff : Effect) (es : List (Edge V)) : Nat := es.countP fun e => decide (e.loc = x ∧ e.effect = eff)
/-- The same for a node. -/
def succCount (x : Loc) (eff : Effect) : Option (Node V) → Nat
  | some n => recCount x eff (n.succsList.map Succ.edge)
  | none => 0
/-- Each edge is recorded as often at its target as at its source. -/
def Balanced (t : Table V) : Prop := ∀ x n p eff, t.get x = some n → predCount p eff n.preds = succCount x eff (t.get p)

theorem recCount_zero {x : Loc} {eff : Effect} {es : List (Succ V)} (h : ∀ e ∈ es, e.loc ≠ x) : recCount x eff (es.map Succ.edge) = 0 := by
  unfold recCount
  rw [List.countP_eq_zero]
  intro e he
  obtain ⟨e0, h0, rfl⟩ := List.mem_map.1 he
  simp only [decide_eq_true_eq, not_and]
  intro h1; exact absurd h1 (h e0 h0)

theorem predCount_zero {p : Loc} {eff : Effect} {ps : List (Pred V)} (h : ∀ q ∈ ps, q.loc ≠ p) : predCount p eff ps = 0 := by
  unfold predCount
  rw [List.countP_eq_zero]
  intro e he
  simp only [decide_eq_true_eq, not_and]
  intro h1; exact absurd h1 (h e he)

theorem Balanced.congr {t t' : Table V} (h : Balanced t) (hp : ∀ x n', t'.get x = some n' → ∃ n, t.get x = some n ∧ n'.preds = n.preds)
    (hs : ∀ p x eff, succCount x eff (t'.get p) = succCount x eff (t.get p)) : Balanced t' := by
  intro x n' p eff hx
  obtain ⟨n, h1, h2⟩ := hp x n' hx
  rw [h2, hs]; exact h x n p eff h1

/-- Shape of the graph: nothing here depends on dirty bits or cached results. -/
structure Graph (sig : Sig) (t : Table V) : Prop where
  wf : ∀ l n, t.get l = some n → NodeWf sig l n
  fwd : ∀ p nd e, t.get p = some (.comp nd) → e ∈ nd.succs →
    ∃ n, t.get e.loc = some n ∧ ⟨p, e.effect, predDep e.dep⟩ ∈ n.preds
  bwd : ∀ x n q, t.get x = some n → q ∈ n.preds →
    ∃ nd, t.get q.loc = some (.comp nd) ∧ ∃ e ∈ nd.succs, e.loc = x ∧ e.effect = q.effect ∧ predDep e.dep = q.dep
  edge : ∀ p nd e, t.get p = some (.comp nd) → e ∈ nd.succs → e.loc ≠ p ∧ EdgeWf sig e.edge
  first : ∀ p nd, t.get p = some (.comp nd) → FirstSub (nd.succs.map Succ.edge)
  cnt : Balanced t

/-- Every edge of the list is clean. -/
def AllClean (es : List (Succ V)) : Prop := ∀ e ∈ es, KeyClean es e.effect e.loc

/-- A clean edge is justified: its dependency object agrees with its target, and a target thunk has itself no dirty edge
and is not being evaluated. -/
def Good (t : Table V) (K : List Loc) (e : Edge V) : Prop :=
  match e.effect with
  | .observe =>
    match t.get e.loc with
    | some (.mut nd) => e.dep.okVal nd.val
    | some (.comp nd) => e.loc ∉ K ∧ (∃ w, nd.res = some w ∧ e.dep.okVal w) ∧ AllClean nd.succs
    | _ => False
  | .allocate => ∃ n c, t.get e.loc = some n ∧ n.cont = some c ∧ e.dep.allocOk c

/-- Every clean edge is justified, except those in `Ex`. -/
def CleanEx (s : St V) (Ex : Effect → Loc → Prop) : Prop :=
  ∀ p nd e, s.table.get p = some (.comp nd) → e ∈ nd.succs → KeyClean nd.succs e.effect e.loc →
    Ex e.effect e.loc ∨ Good s.table s.locs e.edge

/-- `S` is closed under "is observed by". -/
def ClosedS (s : St V) (S : Loc → Prop) : Prop :=
  ∀ p nd e, s.table.get p = some (.comp nd) → S p → e ∈ nd.succs → e.effect = .observe → S e.loc

/-- Clean keys in `P` stay clean. -/
def Keep (P : Effect → Loc → Prop) (s s' : St V) : Prop :=
  ∀ p nd nd' eff x, P eff x → s.table.get p = some (.comp nd) → s'.table.get p = some (.comp nd') →
    KeyClean nd.succs eff x → KeyClean nd'.succs eff x

/-! ### Invariance under raising dirty bits -/

theorem NodeUp.cont {n n' : Node V} (h : NodeUp (some n) (some n')) : n'.cont = n.cont := by
  match n with
  | .comp nd => obtain ⟨es', h1, _⟩ := h; cases h1; rfl
  | .mut nd => cases h; rfl
  | .pure nd => cases h; rfl

theorem NodeUp.preds {n n' : Node V} (h : NodeUp (some n) (some n')) : n'.preds = n.preds := by
  match n with
  | .comp nd => obtain ⟨es', h1, _⟩ := h; cases h1; rfl
  | .mut nd => cases h; rfl
  | .pure nd => cases h; rfl

theorem NodeUp.some_right {n' : Node V} {o : Option (Node V)} (h : NodeUp o (some n')) : ∃ n, o = some n := by
  match o with
  | some n => exact ⟨n, rfl⟩
  | none => cases h

theorem NodeUp.wf {sig : Sig} {l : Loc} {n n' : Node V} (h : NodeUp (some n) (some n')) (hw : NodeWf sig l n) :
    NodeWf sig l n' := by
  match n with
  | .comp nd => obtain ⟨es', h1, _⟩ := h; cases h1; exact hw
  | .mut nd => cases h; exact hw
  | .pure nd => cases h; exact hw

theorem Graph.up {sig : Sig} {t t' : Table V} (hg : Graph sig t) (hu : ∀ x, NodeUp (t.get x) (t'.get x)) :
    Graph sig t' where
  wf := by
    intro l n' h
    have := hu l
    rw [h] at this
    obtain ⟨n, hn⟩ := this.some_right
    rw [hn] at this
    exact this.wf (hg.wf l n hn)
  fwd := by
    intro p nd' e' h he
    have hp := hu p
    rw [h] at hp
    obtain ⟨es, hn, hup⟩ := hp.comp_right
    obtain ⟨e, he, hee⟩ := hup.mem_right he
    obtain ⟨n, h1, h2⟩ := hg.fwd p _ e hn he
    have hl : e.loc = e'.loc := congrArg Edge.loc hee
    have hf : e.effect = e'.effect := congrArg Edge.effect hee
    have hd : e.dep = e'.dep := congrArg Edge.dep hee
    have hx := hu e.loc
    rw [h1] at hx
    obtain ⟨n', hn'⟩ := hx.some_left
    rw [hn'] at hx
    refine ⟨n', by rw [← hl]; exact hn', ?_⟩
    rw [hx.preds, ← hf, ← hd]; exact h2
  bwd := by
    intro x n' q h hq
    have hx := hu x
    rw [h] at hx
    obtain ⟨n, hn⟩ := hx.some_right
    rw [hn] at hx
    rw [hx.preds] at hq
    obtain ⟨nd, h1, e, he, h2, h3, h4⟩ := hg.bwd x n q hn hq
    have hp := hu q.loc
    rw [h1] at hp
    obtain ⟨es', h5, hup⟩ := hp.comp_left
    obtain ⟨e', he', hee⟩ := hup.mem_left he
    exact ⟨_, h5, e', he', (congrArg Edge.loc hee).trans h2, (congrArg Edge.effect hee).trans h3,
      (congrArg (fun e => predDep e.dep) hee).trans h4⟩
  edge := by
    intro p nd' e' h he
    have hp := hu p
    rw [h] at hp
    obtain ⟨es, hn, hup⟩ := hp.comp_right
    obtain ⟨e, he, hee⟩ := hup.mem_right he
    obtain ⟨h1, h2⟩ := hg.edge p _ e hn he
    have hl : e.loc = e'.loc := congrArg Edge.loc hee
    exact ⟨by rw [← hl]; exact h1, hee ▸ h2⟩
  first := by
    intro p nd' h
    have hp := hu p
    rw [h] at hp
    obtain ⟨es, hn, hup⟩ := hp.comp_right
    rw [hup.edges]
    exact hg.first p _ hn
  cnt := by
    refine hg.cnt.congr ?_ ?_
    · intro x n' h
      have hx := hu x
      rw [h] at hx
      obtain ⟨n, hn⟩ := hx.some_right
      rw [hn] at hx
      exact ⟨n, hn, hx.preds⟩
    · intro p x eff
      have hp := hu p
      rcases h1 : t.get p with _ | n
      · rw [h1] at hp
        rcases h2 : t'.get p with _ | n'
        · rfl
        · rw [h2] at hp; cases hp
      · rw [h1] at hp
        match n with
        | .comp nd =>
          obtain ⟨es', h2, h3⟩ := hp.comp_left
          rw [h2]; unfold succCount; simp only [Node.succsList]; rw [h3.edges]
        | .mut nd =>
          rcases h2 : t'.get p with _ | n'
          · rw [h2] at hp; cases hp
          · rw [h2] at hp; cases hp; rfl
        | .pure nd =>
          rcases h2 : t'.get p with _ | n'
          · rw [h2] at hp; cases hp
          · rw [h2] at hp; cases hp; rfl

theorem ClosedS.up {s s' : St V} {S : Loc → Prop} (h : ClosedS s S) (hu : ∀ x, NodeUp (s.table.get x) (s'.table.get x)) :
    ClosedS s' S := by
  intro p nd' e' h1 h2 he hf
  have hp := hu p
  rw [h1] at hp
  obtain ⟨es, hn, hup⟩ := hp.comp_right
  obtain ⟨e, he, hee⟩ := hup.mem_right he
  have := h p _ e hn h2 he ((congrArg Edge.effect hee).trans hf)
  have hl : e.loc = e'.loc := congrArg Edge.loc hee
  rwa [hl] at this

theorem Keep.trans {P : Effect → Loc → Prop} {a b c : St V} (hu : ∀ x, NodeUp (a.table.get x) (b.table.get x))
    (h1 : Keep P a b) (h2 : Keep P b c) : Keep P a c := by
  intro p nd nd' eff x hP ha hc hk
  have hp := hu p
  rw [ha] at hp
  obtain ⟨es', hb, _⟩ := hp.comp_left
  exact h2 p _ nd' eff x hP hb hc (h1 p nd _ eff x hP ha hb hk)

theorem Keep.refl (P : Effect → Loc → Prop) (s : St V) : Keep P s s := by
  intro p nd nd' eff x _ h1 h2 hk
  rw [h1] at h2; cases h2; exact hk

theorem Keep.mono {P Q : Effect → Loc → Prop} {a b : St V} (h : Keep P a b) (hPQ : ∀ e x, Q e x → P e x) : Keep Q a b :=
  fun p nd nd' eff x hQ => h p nd nd' eff x (hPQ _ _ hQ)

/-- `Good` depends on the target node only. -/
theorem Good.congr {t t' : Table V} {K : List Loc} {e : Edge V} (h : Good t K e) (hg : t'.get e.loc = t.get e.loc) :
    Good t' K e := by
  unfold Good at *
  rw [hg]; exact h

/-- Raising the dirty bits of other nodes, or of an allocated target, keeps an edge justified. -/
theorem Good.up {t t' : Table V} {K : List Loc} {e : Edge V} (h : Good t K e)
    (hu : ∀ x, NodeUp (t.get x) (t'.get x)) (hne : e.effect = .observe → t'.get e.loc = t.get e.loc) : Good t' K e := by
  unfold Good at *
  cases he : e.effect
  · rw [he] at h
    rw [hne he]; exact h
  · rw [he] at h
    obtain ⟨n, c, h1, h2, h3⟩ := h
    have hx := hu e.loc
    rw [h1] at hx
    obtain ⟨n', hn'⟩ := hx.some_left
    rw [hn'] at hx
    exact ⟨n', c, hn', by rw [hx.cont]; exact h2, h3⟩

/-! ### Dirtying re-establishes the invariant -/

section
variable [DecidableEq V]

/-- What dirtying needs to know of an observer `p` (with dependency object `d`) of `x`. -/
def ObsPre (s : St V) (x p : Loc) (d : Option (Dep V)) : Prop :=
  p ≠ x ∧ (∃ nd e, s.table.get p = some (.comp nd) ∧ e ∈ nd.succs ∧ e.effect = .observe ∧ e.loc = x) ∧
  (d = none ∨ ∃ ty f r mn, d = some (.forceMap ty f r) ∧ s.table.get x = some (.mut mn) ∧ mn.ty = ty)

/-- What dirtying achieves for an observer `p` of `x`. -/
def Handled (s : St V) (x p : Loc) (d : Option (Dep V)) : Prop :=
  (∀ nd, s.table.get p = some (.comp nd) → ¬ KeyClean nd.succs .observe x) ∨
  ∃ ty f r mn, d = some (.forceMap ty f r) ∧ s.table.get x = some (.mut mn) ∧ r = f mn.val

theorem ObsPre.up {s s' : St V} {x p : Loc} {d : Option (Dep V)} (h : ObsPre s x p d)
    (hu : ∀ y, NodeUp (s.table.get y) (s'.table.get y)) : ObsPre s' x p d := by
  obtain ⟨h1, ⟨nd, e, h2, h3, h4, h5⟩, h6⟩ := h
  refine ⟨h1, ?_, ?_⟩
  · have hp := hu p
    rw [h2] at hp
    obtain ⟨es', hb, hup⟩ := hp.comp_left
    obtain ⟨e', he', hee⟩ := hup.mem_left h3
    exact ⟨_, e', hb, he', (congrArg Edge.effect hee).trans h4, (congrArg Edge.loc hee).trans h5⟩
  · rcases h6 with h6 | ⟨ty, f, r, mn, h6, h7, h8⟩
    · exact .inl h6
    · have hx := hu x
      rw [h7] at hx
      exact .inr ⟨ty, f, r, mn, h6, hx, h8⟩

theorem Handled.up {s s' : St V} {x p : Loc} {d : Option (Dep V)} (h : Handled s x p d)
    (hu : ∀ y, NodeUp (s.table.get y) (s'.table.get y)) : Handled s' x p d := by
  rcases h with h | ⟨ty, f, r, mn, h6, h7, h8⟩
  · left
    intro nd' h' hk
    have hp := hu p
    rw [h'] at hp
    obtain ⟨es, hb, hup⟩ := hp.comp_right
    exact h _ hb (hup.keyClean hk)
  · have hx := hu x
    rw [h7] at hx
    exact .inr ⟨ty, f, r, mn, h6, hx, h8⟩

theorem CleanEx.mono {s : St V} {P Q : Effect → Loc → Prop} (h : CleanEx s P) (hPQ : ∀ e x, P e x → Q e x) :
    CleanEx s Q := fun p nd e h1 h2 h3 => (h p nd e h1 h2 h3).imp (hPQ _ _) id

/-- Marking one key `(p, eff, x)` dirty: edges into `p` may now be unjustified, nothing else. -/
theorem CleanEx.set {s : St V} {Ex : Effect → Loc → Prop} (h : CleanEx s Ex) {p : Loc} {nd : CompNode V}
    (hp : s.table.get p = some (.comp nd)) (eff : Effect) (x : Loc) (lg : List Ev) :
    CleanEx { s with
      log := lg
      table := s.table.put p (.comp { nd with succs := setFirst eff x true nd.succs }) }
      (fun e y => (e = .observe ∧ y = p) ∨ Ex e y) := by
  have hu := (Up.set hp eff x).tbl
  intro q nd' e' h1 h2 h3
  have hq := hu q
  simp only at h1 hq
  rw [h1] at hq
  obtain ⟨es, hb, hup⟩ := hq.comp_right
  obtain ⟨e, he, hee⟩ := hup.mem_right h2
  have hl : e.loc = e'.loc := congrArg Edge.loc hee
  have hf : e.effect = e'.effect := congrArg Edge.effect hee
  have hk : KeyClean es e.effect e.loc := by rw [hl, hf]; exact hup.keyClean h3
  rcases h q _ e hb he hk with h4 | h4
  · left; right; rwa [hl, hf] at h4
  · by_cases hc : e'.effect = .observe ∧ e'.loc = p
    · left; left; exact hc
    · right
      rw [← hee]
      refine Good.up h4 hu ?_
      intro ho
      refine Table.get_put_ne _ _ ?_
      intro hpe
      exact hc ⟨hf ▸ ho, hl ▸ hpe⟩

theorem Keep.set {s : St V} {P : Effect → Loc → Prop} {p : Loc} {nd : CompNode V}
    (hp : s.table.get p = some (.comp nd)) {eff : Effect} {x : Loc} (lg : List Ev) (hP : ¬ P eff x) :
    Keep P s { s with
      log := lg
      table := s.table.put p (.comp { nd with succs := setFirst eff x true nd.succs }) } := by
  intro q nd1 nd2 eff' y hP' h1 h2 hk
  simp only [Table.get_put] at h2
  split at h2
  · rename_i hq
    subst hq
    rw [hp] at h1; cases h1
    cases h2
    refine (setFirst_keyClean_ne ?_).2 hk
    rintro ⟨rfl, rfl⟩; exact hP hP'
  · rw [h1] at h2; cases h2; exact hk

theorem dirtyStop_ok {s : St V} {x p : Loc} {d : Option (Dep V)} (h : ObsPre s x p d) :
    (dirtyStop d x s = .ok false s) ∨ (dirtyStop d x s = .ok true s ∧ Handled s x p d) := by
  rcases h.2.2 with rfl | ⟨ty, f, r, mn, rfl, h2, h3⟩
  · exact .inl rfl
  · have : dirtyStop (some (.forceMap ty f r)) x s = .ok (!decide (r ≠ f mn.val)) s := by
      show (checkForceMapDep ty f r x >>= fun ch => Pure.pure (!ch)) s = _
      unfold checkForceMapDep
      rw [M.bind_def, M.bind_def, resNode_ok h2 h3]; rfl
    by_cases hr : r = f mn.val
    · right; exact ⟨by rw [this]; simp [hr], .inr ⟨ty, f, r, mn, rfl, h2, hr⟩⟩
    · left; rw [this]; simp [hr]

/-- The recursive call's contract. -/
def DirtySpec (sig : Sig) (rec : Loc → M V Unit) (k : Nat) : Prop :=
  ∀ (p : Loc) (s : St V) (S : Loc → Prop) (Ex : Effect → Loc → Prop), tableClean s.table < k → Graph sig s.table →
    (∃ n, s.table.get p = some n ∧ Vis sig p) → ¬ S p → ClosedS s S →
    CleanEx s (fun e y => (e = .observe ∧ y = p) ∨ Ex e y) →
    ∃ s', rec p s = .ok () s' ∧ Up s s' ∧ CleanEx s' Ex ∧ Keep (fun e y => e = .allocate ∨ S y) s s'

theorem dirtyLoop_inv {sig : Sig} {rec : Loc → M V Unit} {k : Nat} (hrec : DirtySpec sig rec k)
    (x : Loc) (S : Loc → Prop) (Ex : Effect → Loc → Prop) (ps : List (Loc × Option (Dep V))) :
    ∀ s : St V, tableClean s.table < k + 1 → Graph sig s.table → (∀ q ∈ ps, ObsPre s x q.1 q.2) → ¬ S x →
    ClosedS s S → CleanEx s (fun e y => (e = .observe ∧ y = x) ∨ Ex e y) →
    ∃ s', dirtyLoop rec x ps s = .ok () s' ∧ Up s s' ∧ CleanEx s' (fun e y => (e = .observe ∧ y = x) ∨ Ex e y) ∧
      Keep (fun e y => e = .allocate ∨ S y) s s' ∧ ∀ q ∈ ps, Handled s' x q.1 q.2 := by
  induction ps with
  | nil =>
    intro s _ _ _ _ _ hc
    exact ⟨s, rfl, Up.refl s, hc, Keep.refl _ s, fun q hq => by cases hq⟩
  | cons hd tl ih =>
    obtain ⟨p, d⟩ := hd
    intro s hm hg hps hSx hS hc
    have hpre := hps (p, d) (List.mem_cons_self ..)
    -- one observer
    have hone : ∃ s', dirtyObserver rec x p d s = .ok () s' ∧ Up s s' ∧
        CleanEx s' (fun e y => (e = .observe ∧ y = x) ∨ Ex e y) ∧
        Keep (fun e y => e = .allocate ∨ S y) s s' ∧ Handled s' x p d := by
      unfold dirtyObserver
      rcases dirtyStop_ok hpre with hst | ⟨hst, hh⟩
      · rw [M.bind_ok hst]
        obtain ⟨hpx, ⟨nd, e, h2, h3, h4, h5⟩, _⟩ := hpre
        obtain ⟨e1, hf⟩ : ∃ e1, nd.succs.find? (Succ.matches .observe x) = some e1 := by
          rw [← h4, ← h5]; exact find_of_mem h3
        simp only [if_false, Bool.false_eq_true]
        rw [M.bind_ok (succDirty_ok h2 hf)]
        cases hd : e1.dirty
        · simp only [Bool.false_eq_true, if_false, if_neg hpx]
          have hSp : ¬ S p := fun hp => hSx (h5 ▸ hS p nd e h2 hp h3 h4)
          rw [M.bind_ok (m := evBegin _ _ _) rfl,
            M.bind_ok (setSuccDirty_ok true (s := { s with log := Ev.begin TEff.dirty (some p) x :: s.log }) h2 hf)]
          have hu : Up s { s with
              log := Ev.begin TEff.dirty (some p) x :: s.log
              table := s.table.put p (.comp { nd with succs := setFirst .observe x true nd.succs }) } :=
            (Up.log (s := s) (fun lg => Ev.begin TEff.dirty (some p) x :: lg)).trans
              (Up.set (s := { s with log := Ev.begin TEff.dirty (some p) x :: s.log }) h2 .observe x)
          have hlt : tableClean (s.table.put p (.comp { nd with succs := setFirst .observe x true nd.succs })) < k := by
            have h1 := tableClean_put s.table p _ (.comp { nd with succs := setFirst .observe x true nd.succs }) h2
            have h2 := setFirst_count .observe x nd.succs hf hd
            simp only [Node.succsList] at h1
            omega
          obtain ⟨s', hr1, hr2, hr3, hr4⟩ := hrec p _ S (fun e y => (e = .observe ∧ y = x) ∨ Ex e y) hlt
            (hg.up hu.tbl) ⟨_, Table.get_put_self _ _ _, Vis.thunk (hg.wf p _ h2)⟩ hSp (hS.up hu.tbl)
            (hc.set h2 .observe x (Ev.begin TEff.dirty (some p) x :: s.log))
          rw [M.bind_ok hr1]
          refine ⟨{ s' with log := Ev.end_ :: s'.log }, rfl, (hu.trans hr2).trans (Up.log _), hr3,
            (Keep.set h2 _ ?_).trans hu.tbl hr4, ?_⟩
          · rintro (h | h)
            · cases h
            · exact hSx h
          · left
            intro nd' h' hk
            have hp := (hr2.tbl p)
            simp only [Table.get_put_self] at hp
            have h'' : s'.table.get p = some (.comp nd') := h'
            rw [h''] at hp
            obtain ⟨es', h1, hup⟩ := hp.comp_left
            cases h1
            exact not_clean_of_dirty (setFirst_dirty _ _ _ hf) (hup.keyClean hk)
        · simp only [if_true]
          refine ⟨s, rfl, Up.refl s, hc, Keep.refl _ s, .inl ?_⟩
          intro nd' h' hk
          rw [h2] at h'; cases h'
          exact not_clean_of_dirty ⟨e1, hf, hd⟩ hk
      · rw [M.bind_ok hst]
        exact ⟨s, rfl, Up.refl s, hc, Keep.refl _ s, hh⟩
    obtain ⟨s1, h1, u1, c1, k1, hh1⟩ := hone
    obtain ⟨s2, h2, u2, c2, k2, hh2⟩ := ih s1 (Nat.lt_of_le_of_lt u1.measure hm) (hg.up u1.tbl)
      (fun q hq => (hps q (List.mem_cons_of_mem _ hq)).up u1.tbl) hSx (hS.up u1.tbl) c1
    refine ⟨s2, ?_, u1.trans u2, c2, k1.trans u1.tbl k2, ?_⟩
    · unfold dirtyLoop
      rw [M.bind_ok h1]; exact h2
    · intro q hq
      rcases List.mem_cons.1 hq with rfl | hq
      · exact hh1.up u2.tbl
      · exact hh2 q hq

theorem dirtyPreds_inv {sig : Sig} : ∀ k, DirtySpec (V := V) sig (dirtyPreds k) k := by
  intro k
  induction k with
  | zero => intro p s S Ex h; omega
  | succ k ih =>
    intro x s S Ex hm hg hex hSx hS hc
    obtain ⟨n, hn, hvis⟩ := hex
    -- the list of observers
    have hps : ∃ ps, n.predsObs = some ps ∧ (∀ q ∈ ps, ObsPre s x q.1 q.2) ∧
        ∀ p d, (⟨p, .observe, d⟩ : Pred V) ∈ n.preds →
          (∃ mn, n = .mut mn ∧ (p, d) ∈ ps) ∨ (∃ nd, n = .comp nd ∧ (p, none) ∈ ps) := by
      have hobs : ∀ q ∈ n.preds, q.effect = .observe → ∃ nd e, s.table.get q.loc = some (.comp nd) ∧ e ∈ nd.succs ∧
          e.effect = .observe ∧ e.loc = x ∧ q.loc ≠ x ∧ predDep e.dep = q.dep ∧ EdgeWf sig e.edge := by
        intro q hq hqe
        obtain ⟨nd, h1, e, h2, h3, h4, h5⟩ := hg.bwd x n q hn hq
        obtain ⟨h6, h7⟩ := hg.edge _ _ e h1 h2
        exact ⟨nd, e, h1, h2, h4.trans hqe, h3, fun h => h6 (h3.trans h.symm), h5, h7⟩
      match n with
      | .mut mn =>
        refine ⟨_, rfl, ?_, ?_⟩
        · intro q hq
          rw [List.mem_filterMap] at hq
          obtain ⟨pr, h1, h2⟩ := hq
          split at h2
          · rename_i hob
            cases h2
            obtain ⟨nd, e, g1, g2, g3, g4, g5, g6, g7⟩ := hobs pr h1 hob
            refine ⟨g5, ⟨nd, e, g1, g2, g3, g4⟩, ?_⟩
            have hw := (hg.wf x _ hn).1
            have g3' : e.edge.effect = .observe := g3
            have g4' : e.edge.loc = x := g4
            have g7 := g7.2
            rw [g3', g4', hw] at g7
            rcases g7 with ⟨w, g7⟩ | ⟨f, r, g7⟩
            · left
              have g7' : e.dep = _ := g7
              show pr.dep = none
              rw [← g6, g7']; rfl
            · right
              have g7' : e.dep = _ := g7
              refine ⟨mn.ty, f, r, mn, ?_, hn, rfl⟩
              show pr.dep = _
              rw [← g6, g7']; rfl
          · cases h2
        · intro p d hp
          left
          refine ⟨mn, rfl, ?_⟩
          rw [List.mem_filterMap]
          exact ⟨_, hp, by simp⟩
      | .comp cn =>
        refine ⟨_, rfl, ?_, ?_⟩
        · intro q hq
          rw [List.mem_filterMap] at hq
          obtain ⟨pr, h1, h2⟩ := hq
          split at h2
          · rename_i hob
            cases h2
            obtain ⟨nd, e, g1, g2, g3, g4, g5, g6, g7⟩ := hobs pr h1 hob
            exact ⟨g5, ⟨nd, e, g1, g2, g3, g4⟩, .inl rfl⟩
          · cases h2
        · intro p d hp
          right
          refine ⟨cn, rfl, ?_⟩
          rw [List.mem_filterMap]
          exact ⟨_, hp, by simp⟩
      | .pure pn => exact (NodeWf.pure_vis (hg.wf x _ hn) hvis).elim
    obtain ⟨ps, hps1, hps2, hps3⟩ := hps
    obtain ⟨s', h1, u, c, kp, hh⟩ := dirtyLoop_inv ih x S Ex ps s hm hg hps2 hSx hS hc
    refine ⟨s', ?_, u, ?_, kp⟩
    · unfold dirtyPreds
      rw [M.bind_ok (lookupAbs_ok hn)]
      simp only [hps1]
      exact h1
    · intro p nd e g1 g2 g3
      rcases c p nd e g1 g2 g3 with (⟨g4, g5⟩ | g4) | g4
      · -- an edge observing `x`
        right
        obtain ⟨n', g6, g7⟩ := (hg.up u.tbl).fwd p nd e g1 g2
        rw [g5] at g6
        have hx := u.tbl x
        rw [hn, g6] at hx
        rw [hx.preds, g4] at g7
        rw [g4, g5] at g3
        rcases hps3 p _ g7 with ⟨mn, rfl, hmem⟩ | ⟨cn, rfl, hmem⟩
        · cases hx
          rcases hh _ hmem with hh | ⟨ty, f, r, mn', hd, hmn, hr⟩
          · exact absurd g3 (hh nd g1)
          · rw [g6] at hmn; cases hmn
            have g4' : e.edge.effect = .observe := g4
            have g5' : e.edge.loc = x := g5
            unfold Good
            rw [g4', g5', g6]
            show e.dep.okVal mn.val
            match hed : e.dep with
            | .forceMap ty' f' r' =>
              rw [hed] at hd
              simp only [predDep, Option.some.injEq, Dep.forceMap.injEq] at hd
              obtain ⟨rfl, rfl, rfl⟩ := hd
              exact hr
            | .force _ _ => rw [hed] at hd; cases hd
            | .allocStruct => rw [hed] at hd; cases hd
            | .allocNom _ => rw [hed] at hd; cases hd
            | .allocCell _ => rw [hed] at hd; cases hd
            | .forceAbs => rw [hed] at hd; cases hd
        · rcases hh _ hmem with hh | ⟨ty, f, r, mn', hd, hmn, hr⟩
          · exact absurd g3 (hh nd g1)
          · cases hd
      · exact .inl g4
      · exact .inr g4

theorem dirtyPredsTop_inv {sig : Sig} (p : Loc) (s : St V) (S : Loc → Prop) (Ex : Effect → Loc → Prop)
    (hg : Graph sig s.table) (hex : ∃ n, s.table.get p = some n ∧ Vis sig p) (hS : ¬ S p) (hcl : ClosedS s S)
    (hc : CleanEx s (fun e y => (e = .observe ∧ y = p) ∨ Ex e y)) :
    ∃ s', dirtyPredsTop p s = .ok () s' ∧ Up s s' ∧ CleanEx s' Ex ∧ Keep (fun e y => e = .allocate ∨ S y) s s' :=
  dirtyPreds_inv _ p s S Ex (by omega) hg hex hS hcl hc

/-- Every allocator of `x` in the list gets a dirty allocation key. -/
theorem dirtyAllocLoop_inv {sig : Sig} (x : Loc) (S : Loc → Prop) (ps : List Loc) :
    ∀ s : St V, Graph sig s.table →
    (∀ p ∈ ps, p ≠ x ∧ ¬ S p ∧
      ∃ nd e, s.table.get p = some (.comp nd) ∧ e ∈ nd.succs ∧ e.effect = .allocate ∧ e.loc = x) →
    ClosedS s S → CleanEx s (fun e y => e = .allocate ∧ y = x) →
    ∃ s', dirtyAllocLoop x ps s = .ok () s' ∧ Up s s' ∧ CleanEx s' (fun e y => e = .allocate ∧ y = x) ∧
      Keep (fun e y => (e = .allocate ∧ y ≠ x) ∨ (e = .observe ∧ S y)) s s' ∧
      ∀ p ∈ ps, ∀ nd, s'.table.get p = some (.comp nd) → ¬ KeyClean nd.succs .allocate x := by
  induction ps with
  | nil =>
    intro s _ _ _ hc
    exact ⟨s, rfl, Up.refl s, hc, Keep.refl _ s, fun q hq => by cases hq⟩
  | cons p tl ih =>
    intro s hg hps hS hc
    obtain ⟨hpx, hSp, nd, e, h2, h3, h4, h5⟩ := hps p (List.mem_cons_self ..)
    have hone : ∃ s', dirtyAllocator x p s = .ok () s' ∧ Up s s' ∧
        CleanEx s' (fun e y => e = .allocate ∧ y = x) ∧
        Keep (fun e y => (e = .allocate ∧ y ≠ x) ∨ (e = .observe ∧ S y)) s s' ∧
        ∀ nd, s'.table.get p = some (.comp nd) → ¬ KeyClean nd.succs .allocate x := by
      unfold dirtyAllocator
      obtain ⟨e1, hf⟩ : ∃ e1, nd.succs.find? (Succ.matches .allocate x) = some e1 := by
        rw [← h4, ← h5]; exact find_of_mem h3
      rw [M.bind_ok (succDirty_ok h2 hf)]
      cases hd : e1.dirty
      · simp only [Bool.false_eq_true, if_false, if_neg hpx]
        rw [M.bind_ok (setSuccDirty_ok true h2 hf), M.bind_ok (m := evBegin _ _ _) rfl]
        have hu : Up s { s with
            log := Ev.begin TEff.dirty (some p) x :: s.log
            table := s.table.put p (.comp { nd with succs := setFirst .allocate x true nd.succs }) } :=
          (Up.set h2 .allocate x).trans (Up.log _)
        obtain ⟨s', hr1, hr2, hr3, hr4⟩ := dirtyPredsTop_inv p { s with
            log := Ev.begin TEff.dirty (some p) x :: s.log
            table := s.table.put p (.comp { nd with succs := setFirst .allocate x true nd.succs }) }
          S (fun e y => e = .allocate ∧ y = x)
          (hg.up hu.tbl) ⟨_, Table.get_put_self _ _ _, Vis.thunk (hg.wf p _ h2)⟩ hSp (hS.up hu.tbl)
          (hc.set h2 .allocate x (Ev.begin TEff.dirty (some p) x :: s.log))
        rw [M.bind_ok hr1]
        refine ⟨{ s' with log := Ev.end_ :: s'.log }, rfl, (hu.trans hr2).trans (Up.log _), hr3,
          (Keep.set h2 _ ?_).trans hu.tbl (hr4.mono ?_), ?_⟩
        · rintro (⟨_, h⟩ | ⟨h, _⟩)
          · exact h rfl
          · cases h
        · rintro e y (⟨h, _⟩ | ⟨_, h⟩)
          · exact .inl h
          · exact .inr h
        · intro nd' h' hk
          have hp := (hr2.tbl p)
          simp only [Table.get_put_self] at hp
          have h'' : s'.table.get p = some (.comp nd') := h'
          rw [h''] at hp
          obtain ⟨es', h1, hup⟩ := hp.comp_left
          cases h1
          exact not_clean_of_dirty (setFirst_dirty _ _ _ hf) (hup.keyClean hk)
      · simp only [if_true]
        refine ⟨s, rfl, Up.refl s, hc, Keep.refl _ s, ?_⟩
        intro nd' h' hk
        rw [h2] at h'; cases h'
        exact not_clean_of_dirty ⟨e1, hf, hd⟩ hk
    obtain ⟨s1, h1, u1, c1, k1, hh1⟩ := hone
    have hps' : ∀ p ∈ tl, p ≠ x ∧ ¬ S p ∧
        ∃ nd e, s1.table.get p = some (.comp nd) ∧ e ∈ nd.succs ∧ e.effect = .allocate ∧ e.loc = x := by
      intro q hq
      obtain ⟨g1, g2, nd, e, g3, g4, g5, g6⟩ := hps q (List.mem_cons_of_mem _ hq)
      have hp := u1.tbl q
      rw [g3] at hp
      obtain ⟨es', hb, hup⟩ := hp.comp_left
      obtain ⟨e', he', hee⟩ := hup.mem_left g4
      exact ⟨g1, g2, _, e', hb, he', (congrArg Edge.effect hee).trans g5, (congrArg Edge.loc hee).trans g6⟩
    obtain ⟨s2, h2, u2, c2, k2, hh2⟩ := ih s1 (hg.up u1.tbl) hps' (hS.up u1.tbl) c1
    refine ⟨s2, ?_, u1.trans u2, c2, k1.trans u1.tbl k2, ?_⟩
    · unfold dirtyAllocLoop
      rw [M.bind_ok h1]; exact h2
    · intro q hq
      rcases List.mem_cons.1 hq with rfl | hq
      · intro nd' h' hk
        have hp := u2.tbl q
        rw [h'] at hp
        obtain ⟨es, hb, hup⟩ := hp.comp_right
        exact hh1 _ hb (hup.keyClean hk)
      · exact hh2 q hq

/-- `dirty_alloc x`, right after the content of `x` changed: every unjustified clean edge concerns `x`. -/
theorem dirtyAlloc_inv {sig : Sig} (x : Loc) (s : St V) (S : Loc → Prop)
    (hg : Graph sig s.table) (hex : ∃ n, s.table.get x = some n ∧ Vis sig x) (hSx : ¬ S x) (hcl : ClosedS s S)
    (hal : ∀ p nd e, s.table.get p = some (.comp nd) → e ∈ nd.succs → e.effect = .allocate → e.loc = x → ¬ S p)
    (hc : CleanEx s (fun _ y => y = x)) :
    ∃ s', dirtyAlloc x s = .ok () s' ∧ Up s s' ∧ CleanEx s' (fun _ _ => False) ∧
      Keep (fun e y => (e = .allocate ∧ y ≠ x) ∨ (e = .observe ∧ S y)) s s' := by
  obtain ⟨s1, h1, u1, c1, k1⟩ := dirtyPredsTop_inv x s S (fun e y => e = .allocate ∧ y = x) hg hex hSx hcl
    (hc.mono (fun e y h => by
      cases e
      · exact .inl ⟨rfl, h⟩
      · exact .inr ⟨rfl, h⟩))
  have hg1 := hg.up u1.tbl
  obtain ⟨n, hn, hvis⟩ := hex
  have hx := u1.tbl x
  rw [hn] at hx
  obtain ⟨n1, hn1⟩ := hx.some_left
  have hal1 : ∀ p nd e, s1.table.get p = some (.comp nd) → e ∈ nd.succs → e.effect = .allocate → e.loc = x → ¬ S p := by
    intro p nd' e' g1 g2 g3 g4
    have hp := u1.tbl p
    rw [g1] at hp
    obtain ⟨es, hb, hup⟩ := hp.comp_right
    obtain ⟨e, he, hee⟩ := hup.mem_right g2
    exact hal p _ e hb he ((congrArg Edge.effect hee).trans g3) ((congrArg Edge.loc hee).trans g4)
  have hps : ∃ ps, n1.predsAlloc = some ps ∧
      (∀ p ∈ ps, ∃ d, (⟨p, .allocate, d⟩ : Pred V) ∈ n1.preds) ∧
      ∀ p d, (⟨p, .allocate, d⟩ : Pred V) ∈ n1.preds → p ∈ ps := by
    have key : ∀ preds : List (Pred V),
        (∀ p ∈ preds.filterMap (fun p => if p.effect = .allocate then some p.loc else none),
          ∃ d, (⟨p, .allocate, d⟩ : Pred V) ∈ preds) ∧
        ∀ p d, (⟨p, .allocate, d⟩ : Pred V) ∈ preds →
          p ∈ preds.filterMap (fun p => if p.effect = .allocate then some p.loc else none) := by
      intro preds
      constructor
      · intro p hp
        rw [List.mem_filterMap] at hp
        obtain ⟨pr, g1, g2⟩ := hp
        split at g2
        · rename_i ha
          cases g2
          refine ⟨pr.dep, ?_⟩
          have : pr = ⟨pr.loc, .allocate, pr.dep⟩ := by rw [← ha]
          rw [← this]; exact g1
        · cases g2
      · intro p d hp
        rw [List.mem_filterMap]
        exact ⟨_, hp, by simp⟩
    match n1 with
    | .mut mn => exact ⟨_, rfl, key mn.preds⟩
    | .comp cn => exact ⟨_, rfl, key cn.preds⟩
    | .pure pn => exact (NodeWf.pure_vis (hg1.wf x _ hn1) hvis).elim
  obtain ⟨ps, hps1, hps2, hps3⟩ := hps
  obtain ⟨s2, h2, u2, c2, k2, hh⟩ := dirtyAllocLoop_inv x S ps s1 hg1 (by
      intro p hp
      obtain ⟨d, hd⟩ := hps2 p hp
      obtain ⟨nd, g1, e, g2, g3, g4, g5⟩ := hg1.bwd x n1 _ hn1 hd
      obtain ⟨g6, _⟩ := hg1.edge _ _ e g1 g2
      exact ⟨fun h => g6 (g3.trans h.symm), hal1 _ nd e g1 g2 g4 g3, nd, e, g1, g2, g4, g3⟩)
    (hcl.up u1.tbl) c1
  refine ⟨s2, ?_, u1.trans u2, ?_, ?_⟩
  · unfold dirtyAlloc
    rw [M.bind_ok h1, M.bind_ok (lookupAbs_ok hn1)]
    simp only [hps1]
    exact h2
  · intro p nd e g1 g2 g3
    rcases c2 p nd e g1 g2 g3 with ⟨g4, g5⟩ | g4
    · exfalso
      obtain ⟨n', g6, g7⟩ := (hg1.up u2.tbl).fwd p nd e g1 g2
      rw [g5] at g6
      have hx2 := u2.tbl x
      rw [hn1, g6] at hx2
      rw [hx2.preds, g4] at g7
      rw [g4, g5] at g3
      exact hh p (hps3 p _ g7) nd g1 g3
    · exact .inr g4
  · refine (k1.mono ?_).trans u1.tbl k2
    rintro e y (⟨h, _⟩ | ⟨_, h⟩)
    · exact .inl h
    · exact .inr h

end
end Adapton
