import Verif.Engine.Wf
import Verif.Props.Graph
/-
C56 (no observation cycles) and C57 (the well-formedness checker is sound, and passes).
-/
set_option linter.unusedSectionVars false
set_option linter.unusedVariables false
namespace Adapton
open Ref (Sig Kind Means)
open Wf (Chk Cs Status checkDcg getSucc)
variable {V : Type} [DecidableEq V]

/-! ### Specification -/

/-- Thunk `p` has recorded an observation of `x`. -/
def Observed (t : Table V) (p x : Loc) : Prop := ∃ e, HasDep t p e ∧ e.effect = .observe ∧ e.loc = x

/-- A path of observations, of any positive length. -/
inductive ObsPath (t : Table V) : Loc → Loc → Prop
  | one {p x} : Observed t p x → ObsPath t p x
  | step {p x y} : Observed t p x → ObsPath t x y → ObsPath t p y

/-- Changes may have reached `p`: one of its dependencies is dirty, or it observed such a location (as far as the locations
know their observers). -/
inductive Stale (t : Table V) : Loc → Prop
  | here {p e} : HasDep t p e → e.dirty = true → Stale t p
  | up {p q} : Stale t p → KnowsPred t p q .observe → Stale t q

/-- What the checker is for: no running thunk may be stale, and whoever observed a stale location carries a dirty
edge for it. -/
def WellMarked (s : St V) : Prop :=
  ∀ p, Stale s.table p → p ∉ s.locs ∧
    ∀ q, KnowsPred s.table p q .observe → ∃ e, HasDep s.table q e ∧ e.effect = .observe ∧ e.loc = p ∧ e.dirty = true

/-! ### C56 -/

theorem ObsPath.reach {t : Table V} {p x : Loc} (h : ObsPath t p x) : Wf.Reach t p x := by
  have ho : ∀ p x, Observed t p x → ObsEdge t p x := by
    rintro p x ⟨e, ⟨nd, h1, h2⟩, h3, h4⟩
    exact ⟨nd, e, h1, h2, h3, h4⟩
  induction h with
  | one h => exact .one (ho _ _ h)
  | step h _ ih => exact .step (ho _ _ h) ih

/-- **C56.** Between the editor programs of a session that has a meaning, no location is reachable from itself along recorded
observations. -/
theorem C56_no_observation_cycle (sig : Sig) (env : Env V) (ps : List (Prog V)) (vs : List V) (h : Means sig env ps vs)
    (purity : Bool) (hp : purity = true → sig.pu = true) (n : Nat) (vs' : List V) (s' : St V) (hr : runSession env n ps (initSt purity sig.mode) = .ok vs' s')
    (x : Loc) : ¬ ObsPath s'.table x x := by
  obtain ⟨⟨σ, D, hI⟩, hS, hst⟩ := session_state sig env ps vs h purity hp n vs' s' hr
  exact fun hp => Wf.Reach.no_cycle hI.acyc x hp.reach

/-! ### C57: the checker passes -/

/-- **C57.** Between the editor programs of a session that has a meaning, the checker passes, in whatever order the table
presents its entries, and it recurses no deeper than the table has entries. -/
theorem C57_checker_passes (sig : Sig) (env : Env V) (ps : List (Prog V)) (vs : List V) (h : Means sig env ps vs)
    (purity : Bool) (hp : purity = true → sig.pu = true) (n : Nat) (vs' : List V) (s' : St V) (hr : runSession env n ps (initSt purity sig.mode) = .ok vs' s')
    (order : List Loc) (k : Nat) (hk : s'.table.length < k) : ∃ cs, checkDcg k order s' = .ok cs := by
  obtain ⟨⟨σ, D, hI⟩, hS, hst⟩ := session_state sig env ps vs h purity hp n vs' s' hr
  exact Wf.check_passes hI (fun p nd e hp he hd => (hS p nd hp).2.key he hd) k hk order

/-! ### C57: the checker is sound, whatever the state -/

/-- `q` is reached from `l` along recorded observers. -/
inductive UpTo (t : Table V) : Loc → Loc → Prop
  | refl {l} : UpTo t l l
  | step {l p q} : KnowsPred t l p .observe → UpTo t p q → UpTo t l q

/-- The marks only grow. -/
def CsLe (a b : Cs) : Prop := ∀ x st, st ≠ .unknown → a x = some st → b x = some st

/-- No `unknown` is ever stored. -/
def CsKnown (a : Cs) : Prop := ∀ x, a x ≠ some .unknown

theorem CsLe.trans {a b c : Cs} (h1 : CsLe a b) (h2 : CsLe b c) : CsLe a c := fun x st hs h => h2 x st hs (h1 x st hs h)

theorem add_ok {cs cs' : Cs} {l : Loc} {st : Status} (h : Wf.addConstraint cs l st = .ok cs') (hst : st ≠ .unknown) :
    CsLe cs cs' ∧ cs' l = some st ∧ (CsKnown cs → CsKnown cs') := by
  have hins : (cs l = none ∨ cs l = some .unknown) → CsLe cs (Wf.insert cs l st) ∧ Wf.insert cs l st l = some st ∧
      (CsKnown cs → CsKnown (Wf.insert cs l st)) := by
    intro hc
    refine ⟨?_, by simp [Wf.insert], ?_⟩
    · intro x st' hs' hx
      unfold Wf.insert
      split
      · subst_vars
        rcases hc with hc | hc
        · rw [hc] at hx; cases hx
        · rw [hc] at hx; cases hx; exact absurd rfl hs'
      · exact hx
    · intro hk x
      unfold Wf.insert
      split
      · intro h; cases h; exact hst rfl
      · exact hk x
  unfold Wf.addConstraint at h
  rcases hc : cs l with _ | old
  · rw [hc] at h
    cases st
    · cases h; exact hins (.inl hc)
    · cases h; exact hins (.inl hc)
    · exact absurd rfl hst
  · rw [hc] at h
    cases old <;> cases st <;> first
      | exact absurd rfl hst
      | (cases h; done)
      | (cases h; exact ⟨fun _ _ _ h => h, hc, id⟩)
      | (cases h; exact hins (.inr hc))

theorem bind_ok {α β : Type} {m : Chk α} {f : α → Chk β} {b : β} (h : m.bind f = .ok b) : ∃ a, m = .ok a ∧ f a = .ok b := by
  cases m with
  | deep => cases h
  | panic => cases h
  | ok a => exact ⟨a, rfl, h⟩

/-- What a successful `dirty` has established above `l`. -/
def MarkedAbove (t : Table V) (cs : Cs) (l : Loc) : Prop :=
  ∀ p, UpTo t l p → cs p = some .dirty ∧ ∀ q, KnowsPred t p q .observe → ∃ e, getSucc t q .observe p = some e ∧ e.dirty = true

theorem MarkedAbove.mono {t : Table V} {a b : Cs} {l : Loc} (h : MarkedAbove t a l) (hle : CsLe a b) : MarkedAbove t b l :=
  fun p hp => ⟨hle _ _ (by simp) (h p hp).1, (h p hp).2⟩

theorem knows_predsObs {t : Table V} {l q : Loc} {n : Node V} {ps : List (Loc × Option (Dep V))} (hn : t.get l = some n)
    (hp : n.predsObs = some ps) (h : KnowsPred t l q .observe) : ∃ d, (q, d) ∈ ps := by
  obtain ⟨n', h1, p, h2, h3, h4⟩ := h
  rw [hn] at h1; cases h1
  match n with
  | .pure nd => cases hp
  | .mut nd =>
    cases hp
    exact ⟨p.dep, List.mem_filterMap.2 ⟨p, h2, by rw [if_pos h4, h3]⟩⟩
  | .comp nd =>
    cases hp
    exact ⟨none, List.mem_filterMap.2 ⟨p, h2, by rw [if_pos h4, h3]⟩⟩

theorem dirty_sound (t : Table V) : ∀ (k : Nat) (l : Loc) (cs cs' : Cs), Wf.dirty t k l cs = .ok cs' →
    CsLe cs cs' ∧ MarkedAbove t cs' l := by
  intro k
  induction k with
  | zero => intro l cs cs' h; cases h
  | succ k ih =>
    intro l cs cs' h
    unfold Wf.dirty at h
    obtain ⟨cs1, h1, h2⟩ := bind_ok h
    obtain ⟨a1, a2, _⟩ := add_ok h1 (by simp)
    rcases hg : t.get l with _ | n
    · rw [hg] at h2; cases h2
    · rw [hg] at h2
      simp only at h2
      rcases hp : n.predsObs with _ | ps
      · rw [hp] at h2; cases h2
      · rw [hp] at h2
        simp only at h2
        have hloop : ∀ (ps : List (Loc × Option (Dep V))) (cs cs' : Cs), Wf.dirtyLoop t (Wf.dirty t k) l ps cs = .ok cs' →
            CsLe cs cs' ∧ ∀ q ∈ ps, (∃ e, getSucc t q.1 .observe l = some e ∧ e.dirty = true) ∧ MarkedAbove t cs' q.1 := by
          intro ps
          induction ps with
          | nil => intro cs cs' h; cases h; exact ⟨fun _ _ _ h => h, by simp⟩
          | cons q ps ihp =>
            intro cs cs' h
            unfold Wf.dirtyLoop at h
            rcases hs : getSucc t q.1 .observe l with _ | e
            · rw [hs] at h; cases h
            · rw [hs] at h
              simp only at h
              cases hd : e.dirty
              · rw [hd] at h; cases h
              · rw [hd, if_pos rfl] at h
                obtain ⟨cs2, g1, g2⟩ := bind_ok h
                obtain ⟨b1, b2⟩ := ih _ _ _ g1
                obtain ⟨c1, c2⟩ := ihp _ _ g2
                refine ⟨b1.trans c1, ?_⟩
                intro q' hq'
                rcases List.mem_cons.1 hq' with rfl | hq'
                · exact ⟨⟨e, hs, hd⟩, b2.mono c1⟩
                · exact c2 q' hq'
        obtain ⟨b1, b2⟩ := hloop ps cs1 cs' h2
        refine ⟨a1.trans b1, ?_⟩
        intro p hup
        cases hup with
        | refl =>
          refine ⟨b1 _ _ (by simp) a2, ?_⟩
          intro q hq
          obtain ⟨d, hd⟩ := knows_predsObs hg hp hq
          exact (b2 _ hd).1
        | step hk hup =>
          obtain ⟨d, hd⟩ := knows_predsObs hg hp hk
          exact (b2 _ hd).2 p hup

theorem nodes_sound (t : Table V) (k : Nat) : ∀ (order : List Loc) (cs cs' : Cs), Wf.nodes t k order cs = .ok cs' →
    CsLe cs cs' ∧ ∀ l ∈ order, ∀ e, HasDep t l e → e.dirty = true → MarkedAbove t cs' l := by
  intro order
  induction order with
  | nil => intro cs cs' h; cases h; exact ⟨fun _ _ _ h => h, by simp⟩
  | cons l ls ih =>
    intro cs cs' h
    unfold Wf.nodes at h
    have hother : ∀ (hno : ∀ e, ¬ HasDep t l e), Wf.nodes t k ls cs = .ok cs' →
        CsLe cs cs' ∧ ∀ l' ∈ l :: ls, ∀ e, HasDep t l' e → e.dirty = true → MarkedAbove t cs' l' := by
      intro hno h
      obtain ⟨a1, a2⟩ := ih _ _ h
      refine ⟨a1, ?_⟩
      intro l' hl' e he hd
      rcases List.mem_cons.1 hl' with rfl | hl'
      · exact absurd he (hno e)
      · exact a2 l' hl' e he hd
    rcases hg : t.get l with _ | n
    · rw [hg] at h
      exact hother (by rintro e ⟨nd, h1, _⟩; rw [hg] at h1; cases h1) h
    · match n with
      | .mut nd => rw [hg] at h; exact hother (by rintro e ⟨nd, h1, _⟩; rw [hg] at h1; cases h1) h
      | .pure nd => rw [hg] at h; exact hother (by rintro e ⟨nd, h1, _⟩; rw [hg] at h1; cases h1) h
      | .comp nd =>
        rw [hg] at h
        simp only at h
        obtain ⟨cs1, h1, h2⟩ := bind_ok h
        have hed : ∀ (es : List (Succ V)) (cs cs' : Cs), Wf.edges t k l es cs = .ok cs' →
            CsLe cs cs' ∧ ∀ e ∈ es, e.dirty = true → MarkedAbove t cs' l := by
          intro es
          induction es with
          | nil => intro cs cs' h; cases h; exact ⟨fun _ _ _ h => h, by simp⟩
          | cons e es ihe =>
            intro cs cs' h
            unfold Wf.edges at h
            cases hd : e.dirty
            · rw [hd, if_neg (by simp)] at h
              obtain ⟨b1, b2⟩ := ihe _ _ h
              refine ⟨b1, ?_⟩
              intro e' he' hd'
              rcases List.mem_cons.1 he' with rfl | he'
              · rw [hd] at hd'; cases hd'
              · exact b2 e' he' hd'
            · rw [hd, if_pos rfl] at h
              obtain ⟨cs2, g1, g2⟩ := bind_ok h
              obtain ⟨b1, b2⟩ := dirty_sound t k l _ _ g1
              obtain ⟨c1, c2⟩ := ihe _ _ g2
              exact ⟨b1.trans c1, fun e' he' hd' => b2.mono c1⟩
        obtain ⟨b1, b2⟩ := hed _ _ _ h1
        obtain ⟨c1, c2⟩ := ih _ _ h2
        refine ⟨b1.trans c1, ?_⟩
        intro l' hl' e he hd
        rcases List.mem_cons.1 hl' with rfl | hl'
        · obtain ⟨nd', k1, k2⟩ := he
          rw [hg] at k1; cases k1
          exact (b2 e k2 hd).mono c1
        · exact c2 l' hl' e he hd

theorem clean_sound (t : Table V) : ∀ (k : Nat) (l : Loc) (cs cs' : Cs), Wf.clean t k l cs = .ok cs' →
    CsLe cs cs' ∧ cs' l = some .clean := by
  intro k
  induction k with
  | zero => intro l cs cs' h; cases h
  | succ k ih =>
    intro l cs cs' h
    unfold Wf.clean at h
    obtain ⟨cs1, h1, h2⟩ := bind_ok h
    obtain ⟨a1, a2, _⟩ := add_ok h1 (by simp)
    rcases hg : t.get l with _ | n
    · rw [hg] at h2; cases h2
    · rw [hg] at h2
      match n with
      | .mut nd => cases h2; exact ⟨a1, a2⟩
      | .pure nd => cases h2; exact ⟨a1, a2⟩
      | .comp nd =>
        simp only at h2
        have hloop : ∀ (es : List (Succ V)) (cs cs' : Cs), Wf.cleanLoop t (Wf.clean t k) l es cs = .ok cs' → CsLe cs cs' := by
          intro es
          induction es with
          | nil => intro cs cs' h; cases h; exact fun _ _ _ h => h
          | cons e es ihe =>
            intro cs cs' h
            unfold Wf.cleanLoop at h
            rcases hs : getSucc t l .observe e.loc with _ | e'
            · rw [hs] at h; cases h
            · rw [hs] at h
              simp only at h
              cases hd : e'.dirty
              · rw [hd, if_neg (by simp)] at h
                obtain ⟨cs2, g1, g2⟩ := bind_ok h
                exact (ih _ _ _ g1).1.trans (ihe _ _ g2)
              · rw [hd] at h; cases h
        have := hloop _ _ _ h2
        exact ⟨a1.trans this, this _ _ (by simp) a2⟩

theorem frames_sound (t : Table V) (k : Nat) : ∀ (ls : List Loc) (cs cs' : Cs), Wf.frames t k ls cs = .ok cs' →
    CsLe cs cs' ∧ ∀ l ∈ ls, cs' l = some .clean := by
  intro ls
  induction ls with
  | nil => intro cs cs' h; cases h; exact ⟨fun _ _ _ h => h, by simp⟩
  | cons l ls ih =>
    intro cs cs' h
    unfold Wf.frames at h
    obtain ⟨cs1, h1, h2⟩ := bind_ok h
    obtain ⟨a1, a2⟩ := clean_sound t k l _ _ h1
    obtain ⟨b1, b2⟩ := ih _ _ h2
    refine ⟨a1.trans b1, ?_⟩
    intro l' hl'
    rcases List.mem_cons.1 hl' with rfl | hl'
    · exact b1 _ _ (by simp) a2
    · exact b2 l' hl'

theorem UpTo.snoc {t : Table V} {l p q : Loc} (h : UpTo t l p) (hk : KnowsPred t p q .observe) : UpTo t l q := by
  induction h with
  | refl => exact .step hk .refl
  | step h1 _ ih => exact .step h1 (ih hk)

theorem Stale.above {t : Table V} {p : Loc} (h : Stale t p) : ∃ l e, HasDep t l e ∧ e.dirty = true ∧ UpTo t l p := by
  induction h with
  | here h1 h2 => exact ⟨_, _, h1, h2, .refl⟩
  | up _ hk ih =>
    obtain ⟨l, e, h1, h2, h3⟩ := ih
    exact ⟨l, e, h1, h2, h3.snoc hk⟩

/-- **C57.** In any state whatsoever, reachable or not: if the checker, given all thunks of the table in some order, returns
without a panic, then no running thunk is stale and every recorded observation of a stale location is dirty. -/
theorem C57_checker_sound (s : St V) (k : Nat) (order : List Loc)
    (hcover : ∀ l e, HasDep s.table l e → l ∈ order) (cs : Cs) (h : checkDcg k order s = .ok cs) : WellMarked s := by
  unfold checkDcg at h
  obtain ⟨cs1, h1, h2⟩ := bind_ok h
  obtain ⟨a1, a2⟩ := frames_sound _ _ _ _ _ h1
  obtain ⟨b1, b2⟩ := nodes_sound _ _ _ _ _ h2
  intro p hp
  obtain ⟨l, e, g1, g2, g3⟩ := hp.above
  have hm := b2 l (hcover l e g1) e g1 g2 p g3
  refine ⟨?_, ?_⟩
  · intro hk
    have := b1 _ _ (by simp) (a2 p hk)
    rw [hm.1] at this; cases this
  · intro q hq
    obtain ⟨e', k1, k2⟩ := hm.2 q hq
    unfold getSucc at k1
    rcases hg : s.table.get q with _ | n
    · rw [hg] at k1; cases k1
    · rw [hg] at k1
      match n with
      | .mut nd => cases k1
      | .pure nd => cases k1
      | .comp nd =>
        have hm := Succ.matches_iff.1 (List.find?_some k1)
        exact ⟨e', ⟨nd, hg, List.mem_of_find?_eq_some k1⟩, hm.1, hm.2, k2⟩

/-! ### The hypotheses are met -/
namespace Example1

/-- The state after the edit of `psEdit`: two dirty edges, one above the other. The checker passes. -/
def afterEdit : St Nat :=
  match runSession env 10 psEdit (initSt true false) with
  | .ok _ s => s
  | _ => initSt true false

example : (match checkDcg 10 (afterEdit.table.map (·.1)) afterEdit with | .ok cs => cs (at_ 2) | _ => none) = some .dirty := by
  decide +kernel

/-- The same state with the upper dirty bit dropped, as a forgotten dirtying step would leave it: the checker panics. -/
example : (match afterEdit.table.get (at_ 2) with
    | some (.comp nd) =>
      (match checkDcg 10 (afterEdit.table.map (·.1)) { afterEdit with
          table := afterEdit.table.put (at_ 2) (.comp { nd with succs := nd.succs.map fun e => { e with dirty := false } }) } with
        | .panic => true | _ => false)
    | _ => false) = true := by decide +kernel

/-- A path of observations of length two in that state. -/
example : ∃ x, ObsPath afterEdit.table (at_ 2) x ∧ x = at_ 0 := by
  have h1 : (match afterEdit.table.get (at_ 2) with
    | some (.comp nd) => nd.succs.any fun e => decide (e.effect = .observe ∧ e.loc = inner) | _ => false) = true := by decide +kernel
  have h2 : (match afterEdit.table.get inner with
    | some (.comp nd) => nd.succs.any fun e => decide (e.effect = .observe ∧ e.loc = at_ 0) | _ => false) = true := by decide +kernel
  refine ⟨_, .step (x := inner) ?_ (.one ?_), rfl⟩
  · match hg : afterEdit.table.get (at_ 2) with
    | some (.comp nd) =>
      rw [hg] at h1
      simp only [List.any_eq_true, decide_eq_true_eq] at h1
      obtain ⟨e, g1, g2⟩ := h1
      exact ⟨e, ⟨nd, hg, g1⟩, g2⟩
    | some (.mut nd) => rw [hg] at h1; cases h1
    | some (.pure nd) => rw [hg] at h1; cases h1
    | none => rw [hg] at h1; cases h1
  · match hg : afterEdit.table.get inner with
    | some (.comp nd) =>
      rw [hg] at h2
      simp only [List.any_eq_true, decide_eq_true_eq] at h2
      obtain ⟨e, g1, g2⟩ := h2
      exact ⟨e, ⟨nd, hg, g1⟩, g2⟩
    | some (.mut nd) => rw [hg] at h2; cases h2
    | some (.pure nd) => rw [hg] at h2; cases h2
    | none => rw [hg] at h2; cases h2

end Example1
end Adapton
