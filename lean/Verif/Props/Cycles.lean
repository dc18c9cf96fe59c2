import Verif.Props.Macros
/-
C73: the "Nominal Cycles" example of the documentation (/repo/src/lib.rs:740-866; also test_cycles, engine.rs:2797-2850), for every directed graph.
-/
set_option linter.unusedSectionVars false
set_option linter.unusedVariables false
set_option linter.unusedSimpArgs false
namespace Adapton.Cyc
open Adapton Macros
variable (H : NameHash) (pt : String → ProgPt)

/-! ### The program -/

/-- The articulation of the thunk for node `n`. -/
def loc (n : Nat) : Loc := ⟨.empty, .nominal (nameOfUsize H n)⟩

/-- `explore_thunk`, lib.rs:859-861.  The values are vectors of nodes; the argument `n` is the vector `[n]`. -/
def exploreThunk (n : Nat) (k : Loc → Prog (List Nat)) : Prog (List Nat) := thunkFun pt 0 (some (nameOfUsize H n)) "explore" 1 [n] k

/-- `explore`, lib.rs:848-858. -/
def explore (adj : Nat → Nat × Nat) (n : Nat) : Prog (List Nat) :=
  exploreThunk H pt (adj n).1 fun at_ => exploreThunk H pt (adj n).2 fun bt =>
    getCycle 0 at_ [] fun av => getCycle 0 bt [] fun bv => .ret (n :: av ++ bv)

/-- `explore_rec`, lib.rs:831-839. -/
def exploreRec (adj : Nat → Nat × Nat) (n : Nat) : Prog (List Nat) :=
  .call 2 [(adj n).1] fun av => .call 2 [(adj n).2] fun bv => .ret (n :: av ++ bv)

def code (adj : Nat → Nat × Nat) : FnId → List Nat → Prog (List Nat)
  | 1, [n] => explore H pt adj n
  | 2, [n] => exploreRec adj n
  | _, _ => .panic

def env (adj : Nat → Nat × Nat) (hv : List Nat → UInt64) (ha : ProgPt → List Nat → UInt64) : Env (List Nat) := ⟨code H pt adj, hv, ha⟩

/-- `get!(explore_thunk(n))`. -/
def demand (n : Nat) : Prog (List Nat) := exploreThunk H pt n fun t => get 0 t .ret

/-! ### Specification -/

/-- There is a path from one node to another. -/
inductive Reach (adj : Nat → Nat × Nat) : Nat → Nat → Prop where
  | refl (n) : Reach adj n n
  | fst {n m} : Reach adj (adj n).1 m → Reach adj n m
  | snd {n m} : Reach adj (adj n).2 m → Reach adj n m

/-- What has been found so far from each node. -/
abbrev Memo := Nat → Option (List Nat)

/-- Depth-first search to depth `k`: `vs` are the nodes on the current path, where the search turns back. -/
def dfs (adj : Nat → Nat × Nat) : Nat → List Nat → Memo → Nat → Option (Memo × List Nat)
  | 0, _, _, _ => none
  | k + 1, vs, μ, n =>
    if n ∈ vs then some (μ, [])
    else match μ n with
      | some r => some (μ, r)
      | none => do
        let (μ1, av) ← dfs adj k (n :: vs) μ (adj n).1
        let (μ2, bv) ← dfs adj k (n :: vs) μ1 (adj n).2
        some (fun x => if x = n then some (n :: av ++ bv) else μ2 x, n :: av ++ bv)

/-- A sequence of searches that share what they have found. -/
def dfsAll (adj : Nat → Nat × Nat) (k : Nat) : Memo → List Nat → Option (Memo × List (List Nat))
  | μ, [] => some (μ, [])
  | μ, n :: ns => do
    let (μ1, r) ← dfs adj k [] μ n
    let (μ2, rs) ← dfsAll adj k μ1 ns
    some (μ2, r :: rs)

/-! ### The search -/

section
variable {adj : Nat → Nat × Nat}

theorem dfs_succ {k : Nat} {vs : List Nat} {μ μ' : Memo} {n : Nat} {r : List Nat} (h : dfs adj (k + 1) vs μ n = some (μ', r)) :
    (n ∈ vs ∧ μ' = μ ∧ r = []) ∨ (n ∉ vs ∧ μ n = some r ∧ μ' = μ) ∨
    (n ∉ vs ∧ μ n = none ∧ ∃ μ1 av μ2 bv, dfs adj k (n :: vs) μ (adj n).1 = some (μ1, av) ∧ dfs adj k (n :: vs) μ1 (adj n).2 = some (μ2, bv) ∧
      μ' = (fun x => if x = n then some (n :: av ++ bv) else μ2 x) ∧ r = n :: av ++ bv) := by
  simp only [dfs] at h
  by_cases hv : n ∈ vs
  · rw [if_pos hv] at h; cases h; exact .inl ⟨hv, rfl, rfl⟩
  · rw [if_neg hv] at h
    rcases hm : μ n with _ | r'
    · rw [hm] at h
      simp only [Option.bind_eq_bind] at h
      rcases h1 : dfs adj k (n :: vs) μ (adj n).1 with _ | ⟨μ1, av⟩
      · rw [h1] at h; cases h
      rw [h1] at h
      simp only [Option.bind_some] at h
      rcases h2 : dfs adj k (n :: vs) μ1 (adj n).2 with _ | ⟨μ2, bv⟩
      · rw [h2] at h; cases h
      rw [h2] at h
      cases h
      exact .inr (.inr ⟨hv, rfl, μ1, av, μ2, bv, rfl, h2, rfl, rfl⟩)
    · rw [hm] at h; cases h
      exact .inr (.inl ⟨hv, rfl, rfl⟩)

/-- What a search adds and returns. -/
structure Found (adj : Nat → Nat × Nat) (vs : List Nat) (μ : Memo) (n : Nat) (μ' : Memo) (r : List Nat) : Prop where
  keep : ∀ m w, μ m = some w → μ' m = some w
  path : ∀ m ∈ vs, μ' m = μ m
  root : n ∈ vs ∨ μ' n = some r
  new : ∀ m, μ m = none → μ' m ≠ none → m ∈ r ∧ ((adj m).1 ∈ vs ∨ μ' (adj m).1 ≠ none) ∧ ((adj m).2 ∈ vs ∨ μ' (adj m).2 ≠ none)

theorem dfs_found : ∀ k vs (μ μ' : Memo) n r, dfs adj k vs μ n = some (μ', r) → Found adj vs μ n μ' r := by
  intro k
  induction k with
  | zero => intro vs μ μ' n r h; cases h
  | succ k ih =>
    intro vs μ μ' n r h
    rcases dfs_succ h with ⟨hv, rfl, rfl⟩ | ⟨hv, hm, rfl⟩ | ⟨hv, hm, μ1, av, μ2, bv, h1, h2, rfl, rfl⟩
    · exact ⟨fun _ _ h => h, fun _ _ => rfl, .inl hv, fun m h1 h2 => absurd h1 h2⟩
    · exact ⟨fun _ _ h => h, fun _ _ => rfl, .inr hm, fun m h1 h2 => absurd h1 h2⟩
    · have f1 := ih _ _ _ _ _ h1
      have f2 := ih _ _ _ _ _ h2
      have hn1 : μ1 n = none := (f1.path n (List.mem_cons_self ..)).trans hm
      have hn2 : μ2 n = none := (f2.path n (List.mem_cons_self ..)).trans hn1
      have up : ∀ m, μ2 m ≠ none → (if m = n then some (n :: av ++ bv) else μ2 m) ≠ none := by
        intro m h
        by_cases hmn : m = n
        · rw [if_pos hmn]; exact fun h => by cases h
        · rw [if_neg hmn]; exact h
      have up1 : ∀ m, μ1 m ≠ none → μ2 m ≠ none := by
        intro m h
        rcases hm : μ1 m with _ | w
        · exact absurd hm h
        · rw [f2.keep m w hm]; exact fun h => by cases h
      have nb : ∀ x, (x ∈ n :: vs ∨ μ2 x ≠ none) → (x ∈ vs ∨ (if x = n then some (n :: av ++ bv) else μ2 x) ≠ none) := by
        intro x h
        by_cases hxn : x = n
        · rw [if_pos hxn]; exact .inr (fun h => by cases h)
        · rw [if_neg hxn]
          rcases h with h | h
          · rcases List.mem_cons.1 h with h | h
            · exact absurd h hxn
            · exact .inl h
          · exact .inr h
      have rt : ∀ (x : Nat) w, (x ∈ n :: vs ∨ μ2 x = some w) → (x ∈ n :: vs ∨ μ2 x ≠ none) := by
        intro x w h
        rcases h with h | h
        · exact .inl h
        · right; rw [h]; exact fun h => by cases h
      refine ⟨fun m w hw => ?_, fun m hmv => ?_, .inr ?_, fun m h3 h4 => ?_⟩
      · rw [if_neg (fun hmn => by rw [hmn, hm] at hw; cases hw)]
        exact f2.keep _ _ (f1.keep _ _ hw)
      · rw [if_neg (fun hmn : m = n => hv (hmn ▸ hmv))]
        exact (f2.path m (List.mem_cons_of_mem _ hmv)).trans (f1.path m (List.mem_cons_of_mem _ hmv))
      · rw [if_pos rfl]
      · by_cases hmn : m = n
        · subst hmn
          refine ⟨List.mem_cons_self .., nb _ ?_, nb _ (rt _ bv f2.root)⟩
          rcases f1.root with h | h
          · exact .inl h
          · exact .inr (up1 _ (by rw [h]; exact fun h => by cases h))
        · rw [if_neg hmn] at h4
          rcases h5 : μ1 m with _ | w
          · obtain ⟨g1, g2, g3⟩ := f2.new m h5 h4
            exact ⟨List.mem_cons_of_mem _ (List.mem_append_right _ g1), nb _ g2, nb _ g3⟩
          · obtain ⟨g1, g2, g3⟩ := f1.new m h3 (by rw [h5]; exact fun h => by cases h)
            exact ⟨List.mem_cons_of_mem _ (List.mem_append_left _ g1), nb _ (g2.imp_right (up1 _)), nb _ (g3.imp_right (up1 _))⟩

/-- Everything that a search returns can be reached. -/
theorem dfs_sound : ∀ k vs (μ μ' : Memo) n r, dfs adj k vs μ n = some (μ', r) → (∀ m w, μ m = some w → ∀ x ∈ w, Reach adj m x) →
    (∀ x ∈ r, Reach adj n x) ∧ ∀ m w, μ' m = some w → ∀ x ∈ w, Reach adj m x := by
  intro k
  induction k with
  | zero => intro vs μ μ' n r h; cases h
  | succ k ih =>
    intro vs μ μ' n r h hμ
    rcases dfs_succ h with ⟨hv, rfl, rfl⟩ | ⟨hv, hm, rfl⟩ | ⟨hv, hm, μ1, av, μ2, bv, h1, h2, rfl, rfl⟩
    · exact ⟨fun x hx => (by cases hx), hμ⟩
    · exact ⟨hμ n r hm, hμ⟩
    · obtain ⟨a1, a2⟩ := ih _ _ _ _ _ h1 hμ
      obtain ⟨b1, b2⟩ := ih _ _ _ _ _ h2 a2
      have hr : ∀ x ∈ n :: av ++ bv, Reach adj n x := by
        intro x hx
        rcases List.mem_cons.1 hx with rfl | hx
        · exact .refl _
        · rcases List.mem_append.1 hx with hx | hx
          · exact .fst (a1 x hx)
          · exact .snd (b1 x hx)
      refine ⟨hr, fun m w hw => ?_⟩
      replace hw : (if m = n then some (n :: av ++ bv) else μ2 m) = some w := hw
      by_cases hmn : m = n
      · rw [if_pos hmn] at hw; cases hw; rw [hmn]; exact hr
      · rw [if_neg hmn] at hw; exact b2 m w hw

/-- A first search finds every node that can be reached. -/
theorem dfs_complete {k : Nat} {μ' : Memo} {n : Nat} {r : List Nat} (h : dfs adj k [] (fun _ => none) n = some (μ', r)) :
    ∀ m, Reach adj n m ↔ m ∈ r := by
  have f := dfs_found k [] _ _ n r h
  have hn : μ' n ≠ none := by
    rcases f.root with h | h
    · cases h
    · rw [h]; exact fun h => by cases h
  have key : ∀ a m, Reach adj a m → μ' a ≠ none → μ' m ≠ none := by
    intro a m hr
    induction hr with
    | refl => exact fun h => h
    | fst _ ih =>
      intro ha
      rcases (f.new _ rfl ha).2.1 with h | h
      · cases h
      · exact ih h
    | snd _ ih =>
      intro ha
      rcases (f.new _ rfl ha).2.2 with h | h
      · cases h
      · exact ih h
  intro m
  constructor
  · intro hr; exact (f.new m rfl (key n m hr hn)).1
  · exact (dfs_sound k [] _ _ n r h (fun m w hw => by cases hw)).1 m

/-- The search ends: `U` has all nodes that can be reached, and each step of the path takes one of them. -/
theorem dfs_total (U : List Nat) : ∀ k vs (μ : Memo) n, (∀ m, Reach adj n m → m ∈ U) → (∀ v ∈ vs, v ∈ U) → vs.Nodup → U.length < vs.length + k →
    ∃ μ' r, dfs adj k vs μ n = some (μ', r) := by
  intro k
  induction k with
  | zero =>
    intro vs μ n hU hvs hnd hk
    have := List.Nodup.length_le_of_subset hnd (fun v hv => hvs v hv)
    omega
  | succ k ih =>
    intro vs μ n hU hvs hnd hk
    simp only [dfs]
    by_cases hv : n ∈ vs
    · rw [if_pos hv]; exact ⟨_, _, rfl⟩
    · rw [if_neg hv]
      rcases hm : μ n with _ | r
      · simp only [Option.bind_eq_bind]
        have hvs' : ∀ v ∈ n :: vs, v ∈ U := by
          intro v hv
          rcases List.mem_cons.1 hv with rfl | hv
          · exact hU _ (.refl _)
          · exact hvs v hv
        have hnd' : (n :: vs).Nodup := List.nodup_cons.2 ⟨hv, hnd⟩
        obtain ⟨μ1, av, h1⟩ := ih (n :: vs) μ (adj n).1 (fun m h => hU m (.fst h)) hvs' hnd' (by simp only [List.length_cons]; omega)
        obtain ⟨μ2, bv, h2⟩ := ih (n :: vs) μ1 (adj n).2 (fun m h => hU m (.snd h)) hvs' hnd' (by simp only [List.length_cons]; omega)
        rw [h1]
        simp only [Option.bind_some]
        rw [h2]
        exact ⟨_, _, rfl⟩
      · exact ⟨_, _, rfl⟩
end

/-! ### The engine follows the search -/

/-- The state has the thunk of node `n`. -/
def Has (s : St (List Nat)) (n : Nat) : Prop := s.table.get (loc H n) ≠ none

theorem loc_inj {n m : Nat} (h : loc H n = loc H m) : n = m := by
  unfold loc nameOfUsize at h
  simp only [Loc.mk.injEq, ArtId.nominal.injEq, Name.mk.injEq, NameSym.usize.injEq, true_and] at h
  exact h.2

/-- What is in the table at a node. -/
structure NodeIs (μ : Memo) (n : Nat) (c : CompNode (List Nat)) : Prop where
  ty : c.ty = 0
  pp : c.pp = pt "explore"
  fn : c.fn = 1
  arg : c.arg = [n]
  res : c.res = μ n
  clean : ∀ e ∈ c.succs, e.dirty = false
  fresh : c.res = none → c.succs = []

/-- The state agrees with the search: `μ` is what has been found, `vs` the current path. -/
structure CI (μ : Memo) (vs : List Nat) (s : St (List Nat)) : Prop where
  path : s.path = .empty
  names : s.ignoreNominal = false
  tab : ∀ l nd, s.table.get l = some nd → ∃ n c, l = loc H n ∧ nd = .comp c ∧ NodeIs pt μ n c
  memo : ∀ n, μ n ≠ none → Has H s n
  stk : s.stack.map (·.loc) = vs.map (loc H)
  run : ∀ n ∈ vs, Has H s n ∧ μ n = none
  frames : ∀ fr ∈ s.stack, ∀ q ∈ fr.succs, q.1.dirty = false ∧ ∃ n, q.1.loc = loc H n ∧ Has H s n ∧ (q.1.effect = .observe → μ n ≠ none ∨ n ∈ vs)

variable {H pt} {μ : Memo} {vs : List Nat} {s : St (List Nat)}

theorem CI.congr (h : CI H pt μ vs s) {s' : St (List Nat)} (h1 : s'.table = s.table) (h2 : s'.stack = s.stack) (h3 : s'.path = s.path)
    (h4 : s'.ignoreNominal = s.ignoreNominal) : CI H pt μ vs s' := by
  have hh : ∀ n, Has H s' n ↔ Has H s n := fun n => by unfold Has; rw [h1]
  refine ⟨h3.trans h.path, h4.trans h.names, ?_, ?_, ?_, ?_, ?_⟩
  · intro l nd hl; rw [h1] at hl; exact h.tab l nd hl
  · intro n hn; exact (hh n).2 (h.memo n hn)
  · rw [h2]; exact h.stk
  · intro n hn; exact ⟨(hh n).2 (h.run n hn).1, (h.run n hn).2⟩
  · intro fr hfr q hq
    rw [h2] at hfr
    obtain ⟨a, n, b, c, d⟩ := h.frames fr hfr q hq
    exact ⟨a, n, b, (hh n).2 c, d⟩

theorem CI.log (h : CI H pt μ vs s) (lg : List Ev) : CI H pt μ vs { s with log := lg } := h.congr rfl rfl rfl rfl

theorem CI.node (h : CI H pt μ vs s) {n : Nat} (hn : Has H s n) : ∃ c, s.table.get (loc H n) = some (.comp c) ∧ NodeIs pt μ n c := by
  rcases hg : s.table.get (loc H n) with _ | nd
  · exact absurd hg hn
  · obtain ⟨m, c, h1, rfl, h2⟩ := h.tab _ _ hg
    rw [loc_inj H h1]
    exact ⟨c, rfl, h2⟩

theorem CI.push (h : CI H pt μ vs s) {e : Succ (List Nat)} {d : Option (Dep (List Nat))} {n : Nat} (he : e.dirty = false) (hl : e.loc = loc H n)
    (hn : Has H s n) (ho : e.effect = .observe → μ n ≠ none ∨ n ∈ vs) : CI H pt μ vs { s with stack := pushEdge s.stack (e, d) } := by
  refine ⟨h.path, h.names, h.tab, h.memo, (pushEdge_locs _ _).trans h.stk, h.run, ?_⟩
  intro fr hfr q hq
  rcases hs : s.stack with _ | ⟨fr0, K⟩
  · simp only [hs, pushEdge] at hfr; cases hfr
  · simp only [hs, pushEdge] at hfr
    rcases List.mem_cons.1 hfr with rfl | hfr
    · rcases List.mem_append.1 hq with hq | hq
      · exact h.frames fr0 (by rw [hs]; exact List.mem_cons_self ..) q hq
      · rw [List.mem_singleton] at hq
        subst hq
        exact ⟨he, n, hl, hn, ho⟩
    · exact h.frames fr (by rw [hs]; exact List.mem_cons_of_mem _ hfr) q hq

/-- Allocation. -/
theorem alloc_ok (h : CI H pt μ vs s) (en : Env (List Nat)) (n : Nat) :
    ∃ s', opThunk en 0 (.nominal (nameOfUsize H n)) (pt "explore") 1 [n] s = .ok (loc H n) s' ∧ CI H pt μ vs s' ∧ Has H s' n ∧
      (∀ m, Has H s m → Has H s' m) ∧ s'.runs = s.runs := by
  have h0 : opThunk en 0 (.nominal (nameOfUsize H n)) (pt "explore") 1 [n] s = thunkNominal 0 (nameOfUsize H n) (pt "explore") 1 [n] s := by
    simp [opThunk, M.bind_def, M.get_def, h.names]
  rw [h0]
  unfold thunkNominal
  rw [M.bind_ok (M.get_def s)]
  simp only [h.path]
  have hl : (⟨.empty, .nominal (nameOfUsize H n)⟩ : Loc) = loc H n := rfl
  simp only [hl]
  rcases hg : s.table.get (loc H n) with _ | nd
  · simp only []
    rw [M.bind_ok (m := evBegin _ _ _) rfl, M.bind_ok (m := evEnd) rfl, M.bind_ok (recordEdge_eq _ _ _), M.bind_ok (m := putNode _ _) rfl]
    refine ⟨_, rfl, ?_, ?_, ?_, rfl⟩
    · have hput : ∀ m, Has H s m → (s.table.put (loc H n) (.comp ⟨0, [], [], pt "explore", 1, [n], none⟩)).get (loc H m) ≠ none := by
        intro m hm
        rw [Table.get_put]
        split
        · exact fun h => by cases h
        · exact hm
      have hself : ((s.table.put (loc H n) (.comp ⟨0, [], [], pt "explore", 1, [n], none⟩)).get (loc H n)) ≠ none := by
        rw [Table.get_put_self]; exact fun h => by cases h
      have hμ : μ n = none := by
        rcases hm : μ n with _ | w
        · rfl
        · exact absurd hg (h.memo n (by rw [hm]; exact fun h => by cases h))
      have h1 : CI H pt μ vs { s with table := s.table.put (loc H n) (.comp ⟨0, [], [], pt "explore", 1, [n], none⟩) } := by
        refine ⟨h.path, h.names, ?_, fun m hm => hput m (h.memo m hm), h.stk, fun m hm => ⟨hput m (h.run m hm).1, (h.run m hm).2⟩, ?_⟩
        · intro l nd hl
          simp only [Table.get_put] at hl
          by_cases hln : l = loc H n
          · rw [if_pos hln] at hl
            cases hl
            exact ⟨n, _, hln, rfl, ⟨rfl, rfl, rfl, rfl, hμ.symm, fun e he => (by cases he), fun _ => rfl⟩⟩
          · rw [if_neg hln] at hl
            exact h.tab l nd hl
        · intro fr hfr q hq
          obtain ⟨a, m, b, c, d⟩ := h.frames fr hfr q hq
          exact ⟨a, m, b, hput m c, d⟩
      have h2 := h1.push (e := ⟨false, loc H n, .allocate, .allocNom [n]⟩) (d := none) (n := n) rfl rfl hself (fun h => by cases h)
      exact h2.congr rfl rfl rfl rfl
    · show ((s.table.put (loc H n) _).get (loc H n)) ≠ none
      rw [Table.get_put_self]; exact fun h => by cases h
    · intro m hm
      show ((s.table.put (loc H n) _).get (loc H m)) ≠ none
      rw [Table.get_put]
      split
      · exact fun h => by cases h
      · exact hm
  · simp only []
    have hn : Has H s n := by unfold Has; rw [hg]; exact fun h => by cases h
    obtain ⟨c, hc, hi⟩ := h.node hn
    rw [M.bind_ok (resNode_ok hc hi.ty)]
    simp only [hi.pp, hi.arg, ueq_eq, if_true]
    rw [M.bind_ok (m := evBegin _ _ _) rfl, M.bind_ok (m := evEnd) rfl, M.bind_ok (recordEdge_eq _ _ _)]
    refine ⟨_, rfl, ?_, hn, fun m hm => hm, rfl⟩
    exact (h.log _).push (e := ⟨false, loc H n, .allocate, .allocNom [n]⟩) (d := none) (n := n) rfl rfl hn (fun h => by cases h)

/-- The last step of a force. -/
theorem record_ok (h : CI H pt μ vs s) {c : Nat} (hc : Has H s c) (ho : μ c ≠ none ∨ c ∈ vs) (dup : Bool) (r : List Nat) :
    ∃ s', (if dup then pure r else (do recordEdge ⟨false, loc H c, .observe, .force 0 r⟩ none; pure r) : M (List Nat) (List Nat)) s = .ok r s' ∧
      CI H pt μ vs s' ∧ (∀ m, Has H s m → Has H s' m) ∧ s'.runs = s.runs := by
  cases dup
  · rw [if_neg (by simp), M.bind_ok (recordEdge_eq _ _ _)]
    exact ⟨_, rfl, h.push (n := c) rfl rfl hc (fun _ => ho), fun m hm => hm, rfl⟩
  · exact ⟨s, rfl, h, fun m hm => hm, rfl⟩

theorem CI.cycle (h : CI H pt μ vs s) (c : Nat) : (s.stack.any fun fr => decide (fr.loc = loc H c)) = decide (c ∈ vs) := by
  have h1 : (s.stack.any fun fr => decide (fr.loc = loc H c)) = (s.stack.map (·.loc)).any (fun l => decide (l = loc H c)) := by
    rw [List.any_map]; rfl
  rw [h1, h.stk, Bool.eq_iff_iff]
  simp only [List.any_eq_true, List.mem_map, decide_eq_true_eq]
  constructor
  · rintro ⟨_, ⟨n, hn, rfl⟩, h2⟩
    rw [← loc_inj H h2]; exact hn
  · intro hc; exact ⟨_, ⟨c, hc, rfl⟩, rfl⟩

theorem CI.notDup (h : CI H pt μ vs s) {c : Nat} (h1 : μ c = none) (h2 : c ∉ vs) : dupOf s (loc H c) = false := by
  unfold dupOf
  rcases hs : s.stack with _ | ⟨fr, K⟩
  · rfl
  · simp only []
    rw [Bool.eq_false_iff]
    intro ha
    rw [List.any_eq_true] at ha
    obtain ⟨q, hq, hd⟩ := ha
    obtain ⟨hl, he⟩ := of_decide_eq_true hd
    obtain ⟨_, m, hm, _, hm3⟩ := h.frames fr (by rw [hs]; exact List.mem_cons_self ..) q hq
    have hmc : m = c := loc_inj H (hm.symm.trans hl)
    subst hmc
    rcases hm3 he with h3 | h3
    · exact h3 h1
    · exact h2 h3

variable {en : Env (List Nat)}

/-- A force that hits a cycle. -/
theorem force_cycle (h : CI H pt μ vs s) {c : Nat} (hc : Has H s c) (hv : c ∈ vs) :
    ∃ s', Runs en (fun R => opForce R 0 (loc H c) (some [])) s [] s' ∧ CI H pt μ vs s' ∧ (∀ m, Has H s m → Has H s' m) ∧ s'.runs = s.runs := by
  obtain ⟨nd, hn, hi⟩ := h.node hc
  obtain ⟨s', h1, h2, h3, h4⟩ := record_ok ((h.log (.begin (.force .compCacheHit) (topLoc s) (loc H c) :: s.log)).log
    (.end_ :: .begin (.force .compCacheHit) (topLoc s) (loc H c) :: s.log)) (c := c) hc (.inr hv) (dupOf s (loc H c)) []
  refine ⟨s', Runs.ofEq (fun R => ?_), h2, h3, h4⟩
  unfold opForce
  rw [M.bind_ok (M.get_def s), M.bind_ok (resNode_ok (ty := 0) hn hi.ty)]
  have hid : (loc H c).id = .nominal (nameOfUsize H c) := rfl
  simp only [h.cycle, hv, decide_true, if_true, hid, Bool.false_eq_true, if_false]
  rw [M.bind_ok (m := evBegin _ _ _) rfl, M.bind_ok (m := evEnd) rfl]
  exact h1

/-- A force of a thunk whose value is known. -/
theorem force_hit (h : CI H pt μ vs s) {c : Nat} {r : List Nat} (hc : Has H s c) (hv : c ∉ vs) (hm : μ c = some r) (cyc : Option (List Nat)) :
    ∃ s', Runs en (fun R => opForce R 0 (loc H c) cyc) s r s' ∧ CI H pt μ vs s' ∧ (∀ m, Has H s m → Has H s' m) ∧ s'.runs = s.runs := by
  obtain ⟨nd, hn, hi⟩ := h.node hc
  have hr : nd.res = some r := hi.res.trans hm
  obtain ⟨s', h1, h2, h3, h4⟩ := record_ok ((h.log (.begin (.force .compCacheHit) (topLoc s) (loc H c) :: s.log)).log
    (.end_ :: .begin (.force .compCacheHit) (topLoc s) (loc H c) :: s.log)) (c := c) hc (.inl (by rw [hm]; exact fun h => by cases h)) (dupOf s (loc H c)) r
  refine ⟨s', ⟨1, fun n hn1 => ?_⟩, h2, h3, h4⟩
  show opForce (recN en n) 0 (loc H c) cyc s = _
  obtain ⟨n, rfl⟩ : ∃ m, n = m + 1 := ⟨n - 1, by omega⟩
  have hcl : (recN en (n + 1)).cleanForce 0 r (loc H c) { s with log := .begin (.force .compCacheHit) (topLoc s) (loc H c) :: s.log } =
      .ok (decide (r ≠ r)) { s with log := .begin (.force .compCacheHit) (topLoc s) (loc H c) :: s.log } :=
    cleanForce_clean (s := { s with log := .begin (.force .compCacheHit) (topLoc s) (loc H c) :: s.log }) hn hi.ty (allClean_of_clean hi.clean) hr _
  unfold opForce
  rw [M.bind_ok (M.get_def s), M.bind_ok (resNode_ok (ty := 0) hn hi.ty)]
  have hid : (loc H c).id = .nominal (nameOfUsize H c) := rfl
  simp only [h.cycle, hv, decide_false, Bool.false_eq_true, if_false, hr, hid]
  rw [M.bind_ok (m := evBegin _ _ _) rfl, M.bind_ok hcl, M.bind_ok (m := evEnd) rfl,
    M.bind_ok (resNode_ok (ty := 0) (n := .comp nd)
        (s := { s with log := .end_ :: .begin (.force .compCacheHit) (topLoc s) (loc H c) :: s.log }) hn hi.ty)]
  simp only [hr]
  exact h1

/-- The state in which the code of a thunk starts. -/
def start (H : NameHash) (s : St (List Nat)) (c : Nat) (nd : CompNode (List Nat)) : St (List Nat) :=
  { s with table := s.table.put (loc H c) (.comp { nd with succs := [] }), stack := ⟨loc H c, []⟩ :: s.stack, path := .empty,
           runs := loc H c :: s.runs }

theorem start_ok (h : CI H pt μ vs s) {c : Nat} {nd : CompNode (List Nat)} (hn : s.table.get (loc H c) = some (.comp nd)) (hi : NodeIs pt μ c nd)
    (hm : μ c = none) : CI H pt μ (c :: vs) (start H s c nd) ∧ ∀ m, Has H s m → Has H (start H s c nd) m := by
  have hput : ∀ m, Has H s m → Has H (start H s c nd) m := by
    intro m hm
    show (s.table.put _ _).get _ ≠ none
    rw [Table.get_put]
    split
    · exact fun h => by cases h
    · exact hm
  have hc : Has H s c := by unfold Has; rw [hn]; exact fun h => by cases h
  refine ⟨⟨rfl, h.names, ?_, fun m hm => hput m (h.memo m hm), ?_, ?_, ?_⟩, hput⟩
  · intro l x hl
    simp only [start, Table.get_put] at hl
    by_cases hlc : l = loc H c
    · rw [if_pos hlc] at hl
      cases hl
      exact ⟨c, _, hlc, rfl, ⟨hi.ty, hi.pp, hi.fn, hi.arg, hi.res, fun e he => (by cases he), fun _ => rfl⟩⟩
    · rw [if_neg hlc] at hl
      exact h.tab l x hl
  · show loc H c :: s.stack.map (·.loc) = loc H c :: vs.map (loc H)
    rw [h.stk]
  · intro m hm'
    rcases List.mem_cons.1 hm' with rfl | hm'
    · exact ⟨hput _ hc, hm⟩
    · exact ⟨hput m (h.run m hm').1, (h.run m hm').2⟩
  · intro fr hfr q hq
    rcases List.mem_cons.1 hfr with rfl | hfr
    · cases hq
    · obtain ⟨a, m, b, d, e⟩ := h.frames fr hfr q hq
      exact ⟨a, m, b, hput m d, fun ho => (e ho).imp_right (List.mem_cons_of_mem _)⟩

/-- The end of a run: the frame is popped, the edges are installed, the value is stored. -/
theorem finish_ok {c : Nat} {r : List Nat} (h : CI H pt μ (c :: vs) s) (hv : c ∉ vs) :
    ∃ fr K s5 nd s6, s.stack = fr :: K ∧ fr.loc = loc H c ∧
      installPreds (loc H c) fr.succs { s with path := .empty, stack := K } = .ok () s5 ∧
      s5.table.get (loc H c) = some (.comp nd) ∧ nd.ty = 0 ∧
      s6 = { s5 with table := s5.table.put (loc H c) (.comp { nd with succs := fr.succs.map (·.1), res := some r }) } ∧
      CI H pt (fun x => if x = c then some r else μ x) vs s6 ∧ (∀ m, Has H s m → Has H s6 m) ∧ s6.runs = s.runs := by
  rcases hs : s.stack with _ | ⟨fr, K⟩
  · have := h.stk; rw [hs] at this; cases this
  have hstk := h.stk
  rw [hs] at hstk
  simp only [List.map_cons, List.cons.injEq] at hstk
  have hex : ∀ q ∈ fr.succs, q.1.dirty = false ∧ ∃ n, ({ s with path := .empty, stack := K } : St (List Nat)).table.get q.1.loc = some n ∧ n.Linked := by
    intro q hq
    obtain ⟨a, m, b, d, e⟩ := h.frames fr (by rw [hs]; exact List.mem_cons_self ..) q hq
    obtain ⟨nd, hn, _⟩ := h.node d
    refine ⟨a, _, (by rw [b]; exact hn), fun _ hh => by cases hh⟩
  obtain ⟨s5, g1, g2, g3, g4, g6, g5⟩ := installPreds_ok (loc H c) fr.succs { s with path := .empty, stack := K } hex
  have g7 := installPreds_sameRuns g1
  have hcs : Has H s c := (h.run c (List.mem_cons_self ..)).1
  obtain ⟨nd0, hn0, hi0⟩ := h.node hcs
  have h5 : ∀ l x, s5.table.get l = some x → ∃ n d, l = loc H n ∧ x = .comp d ∧ NodeIs pt μ n d := by
    intro l x hl
    rw [g5] at hl
    rcases hg : s.table.get l with _ | y
    · simp only [hg, Option.map_none] at hl; cases hl
    · obtain ⟨n, d, k1, rfl, k2⟩ := h.tab l y hg
      simp only [hg, Option.map_some, Option.some.injEq] at hl
      subst hl
      exact ⟨n, _, k1, rfl, ⟨k2.ty, k2.pp, k2.fn, k2.arg, k2.res, k2.clean, k2.fresh⟩⟩
  have hhas : ∀ m, Has H s m → s5.table.get (loc H m) ≠ none := by
    intro m hm
    rw [g5]
    rcases hg : s.table.get (loc H m) with _ | y
    · exact absurd hg hm
    · simp only [hg, Option.map_some]; exact fun h => by cases h
  rcases hc5 : s5.table.get (loc H c) with _ | x5
  · exact absurd hc5 (hhas c hcs)
  obtain ⟨c', nd, k1, rfl, hi⟩ := h5 _ _ hc5
  obtain rfl : c = c' := loc_inj H k1
  have hhas6 : ∀ m, Has H s m → Has H { s5 with table := s5.table.put (loc H c) (.comp { nd with succs := fr.succs.map (·.1), res := some r }) } m := by
    intro m hm
    show (s5.table.put _ _).get _ ≠ none
    rw [Table.get_put]
    split
    · exact fun h => by cases h
    · exact hhas m hm
  refine ⟨fr, K, s5, nd, _, rfl, hstk.1, g1, hc5, hi.ty, rfl, ⟨g3, g4.trans h.names, ?_, ?_, ?_, ?_, ?_⟩, hhas6, g7⟩
  · intro l x hl
    simp only [Table.get_put] at hl
    by_cases hlc : l = loc H c
    · rw [if_pos hlc] at hl
      cases hl
      refine ⟨c, _, hlc, rfl, ⟨hi.ty, hi.pp, hi.fn, hi.arg, (if_pos rfl).symm, ?_, fun hr => by cases hr⟩⟩
      intro e he
      obtain ⟨q, hq, rfl⟩ := List.mem_map.1 he
      exact (hex q hq).1
    · rw [if_neg hlc] at hl
      obtain ⟨n, d, k1, k2, k3⟩ := h5 l x hl
      refine ⟨n, d, k1, k2, ⟨k3.ty, k3.pp, k3.fn, k3.arg, ?_, k3.clean, k3.fresh⟩⟩
      rw [if_neg (fun hnc => hlc (by rw [k1, hnc]))]
      exact k3.res
  · intro n hn
    by_cases hnc : n = c
    · rw [hnc]; exact hhas6 c hcs
    · simp only [hnc, if_false] at hn
      exact hhas6 n (h.memo n hn)
  · show s5.stack.map (·.loc) = _
    rw [g2]; exact hstk.2
  · intro n hn
    have hnc : n ≠ c := fun hnc => hv (hnc ▸ hn)
    refine ⟨hhas6 n (h.run n (List.mem_cons_of_mem _ hn)).1, ?_⟩
    simp only [hnc, if_false]
    exact (h.run n (List.mem_cons_of_mem _ hn)).2
  · intro fr' hfr q hq
    replace hfr : fr' ∈ s5.stack := hfr
    rw [g2] at hfr
    obtain ⟨a, m, b, d, e⟩ := h.frames fr' (by rw [hs]; exact List.mem_cons_of_mem _ hfr) q hq
    refine ⟨a, m, b, hhas6 m d, fun ho => ?_⟩
    by_cases hmc : m = c
    · left; simp only [hmc, if_true]; exact fun h => by cases h
    · simp only [hmc, if_false]
      rcases e ho with e | e
      · exact .inl e
      · rcases List.mem_cons.1 e with e | e
        · exact absurd e hmc
        · exact .inr e

/-- A force of a thunk that has not run. -/
theorem force_miss (h : CI H pt μ vs s) {c : Nat} {r : List Nat} {μ2 : Memo} {P : List Nat → Prop} (hc : Has H s c) (hv : c ∉ vs) (hm : μ c = none)
    (cyc : Option (List Nat))
    (hrun : ∀ s2, CI H pt μ (c :: vs) s2 → (∀ m, Has H s m → Has H s2 m) → ∃ (s3 : St (List Nat)) (ns : List Nat), Runs en (fun R => runProg en R (en.code 1 [c])) s2 r s3 ∧ CI H pt μ2 (c :: vs) s3 ∧
      (∀ m, Has H s2 m → Has H s3 m) ∧ s3.runs = ns.map (loc H) ++ s2.runs ∧ P ns) :
    ∃ (s' : St (List Nat)) (ns : List Nat), P ns ∧ Runs en (fun R => opForce R 0 (loc H c) cyc) s r s' ∧ CI H pt (fun x => if x = c then some r else μ2 x) vs s' ∧
      (∀ m, Has H s m → Has H s' m) ∧ s'.runs = (ns ++ [c]).map (loc H) ++ s.runs := by
  obtain ⟨nd, hn, hi⟩ := h.node hc
  have hr : nd.res = none := hi.res.trans hm
  have hsu : nd.succs = [] := hi.fresh hr
  generalize hs0 : ({ s with log := .begin (.force .compCacheMiss) (topLoc s) (loc H c) :: s.log } : St (List Nat)) = s0
  have h0 : CI H pt μ vs s0 := by rw [← hs0]; exact h.log _
  have hn0 : s0.table.get (loc H c) = some (.comp nd) := by rw [← hs0]; exact hn
  obtain ⟨h1, hup1⟩ := start_ok h0 hn0 hi hm
  have hup0 : ∀ m, Has H s m → Has H s0 m := by intro m hm; rw [← hs0]; exact hm
  obtain ⟨s3, ns, r1, h3, hup3, e3, hP⟩ := hrun _ h1 (fun m hm => hup1 m (hup0 m hm))
  obtain ⟨fr, K, s5, nd5, s6, q1, q2, q3, q4, q5, q6, h6, hup6, e6⟩ := finish_ok (r := r) h3 hv
  have hprod : Runs en (fun R => produceBody en R 0 (loc H c)) s0 r s6 := by
    unfold produceBody
    refine Runs.bind (Runs.const (resNode_ok (ty := 0) hn0 hi.ty)) ?_
    refine Runs.bind (Runs.const (m := putNode _ _) rfl) ?_
    rw [hsu]
    refine Runs.bind (Runs.const (m := revokeSuccs _ _) rfl) ?_
    refine Runs.bind (Runs.const (m := M.get) rfl) ?_
    refine Runs.bind (Runs.const (m := M.modify _) rfl) ?_
    refine Runs.bind (Runs.const (resNode_ok (ty := 0) (n := .comp { nd with succs := [] }) (Table.get_put_self _ _ _) hi.ty)) ?_
    refine Runs.bind (Runs.const (m := M.modify _) rfl) ?_
    refine Runs.bind (s1 := s3) (a := r) ?_ ?_
    · refine Runs.run ?_
      have e : en.code nd.fn nd.arg = en.code 1 [c] := by rw [hi.fn, hi.arg]
      rw [← e] at r1
      exact r1
    · refine Runs.bind (Runs.const (m := M.modify _) rfl) ?_
      refine Runs.bind (Runs.const (m := M.get) rfl) ?_
      simp only [q1]
      refine Runs.bind (Runs.const (m := M.modify _) rfl) ?_
      simp only [q2, if_true, h0.path]
      refine Runs.bind (Runs.const q3) ?_
      refine Runs.bind (Runs.const (resNode_ok (ty := 0) q4 q5)) ?_
      refine Runs.const ?_
      rw [q6]
      rfl
  have hhc : Has H s6 c := hup6 c (hup3 c (hup1 c (hup0 c hc)))
  obtain ⟨s', k1, k2, k3, k4⟩ := record_ok (h6.log (.end_ :: s6.log)) (c := c) hhc (.inl (by simp)) false r
  refine ⟨s', ns, hP, ?_, k2, fun m hm => k3 m (hup6 m (hup3 m (hup1 m (hup0 m hm)))), ?_⟩
  · unfold opForce
    refine Runs.bind (Runs.const (M.get_def s)) ?_
    refine Runs.bind (Runs.const (resNode_ok (ty := 0) hn hi.ty)) ?_
    have hid : (loc H c).id = .nominal (nameOfUsize H c) := rfl
    simp only [h.cycle, hv, decide_false, Bool.false_eq_true, if_false, hr, hid]
    refine Runs.bind (Runs.const (m := evBegin _ _ _) (s' := s0) (by rw [← hs0]; rfl)) ?_
    have hd := h.notDup hm hv
    change Runs en (fun R => if dupOf s (loc H c) = true then M.panic Err.dupMiss else do
        let r ← R.produce 0 (loc H c)
        evEnd
        if dupOf s (loc H c) = true then pure r else do
          recordEdge ⟨false, loc H c, .observe, .force 0 r⟩ none
          pure r) s0 r s'
    rw [hd]
    simp only [Bool.false_eq_true, if_false]
    refine Runs.bind (Runs.produce hprod) ?_
    refine Runs.bind (Runs.const (m := evEnd) rfl) ?_
    exact Runs.const k1
  · rw [k4]
    show s6.runs = _
    rw [e6, e3, List.map_append, List.append_assoc, ← hs0]
    rfl

/-- A force does what the search does. -/
theorem force_ok (adj : Nat → Nat × Nat) (hcode : ∀ n, en.code 1 [n] = explore H pt adj n) : ∀ k vs (μ μ' : Memo) c r (s : St (List Nat)) cyc,
    dfs adj k vs μ c = some (μ', r) → CI H pt μ vs s → Has H s c → (c ∈ vs → cyc = some []) →
    ∃ (s' : St (List Nat)) (ns : List Nat), Runs en (fun R => opForce R 0 (loc H c) cyc) s r s' ∧ CI H pt μ' vs s' ∧ (∀ m, Has H s m → Has H s' m) ∧
      s'.runs = ns.map (loc H) ++ s.runs ∧ ns.Nodup ∧ ∀ m, m ∈ ns ↔ μ m = none ∧ μ' m ≠ none := by
  intro k
  induction k with
  | zero => intro vs μ μ' c r s cyc h; cases h
  | succ k ih =>
    intro vs μ μ' c r s cyc h hci hc hcyc
    rcases dfs_succ h with ⟨hv, rfl, rfl⟩ | ⟨hv, hm, rfl⟩ | ⟨hv, hm, μ1, av, μ2, bv, h1, h2, rfl, rfl⟩
    · obtain ⟨s', k1, k2, k3, k4⟩ := force_cycle (en := en) hci hc hv
      rw [hcyc hv]
      exact ⟨s', [], k1, k2, k3, k4, List.nodup_nil, fun m => ⟨fun h => (by cases h), fun h => absurd h.1 h.2⟩⟩
    · obtain ⟨s', k1, k2, k3, k4⟩ := force_hit (en := en) hci hc hv hm cyc
      exact ⟨s', [], k1, k2, k3, k4, List.nodup_nil, fun m => ⟨fun h => (by cases h), fun h => absurd h.1 h.2⟩⟩
    · have f1 := dfs_found _ _ _ _ _ _ h1
      have f2 := dfs_found _ _ _ _ _ _ h2
      have none1 : ∀ m, μ m = none ∧ μ1 m ≠ none → μ2 m ≠ none := by
        intro m hm
        rcases h5 : μ1 m with _ | w
        · exact absurd h5 hm.2
        · rw [f2.keep m w h5]; exact fun h => by cases h
      have hrun : ∀ s2, CI H pt μ (c :: vs) s2 → (∀ m, Has H s m → Has H s2 m) → ∃ (s3 : St (List Nat)) (ns : List Nat), Runs en (fun R => runProg en R (en.code 1 [c])) s2 (c :: av ++ bv) s3 ∧
          CI H pt μ2 (c :: vs) s3 ∧ (∀ m, Has H s2 m → Has H s3 m) ∧ s3.runs = ns.map (loc H) ++ s2.runs ∧ ns.Nodup ∧ ∀ m, m ∈ ns ↔ μ m = none ∧ μ2 m ≠ none := by
        intro s2 hs2 _
        obtain ⟨t1, a1, a2, a3, a4, a5⟩ := alloc_ok hs2 en (adj c).1
        obtain ⟨t2, b1, b2, b3, b4, b5⟩ := alloc_ok a2 en (adj c).2
        obtain ⟨t3, n3, c1, c2, c3, c4, c5, c6⟩ := ih _ _ _ _ _ t2 (some []) h1 b2 (b4 _ a3) (fun _ => rfl)
        obtain ⟨t4, n4, d1, d2, d3, d4, d5, d6⟩ := ih _ _ _ _ _ t3 (some []) h2 c2 (c3 _ b3) (fun _ => rfl)
        refine ⟨t4, n4 ++ n3, ?_, d2, fun m hm => d3 m (c3 m (b4 m (a4 m hm))), ?_, ?_, ?_⟩
        · rw [hcode]
          unfold explore exploreThunk thunkFun getCycle
          refine Runs.bind (Runs.const a1) ?_
          refine Runs.bind (Runs.const b1) ?_
          refine Runs.bind c1 ?_
          refine Runs.bind d1 ?_
          exact Runs.pure
        · rw [d4, c4, b5, a5, List.map_append, List.append_assoc]
        · rw [List.nodup_append]
          refine ⟨d5, c5, fun x hx y hy hxy => ?_⟩
          subst hxy
          exact ((c6 x).1 hy).2 ((d6 x).1 hx).1
        · intro m
          rw [List.mem_append, d6, c6]
          constructor
          · rintro (h | h)
            · refine ⟨?_, h.2⟩
              rcases h5 : μ m with _ | w
              · rfl
              · rw [f1.keep m w h5] at h; cases h.1
            · exact ⟨h.1, none1 m h⟩
          · intro h
            by_cases h5 : μ1 m = none
            · exact .inl ⟨h5, h.2⟩
            · exact .inr ⟨h.1, h5⟩
      obtain ⟨ns, hns⟩ : ∃ ns : List Nat, ns.Nodup ∧ (∀ m, m ∈ ns ↔ μ m = none ∧ μ2 m ≠ none) ∧ ∃ s', Runs en (fun R => opForce R 0 (loc H c) cyc) s (c :: av ++ bv) s' ∧
          CI H pt (fun x => if x = c then some (c :: av ++ bv) else μ2 x) vs s' ∧ (∀ m, Has H s m → Has H s' m) ∧ s'.runs = (ns ++ [c]).map (loc H) ++ s.runs := by
        obtain ⟨s2, ns, g1, g2, g3, g4, g5⟩ := force_miss (P := fun ns => ns.Nodup ∧ ∀ m, m ∈ ns ↔ μ m = none ∧ μ2 m ≠ none) hci hc hv hm cyc hrun
        exact ⟨ns, g1.1, g1.2, s2, g2, g3, g4, g5⟩
      obtain ⟨nd, hmem, s', k1, k2, k3, k4⟩ := hns
      have hc2 : μ2 c = none := (f2.path c (List.mem_cons_self ..)).trans ((f1.path c (List.mem_cons_self ..)).trans hm)
      refine ⟨s', ns ++ [c], k1, k2, k3, k4, ?_, ?_⟩
      · rw [List.nodup_append]
        refine ⟨nd, List.nodup_cons.2 ⟨List.not_mem_nil, List.nodup_nil⟩, fun x hx y hy hxy => ?_⟩
        rw [List.mem_singleton] at hy
        rw [hxy, hy] at hx
        exact ((hmem c).1 hx).2 hc2
      · intro m
        rw [List.mem_append, List.mem_singleton, hmem]
        by_cases hmc : m = c
        · simp [hmc, hm]
        · simp [hmc]

/-! ### Demands by the editor -/

theorem CI.init (purity : Bool) : CI H pt (fun _ => none) [] (initSt purity false) :=
  ⟨rfl, rfl, fun l nd h => (by cases h), fun n h => absurd rfl h, rfl, fun n h => (by cases h), fun fr h => (by cases h)⟩

/-- One demand by the editor. -/
theorem demand_ok (adj : Nat → Nat × Nat) (hcode : ∀ n, en.code 1 [n] = explore H pt adj n) {k n : Nat} {μ μ' : Memo} {r : List Nat} {s : St (List Nat)}
    (hd : dfs adj k [] μ n = some (μ', r)) (h : CI H pt μ [] s) :
    ∃ (s' : St (List Nat)) (ns : List Nat), Runs en (fun R => runProg en R (demand H pt n)) s r s' ∧ CI H pt μ' [] s' ∧ s'.runs = ns.map (loc H) ++ s.runs ∧ ns.Nodup ∧
      ∀ m, m ∈ ns ↔ μ m = none ∧ μ' m ≠ none := by
  obtain ⟨t1, a1, a2, a3, a4, a5⟩ := alloc_ok h en n
  obtain ⟨t2, ns, c1, c2, c3, c4, c5, c6⟩ := force_ok adj hcode _ _ _ _ _ _ t1 none hd a2 a3 (fun h => by cases h)
  refine ⟨t2, ns, ?_, c2, by rw [c4, a5], c5, c6⟩
  unfold demand exploreThunk thunkFun Macros.get
  refine Runs.bind (Runs.const a1) ?_
  exact Runs.bind c1 Runs.pure

theorem session_dfs (adj : Nat → Nat × Nat) (hcode : ∀ n, en.code 1 [n] = explore H pt adj n) {k : Nat} : ∀ (ds : List Nat) {μ μ' : Memo} {rs : List (List Nat)}
    {s : St (List Nat)}, dfsAll adj k μ ds = some (μ', rs) → CI H pt μ [] s →
    ∃ (s' : St (List Nat)) (ns : List Nat) (N : Nat), (∀ n ≥ N, runSession en n (ds.map (demand H pt)) s = .ok rs s') ∧ s'.runs = ns.map (loc H) ++ s.runs ∧ ns.Nodup ∧
      ∀ m, m ∈ ns ↔ μ m = none ∧ μ' m ≠ none := by
  intro ds
  induction ds with
  | nil =>
    intro μ μ' rs s h hc
    cases h
    exact ⟨s, [], 0, fun n _ => rfl, rfl, List.nodup_nil, fun m => ⟨fun h => (by cases h), fun h => absurd h.1 h.2⟩⟩
  | cons d ds ih =>
    intro μ μ' rs s h hc
    simp only [dfsAll, Option.bind_eq_bind] at h
    rcases h1 : dfs adj k [] μ d with _ | ⟨μ1, r⟩
    · rw [h1] at h; cases h
    rw [h1] at h
    simp only [Option.bind_some] at h
    rcases h2 : dfsAll adj k μ1 ds with _ | ⟨μ2, rs2⟩
    · rw [h2] at h; cases h
    rw [h2] at h
    cases h
    obtain ⟨t1, n1, ⟨N1, a1⟩, a2, a3, a4, a5⟩ := demand_ok adj hcode h1 hc
    obtain ⟨t2, n2, N2, b1, b2, b3, b4⟩ := ih h2 a2
    refine ⟨t2, n2 ++ n1, max N1 N2, fun n hn => ?_, ?_, ?_, ?_⟩
    · simp only [List.map_cons, runSession]
      have a1' : exec en n (demand H pt d) s = .ok r t1 := a1 n (by omega)
      rw [M.bind_ok a1', M.bind_ok (b1 n (by omega))]
      rfl
    · rw [b2, a3, List.map_append, List.append_assoc]
    · rw [List.nodup_append]
      refine ⟨b3, a4, fun x hx y hy hxy => ?_⟩
      subst hxy
      exact ((a5 x).1 hy).2 ((b4 x).1 hx).1
    · have f1 := dfs_found _ _ _ _ _ _ h1
      have keep2 : ∀ (ds : List Nat) (μ μ' : Memo) rs, dfsAll adj k μ ds = some (μ', rs) → ∀ m w, μ m = some w → μ' m = some w := by
        intro ds
        induction ds with
        | nil => intro μ μ' rs h m w hw; cases h; exact hw
        | cons d ds ih =>
          intro μ μ' rs h m w hw
          simp only [dfsAll, Option.bind_eq_bind] at h
          rcases h1 : dfs adj k [] μ d with _ | ⟨μ1, r⟩
          · rw [h1] at h; cases h
          rw [h1] at h
          simp only [Option.bind_some] at h
          rcases h2 : dfsAll adj k μ1 ds with _ | ⟨μ2, rs2⟩
          · rw [h2] at h; cases h
          rw [h2] at h
          cases h
          exact ih _ _ _ h2 m w ((dfs_found _ _ _ _ _ _ h1).keep m w hw)
      intro m
      rw [List.mem_append, b4, a5]
      constructor
      · rintro (h | h)
        · refine ⟨?_, h.2⟩
          rcases h5 : μ m with _ | w
          · rfl
          · rw [f1.keep m w h5] at h; cases h.1
        · refine ⟨h.1, ?_⟩
          rcases h5 : μ1 m with _ | w
          · exact absurd h5 h.2
          · show μ2 m ≠ none
            rw [keep2 _ _ _ _ h2 m w h5]; exact fun h => by cases h
      · intro h
        by_cases h5 : μ1 m = none
        · exact .inl ⟨h5, h.2⟩
        · exact .inr ⟨h.1, h5⟩

/-- Sequences of searches: what they answer. -/
theorem dfsAll_sound {adj : Nat → Nat × Nat} {k : Nat} : ∀ (ds : List Nat) {μ μ' : Memo} {rs : List (List Nat)}, dfsAll adj k μ ds = some (μ', rs) →
    (∀ m w, μ m = some w → ∀ x ∈ w, Reach adj m x) →
    rs.length = ds.length ∧ (∀ (i : Nat) d r, ds[i]? = some d → rs[i]? = some r → ∀ x ∈ r, Reach adj d x) ∧ (∀ m w, μ m = some w → μ' m = some w) ∧
      ∀ (i : Nat) d r, ds[i]? = some d → rs[i]? = some r → μ' d = some r := by
  intro ds
  induction ds with
  | nil => intro μ μ' rs h hs; cases h; exact ⟨rfl, fun i d r h => (by cases h), fun _ _ h => h, fun i d r h => (by cases h)⟩
  | cons d ds ih =>
    intro μ μ' rs h hs
    simp only [dfsAll, Option.bind_eq_bind] at h
    rcases h1 : dfs adj k [] μ d with _ | ⟨μ1, r⟩
    · rw [h1] at h; cases h
    rw [h1] at h
    simp only [Option.bind_some] at h
    rcases h2 : dfsAll adj k μ1 ds with _ | ⟨μ2, rs2⟩
    · rw [h2] at h; cases h
    rw [h2] at h
    cases h
    obtain ⟨a1, a2⟩ := dfs_sound _ _ _ _ _ _ h1 hs
    obtain ⟨b1, b2, b3, b4⟩ := ih h2 a2
    have f1 := dfs_found _ _ _ _ _ _ h1
    refine ⟨by simp [b1], ?_, fun m w hw => b3 m w (f1.keep m w hw), ?_⟩
    · intro i d' r' hd hr
      cases i with
      | zero => cases hd; cases hr; exact a1
      | succ i => exact b2 i d' r' hd hr
    · intro i d' r' hd hr
      cases i with
      | zero =>
        cases hd; cases hr
        rcases f1.root with h | h
        · cases h
        · exact b3 _ _ h
      | succ i => exact b4 i d' r' hd hr

theorem dfsAll_total {adj : Nat → Nat × Nat} (U : List Nat) {k : Nat} (hk : U.length < k) : ∀ (ds : List Nat) (μ : Memo),
    (∀ d ∈ ds, ∀ m, Reach adj d m → m ∈ U) → ∃ μ' rs, dfsAll adj k μ ds = some (μ', rs) := by
  intro ds
  induction ds with
  | nil => intro μ _; exact ⟨_, _, rfl⟩
  | cons d ds ih =>
    intro μ h
    obtain ⟨μ1, r, h1⟩ := dfs_total U k [] μ d (h d (List.mem_cons_self ..)) (fun v hv => by cases hv) List.nodup_nil (by simpa using hk)
    obtain ⟨μ2, rs, h2⟩ := ih μ1 (fun d' hd => h d' (List.mem_cons_of_mem _ hd))
    refine ⟨μ2, r :: rs, ?_⟩
    simp only [dfsAll, Option.bind_eq_bind, h1, Option.bind_some, h2]

section
variable (H pt)
variable (adj : Nat → Nat × Nat) (hv : List Nat → UInt64) (ha : ProgPt → List Nat → UInt64) (purity : Bool)

/-- **C73** (the documentation's claim holds for the first demand): on every graph, with any cycles, from every node from which finitely many nodes
can be reached, the first demand in a new engine ends; its answer has exactly the nodes that can be reached, and the thunk of each of them is run
exactly once (and no other). -/
theorem C73_first_search (n : Nat) (U : List Nat) (hU : ∀ m, Reach adj n m → m ∈ U) :
    ∃ (r : List Nat) (s' : St (List Nat)) (ns : List Nat) (N : Nat), (∀ d ≥ N, exec (env H pt adj hv ha) d (demand H pt n) (initSt purity false) = .ok r s') ∧ (∀ m, m ∈ r ↔ Reach adj n m) ∧
      s'.runs = ns.map (loc H) ∧ ns.Nodup ∧ ∀ m, m ∈ ns ↔ Reach adj n m := by
  obtain ⟨μ', r, h⟩ := dfs_total (adj := adj) U (U.length + 1) [] (fun _ => none) n hU (fun v hv => by cases hv) List.nodup_nil (by simp)
  obtain ⟨s', ns, ⟨N, h1⟩, h2, h3, h4, h5⟩ := demand_ok (en := env H pt adj hv ha) (H := H) (pt := pt) adj (fun _ => rfl) h (CI.init purity)
  refine ⟨r, s', ns, N, fun d hd => h1 d hd, fun m => (dfs_complete h m).symm, ?_, h4, fun m => ?_⟩
  · rw [h3]; exact List.append_nil _
  · rw [h5, dfs_complete h]
    have f := dfs_found _ _ _ _ _ _ h
    constructor
    · intro hm; exact (f.new m rfl hm.2).1
    · intro hm
      refine ⟨rfl, ?_⟩
      have key : ∀ a m, Reach adj a m → μ' a ≠ none → μ' m ≠ none := by
        intro a m hr
        induction hr with
        | refl => exact fun h => h
        | fst _ ih =>
          intro ha
          rcases (f.new _ rfl ha).2.1 with h | h
          · cases h
          · exact ih h
        | snd _ ih =>
          intro ha
          rcases (f.new _ rfl ha).2.2 with h | h
          · cases h
          · exact ih h
      refine key n m ((dfs_complete h m).2 hm) ?_
      rcases f.root with h | h
      · cases h
      · rw [h]; exact fun h => by cases h

/-- **C73**, all histories: any sequence of demands ends; no answer has a node that cannot be reached; the same demand has the same answer every
time; over the whole session no thunk is run twice. -/
theorem C73_all_histories (ds U : List Nat) (hU : ∀ d ∈ ds, ∀ m, Reach adj d m → m ∈ U) :
    ∃ (rs : List (List Nat)) (s' : St (List Nat)) (N : Nat), (∀ d ≥ N, runSession (env H pt adj hv ha) d (ds.map (demand H pt)) (initSt purity false) = .ok rs s') ∧ rs.length = ds.length ∧
      (∀ (i : Nat) d r, ds[i]? = some d → rs[i]? = some r → ∀ x ∈ r, Reach adj d x) ∧
      (∀ (i j : Nat) d r r', ds[i]? = some d → ds[j]? = some d → rs[i]? = some r → rs[j]? = some r' → r = r') ∧ s'.runs.Nodup := by
  obtain ⟨μ', rs, h⟩ := dfsAll_total U (Nat.lt_succ_self _) ds (fun _ => none) hU
  obtain ⟨s', ns, N, h1, h2, h3, _⟩ := session_dfs (en := env H pt adj hv ha) (H := H) (pt := pt) adj (fun _ => rfl) ds h (CI.init purity)
  obtain ⟨k1, k2, _, k4⟩ := dfsAll_sound ds h (fun m w hw => by cases hw)
  refine ⟨rs, s', N, h1, k1, k2, ?_, ?_⟩
  · intro i j d r r' h1 h2 h3 h4
    have := (k4 i d r h1 h3).symm.trans (k4 j d r' h2 h4)
    cases this; rfl
  · rw [h2]
    show (ns.map (loc H) ++ []).Nodup
    rw [List.append_nil]
    exact List.Pairwise.map _ (fun a b hab h => hab (loc_inj H h)) h3

/-- **C73** (violated: from-scratch consistency is lost in the presence of cycles): on every graph with a cycle of two nodes whose second node only
leads back, a demand for the second node after a demand for the first answers `[b]`: the truncated search from inside the cycle has been kept as the
thunk's value.  A new engine answers that `a` can be reached, too. -/
theorem C73_later_demand_is_truncated (a b : Nat) (hne : a ≠ b) (h1 : adj a = (b, b)) (h2 : adj b = (a, a)) :
    (∃ N s', ∀ d ≥ N, runSession (env H pt adj hv ha) d [demand H pt a, demand H pt b] (initSt purity false) = .ok [[a, b, b], [b]] s') ∧
    (∃ N s', ∀ d ≥ N, runSession (env H pt adj hv ha) d [demand H pt b] (initSt purity false) = .ok [[b, a, a]] s') := by
  have key : ∀ (ds : List Nat) μ' rs, dfsAll adj 4 (fun _ => none) ds = some (μ', rs) →
      ∃ N s', ∀ d ≥ N, runSession (env H pt adj hv ha) d (ds.map (demand H pt)) (initSt purity false) = .ok rs s' := by
    intro ds μ' rs h
    obtain ⟨s', ns, N, h1, _⟩ := session_dfs (en := env H pt adj hv ha) (H := H) (pt := pt) adj (fun _ => rfl) ds h (CI.init purity)
    exact ⟨N, s', h1⟩
  constructor
  · refine key [a, b] (fun x => if x = a then some [a, b, b] else if x = b then some [b] else none) _ ?_
    simp [dfsAll, dfs, h1, h2, hne, Ne.symm hne]
  · refine key [b] (fun x => if x = b then some [b, a, a] else if x = a then some [a] else none) _ ?_
    simp [dfsAll, dfs, h1, h2, hne, Ne.symm hne]

/-- **C73**: the version without thunks does not end, on any graph, from any node, in any state. -/
theorem C73_plain_recursion_diverges (n d : Nat) (s : St (List Nat)) (k : List Nat → Prog (List Nat)) :
    exec (env H pt adj hv ha) d (.call 2 [n] k) s = .oof := by
  induction d generalizing n k with
  | zero => rfl
  | succ d ih =>
    show ((recN (env H pt adj hv ha) (d + 1)).run (exploreRec adj n) >>= fun v => runProg _ _ (k v)) s = .oof
    have h : (recN (env H pt adj hv ha) (d + 1)).run (exploreRec adj n) s = .oof := ih (adj n).1 _
    rw [M.bind_def, h]

/-- The graph of the documentation. -/
def docAdj : Nat → Nat × Nat
  | 0 => (1, 0)
  | 1 => (2, 3)
  | 2 => (3, 0)
  | 3 => (3, 1)
  | 4 => (2, 5)
  | 5 => (5, 4)
  | n => (n, n)

/-- The documentation's assertion, and, after it, a demand for node 3, which in a new engine answers `[3, 1, 2, 0]`. -/
theorem C73_documentation :
    (∃ N s', ∀ d ≥ N, runSession (env H pt docAdj hv ha) d [demand H pt 0, demand H pt 3] (initSt purity false) = .ok [[0, 1, 2, 3, 3], [3]] s') ∧
    (∃ N s', ∀ d ≥ N, runSession (env H pt docAdj hv ha) d [demand H pt 3] (initSt purity false) = .ok [[3, 1, 2, 0]] s') := by
  have key : ∀ (ds : List Nat) rs, (dfsAll docAdj 9 (fun _ => none) ds).map (·.2) = some rs →
      ∃ N s', ∀ d ≥ N, runSession (env H pt docAdj hv ha) d (ds.map (demand H pt)) (initSt purity false) = .ok rs s' := by
    intro ds rs h
    rcases h0 : dfsAll docAdj 9 (fun _ => none) ds with _ | ⟨μ', rs'⟩
    · rw [h0] at h; cases h
    rw [h0] at h; cases h
    obtain ⟨s', ns, N, h1, _⟩ := session_dfs (en := env H pt docAdj hv ha) (H := H) (pt := pt) docAdj (fun _ => rfl) ds h0 (CI.init purity)
    exact ⟨N, s', h1⟩
  exact ⟨key [0, 3] _ (by decide +kernel), key [3] _ (by decide +kernel)⟩

/-- The graph of the documentation meets the hypotheses of `C73_first_search` at node 0 (and the two-node cycle those of
`C73_later_demand_is_truncated`). -/
example : ∀ m, Reach docAdj 0 m → m ∈ [0, 1, 2, 3] := by
  have key : ∀ a m, Reach docAdj a m → a ∈ [0, 1, 2, 3] → m ∈ [0, 1, 2, 3] := by
    intro a m h
    induction h with
    | refl => exact fun h => h
    | fst _ ih => intro h; apply ih; simp only [List.mem_cons, List.not_mem_nil, or_false] at h; rcases h with rfl | rfl | rfl | rfl <;> decide
    | snd _ ih => intro h; apply ih; simp only [List.mem_cons, List.not_mem_nil, or_false] at h; rcases h with rfl | rfl | rfl | rfl <;> decide
  exact fun m h => key 0 m h (by decide)
end
end Adapton.Cyc
