import Verif.Engine.Settled
/-
Queries: thunks whose code only reads cells of the editor, calls functions and returns.  What they return, which dependencies they record, and when they are run again.
-/
set_option linter.unusedSectionVars false
set_option linter.unusedVariables false
namespace Adapton.Query
open Ref (Sig Kind Store Ctx Ext ES Means)
open EditSession (World Below AncOk Cells Edit applyAll cellAt Root Step)
variable {V : Type} [DecidableEq V]

/-- With these contents of the cells, the code reads the cells `ns`, in this order, and returns `v`; it does nothing else. -/
inductive QReads (env : Env V) (cty : Ty) (cs : Cells V) : Prog V → List Name → V → Prop
  | ret {v} : QReads env cty cs (.ret v) [] v
  | force {n w k ns v} : cs n = some w → QReads env cty cs (k w) ns v → QReads env cty cs (.force cty (cellAt n) none k) (n :: ns) v
  | call {fn arg k ns1 w ns2 v} : QReads env cty cs (env.code fn arg) ns1 w → QReads env cty cs (k w) ns2 v → QReads env cty cs (.call fn arg k) (ns1 ++ ns2) v

variable {env : Env V} {cty : Ty} {cs cs' : Cells V}

theorem cellAt_inj {a b : Name} (h : cellAt a = cellAt b) : a = b := by
  simpa [cellAt] using h

theorem QReads.det {p : Prog V} {ns : List Name} {v : V} (h : QReads env cty cs p ns v) : ∀ {ns' : List Name} {v' : V}, QReads env cty cs p ns' v' → ns' = ns ∧ v' = v := by
  induction h with
  | ret => intro ns' v' h'; cases h'; exact ⟨rfl, rfl⟩
  | @force n w k ns v h1 _ ih =>
    intro ns' v' h'
    generalize hp : (Prog.force cty (cellAt n) none k : Prog V) = p at h'
    cases h' with
    | ret => cases hp
    | @force n' w' k' ns2 v2 g1 g2 =>
      injection hp with e1 e2 e3 e4
      have := cellAt_inj e2
      subst this
      subst e4
      rw [h1] at g1; cases g1
      obtain ⟨rfl, rfl⟩ := ih g2
      exact ⟨rfl, rfl⟩
    | call => cases hp
  | call _ _ ih1 ih2 =>
    intro ns' v' h'
    cases h' with
    | call g1 g2 =>
      obtain ⟨rfl, rfl⟩ := ih1 g1
      obtain ⟨rfl, rfl⟩ := ih2 g2
      exact ⟨rfl, rfl⟩

/-- What is not read does not matter. -/
theorem QReads.congr {p : Prog V} {ns : List Name} {v : V} (h : QReads env cty cs p ns v) (he : ∀ n ∈ ns, cs' n = cs n) : QReads env cty cs' p ns v := by
  induction h with
  | ret => exact .ret
  | force h1 _ ih => exact .force ((he _ (List.mem_cons_self ..)).trans h1) (ih fun n hn => he n (List.mem_cons_of_mem _ hn))
  | call _ _ ih1 ih2 => exact .call (ih1 fun n hn => he n (List.mem_append_left _ hn)) (ih2 fun n hn => he n (List.mem_append_right _ hn))

theorem QReads.has {p : Prog V} {ns : List Name} {v : V} (h : QReads env cty cs p ns v) : ∀ n ∈ ns, ∃ w, cs n = some w := by
  induction h with
  | ret => intro n hn; cases hn
  | force h1 _ ih =>
    intro n hn
    rcases List.mem_cons.1 hn with rfl | hn
    · exact ⟨_, h1⟩
    · exact ih n hn
  | call _ _ ih1 ih2 => intro n hn; exact (List.mem_append.1 hn).elim (ih1 n) (ih2 n)

theorem QReads.ext {p : Prog V} {ns : List Name} {v : V} (h : QReads env cty cs p ns v) (he : ∀ n v, cs n = some v → cs' n = some v) : QReads env cty cs' p ns v :=
  h.congr fun n hn => by obtain ⟨w, hw⟩ := h.has n hn; rw [hw]; exact he n w hw

theorem QReads.conv {sig : Sig} {c : Ctx} {π : Path} {σ : Store V} (hs : ∀ n, sig (cellAt n) = .cell cty) (hcs : ∀ n v, cs n = some v → σ (cellAt n) = some v)
    {p : Prog V} {ns : List Name} {v : V} (h : QReads env cty cs p ns v) : Conv sig env c π p σ fun σ' v' => σ' = σ ∧ v' = v := by
  induction h with
  | ret => exact Conv.ret ⟨rfl, rfl⟩
  | @force n w k ns v h1 _ ih => exact Conv.forceCell (hs n) (hcs n w h1) ih
  | @call fn arg k ns1 w ns2 v _ _ ih1 ih2 =>
    refine Conv.call (ih1.mono ?_)
    rintro σ' v' ⟨rfl, rfl⟩
    exact ih2

/-! ### The demanded thunk -/

/-- Where the editor's thunk is, and what its code is. -/
structure Spec (V : Type) where
  env : Env V
  ns : Name
  rn : Name
  /-- its result type -/
  ty : Ty
  pp : ProgPt
  fn : FnId
  /-- the type of the cells -/
  cty : Ty

variable (q : Spec V)

def Spec.loc (q : Spec V) : Loc := ⟨.child .empty q.ns, .nominal q.rn⟩

def sigQ : Sig := { kind := fun l => if l.path = .empty then .cell q.cty else .thunk q.ty q.pp q.fn }

theorem sig_cellAt (n : Name) : sigQ q (cellAt n) = .cell q.cty := rfl

/-- A demand: the argument, the cells that are read, the result. -/
structure Dem (V : Type) where
  arg : V
  reads : List Name
  res : V

/-- The demand does this, with these contents of the cells. -/
def Ok (cs : Cells V) (d : Dem V) : Prop := QReads q.env q.cty cs (q.env.code q.fn d.arg) d.reads d.res

def theRoot : Root V where
  sig := sigQ q
  env := q.env
  ns := q.ns
  rn := q.rn
  ty := q.ty
  pp := q.pp
  fn := q.fn
  cty := q.cty
  D := Dem V
  arg := Dem.arg
  res := Dem.res
  rank _ := 0
  allocs _ := []
  ok := Ok q

theorem lawful : (theRoot q).Lawful where
  mode := ⟨rfl, fun _ => rfl⟩
  sig_root := rfl
  sig_cell := sig_cellAt q
  ext cs cs' d h hok := QReads.ext hok h
  unique cs d d' h h' e := by
    obtain ⟨a, ns, r⟩ := d
    obtain ⟨a', ns', r'⟩ := d'
    have e : a = a' := e
    subst e
    have h : QReads q.env q.cty cs (q.env.code q.fn a) ns r := h
    obtain ⟨rfl, rfl⟩ := h.det h'
    rfl
  nodup cs d h := List.nodup_nil
  away cs d h x hx := by cases hx
  conv cs d h W σ hcs hal hb hrt := by
    have h : QReads q.env q.cty cs (q.env.code q.fn d.arg) d.reads d.res := h
    refine (h.conv (sig_cellAt q) hcs).mono ?_
    rintro σ' v ⟨rfl, rfl⟩
    exact ⟨Ext.refl _, hb, rfl⟩

/-- The code of the editor for one step: the edits, and then `ns(…, || get!(thunk!([Some(rn)]? f ; arg)))`. -/
def stepProg (s : Step V) : Prog V := (theRoot q).stepProg s

/-- The demands of a session. -/
inductive Demands (q : Spec V) : Cells V → List (Step V) → List (Dem V) → Prop
  | nil {c0 : Cells V} : Demands q c0 [] []
  | cons {c0 c1 : Cells V} {s ss d ds} : applyAll c0 s.edits = some c1 → Ok q c1 d → d.arg = s.arg → Demands q c1 ss ds → Demands q c0 (s :: ss) (d :: ds)

variable {q}

theorem Demands.root {ss : List (Step V)} {cs : Cells V} {ds : List (Dem V)} (h : Demands q cs ss ds) : (theRoot q).Demands cs ss ds := by
  induction h with
  | nil => exact .nil
  | cons h1 h2 h3 _ ih => exact .cons h1 h2 h3 ih

theorem session_means {ss : List (Step V)} {ds : List (Dem V)} (h : Demands q (fun _ => none) ss ds) : Means (sigQ q) q.env (ss.map (stepProg q)) (ds.map Dem.res) :=
  EditSession.means (lawful q) _ ds h.root

/-! ### What is recorded -/

section
variable {sig : Sig} {s : St V} {σ : Store V} {D : Loc → Prop} {π : Path}

/-- An observation has been recorded, now or before. -/
theorem seen_force {ty : Ty} {a : Loc} {cyc : Option V} {k : V → Prog V} {pre es : List (Edge V)} {v : V} (h : Seen sig env s σ D π (.force ty a cyc k) pre es v) (hn : a.isStruct = false) :
    ∃ w new es', UpToDate sig s σ D a w ∧ es = new ++ es' ∧ (new = [] ∨ new = [obsEdge ty a w]) ∧ (∃ ty', obsEdge ty' a w ∈ pre ++ new) ∧ Seen sig env s σ D π (k w) (pre ++ new) es' v := by
  obtain ⟨h, ho⟩ := h
  cases h with
  | @force _ _ _ _ _ _ w _ es' _ h1 h2 =>
    refine ⟨w, [⟨a, .observe, .force ty w⟩], es', UpToDate.ofEdge (ty := ty) (ho _ (by simp)), rfl, .inr rfl, ⟨ty, by simp [obsEdge]⟩, h2, ?_⟩
    intro e he
    exact ho e (by simpa using he)
  | @forceDup _ _ _ _ _ _ w _ _ _ ty' h1 h2 =>
    refine ⟨w, [], es, UpToDate.ofEdge (ty := ty') (ho _ ?_), rfl, .inl rfl, ⟨ty', ?_⟩, by rw [List.append_nil]; exact h2, by rw [List.append_nil]; exact ho⟩
    · exact List.mem_append_left _ (List.mem_of_find?_eq_some h1)
    · rw [List.append_nil]; exact List.mem_of_find?_eq_some h1
  | forcePure h1 _ => have h2 := h1.1; rw [hn] at h2; cases h2

/-- The result of the replay is that of the query, and the cells recorded are those read. -/
theorem QReads.seen (hs : ∀ n, sig (cellAt n) = .cell cty) (hcs : ∀ n w, cs n = some w → σ (cellAt n) = some w)
    {p : Prog V} {ns : List Name} {v : V} (h : QReads env cty cs p ns v) : ∀ {pre es : List (Edge V)} {v' : V}, Seen sig env s σ D π p pre es v' →
    v' = v ∧ (∀ e ∈ es, ∃ n ∈ ns, ∃ w, cs n = some w ∧ e = obsEdge cty (cellAt n) w) ∧
      (∀ n ∈ ns, ∃ w ty, cs n = some w ∧ obsEdge ty (cellAt n) w ∈ pre ++ es) ∧ es.length ≤ ns.length := by
  induction h with
  | ret =>
    intro pre es v' h
    obtain ⟨rfl, rfl⟩ := h.ret
    exact ⟨rfl, (fun _ h => by cases h), (fun _ h => by cases h), Nat.le_refl _⟩
  | @force n w k ns v h1 _ ih =>
    intro pre es v' h
    obtain ⟨w', new, es', g1, rfl, g3, ⟨ty', g4⟩, g5⟩ := seen_force h rfl
    have : w' = w := by
      unfold UpToDate at g1
      rw [hs] at g1
      have g1 : σ (cellAt n) = some w' := g1
      rw [hcs _ _ h1] at g1; cases g1; rfl
    subst this
    obtain ⟨rfl, f1, f2, f3⟩ := ih g5
    refine ⟨rfl, ?_, ?_, ?_⟩
    · intro e he
      rcases List.mem_append.1 he with he | he
      · rcases g3 with rfl | rfl
        · cases he
        · rw [List.mem_singleton] at he; subst he
          exact ⟨n, List.mem_cons_self .., w', h1, rfl⟩
      · obtain ⟨m, a, b⟩ := f1 e he
        exact ⟨m, List.mem_cons_of_mem _ a, b⟩
    · intro m hm
      rcases List.mem_cons.1 hm with rfl | hm
      · exact ⟨w', ty', h1, by rw [← List.append_assoc]; exact List.mem_append_left _ g4⟩
      · obtain ⟨w2, ty2, a, b⟩ := f2 m hm
        exact ⟨w2, ty2, a, by rw [← List.append_assoc]; exact b⟩
    · have : new.length ≤ 1 := by rcases g3 with rfl | rfl <;> simp
      rw [List.length_append, List.length_cons]; omega
  | @call fn arg k ns1 w ns2 v _ _ ih1 ih2 =>
    intro pre es v' h
    obtain ⟨w', es1, es2, rfl, k1, k2⟩ := h.call
    obtain ⟨rfl, a1, a2, a3⟩ := ih1 k1
    obtain ⟨rfl, b1, b2, b3⟩ := ih2 k2
    refine ⟨rfl, ?_, ?_, ?_⟩
    · intro e he
      rcases List.mem_append.1 he with he | he
      · obtain ⟨m, a, b⟩ := a1 e he
        exact ⟨m, List.mem_append_left _ a, b⟩
      · obtain ⟨m, a, b⟩ := b1 e he
        exact ⟨m, List.mem_append_right _ a, b⟩
    · intro m hm
      rcases List.mem_append.1 hm with hm | hm
      · obtain ⟨w2, ty2, a, b⟩ := a2 m hm
        exact ⟨w2, ty2, a, by rw [← List.append_assoc]; exact List.mem_append_left _ b⟩
      · obtain ⟨w2, ty2, a, b⟩ := b2 m hm
        exact ⟨w2, ty2, a, by rw [← List.append_assoc]; exact b⟩
    · rw [List.length_append, List.length_append]; omega
end

/-- Cells are never removed. -/
theorem applyAll_some {es : List (Edit V)} : ∀ {cs cs' : Cells V}, applyAll cs es = some cs' → ∀ n w, cs n = some w → ∃ w', cs' n = some w' := by
  induction es with
  | nil => intro cs cs' h n w hn; cases h; exact ⟨w, hn⟩
  | cons e es ih =>
    intro cs cs' h n w hn
    simp only [applyAll] at h
    rcases he : e.apply cs with _ | cs1
    · rw [he] at h; cases h
    · rw [he] at h
      have key : ∃ w1, cs1 n = some w1 := by
        cases e with
        | cell m v =>
          cases he
          by_cases hm : n = m
          · exact ⟨v, if_pos hm⟩
          · exact ⟨w, (if_neg hm).trans hn⟩
        | set m v =>
          simp only [Edit.apply] at he
          split at he
          · cases he
            by_cases hm : n = m
            · exact ⟨v, if_pos hm⟩
            · exact ⟨w, (if_neg hm).trans hn⟩
          · cases he
      obtain ⟨w1, h1⟩ := key
      exact ih h n w1 h1

/-- The dependencies recorded by the thunk are those on these cells. -/
def Deps (s : St V) (x : Loc) (ns : List Name) : Prop :=
  ∃ nd, s.table.get x = some (.comp nd) ∧ (∀ l, (∃ e ∈ nd.succs, e.loc = l) ↔ ∃ n ∈ ns, cellAt n = l) ∧ (∀ e ∈ nd.succs, e.effect = .observe) ∧ nd.succs.length ≤ ns.length

/-- **Queries.**  After any session, a demand, some edits, and a demand with the same argument: the thunk is run again exactly if one of the cells that it has read has another content. -/
theorem query_twice {ss : List (Step V)} {ds : List (Dem V)} (h0 : Demands q (fun _ => none) ss ds) (purity : Bool) (d1 d2 : Dem V) (harg : d1.arg = d2.arg)
    (es1 es2 : List (Edit V)) (cs1 cs2 : Cells V)
    (hc1 : applyAll (fun _ => none) (ss.flatMap Step.edits ++ es1) = some cs1) (ok1 : Ok q cs1 d1) (hc2 : applyAll cs1 es2 = some cs2) (ok2 : Ok q cs2 d2) :
    ∃ N s1 s2, (∀ n, N ≤ n →
        runSession q.env n ((ss ++ [(⟨es1, d1.arg⟩ : Step V)]).map (stepProg q)) (initSt purity false) = .ok (ds.map Dem.res ++ [d1.res]) s1 ∧
        exec q.env n (stepProg q ⟨es2, d2.arg⟩) s1 = .ok d2.res s2) ∧
      (s2.runs = s1.runs ∨ s2.runs = q.loc :: s1.runs) ∧
      (s2.runs = s1.runs ↔ ∀ m ∈ d1.reads, cs2 m = cs1 m) ∧
      Deps s1 q.loc d1.reads ∧ Deps s2 q.loc d2.reads := by
  have hle : Ref.SigLe (theRoot q).sig ((sigQ q).withPu purity) := ⟨fun _ => rfl, rfl, fun _ => rfl, fun _ => id⟩
  obtain ⟨N, s1, e1, D1, s, s2, e2, D2, σ0, D0, rs, r1, r2, r3, r4, r5, r6⟩ := EditSession.two_steps (lawful q) hle (ss := ss) (ds := ds)
    (st1 := ⟨es1, d1.arg⟩) (st2 := ⟨es2, d2.arg⟩) (d1 := d1) (d2 := d2) (cs1 := cs1) (cs2 := cs2)
    h0.root (by rw [List.flatMap_append]; simpa using hc1) ok1 rfl hc2 ok2 rfl
  have hm : ((sigQ q).withPu purity).mode = false := rfl
  have hcell : ∀ n, ((sigQ q).withPu purity) (cellAt n) = .cell q.cty := fun n => sig_cellAt q n
  have hall : ∀ (cs : Cells V) (d : Dem V) (e : ES V) (s : St V) (D : Loc → Prop), Ok q cs d → EditSession.Done (theRoot q) ((sigQ q).withPu purity) cs d e s D →
      e.cur q.loc = some d.arg ∧ (∀ n w, cs n = some w → e.cur (cellAt n) = some w) ∧
      ∃ nd, s.table.get q.loc = some (.comp nd) ∧ nd.arg = d.arg ∧ (∀ e ∈ nd.succs, ∃ n ∈ d.reads, ∃ w, cs n = some w ∧ e.edge = obsEdge q.cty (cellAt n) w) ∧
        (∀ n ∈ d.reads, ∃ w ty, cs n = some w ∧ obsEdge ty (cellAt n) w ∈ nd.succs.map Succ.edge) ∧ nd.succs.length ≤ d.reads.length ∧ AllOK ((sigQ q).withPu purity) s e.cur D (nd.succs.map Succ.edge) := by
    intro cs d e s D hok hd
    have ha : e.cur q.loc = some d.arg := hd.at_.ed.ext _ _ hd.arg
    have hc : ∀ n w, cs n = some w → e.cur (cellAt n) = some w := fun n w hn => hd.at_.ed.ext _ _ (hd.at_.ed.cells n w hn)
    obtain ⟨nd, v, g1, _, g2, _, _, g6⟩ := Seen.ofDone hd.inv hm hd.root (ty := q.ty) (pp := q.pp) (fn := q.fn) (arg := d.arg) rfl ha
    obtain ⟨_, f1, f2, f3⟩ := QReads.seen (env := q.env) hcell hc hok g6
    refine ⟨ha, hc, nd, g1, g2, fun e he => f1 _ (List.mem_map.2 ⟨e, he, rfl⟩), f2, by simpa using f3, g6.2⟩
  have deps : ∀ (cs : Cells V) (d : Dem V) (s : St V) (nd : CompNode V), s.table.get q.loc = some (.comp nd) →
      (∀ e ∈ nd.succs, ∃ n ∈ d.reads, ∃ w, cs n = some w ∧ e.edge = obsEdge q.cty (cellAt n) w) →
      (∀ n ∈ d.reads, ∃ w ty, cs n = some w ∧ obsEdge ty (cellAt n) w ∈ nd.succs.map Succ.edge) → nd.succs.length ≤ d.reads.length → Deps s q.loc d.reads := by
    intro cs d s nd h1 h2 h3 h4
    refine ⟨nd, h1, fun l => ⟨?_, ?_⟩, ?_, h4⟩
    · rintro ⟨e, he, rfl⟩
      obtain ⟨n, hn, w, _, hw⟩ := h2 e he
      exact ⟨n, hn, (congrArg Edge.loc hw).symm⟩
    · rintro ⟨n, hn, rfl⟩
      obtain ⟨w, ty, _, hw⟩ := h3 n hn
      obtain ⟨e, he, h⟩ := List.mem_map.1 hw
      exact ⟨e, he, congrArg Edge.loc h⟩
    · intro e he
      obtain ⟨n, hn, w, _, hw⟩ := h2 e he
      exact congrArg Edge.effect hw
  obtain ⟨a1, a2, nd1, a3, a4, a5, a6, a7, a8⟩ := hall _ _ _ _ _ ok1 r2
  obtain ⟨b1, b2, nd2, b3, b4, b5, b6, b7, b8⟩ := hall _ _ _ _ _ ok2 r6
  have hown : ¬ (q.loc.path = .empty ∨ (q.loc = (theRoot q).loc ∧ (theRoot q).arg d1 ≠ (theRoot q).arg d2)) := by
    rintro (h | ⟨_, h⟩)
    · cases h
    · exact h harg
  have honly : ∀ x ∈ rs, x = q.loc := by
    intro x hx
    rcases r6.ran (lawful q) hle (r5.once x hx).2.1 with h1 | ⟨h1, ty, pp, fn, h2⟩ | ⟨b, hb, rfl⟩
    · exact h1
    · obtain ⟨p, id⟩ := x
      cases h1
      cases h2
    · cases hb
  have hruns : s2.runs = rs ++ s1.runs := by rw [r5.runs, r3.runs]
  have hrs : rs = [] ∨ rs = [q.loc] := by
    rcases rs with _ | ⟨x, _ | ⟨y, rs⟩⟩
    · exact .inl rfl
    · exact .inr (by rw [honly x (List.mem_cons_self ..)])
    · have h1 := honly x (List.mem_cons_self ..)
      have h2 := honly y (List.mem_cons_of_mem _ (List.mem_cons_self ..))
      have := (List.nodup_cons.1 r5.nodup).1
      exact absurd (by rw [h1, h2]; exact List.mem_cons_self ..) this
  refine ⟨N, s1, s2, r1, ?_, ⟨?_, ?_⟩, deps cs1 d1 s1 nd1 a3 a5 a6 a7, deps cs2 d2 s2 nd2 b3 b5 b6 b7⟩
  · rcases hrs with rfl | rfl
    · exact .inl hruns
    · exact .inr hruns
  · intro hno m hmr
    have hemp : rs = [] := by
      rw [hno] at hruns
      rcases hrs with h | rfl
      · exact h
      · exact absurd (congrArg List.length hruns) (by simp)
    obtain ⟨nd', f1, f2, f3, f4, _⟩ := r3.keep q.loc hown nd1 a3
    obtain ⟨nd'', g1, g2⟩ := r5.keep q.loc (by rw [hemp]; simp) nd' f1
    rw [b3] at g1; cases g1
    rcases g2 with ⟨_, g2⟩ | ⟨_, _, g2, _⟩
    · exfalso
      apply g2
      rw [b1, f2, a4, harg]
    · obtain ⟨w, ty, h1, h2⟩ := a6 m hmr
      rw [← f4, ← g2] at h2
      have h3 := UpToDate.ofEdge (b8 _ h2)
      unfold UpToDate at h3
      rw [hcell] at h3
      have h3 : e2.cur (cellAt m) = some w := h3
      obtain ⟨w', h4⟩ := applyAll_some hc2 m w h1
      rw [b2 m w' h4] at h3
      cases h3
      rw [h4, h1]
  · intro hsame
    rcases hrs with rfl | rfl
    · exact hruns
    · exfalso
      refine not_run r2.inv r3 r5 r2.root hown (?_ : e2.cur q.loc = e1.cur q.loc) ?_ ?_ (List.mem_cons_self ..)
      · rw [b1, a1, harg]
      · intro nd e hnd he _
        have hnd : s1.table.get q.loc = some (.comp nd) := hnd
        rw [a3] at hnd; cases hnd
        obtain ⟨n, hn, w, h1, h2⟩ := a5 e he
        have hl : e.loc = cellAt n := congrArg Edge.loc h2
        refine ⟨q.cty, w, by rw [hl]; exact h2, ?_⟩
        rw [hl]
        unfold UpToDate
        rw [hcell]
        exact b2 n w ((hsame n hn).trans h1)
      · intro nd e hnd he hal
        have hnd : s1.table.get q.loc = some (.comp nd) := hnd
        rw [a3] at hnd; cases hnd
        obtain ⟨n, hn, w, h1, h2⟩ := a5 e he
        have : e.effect = .observe := congrArg Edge.effect h2
        rw [this] at hal; cases hal

end Adapton.Query
