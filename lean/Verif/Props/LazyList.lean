import Verif.Props.ListStable
/-
C87: `list_map_lazy` and `list_filter_lazy` are lazy.  A demand of the first `k` elements of the result runs the thunks of those names only that come before the `k`-th element, after
any history of edits and demands, however long the list is.
-/
set_option linter.unusedSectionVars false
set_option linter.unusedVariables false
namespace Adapton.ListProg
open Coll (NameElse Lst elmsOf namesOf)
open SortProg (LV AL)
open Ref (Sig Kind Store Ctx Ext ES Means alloc)
open EditSession (World Below AncOk Cells Edit applyAll cellAt)
variable {X : Type} [DecidableEq X]

/-- What a lazy stage returns for the segments: the articulation of the first thunk. -/
def ltl (nm : Name) : Sp X → LV X
  | [] => .nil
  | (n, _, _) :: _ => .art (thunkAt nm n)

/-- The thunk for the first of the segments is allocated. -/
def First (σ : Store (CV X)) (nm : Name) (sp : Sp X) : Prop := ∀ n a xs r, sp = (n, a, xs) :: r → σ (thunkAt nm n) = some (.lst (.art a))

/-- The elements that the segments become. -/
def made (f : X → Option X) (sp : Sp X) : List X := sp.flatMap fun x => x.2.2.filterMap f

section
variable {H : NameHash} {opAt : Name → Op} {g : Nat → X → Option X} {hv : CV X → UInt64} {ha : ProgPt → CV X → UInt64} {sig : Sig} {s : St (CV X)} {σ : Store (CV X)} {D : Loc → Prop}
  {π : Path} {pre es : List (Edge (CV X))} {v : CV X}

/-- What a lazy stage does with a segment. -/
theorem lazy_replay {nm : Name} {i : Nat} (r : Sp X) : ∀ (xs : List X) (pre es : List (Edge (CV X))) (v : CV X),
    Seen sig (env H opAt g hv ha) s σ D (stagePath nm) (each H .lazy i (g i) (chunk xs (tl r))) pre es v →
    v = .lst (chunk (xs.filterMap (g i)) (ltl nm r)) ∧ (∀ e ∈ es, e.effect = .allocate) ∧ First σ nm r := by
  intro xs
  induction xs with
  | nil =>
    intro pre es v h
    rcases r with _ | ⟨⟨n, a, ys⟩, q⟩
    · unfold each at h
      obtain ⟨w, es1, es2, rfl, h1, h2⟩ := h.call
      obtain ⟨rfl, rfl⟩ := Seen.ret (w := (.lst .nil : CV X)) h1
      obtain ⟨rfl, rfl⟩ := Seen.ret (w := (.lst .nil : CV X)) h2
      exact ⟨rfl, (fun _ h => by cases h), (fun _ _ _ _ h => by cases h)⟩
    · unfold each at h
      obtain ⟨w, es1, es2, rfl, h1, h2⟩ := h.call
      obtain ⟨rfl, rfl⟩ := Seen.ret (w := (.lst (.name n (.art a)) : CV X)) h1
      have h2 : Seen sig (env H opAt g hv ha) s σ D (stagePath nm) (.thunk tyL (.nominal n) (ppEach .lazy) (fEach .lazy i) (.lst (.art a)) fun a => .ret (.lst (.art a))) (pre ++ []) es2 v := h2
      obtain ⟨es3, g1, rfl, g2⟩ := h2.thunk
      obtain ⟨rfl, rfl⟩ := Seen.ret (w := (.lst (.art (thunkAt nm n)) : CV X)) g2
      refine ⟨rfl, ?_, ?_⟩
      · intro e he
        have : e = allocEdge (thunkAt nm n) (.lst (.art a)) := by simpa [thunkAt] using he
        rw [this]; rfl
      · intro n' a' ys' q' e
        cases e
        exact g1
  | cons x xs ih =>
    intro pre es v h
    have hch : chunk (x :: xs) (tl r) = .cons x (chunk xs (tl r)) := rfl
    rw [hch] at h
    generalize hL : chunk xs (tl r) = L at h ih
    unfold each at h
    obtain ⟨w, es1, es2, rfl, h1, h2⟩ := h.call
    obtain ⟨rfl, rfl⟩ := Seen.ret (w := (.lst (.cons x L) : CV X)) h1
    simp only [onLst] at h2
    rcases hg : g i x with _ | y
    · rw [hg] at h2
      obtain ⟨w, es3, es4, rfl, k1, k2⟩ := Seen.call (fn := fEach .lazy i) (arg := CV.lst L) h2
      obtain ⟨rfl, rfl⟩ := Seen.ret k2
      rw [show (env H opAt g hv ha).code (fEach .lazy i) (.lst L) = each H .lazy i (g i) L from code_each H opAt g .lazy i L] at k1
      obtain ⟨q1, q2, q3⟩ := ih _ _ _ k1
      refine ⟨?_, fun e he => q2 e (by simpa using he), q3⟩
      rw [q1, List.filterMap_cons, hg]
    · rw [hg] at h2
      obtain ⟨w, es3, es4, rfl, k1, k2⟩ := Seen.call (fn := fEach .lazy i) (arg := CV.lst L) h2
      rw [show (env H opAt g hv ha).code (fEach .lazy i) (.lst L) = each H .lazy i (g i) L from code_each H opAt g .lazy i L] at k1
      obtain ⟨q1, q2, q3⟩ := ih _ _ _ k1
      subst q1
      obtain ⟨rfl, rfl⟩ := Seen.ret (w := (.lst (.cons y (chunk (xs.filterMap (g i)) (ltl nm r))) : CV X)) k2
      refine ⟨?_, fun e he => q2 e (by simpa using he), q3⟩
      rw [List.filterMap_cons, hg]; rfl

/-- A thunk of a lazy stage that is up to date: its value, what it has observed, and the thunk after it. -/
theorem lazy_thunk {nm : Name} {i : Nat} (hsig : ∀ n, sig (thunkAt nm n) = .thunk tyL (ppEach .lazy) (fEach .lazy i)) (hm : sig.mode = false)
    (hI : Inv sig (env H opAt g hv ha) s σ D) {n : Name} {a : Loc} {xs : List X} {r : Sp X} (ha' : a.isStruct = false) (hu : UpToDate sig s σ D a (.lst (chunk xs (tl r))))
    (hD : D (thunkAt nm n)) (hσ : σ (thunkAt nm n) = some (.lst (.art a))) :
    UpToDate sig s σ D (thunkAt nm n) (.lst (chunk (xs.filterMap (g i)) (ltl nm r))) ∧
    (∃ nd, s.table.get (thunkAt nm n) = some (.comp nd) ∧ ∀ e ∈ nd.succs, e.effect = .observe → e.loc = a) ∧ First σ nm r := by
  obtain ⟨nd, v, g1, g2, g3, g4, g5, g6⟩ := Seen.ofDone hI hm hD (hsig n) hσ
  rw [show (env H opAt g hv ha).code (fEach .lazy i) (.lst (.art a)) = each H .lazy i (g i) (.art a) from code_each H opAt g .lazy i _] at g6
  obtain ⟨new, es', e1, e2, e3⟩ := each_view ha' hu (fun b => chunk_art) g6
  obtain ⟨rfl, q2, q3⟩ := lazy_replay r _ _ _ _ e3
  refine ⟨g5, ⟨nd, g1, ?_⟩, q3⟩
  intro e he ho
  have hme : e.edge ∈ new ++ es' := by rw [← e1]; exact List.mem_map.2 ⟨e, he, rfl⟩
  rcases List.mem_append.1 hme with h | h
  · rcases e2 with rfl | rfl
    · cases h
    · have : e.edge = obsEdge tyL a (.lst (chunk xs (tl r))) := by simpa using h
      exact congrArg Edge.loc this
  · have h1 := q2 _ h
    rw [show e.edge.effect = e.effect from rfl, ho] at h1; cases h1

/-- The thunk of a segment before which at most `b` elements are made is up to date. -/
def Visited (σ : Store (CV X)) (D : Loc → Prop) (nm : Name) (f : X → Option X) (sp : Sp X) (b : Nat) (l : Loc) : Prop :=
  ∃ p x q, sp = p ++ x :: q ∧ l = thunkAt nm x.1 ∧ D (thunkAt nm x.1) ∧ σ (thunkAt nm x.1) = some (.lst (.art x.2.1)) ∧ (made f p).length ≤ b

/-- Looking at the result of a lazy stage: segments that become nothing are skipped. -/
theorem lazy_view {nm : Name} {i : Nat} (hsig : ∀ n, sig (thunkAt nm n) = .thunk tyL (ppEach .lazy) (fEach .lazy i)) (hm : sig.mode = false)
    (hI : Inv sig (env H opAt g hv ha) s σ D) : ∀ (sp : Sp X) (ys : List X) (pre es : List (Edge (CV X))) (v : CV X), SpineOk (UpToDate sig s σ D) sp → First σ nm sp →
    Seen sig (env H opAt g hv ha) s σ D π (lview (chunk ys (ltl nm sp))) pre es v →
    ∃ p q zs, sp = p ++ q ∧ v = .lst (chunk zs (ltl nm q)) ∧ (zs ≠ [] ∨ q = []) ∧ First σ nm q ∧ ys ++ made (g i) p = zs ∧
      ∀ e ∈ es, e.effect = .observe → ys = [] ∧ Visited σ D nm (g i) sp 0 e.loc := by
  intro sp
  induction sp with
  | nil =>
    intro ys pre es v _ _ h
    have : lview (chunk ys (ltl nm ([] : Sp X))) = .ret (.lst (chunk ys .nil)) := by cases ys <;> rfl
    rw [this] at h
    obtain ⟨rfl, rfl⟩ := h.ret
    exact ⟨[], [], ys, rfl, rfl, .inr rfl, (fun _ _ _ _ h => by cases h), by simp [made], (fun _ h => by cases h)⟩
  | cons x r ih =>
    obtain ⟨n, a, xs⟩ := x
    intro ys pre es v hs hF h
    rcases ys with _ | ⟨y, ys⟩
    · have h : Seen sig (env H opAt g hv ha) s σ D π (.force tyL (thunkAt nm n) none fun v => .call fLView v .ret) pre es v := h
      obtain ⟨w, new, es', g1, rfl, g3, g4⟩ := h.force rfl
      have hD : D (thunkAt nm n) := by
        unfold UpToDate at g1
        rw [hsig n] at g1
        exact g1.1
      have hσ := hF _ _ _ _ rfl
      obtain ⟨k1, k2, k3⟩ := lazy_thunk hsig hm hI hs.1 hs.2.1 hD hσ
      have := g1.unique k1
      subst this
      obtain ⟨w, es1, es2, rfl, h1, h2⟩ := g4.call
      obtain ⟨rfl, rfl⟩ := h2.ret
      obtain ⟨p, q, zs, e1, e2, e3, e4, e5, e6⟩ := ih _ _ _ _ hs.2.2 k3 h1
      refine ⟨(n, a, xs) :: p, q, zs, by rw [e1]; rfl, e2, e3, e4, by rw [← e5]; simp [made], ?_⟩
      intro e he ho
      refine ⟨rfl, ?_⟩
      rcases List.mem_append.1 he with he | he
      · rw [g3 e he]
        exact ⟨[], (n, a, xs), r, rfl, rfl, hD, hσ, Nat.le_refl _⟩
      · obtain ⟨b1, p', x', q', b2, b3, b4, b5, b6⟩ := e6 e (by simpa using he) ho
        refine ⟨(n, a, xs) :: p', x', q', by rw [b2]; rfl, b3, b4, b5, ?_⟩
        have hmade : made (g i) ((n, a, xs) :: p') = xs.filterMap (g i) ++ made (g i) p' := by simp [made]
        rw [hmade, b1]; exact b6
    · have : lview (chunk (y :: ys) (ltl nm ((n, a, xs) :: r))) = .ret (.lst (chunk (y :: ys) (ltl nm ((n, a, xs) :: r)))) := rfl
      rw [this] at h
      obtain ⟨rfl, rfl⟩ := h.ret
      exact ⟨[], _, y :: ys, rfl, rfl, .inl (by simp), hF, by simp [made], (fun _ h => by cases h)⟩

/-- What `vec_of_list` with a limit observes of the result of a lazy stage. -/
theorem lazy_vec {nm : Name} {i : Nat} (hsig : ∀ n, sig (thunkAt nm n) = .thunk tyL (ppEach .lazy) (fEach .lazy i)) (hm : sig.mode = false)
    (hI : Inv sig (env H opAt g hv ha) s σ D) (k : Nat) : ∀ (M : Nat) (sp : Sp X) (ys : List X) (out : List (NameElse X)) (pre es : List (Edge (CV X))) (v : CV X),
    ys.length + (made (g i) sp).length ≤ M → SpineOk (UpToDate sig s σ D) sp → First σ nm sp → out.length < k →
    Seen sig (env H opAt g hv ha) s σ D π (vec (chunk ys (ltl nm sp)) out (some k)) pre es v →
    ∀ e ∈ es, e.effect = .observe → ∃ b, out.length + ys.length + b < k ∧ Visited σ D nm (g i) sp b e.loc := by
  intro M
  induction M with
  | zero =>
    intro sp ys out pre es v hM hs hF hk h e he ho
    unfold vec at h
    obtain ⟨w, es1, es2, rfl, h1, h2⟩ := h.call
    obtain ⟨p, q, zs, rfl, rfl, e3, e4, e5, e6⟩ := lazy_view hsig hm hI sp ys _ _ _ hs hF h1
    have hz : zs = [] := by
      have : (ys ++ made (g i) p).length = 0 := by
        have : (made (g i) (p ++ q)).length = (made (g i) p).length + (made (g i) q).length := by simp [made]
        rw [List.length_append]; omega
      rw [← e5]; exact List.length_eq_zero_iff.1 this
    subst hz
    rcases e3 with e3 | rfl
    · exact absurd rfl e3
    rcases List.mem_append.1 he with he | he
    · obtain ⟨b1, b2⟩ := e6 e he ho
      exact ⟨0, by rw [b1]; simpa using hk, b2⟩
    · obtain ⟨rfl, rfl⟩ := Seen.ret (w := (.vec out : CV X)) h2
      cases he
  | succ M ih =>
    intro sp ys out pre es v hM hs hF hk h e he ho
    unfold vec at h
    obtain ⟨w, es1, es2, rfl, h1, h2⟩ := h.call
    obtain ⟨p, q, zs, rfl, rfl, e3, e4, e5, e6⟩ := lazy_view hsig hm hI sp ys _ _ _ hs hF h1
    rcases List.mem_append.1 he with he | he
    · obtain ⟨b1, b2⟩ := e6 e he ho
      exact ⟨0, by rw [b1]; simpa using hk, b2⟩
    · rcases zs with _ | ⟨z, zs⟩
      · rcases e3 with e3 | rfl
        · exact absurd rfl e3
        obtain ⟨rfl, rfl⟩ := Seen.ret (w := (.vec out : CV X)) h2
        cases he
      · have h2 : Seen sig (env H opAt g hv ha) s σ D π (if some k = some (out.length + 1) then .ret (.vec (out ++ [.elm z])) else
          .call fVec (.vargs (chunk zs (ltl nm q)) (out ++ [.elm z]) (some k)) .ret) (pre ++ es1) es2 v := h2
        by_cases hlim : (some k : Option Nat) = some (out.length + 1)
        · rw [if_pos hlim] at h2
          obtain ⟨rfl, rfl⟩ := h2.ret
          cases he
        · rw [if_neg hlim] at h2
          obtain ⟨w, es3, es4, rfl, h3, h4⟩ := h2.call
          obtain ⟨rfl, rfl⟩ := h4.ret
          have h3 : Seen sig (env H opAt g hv ha) s σ D π (vec (chunk zs (ltl nm q)) (out ++ [.elm z]) (some k)) (pre ++ es1) es3 _ := h3
          have hne : k ≠ out.length + 1 := fun h => hlim (by rw [h])
          have hlen : ys.length + (made (g i) p).length = zs.length + 1 := by
            have := congrArg List.length e5
            simpa using this
          have hmm : (made (g i) (p ++ q)).length = (made (g i) p).length + (made (g i) q).length := by simp [made]
          obtain ⟨b, b1, p', x', q', b2, b3, b4, b5, b6⟩ := ih q zs (out ++ [.elm z]) _ _ _ (by omega) hs.suffix e4 (by rw [List.length_append, List.length_singleton]; omega) h3 e
            (by simpa using he) ho
          refine ⟨(made (g i) p).length + b, ?_, p ++ p', x', q', by rw [b2, List.append_assoc], b3, b4, b5, ?_⟩
          · rw [List.length_append, List.length_singleton] at b1; omega
          · have : (made (g i) (p ++ p')).length = (made (g i) p).length + (made (g i) p').length := by simp [made]
            omega

/-- What the demanded thunk observes. -/
theorem lazy_root {nm : Name} {i : Nat} (hop : opAt nm = .each .lazy i) (hsig : ∀ n, sig (thunkAt nm n) = .thunk tyL (ppEach .lazy) (fEach .lazy i)) (hm : sig.mode = false)
    (hI : Inv sig (env H opAt g hv ha) s σ D) {k : Nat} (hk : 0 < k) {h : List X} {sp : Sp X} (hs : SpineOk (UpToDate sig s σ D) sp)
    (hseen : Seen sig (env H opAt g hv ha) s σ D rootPath (root opAt [nm] (chunk h (tl sp)) (some k)) pre es v) :
    ∀ e ∈ es, e.effect = .observe → ∃ b, (h.filterMap (g i)).length + b < k ∧ Visited σ D nm (g i) sp b e.loc := by
  intro e he ho
  unfold root at hseen
  obtain ⟨w, es1, es2, rfl, h1, h2⟩ := hseen.ns
  rw [hop] at h1
  obtain ⟨w', es3, es4, rfl, k1, k2⟩ := Seen.call (fn := fEach .lazy i) (arg := CV.lst (chunk h (tl sp))) h1
  rw [show (env H opAt g hv ha).code (fEach .lazy i) (.lst (chunk h (tl sp))) = each H .lazy i (g i) (chunk h (tl sp)) from code_each H opAt g .lazy _ _] at k1
  obtain ⟨rfl, rfl⟩ := Seen.ret k2
  obtain ⟨rfl, q2, q3⟩ := lazy_replay sp _ _ _ _ k1
  have h2 : Seen sig (env H opAt g hv ha) s σ D rootPath (.call fVec (.vargs (chunk (h.filterMap (g i)) (ltl nm sp)) [] (some k)) .ret) (pre ++ (es3 ++ [])) es2 v := h2
  obtain ⟨w, es5, es6, rfl, h3, h4⟩ := h2.call
  obtain ⟨rfl, rfl⟩ := h4.ret
  have h3 : Seen sig (env H opAt g hv ha) s σ D rootPath (vec (chunk (h.filterMap (g i)) (ltl nm sp)) [] (some k)) _ es5 _ := h3
  rcases List.mem_append.1 he with he | he
  · have := q2 e (by simpa using he)
    rw [ho] at this; cases this
  · obtain ⟨b, b1, b2⟩ := lazy_vec hsig hm hI k _ sp _ [] _ _ _ (Nat.le_refl _) hs q3 hk h3 e (by simpa using he) ho
    exact ⟨b, by simpa using b1, b2⟩

theorem made_sp (f : X → Option X) (p : List (Seg X)) : made f (p.map Seg.sp) = (p.flatMap Seg.elems).filterMap f := by
  induction p with
  | nil => rfl
  | cons s p ih =>
    rw [List.flatMap_cons, List.filterMap_append, ← ih]
    rfl

/-- C87: after any history of edits and demands, a demand of the first `k` elements of a lazily mapped or filtered list returns them, and it runs, besides the demanded thunk, the thunks of those
names only before which fewer than `k` elements of the result come. -/
theorem C87_lazy_stage_is_lazy (rn : Name) (ss : List (Step X)) (ls : List (List Name × Lst X × Option Nat)) (h0 : Demands (fun _ => none) ss ls) (purity : Bool)
    (nm : Name) (i : Nat) (hop : opAt nm = .each .lazy i) (h : List X) (segs : List (Seg X)) (es1 : List (Edit (CV X))) (k : Nat) (hk : 0 < k) (cs1 : Cells (CV X))
    (hc1 : applyAll (fun _ => none) (ss.flatMap Step.edits ++ es1) = some cs1) (hh1 : Holds cs1 segs) (hg1 : GoodNames (itemsOf h segs)) :
    ∃ N s0 s1 rs, (∀ n, N ≤ n →
        runSession (env H opAt g hv ha) n (ss.map (stepProg rn)) (initSt purity false) = .ok (ls.map fun p => .vec (limited p.2.2 (specChain H opAt g p.1 p.2.1.items))) s0 ∧
        exec (env H opAt g hv ha) n (stepProg rn ⟨es1, [nm], listOf h segs, some k⟩) s0 = .ok (.vec (limited (some k) (specChain H opAt g [nm] (itemsOf h segs)))) s1) ∧
      s1.runs = rs ++ s0.runs ∧ rs.Nodup ∧
      ∀ x ∈ rs, x = ⟨rootPath, .nominal rn⟩ ∨
        ∃ p seg q, segs = p ++ seg :: q ∧ x = ⟨stagePath nm, .nominal seg.name⟩ ∧ ((h ++ p.flatMap Seg.elems).filterMap (g i)).length < k := by
  obtain ⟨ds, d1, d2⟩ := demands (H := H) (opAt := opAt) (g := g) (hv := hv) (ha := ha) (rn := rn) h0
  obtain ⟨a1, a11, a12, a13⟩ := (Holds.unfolds _ h hh1).annot
  have hle : Ref.SigLe (theRoot H opAt g hv ha rn).sig ((sigL opAt).withPu purity) := ⟨fun _ => rfl, rfl, fun _ => rfl, fun _ => id⟩
  obtain ⟨N, s0, s1, e1, D1, rs, r1, r2, r3, r4, r5, r6⟩ := EditSession.one_step (lawful rn) hle (ss := ss.map fun s => ⟨s.edits, .root s.stages s.list s.limit⟩) (ds := ds)
    (st1 := ⟨es1, .root [nm] (listOf h segs) (some k)⟩) (d1 := ([nm], a1, some k)) (cs1 := cs1)
    d1 (by rw [List.flatMap_append, List.flatMap_map]; simpa using hc1) ⟨a13, by rw [a12, asLst_items]; exact hg1, by simp⟩ (by show CV.root _ _ _ = _; rw [a11])
  have hm : ((sigL opAt).withPu purity).mode = false := rfl
  have hres : (theRoot H opAt g hv ha rn).res ([nm], a1, some k) = .vec (limited (some k) (specChain H opAt g [nm] (itemsOf h segs))) := by
    show CV.vec _ = _
    rw [res_eq, a12, asLst_items]
  have hsig : ∀ n, ((sigL opAt).withPu purity) (thunkAt nm n) = .thunk tyL (ppEach .lazy) (fEach .lazy i) := fun n => sig_each hop (by decide)
  have hsp : SpineOk (UpToDate ((sigL opAt).withPu purity) s1 e1.cur D1) (segs.map Seg.sp) :=
    Holds.spine (fun n => sig_cellAt n) (fun n v hn => r2.at_.ed.ext _ _ (r2.at_.ed.cells n v hn)) segs hh1
  obtain ⟨nd, v, g1, g2, g3, g4, g5, g6⟩ := Seen.ofDone r2.inv hm r2.root (ty := tyV) (pp := ppRoot) (fn := fRoot) (arg := .root [nm] a1.val (some k)) rfl (r2.at_.ed.ext _ _ r2.arg)
  rw [a11, listOf_eq] at g6
  have hroot := lazy_root hop hsig hm r2.inv hk hsp g6
  have hlead : ∀ x, Leads s1 (theRoot H opAt g hv ha rn).loc x → x = (theRoot H opAt g hv ha rn).loc ∨
      (∃ b, (h.filterMap (g i)).length + b < k ∧ Visited e1.cur D1 nm (g i) (segs.map Seg.sp) b x) ∨ ∃ c, x = cellAt c := by
    intro x hx
    induction hx with
    | self => exact .inl rfl
    | @via x y nd' e _ hget hmem hob hloc ih =>
      subst hloc
      rcases ih with rfl | ⟨b, hb, p, z, q, q1, rfl, q2, q3, q4⟩ | ⟨c, rfl⟩
      · refine .inr (.inl ?_)
        rw [g1] at hget
        injection hget with hget
        injection hget with hget
        subst hget
        exact hroot _ (List.mem_map.2 ⟨e, hmem, rfl⟩) hob
      · have hs2 : SpineOk (UpToDate ((sigL opAt).withPu purity) s1 e1.cur D1) (z :: q) := by
          rw [q1] at hsp
          exact hsp.suffix
        obtain ⟨n, a, xs⟩ := z
        obtain ⟨_, ⟨nd2, k1, k2⟩, _⟩ := lazy_thunk hsig hm r2.inv hs2.1 hs2.2.1 q2 q3
        rw [k1] at hget
        injection hget with hget
        injection hget with hget
        subst hget
        have hz : (n, a, xs) ∈ segs.map Seg.sp := by rw [q1]; simp
        obtain ⟨seg, _, hseg⟩ := List.mem_map.1 hz
        refine .inr (.inr ⟨seg.cell, ?_⟩)
        rw [k2 e hmem hob]
        exact (congrArg (fun t => t.2.1) hseg).symm
      · have h1 := r2.inv.thunkKind hget
        rw [show ((sigL opAt).withPu purity) (cellAt c) = _ from sig_cellAt (opAt := opAt) c] at h1
        cases h1
  refine ⟨N, s0, s1, rs, ?_, r3, r4, ?_⟩
  · intro n hn
    obtain ⟨q1, q2⟩ := r1 n hn
    rw [hres] at q2
    refine ⟨?_, q2⟩
    rw [← d2, ← q1]
    simp only [List.map_map]
    rfl
  · intro x hx
    have hnom : x.isStruct = false := by
      rcases r2.ran (lawful rn) hle (r5 x hx) with h1 | ⟨h1, ty, pp, fn, h2⟩ | ⟨b, hb, rfl⟩
      · rw [h1]; rfl
      · obtain ⟨p, id⟩ := x
        cases h1
        cases h2
      · rcases List.mem_append.1 hb with hb | hb
        · have : b.1 ∈ (aOp H g (opAt nm) (stagePath nm) 0 a1).2.map Prod.fst := List.mem_map_of_mem hb
          rw [aOp_alloc] at this
          obtain ⟨n, _, e⟩ := List.mem_map.1 this
          rw [← e]; rfl
        · cases hb
    rcases r6 x hx with h1 | ⟨_, h1⟩
    · rcases hlead x h1 with h2 | ⟨b, hb, p, z, q, q1, q0, q2, q3, q4⟩ | ⟨c, rfl⟩
      · exact .inl h2
      · obtain ⟨p', r', e1, e2, e3⟩ := List.map_eq_append_iff.1 q1
        obtain ⟨seg, q', e4, e5, e6⟩ := List.map_eq_cons_iff.1 e3
        subst e1 e2 e4 e5 e6
        refine .inr ⟨p', seg, q', rfl, q0, ?_⟩
        rw [List.filterMap_append, List.length_append, ← made_sp]
        omega
      · obtain ⟨nd', g, _⟩ := r2.inv.settled _ (r5 _ hx)
        have h1 := r2.inv.thunkKind g
        rw [show ((sigL opAt).withPu purity) (cellAt c) = _ from sig_cellAt (opAt := opAt) c] at h1
        cases h1
    · rw [hnom] at h1; cases h1

/-- C87: when the segments `A` make `k` elements or more, what comes after them costs nothing: at most `1 + A.length` thunks are run, however long `B` is. -/
theorem C87_rest_costs_nothing (rn : Name) (ss : List (Step X)) (ls : List (List Name × Lst X × Option Nat)) (h0 : Demands (fun _ => none) ss ls) (purity : Bool)
    (nm : Name) (i : Nat) (hop : opAt nm = .each .lazy i) (h : List X) (A B : List (Seg X)) (es1 : List (Edit (CV X))) (k : Nat) (hk : 0 < k) (cs1 : Cells (CV X))
    (hc1 : applyAll (fun _ => none) (ss.flatMap Step.edits ++ es1) = some cs1) (hh1 : Holds cs1 (A ++ B)) (hg1 : GoodNames (itemsOf h (A ++ B)))
    (hA : k ≤ ((h ++ A.flatMap Seg.elems).filterMap (g i)).length) :
    ∃ N s0 s1 rs, (∀ n, N ≤ n →
        runSession (env H opAt g hv ha) n (ss.map (stepProg rn)) (initSt purity false) = .ok (ls.map fun p => .vec (limited p.2.2 (specChain H opAt g p.1 p.2.1.items))) s0 ∧
        exec (env H opAt g hv ha) n (stepProg rn ⟨es1, [nm], listOf h (A ++ B), some k⟩) s0 = .ok (.vec (limited (some k) (specChain H opAt g [nm] (itemsOf h (A ++ B))))) s1) ∧
      s1.runs = rs ++ s0.runs ∧ rs.Nodup ∧ (∀ x ∈ rs, x = ⟨rootPath, .nominal rn⟩ ∨ ∃ seg ∈ A, x = ⟨stagePath nm, .nominal seg.name⟩) ∧ rs.length ≤ 1 + A.length := by
  obtain ⟨N, s0, s1, rs, g1, g2, g3, g4⟩ := C87_lazy_stage_is_lazy (H := H) (g := g) (hv := hv) (ha := ha) rn ss ls h0 purity nm i hop h (A ++ B) es1 k hk cs1 hc1 hh1 hg1
  have hwho : ∀ x ∈ rs, x = ⟨rootPath, .nominal rn⟩ ∨ ∃ seg ∈ A, x = ⟨stagePath nm, .nominal seg.name⟩ := by
    intro x hx
    rcases g4 x hx with h1 | ⟨p, seg, q, e, h1, h2⟩
    · exact .inl h1
    · refine .inr ⟨seg, ?_, h1⟩
      rcases List.append_eq_append_iff.1 e with ⟨r, e1, e2⟩ | ⟨r, e1, e2⟩
      · exfalso
        rw [e1, List.flatMap_append, ← List.append_assoc, List.filterMap_append, List.length_append] at h2
        omega
      · rcases r with _ | ⟨y, r⟩
        · exfalso
          rw [List.append_nil] at e1
          rw [e1] at hA
          omega
        · injection e2 with e3 e4
          rw [e1, e3]
          simp
  refine ⟨N, s0, s1, rs, g1, g2, g3, hwho, ?_⟩
  have := Adapton.Wf.length_le_of_subset (b := (⟨rootPath, .nominal rn⟩ : Loc) :: A.map fun seg => (⟨stagePath nm, .nominal seg.name⟩ : Loc)) g3 ?_
  · simpa [Nat.add_comm] using this
  · intro x hx
    rcases hwho x hx with rfl | ⟨seg, hseg, rfl⟩
    · exact List.mem_cons_self ..
    · exact List.mem_cons_of_mem _ (List.mem_map.2 ⟨seg, hseg, rfl⟩)
end
end Adapton.ListProg

/-! ### A session that meets the hypotheses

The list `1, ⟨1⟩ 10, …, ⟨6⟩ 60` with a cell after each name: it is filtered lazily, and first two elements and then four are demanded. -/
namespace Adapton.ListProg.Example87
open Coll (Lst NameElse)
open EditSession (cellAt Edit applyAll Cells)
open Example75 (H nm)
open Example78 (g seg writes)
/-- The stages 20 to 29 are lazy, the others are eager; 20 and 30 are filters. -/
def opAt (n : Name) : Op := if n = nm 20 then .each .lazy 1 else if n = nm 21 then .each .lazy 0 else if n = nm 30 then .each .eager 1 else .each .eager 0
def A : List (Seg Nat) := [seg 1, seg 2, seg 3]
def B : List (Seg Nat) := [seg 4, seg 5, seg 6]
def cells1 : Cells (CV Nat) := (applyAll (fun _ => none) (writes (A ++ B))).getD fun _ => none

theorem meets1 : applyAll (fun _ => none) (([] : List (Step Nat)).flatMap Step.edits ++ writes (A ++ B)) = some cells1 ∧ Holds cells1 (A ++ B) ∧ GoodNames (itemsOf [1] (A ++ B)) :=
  ⟨rfl, ⟨rfl, rfl, rfl, rfl, rfl, rfl, trivial⟩, by decide, by decide⟩

/-- The theorem applies to the first demand, of three elements: `1, 10, 20`. -/
example := C87_rest_costs_nothing (H := H) (opAt := opAt) (g := g) (hv := fun _ => 0) (ha := fun _ _ => 0) (nm 0) [] [] .nil true (nm 20) 1 (by decide) [1] A B (writes (A ++ B)) 3 (by decide) cells1
  meets1.1 meets1.2.1 meets1.2.2 (by decide)

/-- The elements returned, and the number of thunks run in each of two demands. -/
def outcome (stages : List Name) (k1 k2 : Nat) : List (List Nat) × List Nat :=
  match runSession (env H opAt g (fun _ => 0) (fun _ _ => 0)) 60 [stepProg (nm 0) ⟨writes (A ++ B), stages, listOf [1] (A ++ B), some k1⟩] (initSt true false) with
  | .ok vs s => match exec (env H opAt g (fun _ => 0) (fun _ _ => 0)) 60 (stepProg (nm 0) ⟨[], stages, listOf [1] (A ++ B), some k2⟩) s with
    | .ok v s' => ((vs ++ [v]).map Example75.elems, [s.runs.length, s'.runs.length - s.runs.length])
    | _ => ([], [])
  | _ => ([], [])

/-- Three elements need the thunks of two names (and the demanded one), four elements need those of two more, as the third of them makes no element. -/
theorem C87_only_what_is_needed : outcome [nm 20] 3 4 = ([[1, 10, 20], [1, 10, 20, 40]], [3, 3]) := by decide +kernel

/-- An eager stage runs everything at the first demand, here of one element.  (Names count for the limit: the second item is a name.) -/
theorem C87_eager_is_not_lazy : outcome [nm 30] 1 2 = ([[1], [1]], [7, 1]) := by decide +kernel

/-- Two lazy stages are not lazy: the output of the first stage has no names, so the second stage runs all of it at the first demand. -/
theorem C87_two_stages_not_lazy : outcome [nm 20, nm 21] 1 2 = ([[2], [2, 11]], [7, 1]) := by decide +kernel

end Adapton.ListProg.Example87
