import Verif.Engine.Query
import Verif.Collections.MapProg
import Verif.Props.Dirtying
/-
C96: maps and sets as association lists, on the engine.
C97: a look-up depends on the cells before the first match only.
-/
set_option linter.unusedSectionVars false
set_option linter.unusedVariables false
namespace Adapton.MapProg
open Ref (Sig Means)
open EditSession (Cells Edit applyAll cellAt Step)
open Query (QReads Dem)
variable {D C R : Type} [DecidableEq D] [DecidableEq C] [DecidableEq R]

/-! ### The specification -/

/-- Going through the list from `m`, one passes the entries `es` and reads the cells `ns`, and comes to `m'`. -/
inductive Walk (cs : Cells (CV D C R)) : MapV D C → List (D × C) → List Name → MapV D C → Prop
  | here {m} : Walk cs m [] [] m
  | cons {d c tl es ns m'} : Walk cs tl es ns m' → Walk cs (.cons d c tl) ((d, c) :: es) ns m'
  | name {n tl es ns m'} : Walk cs tl es ns m' → Walk cs (.name n tl) es ns m'
  | art {n m es ns m'} : cs n = some (.map m) → Walk cs m es ns m' → Walk cs (.art (cellAt n)) es (n :: ns) m'

/-- The first entry for `d` is `d ↦ c`, or (`none`) there is no entry for `d` and the list ends; `ns` are the cells before that entry, or all the cells.  Nothing is said of what is behind the entry. -/
inductive Finds (cs : Cells (CV D C R)) (m : MapV D C) (d : D) : Option C → List Name → Prop
  | hit {es ns c tl} : Walk cs m es ns (.cons d c tl) → (∀ e ∈ es, e.1 ≠ d) → Finds cs m d (some c) ns
  | miss {es ns} : Walk cs m es ns .nil → (∀ e ∈ es, e.1 ≠ d) → Finds cs m d none ns

/-- Those of the elements that have an entry in `o`, in their order; `ns` are the cells read, beginning with those for the last element. -/
inductive Hits (cs : Cells (CV D C R)) (o : MapV D C) : List D → List D → List Name → Prop
  | nil : Hits cs o [] [] []
  | yes {x xs hs ns c ns'} : Hits cs o xs hs ns → Finds cs o x (some c) ns' → Hits cs o (x :: xs) (x :: hs) (ns ++ ns')
  | no {x xs hs ns ns'} : Hits cs o xs hs ns → Finds cs o x none ns' → Hits cs o (x :: xs) hs (ns ++ ns')

/-- The set of these elements, as a list without names and cells. -/
def setOf (u : C) : List D → MapV D C
  | [] => .nil
  | x :: xs => .cons x u (setOf u xs)

/-- What a function returns, with these contents of the cells, and the cells it reads on the way. -/
inductive Answers (u : C) (body : Nat → D → C → R → R) (cs : Cells (CV D C R)) : CV D C R → List Name → CV D C R → Prop
  | find {m d r ns} : Finds cs m d r ns → Answers u body cs (.find m d) ns (.opt r)
  | mem {m d r ns} : Finds cs m d r ns → Answers u body cs (.mem m d) ns (.bool r.isSome)
  | fold {i m r es ns} : Walk cs m es ns .nil → Answers u body cs (.fold i m r) ns (.res (es.foldr (fun e r => body i e.1 e.2 r) r))
  | inter {s o es ns hs ns'} : Walk cs s es ns .nil → Hits cs o (es.map Prod.fst) hs ns' → Answers u body cs (.inter s o) (ns ++ ns') (.map (setOf u hs))

/-! ### The specification is met -/

section
variable {u : C} {body : Nat → D → C → R → R} {hv : CV D C R → UInt64} {ha : ProgPt → CV D C R → UInt64} {cs : Cells (CV D C R)}

theorem code_find (m : MapV D C) (d : D) : (env u body hv ha).code fFun (.find m d) = find m d := rfl
theorem code_mem (m : MapV D C) (d : D) : (env u body hv ha).code fFun (.mem m d) = isMem m d := rfl
theorem code_fold (i : Nat) (m : MapV D C) (r : R) : (env u body hv ha).code fFun (.fold i m r) = fold body i m r := rfl
theorem code_inter (s o : MapV D C) : (env u body hv ha).code fFun (.inter s o) = inter s o := rfl
theorem code_inter1 (m out o : MapV D C) : (env u body hv ha).code fFun (.inter1 m out o) = inter1 u m out o := rfl
theorem code_view (m : MapV D C) : (env u body hv ha).code fView (.map m) = view m := rfl
theorem code_root (v : CV D C R) : (env u body hv ha).code fRoot v = .call fFun v .ret := rfl

theorem find_walk {d : D} {m m' : MapV D C} {es : List (D × C)} {ns ns' : List Name} {v : CV D C R} (h : Walk cs m es ns m') (hd : ∀ e ∈ es, e.1 ≠ d)
    (hr : QReads (env u body hv ha) tyM cs (find m' d) ns' v) : QReads (env u body hv ha) tyM cs (find m d) (ns ++ ns') v := by
  induction h with
  | here => exact hr
  | @cons d' c tl es ns m' h ih =>
    have h1 : (find (.cons d' c tl) d : Prog (CV D C R)) = .call fFun (.find tl d) .ret := if_neg fun e => hd _ (List.mem_cons_self ..) e.symm
    rw [h1]
    have := QReads.call (k := .ret) (env := env u body hv ha) (cty := tyM) (fn := fFun) (arg := .find tl d) (ih (fun e he => hd e (List.mem_cons_of_mem _ he)) hr) .ret
    rwa [List.append_nil] at this
  | name h ih =>
    have := QReads.call (k := .ret) (env := env u body hv ha) (cty := tyM) (fn := fFun) (arg := .find _ d) (ih hd hr) .ret
    rwa [List.append_nil] at this
  | art h1 h ih =>
    have := QReads.call (k := .ret) (env := env u body hv ha) (cty := tyM) (fn := fFun) (arg := .find _ d) (ih hd hr) .ret
    rw [List.append_nil] at this
    exact .force h1 this

theorem Finds.reads {m : MapV D C} {d : D} {r : Option C} {ns : List Name} (h : Finds cs m d r ns) : QReads (env u body hv ha) tyM cs (find m d) ns (.opt r) := by
  cases h with
  | @hit es ns c tl h hd =>
    have h1 : (find (.cons d c tl) d : Prog (CV D C R)) = .ret (.opt (some c)) := if_pos rfl
    have := find_walk (u := u) (body := body) (hv := hv) (ha := ha) h hd (by rw [h1]; exact .ret)
    rwa [List.append_nil] at this
  | miss h hd =>
    have := find_walk (u := u) (body := body) (hv := hv) (ha := ha) h hd .ret
    rwa [List.append_nil] at this

/-- `elim_arg` at the head of the list. -/
theorem view_art {m : MapV D C} {n : Name} {ns : List Name} {v : CV D C R} (h1 : cs n = some (.map m)) (h : QReads (env u body hv ha) tyM cs (view m) ns v) :
    QReads (env u body hv ha) tyM cs (view (.art (cellAt n))) (n :: ns) v := by
  have := QReads.call (k := .ret) (env := env u body hv ha) (cty := tyM) (fn := fView) (arg := .map m) h .ret
  rw [List.append_nil] at this
  exact .force h1 this

/-- Reading through `elim_arg`: an articulation at the head adds its cell. -/
theorem call_art {m : MapV D C} {n : Name} {ns : List Name} {v : CV D C R} {k : CV D C R → Prog (CV D C R)} (h1 : cs n = some (.map m))
    (h : QReads (env u body hv ha) tyM cs (.call fView (.map m) k) ns v) : QReads (env u body hv ha) tyM cs (.call fView (.map (.art (cellAt n))) k) (n :: ns) v := by
  cases h with
  | @call _ _ _ ns1 w ns2 _ h2 h3 => exact QReads.call (ns1 := n :: ns1) (view_art h1 h2) h3

theorem fold_walk {i : Nat} {r : R} {m m' : MapV D C} {es : List (D × C)} {ns : List Name} (h : Walk cs m es ns m') : m' = .nil →
    QReads (env u body hv ha) tyM cs (fold body i m r) ns (.res (es.foldr (fun e r => body i e.1 e.2 r) r)) := by
  induction h with
  | here =>
    rintro rfl
    exact QReads.call (ns1 := []) (w := .map .nil) .ret .ret
  | @cons d c tl es ns m' h ih =>
    intro e
    refine QReads.call (ns1 := []) (w := .map (.cons d c tl)) .ret ?_
    have := QReads.call (env := env u body hv ha) (cty := tyM) (cs := cs) (fn := fFun) (arg := .fold i tl r) (k := onRes fun r => .ret (.res (body i d c r))) (ih e) .ret
    rwa [List.append_nil] at this
  | @name n tl es ns m' h ih =>
    intro e
    refine QReads.call (ns1 := []) (w := .map (.name n tl)) .ret ?_
    have := QReads.call (env := env u body hv ha) (cty := tyM) (cs := cs) (fn := fFun) (arg := .fold i tl r) (k := .ret) (ih e) .ret
    rwa [List.append_nil] at this
  | art h1 h ih => exact fun e => call_art h1 (ih e)

theorem inter_walk {o : MapV D C} {m m' : MapV D C} {es : List (D × C)} {ns : List Name} (h : Walk cs m es ns m') : m' = .nil → ∀ {hs : List D} {ns' : List Name}, Hits cs o (es.map Prod.fst) hs ns' →
    QReads (env u body hv ha) tyM cs (inter1 u m .nil o) (ns ++ ns') (.pair (setOf u hs) o) := by
  induction h with
  | here =>
    rintro rfl hs ns' hh
    cases hh
    exact QReads.call (ns1 := []) (w := .map .nil) .ret .ret
  | @cons d c tl es ns m' h ih =>
    intro e hs ns' hh
    refine QReads.call (ns1 := []) (w := .map (.cons d c tl)) .ret ?_
    cases hh with
    | @yes _ _ hs ns2 c' ns3 h1 h2 =>
      rw [show ns.append (ns2 ++ ns3) = (ns ++ ns2) ++ ns3 from (List.append_assoc ns ns2 ns3).symm]
      refine QReads.call (env := env u body hv ha) (fn := fFun) (arg := CV.inter1 tl .nil o) (ih e h1) ?_
      have := QReads.call (env := env u body hv ha) (cty := tyM) (cs := cs) (fn := fFun) (arg := .find o d)
        (k := onOpt fun | some _ => .ret (.pair (.cons d u (setOf u hs)) o) | none => .ret (.pair (setOf u hs) o)) (Finds.reads h2) .ret
      rwa [List.append_nil] at this
    | @no _ _ hs ns2 ns3 h1 h2 =>
      rw [show ns.append (ns2 ++ ns3) = (ns ++ ns2) ++ ns3 from (List.append_assoc ns ns2 ns3).symm]
      refine QReads.call (env := env u body hv ha) (fn := fFun) (arg := CV.inter1 tl .nil o) (ih e h1) ?_
      have := QReads.call (env := env u body hv ha) (cty := tyM) (cs := cs) (fn := fFun) (arg := .find o d)
        (k := onOpt fun | some _ => .ret (.pair (.cons d u (setOf u hs)) o) | none => .ret (.pair (setOf u hs) o)) (Finds.reads h2) .ret
      rwa [List.append_nil] at this
  | @name n tl es ns m' h ih =>
    intro e hs ns' hh
    refine QReads.call (ns1 := []) (w := .map (.name n tl)) .ret ?_
    have := QReads.call (env := env u body hv ha) (cty := tyM) (cs := cs) (fn := fFun) (arg := .inter1 tl .nil o) (k := .ret) (ih e hh) .ret
    rwa [List.append_nil] at this
  | art h1 h ih => exact fun e hs ns' hh => call_art h1 (ih e hh)

theorem Answers.reads {v w : CV D C R} {ns : List Name} (h : Answers u body cs v ns w) : QReads (env u body hv ha) tyM cs (.call fFun v .ret) ns w := by
  have key : QReads (env u body hv ha) tyM cs ((env u body hv ha).code fFun v) ns w := by
    cases h with
    | find h => exact h.reads
    | @mem m d r ns h =>
      have := QReads.call (env := env u body hv ha) (cty := tyM) (cs := cs) (fn := fFun) (arg := .find m d) (w := .opt r) (k := onOpt fun c => .ret (.bool c.isSome)) h.reads .ret
      rwa [List.append_nil] at this
    | fold h => exact fold_walk h rfl
    | @inter s o es ns hs ns' h hh =>
      have := QReads.call (env := env u body hv ha) (cty := tyM) (cs := cs) (fn := fFun) (arg := .inter1 s .nil o) (w := .pair (setOf u hs) o) (k := onPair fun out _ => .ret (.map out)) (inter_walk (u := u) h rfl hh) .ret
      rwa [List.append_nil] at this
  have := QReads.call (k := .ret) key .ret
  rwa [List.append_nil] at this
end

/-! ### Sessions -/

/-- The namespace of the demanded thunk. -/
def rootNm : Name := ⟨0, .str "map"⟩

/-- The demanded thunk. -/
def query (u : C) (body : Nat → D → C → R → R) (hv : CV D C R → UInt64) (ha : ProgPt → CV D C R → UInt64) (rn : Name) : Query.Spec (CV D C R) where
  env := env u body hv ha
  ns := rootNm
  rn := rn
  ty := tyA
  pp := ppRoot
  fn := fRoot
  cty := tyM

/-- The code of the editor for one step: the edits of the cells, and then `ns("map", || get!(thunk!([Some(rn)]? { f(args) })))`, where `arg` says which function is called, and the arguments. -/
def stepProg (rn : Name) (s : Step (CV D C R)) : Prog (CV D C R) :=
  EditSession.editProg tyM s.edits <|
    .ns rootNm (.thunk tyA (.nominal rn) ppRoot fRoot s.arg fun l => .force tyA l none .ret) .ret

/-- The demands of a session, with the cells read and the results. -/
inductive Demands (u : C) (body : Nat → D → C → R → R) : Cells (CV D C R) → List (Step (CV D C R)) → List (List Name × CV D C R) → Prop
  | nil {cs} : Demands u body cs [] []
  | cons {cs cs' s ss ns w ds} : applyAll cs s.edits = some cs' → Answers u body cs' s.arg ns w → Demands u body cs' ss ds → Demands u body cs (s :: ss) ((ns, w) :: ds)

section
variable {u : C} {body : Nat → D → C → R → R} {hv : CV D C R → UInt64} {ha : ProgPt → CV D C R → UInt64} {cs : Cells (CV D C R)}

theorem Answers.ok {rn : Name} {v w : CV D C R} {ns : List Name} (h : Answers u body cs v ns w) : Query.Ok (query u body hv ha rn) cs ⟨v, ns, w⟩ := h.reads

theorem Demands.query {rn : Name} {ss : List (Step (CV D C R))} {ds : List (List Name × CV D C R)} (h : Demands u body cs ss ds) :
    ∃ es, Query.Demands (MapProg.query u body hv ha rn) cs ss es ∧ es.map Dem.res = ds.map Prod.snd := by
  induction h with
  | nil => exact ⟨[], .nil, rfl⟩
  | @cons cs cs' s ss ns w ds h1 h2 _ ih =>
    obtain ⟨es, e1, e2⟩ := ih
    exact ⟨⟨s.arg, ns, w⟩ :: es, .cons h1 h2.ok rfl e1, congrArg (List.cons _) e2⟩

/-- **C96.** Maps and sets as association lists, on the engine.  The editor edits cells that hold lists of entries, in any way, and demands `find`, `is_mem`, `fold` or `inter` of lists made of those cells, again and
again, under one name.  If at each demand the list can be followed to its end (for `find` and `is_mem`: to the first entry for the key), then the engine terminates without panic, and returns what the
function returns for the lists as they are then: the content of the first entry for the key; whether there is one; the fold of the entries from the last to the first; the elements of the one set, in their
order, that are in the other. -/
theorem C96_maps_and_sets (rn : Name) (ss : List (Step (CV D C R))) (ds : List (List Name × CV D C R)) (h : Demands u body (fun _ => none) ss ds) (purity : Bool) :
    (∃ N s', ∀ n, N ≤ n → runSession (env u body hv ha) n (ss.map (stepProg rn)) (initSt purity false) = .ok (ds.map Prod.snd) s') ∧
    (∀ n err s', runSession (env u body hv ha) n (ss.map (stepProg rn)) (initSt purity false) ≠ .panic err s') ∧
    ∀ n vs' s', runSession (env u body hv ha) n (ss.map (stepProg rn)) (initSt purity false) = .ok vs' s' → vs' = ds.map Prod.snd := by
  obtain ⟨es, e1, e2⟩ := h.query (hv := hv) (ha := ha) (rn := rn)
  have hm : Means (Query.sigQ (MapProg.query u body hv ha rn)) (env u body hv ha) (ss.map (stepProg rn)) (ds.map Prod.snd) := by
    rw [← e2]; exact Query.session_means e1
  refine ⟨?_, ?_, ?_⟩
  · exact (C02_terminates_without_panic _ (env u body hv ha) _ _ hm purity fun _ => rfl).1
  · exact (C02_terminates_without_panic _ (env u body hv ha) _ _ hm purity fun _ => rfl).2
  · intro n vs' s' he
    exact C01_from_scratch_consistency _ (env u body hv ha) _ _ hm purity (fun _ => rfl) n vs' s' he

/-! ### Lists that end -/

theorem Walk.finds {m m' : MapV D C} {es : List (D × C)} {ns : List Name} (h : Walk cs m es ns m') (d : D) : m' = .nil → ∃ ns', Finds cs m d ((es.find? fun e => decide (e.1 = d)).map Prod.snd) ns' ∧ ns' <+: ns := by
  induction h with
  | here => rintro rfl; exact ⟨[], .miss .here (fun _ h => by cases h), List.prefix_refl _⟩
  | @cons d' c tl es ns m' h ih =>
    intro e
    by_cases hd : d' = d
    · subst hd
      refine ⟨[], ?_, List.nil_prefix⟩
      rw [List.find?_cons_of_pos (by simp)]
      exact .hit .here (fun _ h => by cases h)
    · obtain ⟨ns', h1, h2⟩ := ih e
      refine ⟨ns', ?_, h2⟩
      rw [List.find?_cons_of_neg (by simpa using hd)]
      generalize (es.find? fun e => decide (e.1 = d)).map Prod.snd = r at h1
      cases h1 with
      | hit a b => exact .hit (.cons a) (by intro x hx; rcases List.mem_cons.1 hx with rfl | hx; exact hd; exact b x hx)
      | miss a b => exact .miss (.cons a) (by intro x hx; rcases List.mem_cons.1 hx with rfl | hx; exact hd; exact b x hx)
  | name h ih =>
    intro e
    obtain ⟨ns', h1, h2⟩ := ih e
    refine ⟨ns', ?_, h2⟩
    generalize Option.map Prod.snd _ = r at h1
    cases h1 with
    | hit a b => exact .hit (.name a) b
    | miss a b => exact .miss (.name a) b
  | @art n m es ns m' hn h ih =>
    intro e
    obtain ⟨ns', h1, h2⟩ := ih e
    refine ⟨n :: ns', ?_, (List.cons_prefix_cons).2 ⟨rfl, h2⟩⟩
    generalize Option.map Prod.snd _ = r at h1
    cases h1 with
    | hit a b => exact .hit (.art hn a) b
    | miss a b => exact .miss (.art hn a) b

/-- C96: in a list that ends, `find` finds the first entry for the key, and reads no cell behind it. -/
theorem C96_find (m : MapV D C) (es : List (D × C)) (ns : List Name) (h : Walk cs m es ns .nil) (d : D) :
    ∃ ns', Answers u body cs (.find m d) ns' (.opt ((es.find? fun e => decide (e.1 = d)).map Prod.snd)) ∧ ns' <+: ns := by
  obtain ⟨ns', h1, h2⟩ := h.finds d rfl
  exact ⟨ns', .find h1, h2⟩

/-- C96: an update (`List::Cons`) is found at once, without reading anything, and does not change what is found for other keys. -/
theorem C96_find_update (m : MapV D C) (d : D) (c : C) :
    Answers u body cs (.find (.cons d c m) d) [] (.opt (some c)) ∧ ∀ d' r ns, d' ≠ d → Finds cs m d' r ns → Answers u body cs (.find (.cons d c m) d') ns (.opt r) := by
  refine ⟨.find (.hit .here (fun _ h => by cases h)), fun d' r ns hd h => .find ?_⟩
  cases h with
  | hit a b => exact .hit (.cons a) (by intro x hx; rcases List.mem_cons.1 hx with rfl | hx; exact fun e => hd e.symm; exact b x hx)
  | miss a b => exact .miss (.cons a) (by intro x hx; rcases List.mem_cons.1 hx with rfl | hx; exact fun e => hd e.symm; exact b x hx)

/-- C96: for two sets that end, `inter` returns the elements of the first that are in the second. -/
theorem C96_inter (s o : MapV D C) (es es' : List (D × C)) (ns ns' : List Name) (h : Walk cs s es ns .nil) (h' : Walk cs o es' ns' .nil) :
    ∃ ns2, Answers u body cs (.inter s o) ns2 (.map (setOf u ((es.map Prod.fst).filter fun x => decide (x ∈ es'.map Prod.fst)))) := by
  have key : ∀ xs : List D, ∃ ns2, Hits cs o xs (xs.filter fun x => decide (x ∈ es'.map Prod.fst)) ns2 := by
    intro xs
    induction xs with
    | nil => exact ⟨[], .nil⟩
    | cons x xs ih =>
      obtain ⟨ns2, hh⟩ := ih
      obtain ⟨ns3, h3, _⟩ := h'.finds x rfl
      by_cases hx : x ∈ es'.map Prod.fst
      · rw [List.filter_cons_of_pos (by simpa using hx)]
        obtain ⟨e, he, rfl⟩ := List.mem_map.1 hx
        rcases hf : es'.find? (fun e' => decide (e'.1 = e.1)) with _ | e'
        · exact absurd (List.find?_eq_none.1 hf e he) (by simp)
        · rw [hf] at h3
          exact ⟨_, .yes hh h3⟩
      · rw [List.filter_cons_of_neg (by simpa using hx)]
        have hf : es'.find? (fun e' => decide (e'.1 = x)) = none := by
          rw [List.find?_eq_none]
          intro e he hd
          exact hx (List.mem_map.2 ⟨e, he, by simpa using hd⟩)
        rw [hf] at h3
        exact ⟨_, .no hh h3⟩
  obtain ⟨ns2, h2⟩ := key (es.map Prod.fst)
  exact ⟨_, .inter h h2⟩

/-- **C96 (not implemented).** `remove`, `append` (`union` of sets) and `diff` panic, for all arguments and in all states; so do `find`, `is_mem`, `fold` and `inter` when they come to a `List::Tree`. -/
theorem C96_unimplemented (n : Nat) (m o : MapV D C) (d : D) (i : Nat) (r : R) (s : St (CV D C R)) :
    (∃ e, exec (env u body hv ha) (n + 1) (.call fFun (.remove m d) .ret) s = .panic e s) ∧ (∃ e, exec (env u body hv ha) (n + 1) (.call fFun (.append m o) .ret) s = .panic e s) ∧
    (∃ e, exec (env u body hv ha) (n + 1) (.call fFun (.diff m o) .ret) s = .panic e s) ∧ (∃ e, exec (env u body hv ha) (n + 1) (.call fFun (.find (.tree m) d) .ret) s = .panic e s) ∧
    (∃ e, exec (env u body hv ha) (n + 2) (.call fFun (.mem (.tree m) d) .ret) s = .panic e s) ∧ (∃ e, exec (env u body hv ha) (n + 2) (.call fFun (.fold i (.tree m) r) .ret) s = .panic e s) ∧
    (∃ e, exec (env u body hv ha) (n + 3) (.call fFun (.inter (.tree m) o) .ret) s = .panic e s) :=
  ⟨⟨_, rfl⟩, ⟨_, rfl⟩, ⟨_, rfl⟩, ⟨_, rfl⟩, ⟨_, rfl⟩, ⟨_, rfl⟩, ⟨_, rfl⟩⟩

/-! ### C97 -/

/-- **C97.** After any session of C96, a demand, and then, after some edits of cells, the same demand again: the thunk is run again, once, if one of the cells that the function read has another content now, and
otherwise nothing is run at all, however much was edited elsewhere.  The recorded dependencies are exactly the cells that the function has read. -/
theorem C97_rerun_iff_read_changed (rn : Name) (ss : List (Step (CV D C R))) (ds : List (List Name × CV D C R)) (h0 : Demands u body (fun _ => none) ss ds) (purity : Bool)
    (a w1 w2 : CV D C R) (ns1 ns2 : List Name) (es1 es2 : List (Edit (CV D C R))) (cs1 cs2 : Cells (CV D C R))
    (hc1 : applyAll (fun _ => none) (ss.flatMap Step.edits ++ es1) = some cs1) (ha1 : Answers u body cs1 a ns1 w1) (hc2 : applyAll cs1 es2 = some cs2) (ha2 : Answers u body cs2 a ns2 w2) :
    ∃ N s1 s2, (∀ n, N ≤ n →
        runSession (env u body hv ha) n ((ss ++ [(⟨es1, a⟩ : Step (CV D C R))]).map (stepProg rn)) (initSt purity false) = .ok (ds.map Prod.snd ++ [w1]) s1 ∧
        exec (env u body hv ha) n (stepProg rn ⟨es2, a⟩) s1 = .ok w2 s2) ∧
      (s2.runs = s1.runs ∨ s2.runs = ⟨.child .empty rootNm, .nominal rn⟩ :: s1.runs) ∧
      (s2.runs = s1.runs ↔ ∀ m ∈ ns1, cs2 m = cs1 m) ∧
      Query.Deps s1 ⟨.child .empty rootNm, .nominal rn⟩ ns1 ∧ Query.Deps s2 ⟨.child .empty rootNm, .nominal rn⟩ ns2 := by
  obtain ⟨es, e1, e2⟩ := h0.query (hv := hv) (ha := ha) (rn := rn)
  obtain ⟨N, s1, s2, r1, r2⟩ := Query.query_twice e1 purity ⟨a, ns1, w1⟩ ⟨a, ns2, w2⟩ rfl es1 es2 cs1 cs2 hc1 ha1.ok hc2 ha2.ok
  rw [e2] at r1
  exact ⟨N, s1, s2, r1, r2⟩

theorem Finds.congr {cs' : Cells (CV D C R)} {m : MapV D C} {d : D} {r : Option C} {ns : List Name} (h : Finds cs m d r ns) (he : ∀ n ∈ ns, cs' n = cs n) : Finds cs' m d r ns := by
  have walk : ∀ {m m' : MapV D C} {es : List (D × C)} {ns : List Name}, Walk cs m es ns m' → (∀ n ∈ ns, cs' n = cs n) → Walk cs' m es ns m' := by
    intro m m' es ns h
    induction h with
    | here => exact fun _ => .here
    | cons _ ih => exact fun he => .cons (ih he)
    | name _ ih => exact fun he => .name (ih he)
    | art h1 _ ih => exact fun he => .art ((he _ (List.mem_cons_self ..)).trans h1) (ih fun n hn => he n (List.mem_cons_of_mem _ hn))
  cases h with
  | hit a b => exact .hit (walk a he) b
  | miss a b => exact .miss (walk a he) b

/-- **C97.** A look-up stops at the first entry for the key: if the cells before it are not changed, then, whatever is edited behind it (so that the rest of the list may be cut off, endless or a `List::Tree`), the same look-up
returns the same, and runs nothing. -/
theorem C97_find_stops_at_first (rn : Name) (ss : List (Step (CV D C R))) (ds : List (List Name × CV D C R)) (h0 : Demands u body (fun _ => none) ss ds) (purity : Bool)
    (m : MapV D C) (d : D) (r : Option C) (ns : List Name) (es1 es2 : List (Edit (CV D C R))) (cs1 cs2 : Cells (CV D C R))
    (hc1 : applyAll (fun _ => none) (ss.flatMap Step.edits ++ es1) = some cs1) (hf : Finds cs1 m d r ns) (hc2 : applyAll cs1 es2 = some cs2) (hsame : ∀ n ∈ ns, cs2 n = cs1 n) :
    ∃ N s1 s2, (∀ n, N ≤ n →
        runSession (env u body hv ha) n ((ss ++ [(⟨es1, .find m d⟩ : Step (CV D C R))]).map (stepProg rn)) (initSt purity false) = .ok (ds.map Prod.snd ++ [.opt r]) s1 ∧
        exec (env u body hv ha) n (stepProg rn ⟨es2, .find m d⟩) s1 = .ok (.opt r) s2) ∧ s2.runs = s1.runs := by
  obtain ⟨N, s1, s2, r1, _, r2, _⟩ := C97_rerun_iff_read_changed (hv := hv) (ha := ha) rn ss ds h0 purity (.find m d) _ _ _ _ es1 es2 cs1 cs2 hc1 (.find hf) hc2 (.find (hf.congr hsame))
  exact ⟨N, s1, s2, r1, r2.2 hsame⟩
end

/-! ### An example

Three cells hold the map `1 ↦ 10, 2 ↦ 20, 3 ↦ 30`. -/

namespace Ex
abbrev V := CV Nat Nat Nat
def e : Env V := env 0 (fun _ d c r => 2 * r + d * c) (fun _ => 0) (fun _ _ => 0)
def a : Name := ⟨1, .usize 1⟩
def b : Name := ⟨2, .usize 2⟩
def c : Name := ⟨3, .usize 3⟩
def rn : Name := ⟨9, .str "q"⟩
def l : MapV Nat Nat := .name a (.art (cellAt a))
def build : List (Edit V) := [.cell a (.map (.cons 1 10 (.art (cellAt b)))), .cell b (.map (.cons 2 20 (.name c (.art (cellAt c))))), .cell c (.map (.cons 3 30 .nil))]
/-- Behind the entry for 2: the rest of the list becomes endless. -/
def behind : List (Edit V) := [.set c (.map (.art (cellAt c)))]
/-- Before the entry for 2: another entry for 2. -/
def before : List (Edit V) := [.set a (.map (.cons 2 25 (.cons 1 10 (.art (cellAt b)))))]
def s0 : Step V := ⟨build, .fold 0 l 5⟩
def s1 : Step V := ⟨[], .find l 2⟩
def s2 : Step V := ⟨behind, .find l 2⟩
def s3 : Step V := ⟨before, .find l 2⟩

def cs0 : Cells V := (applyAll (fun _ => none) build).getD fun _ => none
def cs1 : Cells V := (applyAll cs0 behind).getD fun _ => none
def cs2 : Cells V := (applyAll cs1 before).getD fun _ => none

theorem walk0 : Walk cs0 l [(1, 10), (2, 20), (3, 30)] [a, b, c] .nil :=
  .name (.art rfl (.cons (.art rfl (.cons (.name (.art rfl (.cons .here)))))))
theorem finds0 : Finds cs0 l 2 (some 20) [a, b] :=
  .hit (es := [(1, 10)]) (.name (.art rfl (.cons (.art rfl .here)))) (by decide)
theorem finds1 : Finds cs1 l 2 (some 20) [a, b] :=
  .hit (es := [(1, 10)]) (.name (.art rfl (.cons (.art rfl .here)))) (by decide)
theorem finds2 : Finds cs2 l 2 (some 25) [a] :=
  .hit (es := []) (.name (.art rfl .here)) (by decide)

/-- The hypotheses of C96 are met. -/
theorem demands : Demands 0 (fun _ d c r => 2 * r + d * c) (fun _ => none) [s0, s1, s2, s3]
    [([a, b, c], .res ([(1, 10), (2, 20), (3, 30)].foldr (fun e r => 2 * r + e.1 * e.2) 5)), ([a, b], .opt (some 20)), ([a, b], .opt (some 20)), ([a], .opt (some 25))] :=
  .cons (cs' := cs0) rfl (.fold walk0) (.cons (cs' := cs0) rfl (.find finds0) (.cons (cs' := cs1) rfl (.find finds1) (.cons (cs' := cs2) rfl (.find finds2) .nil)))

/-- The hypotheses of C97 are met: the edit behind the entry runs nothing, and the engine agrees. -/
example : ∃ N s1' s2', (∀ n, N ≤ n →
    runSession e n (([s0] ++ [s1]).map (stepProg rn)) (initSt true false) = .ok ([.res 490] ++ [.opt (some 20)]) s1' ∧ exec e n (stepProg rn s2) s1' = .ok (.opt (some 20)) s2') ∧ s2'.runs = s1'.runs :=
  C97_find_stops_at_first (u := 0) (body := fun _ d c r => 2 * r + d * c) (hv := fun _ => 0) (ha := fun _ _ => 0) rn [s0] _ (.cons (cs' := cs0) rfl (.fold walk0) .nil) true l 2 (some 20) [a, b] [] behind cs0 cs1 rfl finds0 rfl (by decide +kernel)

/-- The values and the numbers of runs after each step. -/
def runsAfter (k : Nat) : Option (List V × Nat) :=
  match runSession e 20 (([s0, s1, s2, s3].take k).map (stepProg rn)) (initSt true false) with
  | .ok vs s => some (vs, s.runs.length)
  | _ => none
example : (List.range 5).map runsAfter = [some ([], 0), some ([.res 490], 1), some ([.res 490, .opt (some 20)], 2), some ([.res 490, .opt (some 20), .opt (some 20)], 2),
    some ([.res 490, .opt (some 20), .opt (some 20), .opt (some 25)], 3)] := by decide +kernel

/-- `inter` of two sets. -/
example : ∃ ns, Answers (R := Nat) 0 (fun _ _ _ r => r) cs0 (.inter l (.cons 3 0 (.cons 1 0 .nil))) ns (.map (setOf 0 [1, 3])) :=
  C96_inter l _ _ _ _ _ walk0 (Walk.cons (.cons .here))
end Ex
end Adapton.MapProg
