import Verif.Engine.Query
import Verif.Props.TrieEngine
/-
C99: a look-up in a trie depends on the cells on its way only.
-/
set_option linter.unusedSectionVars false
set_option linter.unusedVariables false
namespace Adapton.TrieProg
open Bits (BS)
open EditSession (Cells Edit applyAll cellAt)
open Adapton.Query (QReads Dem)
open TrieM (Trie)
variable {X R : Type} [DecidableEq X] [DecidableEq R]

/-! ### The specification -/

/-- Going down from `t`, to the left at a binary node if `i` is even and else to the right, halving `i`, one reads the cells `ns` and comes to an empty trie (`none`) or to a leaf.  Of the other branches nothing is said. -/
inductive Down (cs : Cells (CV X R)) : TrV X → Int → List Name → Option X → Prop
  | nil {bs i} : Down cs (.nil bs) i [] none
  | leaf {bs x i} : Down cs (.leaf bs x) i [] (some x)
  | left {bs l r i ns o} : i.tmod 2 = 0 → Down cs l (i / 2) ns o → Down cs (.bin bs l r) i ns o
  | right {bs l r i ns o} : i.tmod 2 ≠ 0 → Down cs r (i / 2) ns o → Down cs (.bin bs l r) i ns o
  | root {d t i ns o} : Down cs t i ns o → Down cs (.root d t) i ns o
  | name {n t i ns o} : Down cs t i ns o → Down cs (.name n t) i ns o
  | art {n t i ns o} : cs n = some (.trie t) → Down cs t i ns o → Down cs (.art (cellAt n)) i (n :: ns) o

/-- The first constructor behind roots, names and cells is that of an empty trie (`true`), or of a leaf or binary node (`false`). -/
inductive Top (cs : Cells (CV X R)) : TrV X → List Name → Bool → Prop
  | nil {bs} : Top cs (.nil bs) [] true
  | leaf {bs x} : Top cs (.leaf bs x) [] false
  | bin {bs l r} : Top cs (.bin bs l r) [] false
  | root {d t ns b} : Top cs t ns b → Top cs (.root d t) ns b
  | name {n t ns b} : Top cs t ns b → Top cs (.name n t) ns b
  | art {n t ns b} : cs n = some (.trie t) → Top cs t ns b → Top cs (.art (cellAt n)) (n :: ns) b

/-- All the elements, from left to right, and all the cells. -/
inductive Elems (cs : Cells (CV X R)) : TrV X → List Name → List X → Prop
  | nil {bs} : Elems cs (.nil bs) [] []
  | leaf {bs x} : Elems cs (.leaf bs x) [] [x]
  | bin {bs l r ns1 ns2 es1 es2} : Elems cs l ns1 es1 → Elems cs r ns2 es2 → Elems cs (.bin bs l r) (ns1 ++ ns2) (es1 ++ es2)
  | root {d t ns es} : Elems cs t ns es → Elems cs (.root d t) ns es
  | name {n t ns es} : Elems cs t ns es → Elems cs (.name n t) ns es
  | art {n t ns es} : cs n = some (.trie t) → Elems cs t ns es → Elems cs (.art (cellAt n)) (n :: ns) es

/-- What a query returns, with these contents of the cells, and the cells it reads on the way. -/
inductive Looks (fs : Fns X R) (cs : Cells (CV X R)) : TrV X → Query X R → List Name → CV X R → Prop
  | find {t elt i ns o} : Down cs t i ns o → Looks fs cs t (.find elt i) ns (.opt (if o = some elt then some elt else none))
  | mem {t elt ns o} : Down cs t (fs.hash elt) ns o → Looks fs cs t (.mem elt) ns (.bool (decide (o = some elt)))
  | isEmpty {t ns b} : Top cs t ns b → Looks fs cs t .isEmpty ns (.bool b)
  | fold {t i r ns es} : Elems cs t ns es → Looks fs cs t (.fold i r) ns (.res (es.foldl (fun r x => fs.f i x r) r))

/-! ### The specification is met -/

section
variable {H : NameHash} {opAt : Name → Option Nat} {fs : Fns X R} {hv : CV X R → UInt64} {ha : ProgPt → CV X R → UInt64} {cs : Cells (CV X R)}

local notation "ENV" => env H opAt fs hv ha

theorem QReads.tail {e : Env (CV X R)} {fn : FnId} {arg v : CV X R} {ns : List Name} (h : QReads e tyT cs (e.code fn arg) ns v) : QReads e tyT cs (.call fn arg .ret) ns v := by
  have := QReads.call (k := .ret) h .ret
  rwa [List.append_nil] at this

/-- Reading through `elim`: an articulation at the top adds its cell. -/
theorem call_art {t : TrV X} {n : Name} {ns : List Name} {v : CV X R} {k : CV X R → Prog (CV X R)} (h1 : cs n = some (.trie t))
    (h : QReads ENV tyT cs (.call fView (.trie t) k) ns v) : QReads ENV tyT cs (.call fView (.trie (.art (cellAt n))) k) (n :: ns) v := by
  cases h with
  | @call _ _ _ ns1 w ns2 _ h2 h3 =>
    have h2 : QReads ENV tyT cs ((ENV).code fView (.trie t)) ns1 w := h2
    refine QReads.call (ns1 := n :: ns1) ?_ h3
    show QReads ENV tyT cs (.force tyT (cellAt n) none fun v => .call fView v .ret) (n :: ns1) w
    exact .force h1 (QReads.tail h2)

/-- Reading through `elim` at any other constructor. -/
theorem call_here {t : TrV X} {ns : List Name} {v : CV X R} {k : CV X R → Prog (CV X R)} (ht : ∀ a, t ≠ .art a) (h : QReads ENV tyT cs (k (.trie t)) ns v) : QReads ENV tyT cs (.call fView (.trie t) k) ns v := by
  refine QReads.call (ns1 := []) (w := .trie t) ?_ h
  show QReads ENV tyT cs (view t) [] (.trie t)
  cases t with
  | art a => exact absurd rfl (ht a)
  | _ => exact .ret

theorem Down.reads {t : TrV X} {i : Int} {ns : List Name} {o : Option X} (h : Down cs t i ns o) (elt : X) : QReads ENV tyT cs (find t elt i) ns (.opt (if o = some elt then some elt else none)) := by
  induction h with
  | nil => exact call_here (by simp) .ret
  | @leaf bs x i =>
    refine call_here (by simp) ?_
    have : (if (some x = some elt) then some elt else none) = (if elt = x then some x else none) := by
      by_cases hx : elt = x
      · subst hx; simp
      · rw [if_neg hx, if_neg (by simpa using fun h => hx h.symm)]
    rw [this]
    exact .ret
  | @left bs l r i ns o hi _ ih =>
    refine call_here (by simp) ?_
    show QReads ENV tyT cs (if i.tmod 2 = 0 then _ else _) _ _
    rw [if_pos hi]
    exact QReads.tail ih
  | @right bs l r i ns o hi _ ih =>
    refine call_here (by simp) ?_
    show QReads ENV tyT cs (if i.tmod 2 = 0 then _ else _) _ _
    rw [if_neg hi]
    exact QReads.tail ih
  | root _ ih => exact call_here (by simp) (QReads.tail ih)
  | name _ ih => exact call_here (by simp) (QReads.tail ih)
  | art h1 _ ih => exact call_art h1 ih

theorem Top.reads {t : TrV X} {ns : List Name} {b : Bool} (h : Top cs t ns b) : QReads ENV tyT cs (isEmpty t) ns (.bool b) := by
  induction h with
  | nil => exact call_here (by simp) .ret
  | leaf => exact call_here (by simp) .ret
  | bin => exact call_here (by simp) .ret
  | root _ ih => exact call_here (by simp) (QReads.tail ih)
  | name _ ih => exact call_here (by simp) (QReads.tail ih)
  | art h1 _ ih => exact call_art h1 ih

theorem Elems.reads {t : TrV X} {ns : List Name} {es : List X} (h : Elems cs t ns es) (i : Nat) : ∀ r : R,
    QReads ENV tyT cs (fold (fs.f i) (fFold i) t r) ns (.res (es.foldl (fun r x => fs.f i x r) r)) := by
  have hcode : ∀ (t : TrV X) (r : R), (ENV).code (fFold i) (.foldArgs t r) = fold (fs.f i) (fFold i) t r := fun t r => TrieProg.code_fold H opAt fs i _
  induction h with
  | nil => exact fun r => call_here (by simp) .ret
  | leaf => exact fun r => call_here (by simp) .ret
  | @bin bs l rt ns1 ns2 es1 es2 _ _ ih1 ih2 =>
    intro r
    refine call_here (by simp) ?_
    refine QReads.call (w := .res (es1.foldl (fun r x => fs.f i x r) r)) (by rw [hcode]; exact ih1 r) ?_
    rw [List.foldl_append]
    exact QReads.tail (by rw [hcode]; exact ih2 _)
  | root _ ih => exact fun r => call_here (by simp) (QReads.tail (by rw [hcode]; exact ih r))
  | name _ ih => exact fun r => call_here (by simp) (QReads.tail (by rw [hcode]; exact ih r))
  | art h1 _ ih => exact fun r => call_art h1 (ih r)

theorem Looks.reads {t : TrV X} {q : Query X R} {ns : List Name} {w : CV X R} (h : Looks fs cs t q ns w) : QReads ENV tyT cs ((ENV).code fMain (.root (.given t) q)) ns w := by
  show QReads ENV tyT cs (query opAt fs t q) ns w
  cases h with
  | find h => exact QReads.tail (h.reads _)
  | @mem elt ns o h =>
    have := QReads.call (env := ENV) (cty := tyT) (cs := cs) (fn := fFind) (arg := .findArgs t elt (fs.hash elt)) (k := onOpt fun | some _ => .ret (.bool true) | none => .ret (.bool false)) (h.reads elt)
      (ns2 := []) (v := .bool (decide (o = some elt))) (by
        by_cases ho : o = some elt
        · rw [if_pos ho, decide_eq_true ho]; exact .ret
        · rw [if_neg ho, decide_eq_false ho]; exact .ret)
    rwa [List.append_nil] at this
  | isEmpty h => exact QReads.tail h.reads
  | fold h => exact QReads.tail (by rw [show (ENV).code (fFold _) _ = _ from TrieProg.code_fold H opAt fs _ _]; exact h.reads _ _)

/-! ### Sessions -/

/-- The demanded thunk. -/
def lookup (H : NameHash) (opAt : Name → Option Nat) (fs : Fns X R) (hv : CV X R → UInt64) (ha : ProgPt → CV X R → UInt64) (rn : Name) : Adapton.Query.Spec (CV X R) where
  env := env H opAt fs hv ha
  ns := rootNm
  rn := rn
  ty := tyV
  pp := ppMain
  fn := fMain
  cty := tyT

/-- A demand of a session: edits, and then a query of a trie. -/
structure LStep (X R : Type) where
  edits : List (Edit (CV X R))
  t : TrV X
  q : Query X R

def LStep.step (s : LStep X R) : Step X R := ⟨s.edits, .given s.t, s.q⟩

/-- The demands of a session, with the cells read and the results. -/
inductive LDemands (fs : Fns X R) : Cells (CV X R) → List (LStep X R) → List (List Name × CV X R) → Prop
  | nil {c0 : Cells (CV X R)} : LDemands fs c0 [] []
  | cons {c0 c1 : Cells (CV X R)} {s ss ns w ds} : applyAll c0 s.edits = some c1 → Looks fs c1 s.t s.q ns w → LDemands fs c1 ss ds → LDemands fs c0 (s :: ss) ((ns, w) :: ds)

/-- **C99.** After any session in which the editor edits cells that hold tries and demands `find`, `mem`, `is_empty` and `fold` of tries made of them: a demand, and then, after some edits of cells, the same demand again.  The thunk is
run again, once, if one of the cells on the way that the look-up has gone has another content, and otherwise nothing is run, however much was edited in other branches.  The recorded dependencies are exactly those cells. -/
theorem C99_rerun_iff_on_the_way (rn : Name) (ss : List (LStep X R)) (ds : List (List Name × CV X R)) (h0 : LDemands fs (fun _ => none) ss ds) (purity : Bool)
    (t : TrV X) (q : Query X R) (w1 w2 : CV X R) (ns1 ns2 : List Name) (es1 es2 : List (Edit (CV X R))) (cs1 cs2 : Cells (CV X R))
    (hc1 : applyAll (fun _ => none) (ss.flatMap LStep.edits ++ es1) = some cs1) (h1 : Looks fs cs1 t q ns1 w1) (hc2 : applyAll cs1 es2 = some cs2) (h2 : Looks fs cs2 t q ns2 w2) :
    ∃ N s1 s2, (∀ n, N ≤ n →
        runSession ENV n ((ss ++ [(⟨es1, t, q⟩ : LStep X R)]).map fun s => stepProg rn s.step) (initSt purity false) = .ok (ds.map Prod.snd ++ [w1]) s1 ∧
        exec ENV n (stepProg rn ⟨es2, .given t, q⟩) s1 = .ok w2 s2) ∧
      (s2.runs = s1.runs ∨ s2.runs = ⟨.child .empty rootNm, .nominal rn⟩ :: s1.runs) ∧
      (s2.runs = s1.runs ↔ ∀ m ∈ ns1, cs2 m = cs1 m) ∧
      Adapton.Query.Deps s1 ⟨.child .empty rootNm, .nominal rn⟩ ns1 ∧ Adapton.Query.Deps s2 ⟨.child .empty rootNm, .nominal rn⟩ ns2 := by
  have hq : ∀ {cs : Cells (CV X R)} {ss : List (LStep X R)} {ds : List (List Name × CV X R)}, LDemands fs cs ss ds →
      ∃ es, Adapton.Query.Demands (lookup H opAt fs hv ha rn) cs (ss.map fun s => ⟨s.edits, .root (.given s.t) s.q⟩) es ∧ es.map Dem.res = ds.map Prod.snd := by
    intro cs ss ds h
    induction h with
    | nil => exact ⟨[], .nil, rfl⟩
    | @cons cs cs' s ss ns w ds h1 h2 _ ih =>
      obtain ⟨es, e1, e2⟩ := ih
      exact ⟨⟨.root (.given s.t) s.q, ns, w⟩ :: es, .cons h1 h2.reads rfl e1, congrArg (List.cons _) e2⟩
  obtain ⟨es, e1, e2⟩ := hq h0
  have hfm : (ss.map fun s => (⟨s.edits, .root (.given s.t) s.q⟩ : EditSession.Step (CV X R))).flatMap EditSession.Step.edits = ss.flatMap LStep.edits := by
    induction ss with
    | nil => rfl
    | cons s ss ih => simp only [List.map_cons, List.flatMap_cons] at *; rw [List.flatMap_map]
  obtain ⟨N, s1, s2, r1, r2⟩ := Adapton.Query.query_twice e1 purity ⟨.root (.given t) q, ns1, w1⟩ ⟨.root (.given t) q, ns2, w2⟩ rfl es1 es2 cs1 cs2 (by rw [hfm]; exact hc1) h1.reads hc2 h2.reads
  rw [e2] at r1
  refine ⟨N, s1, s2, fun n hN => ?_, r2⟩
  obtain ⟨a, b⟩ := r1 n hN
  refine ⟨?_, b⟩
  rw [List.map_append, List.map_map] at a
  rw [List.map_append]
  exact a

/-- What is not on the way does not matter. -/
theorem Looks.congr {cs' : Cells (CV X R)} {t : TrV X} {q : Query X R} {ns : List Name} {w : CV X R} (h : Looks fs cs t q ns w) (he : ∀ n ∈ ns, cs' n = cs n) : Looks fs cs' t q ns w := by
  have down : ∀ {t : TrV X} {i : Int} {ns : List Name} {o : Option X}, Down cs t i ns o → (∀ n ∈ ns, cs' n = cs n) → Down cs' t i ns o := by
    intro t i ns o h
    induction h with
    | nil => exact fun _ => .nil
    | leaf => exact fun _ => .leaf
    | left hi _ ih => exact fun he => .left hi (ih he)
    | right hi _ ih => exact fun he => .right hi (ih he)
    | root _ ih => exact fun he => .root (ih he)
    | name _ ih => exact fun he => .name (ih he)
    | art h1 _ ih => exact fun he => .art ((he _ (List.mem_cons_self ..)).trans h1) (ih fun n hn => he n (List.mem_cons_of_mem _ hn))
  have top : ∀ {t : TrV X} {ns : List Name} {b : Bool}, Top cs t ns b → (∀ n ∈ ns, cs' n = cs n) → Top cs' t ns b := by
    intro t ns b h
    induction h with
    | nil => exact fun _ => .nil
    | leaf => exact fun _ => .leaf
    | bin => exact fun _ => .bin
    | root _ ih => exact fun he => .root (ih he)
    | name _ ih => exact fun he => .name (ih he)
    | art h1 _ ih => exact fun he => .art ((he _ (List.mem_cons_self ..)).trans h1) (ih fun n hn => he n (List.mem_cons_of_mem _ hn))
  have elems : ∀ {t : TrV X} {ns : List Name} {es : List X}, Elems cs t ns es → (∀ n ∈ ns, cs' n = cs n) → Elems cs' t ns es := by
    intro t ns es h
    induction h with
    | nil => exact fun _ => .nil
    | leaf => exact fun _ => .leaf
    | bin _ _ ih1 ih2 => exact fun he => .bin (ih1 fun n hn => he n (List.mem_append_left _ hn)) (ih2 fun n hn => he n (List.mem_append_right _ hn))
    | root _ ih => exact fun he => .root (ih he)
    | name _ ih => exact fun he => .name (ih he)
    | art h1 _ ih => exact fun he => .art ((he _ (List.mem_cons_self ..)).trans h1) (ih fun n hn => he n (List.mem_cons_of_mem _ hn))
  cases h with
  | find h => exact .find (down h he)
  | mem h => exact .mem (down h he)
  | isEmpty h => exact .isEmpty (top h he)
  | fold h => exact .fold (elems h he)

/-- **C99.** Edits off the way run nothing: whatever is done to the other branches (they may be cut off, or become endless), the same look-up returns the same. -/
theorem C99_off_the_way_runs_nothing (rn : Name) (ss : List (LStep X R)) (ds : List (List Name × CV X R)) (h0 : LDemands fs (fun _ => none) ss ds) (purity : Bool)
    (t : TrV X) (q : Query X R) (w : CV X R) (ns : List Name) (es1 es2 : List (Edit (CV X R))) (cs1 cs2 : Cells (CV X R))
    (hc1 : applyAll (fun _ => none) (ss.flatMap LStep.edits ++ es1) = some cs1) (h1 : Looks fs cs1 t q ns w) (hc2 : applyAll cs1 es2 = some cs2) (hsame : ∀ n ∈ ns, cs2 n = cs1 n) :
    ∃ N s1 s2, (∀ n, N ≤ n →
        runSession ENV n ((ss ++ [(⟨es1, t, q⟩ : LStep X R)]).map fun s => stepProg rn s.step) (initSt purity false) = .ok (ds.map Prod.snd ++ [w]) s1 ∧
        exec ENV n (stepProg rn ⟨es2, .given t, q⟩) s1 = .ok w s2) ∧ s2.runs = s1.runs := by
  obtain ⟨N, s1, s2, r1, _, r2, _⟩ := C99_rerun_iff_on_the_way (H := H) (opAt := opAt) (hv := hv) (ha := ha) rn ss ds h0 purity t q _ _ _ _ es1 es2 cs1 cs2 hc1 h1 hc2 (h1.congr hsame)
  exact ⟨N, s1, s2, r1, r2.2 hsame⟩

/-! ### Tries that end -/

/-- The largest number of cells on a way down. -/
def cellDepth : Trie X → Nat
  | .nil _ => 0
  | .leaf _ _ => 0
  | .bin _ l r => max (cellDepth l) (cellDepth r)
  | .root _ t => cellDepth t
  | .name _ t => cellDepth t
  | .art t => cellDepth t + 1

/-- C99: on tries that can be followed everywhere this is what C80 says the queries return; and a look-up reads at most as many cells as there are on a longest way down. -/
theorem C99_agrees {t : TrV X} {u : Trie X} (h : Unfolds cs t u) (q : Query X R) (hq : ∀ nm r, q ≠ .trieFold nm r) :
    ∃ ns, Looks fs cs t q ns (answer opAt fs u q) ∧ ((∀ i r, q ≠ .fold i r) → ns.length ≤ cellDepth u) := by
  have hdown : ∀ i, ∃ ns o, Down cs t i ns o ∧ (∀ elt, TrieM.find u elt i = if o = some elt then some elt else none) ∧ ns.length ≤ cellDepth u := by
    clear hq
    induction h with
    | nil => exact fun i => ⟨[], none, .nil, fun _ => rfl, Nat.le_refl _⟩
    | @leaf bs x =>
      refine fun i => ⟨[], some x, .leaf, fun elt => ?_, Nat.le_refl _⟩
      by_cases hx : elt = x
      · subst hx; simp [TrieM.find]
      · simp only [TrieM.find]; rw [if_neg hx, if_neg (by simpa using fun h => hx h.symm)]
    | @bin bs l r l' r' _ _ ih1 ih2 =>
      intro i
      by_cases hi : i.tmod 2 = 0
      · obtain ⟨ns, o, a, b, c⟩ := ih1 (i / 2)
        exact ⟨ns, o, .left hi a, fun elt => by simp only [TrieM.find]; rw [if_pos hi]; exact b elt, Nat.le_trans c (Nat.le_max_left _ _)⟩
      · obtain ⟨ns, o, a, b, c⟩ := ih2 (i / 2)
        exact ⟨ns, o, .right hi a, fun elt => by simp only [TrieM.find]; rw [if_neg hi]; exact b elt, Nat.le_trans c (Nat.le_max_right _ _)⟩
    | root _ ih => intro i; obtain ⟨ns, o, a, b, c⟩ := ih i; exact ⟨ns, o, .root a, b, c⟩
    | name _ ih => intro i; obtain ⟨ns, o, a, b, c⟩ := ih i; exact ⟨ns, o, .name a, b, c⟩
    | art h1 _ ih => intro i; obtain ⟨ns, o, a, b, c⟩ := ih i; exact ⟨_ :: ns, o, .art h1 a, b, Nat.succ_le_succ c⟩
  have htop : ∃ ns, Top cs t ns (TrieM.isEmpty u) ∧ ns.length ≤ cellDepth u := by
    clear hq hdown
    induction h with
    | nil => exact ⟨[], .nil, Nat.le_refl _⟩
    | leaf => exact ⟨[], .leaf, Nat.le_refl _⟩
    | bin => exact ⟨[], .bin, Nat.zero_le _⟩
    | root _ ih => obtain ⟨ns, a, c⟩ := ih; exact ⟨ns, .root a, c⟩
    | name _ ih => obtain ⟨ns, a, c⟩ := ih; exact ⟨ns, .name a, c⟩
    | art h1 _ ih => obtain ⟨ns, a, c⟩ := ih; exact ⟨_ :: ns, .art h1 a, Nat.succ_le_succ c⟩
  have helems : ∃ ns es, Elems cs t ns es ∧ ∀ (i : Nat) (r : R), TrieM.fold (fs.f i) u r = es.foldl (fun r x => fs.f i x r) r := by
    clear hq hdown htop
    induction h with
    | nil => exact ⟨[], [], .nil, fun _ _ => rfl⟩
    | @leaf bs x => exact ⟨[], [x], .leaf, fun _ _ => rfl⟩
    | bin _ _ ih1 ih2 =>
      obtain ⟨ns1, es1, a1, b1⟩ := ih1
      obtain ⟨ns2, es2, a2, b2⟩ := ih2
      exact ⟨_, _, .bin a1 a2, fun i r => by rw [List.foldl_append, ← b1, ← b2]; rfl⟩
    | root _ ih => obtain ⟨ns, es, a, b⟩ := ih; exact ⟨ns, es, .root a, b⟩
    | name _ ih => obtain ⟨ns, es, a, b⟩ := ih; exact ⟨ns, es, .name a, b⟩
    | art h1 _ ih => obtain ⟨ns, es, a, b⟩ := ih; exact ⟨_ :: ns, es, .art h1 a, b⟩
  cases q with
  | find elt i =>
    obtain ⟨ns, o, a, b, c⟩ := hdown i
    refine ⟨ns, ?_, fun _ => c⟩
    simp only [answer]
    rw [b elt]
    exact .find a
  | mem elt =>
    obtain ⟨ns, o, a, b, c⟩ := hdown (fs.hash elt)
    refine ⟨ns, ?_, fun _ => c⟩
    simp only [answer]
    have : TrieM.mem fs.hash u elt = decide (o = some elt) := by
      unfold TrieM.mem
      rw [b elt]
      by_cases ho : o = some elt
      · rw [if_pos ho, decide_eq_true ho]
      · rw [if_neg ho, decide_eq_false ho]
    rw [this]
    exact .mem a
  | isEmpty =>
    obtain ⟨ns, a, c⟩ := htop
    exact ⟨ns, .isEmpty a, fun _ => c⟩
  | fold i r =>
    obtain ⟨ns, es, a, b⟩ := helems
    refine ⟨ns, ?_, fun h => absurd rfl (h i r)⟩
    simp only [answer]
    rw [b]
    exact .fold a
  | trieFold nm r => exact absurd rfl (hq nm r)
end

/-! ### An example: a trie with a cell for each branch -/

namespace Example99
open Example80 (H nm fs opAt)
abbrev V := CV Nat Nat
def e : Env V := env H opAt fs (fun _ => 0) (fun _ _ => 0)
def rn : Name := nm 0
/-- Even numbers in the cell 11, odd numbers in the cell 12. -/
def t : TrV Nat := .name (nm 1) (.art (cellAt (nm 10)))
def build : List (Edit V) := [.cell (nm 11) (.trie (.leaf ⟨1, 0⟩ 4)), .cell (nm 12) (.trie (.leaf ⟨1, 1⟩ 7)), .cell (nm 10) (.trie (.root 1 (.bin ⟨0, 0⟩ (.art (cellAt (nm 11))) (.name (nm 2) (.art (cellAt (nm 12)))))))]
/-- The branch of the even numbers becomes endless. -/
def off : List (Edit V) := [.set (nm 11) (.trie (.art (cellAt (nm 11))))]
def on : List (Edit V) := [.set (nm 12) (.trie (.leaf ⟨1, 1⟩ 9))]
def cs0 : Cells V := (applyAll (fun _ => none) build).getD fun _ => none
def cs1 : Cells V := (applyAll cs0 off).getD fun _ => none
def cs2 : Cells V := (applyAll cs1 on).getD fun _ => none

theorem fold0 : Looks fs cs0 t (.fold 1 0) [nm 10, nm 11, nm 12] (.res 11) :=
  .fold (es := [4, 7]) (.name (.art rfl (.root (.bin (ns1 := [nm 11]) (es1 := [4]) (.art rfl .leaf) (.name (.art rfl .leaf))))))
theorem mem0 : Looks fs cs0 t (.mem 7) [nm 10, nm 12] (.bool true) := .mem (o := some 7) (.name (.art rfl (.root (.right (by decide) (.name (.art rfl .leaf))))))
theorem mem2 : Looks fs cs2 t (.mem 7) [nm 10, nm 12] (.bool false) := .mem (o := some 9) (.name (.art rfl (.root (.right (by decide) (.name (.art rfl .leaf))))))

/-- The hypotheses of C99 are met: the edit of the other branch runs nothing. -/
example : ∃ N s1 s2, (∀ n, N ≤ n →
    runSession e n (([(⟨build, t, .fold 1 0⟩ : LStep Nat Nat)] ++ [(⟨[], t, .mem 7⟩ : LStep Nat Nat)]).map fun s => stepProg rn s.step) (initSt true false) = .ok ([.res 11] ++ [.bool true]) s1 ∧
    exec e n (stepProg rn ⟨off, .given t, .mem 7⟩) s1 = .ok (.bool true) s2) ∧ s2.runs = s1.runs :=
  C99_off_the_way_runs_nothing (H := H) (opAt := opAt) (hv := fun _ => 0) (ha := fun _ _ => 0) rn [⟨build, t, .fold 1 0⟩] [_] (.cons (c1 := cs0) rfl fold0 .nil) true t (.mem 7) _ _ [] off cs0 cs1 rfl mem0 rfl (by decide +kernel)

/-- Results and runs: the fold, the look-up, the look-up after the edit off the way, and after one on the way. -/
def steps : List (LStep Nat Nat) := [⟨build, t, .fold 1 0⟩, ⟨[], t, .mem 7⟩, ⟨off, t, .mem 7⟩, ⟨on, t, .mem 7⟩]
def runsAfter (k : Nat) : Option (List V × Nat) :=
  match runSession e 30 ((steps.take k).map fun s => stepProg rn s.step) (initSt true false) with
  | .ok vs s => some (vs, s.runs.length)
  | _ => none
example : [runsAfter 1, runsAfter 2, runsAfter 3, runsAfter 4] = [some ([.res 11], 1), some ([.res 11, .bool true], 2), some ([.res 11, .bool true, .bool true], 2),
    some ([.res 11, .bool true, .bool true, .bool false], 3)] := by decide +kernel
end Example99
end Adapton.TrieProg
