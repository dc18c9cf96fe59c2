import Verif.Catalog.ArithParse
import Verif.Props.Trees
/-
C103, C104: the arithmetic expressions of `catalog/arith_parse.rs`: from tokens to postfix, and from postfix to the value; from characters to tokens.
-/
set_option linter.unusedVariables false
namespace Adapton.Arith
open Adapton.Bits (chk)
open Adapton.Coll

/-! ### Specification -/

/-- Arithmetic expressions. -/
inductive Expr where
  | num (n : Int)
  | bin (o : Op) (a b : Expr)

/-- The value on `isize`: no value if something overflows or a divisor is 0.  Division rounds towards 0. -/
def Expr.value : Expr → Option Int
  | .num n => some n
  | .bin o a b =>
    match a.value, b.value with
    | some x, some y =>
      match o with
      | .plus => chk (x + y)
      | .minus => chk (x - y)
      | .times => chk (x * y)
      | .divide => if y = 0 then none else chk (x.tdiv y)
      | _ => none
    | _, _ => none

/-- The usual grammar of infix expressions.  Level 2: numbers and expressions in parentheses; level 1: products and quotients, which associate to the left; level 0: sums and differences, which
associate to the left. -/
inductive Infix : Nat → List Tok → Expr → Prop
  | num (n : Int) : Infix 2 [.num n] (.num n)
  | paren {s : List Tok} {e : Expr} : Infix 0 s e → Infix 2 (.op .parenOpen :: s ++ [.op .parenClose]) e
  | factor {s : List Tok} {e : Expr} : Infix 2 s e → Infix 1 s e
  | mul {s t : List Tok} {a b : Expr} {o : Op} : Infix 1 s a → o = .times ∨ o = .divide → Infix 2 t b → Infix 1 (s ++ .op o :: t) (.bin o a b)
  | term {s : List Tok} {e : Expr} : Infix 1 s e → Infix 0 s e
  | add {s t : List Tok} {a b : Expr} {o : Op} : Infix 0 s a → o = .plus ∨ o = .minus → Infix 1 t b → Infix 0 (s ++ .op o :: t) (.bin o a b)

/-- Postfix: the operands, then the operator. -/
def Expr.postfix_ : Expr → List Tok
  | .num n => [.num n]
  | .bin o a b => a.postfix_ ++ b.postfix_ ++ [.op o]

/-- The operators of the expression are the four operators of arithmetic. -/
def Expr.Plain : Expr → Prop
  | .num _ => True
  | .bin o a b => (o = .plus ∨ o = .minus ∨ o = .times ∨ o = .divide) ∧ a.Plain ∧ b.Plain

/-- Some beginning of the tokens has more `)` than `(`. -/
def ClosesUnopened (s : List Tok) : Prop := ∃ u v, s = u ++ v ∧ u.count (.op .parenOpen) < u.count (.op .parenClose)

/-! ### Lists stand for their elements -/

variable {X R : Type}

@[simp] theorem el_nil : (Lst.nil : Lst X).elems = [] := rfl
@[simp] theorem el_cons (x : X) (l : Lst X) : (Lst.cons x l).elems = x :: l.elems := rfl
@[simp] theorem el_name (n : Name) (l : Lst X) : (Lst.name n l).elems = l.elems := rfl
@[simp] theorem el_art (l : Lst X) : (Lst.art l).elems = l.elems := rfl
@[simp] theorem el_push (l : Lst X) (x : X) : (push l x).elems = x :: l.elems := rfl

theorem isEmpty_el (l : Lst X) : isEmpty l = true ↔ l.elems = [] := by
  induction l with
  | nil => simp [isEmpty]
  | cons x l _ => simp [isEmpty]
  | name n l ih => simpa [isEmpty] using ih
  | art l ih => simpa [isEmpty] using ih

theorem pop_nil {l : Lst X} (h : l.elems = []) : pop l = none := by
  induction l with
  | nil => rfl
  | cons x l _ => cases h
  | name n l ih => exact ih h
  | art l ih => exact ih h

theorem pop_cons {l : Lst X} {x : X} {s : List X} (h : l.elems = x :: s) : ∃ t, pop l = some (x, t) ∧ t.elems = s := by
  induction l with
  | nil => cases h
  | cons y l _ =>
    rw [el_cons] at h
    cases h
    exact ⟨l, rfl, rfl⟩
  | name n l ih => exact ih h
  | art l ih => exact ih h

/-- A fold from the left whose function skips names. -/
theorem fold_el {S : Type} (leaf : X → R → R) (bin : Nat → R → R) (name : Name → Nat → R → R) (abs : R → S) (g : X → S → S) (hl : ∀ x r, abs (leaf x r) = g x (abs r)) (hb : ∀ n r, abs (bin n r) = abs r)
    (hn : ∀ n lev r, abs (name n lev r) = abs r) (t : Tree X) (r : R) : abs (treeFoldSeq .left leaf bin name t r) = t.leaves.foldl (fun s x => g x s) (abs r) := by
  induction t generalizing r with
  | nil => rfl
  | leaf x => exact hl x r
  | bin lev a b iha ihb =>
    show abs (treeFoldSeq .left leaf bin name b (bin lev (treeFoldSeq .left leaf bin name a r))) = (elmsOf (a.items ++ b.items)).foldl _ _
    rw [ihb, hb, iha, elmsOf_append, List.foldl_append]; rfl
  | name n lev a b iha ihb =>
    show abs (treeFoldSeq .left leaf bin name b (name n lev (treeFoldSeq .left leaf bin name a r))) = (elmsOf (a.items ++ .name n :: b.items)).foldl _ _
    rw [ihb, hn, iha, elmsOf_append, List.foldl_append]; rfl
  | art t ih => exact ih r

/-! ### The loops, on lists -/

def checkRecL : List Op → Op → Bool
  | [], _ => true
  | t :: s, op => if op = .parenOpen then checkRecL s t else if precedenceCheck op t = .higher then checkRecL s t else false

theorem checkOpsRec_el (l : Lst Op) (op : Op) : checkOpsRec l op = some (checkRecL l.elems op) := by
  generalize hs : l.elems = s
  induction s generalizing l op with
  | nil => rw [checkOpsRec, if_pos ((isEmpty_el l).2 hs)]; rfl
  | cons t s ih =>
    obtain ⟨l', h1, h2⟩ := pop_cons hs
    have he : ¬ isEmpty l = true := by rw [isEmpty_el, hs]; simp
    rw [checkOpsRec, if_neg he]
    split
    · rename_i h; rw [h1] at h; cases h
    · rename_i a b h
      rw [h1] at h; cases h
      unfold checkRecL
      split
      · rw [if_pos rfl]; exact ih _ _ h2
      · rename_i hop
        rw [if_neg (by simpa using hop)]
        split
        · rename_i hp; rw [if_pos hp]; exact ih _ _ h2
        · rename_i hp; rw [if_neg (by simpa using hp)]

def checkL : List Op → Bool
  | [] => true
  | o :: s => checkRecL s o

theorem checkOps_el (l : Lst Op) : checkOps l = some (checkL l.elems) := by
  unfold checkOps
  rcases hs : l.elems with _ | ⟨o, s⟩
  · rw [if_pos ((isEmpty_el l).2 hs)]; rfl
  · have he : ¬ isEmpty l = true := by rw [isEmpty_el, hs]; simp
    obtain ⟨l', h1, h2⟩ := pop_cons hs
    rw [if_neg he, h1]
    show checkOpsRec l' o = _
    rw [checkOpsRec_el, h2]; rfl

abbrev St := List Op × List Tok
def el2 (p : Lst Op × Lst Tok) : St := (p.1.elems, p.2.elems)

def closeL : List Op → List Tok → Option St
  | [], _ => none
  | t :: s, pf => if t = .parenOpen then some (s, pf) else closeL s (.op t :: pf)

theorem closeLoop_el (l : Lst Op) (pf : Lst Tok) : (closeLoop l pf).map el2 = closeL l.elems pf.elems := by
  generalize hs : l.elems = s
  induction s generalizing l pf with
  | nil =>
    rw [closeLoop]
    split
    · rfl
    · rename_i h; rw [pop_nil hs] at h; cases h
  | cons t s ih =>
    obtain ⟨l', h1, h2⟩ := pop_cons hs
    rw [closeLoop]
    split
    · rename_i h; rw [h1] at h; cases h
    · rename_i a b h
      rw [h1] at h; cases h
      unfold closeL
      by_cases hop : t = .parenOpen
      · rw [if_pos hop, if_pos hop]; simp [el2, h2]
      · rw [if_neg hop, if_neg hop]
        exact ih _ _ h2

def opL (op : Op) : List Op → List Tok → St
  | [], pf => ([], pf)
  | t :: s, pf =>
    match precedenceCheck t op with
    | .higher => opL op s (.op t :: pf)
    | .equal => (s, .op t :: pf)
    | .lower => (t :: s, pf)

theorem opLoop_el (op : Op) (l : Lst Op) (pf : Lst Tok) : (opLoop op l pf).map el2 = some (opL op l.elems pf.elems) := by
  generalize hs : l.elems = s
  induction s generalizing l pf with
  | nil => rw [opLoop, if_pos ((isEmpty_el l).2 hs)]; simp [el2, hs, opL]
  | cons t s ih =>
    obtain ⟨l', h1, h2⟩ := pop_cons hs
    have he : ¬ isEmpty l = true := by rw [isEmpty_el, hs]; simp
    rw [opLoop, if_neg he]
    split
    · rename_i h; rw [h1] at h; cases h
    · rename_i a b h
      rw [h1] at h; cases h
      unfold opL
      split
      · rename_i hp; rw [hp]; exact ih _ _ h2
      · rename_i hp; rw [hp]; simp [el2, h2]
      · rename_i hp; rw [hp]; simp [el2, h2]

def stepL (tok : Tok) (s : St) : Option St :=
  if checkL s.1 = true then
    match tok with
    | .num n => some (s.1, .num n :: s.2)
    | .op .parenOpen => some (.parenOpen :: s.1, s.2)
    | .op .parenClose => closeL s.1 s.2
    | .op op => some (op :: (opL op s.1 s.2).1, (opL op s.1 s.2).2)
  else none

theorem postStep_el (tok : Tok) (s : Lst Op × Lst Tok) : (postStep tok s.1 s.2).map el2 = stepL tok (el2 s) := by
  obtain ⟨ops, pf⟩ := s
  unfold postStep stepL
  rw [checkOps_el]
  show Option.map el2 (if (!checkL ops.elems) = true then none else _) = if checkL ops.elems = true then _ else none
  by_cases hc : checkL ops.elems = true
  · have hgen : ∀ op : Op, Option.map el2 (if isEmpty ops then some (push ops op, pf) else (opLoop op ops pf).bind fun (ops, pf) => some (push ops op, pf)) =
        some (op :: (opL op ops.elems pf.elems).1, (opL op ops.elems pf.elems).2) := by
      intro op
      by_cases he : isEmpty ops = true
      · rw [if_pos he]
        have := (isEmpty_el ops).1 he
        simp [el2, this, opL]
      · rw [if_neg he]
        have := opLoop_el op ops pf
        rcases h : opLoop op ops pf with _ | ⟨a, b⟩
        · rw [h] at this; cases this
        · rw [h] at this
          have := Option.some.inj this
          rw [← this]
          simp [el2]
    rw [if_neg (by simp [hc]), if_pos hc]
    rcases tok with n | op
    · rfl
    · cases op
      case parenOpen => rfl
      case parenClose => exact closeLoop_el ops pf
      all_goals exact hgen _
  · rw [if_pos (by simpa using hc), if_neg hc]; rfl

def runL (ts : List Tok) (s : Option St) : Option St := ts.foldl (fun s x => s.bind (stepL x)) s

theorem runL_none (ts : List Tok) : runL ts none = none := by
  induction ts with
  | nil => rfl
  | cons t ts ih => exact ih
theorem runL_append (ts us : List Tok) (s : Option St) : runL (ts ++ us) s = runL us (runL ts s) := List.foldl_append

def flushL : List Op → List Tok → List Tok
  | [], pf => pf
  | o :: s, pf => flushL s (.op o :: pf)

theorem flushLoop_el (l : Lst Op) (pf : Lst Tok) : (flushLoop l pf).map Lst.elems = some (flushL l.elems pf.elems) := by
  generalize hs : l.elems = s
  induction s generalizing l pf with
  | nil => rw [flushLoop, if_pos ((isEmpty_el l).2 hs)]; rfl
  | cons t s ih =>
    obtain ⟨l', h1, h2⟩ := pop_cons hs
    have he : ¬ isEmpty l = true := by rw [isEmpty_el, hs]; simp
    rw [flushLoop, if_neg he]
    split
    · rename_i h; rw [h1] at h; cases h
    · rename_i a b h
      rw [h1] at h; cases h
      exact ih _ _ h2

theorem postfixOfInfix_el (H : NameHash) (t : Tree Tok) : (postfixOfInfix H t).map Lst.elems = (runL t.leaves (some ([], []))).map fun s => flushL s.1 s.2 := by
  unfold postfixOfInfix
  have h := fold_el (fun tok (r : Option (Lst Op × Lst Tok)) => r.bind fun s => postStep tok s.1 s.2) (fun _ a => a) (fun n _ r => r.map (postName H n)) (fun r => r.map el2) (fun x s => s.bind (stepL x))
    (by
      intro x r
      rcases r with _ | s
      · rfl
      · exact postStep_el x s)
    (fun _ _ => rfl)
    (by
      intro n lev r
      rcases r with _ | ⟨a, b⟩ <;> rfl) t (some (.nil, .nil))
  have h : _ = runL t.leaves (some ([], [])) := h
  rw [← h]
  rcases treeFoldSeq .left (fun tok (r : Option (Lst Op × Lst Tok)) => r.bind fun s => postStep tok s.1 s.2) (fun _ a => a) (fun n _ r => r.map (postName H n)) t (some (.nil, .nil)) with _ | ⟨a, b⟩
  · rfl
  · exact flushLoop_el a b

/-! ### Infix expressions -/

theorem checkL_cons {o t : Op} {s : List Op} (h : checkL (t :: s) = true) (hp : o = .parenOpen ∨ precedenceCheck o t = .higher) : checkL (o :: t :: s) = true := by
  show checkRecL (t :: s) o = true
  unfold checkRecL
  by_cases ho : o = .parenOpen
  · rw [if_pos ho]; exact h
  · rw [if_neg ho, if_pos (hp.resolve_left ho)]; exact h

theorem flushL_append (p r : List Op) (q : List Tok) : flushL (p ++ r) q = flushL r (flushL p q) := by
  induction p generalizing q with
  | nil => rfl
  | cons o p ih => exact ih _

/-- What the stack of operators may be at the start of an expression of each level. -/
def Base : Nat → List Op → Prop
  | 0, ops => ops = [] ∨ ∃ s, ops = .parenOpen :: s
  | 1, ops => ops = [] ∨ ∃ o s, ops = o :: s ∧ (o = .parenOpen ∨ o = .plus ∨ o = .minus)
  | _, _ => True

def PendM (p : List Op) : Prop := p = [] ∨ p = [.times] ∨ p = [.divide]

/-- What an expression of each level leaves on the stack. -/
def Pend : Nat → List Op → Prop
  | 0, p => ∃ m a, p = m ++ a ∧ PendM m ∧ (a = [] ∨ a = [.plus] ∨ a = [.minus])
  | 1, p => PendM p
  | _, p => p = []

theorem stepL_num {n : Int} {ops : List Op} {pf : List Tok} (hc : checkL ops = true) : stepL (.num n) (ops, pf) = some (ops, .num n :: pf) := by
  unfold stepL; rw [if_pos hc]
theorem stepL_open {ops : List Op} {pf : List Tok} (hc : checkL ops = true) : stepL (.op .parenOpen) (ops, pf) = some (.parenOpen :: ops, pf) := by
  unfold stepL; rw [if_pos hc]
theorem stepL_close {ops : List Op} {pf : List Tok} (hc : checkL ops = true) : stepL (.op .parenClose) (ops, pf) = closeL ops pf := by
  unfold stepL; rw [if_pos hc]
theorem stepL_op {o : Op} {ops : List Op} {pf : List Tok} (hc : checkL ops = true) (ho : o = .plus ∨ o = .minus ∨ o = .times ∨ o = .divide) :
    stepL (.op o) (ops, pf) = some (o :: (opL o ops pf).1, (opL o ops pf).2) := by
  unfold stepL; rw [if_pos hc]
  rcases ho with rfl | rfl | rfl | rfl <;> rfl

theorem closeL_flush {p : List Op} (hp : ∀ o ∈ p, o ≠ .parenOpen) (r : List Op) (q : List Tok) : closeL (p ++ .parenOpen :: r) q = some (r, flushL p q) := by
  induction p generalizing q with
  | nil => rfl
  | cons o p ih =>
    show (if o = .parenOpen then _ else _) = _
    rw [if_neg (hp o (List.mem_cons_self ..))]
    exact ih (fun x hx => hp x (List.mem_cons_of_mem _ hx)) _

theorem Pend.noOpen {p : List Op} (h : Pend 0 p) : ∀ o ∈ p, o ≠ .parenOpen := by
  obtain ⟨m, a, rfl, hm, ha⟩ := h
  rcases hm with rfl | rfl | rfl <;> rcases ha with rfl | rfl | rfl <;> simp

theorem opL_base {o : Op} (ho : o = .times ∨ o = .divide) {ops : List Op} (hb : Base 1 ops) (q : List Tok) : opL o ops q = (ops, q) := by
  rcases hb with rfl | ⟨t, s, rfl, ht⟩
  · rfl
  · rcases ho with rfl | rfl <;> rcases ht with rfl | rfl | rfl <;> rfl

theorem opL_mul {o : Op} (ho : o = .times ∨ o = .divide) {p ops : List Op} (hp : PendM p) (hb : Base 1 ops) (q : List Tok) : opL o (p ++ ops) q = (ops, flushL p q) := by
  rcases hp with rfl | rfl | rfl
  · exact opL_base ho hb q
  · rcases ho with rfl | rfl
    · rfl
    · exact opL_base (.inr rfl) hb _
  · rcases ho with rfl | rfl
    · exact opL_base (.inl rfl) hb _
    · rfl

theorem opL_add {o : Op} (ho : o = .plus ∨ o = .minus) {p ops : List Op} (hp : Pend 0 p) (hb : Base 0 ops) (q : List Tok) : opL o (p ++ ops) q = (ops, flushL p q) := by
  have h0 : ∀ q, opL o ops q = (ops, q) := by
    intro q
    rcases hb with rfl | ⟨s, rfl⟩
    · rfl
    · rcases ho with rfl | rfl <;> rfl
  obtain ⟨m, a, rfl, hm, ha⟩ := hp
  have h1 : ∀ q, opL o (a ++ ops) q = (ops, flushL a q) := by
    intro q
    rcases ha with rfl | rfl | rfl
    · exact h0 q
    · rcases ho with rfl | rfl <;> rfl
    · rcases ho with rfl | rfl <;> rfl
  rcases hm with rfl | rfl | rfl
  · exact h1 q
  · rw [flushL_append]
    rcases ho with rfl | rfl <;> exact h1 _
  · rw [flushL_append]
    rcases ho with rfl | rfl <;> exact h1 _

theorem check_mul {o : Op} (ho : o = .times ∨ o = .divide) {ops : List Op} (hc : checkL ops = true) (hb : Base 1 ops) : checkL (o :: ops) = true := by
  rcases hb with rfl | ⟨t, s, rfl, ht⟩
  · rfl
  · refine checkL_cons hc (.inr ?_)
    rcases ho with rfl | rfl <;> rcases ht with rfl | rfl | rfl <;> rfl

theorem check_add {o : Op} (ho : o = .plus ∨ o = .minus) {ops : List Op} (hc : checkL ops = true) (hb : Base 0 ops) : checkL (o :: ops) = true := by
  rcases hb with rfl | ⟨s, rfl⟩
  · rfl
  · refine checkL_cons hc (.inr ?_)
    rcases ho with rfl | rfl <;> rfl

theorem check_open {ops : List Op} (hc : checkL ops = true) : checkL (.parenOpen :: ops) = true := by
  rcases ops with _ | ⟨t, s⟩
  · rfl
  · exact checkL_cons hc (.inl rfl)

theorem infix_run {k : Nat} {s : List Tok} {e : Expr} (h : Infix k s e) : ∀ (ops : List Op) (pf : List Tok), checkL ops = true → Base k ops →
    ∃ p q, runL s (some (ops, pf)) = some (p ++ ops, q) ∧ Pend k p ∧ checkL (p ++ ops) = true ∧ flushL p q = e.postfix_.reverse ++ pf := by
  induction h with
  | num n =>
    intro ops pf hc _
    exact ⟨[], _, stepL_num hc, rfl, hc, rfl⟩
  | @paren s e _ ih =>
    intro ops pf hc _
    have hc' := check_open hc
    obtain ⟨p, q, h1, h2, h3, h4⟩ := ih (.parenOpen :: ops) pf hc' (.inr ⟨_, rfl⟩)
    refine ⟨[], flushL p q, ?_, rfl, hc, h4⟩
    rw [List.cons_append, ← List.singleton_append, runL_append]
    have : runL [Tok.op .parenOpen] (some (ops, pf)) = some (.parenOpen :: ops, pf) := stepL_open hc
    rw [this, runL_append, h1]
    show stepL (.op .parenClose) _ = _
    rw [stepL_close h3]
    exact closeL_flush h2.noOpen _ _
  | factor _ ih =>
    intro ops pf hc hb
    obtain ⟨p, q, h1, h2, h3, h4⟩ := ih ops pf hc trivial
    have h2 : p = [] := h2
    subst h2
    exact ⟨[], q, h1, .inl rfl, h3, h4⟩
  | @mul s t a b o _ ho _ ih1 ih2 =>
    intro ops pf hc hb
    obtain ⟨p, q, h1, h2, h3, h4⟩ := ih1 ops pf hc hb
    have hco := check_mul ho hc hb
    obtain ⟨p2, q2, g1, g2, g3, g4⟩ := ih2 (o :: ops) (flushL p q) hco trivial
    have g2 : p2 = [] := g2
    subst g2
    refine ⟨[o], q2, ?_, ?_, hco, ?_⟩
    · rw [← List.singleton_append (l := t), runL_append, h1, runL_append]
      have hs : runL [Tok.op o] (some (p ++ ops, q)) = some (o :: ops, flushL p q) := by
        show stepL (.op o) _ = _
        rw [stepL_op h3 (.inr (.inr ho)), opL_mul ho h2 hb]
      rw [hs, g1]; rfl
    · rcases ho with rfl | rfl
      · exact .inr (.inl rfl)
      · exact .inr (.inr rfl)
    · have g4 : q2 = _ := g4
      show Tok.op o :: q2 = _
      rw [g4, h4]
      simp [Expr.postfix_]
  | term _ ih =>
    intro ops pf hc hb
    obtain ⟨p, q, h1, h2, h3, h4⟩ := ih ops pf hc (by
      rcases hb with rfl | ⟨s, rfl⟩
      · exact .inl rfl
      · exact .inr ⟨_, _, rfl, .inl rfl⟩)
    exact ⟨p, q, h1, ⟨p, [], by simp, h2, .inl rfl⟩, h3, h4⟩
  | @add s t a b o _ ho _ ih1 ih2 =>
    intro ops pf hc hb
    obtain ⟨p, q, h1, h2, h3, h4⟩ := ih1 ops pf hc hb
    have hco := check_add ho hc hb
    obtain ⟨p2, q2, g1, g2, g3, g4⟩ := ih2 (o :: ops) (flushL p q) hco (.inr ⟨o, ops, rfl, .inr ho⟩)
    refine ⟨p2 ++ [o], q2, ?_, ⟨p2, [o], rfl, g2, ?_⟩, by simpa using g3, ?_⟩
    · rw [← List.singleton_append (l := t), runL_append, h1, runL_append]
      have hs : runL [Tok.op o] (some (p ++ ops, q)) = some (o :: ops, flushL p q) := by
        show stepL (.op o) _ = _
        rw [stepL_op h3 (by rcases ho with rfl | rfl <;> simp), opL_add ho h2 hb]
      rw [hs, g1]; simp
    · rcases ho with rfl | rfl <;> simp
    · rw [flushL_append, g4, h4]
      show Tok.op o :: _ = _
      simp [Expr.postfix_]

/-- **C103.** For a tree of tokens that reads as an infix expression, with any names in it, `postfix_of_infix` does not panic, and returns the expression in postfix, last token first. -/
theorem C103_postfix_of_infix (H : NameHash) (t : Tree Tok) (e : Expr) (h : Infix 0 t.leaves e) : ∃ l, postfixOfInfix H t = some l ∧ l.elems = e.postfix_.reverse := by
  obtain ⟨p, q, h1, _, _, h4⟩ := infix_run h [] [] rfl (.inl rfl)
  have := postfixOfInfix_el H t
  rw [h1] at this
  rcases hp : postfixOfInfix H t with _ | l
  · rw [hp] at this; cases this
  · rw [hp] at this
    have := Option.some.inj this
    refine ⟨l, rfl, ?_⟩
    rw [this, List.append_nil]
    show flushL p q = _
    rw [h4, List.append_nil]

/-! ### Evaluation -/

def evL (tok : Tok) (s : List Int) : Option (List Int) :=
  match tok with
  | .num n => some (n :: s)
  | .op o => match s with
    | x :: y :: s => (apply o y x).map (· :: s)
    | _ => none

theorem evalStep_el (tok : Tok) (l : Lst Int) : (evalStep tok l).map Lst.elems = evL tok l.elems := by
  rcases tok with n | o
  · rfl
  · have hgen : ((pop l).bind fun (x, stack) => (pop stack).bind fun (y, stack) => (apply o y x).bind fun z => some (push stack z)).map Lst.elems = evL (.op o) l.elems := by
      rcases hs : l.elems with _ | ⟨x, s⟩
      · rw [pop_nil hs]; rfl
      · obtain ⟨l1, h1, h2⟩ := pop_cons hs
        rw [h1]
        show ((pop l1).bind fun (y, stack) => (apply o y x).bind fun z => some (push stack z)).map Lst.elems = _
        rcases s with _ | ⟨y, s⟩
        · rw [pop_nil h2]; rfl
        · obtain ⟨l2, h3, h4⟩ := pop_cons h2
          rw [h3]
          show ((apply o y x).bind fun z => some (push l2 z)).map Lst.elems = (apply o y x).map (· :: s)
          rcases apply o y x with _ | z
          · rfl
          · show some (z :: l2.elems) = _
            rw [h4]; rfl
    have hnone : apply o 0 0 = none → ∀ s : List Int, evL (.op o) s = evL (.op o) s := fun _ _ => rfl
    cases o
    case parenOpen =>
      show none = evL _ _
      rcases l.elems with _ | ⟨x, _ | ⟨y, s⟩⟩ <;> rfl
    case parenClose =>
      show none = evL _ _
      rcases l.elems with _ | ⟨x, _ | ⟨y, s⟩⟩ <;> rfl
    all_goals exact hgen

def runE (ts : List Tok) (s : Option (List Int)) : Option (List Int) := ts.foldl (fun s x => s.bind (evL x)) s
theorem runE_none (ts : List Tok) : runE ts none = none := by
  induction ts with
  | nil => rfl
  | cons t ts ih => exact ih
theorem runE_append (ts us : List Tok) (s : Option (List Int)) : runE (ts ++ us) s = runE us (runE ts s) := List.foldl_append

def one : List Int → Option Int
  | [x] => some x
  | _ => none

theorem evaluatePostfix_el (t : Tree Tok) : evaluatePostfix t = (runE t.leaves (some [])).bind one := by
  unfold evaluatePostfix
  have h := fold_el (fun tok (r : Option (Lst Int)) => r.bind (evalStep tok)) (fun _ s => s) (fun n _ r => r.map (lcell n)) (fun r => r.map Lst.elems) (fun x s => s.bind (evL x))
    (by
      intro x r
      rcases r with _ | s
      · rfl
      · exact evalStep_el x s)
    (fun _ _ => rfl)
    (by
      intro n lev r
      rcases r with _ | a <;> rfl) t (some .nil)
  have h : _ = runE t.leaves (some []) := h
  rw [← h]
  rcases treeFoldSeq .left (fun tok (r : Option (Lst Int)) => r.bind (evalStep tok)) (fun _ s => s) (fun n _ r => r.map (lcell n)) t (some .nil) with _ | l
  · rfl
  · show ((pop l).bind fun (x, stack) => if isEmpty stack = true then some x else none) = one l.elems
    rcases hs : l.elems with _ | ⟨x, s⟩
    · rw [pop_nil hs]; rfl
    · obtain ⟨l1, h1, h2⟩ := pop_cons hs
      rw [h1]
      show (if isEmpty l1 = true then some x else none) = _
      rcases s with _ | ⟨y, s⟩
      · rw [if_pos ((isEmpty_el _).2 h2)]; rfl
      · rw [if_neg (by rw [isEmpty_el, h2]; simp)]; rfl

theorem value_bin {o : Op} {a b : Expr} : (Expr.bin o a b).value = a.value.bind fun x => b.value.bind fun y => apply o x y := by
  show (match a.value, b.value with | some x, some y => _ | _, _ => none) = _
  rcases a.value with _ | x
  · rfl
  · rcases b.value with _ | y
    · rfl
    · cases o <;> rfl

theorem postfix_run (e : Expr) (s : List Int) : runE e.postfix_ (some s) = e.value.map (· :: s) := by
  induction e generalizing s with
  | num n => rfl
  | bin o a b iha ihb =>
    show runE (a.postfix_ ++ b.postfix_ ++ [.op o]) _ = _
    rw [runE_append, runE_append, iha, value_bin]
    rcases ha : a.value with _ | x
    · exact (runE_none _).symm ▸ runE_none _
    · show runE [.op o] (runE b.postfix_ (some (x :: s))) = _
      rw [ihb]
      rcases hb : b.value with _ | y
      · rfl
      · rfl

/-- **C103.** For a tree of tokens that is an expression in postfix, `evaluate_postfix` returns the value of the expression, and panics if the expression has none. -/
theorem C103_evaluate_postfix (t : Tree Tok) (e : Expr) (h : t.leaves = e.postfix_) : evaluatePostfix t = e.value := by
  rw [evaluatePostfix_el, h, postfix_run]
  rcases e.value with _ | x <;> rfl

/-- The three steps, as in the tests of the source file. -/
def evalInfix (H : NameHash) (K : Hashes Tok) (l : Lst Tok) : Option Int :=
  (treeOfList K .left l).bind fun t => (postfixOfInfix H t).bind fun p => (treeOfList K .right p).bind evaluatePostfix

/-- **C103.** A list of tokens that reads as an infix expression, with any names in it, is evaluated to the value of the expression, whatever the hash functions are; there is a panic only if the
expression has no value. -/
theorem C103_infix_expressions_are_evaluated (H : NameHash) (K : Hashes Tok) (l : Lst Tok) (e : Expr) (h : Infix 0 l.elems e) : evalInfix H K l = e.value := by
  obtain ⟨t, h1, h2, _⟩ := tree_of_list_items K .left l
  have ht : t.leaves = l.elems := congrArg elmsOf (h2 rfl)
  obtain ⟨p, h3, h4⟩ := C103_postfix_of_infix H t e (by rw [ht]; exact h)
  obtain ⟨t2, h5, _, h6, _⟩ := tree_of_list_items K .right p
  have ht2 : t2.leaves = e.postfix_ := by
    have := congrArg elmsOf (h6 rfl)
    have hr : ∀ s : List (NameElse Tok), elmsOf s.reverse = (elmsOf s).reverse := by
      intro s
      induction s with
      | nil => rfl
      | cons x s ih => cases x <;> simp [elmsOf, ih]
    rw [hr] at this
    rw [show t2.leaves = _ from this, show elmsOf p.items = _ from h4, List.reverse_reverse]
  unfold evalInfix
  rw [h1]
  show (postfixOfInfix H t).bind _ = _
  rw [h3]
  show (treeOfList K .right p).bind _ = _
  rw [h5]
  exact C103_evaluate_postfix t2 e ht2

/-- Every expression over the four operators can be written. -/
theorem infix_exists (e : Expr) (h : e.Plain) : ∃ s, Infix 2 s e := by
  induction e with
  | num n => exact ⟨_, .num n⟩
  | bin o a b iha ihb =>
    obtain ⟨ho, ha, hb⟩ := h
    obtain ⟨s, hs⟩ := iha ha
    obtain ⟨t, ht⟩ := ihb hb
    rcases ho with rfl | rfl | rfl | rfl
    · exact ⟨_, .paren (.add (.term (.factor hs)) (.inl rfl) (.factor ht))⟩
    · exact ⟨_, .paren (.add (.term (.factor hs)) (.inr rfl) (.factor ht))⟩
    · exact ⟨_, .paren (.term (.mul (.factor hs) (.inl rfl) ht))⟩
    · exact ⟨_, .paren (.term (.mul (.factor hs) (.inr rfl) ht))⟩

/-! ### When `postfix_of_infix` panics -/

/-- The stack of operators fulfils the assertion and holds no `)`. -/
def Ok (ops : List Op) : Prop := checkL ops = true ∧ .parenClose ∉ ops

theorem checkL_tail {t : Op} {s : List Op} (h : checkL (t :: s) = true) : checkL s = true := by
  rcases s with _ | ⟨t', s⟩
  · rfl
  · have h : checkRecL (t' :: s) t = true := h
    unfold checkRecL at h
    split at h
    · exact h
    · split at h
      · exact h
      · cases h

theorem checkL_head {t t' : Op} {s : List Op} (h : checkL (t :: t' :: s) = true) : t = .parenOpen ∨ precedenceCheck t t' = .higher := by
  have h : checkRecL (t' :: s) t = true := h
  unfold checkRecL at h
  split at h
  · exact .inl ‹_›
  · split at h
    · exact .inr ‹_›
    · cases h

theorem Ok.tail {t : Op} {s : List Op} (h : Ok (t :: s)) : Ok s := ⟨checkL_tail h.1, fun hm => h.2 (List.mem_cons_of_mem _ hm)⟩

theorem prec_equal {o t t' : Op} (h : precedenceCheck t o = .equal) (h' : t = .parenOpen ∨ precedenceCheck t t' = .higher) : precedenceCheck o t' = .higher := by
  revert h h'
  cases o <;> cases t <;> cases t' <;> decide
theorem prec_lower {o t : Op} (ho : o = .plus ∨ o = .minus ∨ o = .times ∨ o = .divide) (ht : t ≠ .parenClose) (h : precedenceCheck t o = .lower) : precedenceCheck o t = .higher := by
  revert ho ht h
  cases o <;> cases t <;> decide
theorem prec_open {o t : Op} (ho : o = .plus ∨ o = .minus ∨ o = .times ∨ o = .divide) (h : precedenceCheck t o ≠ .lower) : t ≠ .parenOpen := by
  revert ho h
  cases o <;> cases t <;> decide

theorem opL_ok {o : Op} (ho : o = .plus ∨ o = .minus ∨ o = .times ∨ o = .divide) {ops : List Op} (h : Ok ops) (pf : List Tok) :
    Ok (o :: (opL o ops pf).1) ∧ (o :: (opL o ops pf).1).count .parenOpen = ops.count .parenOpen := by
  have hno : o ≠ .parenOpen ∧ o ≠ .parenClose := by rcases ho with rfl | rfl | rfl | rfl <;> decide
  have hmem : ∀ {s : List Op}, Op.parenClose ∉ s → Op.parenClose ∉ o :: s := by
    intro s hs hm
    rcases List.mem_cons.1 hm with hm | hm
    · exact hno.2 hm.symm
    · exact hs hm
  have hcount : ∀ s : List Op, (o :: s).count .parenOpen = s.count .parenOpen := fun s => List.count_cons_of_ne hno.1
  induction ops generalizing pf with
  | nil => exact ⟨⟨rfl, hmem (by simp [opL])⟩, hcount _⟩
  | cons t s ih =>
    unfold opL
    rcases hp : precedenceCheck t o with _ | _ | _
    · have ht := prec_open ho (by rw [hp]; simp)
      obtain ⟨h1, h2⟩ := ih h.tail (.op t :: pf)
      exact ⟨h1, by rw [List.count_cons_of_ne ht]; exact h2⟩
    · refine ⟨⟨checkL_cons h.1 (.inr (prec_lower ho (fun he => h.2 (by rw [he]; exact List.mem_cons_self ..)) hp)), hmem h.2⟩, hcount _⟩
    · have ht := prec_open ho (by rw [hp]; simp)
      refine ⟨⟨?_, hmem h.tail.2⟩, by rw [List.count_cons_of_ne ht]; exact hcount _⟩
      rcases s with _ | ⟨t', s⟩
      · rfl
      · exact checkL_cons (checkL_tail h.1) (.inr (prec_equal hp (checkL_head h.1)))

theorem closeL_ok {ops : List Op} (h : Ok ops) (pf : List Tok) : (ops.count .parenOpen = 0 → closeL ops pf = none) ∧
    ∀ c, ops.count .parenOpen = c + 1 → ∃ s, closeL ops pf = some s ∧ Ok s.1 ∧ s.1.count .parenOpen = c := by
  induction ops generalizing pf with
  | nil => exact ⟨fun _ => rfl, fun c hc => by simp at hc⟩
  | cons t s ih =>
    unfold closeL
    by_cases ht : t = .parenOpen
    · subst ht
      rw [if_pos rfl, List.count_cons_self]
      exact ⟨fun hc => by omega, fun c hc => ⟨_, rfl, h.tail, Nat.succ.inj hc⟩⟩
    · rw [if_neg ht, List.count_cons_of_ne ht]
      exact ih h.tail _

theorem runL_panic (ts : List Tok) : ∀ {ops : List Op} (pf : List Tok), Ok ops →
    (runL ts (some (ops, pf)) = none ↔ ∃ u v, ts = u ++ v ∧ ops.count .parenOpen + u.count (.op .parenOpen) < u.count (.op .parenClose)) := by
  induction ts with
  | nil =>
    intro ops pf h
    refine ⟨fun h => (by cases h), fun ⟨u, v, he, hlt⟩ => ?_⟩
    have : u = [] := (List.append_eq_nil_iff.1 he.symm).1
    subst this
    simp at hlt
  | cons t ts ih =>
    intro ops pf h
    show runL ts (stepL t (ops, pf)) = none ↔ _
    -- a step to a good state, with the number of open parentheses
    have hstep : ∀ (s : St), stepL t (ops, pf) = some s → Ok s.1 → s.1.count .parenOpen + [t].count (.op .parenClose) = ops.count .parenOpen + [t].count (.op .parenOpen) →
        (runL ts (stepL t (ops, pf)) = none ↔ ∃ u v, t :: ts = u ++ v ∧ ops.count .parenOpen + u.count (.op .parenOpen) < u.count (.op .parenClose)) := by
      rintro ⟨ops', pf'⟩ hs hok hc
      rw [hs, ih pf' hok]
      have hcons : ∀ (u : List Tok) (x : Tok), (t :: u).count x = [t].count x + u.count x := fun u x => by rw [← List.singleton_append, List.count_append]
      constructor
      · rintro ⟨u, v, rfl, hlt⟩
        refine ⟨t :: u, v, rfl, ?_⟩
        rw [hcons u (.op .parenOpen), hcons u (.op .parenClose)]
        have hlt : List.count Op.parenOpen ops' + _ < _ := hlt
        have hc : List.count Op.parenOpen ops' + _ = _ := hc
        omega
      · rintro ⟨u, v, he, hlt⟩
        rcases u with _ | ⟨x, u⟩
        · simp at hlt
        · cases he
          refine ⟨u, v, rfl, ?_⟩
          rw [hcons u (.op .parenOpen), hcons u (.op .parenClose)] at hlt
          have hc : List.count Op.parenOpen ops' + _ = _ := hc
          show List.count Op.parenOpen ops' + _ < _
          omega
    rcases t with n | o
    · exact hstep _ (stepL_num h.1) h (by simp)
    · by_cases ho : o = .plus ∨ o = .minus ∨ o = .times ∨ o = .divide
      · obtain ⟨h1, h2⟩ := opL_ok ho h pf
        refine hstep _ (stepL_op h.1 ho) h1 ?_
        rw [h2]
        rcases ho with rfl | rfl | rfl | rfl <;> simp
      · have ho : o = .parenOpen ∨ o = .parenClose := by
          cases o <;> simp at ho ⊢
        rcases ho with rfl | rfl
        · refine hstep _ (stepL_open h.1) ⟨check_open h.1, ?_⟩ ?_
          · intro hm
            rcases List.mem_cons.1 hm with hm | hm
            · cases hm
            · exact h.2 hm
          · show List.count Op.parenOpen (Op.parenOpen :: ops) + _ = _
            rw [List.count_cons_self]; simp
        · obtain ⟨h1, h2⟩ := closeL_ok h pf
          rcases hc : ops.count .parenOpen with _ | c
          · rw [stepL_close h.1, h1 hc, runL_none]
            refine ⟨fun _ => ⟨[.op .parenClose], ts, rfl, by rw [show [Tok.op .parenClose].count (.op .parenOpen) = 0 from rfl, show [Tok.op .parenClose].count (.op .parenClose) = 1 from rfl]; omega⟩, fun _ => rfl⟩
          · obtain ⟨s, h3, h4, h5⟩ := h2 c hc
            refine hstep s (by rw [stepL_close h.1, h3]) h4 ?_
            rw [h5, hc]
            simp

/-- **C103.** `postfix_of_infix` panics exactly if some `)` has no `(` before it; in particular, its assertion never fails. -/
theorem C103_postfix_panics_iff (H : NameHash) (t : Tree Tok) : postfixOfInfix H t = none ↔ ClosesUnopened t.leaves := by
  have h := runL_panic t.leaves (ops := []) [] ⟨rfl, by simp⟩
  have he := postfixOfInfix_el H t
  have h2 : postfixOfInfix H t = none ↔ runL t.leaves (some ([], [])) = none := by
    rcases hp : postfixOfInfix H t with _ | a <;> rcases hr : runL t.leaves (some ([], [])) with _ | b
    · simp
    · rw [hr, hp] at he; cases he
    · rw [hr, hp] at he; cases he
    · simp
  rw [h2, h]
  unfold ClosesUnopened
  simp

/-- The assertion never fails, whatever the tokens are: where it is evaluated, it holds. -/
theorem assertion_holds (ts : List Tok) (s : St) (h : runL ts (some ([], [])) = some s) : checkL s.1 = true := by
  have key : ∀ (ts : List Tok) (s0 s : St), Ok s0.1 → runL ts (some s0) = some s → Ok s.1 := by
    intro ts
    induction ts with
    | nil => intro s0 s h0 h; cases h; exact h0
    | cons t ts ih =>
      rintro ⟨ops, pf⟩ s h0 h
      have h : runL ts (stepL t (ops, pf)) = some s := h
      rcases hs : stepL t (ops, pf) with _ | s1
      · rw [hs, runL_none] at h; cases h
      · rw [hs] at h
        refine ih s1 s ?_ h
        rcases t with n | o
        · rw [stepL_num h0.1] at hs; cases hs; exact h0
        · by_cases ho : o = .plus ∨ o = .minus ∨ o = .times ∨ o = .divide
          · rw [stepL_op h0.1 ho] at hs; cases hs; exact (opL_ok ho h0 pf).1
          · have ho : o = .parenOpen ∨ o = .parenClose := by
              cases o <;> simp at ho ⊢
            rcases ho with rfl | rfl
            · rw [stepL_open h0.1] at hs; cases hs
              refine ⟨check_open h0.1, fun hm => ?_⟩
              rcases List.mem_cons.1 hm with hm | hm
              · cases hm
              · exact h0.2 hm
            · rw [stepL_close h0.1] at hs
              rcases hc : ops.count .parenOpen with _ | c
              · rw [(closeL_ok h0 pf).1 hc] at hs; cases hs
              · obtain ⟨s', h3, h4, _⟩ := (closeL_ok h0 pf).2 c hc
                rw [h3] at hs; cases hs; exact h4
  exact (key ts ([], []) s ⟨rfl, by simp⟩ h).1

/-- A finding: what is not infix is evaluated too.  `a b +` and `+ a b` and `a + b` are the same. -/
theorem C103_not_only_infix (H : NameHash) (t : Tree Tok) (a b : Int) (h : t.leaves = [.num a, .num b, .op .plus] ∨ t.leaves = [.op .plus, .num a, .num b]) :
    ∃ l, postfixOfInfix H t = some l ∧ l.elems = [.op .plus, .num b, .num a] := by
  have he := postfixOfInfix_el H t
  have : (runL t.leaves (some ([], []))).map (fun s => flushL s.1 s.2) = some [.op .plus, .num b, .num a] := by rcases h with h | h <;> rw [h] <;> rfl
  rw [this] at he
  rcases hp : postfixOfInfix H t with _ | l
  · rw [hp] at he; cases he
  · rw [hp] at he; exact ⟨l, rfl, Option.some.inj he⟩

end Adapton.Arith
