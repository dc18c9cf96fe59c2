import Verif.Props.Arith
/-
C104: `tok_of_char` of `catalog/arith_parse.rs`: numbers of more than two digits, and numbers that end in 0, are misread.
-/
set_option linter.unusedVariables false
namespace Adapton.Arith
open Adapton.Bits (chk I64)
open Adapton.Coll

/-! ### Specification -/

/-- How the operators and parentheses are written. -/
def opChar : Op → Char
  | .plus => '+'
  | .minus => '-'
  | .times => '*'
  | .divide => '/'
  | .parenOpen => '('
  | .parenClose => ')'

/-- How the digits are written. -/
def digitChar : Fin 10 → Char
  | 0 => '0' | 1 => '1' | 2 => '2' | 3 => '3' | 4 => '4' | 5 => '5' | 6 => '6' | 7 => '7' | 8 => '8' | 9 => '9'

/-- The characters are a spelling of the tokens; `num` says which number the digits of a number stand for.  Between two numbers stands an operator or a parenthesis. -/
inductive Spells (num : List (Fin 10) → Nat) : List Char → List Tok → Prop
  | nil : Spells num [] []
  | op {cs : List Char} {ts : List Tok} (o : Op) : Spells num cs ts → Spells num (opChar o :: cs) (.op o :: ts)
  | last {D : List (Fin 10)} : D ≠ [] → Spells num (D.map digitChar) [.num (num D)]
  | num {cs : List Char} {ts : List Tok} {D : List (Fin 10)} (o : Op) : D ≠ [] → Spells num cs ts → Spells num (D.map digitChar ++ opChar o :: cs) (.num (num D) :: .op o :: ts)

/-- The number that decimal digits stand for. -/
def decimal (D : List (Fin 10)) : Nat := D.foldl (fun a d => 10 * a + d.val) 0

/-- The number that `tok_of_char` reads: from the last digit that is not 0 and ten times the sum of all digits before it. -/
def misread (D : List (Fin 10)) : Nat :=
  match D.reverse.dropWhile (· = 0) with
  | [] => 0
  | d :: before => d.val + 10 * (before.map Fin.val).sum

/-! ### The functions, on lists -/

def readL : Int → List Char → Option Int
  | n, [] => some n
  | n, c :: s => (chk ((c.toNat : Int) - 48)).bind fun d => if n > 0 then (chk (10 * d)).bind fun t => (chk (n + t)).bind fun m => readL m s else readL d s

theorem numOfDigitsRec_el (n : Int) (l : Lst Char) : (numOfDigitsRec n l).map (fun p => (p.1, p.2.elems)) = (readL n l.elems).map fun v => (Tok.num v, ([] : List Char)) := by
  generalize hs : l.elems = s
  induction s generalizing n l with
  | nil => rw [numOfDigitsRec, if_pos ((isEmpty_el l).2 hs)]; simp [readL, hs]
  | cons c s ih =>
    obtain ⟨l', h1, h2⟩ := pop_cons hs
    have he : ¬ isEmpty l = true := by rw [isEmpty_el, hs]; simp
    rw [numOfDigitsRec, if_neg he]
    split
    · rename_i h; rw [h1] at h; cases h
    · rename_i a b h
      rw [h1] at h; cases h
      unfold readL
      rcases chk ((c.toNat : Int) - 48) with _ | d
      · rfl
      · show Option.map _ (if n > 0 then _ else _) = Option.map _ (if n > 0 then _ else _)
        by_cases hn : n > 0
        · rw [if_pos hn, if_pos hn]
          rcases chk (10 * d) with _ | t
          · rfl
          · show Option.map _ ((chk (n + t)).bind _) = Option.map _ ((chk (n + t)).bind _)
            rcases chk (n + t) with _ | m
            · rfl
            · exact ih m _ h2
        · rw [if_neg hn, if_neg hn]
          exact ih d _ h2

abbrev TSt := List Char × List Tok
def tel (p : Lst Char × Lst Tok) : TSt := (p.1.elems, p.2.elems)

def flushN (s : TSt) : Option TSt :=
  match s.1 with
  | [] => some ([], s.2)
  | c :: ds => (readL 0 (c :: ds)).map fun n => ([], .num n :: s.2)

theorem numOfDigits_el (d : Lst Char) (o : Lst Tok) : (numOfDigits d o).map tel = flushN (d.elems, o.elems) := by
  unfold numOfDigits
  rcases hs : d.elems with _ | ⟨c, s⟩
  · rw [if_pos ((isEmpty_el _).2 hs)]; simp [tel, hs, flushN]
  · rw [if_neg (by rw [isEmpty_el, hs]; simp)]
    have h := numOfDigitsRec_el 0 d
    rw [hs] at h
    show Option.map tel _ = (readL 0 (c :: s)).map _
    rcases hn : numOfDigitsRec 0 d with _ | ⟨n, d'⟩
    · rw [hn] at h
      rcases hr : readL 0 (c :: s) with _ | v
      · rfl
      · rw [hr] at h; cases h
    · rw [hn] at h
      rcases hr : readL 0 (c :: s) with _ | v
      · rw [hr] at h; cases h
      · rw [hr] at h
        have h := Option.some.inj h
        simp only [Prod.mk.injEq] at h
        show some (d'.elems, n :: o.elems) = some ([], .num v :: o.elems)
        rw [h.1, h.2]

theorem readOp_el (d : Lst Char) (o : Lst Tok) (op : Op) : (readOp d o op).map tel = (flushN (d.elems, o.elems)).map fun s => (s.1, .op op :: s.2) := by
  rw [← numOfDigits_el]
  unfold readOp transferNum
  rcases numOfDigits d o with _ | ⟨a, b⟩ <;> rfl

/-- One character. -/
def tokL (ch : Char) (s : TSt) : Option TSt := (tokStep ch (s.1.foldr (fun c l => push l c) .nil) (s.2.foldr (fun c l => push l c) .nil)).map tel

theorem foldr_push (s : List X) : (s.foldr (fun c l => push l c) (.nil : Lst X)).elems = s := by
  induction s with
  | nil => rfl
  | cons x s ih => exact congrArg (x :: ·) ih

theorem tokStep_el (ch : Char) (s : Lst Char × Lst Tok) : (tokStep ch s.1 s.2).map tel = tokL ch (tel s) := by
  obtain ⟨d, o⟩ := s
  have key : ∀ d' o', d'.elems = d.elems → o'.elems = o.elems → (tokStep ch d o).map tel = (tokStep ch d' o').map tel := by
    intro d' o' h1 h2
    have hop : ∀ op, (readOp d o op).map tel = (readOp d' o' op).map tel := fun op => by rw [readOp_el, readOp_el, h1, h2]
    unfold tokStep
    split
    all_goals first | exact hop _ | rfl | (show some (_ :: d.elems, o.elems) = some (_ :: d'.elems, o'.elems); rw [h1, h2])
  exact key _ _ (foldr_push _) (foldr_push _)

theorem tokL_op (o : Op) (s : TSt) : tokL (opChar o) s = (flushN s).map fun s => (s.1, .op o :: s.2) := by
  have h := readOp_el (s.1.foldr (fun c l => push l c) .nil) (s.2.foldr (fun c l => push l c) .nil) o
  rw [foldr_push, foldr_push] at h
  rw [← h]
  cases o <;> rfl

theorem tokL_digit (d : Fin 10) (s : TSt) : tokL (digitChar d) s = some (digitChar d :: s.1, s.2) := by
  have h1 := foldr_push s.1
  have h2 := foldr_push s.2
  have : tokL (digitChar d) s = some (digitChar d :: (s.1.foldr (fun c l => push l c) (.nil : Lst Char)).elems, (s.2.foldr (fun c l => push l c) (.nil : Lst Tok)).elems) := by
    match d with
    | 0 => rfl | 1 => rfl | 2 => rfl | 3 => rfl | 4 => rfl | 5 => rfl | 6 => rfl | 7 => rfl | 8 => rfl | 9 => rfl
  rw [this, h1, h2]

def runT (cs : List Char) (s : Option TSt) : Option TSt := cs.foldl (fun s c => s.bind (tokL c)) s
theorem runT_append (cs ds : List Char) (s : Option TSt) : runT (cs ++ ds) s = runT ds (runT cs s) := List.foldl_append

theorem tokOfChar_el (H : NameHash) (K : Hashes Tok) (t : Tree Char) : (tokOfChar H K t).map Tree.leaves = ((runT t.leaves (some ([], []))).bind flushN).map fun s => s.2.reverse := by
  unfold tokOfChar
  have h := fold_el (fun ch (r : Option (Lst Char × Lst Tok)) => r.bind fun s => tokStep ch s.1 s.2) (fun _ a => a) (fun n _ r => r.map (tokName H n)) (fun r => r.map tel) (fun x s => s.bind (tokL x))
    (by
      intro x r
      rcases r with _ | s
      · rfl
      · exact tokStep_el x s)
    (fun _ _ => rfl)
    (by
      intro n lev r
      rcases r with _ | ⟨a, b⟩ <;> rfl) t (some (.nil, .nil))
  have h : _ = runT t.leaves (some ([], [])) := h
  rw [← h]
  rcases treeFoldSeq .left (fun ch (r : Option (Lst Char × Lst Tok)) => r.bind fun s => tokStep ch s.1 s.2) (fun _ a => a) (fun n _ r => r.map (tokName H n)) t (some (.nil, .nil)) with _ | ⟨d, o⟩
  · rfl
  · show Option.map Tree.leaves ((numOfDigits d o).bind fun s => if isEmpty s.1 = true then treeOfList K .right s.2 else none) = Option.map _ (flushN (d.elems, o.elems))
    have hn := numOfDigits_el d o
    have hf : ∀ (s : TSt), flushN s = none ∨ ∃ o, flushN s = some ([], o) := by
      rintro ⟨ds, o⟩
      rcases ds with _ | ⟨c, ds⟩
      · exact .inr ⟨_, rfl⟩
      · unfold flushN
        show (readL 0 (c :: ds)).map _ = none ∨ _
        rcases hr : readL 0 (c :: ds) with _ | v
        · exact .inl rfl
        · exact .inr ⟨_, by show (readL 0 (c :: ds)).map _ = _; rw [hr]; rfl⟩
    rcases hx : numOfDigits d o with _ | ⟨d', o'⟩
    · rw [hx] at hn
      rw [← hn]; rfl
    · rw [hx] at hn
      rw [← hn]
      have hd : d'.elems = [] := by
        rcases hf (d.elems, o.elems) with h | ⟨u, h⟩
        · rw [h] at hn; cases hn
        · rw [h] at hn
          exact congrArg Prod.fst (Option.some.inj hn)
      show Option.map Tree.leaves (if isEmpty d' = true then treeOfList K .right o' else none) = some o'.elems.reverse
      rw [if_pos ((isEmpty_el _).2 hd)]
      obtain ⟨t2, h5, _, h6, _⟩ := tree_of_list_items K .right o'
      rw [h5]
      have := congrArg elmsOf (h6 rfl)
      have hr : ∀ s : List (NameElse Tok), elmsOf s.reverse = (elmsOf s).reverse := by
        intro s
        induction s with
        | nil => rfl
        | cons x s ih => cases x <;> simp [elmsOf, ih]
      rw [hr] at this
      exact congrArg some this

/-! ### Numbers -/

theorem digit_val (d : Fin 10) : chk (((digitChar d).toNat : Int) - 48) = some (d.val : Int) := by
  match d with
  | 0 => rfl | 1 => rfl | 2 => rfl | 3 => rfl | 4 => rfl | 5 => rfl | 6 => rfl | 7 => rfl | 8 => rfl | 9 => rfl

theorem chk_ok {x : Int} (h0 : 0 ≤ x) (h : x < 2 ^ 63) : chk x = some x := by
  unfold Bits.chk
  rw [if_pos]
  exact ⟨by omega, h⟩

theorem readL_cons (n : Int) (c : Char) (s : List Char) : readL n (c :: s) =
    (chk ((c.toNat : Int) - 48)).bind fun d => if n > 0 then (chk (10 * d)).bind fun t => (chk (n + t)).bind fun m => readL m s else readL d s := rfl

theorem readL_pos (D : List (Fin 10)) : ∀ (n : Nat), 0 < n → n + 90 * D.length < 2 ^ 63 → readL (n : Int) (D.map digitChar) = some ((n + 10 * (D.map Fin.val).sum : Nat) : Int) := by
  induction D with
  | nil => intro n _ _; simp [readL]
  | cons d D ih =>
    intro n hn hb
    have hd := d.isLt
    simp only [List.length_cons] at hb
    rw [List.map_cons, readL_cons, digit_val, Option.bind_some, if_pos (by omega), chk_ok (by omega) (by omega), Option.bind_some, chk_ok (by omega) (by omega), Option.bind_some]
    rw [List.map_cons, List.sum_cons]
    have := ih (n + 10 * d.val) (by omega) (by omega)
    rw [show ((n : Int) + 10 * (d.val : Int)) = ((n + 10 * d.val : Nat) : Int) by omega, this]
    congr 2
    omega

theorem readL_zero (D : List (Fin 10)) (hb : 90 * D.length + 9 < 2 ^ 63) : readL 0 (D.map digitChar) = some ((match D.dropWhile (· = 0) with | [] => 0 | d :: r => d.val + 10 * (r.map Fin.val).sum : Nat) : Int) := by
  induction D with
  | nil => rfl
  | cons d D ih =>
    simp only [List.length_cons] at hb
    have hstep : readL 0 ((d :: D).map digitChar) = readL (d.val : Int) (D.map digitChar) := by
      rw [List.map_cons, readL_cons, digit_val, Option.bind_some, if_neg (by omega)]
    rw [hstep]
    by_cases hd : d = 0
    · subst hd
      rw [List.dropWhile_cons, if_pos (by simp)]
      exact ih (by omega)
    · rw [List.dropWhile_cons, if_neg (by simpa using hd)]
      have : d.val ≠ 0 := fun h => hd (Fin.ext h)
      have := d.isLt
      exact readL_pos D d.val (by omega) (by omega)

theorem flushN_digits {D : List (Fin 10)} (hD : D ≠ []) (hb : 90 * D.length + 9 < 2 ^ 63) (out : List Tok) : flushN ((D.map digitChar).reverse, out) = some ([], .num (misread D) :: out) := by
  have h := readL_zero D.reverse (by simpa using hb)
  rw [List.map_reverse] at h
  have hne : (D.map digitChar).reverse ≠ [] := by simpa using hD
  unfold flushN
  show (match (D.map digitChar).reverse with | [] => _ | c :: ds => _) = _
  rcases hr : (D.map digitChar).reverse with _ | ⟨c, ds⟩
  · exact absurd hr hne
  · rw [hr] at h
    show (readL 0 (c :: ds)).map _ = _
    rw [h]; rfl

theorem runT_digits (D : List (Fin 10)) : ∀ (s : TSt), runT (D.map digitChar) (some s) = some ((D.map digitChar).reverse ++ s.1, s.2) := by
  induction D with
  | nil => intro s; rfl
  | cons d D ih =>
    intro s
    show runT (D.map digitChar) (tokL (digitChar d) s) = _
    rw [tokL_digit, ih]
    simp

theorem spells_run {cs : List Char} {ts : List Tok} (h : Spells misread cs ts) : 90 * cs.length + 9 < 2 ^ 63 → ∀ out, (runT cs (some ([], out))).bind flushN = some ([], ts.reverse ++ out) := by
  induction h with
  | nil => intro _ out; rfl
  | @op cs ts o _ ih =>
    intro hb out
    simp only [List.length_cons] at hb
    show (runT cs (tokL (opChar o) ([], out))).bind flushN = _
    rw [tokL_op]
    show (runT cs (some ([], .op o :: out))).bind flushN = _
    rw [ih (by omega)]
    simp
  | @last D hD =>
    intro hb out
    rw [runT_digits]
    show flushN ((D.map digitChar).reverse ++ [], out) = _
    rw [List.append_nil, flushN_digits hD (by simpa using hb)]
    rfl
  | @num cs ts D o hD _ ih =>
    intro hb out
    simp only [List.length_append, List.length_map, List.length_cons] at hb
    rw [runT_append, runT_digits]
    show (runT cs (tokL (opChar o) ((D.map digitChar).reverse ++ [], out))).bind flushN = _
    rw [List.append_nil, tokL_op, flushN_digits hD (by omega)]
    show (runT cs (some ([], .op o :: .num (misread D) :: out))).bind flushN = _
    rw [ih (by omega)]
    simp

/-- **C104.** What `tok_of_char` makes of the spelling of tokens, with any names between the characters: the tokens, in order, with `misread` numbers. -/
theorem C104_tok_of_char (H : NameHash) (K : Hashes Tok) (t : Tree Char) (ts : List Tok) (h : Spells misread t.leaves ts) (hb : t.leaves.length < 2 ^ 56) :
    ∃ t', tokOfChar H K t = some t' ∧ t'.leaves = ts := by
  have he := tokOfChar_el H K t
  rw [spells_run h (by omega)] at he
  rcases hp : tokOfChar H K t with _ | t'
  · rw [hp] at he; cases he
  · rw [hp] at he
    refine ⟨t', rfl, ?_⟩
    have := Option.some.inj he
    rw [this]; simp

/-! ### Which numbers are read correctly -/

/-- The digits from the last one on. -/
def decR : List (Fin 10) → Nat
  | [] => 0
  | d :: r => d.val + 10 * decR r
def misR (r : List (Fin 10)) : Nat :=
  match r.dropWhile (· = 0) with
  | [] => 0
  | d :: before => d.val + 10 * (before.map Fin.val).sum

theorem decimal_snoc (D : List (Fin 10)) : decimal D = decR D.reverse := by
  have h : ∀ (r : List (Fin 10)), decimal r.reverse = decR r := by
    intro r
    induction r with
    | nil => rfl
    | cons d r ih =>
      unfold decimal at ih ⊢
      rw [List.reverse_cons, List.foldl_append, ih]
      show 10 * decR r + d.val = d.val + 10 * decR r
      omega
  rw [← h, List.reverse_reverse]

theorem sum_le (r : List (Fin 10)) : (r.map Fin.val).sum ≤ decR r := by
  induction r with
  | nil => exact Nat.le_refl _
  | cons d r ih =>
    rw [List.map_cons, List.sum_cons]
    show _ ≤ d.val + 10 * decR r
    omega

theorem misR_zero (r : List (Fin 10)) : misR (0 :: r) = misR r := by
  unfold misR
  rw [List.dropWhile_cons, if_pos (by simp)]
theorem misR_pos {d : Fin 10} (hd : d ≠ 0) (r : List (Fin 10)) : misR (d :: r) = d.val + 10 * (r.map Fin.val).sum := by
  unfold misR
  rw [List.dropWhile_cons, if_neg (by simpa using hd)]

theorem misR_le (r : List (Fin 10)) : misR r ≤ decR r := by
  induction r with
  | nil => exact Nat.le_refl _
  | cons d r ih =>
    by_cases hd : d = 0
    · subst hd
      rw [misR_zero]
      show _ ≤ 0 + 10 * decR r
      omega
    · rw [misR_pos hd]
      have := sum_le r
      show _ ≤ d.val + 10 * decR r
      omega

theorem sum_eq (r : List (Fin 10)) : (r.map Fin.val).sum = decR r ↔ decR r < 10 := by
  rcases r with _ | ⟨d, r⟩
  · exact ⟨fun _ => (by show 0 < 10; omega), fun _ => rfl⟩
  · rw [List.map_cons, List.sum_cons]
    have h1 := sum_le r
    have h2 := d.isLt
    show _ = d.val + 10 * decR r ↔ d.val + 10 * decR r < 10
    omega

theorem misR_eq (r : List (Fin 10)) : misR r = decR r ↔ decR r = 0 ∨ (decR r < 100 ∧ decR r % 10 ≠ 0) := by
  induction r with
  | nil => exact ⟨fun _ => .inl rfl, fun _ => rfl⟩
  | cons d r ih =>
    have h1 := sum_eq r
    have h2 := sum_le r
    have h3 := misR_le r
    have h4 := d.isLt
    by_cases hd : d = 0
    · subst hd
      rw [misR_zero]
      show _ = 0 + 10 * decR r ↔ 0 + 10 * decR r = 0 ∨ (0 + 10 * decR r < 100 ∧ (0 + 10 * decR r) % 10 ≠ 0)
      omega
    · have h5 : d.val ≠ 0 := fun h => hd (Fin.ext h)
      rw [misR_pos hd]
      show _ = d.val + 10 * decR r ↔ d.val + 10 * decR r = 0 ∨ (d.val + 10 * decR r < 100 ∧ (d.val + 10 * decR r) % 10 ≠ 0)
      omega

/-- **C104.** Digits are read correctly exactly if they stand for 0 or for a number below 100 that is not a multiple of 10. -/
theorem C104_number_is_right_iff (D : List (Fin 10)) : misread D = decimal D ↔ decimal D = 0 ∨ (decimal D < 100 ∧ decimal D % 10 ≠ 0) := by
  rw [decimal_snoc]; exact misR_eq D.reverse

/-- A misread number is too small. -/
theorem C104_misread_le (D : List (Fin 10)) : misread D ≤ decimal D := by
  rw [decimal_snoc]; exact misR_le D.reverse

def Fine (n : Nat) : Prop := n = 0 ∨ (n < 100 ∧ n % 10 ≠ 0)

theorem spells_both {cs : List Char} {ts : List Tok} (h : Spells decimal cs ts) : ∃ ts', Spells misread cs ts' ∧ (ts' = ts ↔ ∀ n : Nat, Tok.num n ∈ ts → Fine n) := by
  induction h with
  | nil => exact ⟨[], .nil, by simp⟩
  | op o _ ih =>
    obtain ⟨ts', h1, h2⟩ := ih
    refine ⟨_, .op o h1, ?_⟩
    simp only [List.cons.injEq, true_and, List.mem_cons, h2, reduceCtorEq, false_or]
  | @last D hD =>
    refine ⟨_, .last hD, ?_⟩
    have := C104_number_is_right_iff D
    constructor
    · intro he n hn
      have he : (misread D : Int) = decimal D := by simpa using he
      have hn : (n : Int) = decimal D := by simpa using hn
      rw [show n = decimal D by omega]
      exact this.1 (by omega)
    · intro hf
      have := this.2 (hf _ (List.mem_singleton.2 rfl))
      rw [this]
  | @num cs ts D o hD _ ih =>
    obtain ⟨ts', h1, h2⟩ := ih
    refine ⟨_, .num o hD h1, ?_⟩
    have := C104_number_is_right_iff D
    constructor
    · intro he n hn
      have h3 : (misread D : Int) = decimal D ∧ ts' = ts := by simpa using he
      have h4 : (n : Int) = decimal D ∨ Tok.num n ∈ ts := by simpa using hn
      rcases h4 with h4 | h4
      · rw [show n = decimal D by omega]
        exact this.1 (by omega)
      · exact h2.1 h3.2 n h4
    · intro hf
      have h3 := this.2 (hf _ (List.mem_cons_self ..))
      rw [h3, h2.2 fun n hn => hf n (List.mem_cons_of_mem _ (List.mem_cons_of_mem _ hn))]

/-- **C104.** A spelling of tokens is read as these tokens exactly if every number among them is 0 or a number below 100 that is not a multiple of 10; there is no panic in any case. -/
theorem C104_tokens_are_right_iff (H : NameHash) (K : Hashes Tok) (t : Tree Char) (ts : List Tok) (h : Spells decimal t.leaves ts) (hb : t.leaves.length < 2 ^ 56) :
    ∃ t', tokOfChar H K t = some t' ∧ (t'.leaves = ts ↔ ∀ n : Nat, Tok.num n ∈ ts → n = 0 ∨ (n < 100 ∧ n % 10 ≠ 0)) := by
  obtain ⟨ts', h1, h2⟩ := spells_both h
  obtain ⟨t', h3, rfl⟩ := C104_tok_of_char H K t ts' h1 hb
  exact ⟨t', h3, h2⟩

/-- All steps, as in the last test of the source file. -/
def evalChars (H : NameHash) (KC : Hashes Char) (K : Hashes Tok) (l : Lst Char) : Option Int :=
  (treeOfList KC .left l).bind fun t => (tokOfChar H K t).bind fun t => (postfixOfInfix H t).bind fun p => (treeOfList K .right p).bind evaluatePostfix

theorem eval_tree (H : NameHash) (K : Hashes Tok) (t : Tree Tok) (e : Expr) (h : Infix 0 t.leaves e) : ((postfixOfInfix H t).bind fun p => (treeOfList K .right p).bind evaluatePostfix) = e.value := by
  obtain ⟨p, h3, h4⟩ := C103_postfix_of_infix H t e h
  obtain ⟨t2, h5, _, h6, _⟩ := tree_of_list_items K .right p
  have ht2 : t2.leaves = e.postfix_ := by
    have := congrArg elmsOf (h6 rfl)
    have hr : ∀ s : List (NameElse Tok), elmsOf s.reverse = (elmsOf s).reverse := by
      intro s
      induction s with
      | nil => rfl
      | cons x s ih => cases x <;> simp [elmsOf, ih]
    rw [hr] at this
    rw [show t2.leaves = _ from this, show elmsOf p.items = _ from h4, List.reverse_reverse]
  rw [h3]
  show (treeOfList K .right p).bind _ = _
  rw [h5]
  exact C103_evaluate_postfix t2 e ht2

/-- **C104.** A string that spells an infix expression, in which every number is 0 or below 100 and not a multiple of 10, is evaluated to the value of the expression. -/
theorem C104_strings_are_evaluated (H : NameHash) (KC : Hashes Char) (K : Hashes Tok) (l : Lst Char) (ts : List Tok) (e : Expr) (h : Spells decimal l.elems ts) (hi : Infix 0 ts e)
    (hf : ∀ n : Nat, Tok.num n ∈ ts → n = 0 ∨ (n < 100 ∧ n % 10 ≠ 0)) (hb : l.elems.length < 2 ^ 56) : evalChars H KC K l = e.value := by
  obtain ⟨t, h1, h2, _⟩ := tree_of_list_items KC .left l
  have ht : t.leaves = l.elems := congrArg elmsOf (h2 rfl)
  obtain ⟨t', h3, h4⟩ := C104_tokens_are_right_iff H K t ts (by rw [ht]; exact h) (by rw [ht]; exact hb)
  unfold evalChars
  rw [h1]
  show (tokOfChar H K t).bind _ = _
  rw [h3]
  exact eval_tree H K t' e (by rw [h4.2 hf]; exact hi)

/-- **C104 is violated.** A single number, in its decimal spelling, evaluates to itself exactly if it is 0 or below 100 and not a multiple of 10. -/
theorem C104_single_number (H : NameHash) (KC : Hashes Char) (K : Hashes Tok) (l : Lst Char) (D : List (Fin 10)) (hD : D ≠ []) (hl : l.elems = D.map digitChar) (hb : D.length < 2 ^ 56) :
    evalChars H KC K l = some (misread D : Int) := by
  obtain ⟨t, h1, h2, _⟩ := tree_of_list_items KC .left l
  have ht : t.leaves = l.elems := congrArg elmsOf (h2 rfl)
  obtain ⟨t', h3, h4⟩ := C104_tok_of_char H K t [.num (misread D)] (by rw [ht, hl]; exact .last hD) (by rw [ht, hl]; simpa using hb)
  unfold evalChars
  rw [h1]
  show (tokOfChar H K t).bind _ = _
  rw [h3]
  exact eval_tree H K t' (.num (misread D)) (by rw [h4]; exact .term (.factor (.num _)))

/-! ### Examples -/

/-- `10` is read as 1, `123` as 33, `100` as 1; `23` and `07` are read correctly. -/
example : misread [1, 0] = 1 ∧ misread [1, 2, 3] = 33 ∧ misread [1, 0, 0] = 1 ∧ misread [2, 3] = 23 ∧ misread [0, 7] = 7 := by decide

/-- `2*(23-3)`, the string of `test_tok_of_char`. -/
def exTokens : List Tok := [.num 2, .op .times, .op .parenOpen, .num 23, .op .minus, .num 3, .op .parenClose]
def exExpr : Expr := .bin .times (.num 2) (.bin .minus (.num 23) (.num 3))
theorem ex_spells : Spells decimal ['2', '*', '(', '2', '3', '-', '3', ')'] exTokens :=
  .num (D := [2]) .times (by simp) (.op .parenOpen (.num (D := [2, 3]) .minus (by simp) (.num (D := [3]) .parenClose (by simp) .nil)))
theorem ex_infix : Infix 0 exTokens exExpr :=
  .term (.mul (s := [.num 2]) (.factor (.num 2)) (.inl rfl) (.paren (s := [.num 23, .op .minus, .num 3]) (.add (s := [.num 23]) (.term (.factor (.num 23))) (.inr rfl) (.factor (.num 3)))))
example (H : NameHash) (KC : Hashes Char) (K : Hashes Tok) : evalChars H KC K (.cons '2' (.cons '*' (.name nameUnit (.cons '(' (.cons '2' (.cons '3' (.cons '-' (.cons '3' (.cons ')' .nil))))))))) = some 40 := by
  refine C104_strings_are_evaluated H KC K _ exTokens exExpr ex_spells ex_infix ?_ (by decide)
  intro n hn
  have : n = 2 ∨ n = 23 ∨ n = 3 := by simp [exTokens] at hn; omega
  rcases this with rfl | rfl | rfl <;> simp
/-- A number of two digits that ends in 0. -/
example (H : NameHash) (KC : Hashes Char) (K : Hashes Tok) : evalChars H KC K (.cons '1' (.cons '0' .nil)) = some 1 :=
  C104_single_number H KC K _ [1, 0] (by simp) rfl (by decide)
/-- Products before sums, and from the left: `1 - 2 * 3 - 4`. -/
example (H : NameHash) (K : Hashes Tok) : evalInfix H K (.cons (.num 1) (.cons (.op .minus) (.cons (.num 2) (.cons (.op .times) (.cons (.num 3) (.cons (.op .minus) (.cons (.num 4) .nil))))))) = some (-9) :=
  C103_infix_expressions_are_evaluated H K _ (.bin .minus (.bin .minus (.num 1) (.bin .times (.num 2) (.num 3))) (.num 4))
    (.add (s := [.num 1, .op .minus, .num 2, .op .times, .num 3]) (.add (s := [.num 1]) (.term (.factor (.num 1))) (.inr rfl) (.mul (s := [.num 2]) (.factor (.num 2)) (.inl rfl) (.num 3))) (.inr rfl) (.factor (.num 4)))
/-- A division by 0, and an unopened parenthesis. -/
example (H : NameHash) (K : Hashes Tok) : evalInfix H K (.cons (.num 1) (.cons (.op .divide) (.cons (.num 0) .nil))) = none :=
  C103_infix_expressions_are_evaluated H K _ (.bin .divide (.num 1) (.num 0)) (.term (.mul (s := [.num 1]) (.factor (.num 1)) (.inr rfl) (.num 0)))
example : ClosesUnopened [.num 1, .op .parenClose, .op .parenOpen] := ⟨[.num 1, .op .parenClose], _, rfl, by decide⟩
example : ¬ ClosesUnopened [.op .parenOpen, .num 1] := by
  rintro ⟨u, v, he, hlt⟩
  have h : (Tok.op .parenClose) ∈ u := List.count_pos_iff.1 (by omega)
  have : (Tok.op .parenClose) ∈ u ++ v := List.mem_append_left _ h
  rw [← he] at this
  simp at this

end Adapton.Arith
