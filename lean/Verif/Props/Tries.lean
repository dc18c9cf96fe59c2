import Verif.Catalog.Trie
import Verif.Props.BitStrings
import Verif.Props.Lists
/-
C46, C52: tries.
-/
namespace Adapton.TrieM
open Adapton.Bits Adapton.Coll
variable {X R : Type}

/-- The elements of a trie, from left to right. -/
def Trie.elems : Trie X → List X
  | .nil _ => []
  | .leaf _ x => [x]
  | .bin _ l r => l.elems ++ r.elems
  | .root _ t => t.elems
  | .name _ t => t.elems
  | .art t => t.elems

/-- `e` is stored in the trie at the end of the path given by the bits (`false`: left, `true`: right). -/
inductive StoredAt : Trie X → List Bool → X → Prop
  | leaf {bs x} : StoredAt (.leaf bs x) [] x
  | left {bs l r p x} : StoredAt l p x → StoredAt (.bin bs l r) (false :: p) x
  | right {bs l r p x} : StoredAt r p x → StoredAt (.bin bs l r) (true :: p) x
  | root {m t p x} : StoredAt t p x → StoredAt (.root m t) p x
  | name {n t p x} : StoredAt t p x → StoredAt (.name n t) p x
  | art {t p x} : StoredAt t p x → StoredAt (.art t) p x

theorem mem_elems_iff (t : Trie X) (e : X) : e ∈ t.elems ↔ ∃ p, StoredAt t p e := by
  constructor
  · intro h
    induction t with
    | nil bs => cases h
    | leaf bs x => simp [Trie.elems] at h; subst h; exact ⟨[], .leaf⟩
    | bin bs l r ihl ihr =>
      simp only [Trie.elems, List.mem_append] at h
      rcases h with h | h
      · obtain ⟨p, hp⟩ := ihl h; exact ⟨_, .left hp⟩
      · obtain ⟨p, hp⟩ := ihr h; exact ⟨_, .right hp⟩
    | root m t ih => obtain ⟨p, hp⟩ := ih h; exact ⟨_, .root hp⟩
    | name m t ih => obtain ⟨p, hp⟩ := ih h; exact ⟨_, .name hp⟩
    | art t ih => obtain ⟨p, hp⟩ := ih h; exact ⟨_, .art hp⟩
  · rintro ⟨p, h⟩
    induction h with
    | leaf => simp [Trie.elems]
    | left _ ih => simp [Trie.elems, ih]
    | right _ ih => simp [Trie.elems, ih]
    | root _ ih => exact ih
    | name _ ih => exact ih
    | art _ ih => exact ih

theorem tmod_two (i : Int) : i.tmod 2 = 0 ↔ bit i 0 = false := by
  have e : (i.tmod 2).natAbs = i.natAbs % 2 := Int.natAbs_tmod i 2
  simp only [bit, Int.pow_zero, Int.ediv_one, decide_eq_false_iff_not]
  omega

theorem bit_half (i : Int) (k : Nat) : bit (i / 2) k = bit i (k + 1) := by
  have := ediv_split i (show 1 ≤ k + 1 by omega)
  simp only [Int.pow_one, Nat.add_sub_cancel] at this
  rw [bit, bit, this]

/-- The path follows the low bits of `i`. -/
def Follows (p : List Bool) (i : Int) : Prop := ∀ k, (h : k < p.length) → p[k] = bit i k

theorem follows_cons (b : Bool) (p : List Bool) (i : Int) : Follows (b :: p) i ↔ b = bit i 0 ∧ Follows p (i / 2) := by
  constructor
  · intro h
    refine ⟨h 0 (by simp), fun k hk => ?_⟩
    have := h (k + 1) (by simp; omega)
    rw [bit_half]
    simpa using this
  · rintro ⟨h1, h2⟩ k hk
    match k with
    | 0 => exact h1
    | k + 1 =>
      have := h2 k (by simp at hk; omega)
      rw [bit_half] at this
      simpa using this

/-- C46: `find(t, e, i)` returns `e` exactly when `e` is stored on a path that follows the bits of `i` from the lowest one up; and
it never returns anything else. -/
theorem find_iff [DecidableEq X] (t : Trie X) (e : X) (i : Int) :
    (find t e i = some e ↔ ∃ p, StoredAt t p e ∧ Follows p i) ∧ (∀ x, find t e i = some x → x = e) := by
  induction t generalizing i with
  | nil bs => exact ⟨⟨(fun h => by cases h), (fun ⟨p, h, _⟩ => by cases h)⟩, (fun x h => by cases h)⟩
  | leaf bs y =>
    simp only [find]
    by_cases h : e = y
    · subst h
      rw [if_pos rfl]
      exact ⟨⟨fun _ => ⟨[], .leaf, fun k hk => by cases hk⟩, fun _ => rfl⟩, fun x hx => by cases hx; rfl⟩
    · rw [if_neg h]
      exact ⟨⟨(fun h' => by cases h'), (fun ⟨p, h', _⟩ => by cases h'; exact absurd rfl h)⟩, (fun x hx => by cases hx)⟩
  | bin bs l r ihl ihr =>
    simp only [find]
    by_cases h : i.tmod 2 = 0
    · rw [if_pos h]
      have hb := (tmod_two i).1 h
      refine ⟨(ihl (i / 2)).1.trans ⟨?_, ?_⟩, (ihl (i / 2)).2⟩
      · rintro ⟨p, hp, hf⟩; exact ⟨_, .left hp, (follows_cons _ _ _).2 ⟨hb.symm, hf⟩⟩
      · rintro ⟨p, hp, hf⟩
        cases hp with
        | left hp => exact ⟨_, hp, ((follows_cons _ _ _).1 hf).2⟩
        | right hp => rw [((follows_cons _ _ _).1 hf).1.symm] at hb; cases hb
    · rw [if_neg h]
      have hb : bit i 0 = true := by
        rcases hb : bit i 0 with _ | _
        · exact absurd ((tmod_two i).2 hb) h
        · rfl
      refine ⟨(ihr (i / 2)).1.trans ⟨?_, ?_⟩, (ihr (i / 2)).2⟩
      · rintro ⟨p, hp, hf⟩; exact ⟨_, .right hp, (follows_cons _ _ _).2 ⟨hb.symm, hf⟩⟩
      · rintro ⟨p, hp, hf⟩
        cases hp with
        | right hp => exact ⟨_, hp, ((follows_cons _ _ _).1 hf).2⟩
        | left hp => rw [((follows_cons _ _ _).1 hf).1.symm] at hb; cases hb
  | root m t ih =>
    refine ⟨(ih i).1.trans ⟨fun ⟨p, hp, hf⟩ => ⟨p, .root hp, hf⟩, fun ⟨p, hp, hf⟩ => ?_⟩, (ih i).2⟩
    cases hp with | root hp => exact ⟨p, hp, hf⟩
  | name m t ih =>
    refine ⟨(ih i).1.trans ⟨fun ⟨p, hp, hf⟩ => ⟨p, .name hp, hf⟩, fun ⟨p, hp, hf⟩ => ?_⟩, (ih i).2⟩
    cases hp with | name hp => exact ⟨p, hp, hf⟩
  | art t ih =>
    refine ⟨(ih i).1.trans ⟨fun ⟨p, hp, hf⟩ => ⟨p, .art hp, hf⟩, fun ⟨p, hp, hf⟩ => ?_⟩, (ih i).2⟩
    cases hp with | art hp => exact ⟨p, hp, hf⟩

/-- Every leaf sits where the hash of its element says, and carries the bit string of its position: `d` bits, with value `p`. -/
def Placed (hash : X → Int) : Trie X → Nat → Int → Prop
  | .nil _, _, _ => True
  | .leaf bs e, d, p => bs = ⟨d, p⟩ ∧ hash e % 2 ^ d = p
  | .bin _ l r, d, p => Placed hash l (d + 1) p ∧ Placed hash r (d + 1) (p + 2 ^ d)
  | .root _ t, d, p => Placed hash t d p
  | .name _ t, d, p => Placed hash t d p
  | .art t, d, p => Placed hash t d p

theorem emod_succ (x : Int) (d : Nat) : x % 2 ^ (d + 1) = x % 2 ^ d + (if bit x d then 2 ^ d else 0) := by
  have hP := two_pow_pos d
  have h1 := Int.mul_ediv_add_emod x (2 ^ d)
  have h0 := Int.emod_nonneg x (Int.ne_of_gt hP)
  have h2 := Int.emod_lt_of_pos x hP
  have h3 := Int.mul_ediv_add_emod (x / 2 ^ d) 2
  have e : x = (x % 2 ^ d + 2 ^ d * (x / 2 ^ d % 2)) + 2 ^ (d + 1) * (x / 2 ^ d / 2) := by
    rw [Int.pow_succ]
    conv => lhs; rw [← h1, ← h3]
    rw [Int.mul_add, ← Int.mul_assoc]
    omega
  conv => lhs; rw [e]
  rw [Int.add_mul_emod_self_left]
  have hm : x / 2 ^ d % 2 = 0 ∨ x / 2 ^ d % 2 = 1 := by omega
  unfold bit
  rw [Int.emod_eq_of_lt]
  · rcases hm with hm | hm <;> simp [hm]
  · rcases hm with hm | hm <;> rw [hm] <;> omega
  · rw [Int.pow_succ]
    rcases hm with hm | hm <;> rw [hm] <;> omega

theorem placed_prefix {hash : X → Int} {t : Trie X} {d : Nat} {p : Int} (h : Placed hash t d p) (h0 : 0 ≤ p) (h1 : p < 2 ^ d)
    {e : X} (he : e ∈ t.elems) : hash e % 2 ^ d = p := by
  induction t generalizing d p with
  | nil bs => cases he
  | leaf bs x => simp [Trie.elems] at he; subst he; exact h.2
  | bin bs l r ihl ihr =>
    have hP := two_pow_pos d
    have hq0 := Int.emod_nonneg (hash e) (Int.ne_of_gt hP)
    have hq1 := Int.emod_lt_of_pos (hash e) hP
    simp only [Trie.elems, List.mem_append] at he
    rcases he with he | he
    · have := ihl h.1 h0 (by rw [Int.pow_succ]; omega) he
      rw [emod_succ] at this
      split at this <;> omega
    · have := ihr h.2 (by omega) (by rw [Int.pow_succ]; omega) he
      rw [emod_succ] at this
      split at this <;> omega
  | root m t ih => exact ih h h0 h1 he
  | name m t ih => exact ih h h0 h1 he
  | art t ih => exact ih h h0 h1 he

theorem placed_bit {hash : X → Int} {l r : Trie X} {bs d p} (h : Placed hash (.bin bs l r) d p) (h0 : 0 ≤ p) (h1 : p < 2 ^ d) {e : X} :
    (e ∈ l.elems → bit (hash e) d = false) ∧ (e ∈ r.elems → bit (hash e) d = true) := by
  have hP := two_pow_pos d
  have hq0 := Int.emod_nonneg (hash e) (Int.ne_of_gt hP)
  have hq1 := Int.emod_lt_of_pos (hash e) hP
  constructor
  · intro he
    have := placed_prefix h.1 h0 (by rw [Int.pow_succ]; omega) he
    rw [emod_succ] at this
    rcases hb : bit (hash e) d with _ | _
    · rfl
    · rw [hb] at this; simp only [if_true] at this; omega
  · intro he
    have := placed_prefix h.2 (by omega) (by rw [Int.pow_succ]; omega) he
    rw [emod_succ] at this
    rcases hb : bit (hash e) d with _ | _
    · rw [hb] at this; simp at this; omega
    · rfl

/-- C46: in a trie whose leaves sit where their hashes say, looking up finds exactly the stored elements. -/
theorem find_placed [DecidableEq X] (hash : X → Int) (t : Trie X) (d : Nat) (p : Int) (h : Placed hash t d p) (h0 : 0 ≤ p)
    (h1 : p < 2 ^ d) (e : X) : find t e (hash e / 2 ^ d) = some e ↔ e ∈ t.elems := by
  constructor
  · intro hf
    obtain ⟨q, hq, _⟩ := (find_iff t e _).1.1 hf
    exact (mem_elems_iff t e).2 ⟨q, hq⟩
  · intro he
    induction t generalizing d p with
    | nil bs => cases he
    | leaf bs x => simp [Trie.elems] at he; subst he; simp [find]
    | bin bs l r ihl ihr =>
      have hP := two_pow_pos d
      have hdiv : hash e / 2 ^ d / 2 = hash e / 2 ^ (d + 1) := by
        rw [Int.ediv_ediv_of_nonneg (Int.le_of_lt hP), Int.pow_succ]
      have hbit : bit (hash e / 2 ^ d) 0 = bit (hash e) d := by simp [bit]
      have hb := placed_bit h h0 h1 (e := e)
      simp only [find, hdiv]
      simp only [Trie.elems, List.mem_append] at he
      rcases he with he | he
      · rw [if_pos ((tmod_two _).2 (by rw [hbit, hb.1 he]))]
        exact ihl _ _ h.1 h0 (by rw [Int.pow_succ]; omega) he
      · rw [if_neg (fun hc => by rw [tmod_two, hbit, hb.2 he] at hc; cases hc)]
        exact ihr _ _ h.2 (by omega) (by rw [Int.pow_succ]; omega) he
    | root m t ih => exact ih d p h h0 h1 he
    | name m t ih => exact ih d p h h0 h1 he
    | art t ih => exact ih d p h h0 h1 he

/-- C46: `mem` on such a trie: exactly the stored elements. -/
theorem mem_placed [DecidableEq X] (hash : X → Int) (t : Trie X) (h : Placed hash t 0 0) (e : X) :
    mem hash t e = true ↔ e ∈ t.elems := by
  rw [← find_placed hash t 0 0 h (by decide) (by decide) e]
  simp only [Int.pow_zero, Int.ediv_one]
  unfold mem
  rcases hf : find t e (hash e) with _ | x
  · simp
  · have := (find_iff t e _).2 x hf
    subst this; simp

/-- C46: an absent element is never found, wherever the leaves sit. -/
theorem find_absent [DecidableEq X] (t : Trie X) (e : X) (i : Int) (h : e ∉ t.elems) : find t e i = none := by
  rcases hf : find t e i with _ | x
  · rfl
  · have := (find_iff t e i).2 x hf
    subst this
    obtain ⟨q, hq, _⟩ := (find_iff t x i).1.1 hf
    exact absurd ((mem_elems_iff t x).2 ⟨q, hq⟩) h

theorem iand_self_iff (v k : Int) (hv : I64 v) : iand v k = v ↔ ∀ j, j < 64 → bit v j = true → bit k j = true := by
  unfold iand
  constructor
  · intro h j hj hb
    have h' : BitVec.ofInt 64 v &&& BitVec.ofInt 64 k = BitVec.ofInt 64 v := by
      rw [← BitVec.toInt_inj, h, toInt_ofInt64 hv]
    have := congrArg (fun w => w.getLsbD j) h'
    simp only [BitVec.getLsbD_and, bit_ofInt _ hj, hb, Bool.true_and] at this
    exact this
  · intro h
    have h' : BitVec.ofInt 64 v &&& BitVec.ofInt 64 k = BitVec.ofInt 64 v := by
      apply BitVec.eq_of_getLsbD_eq
      intro j hj
      rw [BitVec.getLsbD_and, bit_ofInt _ hj, bit_ofInt _ hj]
      rcases hb : bit v j with _ | _
      · rfl
      · rw [h j hj hb]; rfl
    rw [h', toInt_ofInt64 hv]

/-- C46: `split_atomic` of a well-placed leaf (at a depth up to 62, which includes `MAX_LEN`) succeeds: it keeps the element,
stays well-placed, and the element is still found. -/
theorem split_atomic_leaf [DecidableEq X] (hash : X → Int) (bs : BS) (e : X) (d : Nat) (p : Int) (hd : d ≤ 62)
    (h : Placed hash (.leaf bs e) d p) (h0 : 0 ≤ p) (h1 : p < 2 ^ d) :
    ∃ t', splitAtomic hash (.leaf bs e) = some t' ∧ t'.elems = [e] ∧ Placed hash t' d p ∧
      find t' e (hash e / 2 ^ d) = some e := by
  obtain ⟨hbs, hp⟩ := h
  subst hbs
  have hw : Wf ⟨(d : Int), p⟩ := ⟨by simp, h0, by simpa using h1⟩
  have hl : (⟨(d : Int), p⟩ : BS).length ≤ 62 := by show (d : Int) ≤ 62; omega
  have e0 := (prepend_value 0 _ hw hl (.inl rfl)).1
  have e1 := (prepend_value 1 _ hw hl (.inr rfl)).1
  simp only [Int.toNat_natCast, Int.zero_mul, Int.add_zero, Int.one_mul] at e0 e1
  have hP := two_pow_pos d
  have hPle : (2 : Int) ^ d ≤ 2 ^ 62 := two_pow_le hd
  have hv1 : I64 (p + 2 ^ d) := by unfold I64; omega
  have hbitp : ∀ j, bit p j = (decide (j < d) && bit (hash e) j) := by
    intro j; rw [← hp, bit_emod_pow]
  have hbit1 : ∀ j, bit (p + 2 ^ d) j = (bit p j != decide (j = d)) := fun j =>
    (bit_toggle j).2 (bit_above h0 h1)
  have hsuf : suffix ⟨(d : Int) + 1, p + 2 ^ d⟩ (hash e) = bit (hash e) d := by
    unfold suffix
    have : iand (p + 2 ^ d) (hash e) = p + 2 ^ d ↔ bit (hash e) d = true := by
      rw [iand_self_iff _ _ hv1]
      constructor
      · intro hh
        apply hh d (by omega)
        rw [hbit1, hbitp]; simp
      · intro hh j hj hb
        rw [hbit1, hbitp] at hb
        by_cases hjd : j = d
        · rw [hjd]; exact hh
        · simp [hjd] at hb; exact hb.2
    simp only [this]
    simp
  have hpl : ∀ t', splitAtomic hash (.leaf ⟨(d : Int), p⟩ e) = some t' → t'.elems = [e] ∧ Placed hash t' d p := by
    intro t' ht
    simp only [splitAtomic, e0, e1, Option.bind_eq_bind, Option.bind_some, hsuf] at ht
    have hs := emod_succ (hash e) d
    rw [hp] at hs
    rcases hb : bit (hash e) d with _ | _
    · rw [hb] at ht hs
      simp at ht hs
      subst ht
      refine ⟨by simp [Trie.elems], ⟨?_, hs⟩, trivial⟩
      simp
    · rw [hb] at ht hs
      simp at ht hs
      subst ht
      refine ⟨by simp [Trie.elems], trivial, ?_, hs⟩
      simp
  have hsome : ∃ t', splitAtomic hash (.leaf ⟨(d : Int), p⟩ e) = some t' := by
    simp only [splitAtomic, e0, e1, Option.bind_eq_bind, Option.bind_some]
    split <;> exact ⟨_, rfl⟩
  obtain ⟨t', ht⟩ := hsome
  obtain ⟨a1, a2⟩ := hpl t' ht
  exact ⟨t', ht, a1, a2, (find_placed hash t' d p a2 h0 h1 e).2 (by simp [a1])⟩

/-- C46: `split_atomic` leaves empty and binary tries alone and panics on the others. -/
theorem split_atomic_other (hash : X → Int) :
    (∀ bs, splitAtomic hash (.nil bs : Trie X) = some (.nil bs)) ∧
    (∀ bs l r, splitAtomic hash (.bin bs l r : Trie X) = some (.bin bs l r)) ∧
    (∀ m t, splitAtomic hash (.root m t : Trie X) = none) ∧ (∀ n t, splitAtomic hash (.name n t : Trie X) = none) ∧
    (∀ t, splitAtomic hash (.art t : Trie X) = none) :=
  ⟨fun _ => rfl, fun _ _ _ => rfl, fun _ _ => rfl, fun _ _ => rfl, fun _ => rfl⟩

/-- C46: folding visits the elements from left to right. -/
theorem fold_eq (f : X → R → R) (t : Trie X) (r : R) : fold f t r = t.elems.foldl (fun r x => f x r) r := by
  induction t generalizing r with
  | nil bs => rfl
  | leaf bs x => rfl
  | bin bs a b iha ihb => simp [fold, Trie.elems, iha, ihb]
  | root m t ih => exact ih r
  | name n t ih => exact ih r
  | art t ih => exact ih r

/-- Every binary node holds an element (`split_atomic` makes only such nodes). -/
def NoEmptyBin : Trie X → Prop
  | .nil _ => True
  | .leaf _ _ => True
  | .bin _ l r => l.elems ++ r.elems ≠ []
  | .root _ t => NoEmptyBin t
  | .name _ t => NoEmptyBin t
  | .art t => NoEmptyBin t

/-- C46: `is_empty` says true only for a trie without elements; and it does say so, provided that binary nodes hold elements. -/
theorem is_empty_iff (t : Trie X) :
    (isEmpty t = true → t.elems = []) ∧ (NoEmptyBin t → t.elems = [] → isEmpty t = true) := by
  induction t with
  | nil bs => exact ⟨fun _ => rfl, fun _ _ => rfl⟩
  | leaf bs x => exact ⟨(fun h => by cases h), (fun _ h => by cases h)⟩
  | bin bs a b iha ihb => exact ⟨(fun h => by cases h), fun h h' => absurd h' h⟩
  | root m t ih => exact ih
  | name n t ih => exact ih
  | art t ih => exact ih

/-- The least depth recorded at the root of a trie, if there is a root. -/
def rootDepth : Trie X → Option Int
  | .root m _ => some m
  | .name _ t => rootDepth t
  | .art t => rootDepth t
  | _ => none

/-- C46: the depth recorded at the root of the empty trie is the one asked for, but at most the number of usable hash bits. -/
theorem empty_depth (H : NameHash) (m : Int) : rootDepth (empty H m : Trie X) = some (min m maxLen) := by
  unfold empty
  simp only [rootDepth]
  by_cases h : m ≤ maxLen
  · rw [if_pos h, Int.min_eq_left h]
  · rw [if_neg h, Int.min_eq_right (by omega)]

/-- C46: the empty trie is empty, well-placed, and finds nothing. -/
theorem empty_spec [DecidableEq X] (H : NameHash) (m : Int) (hash : X → Int) :
    isEmpty (empty H m : Trie X) = true ∧ (empty H m : Trie X).elems = [] ∧ Placed hash (empty H m) 0 0 ∧
      ∀ e i, find (empty H m) e i = (none : Option X) :=
  ⟨rfl, rfl, trivial, fun _ _ => rfl⟩

theorem bind_none_any {α β : Type} (o : Option α) : (o.bind fun _ => (none : Option β)) = none := by cases o <;> rfl

/-- C52 (deviation): nothing can ever be inserted: `extend`, `singleton` and the set operation `add` panic on every argument, and
`trie_of_list` panics on every list that has an element. -/
theorem trie_insertion_panics (H : NameHash) (m : Int) (nm : Name) (t : Trie X) (e : X) (l : Lst X) :
    extend nm t e = none ∧ singleton H m nm e = none ∧ setAdd t e = none ∧
    (trieOfList H l = if l.elems = [] then some (empty H 1) else none) := by
  refine ⟨rfl, rfl, rfl, ?_⟩
  unfold trieOfList
  rw [list_fold_eq]
  match l.elems with
  | [] => rfl
  | x :: s =>
    rw [if_neg (by simp)]
    simp only [List.foldr_cons]
    exact bind_none_any _

/-- A two-element trie placed by the hash `id`, to which the theorems apply. -/
example : mem (fun x : Int => x) (.bin ⟨0, 0⟩ (.leaf ⟨1, 0⟩ 4) (.leaf ⟨1, 1⟩ 7)) 7 = true :=
  (mem_placed (fun x : Int => x) (.bin ⟨0, 0⟩ (.leaf ⟨1, 0⟩ 4) (.leaf ⟨1, 1⟩ 7)) (by refine ⟨⟨rfl, by decide⟩, rfl, by decide⟩) 7).2 (by simp [Trie.elems])

end Adapton.TrieM
