import Verif.Catalog.BitString
/-
C45: bit strings.
-/
namespace Adapton.Bits

/-- The bit of weight `2^j` of `x`, in two's complement. -/
def bit (x : Int) (j : Nat) : Bool := decide (x / 2 ^ j % 2 = 1)

/-! Powers -/

theorem chk_some {x : Int} (h : I64 x) : chk x = some x := if_pos h
theorem chk_none {x : Int} (h : ¬ I64 x) : chk x = none := if_neg h

theorem i64_small {x : Int} (h : x.natAbs ≤ 1) : I64 x := by unfold I64; omega

theorem i64_of_sq {x : Int} (h : I64 (x * x)) : I64 x := by
  have h1 : x.natAbs ≤ (x * x).natAbs := by
    rw [Int.natAbs_mul]
    rcases Nat.eq_zero_or_pos x.natAbs with h0 | h0
    · rw [h0]; exact Nat.le_refl 0
    · exact Nat.le_mul_of_pos_right _ h0
  have h2 : 0 ≤ x * x := by
    rcases Int.le_total 0 x with h | h
    · exact Int.mul_nonneg h h
    · exact Int.mul_nonneg_of_nonpos_of_nonpos h h
  unfold I64 at *
  omega

theorem i64_of_mul {y f : Int} (hf : 2 ≤ f.natAbs) (h : I64 (y * f)) : I64 y := by
  have h1 : y.natAbs * 2 ≤ (y * f).natAbs := by
    rw [Int.natAbs_mul]
    exact Nat.mul_le_mul_left _ hf
  unfold I64 at *
  omega

theorem pow_small {b : Int} (hb : b.natAbs ≤ 1) (m : Nat) : (b ^ m).natAbs ≤ 1 := by
  induction m with
  | zero => simp
  | succ m ih =>
    rw [Int.pow_succ, Int.natAbs_mul]
    exact Nat.le_trans (Nat.mul_le_mul ih hb) (Nat.le_refl 1)

/-- C45: `pow(b, n)` is `b` to the power of the absolute value of `n`, for all `b` and `n`; it panics exactly when that does not
fit into an `i64`. -/
theorem pow_eq (b n : Int) (hb : I64 b) : pow b n = chk (b ^ n.natAbs) := by
  fun_induction pow b n with
  | case1 => rw [chk_some] <;> simp [I64]
  | case2 => show some b = chk (b ^ 1); rw [Int.pow_one, chk_some hb]
  | case3 n h0 h1 ih =>
    have hn : (n.tdiv 2).natAbs = n.natAbs / 2 := Int.natAbs_tdiv n 2
    rw [ih, hn]
    have hm : (n.tmod 2 = 0 ↔ n.natAbs % 2 = 0) := by
      have e : (n.tmod 2).natAbs = n.natAbs % 2 := Int.natAbs_tmod n 2
      omega
    generalize n.natAbs = m at *
    have hsplit : b ^ m = b ^ (m / 2) * b ^ (m / 2) * (if n.tmod 2 = 0 then 1 else b) := by
      have h2 : b ^ (m / 2) * b ^ (m / 2) = b ^ (2 * (m / 2)) := by
        rw [← Int.pow_add]; congr 1; omega
      rw [h2]
      by_cases he : n.tmod 2 = 0
      · rw [if_pos he, Int.mul_one]
        have := hm.1 he
        congr 1; omega
      · rw [if_neg he, ← Int.pow_succ]
        have : m % 2 ≠ 0 := fun h => he (hm.2 h)
        congr 1; omega
    have hkey : I64 (b ^ m) → I64 (b ^ (m / 2) * b ^ (m / 2)) := by
      intro h
      by_cases hb1 : b.natAbs ≤ 1
      · apply i64_small
        rw [Int.natAbs_mul]
        exact Nat.le_trans (Nat.mul_le_mul (pow_small hb1 _) (pow_small hb1 _)) (Nat.le_refl 1)
      · rw [hsplit] at h
        by_cases he : n.tmod 2 = 0
        · rwa [if_pos he, Int.mul_one] at h
        · rw [if_neg he] at h
          exact i64_of_mul (by omega) h
    generalize b ^ (m / 2) = x at *
    by_cases hxx : I64 (x * x)
    · simp only [chk_some (i64_of_sq hxx), Option.bind_eq_bind, Option.bind_some, chk_some hxx]
      rw [hsplit]
    · rw [chk_none (fun h => hxx (hkey h))]
      by_cases hx : I64 x
      · simp only [chk_some hx, Option.bind_eq_bind, Option.bind_some, chk_none hxx, Option.bind_none]
      · simp only [chk_none hx, Option.bind_eq_bind, Option.bind_none]

/-! Bits -/

theorem two_pow_pos (i : Nat) : (0 : Int) < 2 ^ i := Int.pow_pos (by decide)

theorem two_pow_le {i j : Nat} (h : i ≤ j) : (2 : Int) ^ i ≤ 2 ^ j := by
  rcases Nat.eq_or_lt_of_le h with e | h
  · subst e; exact Int.le_refl _
  · exact Int.le_of_lt (Int.pow_lt_pow_of_lt (by decide) h)

theorem ediv_split (x : Int) {i j : Nat} (h : i ≤ j) : x / 2 ^ j = x / 2 ^ i / 2 ^ (j - i) := by
  rw [Int.ediv_ediv_of_nonneg (Int.le_of_lt (two_pow_pos i)), ← Int.pow_add]
  congr 2
  omega

theorem bit_ofInt (x : Int) {j : Nat} (hj : j < 64) : (BitVec.ofInt 64 x).getLsbD j = bit x j := by
  have h1 : (BitVec.ofInt 64 x).toNat = (x % 2 ^ 64).toNat := by simp [BitVec.toNat_ofInt]
  show (BitVec.ofInt 64 x).toNat.testBit j = _
  rw [h1, Nat.testBit_eq_decide_div_mod_eq, bit]
  have hr : 0 ≤ x % 2 ^ 64 := Int.emod_nonneg _ (by decide)
  have hq : x / 2 ^ j % 2 = (x % 2 ^ 64) / 2 ^ j % 2 := by
    have e : x = x % 2 ^ 64 + 2 ^ j * (2 * (2 ^ (63 - j) * (x / 2 ^ 64))) := by
      have h2 : (2 : Int) ^ j * 2 * 2 ^ (63 - j) = 2 ^ 64 := by
        rw [← Int.pow_succ, ← Int.pow_add]; congr 1; omega
      have h3 := Int.emod_add_mul_ediv x (2 ^ 64)
      have h4 : (2 : Int) ^ j * (2 * (2 ^ (63 - j) * (x / 2 ^ 64))) = 2 ^ 64 * (x / 2 ^ 64) := by
        rw [← h2]; simp only [Int.mul_assoc]
      omega
    conv => lhs; rw [e]
    rw [Int.add_mul_ediv_left _ _ (Int.ne_of_gt (two_pow_pos j)), Int.add_mul_emod_self_left]
  rw [hq]
  have hc : ((x % 2 ^ 64).toNat : Int) = x % 2 ^ 64 := Int.toNat_of_nonneg hr
  have hd : (((x % 2 ^ 64).toNat / 2 ^ j % 2 : Nat) : Int) = x % 2 ^ 64 / 2 ^ j % 2 := by
    rw [Int.natCast_emod, Int.natCast_ediv, hc]; simp
  have : ((x % 2 ^ 64).toNat / 2 ^ j % 2 = 1) ↔ (x % 2 ^ 64 / 2 ^ j % 2 = 1) := by omega
  simp only [this]

theorem ofInt_two_pow {i : Nat} (hi : i < 64) : BitVec.ofInt 64 (2 ^ i) = BitVec.twoPow 64 i := by
  apply BitVec.eq_of_getLsbD_eq
  intro j hj
  rw [bit_ofInt _ hj, BitVec.getLsbD_twoPow, bit]
  have : ((2 : Int) ^ i / 2 ^ j % 2 = 1) ↔ i = j := by
    rcases Nat.lt_trichotomy i j with h | h | h
    · rw [Int.ediv_eq_zero_of_lt (Int.le_of_lt (two_pow_pos i)) (Int.pow_lt_pow_of_lt (by decide) h)]
      omega
    · subst h
      rw [Int.ediv_self (Int.ne_of_gt (two_pow_pos i))]
      simp
    · have e : (2 : Int) ^ i = 2 ^ j * (2 * 2 ^ (i - j - 1)) := by
        rw [← Int.mul_assoc, ← Int.pow_succ, ← Int.pow_add]; congr 1; omega
      rw [e, Int.mul_ediv_cancel_left _ (Int.ne_of_gt (two_pow_pos j))]
      omega
  simp only [this]
  simp [hi]

theorem toInt_ofInt64 {x : Int} (h : I64 x) : (BitVec.ofInt 64 x).toInt = x := by
  apply BitVec.toInt_ofInt_eq_self (by decide)
  · exact h.1
  · exact h.2

theorem i64_two_pow {i : Nat} (hi : i ≤ 62) : I64 (2 ^ i) := by
  have h1 : (2 : Int) ^ i ≤ 2 ^ 62 := two_pow_le hi
  have := two_pow_pos i
  unfold I64
  omega

theorem iand_two_pow {i : Nat} (hi : i ≤ 62) (b : Int) : iand (2 ^ i) b = 2 ^ i ↔ bit b i = true := by
  unfold iand
  rw [ofInt_two_pow (by omega)]
  have h2 : ((2 : Int) ^ i) = (BitVec.twoPow 64 i).toInt := by rw [← ofInt_two_pow (by omega), toInt_ofInt64 (i64_two_pow hi)]
  rw [h2, BitVec.toInt_inj, ← bit_ofInt b (show i < 64 by omega)]
  constructor
  · intro h
    have := congrArg (fun v => v.getLsbD i) h
    simpa [BitVec.getLsbD_twoPow, (show i < 64 by omega)] using this
  · intro h
    apply BitVec.eq_of_getLsbD_eq
    intro j hj
    rw [BitVec.getLsbD_and, BitVec.getLsbD_twoPow]
    by_cases e : i = j
    · subst e; simp [h]
    · simp [e]

theorem pow_two {i : Int} (h0 : 0 ≤ i) (h : i ≤ 62) : pow 2 i = some (2 ^ i.toNat) := by
  rw [pow_eq 2 i (by unfold I64; omega)]
  have : i.natAbs = i.toNat := by omega
  rw [this, chk_some (i64_two_pow (by omega))]

/-- Adding or taking away `2^i` where bit `i` allows it stays in range. -/
theorem i64_flip {b : Int} {i : Nat} (hi : i ≤ 62) (hb : I64 b) :
    (bit b i = true → I64 (b - 2 ^ i)) ∧ (bit b i = false → I64 (b + 2 ^ i)) := by
  have hP := two_pow_pos i
  have hPQ : (2 : Int) ^ i * (2 * 2 ^ (62 - i)) = 2 ^ 63 := by
    rw [← Int.mul_assoc, ← Int.pow_succ, ← Int.pow_add]; congr 1; omega
  unfold bit
  have hsplit := Int.mul_ediv_add_emod b (2 ^ i)
  have hr0 := Int.emod_nonneg b (Int.ne_of_gt hP)
  have hr1 := Int.emod_lt_of_pos b hP
  have hlo : -(2 * 2 ^ (62 - i)) ≤ b / 2 ^ i := by
    apply Int.le_ediv_of_mul_le hP
    rw [Int.neg_mul, Int.mul_comm, hPQ]; exact hb.1
  have hhi : b / 2 ^ i < 2 * 2 ^ (62 - i) := by
    apply Int.ediv_lt_of_lt_mul hP
    rw [Int.mul_comm, hPQ]; exact hb.2
  generalize hQ : (2 : Int) ^ (62 - i) = Q at *
  generalize (2 : Int) ^ i = P at *
  generalize b / P = c at *
  generalize b % P = r at *
  have hcP1 : -(2 ^ 63) ≤ P * (c - 1) ∨ c % 2 ≠ 1 := by
    by_cases hc : c % 2 = 1
    · left
      have : -(2 * Q) ≤ c - 1 := by omega
      have := Int.mul_le_mul_of_nonneg_left this (Int.le_of_lt hP)
      rw [Int.mul_neg, hPQ] at this
      exact this
    · exact .inr hc
  have hcP2 : P * (c + 1 + 1) ≤ 2 ^ 63 ∨ c % 2 = 1 := by
    by_cases hc : c % 2 = 1
    · exact .inr hc
    · left
      have : c + 1 + 1 ≤ 2 * Q := by omega
      have := Int.mul_le_mul_of_nonneg_left this (Int.le_of_lt hP)
      rw [hPQ] at this
      exact this
  have e1 : P * (c - 1) = P * c - P := by rw [Int.mul_sub, Int.mul_one]
  have e2 : P * (c + 1 + 1) = P * c + P + P := by rw [Int.mul_add, Int.mul_add, Int.mul_one]
  unfold I64 at *
  constructor
  · intro h
    have h := of_decide_eq_true h
    omega
  · intro h
    have h := of_decide_eq_false h
    omega

theorem bit_toggle {b : Int} {i : Nat} (j : Nat) :
    (bit b i = true → bit (b - 2 ^ i) j = (bit b j != decide (j = i))) ∧
    (bit b i = false → bit (b + 2 ^ i) j = (bit b j != decide (j = i))) := by
  have hP := two_pow_pos i
  have hPn := Int.ne_of_gt hP
  have key : ∀ e : Int, e = 1 ∨ e = -1 → (bit b i = true → e = -1) → (bit b i = false → e = 1) →
      bit (b + e * 2 ^ i) j = (bit b j != decide (j = i)) := by
    intro e he h1 h2
    rcases Nat.lt_trichotomy j i with h | h | h
    · have hd : b + e * 2 ^ i = b + 2 ^ j * (2 * (e * 2 ^ (i - j - 1))) := by
        have : (2 : Int) ^ i = 2 ^ j * (2 * 2 ^ (i - j - 1)) := by
          rw [← Int.mul_assoc, ← Int.pow_succ, ← Int.pow_add]; congr 1; omega
        rw [this, Int.mul_left_comm, Int.mul_left_comm e 2]
      have : decide (j = i) = false := by simp; omega
      rw [this, Bool.bne_false, bit, hd, Int.add_mul_ediv_left _ _ (Int.ne_of_gt (two_pow_pos j)), Int.add_mul_emod_self_left]
      rfl
    · subst h
      have : (b + e * 2 ^ j) / 2 ^ j = b / 2 ^ j + e := by rw [Int.add_mul_ediv_right _ _ hPn]
      simp only [bit, this, decide_true]
      by_cases hb : b / 2 ^ j % 2 = 1
      · have he := h1 (by simp [bit, hb])
        have : ¬ (b / 2 ^ j + e) % 2 = 1 := by omega
        simp [hb, this]
      · have he := h2 (by simp [bit, hb])
        have : (b / 2 ^ j + e) % 2 = 1 := by omega
        simp [hb, this]
    · have hs : ∀ x : Int, x / 2 ^ j = x / 2 ^ i / 2 / 2 ^ (j - i - 1) := by
        intro x
        rw [ediv_split x (show i + 1 ≤ j by omega), Int.pow_succ, Int.ediv_ediv_of_nonneg (Int.le_of_lt hP), Nat.sub_sub]
      have : decide (j = i) = false := by simp; omega
      rw [this, Bool.bne_false, bit, hs, Int.add_mul_ediv_right _ _ hPn, bit, hs b]
      have hh : (b / 2 ^ i + e) / 2 = b / 2 ^ i / 2 := by
        by_cases hb : b / 2 ^ i % 2 = 1
        · have he := h1 (by simp [bit, hb])
          omega
        · have he := h2 (by simp [bit, hb])
          omega
      rw [hh]
  constructor
  · intro h
    have := key (-1) (.inr rfl) (fun _ => rfl) (fun h' => by rw [h] at h'; cases h')
    rwa [Int.neg_mul, Int.one_mul, ← Int.sub_eq_add_neg] at this
  · intro h
    have := key 1 (.inl rfl) (fun h' => by rw [h] at h'; cases h') (fun _ => rfl)
    rwa [Int.one_mul] at this

theorem flip_val (i b : Int) (h0 : 0 ≤ i) (hi : i ≤ 62) :
    flip i b = if bit b i.toNat = true then chk (b - 2 ^ i.toNat) else chk (b + 2 ^ i.toNat) := by
  have hi' : i.toNat ≤ 62 := by omega
  unfold flip
  simp only [pow_two h0 hi, Option.bind_eq_bind, Option.bind_some, iand_two_pow hi']

/-- C45: `flip(i, b)` toggles bit `i` of `b` and no other, without overflow, for every `b` and every `i` from 0 to 62. -/
theorem flip_toggles (i b : Int) (h0 : 0 ≤ i) (hi : i ≤ 62) (hb : I64 b) :
    ∃ r, flip i b = some r ∧ I64 r ∧ ∀ j : Nat, bit r j = (bit b j != decide (j = i.toNat)) := by
  have hi' : i.toNat ≤ 62 := by omega
  rw [flip_val i b h0 hi]
  rcases hbit : bit b i.toNat with _ | _
  · have hr := (i64_flip hi' hb).2 hbit
    refine ⟨_, ?_, hr, fun j => (bit_toggle j).2 hbit⟩
    rw [if_neg (by decide), chk_some hr]
  · have hr := (i64_flip hi' hb).1 hbit
    refine ⟨_, ?_, hr, fun j => (bit_toggle j).1 hbit⟩
    rw [if_pos rfl, chk_some hr]

theorem bit_zero (j : Nat) : bit 0 j = false := by rw [bit, Int.zero_ediv]; rfl

theorem flip_zero (i : Int) (h0 : 0 ≤ i) (hi : i ≤ 62) : flip i 0 = some (2 ^ i.toNat) := by
  rw [flip_val i 0 h0 hi, bit_zero, if_neg (by decide), Int.zero_add, chk_some (i64_two_pow (by omega))]

theorem bit_mask (L j : Nat) : bit (2 ^ L - 1) j = decide (j < L) := by
  unfold bit
  by_cases hjl : j < L
  · have e : (2 : Int) ^ L - 1 = (2 ^ j - 1) + 2 ^ j * (2 * 2 ^ (L - j - 1) - 1) := by
      have : (2 : Int) ^ L = 2 ^ j * (2 * 2 ^ (L - j - 1)) := by
        rw [← Int.mul_assoc, ← Int.pow_succ, ← Int.pow_add]; congr 1; omega
      rw [this, Int.mul_sub, Int.mul_one]
      generalize (2 : Int) ^ j * _ = A
      generalize (2 : Int) ^ j = B
      omega
    have hpj := two_pow_pos j
    rw [e, Int.add_mul_ediv_left _ _ (Int.ne_of_gt hpj), Int.ediv_eq_zero_of_lt (by omega) (by omega)]
    generalize (2 : Int) ^ _ = A
    have : (0 + (2 * A - 1)) % 2 = 1 := by omega
    simp only [this, hjl, decide_true]
  · have h1 : (2 : Int) ^ L ≤ 2 ^ j := two_pow_le (by omega)
    have h2 := two_pow_pos L
    rw [Int.ediv_eq_zero_of_lt (by omega) (by omega)]
    simp [hjl]

/-- C45: `is_set(i, b)` reads bit `i`, for every `b` and every `i` from 0 to 62. -/
theorem is_set_reads (i b : Int) (h0 : 0 ≤ i) (hi : i ≤ 62) : isSet i b = some (bit b i.toNat) := by
  have hi' : i.toNat ≤ 62 := by omega
  unfold isSet
  simp only [flip_zero i h0 hi, Option.bind_eq_bind, Option.bind_some, iand_two_pow hi']
  simp

/-- C45: `prepend(b, bs)` sets the bit just above the string to `b`, keeps all other bits and adds one to the length, without
overflow, for lengths up to 62; any other `b` panics. -/
theorem prepend_spec (b : Int) (bs : BS) (h0 : 0 ≤ bs.length) (hl : bs.length ≤ 62) (hv : I64 bs.value) :
    (b = 0 ∨ b = 1 → ∃ r, prepend b bs = some r ∧ r.length = bs.length + 1 ∧ I64 r.value ∧
      ∀ j : Nat, bit r.value j = if j = bs.length.toNat then decide (b = 1) else bit bs.value j) ∧
    (b ≠ 0 → b ≠ 1 → prepend b bs = none) := by
  have hlen : chk (bs.length + 1) = some (bs.length + 1) := chk_some (by unfold I64; omega)
  obtain ⟨r, hr, hri, hrb⟩ := flip_toggles bs.length bs.value h0 hl hv
  have hset := is_set_reads bs.length bs.value h0 hl
  constructor
  · rintro (rfl | rfl)
    · unfold prepend
      simp only [hset, hlen, hr, Option.bind_eq_bind, Option.bind_some, if_true]
      rcases hb : bit bs.value bs.length.toNat with _ | _
      · refine ⟨_, rfl, rfl, hv, fun j => ?_⟩
        by_cases hj : j = bs.length.toNat
        · subst hj; simp [hb]
        · simp [hj]
      · refine ⟨_, rfl, rfl, hri, fun j => ?_⟩
        simp only [hrb]
        by_cases hj : j = bs.length.toNat
        · subst hj; simp [hb]
        · simp [hj]
    · unfold prepend
      simp only [hset, hlen, hr, Option.bind_eq_bind, Option.bind_some]
      rcases hb : bit bs.value bs.length.toNat with _ | _
      · refine ⟨_, rfl, rfl, hri, fun j => ?_⟩
        simp only [hrb]
        by_cases hj : j = bs.length.toNat
        · subst hj; simp [hb]
        · simp [hj]
      · refine ⟨_, rfl, rfl, hv, fun j => ?_⟩
        by_cases hj : j = bs.length.toNat
        · subst hj; simp [hb]
        · simp [hj]
  · intro h1 h2
    unfold prepend
    rw [if_neg h1, if_neg h2]

/-- C45: `shift_left(bs, i)` keeps the length; bit `j` of the result is bit `j - i` of the string for `i ≤ j < length` and zero
elsewhere; no overflow for lengths up to 62 and shifts below 64; any other shift amount panics. -/
theorem shift_left_spec (bs : BS) (i : Int) (h0 : 0 ≤ bs.length) (hl : bs.length ≤ 62) :
    (0 ≤ i → i < 64 → ∃ r, shiftLeft bs i = some r ∧ r.length = bs.length ∧
      ∀ j : Nat, j < 64 → bit r.value j =
        (decide (i.toNat ≤ j) && decide (j < bs.length.toNat) && bit bs.value (j - i.toNat))) ∧
    (i < 0 ∨ 64 ≤ i → shiftLeft bs i = none) := by
  constructor
  · intro hi0 hi
    have hp : twoPow32 bs.length = some (2 ^ bs.length.toNat) := by
      unfold twoPow32
      have : (bs.length % 2 ^ 32).toNat = bs.length.toNat := by omega
      rw [this, chk_some (i64_two_pow (by omega))]
    have hm : chk (2 ^ bs.length.toNat - 1) = some (2 ^ bs.length.toNat - 1) := by
      have := i64_two_pow (i := bs.length.toNat) (by omega)
      have h1 := two_pow_pos bs.length.toNat
      apply chk_some
      unfold I64 at *
      omega
    refine ⟨⟨bs.length, iand ((BitVec.ofInt 64 bs.value <<< i.toNat).toInt) (2 ^ bs.length.toNat - 1)⟩, ?_, rfl, ?_⟩
    · unfold shiftLeft ishl
      rw [if_pos ⟨hi0, hi⟩]
      simp only [hp, hm, Option.bind_eq_bind, Option.bind_some]
    · intro j hj
      simp only []
      rw [← bit_ofInt _ hj]
      unfold iand
      rw [BitVec.ofInt_toInt, BitVec.ofInt_toInt, BitVec.getLsbD_and, BitVec.getLsbD_shiftLeft, bit_ofInt _ hj]
      rw [bit_mask]
      by_cases hij : i.toNat ≤ j
      · rw [bit_ofInt _ (by omega)]
        have : ¬ j < i.toNat := by omega
        simp [hj, hij, this, Bool.and_comm]
      · have : j < i.toNat := by omega
        simp [this, hij]
  · intro h
    unfold shiftLeft ishl
    rw [if_neg (by omega)]
    rfl

/-- C45: every length the crate supports is covered: `MAX_LEN` is at most 62. -/
theorem max_len_supported : 0 ≤ maxLen ∧ maxLen ≤ 62 := by decide

/-- C45: a string of `n` bits: its value is below `2^n`. -/
def Wf (bs : BS) : Prop := 0 ≤ bs.length ∧ 0 ≤ bs.value ∧ bs.value < 2 ^ bs.length.toNat

theorem bit_above {v : Int} {L : Nat} (h0 : 0 ≤ v) (h : v < 2 ^ L) : bit v L = false := by
  rw [bit, Int.ediv_eq_zero_of_lt h0 h]; rfl

/-- C45: on well-formed strings of up to 62 bits, `prepend(b, bs)` is the well-formed string that is one bit longer, with value
`bs.value + b * 2^length`. -/
theorem prepend_value (b : Int) (bs : BS) (hw : Wf bs) (hl : bs.length ≤ 62) (hb : b = 0 ∨ b = 1) :
    prepend b bs = some ⟨bs.length + 1, bs.value + b * 2 ^ bs.length.toNat⟩ ∧
    Wf ⟨bs.length + 1, bs.value + b * 2 ^ bs.length.toNat⟩ := by
  obtain ⟨hw0, hw1, hw2⟩ := hw
  have hlen : chk (bs.length + 1) = some (bs.length + 1) := chk_some (by unfold I64; omega)
  have hset := is_set_reads bs.length bs.value hw0 hl
  have hbit := bit_above hw1 hw2
  have hP := two_pow_pos bs.length.toNat
  have hPle : (2 : Int) ^ bs.length.toNat ≤ 2 ^ 62 := two_pow_le (by omega)
  have hfl : flip bs.length bs.value = some (bs.value + 2 ^ bs.length.toNat) := by
    rw [flip_val _ _ hw0 hl, hbit, if_neg (by decide), chk_some]
    unfold I64; omega
  have hs : (bs.length + 1).toNat = bs.length.toNat + 1 := by omega
  rw [hbit] at hset
  constructor
  · rcases hb with rfl | rfl
    · unfold prepend
      simp only [hset, hlen, Option.bind_eq_bind, Option.bind_some, if_true, Int.zero_mul, Int.add_zero, Bool.not_false]
    · unfold prepend
      simp only [hset, hlen, hfl, Option.bind_eq_bind, Option.bind_some, Int.one_mul]
      rfl
  · unfold Wf
    simp only [hs, Int.pow_succ]
    rcases hb with rfl | rfl <;> (refine ⟨?_, ?_, ?_⟩ <;> omega)

theorem bit_mul_pow (v : Int) (i j : Nat) : bit (v * 2 ^ i) j = (decide (i ≤ j) && bit v (j - i)) := by
  unfold bit
  by_cases h : i ≤ j
  · rw [ediv_split _ h, Int.mul_ediv_cancel _ (Int.ne_of_gt (two_pow_pos i))]
    simp [h]
  · have e : v * 2 ^ i = 2 ^ j * (2 * (v * 2 ^ (i - j - 1))) := by
      have : (2 : Int) ^ i = 2 ^ j * (2 * 2 ^ (i - j - 1)) := by
        rw [← Int.mul_assoc, ← Int.pow_succ, ← Int.pow_add]; congr 1; omega
      rw [this, Int.mul_left_comm, Int.mul_left_comm v 2]
    rw [e, Int.mul_ediv_cancel_left _ (Int.ne_of_gt (two_pow_pos j))]
    have : 2 * (v * 2 ^ (i - j - 1)) % 2 = 0 := Int.mul_emod_right 2 _
    simp [this, h]

theorem bit_emod_pow (v : Int) (L j : Nat) : bit (v % 2 ^ L) j = (decide (j < L) && bit v j) := by
  have hP := two_pow_pos L
  have h0 := Int.emod_nonneg v (Int.ne_of_gt hP)
  have h1 := Int.emod_lt_of_pos v hP
  by_cases h : j < L
  · have e : v = v % 2 ^ L + 2 ^ j * (2 * (2 ^ (L - j - 1) * (v / 2 ^ L))) := by
      have h2 : (2 : Int) ^ j * 2 * 2 ^ (L - j - 1) = 2 ^ L := by
        rw [← Int.pow_succ, ← Int.pow_add]; congr 1; omega
      have h3 := Int.emod_add_mul_ediv v (2 ^ L)
      have h4 : (2 : Int) ^ j * (2 * (2 ^ (L - j - 1) * (v / 2 ^ L))) = 2 ^ L * (v / 2 ^ L) := by
        rw [← h2]; simp only [Int.mul_assoc]
      omega
    have : v / 2 ^ j % 2 = v % 2 ^ L / 2 ^ j % 2 := by
      conv => lhs; rw [e]
      rw [Int.add_mul_ediv_left _ _ (Int.ne_of_gt (two_pow_pos j)), Int.add_mul_emod_self_left]
    simp [bit, this, h]
  · have h2 : (2 : Int) ^ L ≤ 2 ^ j := two_pow_le (by omega)
    rw [bit, Int.ediv_eq_zero_of_lt h0 (by omega)]
    simp [h]

theorem eq_of_bits {x y : Int} (hx : I64 x) (hy : I64 y) (h : ∀ j : Nat, j < 64 → bit x j = bit y j) : x = y := by
  rw [← toInt_ofInt64 hx, ← toInt_ofInt64 hy]
  congr 1
  apply BitVec.eq_of_getLsbD_eq
  intro j hj
  rw [bit_ofInt _ hj, bit_ofInt _ hj, h j hj]

theorem i64_toInt (v : BitVec 64) : I64 v.toInt :=
  ⟨BitVec.le_toInt v, BitVec.toInt_lt⟩

/-- C45: in numbers: `shift_left(bs, i)` multiplies the value by `2^i` modulo `2^length`, for every value. -/
theorem shift_left_value (bs : BS) (i : Int) (h0 : 0 ≤ bs.length) (hl : bs.length ≤ 62) (hi0 : 0 ≤ i) (hi : i < 64) :
    shiftLeft bs i = some ⟨bs.length, bs.value * 2 ^ i.toNat % 2 ^ bs.length.toNat⟩ := by
  obtain ⟨⟨len, v⟩, hr, hlen, hbits⟩ := (shift_left_spec bs i h0 hl).1 hi0 hi
  simp only [] at hlen hbits
  subst hlen
  rw [hr]
  have hv : I64 v := by
    unfold shiftLeft at hr
    rcases h1 : ishl bs.value i with _ | a
    · rw [h1] at hr; cases hr
    rcases h2 : twoPow32 bs.length with _ | p
    · rw [h1, h2] at hr; cases hr
    rcases h3 : chk (p - 1) with _ | m
    · simp only [h1, h2, h3, Option.bind_eq_bind, Option.bind_some, Option.bind_none] at hr; cases hr
    simp only [h1, h2, h3, Option.bind_eq_bind, Option.bind_some] at hr
    injection hr with hr
    injection hr with _ hr
    rw [← hr]
    exact i64_toInt _
  have hP := two_pow_pos bs.length.toNat
  have hPle : (2 : Int) ^ bs.length.toNat ≤ 2 ^ 62 := two_pow_le (by omega)
  have hm0 := Int.emod_nonneg (bs.value * 2 ^ i.toNat) (Int.ne_of_gt hP)
  have hm1 := Int.emod_lt_of_pos (bs.value * 2 ^ i.toNat) hP
  have : v = bs.value * 2 ^ i.toNat % 2 ^ bs.length.toNat := by
    apply eq_of_bits hv
    · unfold I64; omega
    · intro j hj
      rw [hbits j hj, bit_emod_pow, bit_mul_pow]
      rcases decide (i.toNat ≤ j) <;> rcases decide (j < bs.length.toNat) <;> rfl
  rw [this]

example : prepend 1 ⟨2, 1⟩ = some ⟨3, 5⟩ :=
  (prepend_value 1 ⟨2, 1⟩ ⟨by decide, by decide, by decide⟩ (by decide) (.inr rfl)).1

example : shiftLeft ⟨2, 3⟩ 1 = some ⟨2, 2⟩ := shift_left_value ⟨2, 3⟩ 1 (by decide) (by decide) (by decide) (by decide)

/-- C45 (deviation): negative exponents are not rejected: `pow(2, -1)` is 2, so `flip(-1, 0)` sets bit 1. -/
theorem pow_negative (b n : Int) (hb : I64 b) : pow b (-n) = pow b n := by
  rw [pow_eq b _ hb, pow_eq b _ hb, Int.natAbs_neg]

end Adapton.Bits
