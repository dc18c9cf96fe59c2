import Verif.Reflect.Debug
/-
Lexing of printed values.
-/
namespace Adapton.Reflect

/-! ## Bytes and characters -/

/-- The byte of an ASCII character. -/
def byte (c : Char) : UInt8 := UInt8.ofNat c.toNat

theorem chr_byte {c : Char} (h : c.toNat < 256) : chr (byte c) = c := by
  unfold chr byte
  rw [UInt8.toNat_ofNat', Nat.mod_eq_of_lt h]
  exact Char.ofNat_toNat c

theorem enc_ascii {c : Char} (h : c.toNat < 128) : String.utf8EncodeChar c = [byte c] := by
  unfold String.utf8EncodeChar
  have : c.val.toNat ≤ 127 := by have := h; unfold Char.toNat at this; omega
  simp only [this, if_true]
  rfl

theorem enc_high {c : Char} (h : 128 ≤ c.toNat) : (∀ b ∈ String.utf8EncodeChar c, 128 ≤ b.toNat) ∧ 2 ≤ (String.utf8EncodeChar c).length := by
  unfold String.utf8EncodeChar
  have h1 : ¬ c.val.toNat ≤ 127 := by have := h; unfold Char.toNat at this; omega
  simp only [h1, if_false]
  split
  · refine ⟨?_, by simp⟩
    intro b hb
    simp at hb
    rcases hb with rfl | rfl <;> simp [UInt8.toNat_add, UInt8.toNat_ofNat'] <;> omega
  · split
    · refine ⟨?_, by simp⟩
      intro b hb
      simp at hb
      rcases hb with rfl | rfl | rfl <;> simp [UInt8.toNat_add, UInt8.toNat_ofNat'] <;> omega
    · refine ⟨?_, by simp⟩
      intro b hb
      simp at hb
      rcases hb with rfl | rfl | rfl | rfl <;> simp [UInt8.toNat_add, UInt8.toNat_ofNat'] <;> omega

theorem utf8_nil : utf8 [] = [] := rfl
theorem utf8_append (a b : List Char) : utf8 (a ++ b) = utf8 a ++ utf8 b := by simp [utf8]
theorem utf8_cons {c : Char} (h : c.toNat < 128) (s : List Char) : utf8 (c :: s) = byte c :: utf8 s := by
  simp [utf8, enc_ascii h]

theorem chr_quote {b : UInt8} (h : chr b = '"') : b = 34 := by
  have h1 : (chr b).toNat = 34 := by rw [h]; rfl
  unfold chr at h1
  have h2 : b.toNat < 256 := b.toNat_lt
  have : (Char.ofNat b.toNat).toNat = b.toNat := by
    unfold Char.ofNat
    rw [dif_pos (Or.inl (by omega))]
    rfl
  rw [this] at h1
  exact UInt8.toNat_inj.1 h1

/-- The characters that `parse_val` sees. -/
def latin1 (bs : List UInt8) : List Char := bs.map chr

theorem lexStr_bytes : ∀ (bs : List UInt8) (rest : List UInt8), (∀ b ∈ bs, b ≠ 34) → lexStr (bs ++ 34 :: rest) = (latin1 bs, rest)
  | [], rest, _ => by simp [lexStr, latin1, chr]
  | b :: bs, rest, h => by
    have hb : chr b ≠ '"' := fun hc => h b (by simp) (chr_quote hc)
    have ih := lexStr_bytes bs rest (fun x hx => h x (by simp [hx]))
    simp [lexStr, hb, ih, latin1]

theorem utf8_noquote : ∀ (s : List Char), '"' ∉ s → ∀ b ∈ utf8 s, b ≠ 34
  | [], _, b, hb => by simp [utf8] at hb
  | c :: s, h, b, hb => by
    simp only [utf8, List.flatMap_cons, List.mem_append] at hb
    rcases hb with hb | hb
    · by_cases hc : c.toNat < 128
      · rw [enc_ascii hc] at hb
        simp at hb
        rintro rfl
        have : chr (byte c) = c := chr_byte (by omega)
        rw [← hb] at this
        exact h (by rw [← this]; simp [chr])
      · have := (enc_high (by omega : 128 ≤ c.toNat)).1 b hb
        rintro rfl
        simp at this
    · exact utf8_noquote s (fun hh => h (by simp [hh])) b hb

/-- A string token ends at the next double quote. -/
theorem lexStr_spec (s : List Char) (rest : List UInt8) (h : '"' ∉ s) :
    lexStr (utf8 s ++ byte '"' :: rest) = (latin1 (utf8 s), rest) := lexStr_bytes _ _ (utf8_noquote s h)

theorem latin1_ascii : ∀ (s : List Char), (∀ c ∈ s, c.toNat < 128) → latin1 (utf8 s) = s
  | [], _ => rfl
  | c :: s, h => by
    have hc := h c (by simp)
    rw [utf8_cons hc]
    simp only [latin1, List.map_cons]
    rw [chr_byte (by omega)]
    exact congrArg _ (latin1_ascii s (fun x hx => h x (by simp [hx])))

/-! ## Tokens one by one -/

/-- The text that follows does not continue a number or an identifier. -/
def Delim (rest : List UInt8) : Prop := ∀ b bs, rest = b :: bs → isId (chr b) = false

theorem Delim.nil : Delim [] := fun _ _ h => by cases h

theorem isId_of_isDig {c : Char} (h : isDig c = true) : isId c = true := by
  simp only [isDig, Bool.and_eq_true] at h
  simp [isId, h]

theorem isId_of_isId0 {c : Char} (h : isId0 c = true) : isId c = true := by
  simp only [isId0, Bool.or_eq_true] at h
  simp only [isId, Bool.or_eq_true]
  rcases h with h | h
  · exact Or.inl (Or.inl h)
  · exact Or.inr h

theorem isId_ascii {c : Char} (h : isId c = true) : c.toNat < 128 := by
  simp only [isId, Bool.or_eq_true, Bool.and_eq_true, decide_eq_true_eq, beq_iff_eq, Char.le_def, UInt32.le_iff_toNat_le] at h
  rcases h with ((h | h) | h) | h
  · have := h.2; simp at this; omega
  · have := h.2; simp at this; omega
  · have := h.2; simp at this; omega
  · subst h; decide

theorem lexWhile_spec (p : Char → Bool) (hp : ∀ c, p c = true → isId c = true) :
    ∀ (s : List Char) (rest : List UInt8), (∀ c ∈ s, p c = true) → Delim rest → lexWhile p (utf8 s ++ rest) = (s, rest)
  | [], rest, _, hr => by
    rw [utf8_nil, List.nil_append]
    match rest, hr with
    | [], _ => rfl
    | b :: bs, hr =>
      have : ¬ p (chr b) = true := fun h => by
        have h1 := hp _ h
        have h2 := hr b bs rfl
        rw [h1] at h2
        cases h2
      simp [lexWhile, this]
  | c :: s, rest, h, hr => by
    have hc := h c (by simp)
    have ha := isId_ascii (hp c hc)
    rw [utf8_cons ha, List.cons_append]
    simp only [lexWhile]
    rw [chr_byte (by omega), if_pos hc, lexWhile_spec p hp s rest (fun x hx => h x (by simp [hx])) hr]

/-- Prefixing tokens. -/
def pre (ts : List Tok) (o : Option (List Tok)) : Option (List Tok) := o.map (ts ++ ·)

theorem pre_nil (o : Option (List Tok)) : pre [] o = o := by cases o <;> rfl
theorem pre_pre (a b : List Tok) (o : Option (List Tok)) : pre a (pre b o) = pre (a ++ b) o := by
  cases o <;> simp [pre]

theorem lex_punct {c : Char} {t : Tok} (h : c.toNat < 128) (hp : punct c = some (some t)) (bs : List UInt8) :
    lex (byte c :: bs) = pre [t] (lex bs) := by
  rw [lex]
  simp only [chr_byte (show c.toNat < 256 by omega), hp]
  rfl

theorem lex_space (bs : List UInt8) : lex (byte ' ' :: bs) = lex bs := by
  rw [lex]
  simp only [chr_byte (show (' ').toNat < 256 by decide)]
  rfl

theorem punct_quote : punct '"' = none := by decide

theorem lex_quote (s : List Char) (rest : List UInt8) (h : '"' ∉ s) :
    lex (byte '"' :: utf8 s ++ byte '"' :: rest) = pre [.const (.str (latin1 (utf8 s)))] (lex rest) := by
  rw [List.cons_append, lex]
  simp only [chr_byte (show ('"').toNat < 256 by decide), punct_quote, if_true, lexStr_spec s rest h]
  rfl

theorem dig_facts {c : Char} (h : isDig c = true) : punct c = none ∧ c ≠ '"' ∧ c ≠ '-' := by
  simp only [isDig, Bool.and_eq_true, decide_eq_true_eq] at h
  have e : ∀ d : Char, ('0' ≤ d ∧ d ≤ '9') = False → c ≠ d := by
    rintro d hd rfl; rw [← hd]; exact h
  refine ⟨?_, e _ (by decide), e _ (by decide)⟩
  unfold punct
  rw [if_neg (e _ (by decide)), if_neg (e _ (by decide)), if_neg (e _ (by decide)), if_neg (e _ (by decide)), if_neg (e _ (by decide)),
    if_neg (e _ (by decide)), if_neg (e _ (by decide)), if_neg (e _ (by decide)), if_neg (e _ (by decide))]

theorem id0_facts {c : Char} (h : isId0 c = true) : punct c = none ∧ c ≠ '"' ∧ c ≠ '-' ∧ isDig c = false := by
  have e : ∀ d : Char, isId0 d = false → c ≠ d := by
    rintro d hd rfl; rw [h] at hd; cases hd
  refine ⟨?_, e _ (by decide), e _ (by decide), ?_⟩
  · unfold punct
    rw [if_neg (e _ (by decide)), if_neg (e _ (by decide)), if_neg (e _ (by decide)), if_neg (e _ (by decide)), if_neg (e _ (by decide)),
      if_neg (e _ (by decide)), if_neg (e _ (by decide)), if_neg (e _ (by decide)), if_neg (e _ (by decide))]
  · rw [Bool.eq_false_iff]
    intro hd
    simp only [isDig, Bool.and_eq_true, decide_eq_true_eq, Char.le_def, UInt32.le_iff_toNat_le] at hd
    simp only [isId0, Bool.or_eq_true, Bool.and_eq_true, decide_eq_true_eq, beq_iff_eq, Char.le_def, UInt32.le_iff_toNat_le] at h
    have h0 := hd.2
    simp at h0
    rcases h with (h | h) | h
    · have := h.1; simp at this; omega
    · have := h.1; simp at this; omega
    · subst h; revert h0; decide

theorem lex_ident (c : Char) (s : List Char) (rest : List UInt8) (hc : isId0 c = true) (hs : ∀ x ∈ s, isId x = true) (hr : Delim rest) :
    lex (utf8 (c :: s) ++ rest) = pre [.ident (c :: s)] (lex rest) := by
  have ha := isId_ascii (isId_of_isId0 hc)
  obtain ⟨h1, h2, h3, h4⟩ := id0_facts hc
  rw [utf8_cons ha, List.cons_append, lex]
  simp only [chr_byte (show c.toNat < 256 by omega), h1, if_neg h2, if_neg h3, h4, hc, if_true, lexWhile_spec isId (fun _ h => h) s rest hs hr]
  rfl

theorem lex_digits (c : Char) (s : List Char) (rest : List UInt8) (hc : isDig c = true) (hs : ∀ x ∈ s, isDig x = true) (hr : Delim rest) :
    lex (utf8 (c :: s) ++ rest) =
      match usizeOf (c :: s) with
      | none => none
      | some n => pre [.const (.nat n)] (lex rest) := by
  have ha := isId_ascii (isId_of_isDig hc)
  obtain ⟨h1, h2, h3⟩ := dig_facts hc
  rw [utf8_cons ha, List.cons_append, lex]
  simp only [chr_byte (show c.toNat < 256 by omega), h1, if_neg h2, if_neg h3, hc, if_true, lexWhile_spec isDig (fun _ h => isId_of_isDig h) s rest hs hr]
  rfl

theorem lex_minus (s : List Char) (rest : List UInt8) (hs : ∀ x ∈ s, isDig x = true) (hr : Delim rest) :
    lex (utf8 ('-' :: s) ++ rest) =
      match isizeOf s with
      | none => none
      | some i => pre [.const (.num i)] (lex rest) := by
  rw [utf8_cons (by decide), List.cons_append, lex]
  simp only [chr_byte (show ('-').toNat < 256 by decide), show punct '-' = none by decide, if_neg (show ('-' : Char) ≠ '"' by decide),
    if_true, lexWhile_spec isDig (fun _ h => isId_of_isDig h) s rest hs hr]
  rfl

theorem isDig_toDigits {n : Nat} {c : Char} (h : c ∈ Nat.toDigits 10 n) : isDig c = true := by
  have := Nat.isDigit_of_mem_toDigits (by decide) (by decide) h
  simpa [isDig, Char.isDigit, Char.le_def] using this

/-- A printed natural number is lexed as one token; the lexer panics if it does not fit in `usize`. -/
theorem lex_nat (n : Nat) (rest : List UInt8) (hr : Delim rest) :
    lex (utf8 (Nat.toDigits 10 n) ++ rest) = if n < 2 ^ 64 then pre [.const (.nat n)] (lex rest) else none := by
  have hd : ∀ c ∈ Nat.toDigits 10 n, isDig c = true := fun c hc => isDig_toDigits hc
  have hn := Nat.ofDigitChars_toDigits (b := 10) (n := n) (by decide) (by decide)
  rcases hs : Nat.toDigits 10 n with _ | ⟨c, s⟩
  · exact absurd hs Nat.toDigits_ne_nil
  · rw [hs] at hd hn
    rw [lex_digits c s rest (hd c (by simp)) (fun x hx => hd x (by simp [hx])) hr]
    unfold usizeOf
    simp only [hn]
    by_cases h : n < 2 ^ 64
    · rw [if_pos h, if_pos h]
    · rw [if_neg h, if_neg h]

/-- A printed integer is lexed as one token (nonnegative ones as naturals). -/
theorem lex_int (i : Int) (rest : List UInt8) (h1 : -2 ^ 63 ≤ i) (h2 : i < 2 ^ 63) (hr : Delim rest) :
    lex (utf8 (printInt i) ++ rest) = pre [.const (if 0 ≤ i then .nat i.toNat else .num i)] (lex rest) := by
  unfold printInt
  by_cases h : 0 ≤ i
  · rw [if_pos h, if_pos h, lex_nat _ _ hr, if_pos (by omega)]
  · rw [if_neg h, if_neg h, lex_minus _ _ (fun x hx => isDig_toDigits hx) hr]
    unfold isizeOf
    rw [if_neg Nat.toDigits_ne_nil, Nat.ofDigitChars_toDigits (by decide) (by decide)]
    have h3 : (-i).toNat ≤ 2 ^ 63 := by omega
    have h4 : -((-i).toNat : Int) = i := by omega
    simp only [h3, if_true, h4]

end Adapton.Reflect
