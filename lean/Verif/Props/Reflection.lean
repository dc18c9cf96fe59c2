import Verif.Reflect.ParsePrint
/-
C47, C53: `parse_val` (and so `reflect_val`) on the `Debug` text of values.  The printer and the specification `refl` are in
`Reflect/Debug.lean`.
-/
namespace Adapton.Reflect

variable (H : NameHash) (prn : Char → Bool)

/-- C47: `parse_val` comes to an end on every text: the fuel of the model is never exhausted. -/
theorem parse_val_terminates (bs : List UInt8) : parseBytes H bs ≠ .fuel := by
  unfold parseBytes
  split
  · intro h; cases h
  · rename_i ts _
    refine PRes.bind_nf ((parse_fuel H _).1 ts (by omega)).1 fun a _ => ?_
    split <;> (intro h; cases h)

theorem pbind_ok {α β : Type} {a : PRes α} {f : α → PRes β} {b : β} (h : a.bind f = .ok b) : ∃ x, a = .ok x ∧ f x = .ok b := by
  cases a with
  | ok x => exact ⟨x, rfl, h⟩
  | _ => cases h

/-- C47: the two readers of names agree: what is read as a name inside the path of an art is read as the same name elsewhere. -/
theorem name_readers_agree : ∀ (v : Val) (n : Name), nameOfVal H v = .ok n → nameOptionOfVal H v = .ok (some n)
  | .constr c args, n, h => by
    unfold nameOfVal at h
    unfold nameOptionOfVal
    by_cases h1 : c = nameOfStr H "Unit"
    · rw [if_pos h1] at h ⊢; cases h; rfl
    rw [if_neg h1] at h ⊢
    by_cases h2 : c = nameOfStr H "Hash64"
    · rw [if_pos h2] at h ⊢; cases h; rfl
    rw [if_neg h2] at h ⊢
    by_cases h3 : c = nameOfStr H "String"
    · rw [if_pos h3] at h ⊢
      split at h
      · cases h; rfl
      · cases h
    rw [if_neg h3] at h ⊢
    by_cases h4 : c = nameOfStr H "Usize"
    · rw [if_pos h4] at h ⊢
      split at h
      · cases h; rfl
      · cases h
    rw [if_neg h4] at h ⊢
    by_cases h5 : c = nameOfStr H "Isize"
    · rw [if_pos h5] at h; cases h
    rw [if_neg h5] at h ⊢
    by_cases h6 : c = nameOfStr H "Pair"
    · rw [if_pos h6] at h ⊢
      match args, h with
      | a :: b :: _, h =>
        obtain ⟨n1, e1, h⟩ := pbind_ok h
        obtain ⟨n2, e2, h⟩ := pbind_ok h
        simp only [name_readers_agree a n1 e1, name_readers_agree b n2 e2]
        cases h; rfl
      | [a], h => obtain ⟨n1, e1, h⟩ := pbind_ok h; cases h
      | [], h => cases h
    rw [if_neg h6] at h ⊢
    by_cases h7 : c = nameOfStr H "ForkL"
    · rw [if_pos h7] at h ⊢
      match args, h with
      | a :: _, h =>
        obtain ⟨n1, e1, h⟩ := pbind_ok h
        simp only [name_readers_agree a n1 e1]
        cases h; rfl
      | [], h => cases h
    rw [if_neg h7] at h ⊢
    by_cases h8 : c = nameOfStr H "ForkR"
    · rw [if_pos h8] at h ⊢
      match args, h with
      | a :: _, h =>
        obtain ⟨n1, e1, h⟩ := pbind_ok h
        simp only [name_readers_agree a n1 e1]
        cases h; rfl
      | [], h => cases h
    rw [if_neg h8] at h; cases h
  | .name m, n, h => by
    unfold nameOfVal at h
    cases h
    unfold nameOptionOfVal
    rfl
  | .const _, n, h => by unfold nameOfVal at h; cases h
  | .tuple _, n, h => by unfold nameOfVal at h; cases h
  | .vec _, n, h => by unfold nameOfVal at h; cases h
  | .struct _ _, n, h => by unfold nameOfVal at h; cases h
  | .art _, n, h => by unfold nameOfVal at h; cases h

/-! ## Round trip -/

theorem escChar_plain {c : Char} (h : Plain c) : escChar prn c = [c] := by
  obtain ⟨h1, h2, h3, h4⟩ := h
  have e : ∀ d : Char, d.toNat < 32 → c ≠ d := by rintro d hd rfl; omega
  unfold escChar
  rw [if_neg h3, if_neg h4, if_neg (e _ (by decide)), if_neg (e _ (by decide)), if_neg (e _ (by decide)), if_neg (e _ (by decide)),
    if_pos (Or.inl ⟨h1, h2⟩)]

theorem esc_plain : ∀ s : List Char, (∀ c ∈ s, Plain c) → esc prn s = s
  | [], _ => rfl
  | c :: s, h => by
    have ih := esc_plain s (fun x hx => h x (by simp [hx]))
    unfold esc at ih ⊢
    rw [List.flatMap_cons, ih, escChar_plain prn (h c (by simp))]
    rfl

theorem seen_plain (s : List Char) (h : ∀ c ∈ s, Plain c) : seen prn s = s := by
  unfold seen
  rw [esc_plain prn s h]
  exact latin1_ascii s fun c hc => by have := (h c hc).2.1; omega

theorem noquote_plain {s : List Char} (h : ∀ c ∈ s, Plain c) : '"' ∉ s := fun hq => (h _ hq).2.2.1 rfl

theorem symLex : ∀ s : NameSym, SymOk s → SymLex s
  | .unit, _ => trivial
  | .hash64, _ => trivial
  | .str _, h => noquote_plain h
  | .usize _, h => h
  | .isize _, h => h.elim
  | .pair a b, h => ⟨symLex a h.1, symLex b h.2⟩
  | .forkL a, h => symLex a h
  | .forkR a, h => symLex a h

theorem canon_built {n : Name} (hb : Built H n) : SymOk n.sym → canon H prn n.sym = some n := by
  induction hb with
  | unit => intro _; rfl
  | str s =>
    intro h
    show some (nameOfChars H (seen prn s.toList)) = _
    rw [seen_plain prn _ h, nameOfChars_lit]
    rfl
  | usize n => intro _; rfl
  | isize i => intro h; exact h.elim
  | @pair a b _ _ iha ihb =>
    intro h
    show (canon H prn a.sym).bind _ = _
    rw [iha h.1]
    show (canon H prn b.sym).map _ = _
    rw [ihb h.2]
    rfl
  | @forkL a _ ih =>
    intro h
    show (canon H prn a.sym).map _ = _
    rw [ih h]
    rfl
  | @forkR a _ ih =>
    intro h
    show (canon H prn a.sym).map _ = _
    rw [ih h]
    rfl

theorem valSym_built {n : Name} (h : NameOk H n) :
    valSym H prn n.sym = some (if n.sym = .unit then .constr (nameOfStr H "Unit") [] else .name n) := by
  have hc := canon_built H prn h.1 h.2
  cases hs : n.sym with
  | unit => rfl
  | hash64 => have := h.2; rw [hs] at this; exact this.elim
  | str s => rw [hs] at hc; simp [valSym, hc]
  | usize s => rw [hs] at hc; simp [valSym, hc]
  | isize s => rw [hs] at hc; simp [valSym, hc]
  | pair a b => rw [hs] at hc; simp [valSym, hc]
  | forkL a => rw [hs] at hc; simp [valSym, hc]
  | forkR a => rw [hs] at hc; simp [valSym, hc]

theorem canonPath_ok : ∀ p : Path, PathOk H p → PathLex p ∧ canonPath H prn p = some (reflPath p)
  | .empty, _ => ⟨trivial, rfl⟩
  | .child p n, h => by
    obtain ⟨h1, h2⟩ := canonPath_ok p h.1
    refine ⟨⟨h1, symLex _ h.2.2⟩, ?_⟩
    simp [canonPath, h2, canon_built H prn h.2.1 h.2.2, reflPath]

mutual
theorem ok_all : ∀ d : D, Ok H d → LexOk d ∧ Plainly d ∧ reflO H prn d = some (refl H d)
  | .nat n, h => ⟨h, trivial, rfl⟩
  | .int i, h => ⟨h, trivial, by
      simp only [reflO, refl]
      by_cases hi : 0 ≤ i
      · rw [if_pos hi, if_pos hi]
      · rw [if_neg hi, if_neg hi]⟩
  | .str s, h => ⟨noquote_plain h, trivial, by simp only [reflO, refl, seen_plain prn s h]⟩
  | .tuple ds, h => by
    obtain ⟨h1, h2, h3⟩ := ok_allL ds h
    exact ⟨h1, h2, by simp only [reflO, refl, h3, Option.map_some]⟩
  | .vec ds, h => by
    obtain ⟨h1, h2, h3⟩ := ok_allL ds h
    exact ⟨h1, h2, by simp only [reflO, refl, h3, Option.map_some]⟩
  | .constr c ds, h => by
    obtain ⟨h1, h2, h3⟩ := ok_allL ds h.2.2
    exact ⟨⟨h.1, h1⟩, ⟨h.2.1, h2⟩, by simp only [reflO, refl, h3, Option.map_some]⟩
  | .struct c [], h => absurd rfl h.2.1
  | .struct c (f :: fs), h => by
    obtain ⟨h1, h2, h3⟩ := ok_allF (f :: fs) h.2.2.2
    exact ⟨⟨h.1, h1⟩, ⟨h.2.2.1, h2⟩, by simp only [reflO, refl, h3, Option.map_some]⟩
  | .name n, h => ⟨symLex _ h.2, trivial, by simp only [reflO, refl, valSym_built H prn h]⟩
  | .art ⟨p, .nominal n⟩, h => by
    obtain ⟨h1, h2⟩ := canonPath_ok H prn p h.1
    refine ⟨⟨h1, symLex _ h.2.2⟩, trivial, ?_⟩
    simp only [reflO, refl, h2, canonId, canon_built H prn h.2.1 h.2.2, Option.bind_some, Option.map_some, reflLoc]
  | .art ⟨p, .structural n⟩, h => h.elim
theorem ok_allL : ∀ ds : List D, OkL H ds → LexOkL ds ∧ PlainlyL ds ∧ reflOL H prn ds = some (reflL H ds)
  | [], _ => ⟨trivial, trivial, rfl⟩
  | d :: ds, h => by
    obtain ⟨a1, a2, a3⟩ := ok_all d h.1
    obtain ⟨b1, b2, b3⟩ := ok_allL ds h.2
    exact ⟨⟨a1, b1⟩, ⟨a2, b2⟩, by simp only [reflOL, reflL, a3, b3, Option.bind_some, Option.map_some]⟩
theorem ok_allF : ∀ fs : List (List Char × D), OkF H fs → LexOkF fs ∧ PlainlyF fs ∧ reflOF H prn fs = some (reflF H fs)
  | [], _ => ⟨trivial, trivial, rfl⟩
  | (f, d) :: fs, h => by
    obtain ⟨a1, a2, a3⟩ := ok_all d h.2.1
    obtain ⟨b1, b2, b3⟩ := ok_allF fs h.2.2
    exact ⟨⟨h.1, a1, b1⟩, ⟨a2, b2⟩, by simp only [reflOF, reflF, a3, b3, Option.bind_some, Option.map_some]⟩
end

/-- C47: for every value made of machine integers, plain strings, tuples, vectors, constructors, structs, names and nominal
articulations, of any depth, `parse_val` returns the reflection of that very value. -/
theorem parse_val_round_trip (d : D) (h : Ok H d) : parseVal H prn d = .ok (refl H d) := by
  obtain ⟨h1, h2, h3⟩ := ok_all H prn d h
  rw [parseVal_eq H prn d h1 h2, h3]
  rfl

/-- C47: an articulation reflects to the reflection of its location (`Reflect` for `Loc`, engine.rs:328-338). -/
theorem parse_val_art (p : Path) (n : Name) (hp : PathOk H p) (hn : NameOk H n) :
    parseVal H prn (.art ⟨p, .nominal n⟩) = .ok (.art ⟨reflPath p, n⟩) :=
  parse_val_round_trip H prn (.art ⟨p, .nominal n⟩) ⟨hp, hn⟩

/-- A list cell as the collections print it, `Cons(-3, Art { .. })` with the articulation in a namespace, meets the hypothesis. -/
example : Ok H (.constr "Cons".toList [.int (-3), .struct "Pt".toList [("x_1".toList, .str "a b".toList)],
    .tuple [.name (nameFork H (nameOfUsize H 7)).1],
    .art ⟨.child .empty (nameOfString H "ns"), .nominal (namePair H (nameOfUsize H 1) nameUnit)⟩]) := by
  refine ⟨identOk_lit _ (by decide), fun _ => by decide, ⟨by decide, by decide⟩, ?_, ?_, ?_, trivial⟩
  · refine ⟨identOk_lit _ (by decide), (fun h => by cases h), (fun h => absurd h (by decide)), identOk_lit _ (by decide), ?_, trivial⟩
    show ∀ c ∈ "a b".toList, Plain c
    simp [Plain]
  · exact ⟨⟨.forkL (.usize 7), show 7 < 2 ^ 64 by decide⟩, trivial⟩
  · refine ⟨⟨trivial, .str _, ?_⟩, .pair (.usize 1) .unit, show 1 < 2 ^ 64 by decide, trivial⟩
    show ∀ c ∈ "ns".toList, Plain c
    simp [Plain]

/-! ## C53: what is not reflected faithfully -/

theorem latin1_length (bs : List UInt8) : (latin1 bs).length = bs.length := by simp [latin1]

theorem utf8_length : ∀ s : List Char, s.length ≤ (utf8 s).length ∧ ((∃ c ∈ s, 128 ≤ c.toNat) → s.length < (utf8 s).length)
  | [] => ⟨Nat.le_refl _, fun ⟨_, h, _⟩ => by cases h⟩
  | c :: s => by
    obtain ⟨h1, h2⟩ := utf8_length s
    have e : (utf8 (c :: s)).length = (String.utf8EncodeChar c).length + (utf8 s).length := by simp [utf8]
    rw [e, List.length_cons]
    by_cases hc : c.toNat < 128
    · rw [enc_ascii hc]
      refine ⟨by simp; omega, ?_⟩
      rintro ⟨x, hx, h⟩
      rcases List.mem_cons.1 hx with rfl | hx
      · omega
      · have := h2 ⟨x, hx, h⟩
        simp; omega
    · have := (enc_high (by omega : 128 ≤ c.toNat)).2
      exact ⟨by omega, fun _ => by omega⟩

theorem escChar_length (c : Char) : 1 ≤ (escChar prn c).length ∧ (escChar prn c ≠ [c] → 2 ≤ (escChar prn c).length) := by
  unfold escChar
  repeat' split
  all_goals simp

theorem esc_length : ∀ s : List Char, s.length ≤ (esc prn s).length ∧ ((∃ c ∈ s, escChar prn c ≠ [c]) → s.length < (esc prn s).length)
  | [] => ⟨Nat.le_refl _, fun ⟨_, h, _⟩ => by cases h⟩
  | c :: s => by
    obtain ⟨h1, h2⟩ := esc_length s
    obtain ⟨l1, l2⟩ := escChar_length prn c
    have e : (esc prn (c :: s)).length = (escChar prn c).length + (esc prn s).length := by simp [esc]
    rw [e, List.length_cons]
    refine ⟨by omega, ?_⟩
    rintro ⟨x, hx, h⟩
    rcases List.mem_cons.1 hx with rfl | hx
    · have := l2 h; omega
    · have := h2 ⟨x, hx, h⟩; omega

theorem esc_eq_of_fix : ∀ s : List Char, (∀ c ∈ s, escChar prn c = [c]) → esc prn s = s
  | [], _ => rfl
  | c :: s, h => by
    have ih := esc_eq_of_fix s (fun x hx => h x (by simp [hx]))
    unfold esc at ih ⊢
    rw [List.flatMap_cons, ih, h c (by simp)]
    rfl

/-- C53 (deviation): a string without double quotes is reflected as its escaped text read byte by byte, and that is the string itself
exactly when every character is printable ASCII other than the backslash. -/
theorem string_reflection (s : List Char) (h : '"' ∉ s) :
    parseVal H prn (.str s) = .ok (.const (.str (latin1 (utf8 (esc prn s))))) ∧
    (parseVal H prn (.str s) = .ok (.const (.str s)) ↔ ∀ c ∈ s, Plain c) := by
  have h1 : parseVal H prn (.str s) = .ok (.const (.str (latin1 (utf8 (esc prn s))))) := parseVal_eq H prn (.str s) h trivial
  refine ⟨h1, ?_, fun hp => ?_⟩
  · rw [h1]
    intro he
    injection he with he
    injection he with he
    injection he with he
    have hl : (utf8 (esc prn s)).length = s.length := by rw [← latin1_length, he]
    have hfix : ∀ c ∈ s, escChar prn c = [c] := by
      intro c hc
      refine Classical.byContradiction fun hn => ?_
      have := (esc_length prn s).2 ⟨c, hc, hn⟩
      have := (utf8_length (esc prn s)).1
      omega
    rw [esc_eq_of_fix prn s hfix] at hl
    intro c hc
    have hlt : c.toNat < 128 := by
      refine Classical.byContradiction fun hn => ?_
      have := (utf8_length s).2 ⟨c, hc, by omega⟩
      omega
    have hf := hfix c hc
    unfold escChar at hf
    repeat' (split at hf)
    all_goals first
      | (exfalso; simp at hf; done)
      | skip
    rename_i q1 q2 q3 q4 q5 q6 q7
    exact ⟨by omega, by omega, q1, q2⟩
  · rw [h1]
    have := seen_plain prn s hp
    unfold seen at this
    rw [this]

theorem lex_empty_noquote (bs : List UInt8) : lex bs = some [] → ∀ b ∈ bs, chr b ≠ '"' := by
  fun_induction lex bs with
  | case1 => intro _ b hb; cases hb
  | case2 b bs c hp ih =>
    intro h x hx
    rcases List.mem_cons.1 hx with rfl | hx
    · intro he; simp only [c] at hp; rw [he] at hp; simp [punct] at hp
    · exact ih h x hx
  | case3 b bs c t hp ih => intro h; simp at h
  | case4 b bs c hp hq ih => intro h; simp at h
  | case5 b bs c hp hq hm hn => intro h; cases h
  | case6 b bs c hp hq hm i hn ih => intro h; simp at h
  | case7 => intro h; cases h
  | case8 => intro h; simp at h
  | case9 => intro h; simp at h
  | case10 b bs c hp hq hm hd hi ih =>
    intro h x hx
    rcases List.mem_cons.1 hx with rfl | hx
    · exact hq
    · exact ih h x hx

/-- The escaped text of a string with a double quote: the text before the first one, the escaped quote, the rest. -/
theorem esc_split : ∀ s : List Char, '"' ∈ s → ∃ a b, esc prn s = a ++ '\\' :: '"' :: b ∧ '"' ∉ a
  | c :: s, h => by
    by_cases hc : c = '"'
    · subst hc
      exact ⟨[], esc prn s, by simp [esc, escChar], by simp⟩
    · have : '"' ∈ s := by
        rcases List.mem_cons.1 h with h | h
        · exact absurd h.symm hc
        · exact h
      obtain ⟨a, b, he, ha⟩ := esc_split s this
      refine ⟨escChar prn c ++ a, b, ?_, ?_⟩
      · unfold esc at he ⊢
        rw [List.flatMap_cons, he, List.append_assoc]
      · simp only [List.mem_append, not_or]
        exact ⟨escChar_noquote hc, ha⟩

/-- C53 (deviation): reflecting a string that has a double quote panics. -/
theorem string_with_quote_panics (s : List Char) (h : '"' ∈ s) : parseVal H prn (.str s) = .panic := by
  obtain ⟨a, b, he, ha⟩ := esc_split prn s h
  have e1 : utf8 (print prn (.str s)) = byte '"' :: utf8 (a ++ ['\\']) ++ byte '"' :: (utf8 b ++ [byte '"']) := by
    simp only [print, printStr, he]
    rw [show '"' :: (a ++ '\\' :: '"' :: b) ++ ['"'] = '"' :: ((a ++ ['\\']) ++ '"' :: (b ++ ['"'])) by simp]
    rw [utf8_cons (by decide), utf8_append, utf8_cons (by decide), utf8_append b, utf8_cons (by decide), utf8_nil]
    rfl
  unfold parseVal parseBytes
  rw [e1, lex_quote _ _ (by simp [ha])]
  rcases hl : lex (utf8 b ++ [byte '"']) with _ | ts
  · rfl
  · match ts, hl with
    | [], hl =>
      exact absurd (chr_byte (by decide)) (lex_empty_noquote _ hl (byte '"') (by simp))
    | t :: ts, hl => rfl

/-- C53 (deviation): inside another value the text may even parse as something else: a vector holding the one string `"` spaces `"`
reflects as a vector of two strings. -/
theorem quoted_string_splits (n : Nat) :
    parseVal H prn (.vec [.str ('"' :: List.replicate n ' ' ++ ['"'])]) = .ok (.vec [.const (.str ['\\']), .const (.str [])]) := by
  have hs : ∀ n, esc prn (List.replicate n ' ') = List.replicate n ' ' := fun n => esc_plain prn _ (by
    intro c hc; rw [(List.mem_replicate.1 hc).2]; exact ⟨by decide, by decide, by decide, by decide⟩)
  have he : esc prn ('"' :: List.replicate n ' ' ++ ['"']) = ['\\', '"'] ++ List.replicate n ' ' ++ ['\\', '"'] := by
    have := hs n
    unfold esc at this ⊢
    rw [List.flatMap_append, List.flatMap_cons, this]
    rfl
  have e1 : utf8 (print prn (.vec [.str ('"' :: List.replicate n ' ' ++ ['"'])])) =
      byte '[' :: (byte '"' :: utf8 ['\\'] ++ byte '"' :: (utf8 (List.replicate n ' ') ++ byte '\\' :: (byte '"' :: utf8 [] ++ byte '"' :: [byte ']']))) := by
    simp only [print, printSeq, printStr, he]
    rw [show '[' :: ('"' :: (['\\', '"'] ++ List.replicate n ' ' ++ ['\\', '"']) ++ ['"']) ++ [']'] =
      '[' :: '"' :: '\\' :: '"' :: (List.replicate n ' ' ++ ['\\', '"', '"', ']']) by simp]
    rw [utf8_cons (by decide), utf8_cons (by decide), utf8_cons (by decide), utf8_cons (by decide), utf8_append, utf8_cons (by decide),
      utf8_cons (by decide), utf8_cons (by decide), utf8_cons (by decide), utf8_nil, utf8_cons (by decide), utf8_nil]
    rfl
  have hsp : ∀ n bs, lex (utf8 (List.replicate n ' ') ++ bs) = lex bs := by
    intro n
    induction n with
    | zero => intro bs; rfl
    | succ n ih =>
      intro bs
      rw [List.replicate_succ, utf8_cons (by decide), List.cons_append, lex_space, ih]
  have hbs : ∀ bs, lex (byte '\\' :: bs) = lex bs := by
    intro bs
    rw [lex]
    simp only [chr_byte (show ('\\').toNat < 256 by decide), show punct '\\' = none by decide, if_neg (show ('\\' : Char) ≠ '"' by decide),
      if_neg (show ('\\' : Char) ≠ '-' by decide), show isDig '\\' = false by decide, show isId0 '\\' = false by decide]
    rfl
  have hl : lex (utf8 (print prn (.vec [.str ('"' :: List.replicate n ' ' ++ ['"'])]))) =
      some [.left .bracket, .const (.str ['\\']), .const (.str []), .right .bracket] := by
    rw [e1, lex_punct (t := .left .bracket) (by decide) (by decide), lex_quote _ _ (by decide), hsp, hbs, lex_quote _ _ (by decide),
      lex_punct (t := .right .bracket) (by decide) (by decide), lex]
    simp [pre]
    exact ⟨by decide, rfl⟩
  unfold parseVal parseBytes
  rw [hl]
  rfl

/-! Which values make `parse_val` panic -/

/-- The symbol has an `Isize` part. -/
def HasIsize : NameSym → Prop
  | .isize _ => True
  | .pair a b => HasIsize a ∨ HasIsize b
  | .forkL a => HasIsize a
  | .forkR a => HasIsize a
  | _ => False

def PathIsize : Path → Prop
  | .empty => False
  | .child p n => PathIsize p ∨ HasIsize n.sym

mutual
/-- The value has a structural articulation, or a name with an `Isize` part, somewhere. -/
def Unreflectable : D → Prop
  | .tuple ds => UnreflectableL ds
  | .vec ds => UnreflectableL ds
  | .constr _ ds => UnreflectableL ds
  | .struct _ fs => UnreflectableF fs
  | .name n => HasIsize n.sym
  | .art l => PathIsize l.path ∨ (match l.id with | .structural _ => True | .nominal n => HasIsize n.sym)
  | _ => False
def UnreflectableL : List D → Prop
  | [] => False
  | d :: ds => Unreflectable d ∨ UnreflectableL ds
def UnreflectableF : List (List Char × D) → Prop
  | [] => False
  | (_, d) :: fs => Unreflectable d ∨ UnreflectableF fs
end

theorem canon_isize : ∀ s : NameSym, HasIsize s ↔ canon H prn s = none
  | .unit => by simp [HasIsize, canon]
  | .hash64 => by simp [HasIsize, canon]
  | .str _ => by simp [HasIsize, canon]
  | .usize _ => by simp [HasIsize, canon]
  | .isize _ => by simp [HasIsize, canon]
  | .pair a b => by
    simp only [HasIsize, canon, canon_isize a, canon_isize b]
    cases canon H prn a <;> cases canon H prn b <;> simp
  | .forkL a => by simp [HasIsize, canon, canon_isize a]
  | .forkR a => by simp [HasIsize, canon, canon_isize a]

theorem canonPath_isize : ∀ p : Path, PathIsize p ↔ canonPath H prn p = none
  | .empty => by simp [PathIsize, canonPath]
  | .child p n => by
    simp only [PathIsize, canonPath, canonPath_isize p, canon_isize H prn n.sym]
    cases canonPath H prn p <;> cases canon H prn n.sym <;> simp

mutual
theorem unreflectable_iff : ∀ d : D, Unreflectable d ↔ reflO H prn d = none
  | .nat _ => by simp [Unreflectable, reflO]
  | .int _ => by simp [Unreflectable, reflO]
  | .str _ => by simp [Unreflectable, reflO]
  | .tuple ds => by simp [Unreflectable, reflO, unreflectable_iffL ds]
  | .vec ds => by simp [Unreflectable, reflO, unreflectable_iffL ds]
  | .constr _ ds => by simp [Unreflectable, reflO, unreflectable_iffL ds]
  | .struct _ [] => by simp [Unreflectable, UnreflectableF, reflO]
  | .struct _ (f :: fs) => by simp only [Unreflectable, reflO, unreflectable_iffF (f :: fs), Option.map_eq_none_iff]
  | .name n => by simp only [Unreflectable, reflO, canon_none, canon_isize H prn]
  | .art ⟨p, .structural h⟩ => by
    simp only [Unreflectable, reflO, canonId, Option.map_none, or_true, true_iff]
    cases canonPath H prn p <;> rfl
  | .art ⟨p, .nominal n⟩ => by
    simp only [Unreflectable, reflO, canonId, canonPath_isize H prn, canon_isize H prn]
    cases canonPath H prn p <;> cases canon H prn n.sym <;> simp
theorem unreflectable_iffL : ∀ ds : List D, UnreflectableL ds ↔ reflOL H prn ds = none
  | [] => by simp [UnreflectableL, reflOL]
  | d :: ds => by
    simp only [UnreflectableL, reflOL, unreflectable_iff d, unreflectable_iffL ds]
    cases reflO H prn d <;> cases reflOL H prn ds <;> simp
theorem unreflectable_iffF : ∀ fs : List (List Char × D), UnreflectableF fs ↔ reflOF H prn fs = none
  | [] => by simp [UnreflectableF, reflOF]
  | (f, d) :: fs => by
    simp only [UnreflectableF, reflOF, unreflectable_iff d, unreflectable_iffF fs]
    cases reflO H prn d <;> cases reflOF H prn fs <;> simp
end

/-- C53 (deviation): `parse_val` panics exactly on the values that hold a structurally identified articulation, or a name made with
`name_of_isize`, anywhere in them (among values without double quotes in strings, with machine integers only and no constructor called like
a name symbol). -/
theorem parse_val_panics_iff (d : D) (hl : LexOk d) (hp : Plainly d) : parseVal H prn d = .panic ↔ Unreflectable d := by
  rw [parseVal_eq H prn d hl hp, unreflectable_iff H prn d]
  cases reflO H prn d <;> simp [ofO]

/-- C53 (deviation): a vector with a structural thunk in it cannot be reflected. -/
theorem structural_art_panics (p : Path) (h : UInt64) (hp : PathLex p) : parseVal H prn (.art ⟨p, .structural h⟩) = .panic :=
  (parse_val_panics_iff H prn (.art ⟨p, .structural h⟩) ⟨hp, trivial⟩ trivial).2 (Or.inr trivial)

/-- C53 (deviation): `name_of_isize` names panic. -/
theorem isize_name_panics (i : Int) (h1 : -2 ^ 63 ≤ i) (h2 : i < 2 ^ 63) : parseVal H prn (.name (nameOfIsize H i)) = .panic :=
  (parse_val_panics_iff H prn (.name (nameOfIsize H i)) ⟨h1, h2⟩ trivial).2 trivial

/-- C53 (deviation): the hash of a `Hash64` name is lost: all of them reflect to the same value, and so do the arts they name. -/
theorem hash64_conflated (h h' : UInt64) :
    parseVal H prn (.name (nameOfHash64 h)) = parseVal H prn (.name (nameOfHash64 h')) ∧
    parseVal H prn (.art ⟨.empty, .nominal (nameOfHash64 h)⟩) = parseVal H prn (.art ⟨.empty, .nominal (nameOfHash64 h')⟩) ∧
    (parseVal H prn (.art ⟨.empty, .nominal (nameOfHash64 h)⟩) = .ok (.art (reflLoc ⟨.empty, .nominal (nameOfHash64 h)⟩)) ↔ h = 0) := by
  refine ⟨rfl, rfl, ?_⟩
  rw [parseVal_eq H prn (.art ⟨.empty, .nominal (nameOfHash64 h)⟩) ⟨trivial, trivial⟩ trivial]
  simp [reflO, canonPath, canonId, canon, nameOfHash64, ofO, reflLoc, reflPath]
  exact eq_comm

/-- C53 (deviation): a user's own constructor `Usize(n)`, `String(s)` or `ForkL(..)` is taken for a name; `Isize(..)` panics. -/
theorem user_constructor_taken_for_name (n : Nat) (hn : n < 2 ^ 64) (s : List Char) (hs : ∀ c ∈ s, Plain c) (ds : List D) (hl : LexOkL ds)
    (hp : PlainlyL ds) (hne : ds ≠ []) :
    parseVal H prn (.constr "Usize".toList [.nat n]) = .ok (.name (nameOfUsize H n)) ∧
    parseVal H prn (.constr "String".toList [.str s]) = .ok (.name (nameOfString H (String.ofList s))) ∧
    parseVal H prn (.constr "Isize".toList ds) = .panic := by
  have key : ∀ (c : List Char) (ds : List D) r, IdentOk c → LexOkL ds → Rec H (toks prn (.constr c ds)) r →
      parseVal H prn (.constr c ds) = r.bind fun r => if r.2 = [] then .ok r.1 else .panic := by
    intro c ds r h1 h2 h3
    unfold parseVal parseBytes
    rw [lex_print prn (.constr c ds) ⟨h1, h2⟩]
    show (parseRec H _ _).bind _ = _
    rw [h3.full]
  refine ⟨?_, ?_, ?_⟩
  · have := rec_call H "Usize".toList (vals_one H (b := .paren) (rest := []) (o := some _) (ts := []) (notSep_const _)
      (rec_const H (.nat n) _))
    simp only [Option.map_some, ofO, PRes.bind, nameOption_usize] at this
    rw [key _ [.nat n] _ (identOk_lit _ (by decide)) ⟨hn, trivial⟩ (by simpa [toks, toksSeq] using this)]
    rfl
  · have := rec_call H "String".toList (vals_one H (b := .paren) (rest := []) (o := some _) (ts := []) (notSep_const _)
      (rec_const H (.str (seen prn s)) _))
    simp only [Option.map_some, ofO, PRes.bind, nameOption_str] at this
    rw [key _ [.str s] _ (identOk_lit _ (by decide)) ⟨noquote_plain hs, trivial⟩ (by simpa [toks, toksSeq, toksStr, seen] using this)]
    have e := seen_plain prn s hs
    unfold seen at e
    rw [e]
    rfl
  · match ds, hne with
    | d :: ds, _ =>
      have := rec_call H "Isize".toList (vals_seq H prn (d :: ds) hp [] [] .paren)
      have e : toks prn (.constr "Isize".toList (d :: ds)) = .ident "Isize".toList :: .left .paren :: (toksSeq prn (d :: ds) ++ .right .paren :: []) := by
        simp [toks]
      rw [← e] at this
      rw [key _ _ _ (identOk_lit _ (by decide)) hl this]
      simp only [nameOption_isize]
      cases reflOL H prn (d :: ds) <;> rfl

/-- C53 (deviation): a number that does not fit in 64 bits (a `u128`, say) panics. -/
theorem big_number_panics (n : Nat) (h : 2 ^ 64 ≤ n) : parseVal H prn (.nat n) = .panic := by
  unfold parseVal parseBytes
  have := lex_nat n [] Delim.nil
  rw [List.append_nil, if_neg (by omega)] at this
  simp only [print]
  rw [this]

/-- The hypotheses hold of strings and values that do occur. -/
example : '"' ∉ ['a', '\n'] ∧ ¬ (∀ c ∈ ['a', '\n'], Plain c) ∧ '"' ∈ ['"'] := by
  refine ⟨by decide, ?_, by decide⟩
  intro h
  have := (h '\n' (by simp)).1
  revert this
  decide
example : LexOk (.vec [.name (nameOfIsize H 3)]) ∧ Plainly (.vec [.name (nameOfIsize H 3)]) ∧ Unreflectable (.vec [.name (nameOfIsize H 3)]) :=
  ⟨⟨⟨by decide, by decide⟩, trivial⟩, ⟨trivial, trivial⟩, Or.inl trivial⟩

end Adapton.Reflect
