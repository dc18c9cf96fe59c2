import Verif.Reflect.Lex
/-
The tokens of a printed value.
-/
namespace Adapton.Reflect

/-! ## Tokens of a value -/

def toksInt (i : Int) : List Tok := [.const (if 0 ≤ i then .nat i.toNat else .num i)]
def toksStr (prn : Char → Bool) (s : List Char) : List Tok := [.const (.str (latin1 (utf8 (esc prn s))))]

def toksSym (prn : Char → Bool) : NameSym → List Tok
  | .unit => [.ident "Unit".toList]
  | .hash64 => [.ident "Hash64".toList]
  | .str s => .ident "String".toList :: .left .paren :: toksStr prn s.toList ++ [.right .paren]
  | .usize n => .ident "Usize".toList :: .left .paren :: .const (.nat n) :: [.right .paren]
  | .isize i => .ident "Isize".toList :: .left .paren :: toksInt i ++ [.right .paren]
  | .pair a b => .ident "Pair".toList :: .left .paren :: toksSym prn a ++ .comma :: toksSym prn b ++ [.right .paren]
  | .forkL a => .ident "ForkL".toList :: .left .paren :: toksSym prn a ++ [.right .paren]
  | .forkR a => .ident "ForkR".toList :: .left .paren :: toksSym prn a ++ [.right .paren]

def toksPath (prn : Char → Bool) : Path → List Tok
  | .empty => []
  | .child p n => toksPath prn p ++ .comma :: toksSym prn n.sym

def toksId (prn : Char → Bool) : ArtId → List Tok
  | .structural h => [.const (.nat h.toNat)]
  | .nominal n => toksSym prn n.sym

def toksArt (prn : Char → Bool) (l : Loc) : List Tok :=
  [.ident "Art".toList, .left .brace, .ident "art".toList, .colon, .ident "Loc".toList, .left .brace, .ident "path".toList, .colon,
    .left .bracket] ++ toksPath prn l.path ++ [.right .bracket, .comma, .ident "id".toList, .colon] ++ toksId prn l.id ++
    [.right .brace, .right .brace]

mutual
def toks (prn : Char → Bool) : D → List Tok
  | .nat n => [.const (.nat n)]
  | .int i => toksInt i
  | .str s => toksStr prn s
  | .tuple [d] => .left .paren :: toks prn d ++ [.comma, .right .paren]
  | .tuple ds => .left .paren :: toksSeq prn ds ++ [.right .paren]
  | .vec ds => .left .bracket :: toksSeq prn ds ++ [.right .bracket]
  | .constr c [] => [.ident c]
  | .constr c ds => .ident c :: .left .paren :: toksSeq prn ds ++ [.right .paren]
  | .struct c [] => [.ident c]
  | .struct c fs => .ident c :: .left .brace :: toksFields prn fs ++ [.right .brace]
  | .name n => toksSym prn n.sym
  | .art l => toksArt prn l
def toksSeq (prn : Char → Bool) : List D → List Tok
  | [] => []
  | [d] => toks prn d
  | d :: ds => toks prn d ++ .comma :: toksSeq prn ds
def toksFields (prn : Char → Bool) : List (List Char × D) → List Tok
  | [] => []
  | [(f, d)] => .ident f :: .colon :: toks prn d
  | (f, d) :: fs => .ident f :: .colon :: toks prn d ++ .comma :: toksFields prn fs
end

/-! ## Values that are lexed as they are meant -/

def SymLex : NameSym → Prop
  | .unit => True
  | .hash64 => True
  | .str s => '"' ∉ s.toList
  | .usize n => n < 2 ^ 64
  | .isize i => -2 ^ 63 ≤ i ∧ i < 2 ^ 63
  | .pair a b => SymLex a ∧ SymLex b
  | .forkL a => SymLex a
  | .forkR a => SymLex a

def PathLex : Path → Prop
  | .empty => True
  | .child p n => PathLex p ∧ SymLex n.sym

def IdLex : ArtId → Prop
  | .structural _ => True
  | .nominal n => SymLex n.sym

mutual
def LexOk : D → Prop
  | .nat n => n < 2 ^ 64
  | .int i => -2 ^ 63 ≤ i ∧ i < 2 ^ 63
  | .str s => '"' ∉ s
  | .tuple ds => LexOkL ds
  | .vec ds => LexOkL ds
  | .constr c ds => IdentOk c ∧ LexOkL ds
  | .struct c fs => IdentOk c ∧ LexOkF fs
  | .name n => SymLex n.sym
  | .art l => PathLex l.path ∧ IdLex l.id
def LexOkL : List D → Prop
  | [] => True
  | d :: ds => LexOk d ∧ LexOkL ds
def LexOkF : List (List Char × D) → Prop
  | [] => True
  | (f, d) :: fs => IdentOk f ∧ LexOk d ∧ LexOkF fs
end

theorem escChar_noquote {prn : Char → Bool} {c : Char} (h : c ≠ '"') : '"' ∉ escChar prn c := by
  unfold escChar
  rw [if_neg h]
  repeat' split
  all_goals first
    | decide
    | (simp only [List.mem_singleton]; exact fun e => h e.symm)
    | skip
  simp only [List.mem_append, not_or]
  refine ⟨⟨by decide, ?_⟩, by decide⟩
  intro hm
  have : ∀ (f n : Nat) (cs : List Char), '"' ∈ Nat.toDigitsCore 16 f n cs → '"' ∈ cs := by
    intro f
    induction f with
    | zero => intro n cs h; simpa [Nat.toDigitsCore] using h
    | succ f ih =>
      intro n cs h
      have hd : ∀ k, k < 16 → (Nat.digitChar k) ≠ '"' := by decide
      rw [Nat.toDigitsCore] at h
      split at h
      · simp only [List.mem_cons] at h
        rcases h with h | h
        · exact absurd h.symm (hd _ (Nat.mod_lt _ (by decide)))
        · exact h
      · have := ih _ _ h
        simp only [List.mem_cons] at this
        rcases this with h | h
        · exact absurd h.symm (hd _ (Nat.mod_lt _ (by decide)))
        · exact h
  have := this _ _ _ hm
  simp at this

theorem esc_noquote {prn : Char → Bool} {s : List Char} (h : '"' ∉ s) : '"' ∉ esc prn s := by
  unfold esc
  simp only [List.mem_flatMap, not_exists, not_and]
  intro c hc
  exact escChar_noquote (fun e => h (e ▸ hc))

theorem delim_cons {c : Char} (h : isId c = false) (h2 : c.toNat < 128) (bs : List UInt8) : Delim (byte c :: bs) := by
  intro b bs' e
  cases e
  rw [chr_byte (by omega)]
  exact h

/-- A piece of text that is lexed to the given tokens whatever delimiter follows. -/
def Lexes (s : List Char) (ts : List Tok) : Prop := ∀ rest, Delim rest → lex (utf8 s ++ rest) = pre ts (lex rest)

/-- A piece of text that is lexed to the given tokens whatever follows. -/
def LexesAny (s : List Char) (ts : List Tok) : Prop := ∀ rest, lex (utf8 s ++ rest) = pre ts (lex rest)

theorem LexesAny.lexes {s ts} (h : LexesAny s ts) : Lexes s ts := fun r _ => h r

theorem LexesAny.append {s s' ts ts'} (h : LexesAny s ts) (h' : LexesAny s' ts') : LexesAny (s ++ s') (ts ++ ts') := fun r => by
  rw [utf8_append, List.append_assoc, h, h', pre_pre]

theorem LexesAny.appendL {s s' ts ts'} (h : LexesAny s ts) (h' : Lexes s' ts') : Lexes (s ++ s') (ts ++ ts') := fun r hr => by
  rw [utf8_append, List.append_assoc, h, h' r hr, pre_pre]

/-- A text that starts with a character other than letters, digits and underscore delimits what precedes it. -/
def Starts (s : List Char) : Prop := ∃ c t, s = c :: t ∧ isId c = false ∧ c.toNat < 128

theorem Starts.delim {s : List Char} (h : Starts s) (r : List UInt8) : Delim (utf8 s ++ r) := by
  obtain ⟨c, t, rfl, h1, h2⟩ := h
  rw [utf8_cons h2]
  exact delim_cons h1 h2 _

theorem Lexes.append {s s' ts ts'} (h : Lexes s ts) (h' : Lexes s' ts') (hs : Starts s') : Lexes (s ++ s') (ts ++ ts') := fun r hr => by
  rw [utf8_append, List.append_assoc, h _ (hs.delim r), h' r hr, pre_pre]

theorem Lexes.appendA {s s' ts ts'} (h : Lexes s ts) (h' : LexesAny s' ts') (hs : Starts s') : LexesAny (s ++ s') (ts ++ ts') := fun r => by
  rw [utf8_append, List.append_assoc, h _ (hs.delim r), h' r, pre_pre]

theorem lexes_nil : LexesAny [] [] := fun r => by rw [utf8_nil, List.nil_append, pre_nil]

theorem lexes_punct {c : Char} {t : Tok} (h : c.toNat < 128) (hp : punct c = some (some t)) : LexesAny [c] [t] := fun r => by
  rw [utf8_cons h, utf8_nil]
  exact lex_punct h hp r

theorem lexes_space : LexesAny [' '] [] := fun r => by
  rw [utf8_cons (by decide), utf8_nil, pre_nil]
  exact lex_space r

theorem lexes_ident {i : List Char} (h : IdentOk i) : Lexes i [.ident i] := fun r hr => by
  match i, h with
  | c :: s, h => exact lex_ident c s r h.1 h.2 hr

theorem lexes_nat {n : Nat} (h : n < 2 ^ 64) : Lexes (Nat.toDigits 10 n) [.const (.nat n)] := fun r hr => by
  rw [lex_nat n r hr, if_pos h]

theorem lexes_int {i : Int} (h1 : -2 ^ 63 ≤ i) (h2 : i < 2 ^ 63) : Lexes (printInt i) (toksInt i) := fun r hr => lex_int i r h1 h2 hr

theorem lexes_str (prn : Char → Bool) {s : List Char} (h : '"' ∉ s) : LexesAny (printStr prn s) (toksStr prn s) := fun r => by
  have := lex_quote (esc prn s) r (esc_noquote h)
  unfold printStr
  rw [utf8_append, List.append_assoc, utf8_cons (by decide), utf8_cons (by decide), utf8_nil]
  exact this

theorem starts_cons {c : Char} {t : List Char} (h1 : isId c = false := by decide) (h2 : c.toNat < 128 := by decide) : Starts (c :: t) :=
  ⟨c, t, rfl, h1, h2⟩

theorem lexes_lparen : LexesAny ['('] [.left .paren] := lexes_punct (by decide) (by decide)
theorem lexes_rparen : LexesAny [')'] [.right .paren] := lexes_punct (by decide) (by decide)
theorem lexes_comma : LexesAny [','] [.comma] := lexes_punct (by decide) (by decide)
theorem lexes_commasp : LexesAny [',', ' '] [.comma] := lexes_comma.append lexes_space
theorem lexes_colon : LexesAny [':'] [.colon] := lexes_punct (by decide) (by decide)
theorem lexes_colonsp : LexesAny [':', ' '] [.colon] := lexes_colon.append lexes_space

theorem identOk_lit (s : List Char) (h : (match s with | [] => false | c :: cs => isId0 c && cs.all isId) = true) : IdentOk s := by
  match s, h with
  | c :: cs, h =>
    simp only [Bool.and_eq_true, List.all_eq_true] at h
    exact h

/-- `C(…)` -/
theorem lexes_call {c : List Char} {s : List Char} {ts : List Tok} (hc : IdentOk c) (hs : Lexes s ts) :
    LexesAny (c ++ '(' :: s ++ [')']) (.ident c :: .left .paren :: ts ++ [.right .paren]) := by
  have h1 := (lexes_ident hc).appendA lexes_lparen starts_cons
  have h2 := (h1.appendL hs).appendA lexes_rparen starts_cons
  simpa using h2

theorem lexes_sym (prn : Char → Bool) : ∀ s : NameSym, SymLex s → Lexes (printSym prn s) (toksSym prn s)
  | .unit, _ => lexes_ident (i := "Unit".toList) (identOk_lit _ (by decide))
  | .hash64, _ => lexes_ident (i := "Hash64".toList) (identOk_lit _ (by decide))
  | .str s, h => (lexes_call (identOk_lit _ (by decide)) (lexes_str prn h).lexes).lexes
  | .usize n, h => (lexes_call (identOk_lit _ (by decide)) (lexes_nat h)).lexes
  | .isize i, h => (lexes_call (identOk_lit _ (by decide)) (lexes_int h.1 h.2)).lexes
  | .pair a b, h => by
    have ha := lexes_sym prn a h.1
    have hb := lexes_sym prn b h.2
    have := (lexes_call (c := "Pair".toList) (identOk_lit _ (by decide))
      ((ha.appendA lexes_commasp starts_cons).appendL hb)).lexes
    simpa [printSym, toksSym] using this
  | .forkL a, h => (lexes_call (identOk_lit _ (by decide)) (lexes_sym prn a h)).lexes
  | .forkR a, h => (lexes_call (identOk_lit _ (by decide)) (lexes_sym prn a h)).lexes

theorem lexes_path (prn : Char → Bool) : ∀ p : Path, PathLex p → Lexes (printPath prn p) (toksPath prn p)
  | .empty, _ => lexes_nil.lexes
  | .child p n, h => by
    have := (lexes_path prn p h.1).appendA lexes_comma starts_cons
    have := this.appendL (lexes_sym prn n.sym h.2)
    simpa [printPath, toksPath] using this

theorem lexes_id (prn : Char → Bool) : ∀ i : ArtId, IdLex i → Lexes (printId prn i) (toksId prn i)
  | .structural h, _ => lexes_nat h.toNat_lt
  | .nominal n, h => lexes_sym prn n.sym h

theorem lexes_art (prn : Char → Bool) (l : Loc) (h : PathLex l.path ∧ IdLex l.id) : LexesAny (printArt prn l) (toksArt prn l) := by
  have id {s : String} (h : (match s.toList with | [] => false | c :: cs => isId0 c && cs.all isId) = true) : Lexes s.toList [.ident s.toList] :=
    lexes_ident (identOk_lit _ h)
  have lb : LexesAny [' ', '{', ' '] [.left .brace] :=
    (lexes_space.append (lexes_punct (c := '{') (t := .left .brace) (by decide) (by decide))).append lexes_space
  have rb : LexesAny [' ', '}'] [.right .brace] := lexes_space.append (lexes_punct (by decide) (by decide))
  have lk : LexesAny ['['] [.left .bracket] := lexes_punct (by decide) (by decide)
  have rk : LexesAny [']'] [.right .bracket] := lexes_punct (by decide) (by decide)
  have a1 := (id (s := "Art") (by decide)).appendA lb starts_cons
  have a2 := (a1.appendL (id (s := "art") (by decide))).appendA lexes_colonsp starts_cons
  have a3 := (a2.appendL (id (s := "Loc") (by decide))).appendA lb starts_cons
  have a4 := (a3.appendL (id (s := "path") (by decide))).appendA lexes_colon starts_cons
  have a5 := (a4.append lk).appendL (lexes_path prn l.path h.1)
  have a6 := (a5.appendA rk starts_cons).append lexes_commasp
  have a7 := (a6.appendL (id (s := "id") (by decide))).appendA lexes_colon starts_cons
  have a8 := ((a7.appendL (lexes_id prn l.id h.2)).appendA rb starts_cons).append rb
  have e1 : printArt prn l = "Art".toList ++ [' ', '{', ' '] ++ "art".toList ++ [':', ' '] ++ "Loc".toList ++ [' ', '{', ' '] ++
      "path".toList ++ [':'] ++ ['['] ++ printPath prn l.path ++ [']'] ++ [',', ' '] ++ "id".toList ++ [':'] ++ printId prn l.id ++
      [' ', '}'] ++ [' ', '}'] := by
    unfold printArt
    simp
  have e2 : toksArt prn l = [Tok.ident "Art".toList] ++ [Tok.left .brace] ++ [Tok.ident "art".toList] ++ [Tok.colon] ++
      [Tok.ident "Loc".toList] ++ [Tok.left .brace] ++ [Tok.ident "path".toList] ++ [Tok.colon] ++ [Tok.left .bracket] ++
      toksPath prn l.path ++ [Tok.right .bracket] ++ [Tok.comma] ++ [Tok.ident "id".toList] ++ [Tok.colon] ++ toksId prn l.id ++
      [Tok.right .brace] ++ [Tok.right .brace] := by
    unfold toksArt
    simp
  rw [e1, e2]
  exact a8

mutual
/-- A printed value is lexed as its tokens. -/
theorem lexes_print (prn : Char → Bool) : ∀ d : D, LexOk d → Lexes (print prn d) (toks prn d)
  | .nat n, h => lexes_nat h
  | .int i, h => lexes_int h.1 h.2
  | .str s, h => (lexes_str prn h).lexes
  | .tuple [], _ => by
    simp only [print, toks, printSeq, toksSeq]
    exact (lexes_lparen.append lexes_rparen).lexes
  | .tuple [d], h => by
    have := ((lexes_lparen.appendL (lexes_print prn d h.1)).appendA (lexes_comma.append lexes_rparen) starts_cons).lexes
    simpa [print, toks] using this
  | .tuple (d :: d' :: ds), h => by
    have := ((lexes_lparen.appendL (lexes_seq prn (d :: d' :: ds) h)).appendA lexes_rparen starts_cons).lexes
    simpa only [print, toks, List.singleton_append, List.cons_append, List.append_assoc, List.nil_append] using this
  | .vec ds, h => by
    have lk : LexesAny ['['] [.left .bracket] := lexes_punct (by decide) (by decide)
    have rk : LexesAny [']'] [.right .bracket] := lexes_punct (by decide) (by decide)
    have := ((lk.appendL (lexes_seq prn ds h)).appendA rk starts_cons).lexes
    simpa only [print, toks, List.singleton_append, List.cons_append, List.append_assoc, List.nil_append] using this
  | .constr c [], h => by
    simp only [print, toks]
    exact lexes_ident h.1
  | .constr c (d :: ds), h => by
    simp only [print, toks]
    exact (lexes_call h.1 (lexes_seq prn (d :: ds) h.2)).lexes
  | .struct c [], h => by
    simp only [print, toks]
    exact lexes_ident h.1
  | .struct c (f :: fs), h => by
    have lb : LexesAny [' ', '{', ' '] [.left .brace] :=
      (lexes_space.append (lexes_punct (c := '{') (t := .left .brace) (by decide) (by decide))).append lexes_space
    have rb : LexesAny [' ', '}'] [.right .brace] := lexes_space.append (lexes_punct (by decide) (by decide))
    have := ((((lexes_ident h.1).appendA lb starts_cons).appendL (lexes_fields prn (f :: fs) h.2)).appendA rb starts_cons).lexes
    have e : print prn (.struct c (f :: fs)) = c ++ [' ', '{', ' '] ++ printFields prn (f :: fs) ++ [' ', '}'] := by
      simp only [print]
      rfl
    rw [e]
    simpa only [toks, List.singleton_append, List.cons_append, List.append_assoc, List.nil_append] using this
  | .name n, h => by
    simp only [print, toks]
    exact lexes_sym prn n.sym h
  | .art l, h => by
    simp only [print, toks]
    exact (lexes_art prn l h).lexes
theorem lexes_seq (prn : Char → Bool) : ∀ ds : List D, LexOkL ds → Lexes (printSeq prn ds) (toksSeq prn ds)
  | [], _ => by simp only [printSeq, toksSeq]; exact lexes_nil.lexes
  | [d], h => by simp only [printSeq, toksSeq]; exact lexes_print prn d h.1
  | d :: d' :: ds, h => by
    have := ((lexes_print prn d h.1).appendA lexes_commasp starts_cons).appendL (lexes_seq prn (d' :: ds) h.2)
    simpa only [printSeq, toksSeq, List.singleton_append, List.cons_append, List.append_assoc, List.nil_append] using this
theorem lexes_fields (prn : Char → Bool) : ∀ fs : List (List Char × D), LexOkF fs → Lexes (printFields prn fs) (toksFields prn fs)
  | [], _ => by simp only [printFields, toksFields]; exact lexes_nil.lexes
  | [(f, d)], h => by
    have := ((lexes_ident h.1).appendA lexes_colonsp starts_cons).appendL (lexes_print prn d h.2.1)
    simpa only [printFields, toksFields, List.singleton_append, List.cons_append, List.append_assoc, List.nil_append] using this
  | (f, d) :: f' :: fs, h => by
    have := ((((lexes_ident h.1).appendA lexes_colonsp starts_cons).appendL (lexes_print prn d h.2.1)).appendA lexes_commasp
      starts_cons).appendL (lexes_fields prn (f' :: fs) h.2.2)
    simpa only [printFields, toksFields, List.singleton_append, List.cons_append, List.append_assoc, List.nil_append] using this
end

/-- The lexer on the whole text. -/
theorem lex_print (prn : Char → Bool) (d : D) (h : LexOk d) : lex (utf8 (print prn d)) = some (toks prn d) := by
  have := lexes_print prn d h [] Delim.nil
  rw [List.append_nil] at this
  rw [this, lex]
  simp [pre]

end Adapton.Reflect
