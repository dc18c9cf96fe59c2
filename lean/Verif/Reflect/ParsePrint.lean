import Verif.Reflect.Parse
/-
The parser on the tokens of a printed value.
-/
namespace Adapton.Reflect

variable (H : NameHash) (prn : Char → Bool)

/-! ## What the parser makes of a value (panic = none) -/

/-- The string the parser reads. -/
def seen (s : List Char) : List Char := latin1 (utf8 (esc prn s))

def canon : NameSym → Option Name
  | .unit => some nameUnit
  | .hash64 => some (nameOfHash64 0)
  | .str s => some (nameOfChars H (seen prn s.toList))
  | .usize n => some (nameOfUsize H n)
  | .isize _ => none
  | .pair a b => (canon a).bind fun x => (canon b).map fun y => namePair H x y
  | .forkL a => (canon a).map fun x => (nameFork H x).1
  | .forkR a => (canon a).map fun x => (nameFork H x).2

def valSym : NameSym → Option Val
  | .unit => some (.constr (nameOfStr H "Unit") [])
  | .hash64 => some (.constr (nameOfStr H "Hash64") [])
  | s => (canon H prn s).map .name

def canonPath : Path → Option (List Name)
  | .empty => some []
  | .child p n => (canonPath p).bind fun x => (canon H prn n.sym).map fun y => x ++ [y]

def canonId : ArtId → Option Name
  | .structural _ => none
  | .nominal n => canon H prn n.sym

mutual
def reflO : D → Option Val
  | .nat n => some (.const (.nat n))
  | .int i => some (.const (if 0 ≤ i then .nat i.toNat else .num i))
  | .str s => some (.const (.str (seen prn s)))
  | .tuple ds => (reflOL ds).map .tuple
  | .vec ds => (reflOL ds).map .vec
  | .constr c ds => (reflOL ds).map (.constr (nameOfChars H c))
  | .struct c [] => some (.constr (nameOfChars H c) [])
  | .struct c fs => (reflOF fs).map (.struct (nameOfChars H c))
  | .name n => valSym H prn n.sym
  | .art l => (canonPath H prn l.path).bind fun p => (canonId H prn l.id).map fun n => .art ⟨p, n⟩
def reflOL : List D → Option (List Val)
  | [] => some []
  | d :: ds => (reflO d).bind fun v => (reflOL ds).map fun vs => v :: vs
def reflOF : List (List Char × D) → Option (List (Name × Val))
  | [] => some []
  | (f, d) :: fs => (reflO d).bind fun v => (reflOF fs).map fun vs => (nameOfChars H f, v) :: vs
end

mutual
/-- No constructor is called like a name symbol and no struct looks like an articulation. -/
def Plainly : D → Prop
  | .tuple ds => PlainlyL ds
  | .vec ds => PlainlyL ds
  | .constr c ds => (ds ≠ [] → c ∉ reserved) ∧ PlainlyL ds
  | .struct c fs => (c = "Art".toList → ∀ gs, fs ≠ [("art".toList, .struct "Loc".toList gs)]) ∧ PlainlyF fs
  | _ => True
def PlainlyL : List D → Prop
  | [] => True
  | d :: ds => Plainly d ∧ PlainlyL ds
def PlainlyF : List (List Char × D) → Prop
  | [] => True
  | (_, d) :: fs => Plainly d ∧ PlainlyF fs
end

/-! ## Names -/

theorem nameOfStr_inj {a b : String} : nameOfStr H a = nameOfStr H b ↔ a = b :=
  ⟨fun h => by unfold nameOfStr at h; injection h with _ h; injection h, fun h => h ▸ rfl⟩

theorem nameOfChars_eq {a : List Char} {b : String} : nameOfChars H a = nameOfStr H b ↔ a = b.toList := by
  have : nameOfChars H a = nameOfStr H (String.ofList a) := rfl
  rw [this, nameOfStr_inj]
  constructor
  · intro h; rw [← h, String.toList_ofList]
  · intro h; rw [h, String.ofList_toList]

theorem nameOfChars_lit (s : String) : nameOfChars H s.toList = nameOfStr H s := by
  rw [nameOfChars_eq]

theorem canon_val : ∀ (s : NameSym) (v : Val), valSym H prn s = some v →
    ∃ n, canon H prn s = some n ∧ nameOfVal H v = .ok n ∧ nameOptionOfVal H v = .ok (some n)
  | .unit, v, h => by
    cases h
    refine ⟨nameUnit, rfl, ?_, ?_⟩
    · unfold nameOfVal; rw [if_pos rfl]
    · unfold nameOptionOfVal; rw [if_pos rfl]
  | .hash64, v, h => by
    cases h
    refine ⟨nameOfHash64 0, rfl, ?_, ?_⟩
    · unfold nameOfVal; rw [if_neg (by rw [nameOfStr_inj]; decide), if_pos rfl]
    · unfold nameOptionOfVal; rw [if_neg (by rw [nameOfStr_inj]; decide), if_pos rfl]
  | .str s, v, h => by cases h; exact ⟨_, rfl, rfl, rfl⟩
  | .usize s, v, h => by cases h; exact ⟨_, rfl, rfl, rfl⟩
  | .isize s, v, h => by cases h
  | .pair a b, v, h => by
    simp only [valSym, Option.map_eq_some_iff] at h
    obtain ⟨n, h, rfl⟩ := h
    exact ⟨n, h, rfl, rfl⟩
  | .forkL a, v, h => by
    simp only [valSym, Option.map_eq_some_iff] at h
    obtain ⟨n, h, rfl⟩ := h
    exact ⟨n, h, rfl, rfl⟩
  | .forkR a, v, h => by
    simp only [valSym, Option.map_eq_some_iff] at h
    obtain ⟨n, h, rfl⟩ := h
    exact ⟨n, h, rfl, rfl⟩

theorem canon_none : ∀ (s : NameSym), valSym H prn s = none ↔ canon H prn s = none
  | .unit => ⟨(fun h => by cases h), (fun h => by cases h)⟩
  | .hash64 => ⟨(fun h => by cases h), (fun h => by cases h)⟩
  | .str s => by simp [valSym]
  | .usize s => by simp [valSym]
  | .isize s => by simp [valSym]
  | .pair a b => by simp [valSym]
  | .forkL a => by simp [valSym]
  | .forkR a => by simp [valSym]

/-! ## Evaluation -/

def ofO {α : Type} : Option α → PRes α
  | some a => .ok a
  | none => .panic

/-- The parser answers `r` (with enough fuel). -/
def Rec (ts : List Tok) (r : PRes (Val × List Tok)) : Prop := r ≠ .fuel ∧ ∃ k, parseRec H k ts = r
def Vals (ts : List Tok) (acc : List Val) (bal : Tok) (r : PRes (List Val × List Tok)) : Prop :=
  r ≠ .fuel ∧ ∃ k, parseVals H k ts acc bal = r
def Fields (ts : List Tok) (acc : List (Name × Val)) (bal : Tok) (r : PRes (List (Name × Val) × List Tok)) : Prop :=
  r ≠ .fuel ∧ ∃ k, parseFields H k ts acc bal = r

theorem rec_up {k k' : Nat} {ts r} (hr : r ≠ .fuel) (h : parseRec H k ts = r) (hk : k ≤ k') : parseRec H k' ts = r := by
  induction hk with
  | refl => exact h
  | step _ ih => rw [(parse_mono H _).1 ts (by rw [ih]; exact hr), ih]

theorem vals_up {k k' : Nat} {ts acc bal r} (hr : r ≠ .fuel) (h : parseVals H k ts acc bal = r) (hk : k ≤ k') :
    parseVals H k' ts acc bal = r := by
  induction hk with
  | refl => exact h
  | step _ ih => rw [(parse_mono H _).2.1 ts _ _ (by rw [ih]; exact hr), ih]

theorem fields_up {k k' : Nat} {ts acc bal r} (hr : r ≠ .fuel) (h : parseFields H k ts acc bal = r) (hk : k ≤ k') :
    parseFields H k' ts acc bal = r := by
  induction hk with
  | refl => exact h
  | step _ ih => rw [(parse_mono H _).2.2 ts _ _ (by rw [ih]; exact hr), ih]

/-- The answer with the fuel that `parse_val` gets. -/
theorem Rec.full {ts r} (h : Rec H ts r) : parseRec H (2 * ts.length + 2) ts = r := by
  obtain ⟨hr, k, hk⟩ := h
  have hf := ((parse_fuel H (2 * ts.length + 2)).1 ts (by omega)).1
  rcases Nat.le_total k (2 * ts.length + 2) with h | h
  · exact rec_up H hr hk h
  · rw [← hk]
    exact (rec_up H hf rfl h).symm

def NotSep (t : Tok) : Prop := t ≠ .comma ∧ ∀ b, t ≠ .right b

theorem vals_end (ts : List Tok) (acc : List Val) (bal : Tok) : Vals H (bal :: ts) acc bal (.ok (acc, ts)) :=
  ⟨(fun h => by cases h), 1, by rw [parseVals, if_pos rfl]⟩

theorem vals_comma {ts acc bal r} (h : Vals H ts acc bal r) (hb : bal ≠ .comma) : Vals H (.comma :: ts) acc bal r := by
  obtain ⟨hr, k, hk⟩ := h
  exact ⟨hr, k + 1, by rw [parseVals, if_neg hb.symm, if_pos rfl]; exact hk⟩

theorem vals_step {t ts acc b v rest r} (ht : NotSep t) (h1 : Rec H (t :: ts) (.ok (v, rest))) (h2 : Vals H rest (acc ++ [v]) (.right b) r) :
    Vals H (t :: ts) acc (.right b) r := by
  obtain ⟨_, k1, hk1⟩ := h1
  obtain ⟨hr, k2, hk2⟩ := h2
  refine ⟨hr, max k1 k2 + 1, ?_⟩
  rw [parseVals, if_neg (ht.2 b), if_neg ht.1, rec_up H (fun h => by cases h) hk1 (Nat.le_max_left _ _)]
  exact vals_up H hr hk2 (Nat.le_max_right _ _)

theorem vals_step_panic {t ts acc b} (ht : NotSep t) (h1 : Rec H (t :: ts) .panic) : Vals H (t :: ts) acc (.right b) .panic := by
  obtain ⟨_, k1, hk1⟩ := h1
  exact ⟨(fun h => by cases h), k1 + 1, by rw [parseVals, if_neg (ht.2 b), if_neg ht.1, hk1]; rfl⟩

theorem fields_end (ts : List Tok) (acc : List (Name × Val)) (b : Bal) : Fields H (.right b :: ts) acc (.right b) (.ok (acc, ts)) :=
  ⟨(fun h => by cases h), 1, by rw [parseFields_cons, if_pos rfl]⟩

theorem fields_comma {ts acc b r} (h : Fields H ts acc (.right b) r) : Fields H (.comma :: ts) acc (.right b) r := by
  obtain ⟨hr, k, hk⟩ := h
  exact ⟨hr, k + 1, by rw [parseFields_cons, if_neg (fun h => by cases h), if_pos rfl]; exact hk⟩

theorem fields_step {i ts acc b v rest r} (h1 : Rec H ts (.ok (v, rest)))
    (h2 : Fields H rest (acc ++ [(nameOfChars H i, v)]) (.right b) r) : Fields H (.ident i :: .colon :: ts) acc (.right b) r := by
  obtain ⟨_, k1, hk1⟩ := h1
  obtain ⟨hr, k2, hk2⟩ := h2
  refine ⟨hr, max k1 k2 + 1, ?_⟩
  rw [parseFields_cons, if_neg (fun h => by cases h), if_neg (fun h => by cases h)]
  show (parseRec H (max k1 k2) ts).bind _ = r
  rw [rec_up H (fun h => by cases h) hk1 (Nat.le_max_left _ _)]
  exact fields_up H hr hk2 (Nat.le_max_right _ _)

theorem fields_step_panic {i ts acc b} (h1 : Rec H ts .panic) : Fields H (.ident i :: .colon :: ts) acc (.right b) .panic := by
  obtain ⟨_, k1, hk1⟩ := h1
  refine ⟨(fun h => by cases h), k1 + 1, ?_⟩
  rw [parseFields_cons, if_neg (fun h => by cases h), if_neg (fun h => by cases h)]
  show (parseRec H k1 ts).bind _ = _
  rw [hk1]; rfl

/-- What may follow a value. -/
def Follow (rest : List Tok) : Prop := ∀ t ts, rest = t :: ts → t = .comma ∨ ∃ b, t = .right b

theorem Follow.nil : Follow [] := fun _ _ h => by cases h
theorem Follow.comma (ts : List Tok) : Follow (.comma :: ts) := fun _ _ h => by cases h; exact Or.inl rfl
theorem Follow.right (b : Bal) (ts : List Tok) : Follow (.right b :: ts) := fun _ _ h => by cases h; exact Or.inr ⟨b, rfl⟩

theorem rec_const (c : Const) (ts : List Tok) : Rec H (.const c :: ts) (.ok (.const c, ts)) :=
  ⟨(fun h => by cases h), 1, rfl⟩

theorem rec_ident (i : List Char) {rest : List Tok} (h : Follow rest) : Rec H (.ident i :: rest) (.ok (.constr (nameOfChars H i) [], rest)) := by
  refine ⟨(fun h => by cases h), 1, ?_⟩
  match rest, h with
  | [], _ => rfl
  | t :: ts, h =>
    rcases h t ts rfl with rfl | ⟨b, rfl⟩
    · rfl
    · rfl

theorem bindok_nf {α β : Type} {x : Option α} {f : α → β} : ((ofO x).bind fun a => PRes.ok (f a)) ≠ .fuel := by
  cases x <;> (intro h; cases h)

theorem rec_call (i : List Char) {ts rest : List Tok} {o : Option (List Val)}
    (h : Vals H ts [] (.right .paren) ((ofO o).bind fun vs => .ok (vs, rest))) :
    Rec H (.ident i :: .left .paren :: ts) ((ofO o).bind fun vs =>
      (nameOptionOfVal H (.constr (nameOfChars H i) vs)).bind fun
          | some n => .ok (.name n, rest)
          | none => .ok (.constr (nameOfChars H i) vs, rest)) := by
  obtain ⟨_, k, hk⟩ := h
  refine ⟨?_, k + 1, ?_⟩
  · refine PRes.bind_nf ?_ fun vs _ => PRes.bind_nf (nameOptionOfVal_nf H _) fun o _ => ?_
    · cases o <;> (intro h; cases h)
    · cases o <;> (intro h; cases h)
  · show (parseVals H k ts [] (.right .paren)).bind _ = _
    rw [hk]
    cases o <;> rfl

theorem rec_bracket {ts rest : List Tok} {o : Option (List Val)}
    (h : Vals H ts [] (.right .bracket) ((ofO o).bind fun vs => .ok (vs, rest))) :
    Rec H (.left .bracket :: ts) ((ofO (o.map .vec)).bind fun v => .ok (v, rest)) := by
  obtain ⟨_, k, hk⟩ := h
  refine ⟨bindok_nf, k + 1, ?_⟩
  show (parseVals H k ts [] (.right .bracket)).bind _ = _
  rw [hk]
  cases o <;> rfl

theorem rec_paren {ts rest : List Tok} {o : Option (List Val)}
    (h : Vals H ts [] (.right .paren) ((ofO o).bind fun vs => .ok (vs, rest))) :
    Rec H (.left .paren :: ts) ((ofO (o.map .tuple)).bind fun v => .ok (v, rest)) := by
  obtain ⟨_, k, hk⟩ := h
  refine ⟨bindok_nf, k + 1, ?_⟩
  show (parseVals H k ts [] (.right .paren)).bind _ = _
  rw [hk]
  cases o <;> rfl

theorem rec_struct (i : List Char) {ts rest : List Tok} {o : Option (List (Name × Val))}
    (h : Fields H ts [] (.right .brace) ((ofO o).bind fun vs => .ok (vs, rest))) :
    Rec H (.ident i :: .left .brace :: ts) ((ofO o).bind fun fs =>
      (parseArtVal H i fs).bind fun
          | some a => .ok (a, rest)
          | none => .ok (.struct (nameOfChars H i) fs, rest)) := by
  obtain ⟨_, k, hk⟩ := h
  refine ⟨?_, k + 1, ?_⟩
  · refine PRes.bind_nf ?_ fun vs _ => PRes.bind_nf (parseArtVal_nf H _ _) fun o _ => ?_
    · cases o <;> (intro h; cases h)
    · cases o <;> (intro h; cases h)
  · show (parseFields H k ts [] (.right .brace)).bind _ = _
    rw [hk]
    cases o <;> rfl

/-- One value followed by a closing token. -/
theorem vals_one {t : Tok} {ts rest : List Tok} {b : Bal} {o : Option Val} (ht : NotSep t)
    (h : Rec H (t :: ts ++ .right b :: rest) ((ofO o).bind fun v => .ok (v, .right b :: rest))) :
    Vals H (t :: ts ++ .right b :: rest) [] (.right b) ((ofO (o.map fun v => [v])).bind fun vs => .ok (vs, rest)) := by
  cases o with
  | none => exact vals_step_panic H ht h
  | some v => exact vals_step H ht h (vals_end H _ _ _)

theorem toksSym_head (s : NameSym) : ∃ i ts, toksSym prn s = .ident i :: ts := by
  cases s <;> exact ⟨_, _, rfl⟩

theorem notSep_ident (i : List Char) : NotSep (.ident i) := ⟨(fun h => by cases h), (fun _ h => by cases h)⟩
theorem notSep_const (c : Const) : NotSep (.const c) := ⟨(fun h => by cases h), (fun _ h => by cases h)⟩
theorem notSep_left (b : Bal) : NotSep (.left b) := ⟨(fun h => by cases h), (fun _ h => by cases h)⟩

/-- Evaluate `nameOptionOfVal` on a constructor called `c`. -/
theorem nameOption_fork (l : Bool) (v : Val) (n : Name) (h : nameOptionOfVal H v = .ok (some n)) :
    nameOptionOfVal H (.constr (nameOfChars H (if l then "ForkL" else "ForkR").toList) [v]) =
      .ok (some (if l then (nameFork H n).1 else (nameFork H n).2)) := by
  rw [nameOfChars_lit]
  cases l
  · simp [nameOptionOfVal, nameOfStr_inj, h, PRes.bind]
  · simp [nameOptionOfVal, nameOfStr_inj, h, PRes.bind]

theorem nameOption_pair (v w : Val) (n m : Name) (h : nameOptionOfVal H v = .ok (some n)) (h' : nameOptionOfVal H w = .ok (some m)) :
    nameOptionOfVal H (.constr (nameOfChars H "Pair".toList) [v, w]) = .ok (some (namePair H n m)) := by
  rw [nameOfChars_lit]
  simp [nameOptionOfVal, nameOfStr_inj, h, h', PRes.bind]

theorem nameOption_str (s : List Char) :
    nameOptionOfVal H (.constr (nameOfChars H "String".toList) [.const (.str s)]) = .ok (some (nameOfChars H s)) := by
  rw [nameOfChars_lit]
  simp [nameOptionOfVal, nameOfStr_inj]

theorem nameOption_usize (n : Nat) :
    nameOptionOfVal H (.constr (nameOfChars H "Usize".toList) [.const (.nat n)]) = .ok (some (nameOfUsize H n)) := by
  rw [nameOfChars_lit]
  simp [nameOptionOfVal, nameOfStr_inj]

theorem nameOption_isize (vs : List Val) : nameOptionOfVal H (.constr (nameOfChars H "Isize".toList) vs) = .panic := by
  rw [nameOfChars_lit]
  unfold nameOptionOfVal
  simp [nameOfStr_inj]

/-- A printed name. -/
theorem rec_sym : ∀ (s : NameSym) (rest : List Tok), Follow rest →
    Rec H (toksSym prn s ++ rest) ((ofO (valSym H prn s)).bind fun v => .ok (v, rest))
  | .unit, rest, hr => by
    have := rec_ident H "Unit".toList hr
    rw [nameOfChars_lit] at this
    exact this
  | .hash64, rest, hr => by
    have := rec_ident H "Hash64".toList hr
    rw [nameOfChars_lit] at this
    exact this
  | .str s, rest, hr => by
    have := rec_call H "String".toList (vals_one H (b := .paren) (rest := rest) (o := some _) (ts := []) (notSep_const _)
      (rec_const H (.str (seen prn s.toList)) _))
    simp only [Option.map_some, ofO, PRes.bind, nameOption_str] at this
    simpa [toksSym, toksStr, valSym, canon, ofO, PRes.bind, seen] using this
  | .usize n, rest, hr => by
    have := rec_call H "Usize".toList (vals_one H (b := .paren) (rest := rest) (o := some _) (ts := []) (notSep_const _)
      (rec_const H (.nat n) _))
    simp only [Option.map_some, ofO, PRes.bind, nameOption_usize] at this
    simpa [toksSym, valSym, canon, ofO, PRes.bind] using this
  | .isize i, rest, hr => by
    have := rec_call H "Isize".toList (vals_one H (b := .paren) (rest := rest) (o := some _) (ts := []) (notSep_const _)
      (rec_const H (if 0 ≤ i then .nat i.toNat else .num i) _))
    simp only [Option.map_some, ofO, PRes.bind, nameOption_isize] at this
    simpa [toksSym, toksInt, valSym, canon, ofO, PRes.bind] using this
  | .forkL a, rest, hr => by
    have ih := rec_sym a (.right .paren :: rest) (Follow.right _ _)
    obtain ⟨i, ts, he⟩ := toksSym_head prn a
    rw [he] at ih
    have := rec_call H "ForkL".toList (vals_one H (b := .paren) (rest := rest) (notSep_ident _) ih)
    rcases hv : valSym H prn a with _ | v
    · rw [hv] at this
      have hc := (canon_none H prn a).1 hv
      simpa [toksSym, valSym, canon, hc, he, ofO, PRes.bind] using this
    · rw [hv] at this
      obtain ⟨n, h1, h2, h3⟩ := canon_val H prn a v hv
      have h4 := nameOption_fork H true v n h3
      simp only [if_true] at h4
      simp only [Option.map_some, ofO, PRes.bind, h4] at this
      simpa [toksSym, valSym, canon, h1, he, ofO, PRes.bind] using this
  | .forkR a, rest, hr => by
    have ih := rec_sym a (.right .paren :: rest) (Follow.right _ _)
    obtain ⟨i, ts, he⟩ := toksSym_head prn a
    rw [he] at ih
    have := rec_call H "ForkR".toList (vals_one H (b := .paren) (rest := rest) (notSep_ident _) ih)
    rcases hv : valSym H prn a with _ | v
    · rw [hv] at this
      have hc := (canon_none H prn a).1 hv
      simpa [toksSym, valSym, canon, hc, he, ofO, PRes.bind] using this
    · rw [hv] at this
      obtain ⟨n, h1, h2, h3⟩ := canon_val H prn a v hv
      have h4 := nameOption_fork H false v n h3
      simp only [Bool.false_eq_true, if_false] at h4
      simp only [Option.map_some, ofO, PRes.bind, h4] at this
      simpa [toksSym, valSym, canon, h1, he, ofO, PRes.bind] using this
  | .pair a b, rest, hr => by
    have ihb := rec_sym b (.right .paren :: rest) (Follow.right _ _)
    obtain ⟨ib, tb, hb⟩ := toksSym_head prn b
    have iha := rec_sym a (.comma :: toksSym prn b ++ .right .paren :: rest) (Follow.comma _)
    obtain ⟨ia, ta, ha⟩ := toksSym_head prn a
    rcases hva : valSym H prn a with _ | v
    · have hc := (canon_none H prn a).1 hva
      rw [hva, ha] at iha
      have := rec_call H "Pair".toList (o := none) (rest := rest) (vals_step_panic H (acc := []) (b := .paren) (notSep_ident _) iha)
      simpa [toksSym, valSym, canon, hc, ha, ofO, PRes.bind] using this
    · obtain ⟨n, h1, h2, h3⟩ := canon_val H prn a v hva
      rw [hva, ha] at iha
      rcases hvb : valSym H prn b with _ | w
      · have hc := (canon_none H prn b).1 hvb
        rw [hvb, hb] at ihb
        have := rec_call H "Pair".toList (o := none) (rest := rest)
          (vals_step H (acc := []) (b := .paren) (notSep_ident _) iha
            (vals_comma H (by rw [hb]; exact vals_step_panic H (notSep_ident _) ihb) (fun h => by cases h)))
        simpa [toksSym, valSym, canon, h1, hc, ha, ofO, PRes.bind] using this
      · obtain ⟨m, g1, g2, g3⟩ := canon_val H prn b w hvb
        rw [hvb, hb] at ihb
        have := rec_call H "Pair".toList (o := some [v, w]) (rest := rest)
          (vals_step H (acc := []) (b := .paren) (notSep_ident _) iha
            (vals_comma H (by rw [hb]; exact vals_step H (notSep_ident _) ihb (vals_end H _ _ _)) (fun h => by cases h)))
        simp only [ofO, PRes.bind, nameOption_pair H v w n m h3 g3] at this
        simpa [toksSym, valSym, canon, h1, g1, ha, ofO, PRes.bind] using this

/-! ## Paths and articulations -/

def pathVals : Path → Option (List Val)
  | .empty => some []
  | .child p n => (pathVals p).bind fun x => (valSym H prn n.sym).map fun y => x ++ [y]

theorem namesOfVals_append : ∀ (vs : List Val) (v : Val) (ns : List Name) (n : Name), namesOfVals H vs = .ok ns → nameOfVal H v = .ok n →
    namesOfVals H (vs ++ [v]) = .ok (ns ++ [n])
  | [], v, ns, n, h, h' => by
    cases h
    simp [namesOfVals, h', PRes.bind]
  | w :: vs, v, ns, n, h, h' => by
    simp only [namesOfVals] at h
    obtain ⟨m, hm, h⟩ := PRes.bind_ok h
    obtain ⟨ms, hms, h⟩ := PRes.bind_ok h
    cases h
    have ih := namesOfVals_append vs v ms n hms h'
    simp only [List.cons_append, namesOfVals, hm, PRes.bind, ih]

theorem path_names : ∀ p : Path,
    (∀ vs, pathVals H prn p = some vs → ∃ ns, canonPath H prn p = some ns ∧ namesOfVals H vs = .ok ns) ∧
    (pathVals H prn p = none → canonPath H prn p = none)
  | .empty => ⟨(fun vs h => by cases h; exact ⟨[], rfl, rfl⟩), (fun h => by cases h)⟩
  | .child p n => by
    obtain ⟨ih1, ih2⟩ := path_names p
    constructor
    · intro vs h
      simp only [pathVals, Option.bind_eq_some_iff, Option.map_eq_some_iff] at h
      obtain ⟨x, hx, y, hy, rfl⟩ := h
      obtain ⟨ns, h1, h2⟩ := ih1 x hx
      obtain ⟨m, h3, h4, h5⟩ := canon_val H prn _ _ hy
      exact ⟨ns ++ [m], by simp [canonPath, h1, h3], namesOfVals_append H _ _ _ _ h2 h4⟩
    · intro h
      simp only [canonPath]
      rcases hp : pathVals H prn p with _ | x
      · rw [ih2 hp]; rfl
      · rcases hv : valSym H prn n.sym with _ | y
        · rw [(canon_none H prn _).1 hv]
          cases canonPath H prn p <;> rfl
        · rw [pathVals, hp, hv] at h; cases h

theorem vals_path : ∀ (p : Path) (rest : List Tok) (acc : List Val) (b : Bal), Follow rest →
    (∀ vs r, pathVals H prn p = some vs → Vals H rest (acc ++ vs) (.right b) r → Vals H (toksPath prn p ++ rest) acc (.right b) r) ∧
    (pathVals H prn p = none → Vals H (toksPath prn p ++ rest) acc (.right b) .panic)
  | .empty, rest, acc, b, hr => ⟨(fun vs r h h' => by cases h; simpa [toksPath] using h'), (fun h => by cases h)⟩
  | .child p n, rest, acc, b, hr => by
    obtain ⟨ih1, ih2⟩ := vals_path p (.comma :: toksSym prn n.sym ++ rest) acc b (Follow.comma _)
    have hs := rec_sym H prn n.sym rest hr
    obtain ⟨i, ts, he⟩ := toksSym_head prn n.sym
    have e : toksPath prn (.child p n) ++ rest = toksPath prn p ++ (.comma :: toksSym prn n.sym ++ rest) := by simp [toksPath]
    rw [e]
    constructor
    · intro vs r h h'
      simp only [pathVals, Option.bind_eq_some_iff, Option.map_eq_some_iff] at h
      obtain ⟨x, hx, y, hy, rfl⟩ := h
      refine ih1 x r hx (vals_comma H ?_ (fun h => by cases h))
      rw [hy] at hs
      rw [he] at hs ⊢
      refine vals_step H (notSep_ident _) hs ?_
      rw [List.append_assoc]
      exact h'
    · intro h
      rcases hp : pathVals H prn p with _ | x
      · exact ih2 hp
      · refine ih1 x _ hp (vals_comma H ?_ (fun h => by cases h))
        have hv : valSym H prn n.sym = none := by
          rcases hv : valSym H prn n.sym with _ | y
          · rfl
          · rw [pathVals, hp, hv] at h; cases h
        rw [hv] at hs
        rw [he] at hs ⊢
        exact vals_step_panic H (notSep_ident _) hs

theorem rec_path (p : Path) (rest : List Tok) :
    Rec H (.left .bracket :: toksPath prn p ++ .right .bracket :: rest) ((ofO ((pathVals H prn p).map .vec)).bind fun v => .ok (v, rest)) := by
  apply rec_bracket
  obtain ⟨h1, h2⟩ := vals_path H prn p (.right .bracket :: rest) [] .bracket (Follow.right _ _)
  rcases hp : pathVals H prn p with _ | vs
  · exact h2 hp
  · exact h1 vs _ hp (vals_end H _ _ _)

def idVal : ArtId → Option Val
  | .structural h => some (.const (.nat h.toNat))
  | .nominal n => valSym H prn n.sym

theorem rec_id (i : ArtId) (rest : List Tok) (hr : Follow rest) :
    Rec H (toksId prn i ++ rest) ((ofO (idVal H prn i)).bind fun v => .ok (v, rest)) := by
  cases i with
  | structural h => exact rec_const H _ _
  | nominal n => exact rec_sym H prn n.sym rest hr

theorem nameOfVal_const (c : Const) : nameOfVal H (.const c) = .panic := by
  cases c <;> rfl

theorem parseArt_loc (fs : List (Name × Val)) : parseArtVal H "Loc".toList fs = .ok none := by
  unfold parseArtVal
  rw [if_neg (by decide)]

theorem parseArt_art (v0 v1 : Val) :
    parseArtVal H "Art".toList [(nameOfChars H "art".toList, .struct (nameOfChars H "Loc".toList)
      [(nameOfChars H "path".toList, v0), (nameOfChars H "id".toList, v1)])] =
    (pathOfVal H v0).bind fun path => (nameOfVal H v1).bind fun name => .ok (some (.art ⟨path, name⟩)) := by
  simp only [nameOfChars_lit, parseArtVal, if_true, and_self]

/-- A printed articulation. -/
theorem rec_art (l : Loc) (rest : List Tok) :
    Rec H (toksArt prn l ++ rest)
      ((ofO ((canonPath H prn l.path).bind fun p => (canonId H prn l.id).map fun n => Val.art ⟨p, n⟩)).bind fun v => .ok (v, rest)) := by
  have e : toksArt prn l ++ rest = .ident "Art".toList :: .left .brace :: .ident "art".toList :: .colon :: .ident "Loc".toList ::
      .left .brace :: .ident "path".toList :: .colon :: (.left .bracket :: toksPath prn l.path ++ .right .bracket ::
        (.comma :: .ident "id".toList :: .colon :: (toksId prn l.id ++ .right .brace :: .right .brace :: rest))) := by
    unfold toksArt; simp
  rw [e]
  have hp := rec_path H prn l.path (.comma :: .ident "id".toList :: .colon :: (toksId prn l.id ++ .right .brace :: .right .brace :: rest))
  have hi := rec_id H prn l.id (.right .brace :: .right .brace :: rest) (Follow.right _ _)
  obtain ⟨n1, n2⟩ := path_names H prn l.path
  rcases hpv : pathVals H prn l.path with _ | vs
  · rw [hpv] at hp
    rw [n2 hpv]
    have a := rec_struct H "Loc".toList (rest := .right .brace :: rest) (o := none) (fields_step_panic H (i := "path".toList) (acc := []) (b := .brace) hp)
    exact rec_struct H "Art".toList (rest := rest) (o := none) (fields_step_panic H (i := "art".toList) (acc := []) (b := .brace) a)
  · obtain ⟨ns, c1, c2⟩ := n1 vs hpv
    rw [hpv] at hp
    rw [c1]
    rcases hiv : idVal H prn l.id with _ | w
    · rw [hiv] at hi
      have hc : canonId H prn l.id = none := by
        cases hl : l.id with
        | structural h => rfl
        | nominal n => rw [hl] at hiv; exact (canon_none H prn n.sym).1 hiv
      rw [hc]
      have a := rec_struct H "Loc".toList (rest := .right .brace :: rest) (o := none)
        (fields_step H (i := "path".toList) (acc := []) (b := .brace) hp
          (fields_comma H (fields_step_panic H (i := "id".toList) hi)))
      exact rec_struct H "Art".toList (rest := rest) (o := none) (fields_step_panic H (i := "art".toList) (acc := []) (b := .brace) a)
    · rw [hiv] at hi
      have a := rec_struct H "Loc".toList (rest := .right .brace :: rest)
        (o := some [(nameOfChars H "path".toList, .vec vs), (nameOfChars H "id".toList, w)])
        (fields_step H (i := "path".toList) (acc := []) (b := .brace) hp
          (fields_comma H (fields_step H (i := "id".toList) hi (fields_end H _ _ _))))
      simp only [ofO, PRes.bind, parseArt_loc] at a
      have a2 := rec_struct H "Art".toList (rest := rest) (o := some [(nameOfChars H "art".toList, _)])
        (fields_step H (i := "art".toList) (acc := []) (b := .brace) a (fields_end H _ _ _))
      simp only [ofO, PRes.bind, parseArt_art] at a2
      cases hl : l.id with
      | structural h =>
        rw [hl] at hiv a2; cases hiv
        simp only [pathOfVal, c2, nameOfVal_const] at a2
        exact a2
      | nominal n =>
        rw [hl] at hiv a2
        obtain ⟨m, d1, d2, d3⟩ := canon_val H prn n.sym w hiv
        simp only [pathOfVal, c2, d2] at a2
        simp only [canonId, d1, Option.bind_some, Option.map_some, ofO, PRes.bind]
        exact a2

/-! ## All values -/

theorem toks_head : ∀ d : D, ∃ t ts, toks prn d = t :: ts ∧ NotSep t
  | .nat n => ⟨_, _, rfl, notSep_const _⟩
  | .int i => ⟨_, _, rfl, notSep_const _⟩
  | .str s => ⟨_, _, rfl, notSep_const _⟩
  | .tuple [] => ⟨_, _, by simp only [toks]; rfl, notSep_left _⟩
  | .tuple [d] => ⟨_, _, by simp only [toks]; rfl, notSep_left _⟩
  | .tuple (d :: d' :: ds) => ⟨_, _, by simp only [toks]; rfl, notSep_left _⟩
  | .vec ds => ⟨_, _, by simp only [toks]; rfl, notSep_left _⟩
  | .constr c [] => ⟨_, _, by simp only [toks]; rfl, notSep_ident _⟩
  | .constr c (d :: ds) => ⟨_, _, by simp only [toks]; rfl, notSep_ident _⟩
  | .struct c [] => ⟨_, _, by simp only [toks]; rfl, notSep_ident _⟩
  | .struct c (d :: ds) => ⟨_, _, by simp only [toks]; rfl, notSep_ident _⟩
  | .name n => by
    obtain ⟨i, ts, h⟩ := toksSym_head prn n.sym
    exact ⟨_, _, by simp only [toks]; exact h, notSep_ident _⟩
  | .art l => ⟨_, _, by simp only [toks, toksArt]; rfl, notSep_ident _⟩

theorem nameOption_other {c : List Char} (h : c ∉ reserved) (vs : List Val) : nameOptionOfVal H (.constr (nameOfChars H c) vs) = .ok none := by
  simp only [reserved, List.mem_cons, not_or, List.not_mem_nil, not_false_eq_true, and_true] at h
  unfold nameOptionOfVal
  simp only [nameOfChars_eq, h, if_false]

theorem reflO_struct {d : D} {n : Name} {fs : List (Name × Val)} (h : reflO H prn d = some (.struct n fs)) :
    ∃ c gs, d = .struct c gs ∧ n = nameOfChars H c := by
  cases d with
  | nat _ => simp [reflO] at h
  | int _ => simp [reflO] at h
  | str _ => simp [reflO] at h
  | tuple _ => simp [reflO] at h
  | vec _ => simp [reflO] at h
  | constr _ _ => simp [reflO] at h
  | name m =>
    simp only [reflO] at h
    cases hs : m.sym <;> rw [hs] at h <;> simp [valSym] at h
  | art _ =>
    simp only [reflO, Option.bind_eq_some_iff, Option.map_eq_some_iff] at h
    obtain ⟨_, _, _, _, h⟩ := h
    cases h
  | struct c gs =>
    refine ⟨c, gs, rfl, ?_⟩
    cases gs with
    | nil => simp [reflO] at h
    | cons g gs =>
      simp only [reflO, Option.map_eq_some_iff] at h
      obtain ⟨_, _, h⟩ := h
      injection h with h _
      exact h.symm

theorem parseArt_other {c : List Char} {fs : List (List Char × D)} {vs : List (Name × Val)}
    (h : c = "Art".toList → ∀ gs, fs ≠ [("art".toList, .struct "Loc".toList gs)]) (hv : reflOF H prn fs = some vs) :
    parseArtVal H c vs = .ok none := by
  unfold parseArtVal
  by_cases hc : c = "Art".toList
  · rw [if_pos hc]
    split
    · rename_i nf vf
      split
      · rename_i hn
        split
        · rename_i j f0 v0 f1 v1
          split
          · rename_i hj
            exfalso
            match fs, hv with
            | [(f, d)], hv =>
              simp only [reflOF, Option.bind_eq_some_iff, Option.map_eq_some_iff] at hv
              obtain ⟨v, hd, _, hnil, hv⟩ := hv
              cases hnil
              injection hv with hv _
              injection hv with hf hv
              subst hv
              obtain ⟨c', gs, rfl, hj'⟩ := reflO_struct H prn hd
              rw [hn, nameOfChars_eq] at hf
              have := hj.1
              rw [hj', nameOfChars_eq] at this
              subst this hf
              exact h hc gs rfl
            | [], hv => simp [reflOF] at hv
            | (f, d) :: (f', d') :: fs, hv =>
              simp only [reflOF, Option.bind_eq_some_iff, Option.map_eq_some_iff] at hv
              obtain ⟨v, hd, x, ⟨v', _, y, _, rfl⟩, hv⟩ := hv
              simp at hv
          · rfl
        · rfl
      · rfl
    · rfl
  · rw [if_neg hc]

mutual
/-- The parser on the tokens of a value. -/
theorem rec_val : ∀ (d : D), Plainly d → ∀ rest, Follow rest → Rec H (toks prn d ++ rest) ((ofO (reflO H prn d)).bind fun v => .ok (v, rest))
  | .nat n, _, rest, _ => rec_const H _ _
  | .int i, _, rest, _ => rec_const H _ _
  | .str s, _, rest, _ => rec_const H _ _
  | .tuple [], _, rest, _ => by
    have := rec_paren H (rest := rest) (o := some []) (vals_end H _ _ _)
    simp only [toks, toksSeq, reflO, reflOL]
    exact this
  | .tuple [d], h, rest, _ => by
    have h1 := rec_val d h.1 (.comma :: .right .paren :: rest) (Follow.comma _)
    obtain ⟨t, ts, he, ht⟩ := toks_head prn d
    have e : toks prn (.tuple [d]) ++ rest = .left .paren :: (toks prn d ++ .comma :: .right .paren :: rest) := by simp [toks]
    rw [e]
    rw [he] at h1 ⊢
    have := rec_paren H (rest := rest) (ts := t :: ts ++ .comma :: .right .paren :: rest) (o := (reflO H prn d).map fun v => [v]) (by
      rcases hd : reflO H prn d with _ | v
      · rw [hd] at h1
        exact vals_step_panic H ht h1
      · rw [hd] at h1
        exact vals_step H ht h1 (vals_comma H (vals_end H _ _ _) (fun h => by cases h)))
    have e2 : reflO H prn (.tuple [d]) = ((reflO H prn d).map fun v => [v]).map .tuple := by
      simp only [reflO, reflOL]
      cases reflO H prn d <;> rfl
    rw [e2]
    exact this
  | .tuple (d :: d' :: ds), h, rest, _ => by
    have := rec_paren H (vals_seq (d :: d' :: ds) h [] rest .paren)
    have e : toks prn (.tuple (d :: d' :: ds)) ++ rest = .left .paren :: (toksSeq prn (d :: d' :: ds) ++ .right .paren :: rest) := by simp [toks]
    rw [e]
    simpa only [reflO, List.nil_append, Option.map_id'] using this
  | .vec ds, h, rest, _ => by
    have := rec_bracket H (vals_seq ds h [] rest .bracket)
    have e : toks prn (.vec ds) ++ rest = .left .bracket :: (toksSeq prn ds ++ .right .bracket :: rest) := by simp [toks]
    rw [e]
    simpa only [reflO, List.nil_append, Option.map_id'] using this
  | .constr c [], h, rest, hr => by
    have := rec_ident H c hr
    simp only [toks, reflO, reflOL]
    exact this
  | .constr c (d :: ds), h, rest, hr => by
    have := rec_call H c (vals_seq (d :: ds) h.2 [] rest .paren)
    have e : toks prn (.constr c (d :: ds)) ++ rest = .ident c :: .left .paren :: (toksSeq prn (d :: ds) ++ .right .paren :: rest) := by
      simp [toks]
    rw [e]
    simp only [reflO]
    simp only [nameOption_other H (h.1 (by simp)), PRes.bind, List.nil_append] at this
    cases hv : reflOL H prn (d :: ds) <;> rw [hv] at this <;> exact this
  | .struct c [], h, rest, hr => by
    have := rec_ident H c hr
    simp only [toks, reflO]
    exact this
  | .struct c (f :: fs), h, rest, hr => by
    have := rec_struct H c (vals_fields (f :: fs) h.2 [] rest)
    have e : toks prn (.struct c (f :: fs)) ++ rest = .ident c :: .left .brace :: (toksFields prn (f :: fs) ++ .right .brace :: rest) := by
      simp [toks]
    rw [e]
    simp only [reflO]
    rcases hv : reflOF H prn (f :: fs) with _ | vs
    · rw [hv] at this; exact this
    · rw [hv] at this
      simp only [List.nil_append, Option.map_some, ofO, PRes.bind, parseArt_other H prn h.1 hv] at this
      exact this
  | .name n, _, rest, hr => by
    simp only [toks, reflO]
    exact rec_sym H prn n.sym rest hr
  | .art l, _, rest, _ => by
    simp only [toks, reflO]
    exact rec_art H prn l rest
theorem vals_seq : ∀ (ds : List D), PlainlyL ds → ∀ acc rest b,
    Vals H (toksSeq prn ds ++ .right b :: rest) acc (.right b) ((ofO ((reflOL H prn ds).map fun vs => acc ++ vs)).bind fun vs => .ok (vs, rest))
  | [], _, acc, rest, b => by
    have := vals_end H rest acc (.right b)
    simpa [toksSeq, reflOL, ofO, PRes.bind] using this
  | [d], h, acc, rest, b => by
    have h1 := rec_val d h.1 (.right b :: rest) (Follow.right _ _)
    obtain ⟨t, ts, he, ht⟩ := toks_head prn d
    simp only [toksSeq, reflOL]
    rw [he] at h1 ⊢
    rcases hd : reflO H prn d with _ | v
    · rw [hd] at h1
      exact vals_step_panic H ht h1
    · rw [hd] at h1
      exact vals_step H ht h1 (vals_end H _ _ _)
  | d :: d' :: ds, h, acc, rest, b => by
    have h1 := rec_val d h.1 (.comma :: (toksSeq prn (d' :: ds) ++ .right b :: rest)) (Follow.comma _)
    obtain ⟨t, ts, he, ht⟩ := toks_head prn d
    have e : toksSeq prn (d :: d' :: ds) ++ .right b :: rest = toks prn d ++ .comma :: (toksSeq prn (d' :: ds) ++ .right b :: rest) := by
      simp [toksSeq]
    rw [e]
    rw [reflOL]
    rw [he] at h1 ⊢
    rcases hd : reflO H prn d with _ | v
    · rw [hd] at h1
      exact vals_step_panic H ht h1
    · rw [hd] at h1
      have ih := vals_seq (d' :: ds) h.2 (acc ++ [v]) rest b
      have := vals_step H (acc := acc) ht h1 (vals_comma H ih (fun h => by cases h))
      have e2 : ((some v).bind fun v => (reflOL H prn (d' :: ds)).map fun vs => v :: vs).map (fun vs => acc ++ vs) =
          (reflOL H prn (d' :: ds)).map fun vs => acc ++ [v] ++ vs := by
        cases reflOL H prn (d' :: ds) <;> simp
      rw [e2]
      exact this
theorem vals_fields : ∀ (fs : List (List Char × D)), PlainlyF fs → ∀ acc rest,
    Fields H (toksFields prn fs ++ .right .brace :: rest) acc (.right .brace)
      ((ofO ((reflOF H prn fs).map fun vs => acc ++ vs)).bind fun vs => .ok (vs, rest))
  | [], _, acc, rest => by
    have := fields_end H rest acc .brace
    simpa [toksFields, reflOF, ofO, PRes.bind] using this
  | [(f, d)], h, acc, rest => by
    have h1 := rec_val d h.1 (.right .brace :: rest) (Follow.right _ _)
    simp only [toksFields, reflOF]
    rcases hd : reflO H prn d with _ | v
    · rw [hd] at h1
      exact fields_step_panic H h1
    · rw [hd] at h1
      exact fields_step H h1 (fields_end H _ _ _)
  | (f, d) :: f' :: fs, h, acc, rest => by
    have h1 := rec_val d h.1 (.comma :: (toksFields prn (f' :: fs) ++ .right .brace :: rest)) (Follow.comma _)
    have e : toksFields prn ((f, d) :: f' :: fs) ++ .right .brace :: rest =
        .ident f :: .colon :: (toks prn d ++ .comma :: (toksFields prn (f' :: fs) ++ .right .brace :: rest)) := by
      simp [toksFields]
    rw [e]
    rw [reflOF]
    rcases hd : reflO H prn d with _ | v
    · rw [hd] at h1
      exact fields_step_panic H h1
    · rw [hd] at h1
      have ih := vals_fields (f' :: fs) h.2 (acc ++ [(nameOfChars H f, v)]) rest
      have := fields_step H (acc := acc) h1 (fields_comma H ih)
      have e2 : ((some v).bind fun v => (reflOF H prn (f' :: fs)).map fun vs => (nameOfChars H f, v) :: vs).map (fun vs => acc ++ vs) =
          (reflOF H prn (f' :: fs)).map fun vs => acc ++ [(nameOfChars H f, v)] ++ vs := by
        cases reflOF H prn (f' :: fs) <;> simp
      rw [e2]
      exact this
end

/-- `parse_val` on every value that is lexed as it is meant. -/
theorem parseVal_eq (d : D) (hl : LexOk d) (hp : Plainly d) : parseVal H prn d = ofO (reflO H prn d) := by
  have h := (rec_val H prn d hp [] Follow.nil)
  rw [List.append_nil] at h
  have h := h.full
  unfold parseVal parseBytes
  rw [lex_print prn d hl]
  show (parseRec H _ _).bind _ = _
  rw [h]
  cases reflO H prn d <;> rfl

end Adapton.Reflect
