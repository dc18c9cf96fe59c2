import Verif.Reflect.Strings
import Verif.Engine.Reflect
import Verif.Props.Names
/-
C67: what the concise strings of names, paths and locations (`string_of_name`, `string_of_path`, `string_of_loc`) tell apart.
-/
set_option linter.unusedVariables false
namespace Adapton
open Reflect (RLoc printInt)
variable (H : NameHash)

/-! ### The specification -/

/-- Strings that are safe to be used as names: not empty, no `-`, `_`, `▲`, no digit in front. -/
structure Word (s : String) : Prop where
  nonempty : s.toList ≠ []
  front : ∀ c, s.toList.head? = some c → c.isDigit = false
  chars : ∀ c ∈ s.toList, c ≠ '-' ∧ c ≠ '_' ∧ c ≠ '▲'

/-- Names made from numbers, words and the unit name, with `name_fork` only. -/
inductive Plain : Name → Prop
  | unit : Plain nameUnit
  | usize (n : Nat) : Plain (nameOfUsize H n)
  | string (s : String) (h : Word s) : Plain (nameOfString H s)
  | forkL {a} (h : Plain a) : Plain (nameFork H a).1
  | forkR {a} (h : Plain a) : Plain (nameFork H a).2

/-! ### Proofs -/

/-- The part of a name's string before the first fork. -/
inductive AtomSym : NameSym → Prop
  | unit : AtomSym .unit
  | usize (n : Nat) : AtomSym (.usize n)
  | str (s : String) (h : Word s) : AtomSym (.str s)

inductive PlainSym : NameSym → Prop
  | atom {a} (h : AtomSym a) : PlainSym a
  | forkL {a} (h : PlainSym a) : PlainSym (.forkL a)
  | forkR {a} (h : PlainSym a) : PlainSym (.forkR a)

theorem Plain.sym {n : Name} (h : Plain H n) : PlainSym n.sym := by
  induction h with
  | unit => exact .atom .unit
  | usize n => exact .atom (.usize n)
  | string s h => exact .atom (.str s h)
  | forkL _ ih => exact .forkL ih
  | forkR _ ih => exact .forkR ih

theorem Plain.built {n : Name} (h : Plain H n) : Built H n := by
  induction h with
  | unit => exact .unit
  | usize n => exact .usize n
  | string s h => exact .string s
  | forkL _ ih => exact .forkL ih
  | forkR _ ih => exact .forkR ih

theorem digit_of_mem {n : Nat} {c : Char} (h : c ∈ Nat.toDigits 10 n) : c.isDigit = true :=
  Nat.isDigit_of_mem_toDigits (by decide) (by decide) h

theorem AtomSym.chars {a : NameSym} (h : AtomSym a) : ∀ c ∈ writeNamesym a, c ≠ '-' ∧ c ≠ '_' := by
  intro c hc
  cases h with
  | unit => simp only [writeNamesym, List.mem_singleton] at hc; subst hc; decide
  | usize n => have := digit_of_mem hc; constructor <;> (rintro rfl; revert this; decide)
  | str s h => exact ⟨(h.chars c hc).1, (h.chars c hc).2.1⟩

theorem PlainSym.chars {a : NameSym} (h : PlainSym a) : ∀ c ∈ writeNamesym a, c ≠ '_' := by
  induction h with
  | atom h => exact fun c hc => (h.chars c hc).2
  | forkL _ ih =>
    intro c hc
    simp only [writeNamesym, List.mem_append, List.mem_cons, List.not_mem_nil, or_false] at hc
    rcases hc with hc | rfl | rfl
    · exact ih c hc
    · decide
    · decide
  | forkR _ ih =>
    intro c hc
    simp only [writeNamesym, List.mem_append, List.mem_cons, List.not_mem_nil, or_false] at hc
    rcases hc with hc | rfl | rfl
    · exact ih c hc
    · decide
    · decide

theorem PlainSym.nonempty {a : NameSym} (h : PlainSym a) : writeNamesym a ≠ [] := by
  cases h with
  | atom h =>
    cases h with
    | unit => simp [writeNamesym]
    | usize n => exact Nat.toDigits_ne_nil
    | str s h => exact h.nonempty
  | forkL h => simp [writeNamesym]
  | forkR h => simp [writeNamesym]

theorem toDigits_inj {n m : Nat} (h : Nat.toDigits 10 n = Nat.toDigits 10 m) : n = m := by
  have h1 := Nat.ofDigitChars_toDigits (b := 10) (n := n) (by decide) (by decide)
  have h2 := Nat.ofDigitChars_toDigits (b := 10) (n := m) (by decide) (by decide)
  rw [h] at h1
  rw [← h1, h2]

theorem AtomSym.inj {a b : NameSym} (ha : AtomSym a) (hb : AtomSym b) (h : writeNamesym a = writeNamesym b) : a = b := by
  have key : ∀ (n : Nat) (s : String), Word s → Nat.toDigits 10 n ≠ s.toList := by
    intro n s hs he
    rcases hx : Nat.toDigits 10 n with _ | ⟨c, t⟩
    · exact Nat.toDigits_ne_nil hx
    · have h1 : c.isDigit = true := digit_of_mem (n := n) (by rw [hx]; simp)
      have h2 := hs.front c (by rw [← he, hx]; rfl)
      rw [h1] at h2; cases h2
  have key2 : ∀ n : Nat, Nat.toDigits 10 n ≠ [triangle] := by
    intro n he
    have := digit_of_mem (n := n) (c := triangle) (by rw [he]; simp)
    revert this; decide
  have key3 : ∀ s : String, Word s → s.toList ≠ [triangle] := by
    intro s hs he
    exact (hs.chars triangle (by rw [he]; simp)).2.2 rfl
  cases ha with
  | unit =>
    cases hb with
    | unit => rfl
    | usize n => exact absurd h.symm (key2 n)
    | str s hs => exact absurd h.symm (key3 s hs)
  | usize n =>
    cases hb with
    | unit => exact absurd h (key2 n)
    | usize m => rw [toDigits_inj h]
    | str s hs => exact absurd h (key n s hs)
  | str s hs =>
    cases hb with
    | unit => exact absurd h (key3 s hs)
    | usize m => exact absurd h.symm (key m s hs)
    | str s' hs' => rw [String.toList_inj.1 h]

theorem fork_inj {u v : List Char} {x y : Char} (h : u ++ ['-', x] = v ++ ['-', y]) : u = v ∧ x = y := by
  have := List.append_inj' h rfl
  exact ⟨this.1, by simpa using this.2⟩

theorem PlainSym.inj {a b : NameSym} (ha : PlainSym a) (hb : PlainSym b) (h : writeNamesym a = writeNamesym b) : a = b := by
  have atom : ∀ {a u x}, AtomSym a → writeNamesym a ≠ u ++ ['-', x] := fun ha he =>
    (ha.chars '-' (by rw [he]; simp)).1 rfl
  induction ha generalizing b with
  | atom ha =>
    cases hb with
    | atom hb => exact ha.inj hb h
    | forkL hb => exact absurd h (atom ha)
    | forkR hb => exact absurd h (atom ha)
  | forkL _ ih =>
    cases hb with
    | atom hb => exact absurd h.symm (atom hb)
    | forkL hb => rw [ih hb (fork_inj h).1]
    | forkR hb => exact absurd (fork_inj h).2 (by decide)
  | forkR _ ih =>
    cases hb with
    | atom hb => exact absurd h.symm (atom hb)
    | forkL hb => exact absurd (fork_inj h).2 (by decide)
    | forkR hb => rw [ih hb (fork_inj h).1]

theorem Plain.inj {a b : Name} (ha : Plain H a) (hb : Plain H b) (h : stringOfName a = stringOfName b) : a = b :=
  ha.built.eq_of_sym H hb.built ((ha.sym H).inj (hb.sym H) h)

/-- Splitting at the first underscore. -/
theorem split_inj : ∀ {u v x y : List Char}, (∀ c ∈ u, c ≠ '_') → (∀ c ∈ v, c ≠ '_') → u ++ '_' :: x = v ++ '_' :: y → u = v ∧ x = y
  | [], [], _, _, _, _, h => ⟨rfl, by simpa using h⟩
  | [], c :: v, _, _, _, hv, h => by
    simp only [List.nil_append, List.cons_append, List.cons.injEq] at h
    exact absurd h.1.symm (hv c (by simp))
  | c :: u, [], _, _, hu, _, h => by
    simp only [List.nil_append, List.cons_append, List.cons.injEq] at h
    exact absurd h.1 (hu c (by simp))
  | c :: u, d :: v, _, _, hu, hv, h => by
    simp only [List.cons_append, List.cons.injEq] at h
    obtain ⟨h1, h2⟩ := split_inj (fun c hc => hu c (by simp [hc])) (fun c hc => hv c (by simp [hc])) h.2
    exact ⟨by rw [h.1, h1], h2⟩

/-- The path part, followed by nothing or by a single underscore and a name. -/
theorem path_inj : ∀ {p q : List Name} {x y : List Char}, (∀ n ∈ p, Plain H n) → (∀ n ∈ q, Plain H n) →
    (∀ c, x.head? = some c → c = '_') → (∀ c, y.head? = some c → c = '_') →
    (p.flatMap fun n => stringOfName n ++ ['_', '_']) ++ x = (q.flatMap fun n => stringOfName n ++ ['_', '_']) ++ y → p = q ∧ x = y
  | [], [], _, _, _, _, _, _, h => ⟨rfl, by simpa using h⟩
  | [], n :: q, x, y, _, hq, hx, _, h => by
    simp only [List.flatMap_nil, List.nil_append, List.flatMap_cons, List.append_assoc, List.cons_append] at h
    have hn := hq n (by simp)
    rcases hs : stringOfName n with _ | ⟨c, t⟩
    · exact absurd hs (hn.sym H).nonempty
    · rw [hs] at h
      exact absurd (hx c (by rw [h]; rfl)) ((hn.sym H).chars c (by show c ∈ stringOfName n; rw [hs]; simp))
  | n :: p, [], x, y, hp, _, _, hy, h => by
    simp only [List.flatMap_nil, List.nil_append, List.flatMap_cons, List.append_assoc, List.cons_append] at h
    have hn := hp n (by simp)
    rcases hs : stringOfName n with _ | ⟨c, t⟩
    · exact absurd hs (hn.sym H).nonempty
    · rw [hs] at h
      exact absurd (hy c (by rw [← h]; rfl)) ((hn.sym H).chars c (by show c ∈ stringOfName n; rw [hs]; simp))
  | n :: p, m :: q, x, y, hp, hq, hx, hy, h => by
    simp only [List.flatMap_cons, List.append_assoc, List.cons_append, List.nil_append] at h
    have hn := hp n (by simp)
    have hm := hq m (by simp)
    obtain ⟨h1, h2⟩ := split_inj (fun c hc => (hn.sym H).chars c hc) (fun c hc => (hm.sym H).chars c hc) h
    simp only [List.cons.injEq, true_and] at h2
    obtain ⟨h3, h4⟩ := path_inj (fun n hn => hp n (by simp [hn])) (fun n hn => hq n (by simp [hn])) hx hy h2
    exact ⟨by rw [hn.inj H hm h1, h3], h4⟩

/-- **C67.** Names made by forking numbers, words and the unit name are told apart by their strings; so are namespaces and locations
made of them. -/
theorem C67_strings_identify :
    (∀ a b, Plain H a → Plain H b → (stringOfName a = stringOfName b ↔ a = b)) ∧
    (∀ p q : List Name, (∀ n ∈ p, Plain H n) → (∀ n ∈ q, Plain H n) → (stringOfPath p = stringOfPath q ↔ p = q)) ∧
    ∀ k l : RLoc, (∀ n ∈ k.path, Plain H n) → (∀ n ∈ l.path, Plain H n) → Plain H k.name → Plain H l.name →
      (stringOfLoc k = stringOfLoc l ↔ k = l) := by
  refine ⟨fun a b ha hb => ⟨ha.inj H hb, fun h => by rw [h]⟩, fun p q hp hq => ⟨fun h => ?_, fun h => by rw [h]⟩,
    fun k l hk hl hkn hln => ⟨fun h => ?_, fun h => by rw [h]⟩⟩
  · simp only [stringOfPath, List.cons.injEq, true_and] at h
    exact (path_inj H (x := []) (y := []) hp hq (fun c hc => by cases hc) (fun c hc => by cases hc) (by simpa using h)).1
  · simp only [stringOfLoc, stringOfPath, List.cons_append, List.cons.injEq, true_and] at h
    obtain ⟨h1, h2⟩ := path_inj H hk hl (fun c hc => by cases hc; rfl) (fun c hc => by cases hc; rfl) h
    simp only [List.cons.injEq, true_and] at h2
    cases k; cases l
    simp only at h1 h2 hkn hln
    rw [h1, hkn.inj H hln h2]

/-- **C67, violations.** Different names with the same string: a number and the string of its digits, a number as `usize` and as
`isize`; pairs that differ in grouping; a fork of a pair and the pair with a fork of its second part; a fork and a pair with the string
`l` or `r`; a string that looks like a pair. -/
theorem C67_different_names_same_string (a b c : Name) (n : Nat) (s t : String) :
    (nameOfUsize H n ≠ nameOfString H (String.ofList (Nat.toDigits 10 n)) ∧
      stringOfName (nameOfUsize H n) = stringOfName (nameOfString H (String.ofList (Nat.toDigits 10 n)))) ∧
    (nameOfUsize H n ≠ nameOfIsize H n ∧ stringOfName (nameOfUsize H n) = stringOfName (nameOfIsize H n)) ∧
    (namePair H a (namePair H b c) ≠ namePair H (namePair H a b) c ∧
      stringOfName (namePair H a (namePair H b c)) = stringOfName (namePair H (namePair H a b) c)) ∧
    ((nameFork H (namePair H a b)).1 ≠ namePair H a (nameFork H b).1 ∧
      stringOfName (nameFork H (namePair H a b)).1 = stringOfName (namePair H a (nameFork H b).1)) ∧
    ((nameFork H (namePair H a b)).2 ≠ namePair H a (nameFork H b).2 ∧
      stringOfName (nameFork H (namePair H a b)).2 = stringOfName (namePair H a (nameFork H b).2)) ∧
    ((nameFork H a).1 ≠ namePair H a (nameOfString H "l") ∧ stringOfName (nameFork H a).1 = stringOfName (namePair H a (nameOfString H "l"))) ∧
    ((nameFork H a).2 ≠ namePair H a (nameOfString H "r") ∧ stringOfName (nameFork H a).2 = stringOfName (namePair H a (nameOfString H "r"))) ∧
    (nameOfString H (s ++ "-" ++ t) ≠ namePair H (nameOfString H s) (nameOfString H t) ∧
      stringOfName (nameOfString H (s ++ "-" ++ t)) = stringOfName (namePair H (nameOfString H s) (nameOfString H t))) := by
  have ne : ∀ {x y : Name}, x.sym ≠ y.sym → x ≠ y := fun h he => h (by rw [he])
  refine ⟨⟨ne (by simp [nameOfUsize, nameOfString]), ?_⟩, ⟨ne (by simp [nameOfUsize, nameOfIsize]), ?_⟩, ⟨ne ?_, ?_⟩,
    ⟨ne (by simp [nameFork, namePair]), ?_⟩, ⟨ne (by simp [nameFork, namePair]), ?_⟩, ⟨ne (by simp [nameFork, namePair]), ?_⟩,
    ⟨ne (by simp [nameFork, namePair]), ?_⟩, ⟨ne (by simp [nameOfString, namePair]), ?_⟩⟩
  · simp [stringOfName, nameOfUsize, nameOfString, writeNamesym]
  · simp [stringOfName, nameOfUsize, nameOfIsize, writeNamesym, printInt]
  · simp only [namePair, ne_eq, NameSym.pair.injEq, not_and]
    intro h
    have := congrArg sizeOf h
    simp at this
    omega
  all_goals simp [stringOfName, nameFork, nameOfString, namePair, writeNamesym]

/-- **C67, violations.** All structural locations of a namespace have the same string, although their reflected locations differ; and
a namespace called `x` that contains `y` and a location of the same string: the name `x__y`. -/
theorem C67_different_locations_same_string (p : Path) (h h' : UInt64) (x y : String) (q : List Name) (n : Name) :
    (stringOfLoc (RDcg.loc ⟨p, .structural h⟩) = stringOfLoc (RDcg.loc ⟨p, .structural h'⟩) ∧
      (h ≠ h' → RDcg.loc ⟨p, .structural h⟩ ≠ RDcg.loc ⟨p, .structural h'⟩)) ∧
    (stringOfLoc ⟨nameOfString H x :: nameOfString H y :: q, n⟩ = stringOfLoc ⟨nameOfString H (x ++ "__" ++ y) :: q, n⟩ ∧
      (⟨nameOfString H x :: nameOfString H y :: q, n⟩ : RLoc) ≠ ⟨nameOfString H (x ++ "__" ++ y) :: q, n⟩) := by
  refine ⟨⟨rfl, fun hne he => hne ?_⟩, ?_, ?_⟩
  · have := congrArg (fun l : RLoc => l.name.hash) he
    exact this
  · simp [stringOfLoc, stringOfPath, stringOfName, nameOfString, writeNamesym]
  · intro he
    have := congrArg (fun l : RLoc => l.path.length) he
    simp at this

/-! Concrete names that meet the hypotheses. -/
theorem word_abc : Word "abc" := ⟨by decide, by decide, by decide⟩
example : Plain H (nameFork H (nameFork H (nameOfString H "abc")).1).2 := .forkR (.forkL (.string _ word_abc))
example : stringOfName (nameFork H (nameFork H (nameOfString H "abc")).1).2 = "abc-l-r".toList := by
  simp [stringOfName, nameFork, nameOfString, writeNamesym]
example : stringOfLoc ⟨[nameOfString H "abc", nameOfUsize H 12], (nameFork H (nameOfUsize H 7)).2⟩ = "__abc__12___7-r".toList := by
  simp [stringOfLoc, stringOfPath, stringOfName, nameFork, nameOfString, nameOfUsize, writeNamesym]
  decide

end Adapton
