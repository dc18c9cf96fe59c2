import Verif.Names.Model
import Verif.Props.Edits
/-
C33 (forking), C34 (pairs and leaves), C35 (the name counter): whatever the hash function is.
-/
set_option linter.unusedSectionVars false
set_option linter.unusedVariables false
set_option linter.unusedSimpArgs false
namespace Adapton
variable {V : Type} [UEq V] (H : NameHash)

/-! ### Specification -/

/-- The names a program can make.  (`name_of_hash64` is documented as internal.) -/
inductive Built : Name → Prop
  | unit : Built nameUnit
  | usize (u) : Built (nameOfUsize H u)
  | isize (i) : Built (nameOfIsize H i)
  | string (s) : Built (nameOfString H s)
  | str (s) : Built (nameOfStr H s)
  | pair {a b} : Built a → Built b → Built (namePair H a b)
  | forkL {a} : Built a → Built (nameFork H a).1
  | forkR {a} : Built a → Built (nameFork H a).2

/-- Names that are not made from other names. -/
inductive Leaf : Name → Prop
  | unit : Leaf nameUnit
  | usize (u) : Leaf (nameOfUsize H u)
  | isize (i) : Leaf (nameOfIsize H i)
  | string (s) : Leaf (nameOfString H s)

/-- The name reached from `n` by forking again and again; `true` is left. -/
def forkPath (n : Name) : List Bool → Name
  | [] => n
  | true :: p => forkPath (nameFork H n).1 p
  | false :: p => forkPath (nameFork H n).2 p

/-! ### Proofs -/

/-- The symbol determines a name that a program can make: no two such names differ only in their hash. -/
theorem Built.eq_of_sym {a b : Name} (ha : Built H a) (hb : Built H b) (h : a.sym = b.sym) : a = b := by
  induction ha generalizing b with
  | unit => cases hb <;> first | rfl | cases h
  | usize u => cases hb <;> first | (cases h; rfl) | cases h
  | isize u => cases hb <;> first | (cases h; rfl) | cases h
  | string u => cases hb <;> first | (cases h; rfl) | cases h
  | str u => cases hb <;> first | (cases h; rfl) | cases h
  | pair h1 h2 ih1 ih2 =>
    cases hb with
    | pair g1 g2 =>
      simp only [namePair, NameSym.pair.injEq] at h
      rw [ih1 g1 h.1, ih2 g2 h.2]
    | _ => cases h
  | forkL h1 ih =>
    cases hb with
    | forkL g =>
      simp only [nameFork, NameSym.forkL.injEq] at h
      rw [ih g h]
    | _ => cases h
  | forkR h1 ih =>
    cases hb with
    | forkR g =>
      simp only [nameFork, NameSym.forkR.injEq] at h
      rw [ih g h]
    | _ => cases h

theorem NameSym.forkL_ne (a : NameSym) : a.forkL ≠ a := fun h => by
  have := congrArg sizeOf h; simp at this
theorem NameSym.forkR_ne (a : NameSym) : a.forkR ≠ a := fun h => by
  have := congrArg sizeOf h; simp at this

/-- **C33.** Forking: the two halves differ, for one name and between names; each half determines the name it came from; a half
is never the name it came from, nor a leaf, nor a pair. -/
theorem C33_fork (a b : Name) (ha : Built H a) (hb : Built H b) :
    (nameFork H a).1 ≠ (nameFork H b).2 ∧
    ((nameFork H a).1 = (nameFork H b).1 ↔ a = b) ∧ ((nameFork H a).2 = (nameFork H b).2 ↔ a = b) ∧
    (nameFork H a).1 ≠ a ∧ (nameFork H a).2 ≠ a ∧
    (∀ c, Leaf H c → (nameFork H a).1 ≠ c ∧ (nameFork H a).2 ≠ c) ∧
    ∀ c d, (nameFork H a).1 ≠ namePair H c d ∧ (nameFork H a).2 ≠ namePair H c d := by
  refine ⟨?_, ⟨?_, ?_⟩, ⟨?_, ?_⟩, ?_, ?_, ?_, ?_⟩
  · intro h; have := congrArg Name.sym h; cases this
  · intro h; have := congrArg Name.sym h
    simp only [nameFork, NameSym.forkL.injEq] at this
    exact ha.eq_of_sym H hb this
  · rintro rfl; rfl
  · intro h; have := congrArg Name.sym h
    simp only [nameFork, NameSym.forkR.injEq] at this
    exact ha.eq_of_sym H hb this
  · rintro rfl; rfl
  · intro h; exact NameSym.forkL_ne _ (congrArg Name.sym h)
  · intro h; exact NameSym.forkR_ne _ (congrArg Name.sym h)
  · intro c hc
    constructor <;> (intro h; have := congrArg Name.sym h; cases hc <;> cases this)
  · intro c d
    constructor <;> (intro h; have := congrArg Name.sym h; cases this)

/-- **C33.** `name_fork3` and `name_fork4`: the parts are pairwise different, each determines the name it came from, and none
is that name. -/
theorem C33_fork3 (a b : Name) (ha : Built H a) (hb : Built H b) :
    (let (x, y, z) := nameFork3 H a; x ≠ y ∧ x ≠ z ∧ y ≠ z ∧ x ≠ a ∧ y ≠ a ∧ z ≠ a) ∧
    (let (x, y, z) := nameFork3 H a; let (x', y', z') := nameFork3 H b; (x = x' ↔ a = b) ∧ (y = y' ↔ a = b) ∧ (z = z' ↔ a = b)) := by
  have hR := Built.forkR ha
  have hRb := Built.forkR hb
  have f1 := C33_fork H a b ha hb
  have f2 := C33_fork H _ _ hR hRb
  have f3 := C33_fork H _ _ hR hR
  refine ⟨⟨?_, ?_, f3.1, f1.2.2.2.1, ?_, ?_⟩, ⟨f1.2.1, f2.2.1.trans f1.2.2.1, f2.2.2.1.trans f1.2.2.1⟩⟩
  · intro h
    have := congrArg Name.sym h
    simp only [nameFork, NameSym.forkL.injEq] at this
    exact NameSym.forkR_ne _ this.symm
  · intro h; have := congrArg Name.sym h; cases this
  · intro h
    have := congrArg (fun n : Name => sizeOf n.sym) h
    simp [nameFork3, nameFork] at this; omega
  · intro h
    have := congrArg (fun n : Name => sizeOf n.sym) h
    simp [nameFork3, nameFork] at this; omega

/-- **C33.** The same for `name_fork4`. -/
theorem C33_fork4 (a b : Name) (ha : Built H a) (hb : Built H b) :
    (let (x, y, z, w) := nameFork4 H a; x ≠ y ∧ x ≠ z ∧ x ≠ w ∧ y ≠ z ∧ y ≠ w ∧ z ≠ w ∧ x ≠ a ∧ y ≠ a ∧ z ≠ a ∧ w ≠ a) ∧
    (let (x, y, z, w) := nameFork4 H a; let (x', y', z', w') := nameFork4 H b;
      (x = x' ↔ a = b) ∧ (y = y' ↔ a = b) ∧ (z = z' ↔ a = b) ∧ (w = w' ↔ a = b)) := by
  have hR := Built.forkR ha
  have hRb := Built.forkR hb
  have f1 := C33_fork H a b ha hb
  have g := C33_fork3 H _ _ hR hRb
  have sz : ∀ x y : Name, sizeOf x.sym < sizeOf y.sym → x ≠ y := by rintro x y h rfl; exact Nat.lt_irrefl _ h
  refine ⟨⟨?_, ?_, ?_, g.1.1, g.1.2.1, g.1.2.2.1, f1.2.2.2.1, ?_, ?_, ?_⟩,
    ⟨f1.2.1, g.2.1.trans f1.2.2.1, g.2.2.1.trans f1.2.2.1, g.2.2.2.trans f1.2.2.1⟩⟩
  · refine sz _ _ ?_; simp [nameFork4, nameFork]
  · refine sz _ _ ?_; simp [nameFork4, nameFork]; omega
  · refine sz _ _ ?_; simp [nameFork4, nameFork]; omega
  · refine (sz _ _ ?_).symm; simp [nameFork4, nameFork]; omega
  · refine (sz _ _ ?_).symm; simp [nameFork4, nameFork]; omega
  · refine (sz _ _ ?_).symm; simp [nameFork4, nameFork]; omega

theorem forkPath_size (p : List Bool) : ∀ n : Name, sizeOf (forkPath H n p).sym = sizeOf n.sym + p.length := by
  induction p with
  | nil => intro n; rfl
  | cons d p ih =>
    intro n
    cases d <;> (simp only [forkPath, ih, List.length_cons, nameFork]; simp; omega)

theorem forkPath_snoc (p : List Bool) (d : Bool) : ∀ n : Name, forkPath H n (p ++ [d]) =
    if d then (nameFork H (forkPath H n p)).1 else (nameFork H (forkPath H n p)).2 := by
  induction p with
  | nil => intro n; cases d <;> rfl
  | cons b p ih => intro n; cases b <;> exact ih _

theorem forkPath_sym (p : List Bool) : ∀ (n : Name) (q : List Bool), (forkPath H n p).sym = (forkPath H n q).sym → p = q := by
  intro n q h
  have hlen : p.length = q.length := by
    have h1 := forkPath_size H p n
    have h2 := forkPath_size H q n
    rw [h] at h1; omega
  obtain ⟨k, hk⟩ : ∃ k, p.length = k := ⟨_, rfl⟩
  induction k generalizing p q with
  | zero =>
    have : p = [] := List.length_eq_zero_iff.1 hk
    subst this
    exact (List.length_eq_zero_iff.1 (by omega)).symm
  | succ k ih =>
    have hp : p ≠ [] := by rintro rfl; cases hk
    have hq : q ≠ [] := by rintro rfl; rw [hk] at hlen; cases hlen
    rw [← List.dropLast_concat_getLast hp, ← List.dropLast_concat_getLast hq] at h ⊢
    rw [forkPath_snoc, forkPath_snoc] at h
    have key : p.getLast hp = q.getLast hq ∧ (forkPath H n p.dropLast).sym = (forkPath H n q.dropLast).sym := by
      generalize p.getLast hp = c at h
      generalize q.getLast hq = d at h
      cases c <;> cases d <;> simp_all [nameFork]
    rw [key.1, ih p.dropLast q.dropLast key.2 (by simp [hlen]) (by simp [hk])]

/-- **C33.** Forking a name again and again, along any tree of forks, never yields the same name twice. -/
theorem C33_fork_tree (n : Name) (p q : List Bool) : forkPath H n p = forkPath H n q ↔ p = q :=
  ⟨fun h => forkPath_sym H p n q (congrArg Name.sym h), fun h => by rw [h]⟩

/-- **C33.** The macro `forko!` on an optional name: no name gives no names, a name gives the two halves that `name_fork`
gives, the left one first. -/
theorem C33_forko (n : Name) :
    forko H none = (none, none) ∧
    ∃ l r, forko H (some n) = (some l, some r) ∧ l = (nameFork H n).1 ∧ r = (nameFork H n).2 ∧ l.sym = .forkL n.sym ∧ r.sym = .forkR n.sym :=
  ⟨rfl, _, _, rfl, rfl, rfl, rfl, rfl⟩

/-- **C34.** Pairs: equal iff their parts are; never equal to one of their parts or to a leaf. -/
theorem C34_pair (a b c d : Name) (ha : Built H a) (hb : Built H b) (hc : Built H c) (hd : Built H d) :
    (namePair H a b = namePair H c d ↔ a = c ∧ b = d) ∧ namePair H a b ≠ a ∧ namePair H a b ≠ b ∧
    ∀ e, Leaf H e → namePair H a b ≠ e := by
  refine ⟨⟨?_, ?_⟩, ?_, ?_, ?_⟩
  · intro h
    have := congrArg Name.sym h
    simp only [namePair, NameSym.pair.injEq] at this
    exact ⟨ha.eq_of_sym H hc this.1, hb.eq_of_sym H hd this.2⟩
  · rintro ⟨rfl, rfl⟩; rfl
  · intro h
    have := congrArg (fun n : Name => sizeOf n.sym) h
    simp [namePair] at this <;> omega
  · intro h
    have := congrArg (fun n : Name => sizeOf n.sym) h
    simp [namePair] at this <;> omega
  · intro e he h
    have := congrArg Name.sym h; cases he <;> cases this

/-- **C34.** Leaf names: injective, with disjoint ranges; `name_of_str` agrees with `name_of_string`. -/
theorem C34_leaves :
    (∀ u u', nameOfUsize H u = nameOfUsize H u' ↔ u = u') ∧ (∀ i i', nameOfIsize H i = nameOfIsize H i' ↔ i = i') ∧
    (∀ s s', nameOfString H s = nameOfString H s' ↔ s = s') ∧ (∀ s, nameOfStr H s = nameOfString H s) ∧
    (∀ u i, nameOfUsize H u ≠ nameOfIsize H i) ∧ (∀ u s, nameOfUsize H u ≠ nameOfString H s) ∧
    (∀ i s, nameOfIsize H i ≠ nameOfString H s) ∧
    (∀ u, nameOfUsize H u ≠ nameUnit) ∧ (∀ i, nameOfIsize H i ≠ nameUnit) ∧ (∀ s, nameOfString H s ≠ nameUnit) := by
  refine ⟨?_, ?_, ?_, fun _ => rfl, ?_, ?_, ?_, ?_, ?_, ?_⟩
  · intro u u'; exact ⟨fun h => by have := congrArg Name.sym h; simpa [nameOfUsize] using this, fun h => by rw [h]⟩
  · intro u u'; exact ⟨fun h => by have := congrArg Name.sym h; simpa [nameOfIsize] using this, fun h => by rw [h]⟩
  · intro u u'; exact ⟨fun h => by have := congrArg Name.sym h; simpa [nameOfString] using this, fun h => by rw [h]⟩
  all_goals
    intros; intro h; have := congrArg Name.sym h; cases this

/-! ### C35 -/

theorem draws_get (k : Nat) : ∀ c, c < 2 ^ 64 → ∀ i, i < k → (draws k c)[i]? = some ((c + i) % 2 ^ 64) := by
  induction k with
  | zero => intro c _ i h; cases h
  | succ k ih =>
    intro c hc i hi
    unfold draws
    cases i with
    | zero => simp only [List.getElem?_cons_zero, bumpNameCounter, Nat.add_zero, Nat.mod_eq_of_lt hc]
    | succ i =>
      rw [List.getElem?_cons_succ, show (bumpNameCounter c).2 = (c + 1) % 2 ^ 64 from rfl,
        ih _ (Nat.mod_lt _ (by decide)) i (by omega)]
      congr 1
      omega

theorem draws_length (k : Nat) : ∀ c, (draws k c).length = k := by
  induction k with
  | zero => intro c; rfl
  | succ k ih => intro c; unfold draws; simp [ih]

/-- **C35.** Up to `2^64` consecutive draws from the name counter, starting anywhere, give pairwise different names. -/
theorem C35_counter_names_distinct (k c : Nat) (hc : c < 2 ^ 64) (hk : k ≤ 2 ^ 64) :
    ((draws k c).map (nameOfUsize H)).Pairwise (· ≠ ·) := by
  rw [List.pairwise_map, List.pairwise_iff_getElem]
  intro i j hi hj hij h
  rw [draws_length] at hi hj
  have h1 := draws_get k c hc i hi
  have h2 := draws_get k c hc j hj
  rw [List.getElem?_eq_getElem (by rw [draws_length]; omega), Option.some.injEq] at h1 h2
  rw [h1, h2] at h
  have := ((C34_leaves H).1 _ _).1 h
  omega

/-- **C35.** Hence the cells that the unnamed form `cell!(v)` allocates in one namespace have different arts. -/
theorem C35_counter_arts_distinct (env : Env V) (k c : Nat) (hc : c < 2 ^ 64) (hk : k ≤ 2 ^ 64) (i j : Nat) (hij : i < j) (hj : j < k)
    (ty ty' : Ty) (v v' : V) (s s' t t' : St V) (l l' : Loc) (hs : s.ignoreNominal = false) (ht : t.ignoreNominal = false)
    (h1 : opCell env ty (nameOfUsize H ((draws k c)[i]'(by rw [draws_length]; omega))) v s = .ok l s')
    (h2 : opCell env ty' (nameOfUsize H ((draws k c)[j]'(by rw [draws_length]; omega))) v' t = .ok l' t') : l ≠ l' := by
  rintro rfl
  have key : ∀ (ty : Ty) (n : Name) (v : V) (s s' : St V) (l : Loc), s.ignoreNominal = false → opCell env ty n v s = .ok l s' →
      l = ⟨s.path, .nominal n⟩ := by
    intro ty n v s s' l hs h
    unfold opCell at h
    rw [M.bind_ok (M.get_def s)] at h
    simp only [hs, Bool.false_and, Bool.false_eq_true, if_false] at h
    obtain ⟨_, s1, _, h⟩ := M.bind_inv h
    obtain ⟨_, s2, _, h⟩ := M.bind_inv h
    cases h; rfl
  have e1 := key _ _ _ _ _ _ hs h1
  have e2 := key _ _ _ _ _ _ ht h2
  rw [e1] at e2
  simp only [Loc.mk.injEq, ArtId.nominal.injEq] at e2
  have hp := C35_counter_names_distinct H k c hc hk
  rw [List.pairwise_map, List.pairwise_iff_getElem] at hp
  exact hp i j (by rw [draws_length]; omega) (by rw [draws_length]; omega) hij e2.2

/-- Unnamed cells are not disjoint from cells the program names itself: the `i`-th drawn name is `name_of_usize(c + i)`. -/
theorem C35_counter_names_are_usize_names (k c i : Nat) (hc : c + k ≤ 2 ^ 64) (hi : i < k) :
    ((draws k c).map (nameOfUsize H))[i]? = some (nameOfUsize H (c + i)) := by
  rw [List.getElem?_map, draws_get k c (by omega) i hi, Nat.mod_eq_of_lt (by omega)]; rfl

/-! ### The hypotheses are met -/

/-- Whatever the hash function, even a constant one. -/
def badHash : NameHash := ⟨fun _ _ => 0, fun _ => 0, fun _ => 0, fun _ => 0, fun _ _ => 0⟩

example : Built badHash (namePair badHash (nameFork badHash (nameOfStr badHash "a")).1 (nameOfIsize badHash (-3))) :=
  .pair (.forkL (.str _)) (.isize _)
example : nameFork3 badHash nameUnit = (⟨0, .forkL .unit⟩, ⟨0, .forkL (.forkR .unit)⟩, ⟨0, .forkR (.forkR .unit)⟩) := rfl
example : draws 4 (2 ^ 64 - 2) = [2 ^ 64 - 2, 2 ^ 64 - 1, 0, 1] := by decide

end Adapton
