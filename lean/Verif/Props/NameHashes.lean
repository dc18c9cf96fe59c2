import Verif.Props.Names
/-
C58: the stored hash of a name identifies it, up to collisions of the hash function itself.  Hashes of names are all that
structural identities see of a name (engine.rs:304-308, `Hash for Name` writes the stored hash only).
-/
set_option linter.unusedVariables false
namespace Adapton
variable (H : NameHash)

/-! ### Specification -/

/-- What the hash function is applied to when names are built. -/
inductive HashInput
  | usize (u : Nat) | isize (i : Int) | str (s : String)
  | pair (a b : UInt64)
  | fork (a : UInt64) (salt : Nat)
deriving DecidableEq

/-- The hash function at an input. -/
def NameHash.at (H : NameHash) : HashInput → UInt64
  | .usize u => H.usize u
  | .isize i => H.isize i
  | .str s => H.str s
  | .pair a b => H.pair a b
  | .fork a k => H.fork a k

/-- The inputs hashed while building a name: its own and those of the names it is made of. -/
inductive Uses : Name → HashInput → Prop
  | usize (u) : Uses (nameOfUsize H u) (.usize u)
  | isize (i) : Uses (nameOfIsize H i) (.isize i)
  | string (s) : Uses (nameOfString H s) (.str s)
  | pair (a b) : Uses (namePair H a b) (.pair a.hash b.hash)
  | pairL {a b i} : Uses a i → Uses (namePair H a b) i
  | pairR {a b i} : Uses b i → Uses (namePair H a b) i
  | forkL (a) : Uses (nameFork H a).1 (.fork a.hash 11111111)
  | forkR (a) : Uses (nameFork H a).2 (.fork a.hash 22222222)
  | forkL' {a i} : Uses a i → Uses (nameFork H a).1 i
  | forkR' {a i} : Uses a i → Uses (nameFork H a).2 i

/-- Building `a` and `b`, the hash function was applied to two different inputs and gave the same hash, or gave 0, which is the
hash of the unit name. -/
def Collision (a b : Name) : Prop :=
  (∃ i j, Uses H a i ∧ Uses H b j ∧ i ≠ j ∧ H.at i = H.at j) ∨ (∃ i, (Uses H a i ∨ Uses H b i) ∧ H.at i = 0)

/-! ### Proofs -/

variable {H}

theorem Collision.mono {a b a' b' : Name} (h : Collision H a b) (ha : ∀ i, Uses H a i → Uses H a' i)
    (hb : ∀ i, Uses H b i → Uses H b' i) : Collision H a' b' := by
  rcases h with ⟨i, j, h1, h2, h3⟩ | ⟨i, h1, h2⟩
  · exact .inl ⟨i, j, ha i h1, hb j h2, h3⟩
  · exact .inr ⟨i, h1.imp (ha i) (hb i), h2⟩

/-- The input that produced the hash of a name. -/
theorem Built.top {a : Name} (h : Built H a) : a = nameUnit ∨ ∃ i, Uses H a i ∧ a.hash = H.at i := by
  cases h with
  | unit => exact .inl rfl
  | usize u => exact .inr ⟨_, .usize u, rfl⟩
  | isize u => exact .inr ⟨_, .isize u, rfl⟩
  | string u => exact .inr ⟨_, .string u, rfl⟩
  | str u => exact .inr ⟨_, .string u, rfl⟩
  | pair h1 h2 => exact .inr ⟨_, .pair _ _, rfl⟩
  | forkL h1 => exact .inr ⟨_, .forkL _, rfl⟩
  | forkR h1 => exact .inr ⟨_, .forkR _, rfl⟩

/-- The shape of a name and the input that produced its hash. -/
inductive Shape : Name → HashInput → Prop
  | usize (u) : Shape (nameOfUsize H u) (.usize u)
  | isize (i) : Shape (nameOfIsize H i) (.isize i)
  | string (s) : Shape (nameOfString H s) (.str s)
  | pair {a b} : Built H a → Built H b → Shape (namePair H a b) (.pair a.hash b.hash)
  | forkL {a} : Built H a → Shape (nameFork H a).1 (.fork a.hash 11111111)
  | forkR {a} : Built H a → Shape (nameFork H a).2 (.fork a.hash 22222222)

theorem Built.shape {a : Name} (h : Built H a) : a = nameUnit ∨ ∃ i, Shape (H := H) a i ∧ Uses H a i ∧ a.hash = H.at i := by
  cases h with
  | unit => exact .inl rfl
  | usize u => exact .inr ⟨_, .usize u, .usize u, rfl⟩
  | isize u => exact .inr ⟨_, .isize u, .isize u, rfl⟩
  | string u => exact .inr ⟨_, .string u, .string u, rfl⟩
  | str u => exact .inr ⟨_, .string u, .string u, rfl⟩
  | pair h1 h2 => exact .inr ⟨_, .pair h1 h2, .pair _ _, rfl⟩
  | forkL h1 => exact .inr ⟨_, .forkL h1, .forkL _, rfl⟩
  | forkR h1 => exact .inr ⟨_, .forkR h1, .forkR _, rfl⟩

variable (H)

/-- **C58.** Two names made by a program have the same hash only if they are the same name, or the hash function itself collided
on what it was applied to while building them. -/
theorem C58_hash_identifies_name (a b : Name) (ha : Built H a) (hb : Built H b) (h : a.hash = b.hash) :
    a = b ∨ Collision H a b := by
  obtain ⟨n, hn⟩ : ∃ n, sizeOf a.sym ≤ n := ⟨_, Nat.le_refl _⟩
  induction n generalizing a b with
  | zero => exfalso; have : 0 < sizeOf a.sym := by cases a.sym <;> simp <;> omega
            omega
  | succ n ih =>
    rcases ha.shape with rfl | ⟨i, sa, ua, ea⟩
    · rcases hb.shape with rfl | ⟨j, sb, ub, eb⟩
      · exact .inl rfl
      · exact .inr (.inr ⟨j, .inr ub, by rw [← eb, ← h]; rfl⟩)
    · rcases hb.shape with rfl | ⟨j, sb, ub, eb⟩
      · exact .inr (.inr ⟨i, .inl ua, by rw [← ea, h]; rfl⟩)
      · by_cases hij : i = j
        · subst hij
          cases sa with
          | usize u => cases sb; exact .inl rfl
          | isize u => cases sb; exact .inl rfl
          | string u => cases sb; exact .inl rfl
          | @pair a1 a2 h1 h2 =>
            generalize hk : HashInput.pair a1.hash a2.hash = k at sb
            cases sb with
            | @pair b1 b2 g1 g2 =>
              simp only [HashInput.pair.injEq] at hk
              have hs : sizeOf a1.sym < sizeOf (namePair H a1 a2).sym ∧ sizeOf a2.sym < sizeOf (namePair H a1 a2).sym := by
                simp [namePair]; omega
              rcases ih a1 b1 h1 g1 hk.1 (by omega) with e1 | e1
              · rcases ih a2 b2 h2 g2 hk.2 (by omega) with e2 | e2
                · left; rw [e1, e2]
                · exact .inr (e2.mono (fun i => .pairR) (fun i => .pairR))
              · exact .inr (e1.mono (fun i => .pairL) (fun i => .pairL))
            | _ => cases hk
          | @forkL a1 h1 =>
            generalize hk : HashInput.fork a1.hash 11111111 = k at sb
            cases sb with
            | @forkL b1 g1 =>
              simp only [HashInput.fork.injEq] at hk
              have hs : sizeOf a1.sym < sizeOf (nameFork H a1).1.sym := by simp [nameFork]
              rcases ih a1 b1 h1 g1 hk.1 (by omega) with e1 | e1
              · left; rw [e1]
              · exact .inr (e1.mono (fun i => .forkL') (fun i => .forkL'))
            | forkR g1 => simp at hk
            | _ => cases hk
          | @forkR a1 h1 =>
            generalize hk : HashInput.fork a1.hash 22222222 = k at sb
            cases sb with
            | @forkR b1 g1 =>
              simp only [HashInput.fork.injEq] at hk
              have hs : sizeOf a1.sym < sizeOf (nameFork H a1).2.sym := by simp [nameFork]
              rcases ih a1 b1 h1 g1 hk.1 (by omega) with e1 | e1
              · left; rw [e1]
              · exact .inr (e1.mono (fun i => .forkR') (fun i => .forkR'))
            | forkL g1 => simp at hk
            | _ => cases hk
        · exact .inr (.inl ⟨i, j, ua, ub, hij, by rw [← ea, ← eb, h]⟩)

/-- **C58.** Such collisions exist by construction: Rust hashes an `isize` and a `usize` of the same 64 bits alike (`hstd`), so
`name_of_usize(u)` and `name_of_isize(u)`, and everything built from them in the same way, are different names with the same
hash. -/
theorem C58_usize_isize_collide (hstd : ∀ u : Nat, H.isize u = H.usize u) (u : Nat) :
    nameOfUsize H u ≠ nameOfIsize H u ∧ (nameOfUsize H u).hash = (nameOfIsize H u).hash ∧
    (nameFork H (nameOfUsize H u)).1.hash = (nameFork H (nameOfIsize H u)).1.hash ∧
    ∀ n, (namePair H n (nameOfUsize H u)).hash = (namePair H n (nameOfIsize H u)).hash := by
  have h : (nameOfUsize H u).hash = (nameOfIsize H u).hash := (hstd u).symm
  refine ⟨(C34_leaves H).2.2.2.2.1 u u, h, ?_, ?_⟩
  · simp only [nameFork, h]
  · intro n; simp only [namePair, h]

/-! ### The hypotheses are met -/

/-- A hash function without collisions on a few inputs, and one with the collision of usize and isize. -/
def someHash : NameHash := ⟨fun a b => 1000 * a + b + 7, fun u => UInt64.ofNat (u + 1), fun i => UInt64.ofNat (i.toNat + 1),
  fun s => UInt64.ofNat (s.length + 500), fun a k => a * 31 + UInt64.ofNat k⟩

example : ∀ u : Nat, someHash.isize u = someHash.usize u := fun u => rfl
/-- Two different names whose hashes differ. -/
example : (nameFork someHash (nameOfUsize someHash 3)).1.hash ≠ (nameFork someHash (nameOfUsize someHash 3)).2.hash := by decide
/-- Two different names with the same hash: the collision is found in the inputs. -/
example : Collision someHash (nameOfString someHash "ab") (nameOfString someHash "cd") :=
  .inl ⟨_, _, .string _, .string _, by decide, rfl⟩

end Adapton
