import Verif.Engine.Basic
/-
First-class names: /repo/src/engine.rs:2246-2326, and the name counter: /repo/src/macros.rs:24-53.
-/
namespace Adapton

/-- `my_hash` (engine.rs:39-45) at the types it is used at for names.  `DefaultHasher::new()` has fixed keys, so these are
functions; nothing else is assumed about them.
* `pair h1 h2` = `my_hash(&(h1,h2))`, 2253
* `usize u`, `isize i` = `my_hash(&u)`, `my_hash(&i)`, 2271, 2278
* `str s` = `my_hash(&s)` for both `String` and `&str` (they have the same `Hash`), 2285, 2292
* `fork h k` = `my_hash(&(&n, k))` where `n` has hash `h` (`Hash for Name` writes the stored hash, 304-308), 2299-2300 -/
structure NameHash where
  pair : UInt64 → UInt64 → UInt64
  usize : Nat → UInt64
  isize : Int → UInt64
  str : String → UInt64
  fork : UInt64 → Nat → UInt64

variable (H : NameHash)

/-- `name_unit`, 2247-2249 with `UNIT_NAME`, 32. -/
def nameUnit : Name := ⟨0, .unit⟩
/-- `name_pair`, 2252-2256. -/
def namePair (a b : Name) : Name := ⟨H.pair a.hash b.hash, .pair a.sym b.sym⟩
/-- `name_of_hash64`, 2263-2267. -/
def nameOfHash64 (h : UInt64) : Name := ⟨h, .hash64⟩
/-- `name_of_usize`, 2270-2274. -/
def nameOfUsize (u : Nat) : Name := ⟨H.usize u, .usize u⟩
/-- `name_of_isize`, 2277-2281. -/
def nameOfIsize (i : Int) : Name := ⟨H.isize i, .isize i⟩
/-- `name_of_string`, 2284-2288. -/
def nameOfString (s : String) : Name := ⟨H.str s, .str s⟩
/-- `name_of_str`, 2291-2295. -/
def nameOfStr (s : String) : Name := ⟨H.str s, .str s⟩
/-- `name_fork`, 2298-2305. -/
def nameFork (n : Name) : Name × Name := (⟨H.fork n.hash 11111111, .forkL n.sym⟩, ⟨H.fork n.hash 22222222, .forkR n.sym⟩)
/-- `name_fork3`, 2308-2314. -/
def nameFork3 (n : Name) : Name × Name × Name :=
  let (n1, n) := nameFork H n
  let (n2, n3) := nameFork H n
  (n1, n2, n3)
/-- `name_fork4`, 2317-2324. -/
def nameFork4 (n : Name) : Name × Name × Name × Name :=
  let (n1, n) := nameFork H n
  let (n2, n) := nameFork H n
  let (n3, n4) := nameFork H n
  (n1, n2, n3, n4)
/-- The macro `forko!`, macros.rs:547-558. -/
def forko (n : Option Name) : Option Name × Option Name :=
  match n with
  | none => (none, none)
  | some n => let (l, r) := nameFork H n; (some l, some r)

/-- `bump_name_counter`, macros.rs:51-53, with the arithmetic of a release build (`usize` wraps; a debug build panics there). -/
def bumpNameCounter (c : Nat) : Nat × Nat := (c, (c + 1) % 2 ^ 64)

/-- `k` draws. -/
def draws : Nat → Nat → List Nat
  | 0, _ => []
  | k + 1, c => (bumpNameCounter c).1 :: draws k (bumpNameCounter c).2

end Adapton
