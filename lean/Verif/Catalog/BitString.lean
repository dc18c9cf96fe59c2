/-
Bit strings: /repo/src/catalog/bitstring.rs.  `i64` is modelled by the integers in `[-2^63, 2^63)`; arithmetic that leaves that
range panics in a debug build: `none`.
-/
namespace Adapton.Bits

/-- The range of `i64`. -/
def I64 (x : Int) : Prop := -2 ^ 63 ≤ x ∧ x < 2 ^ 63

instance (x : Int) : Decidable (I64 x) := inferInstanceAs (Decidable (_ ∧ _))

/-- Checked `i64` arithmetic. -/
def chk (x : Int) : Option Int := if I64 x then some x else none

/-- `&` on `i64`: bitwise, in two's complement. -/
def iand (a b : Int) : Int := (BitVec.ofInt 64 a &&& BitVec.ofInt 64 b).toInt

/-- `<<` on `i64`: the shift amount must lie in `0..64`; bits shifted out are lost. -/
def ishl (a i : Int) : Option Int :=
  if 0 ≤ i ∧ i < 64 then some ((BitVec.ofInt 64 a <<< i.toNat).toInt) else none

/-- `BS`, bitstring.rs:3-7. -/
structure BS where
  length : Int
  value : Int
deriving DecidableEq, Repr

/-- `MAX_LEN`, 82. -/
def maxLen : Int := 30

/-- `BS::pow`, 22-31.  Rust's `/` and `%` round towards zero. -/
def pow (b n : Int) : Option Int :=
  if h0 : n = 0 then some 1
  else if h1 : n = 1 then some b
  else do
    let x ← pow b (n.tdiv 2)
    let y ← chk (x * x)
    chk (y * (if n.tmod 2 = 0 then 1 else b))
termination_by n.natAbs
decreasing_by rw [Int.natAbs_tdiv]; show n.natAbs / 2 < n.natAbs; omega

/-- `BS::flip`, 33-40. -/
def flip (i b : Int) : Option Int := do
  let n ← pow 2 i
  if iand n b = n then
    let m ← pow 2 i
    chk (b - m)
  else
    let m ← pow 2 i
    chk (b + m)

/-- `BS::is_set`, 42-45. -/
def isSet (i b : Int) : Option Bool := do
  let n ← flip i 0
  some (decide (iand n b = n))

/-- `BS::prepend`, 48-67.  The guards of the first two arms are evaluated only for the bit they are for. -/
def prepend (b : Int) (bs : BS) : Option BS :=
  if b = 0 then do
    let s ← isSet bs.length bs.value
    if !s then
      let len ← chk (bs.length + 1)
      some { length := len, value := bs.value }
    else
      let len ← chk (bs.length + 1)
      let v ← flip bs.length bs.value
      some { length := len, value := v }
  else if b = 1 then do
    let s ← isSet bs.length bs.value
    if s then
      let len ← chk (bs.length + 1)
      some { length := len, value := bs.value }
    else
      let len ← chk (bs.length + 1)
      let v ← flip bs.length bs.value
      some { length := len, value := v }
  else none

/-- `BS::length`, 69-71. -/
def length (bs : BS) : Int := bs.length

/-- `2i64.pow(length as u32)`: the cast keeps the low 32 bits; the power panics on overflow. -/
def twoPow32 (len : Int) : Option Int := chk (2 ^ (len % 2 ^ 32).toNat)

/-- `BS::shift_left`, 73-78. -/
def shiftLeft (bs : BS) (i : Int) : Option BS := do
  let v ← ishl bs.value i
  let p ← twoPow32 bs.length
  let m ← chk (p - 1)
  some { length := bs.length, value := iand v m }

end Adapton.Bits
