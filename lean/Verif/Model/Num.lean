/-!
# Numbers

Python `int` is `Int`.  Python `float` is `F64`: the finite IEEE-754 binary64 values are represented by
the exact rational they denote, plus the infinities and NaN.  The sign of zero is not represented: no
function of wagyu distinguishes `0.0` from `-0.0` (comparison does not, and `_double_to_biased` maps both
to `2 ** 63`, see `biased_neg_zero` in `Verif/Props/Floats.lean`).

A value of type `F64` may also hold a Python `int` (for instance `Bound.current_x` is an `int` after
`Bound.to_next_edge`); Python compares ints and floats by exact value, and so does the model.
-/

namespace Wagyu

/-- A Python number used in floating point context: an exact finite value, an infinity, or NaN. -/
inductive F64 where
  | fin (q : Rat)
  | inf (neg : Bool)
  | nan
  deriving DecidableEq, Repr, Inhabited

/-- `2 ^ e` for an integer exponent. -/
def pow2 (e : Int) : Rat :=
  if 0 ≤ e then ((2 ^ e.toNat : Nat) : Rat) else 1 / ((2 ^ (-e).toNat : Nat) : Rat)

/-- `⌊log₂ |q|⌋` for `q ≠ 0`. -/
def ilog2 (q : Rat) : Int :=
  let n := q.num.natAbs
  let d := q.den
  let k : Int := (Nat.log2 n : Int) - (Nat.log2 d : Int)
  if pow2 k * (d : Rat) ≤ (n : Rat) then k else k - 1

/-- Round a rational to the nearest integer, ties to even. -/
def roundEven (q : Rat) : Int :=
  let f := q.floor
  let r := q - (f : Rat)
  if r < 1 / 2 then f
  else if 1 / 2 < r then f + 1
  else if f % 2 = 0 then f else f + 1

/-- Exponent of the unit in the last place of the binary64 number nearest to `q ≠ 0`
(IEEE-754: 53 significant bits, smallest exponent -1074). -/
def ulpExp (q : Rat) : Int := max (ilog2 q - 52) (-1074)

/-- Rounding a rational to binary64, round-to-nearest ties-to-even, overflow to infinity.  This is the
rounding that every Python float operation, `int / int` and `float(int)` perform.
Simplification: where Python raises `OverflowError` (an `int` beyond `2 ** 1024`) the model yields an infinity. -/
def fl (q : Rat) : F64 :=
  if q = 0 then .fin 0
  else
    let e := ulpExp q
    let v := (roundEven (q / pow2 e) : Rat) * pow2 e
    if pow2 1024 ≤ v then .inf false
    else if v ≤ -pow2 1024 then .inf true
    else .fin v

namespace F64

/-- A Python number coerced to float (`float(x)`, `struct.pack('!d', x)`). -/
def toDouble : F64 → F64
  | .fin q => fl q
  | x => x

/-- A Python `int` as a number (exact, no rounding). -/
def ofInt (n : Int) : F64 := .fin (n : Rat)

/-- `float(n)` for a Python `int`. -/
def floatOfInt (n : Int) : F64 := fl (n : Rat)

/-- `x < y`. -/
def lt : F64 → F64 → Bool
  | .fin a, .fin b => decide (a < b)
  | .fin _, .inf neg => !neg
  | .inf neg, .fin _ => neg
  | .inf n1, .inf n2 => n1 && !n2
  | .nan, _ => false
  | _, .nan => false

/-- `x == y`. -/
def eq : F64 → F64 → Bool
  | .fin a, .fin b => decide (a = b)
  | .inf n1, .inf n2 => n1 == n2
  | _, _ => false

/-- `x <= y`. -/
def le (x y : F64) : Bool := lt x y || eq x y

/-- `-x`. -/
def neg : F64 → F64
  | .fin a => .fin (-a)
  | .inf n => .inf (!n)
  | .nan => .nan

/-- `abs(x)`. -/
def abs : F64 → F64
  | .fin a => .fin (if a < 0 then -a else a)
  | .inf _ => .inf false
  | .nan => .nan

/-- float `x + y`. -/
def add : F64 → F64 → F64
  | .fin a, .fin b => fl (a + b)
  | .fin _, .inf n => .inf n
  | .inf n, .fin _ => .inf n
  | .inf n1, .inf n2 => if n1 = n2 then .inf n1 else .nan
  | .nan, _ => .nan
  | _, .nan => .nan

/-- float `x - y`. -/
def sub (x y : F64) : F64 := add x (neg y)

/-- float `x * y`. -/
def mul : F64 → F64 → F64
  | .fin a, .fin b => fl (a * b)
  | .fin a, .inf n => if a = 0 then .nan else .inf (if a < 0 then !n else n)
  | .inf n, .fin a => if a = 0 then .nan else .inf (if a < 0 then !n else n)
  | .inf n1, .inf n2 => .inf (n1 != n2)
  | .nan, _ => .nan
  | _, .nan => .nan

/-- Python `max(x, y)` on floats (returns the first unless the second is greater). -/
def pyMax (x y : F64) : F64 := if lt x y then y else x

/-- Python `min(x, y)` on floats (returns the first unless the second is smaller). -/
def pyMin (x y : F64) : F64 := if lt y x then y else x

def isNan : F64 → Bool
  | .nan => true
  | _ => false

/-- `math.isinf`. -/
def isInf : F64 → Bool
  | .inf _ => true
  | _ => false

end F64

/-- `a / b` of two Python ints with `b ≠ 0`: correctly rounded true division. -/
def intDiv (a b : Int) : F64 := fl ((a : Rat) / (b : Rat))

/-- The 63 low bits of the binary64 encoding of `|q|` for a representable `q`: exponent field and mantissa. -/
def magBits (q : Rat) : Nat :=
  if q = 0 then 0
  else
    let e := ulpExp q
    let a : Rat := if q < 0 then -q else q
    (e + 1074).toNat * 2 ^ 52 + (a / pow2 e).floor.toNat

/-- `struct.unpack('!Q', struct.pack('!d', value))`: the bit pattern of a double (utils.py:42).
Zero is packed as positive zero. -/
def packDouble (x : F64) : BitVec 64 :=
  match x.toDouble with
  | .fin q => if q < 0 then BitVec.ofNat 64 (2 ^ 63 + magBits q) else BitVec.ofNat 64 (magBits q)
  | .inf false => BitVec.ofNat 64 0x7FF0000000000000
  | .inf true => BitVec.ofNat 64 0xFFF0000000000000
  | .nan => BitVec.ofNat 64 0x7FF8000000000000

/-- utils.py:39-46 `_double_to_biased`, on the bit pattern:
`ctypes.c_uint64(~result + 1).value` if the sign bit is set, else `ctypes.c_uint64(mask | result).value`. -/
def doubleToBiased (bits : BitVec 64) : Nat :=
  let mask : BitVec 64 := BitVec.ofNat 64 (2 ^ 63)
  if mask &&& bits ≠ 0 then (~~~bits + 1).toNat else (mask ||| bits).toNat

/-- utils.py:31-36 `are_floats_almost_equal` (default `max_ulps = 4`). -/
def areFloatsAlmostEqual (left right : F64) : Bool :=
  let l : Int := doubleToBiased (packDouble left)
  let r : Int := doubleToBiased (packDouble right)
  decide ((l - r).natAbs ≤ 4)

/-- utils.py:15-16. -/
def areFloatsGreaterThanOrEqual (x y : F64) : Bool := F64.lt y x || areFloatsAlmostEqual x y

/-- utils.py:19-20. -/
def areFloatsGreaterThan (x y : F64) : Bool := !areFloatsAlmostEqual x y && F64.lt y x

/-- utils.py:23-24. -/
def areFloatsLessThan (x y : F64) : Bool := !areFloatsAlmostEqual x y && F64.lt x y

/-- utils.py:27-28. -/
def isFloatAlmostZero (x : F64) : Bool := areFloatsAlmostEqual x (.fin 0)

/-- Rounding of a rational to the nearest integer, ties away from zero: decimal's `ROUND_HALF_UP`. -/
def ratRoundHalfUp (q : Rat) : Int :=
  if 0 ≤ q then (q + 1 / 2).floor else -((-q + 1 / 2).floor)

/-- utils.py:94-98 `round_half_up`: `int(Decimal(number).quantize(0, ROUND_HALF_UP))`.  `none` is the
exception raised for an infinity or NaN.  Simplification: `Decimal.quantize` also raises beyond the 28
digits of the default context (`|number| ≥ 10 ** 28`); the model rounds those exactly. -/
def roundHalfUp : F64 → Option Int
  | .fin q => some (ratRoundHalfUp q)
  | _ => none

/-- The test shared by utils.py:84 and :90, `are_floats_almost_equal(math.floor(value) + 0.5, value)`. -/
def nearHalf (q : Rat) : Bool :=
  areFloatsAlmostEqual (F64.add (F64.floatOfInt q.floor) (.fin (1 / 2))) (.fin q)

/-- utils.py:82-85 `round_towards_min`; `none` is the exception of `math.floor` on an infinity or NaN. -/
def roundTowardsMin : F64 → Option Int
  | .fin q => some (if nearHalf q then q.floor else ratRoundHalfUp q)
  | _ => none

/-- utils.py:88-91 `round_towards_max`; `none` is the exception of `math.floor` on an infinity or NaN. -/
def roundTowardsMax : F64 → Option Int
  | .fin q => some (if nearHalf q then q.ceil else ratRoundHalfUp q)
  | _ => none

end Wagyu
