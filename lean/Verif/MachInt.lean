import Verif.Arith

/-! Machine integers as element types: `iW` and `uW` of `w` bits, in builds with and without overflow checks, and
`Ratio` of checked integers. -/

namespace Rowcol

/-- The value `z` as a signed `w`-bit integer: with overflow checks a value that does not fit panics, without them it
wraps around (two's complement). -/
def fitS (checks : Bool) (w : Nat) (z : Int) : Res (BitVec w) :=
  if checks = true ∧ ¬(-2 ^ (w - 1) ≤ z ∧ z < 2 ^ (w - 1)) then .error .panic else .ok (BitVec.ofInt w z)

/-- The value `z` as an unsigned `w`-bit integer. -/
def fitU (checks : Bool) (w : Nat) (z : Int) : Res (BitVec w) :=
  if checks = true ∧ ¬(0 ≤ z ∧ z < 2 ^ w) then .error .panic else .ok (BitVec.ofInt w z)

/-- `i8` .. `i128`, `isize`.  Division truncates; division by zero and `MIN / -1` panic in every build. -/
def Ops.signed (checks : Bool) (w : Nat) : Ops (BitVec w) where
  zero := 0#w
  one := 1#w
  add a b := fitS checks w (a.toInt + b.toInt)
  sub a b := fitS checks w (a.toInt - b.toInt)
  mul a b := fitS checks w (a.toInt * b.toInt)
  div a b := if b = 0#w then .error .panic else fitS true w (a.toInt.tdiv b.toInt)
  neg a := fitS checks w (-a.toInt)
  isZero a := a == 0#w

/-- `u8` .. `u128`, `usize`.  (Rust has no unary minus on unsigned types; it is here only to complete the structure.) -/
def Ops.unsigned (checks : Bool) (w : Nat) : Ops (BitVec w) where
  zero := 0#w
  one := 1#w
  add a b := fitU checks w (a.toNat + b.toNat)
  sub a b := fitU checks w (a.toNat - b.toNat)
  mul a b := fitU checks w (a.toNat * b.toNat)
  div a b := if b = 0#w then .error .panic else fitU true w ((a.toNat / b.toNat : Nat) : Int)
  neg a := fitU checks w (-a.toNat)
  isZero a := a == 0#w

/-- The numeric value of an unsigned integer. -/
def uval {w : Nat} (x : BitVec w) : Int := x.toNat

/-- `num::Ratio` of signed `w`-bit integers with overflow checks (crate num 0.1): numerator and denominator of the
unreduced result are computed as below, and the result is reduced.  Reduced fractions with positive denominators are
rationals, so values are elements of `ℚ`; an operation panics if one of the integers it computes does not fit. -/
def ratioFit (w : Nat) (zs : List Int) (q : ℚ) : Res ℚ :=
  if ∀ z ∈ zs, -2 ^ (w - 1) ≤ z ∧ z < 2 ^ (w - 1) then .ok q else .error .panic

/-- Its operations: `a/b + c/d = (a*d + b*c)/(b*d)`, `a/b * c/d = (a*c)/(b*d)`, `a/b / (c/d) = (a*d)/(b*c)`, reduced by
their greatest common divisor (and by the sign of the denominator, which can be negative only in a division). -/
def Ops.ratio (w : Nat) : Ops ℚ where
  zero := 0
  one := 1
  add a b := ratioFit w [a.num * b.den, a.den * b.num, a.num * b.den + a.den * b.num, a.den * b.den] (a + b)
  sub a b := ratioFit w [a.num * b.den, a.den * b.num, a.num * b.den - a.den * b.num, a.den * b.den] (a - b)
  mul a b := ratioFit w [a.num * b.num, a.den * b.den] (a * b)
  div a b := if b = 0 then .error .panic
    else ratioFit w [a.num * b.den, a.den * b.num, Int.gcd (a.num * b.den) (a.den * b.num), (a / b).num, (a / b).den] (a / b)
  neg a := ratioFit w [-a.num] (-a)
  isZero a := a = 0

end Rowcol
