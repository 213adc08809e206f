import Verif.Float

/-! `f32` and `f64` computed with integers only: an executable version of `Verif/Float.lean`, down to the bits.  It is not part
of the crate; it stands for the processor's floating point unit and is proved equal to the definitions with real numbers
in `Verif/Lemmas/SoftFloat.lean`. -/

namespace Rowcol

/-- `2 ^ e`. -/
def pow2 (e : ℤ) : ℚ := if 0 ≤ e then ((2 ^ e.toNat : Nat) : ℚ) else mkRat 1 (2 ^ (-e).toNat)

/-- The position of the leading binary digit of a positive number. -/
def ilog2 (q : ℚ) : ℤ :=
  let e : ℤ := (Nat.log2 q.num.natAbs : ℤ) - Nat.log2 q.den
  if pow2 e ≤ |q| then e else e - 1

/-- The nearest integer, the even one if there are two. -/
def roundEvenQ (q : ℚ) : ℤ :=
  let n := q.num / q.den
  let r := 2 * (q.num - n * q.den)
  if r < q.den then n else if (q.den : ℤ) < r then n + 1 else if n % 2 = 0 then n else n + 1

/-- The square root, rounded down: digit by digit. -/
def isqrtAux (n : Nat) : Nat → Nat → Nat
  | 0, r => r
  | k + 1, r => if (r + 2 ^ k) * (r + 2 ^ k) ≤ n then isqrtAux n k (r + 2 ^ k) else isqrtAux n k r

/-- The square root, rounded down. -/
def isqrt (n : Nat) : Nat := isqrtAux n (Nat.log2 n / 2 + 1) 0

namespace FloatFormat
variable (f : FloatFormat)

/-- The largest finite number. -/
def maxQ : ℚ := ((2 ^ f.prec - 1 : Nat) : ℚ) * pow2 (f.emax - f.prec + 1)

/-- The exponent of the last place of a number with leading digit at `l`. -/
def place (l : ℤ) : ℤ := if l - f.prec + 1 < f.emin then f.emin else l - f.prec + 1

/-- `q` rounded to the nearest number of the format, ties to even, as if the exponent were not bounded above. -/
def rndQ (q : ℚ) : ℚ :=
  if q = 0 then 0 else
    let l := pow2 (f.place (ilog2 q))
    roundEvenQ (q / l) * l

/-- The square root of `q`, rounded in the same way. -/
def sqrtQ (q : ℚ) : ℚ :=
  if q = 0 then 0 else
    let p := f.place (ilog2 q / 2)
    let y := q / pow2 (2 * p)
    let n := isqrt (y.num / y.den).toNat
    let h : ℚ := (n + 1 / 2) * (n + 1 / 2)
    let k := if y < h then n else if h < y then n + 1 else if n % 2 = 0 then n else n + 1
    k * pow2 p

end FloatFormat

/-- The values of the format, as in `Fl`, with fractions for the finite numbers. -/
inductive Sf (f : FloatFormat) where
  | nan
  | inf (neg : Bool)
  | negZero
  | fin (q : ℚ) (rep : f.rndQ q = q) (le : |q| ≤ f.maxQ)
  deriving DecidableEq

namespace Sf
variable {f : FloatFormat}

/-- The number; 0 if there is none. -/
def val : Sf f → ℚ
  | fin q _ _ => q
  | _ => 0

/-- The sign bit. -/
def sign : Sf f → Bool
  | nan => false
  | inf s => s
  | negZero => true
  | fin q _ _ => decide (q < 0)

/-- Make a value from the number `q` that rounding gave for an exact value whose sign is `neg` (for zero: whose sign bit
is to be `neg`). -/
def pack (neg : Bool) (q : ℚ) : Sf f :=
  if h : |q| ≤ f.maxQ then
    if q = 0 ∧ neg = true then negZero
    else if r : f.rndQ q = q then fin q r h else nan
  else inf neg

/-- The correctly rounded result for the exact value `q`; `s` is the sign of an exact zero. -/
def round (s : Bool) (q : ℚ) : Sf f := pack (decide (q < 0 ∨ q = 0 ∧ s = true)) (f.rndQ q)

/-- `-a`. -/
def neg : Sf f → Sf f
  | nan => nan
  | inf s => inf !s
  | negZero => pack false 0
  | fin q _ _ => if q = 0 then negZero else pack (decide (0 < q)) (-q)

/-- `a + b`. -/
def add : Sf f → Sf f → Sf f
  | nan, _ => nan
  | _, nan => nan
  | inf s, inf s' => if s = s' then inf s else nan
  | inf s, _ => inf s
  | _, inf s => inf s
  | a, b => round (a.sign && b.sign) (a.val + b.val)

/-- `a * b`. -/
def mul : Sf f → Sf f → Sf f
  | nan, _ => nan
  | _, nan => nan
  | inf s, inf s' => inf (s ^^ s')
  | inf s, b => if b.val = 0 then nan else inf (s ^^ b.sign)
  | a, inf s => if a.val = 0 then nan else inf (a.sign ^^ s)
  | a, b => round (a.sign ^^ b.sign) (a.val * b.val)

/-- `a / b`. -/
def div : Sf f → Sf f → Sf f
  | nan, _ => nan
  | _, nan => nan
  | inf _, inf _ => nan
  | inf s, b => inf (s ^^ b.sign)
  | a, inf s => round (a.sign ^^ s) 0
  | a, b => if b.val = 0 then (if a.val = 0 then nan else inf (a.sign ^^ b.sign)) else round (a.sign ^^ b.sign) (a.val / b.val)

/-- `*self == 0.0`. -/
def isZero : Sf f → Bool
  | negZero => true
  | fin q _ _ => decide (q = 0)
  | _ => false

/-- `a.sqrt()`. -/
def sqrt : Sf f → Sf f
  | nan => nan
  | inf s => if s then nan else inf false
  | negZero => negZero
  | fin q _ _ => if q < 0 then nan else pack false (f.sqrtQ q)

/-- `a == b`. -/
def beq : Sf f → Sf f → Bool
  | nan, _ => false
  | _, nan => false
  | inf s, inf s' => decide (s = s')
  | inf _, _ => false
  | _, inf _ => false
  | a, b => decide (a.val = b.val)

/-- An integer, correctly rounded. -/
def ofInt (z : ℤ) : Sf f := round false z

end Sf

/-! ## Bits -/

namespace FloatFormat

/-- The formats with an encoding of `k` bits for the exponent: IEEE 754's interchange formats. -/
structure Interchange (f : FloatFormat) (k : Nat) : Prop where
  exp : 2 ≤ k
  prec : 2 ≤ f.prec
  emax : f.emax = 2 ^ (k - 1) - 1
  emin : f.emin = 2 - f.emax - f.prec

variable (f : FloatFormat) (k : Nat)

/-- The bits of infinity, without sign. -/
def top : Nat := (2 ^ k - 1) * 2 ^ (f.prec - 1)

/-- The number with the given bits (without sign, below those of infinity): exponent and fraction; exponent 0 for the
subnormal numbers. -/
def magnitude (b : Nat) : ℚ :=
  let e := b / 2 ^ (f.prec - 1)
  let m := b % 2 ^ (f.prec - 1)
  if e = 0 then (m : ℚ) * pow2 f.emin else ((m + 2 ^ (f.prec - 1) : Nat) : ℚ) * pow2 (f.emin + e - 1)

/-- The value with the given bits. -/
def decode (b : BitVec (k + f.prec)) : Sf f :=
  let m := b.toNat % 2 ^ (k + f.prec - 1)
  if f.top k < m then .nan else if m = f.top k then .inf b.msb
  else .pack b.msb (if b.msb then -f.magnitude m else f.magnitude m)

/-- The bits (without sign) of a finite number: the exponent, and all digits but the leading one; the sum takes care of the
leading digit. -/
def fieldBits (q : ℚ) : Nat :=
  if q = 0 then 0 else
    let p := f.place (ilog2 q)
    (p - f.emin).toNat * 2 ^ (f.prec - 1) + (|q| / pow2 p).num.toNat

/-- The bits of a value; of the NaNs, the one Rust calls `NAN`. -/
def encode : Sf f → BitVec (k + f.prec)
  | .nan => BitVec.ofNat _ (f.top k + 2 ^ (f.prec - 2))
  | .inf s => BitVec.ofNat _ (f.top k + if s then 2 ^ (k + f.prec - 1) else 0)
  | .negZero => BitVec.ofNat _ (2 ^ (k + f.prec - 1))
  | .fin q _ _ => BitVec.ofNat _ (f.fieldBits q + if q < 0 then 2 ^ (k + f.prec - 1) else 0)

end FloatFormat

/-- `f32` (`k = 8`) and `f64` (`k = 11`) as bits. -/
def Ops.floatBits (f : FloatFormat) (k : Nat) : Ops (BitVec (k + f.prec)) where
  zero := f.encode k (Sf.ofInt 0)
  one := f.encode k (Sf.ofInt 1)
  add a b := .ok (f.encode k ((f.decode k a).add (f.decode k b)))
  sub a b := .ok (f.encode k ((f.decode k a).add (f.decode k b).neg))
  mul a b := .ok (f.encode k ((f.decode k a).mul (f.decode k b)))
  div a b := .ok (f.encode k ((f.decode k a).div (f.decode k b)))
  neg a := .ok (f.encode k (f.decode k a).neg)
  isZero a := (f.decode k a).isZero

end Rowcol
