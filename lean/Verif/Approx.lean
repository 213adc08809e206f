import Verif.SoftFloat
import Verif.MachInt
import Verif.Model.Compare

/-! `approx::ApproxEq` for `f32` and `f64`: what `Matrix::relative_eq` and `Matrix::ulps_eq` (src/matrix/mod.rs:867-904) call
for matrices of floating point numbers.  The code is the crate `approx` 0.1's, which is not in the repository: the functions
below transcribe its macro for the two types.  They use the comparisons of floating point numbers, given by `FloatCmp`, once on
values (`Verif/Float.lean`) and once on bits (`Verif/SoftFloat.lean`). -/

namespace Rowcol

/-- The operations of `f32`/`f64` that `approx` uses. -/
structure FloatCmp (T : Type) where
  /-- `a == b` -/
  eq : T → T → Bool
  /-- `a < b` -/
  lt : T → T → Bool
  /-- `a <= b` -/
  le : T → T → Bool
  /-- `a.is_infinite()` -/
  isInfinite : T → Bool
  /-- `a.abs()` -/
  abs : T → T
  /-- `a.signum()` -/
  signum : T → T
  /-- `a - b` -/
  sub : T → T → T
  /-- `a * b` -/
  mul : T → T → T

namespace Fl
open Classical
variable {f : FloatFormat}

/-- `a < b`: false if one is NaN. -/
noncomputable def lt (a b : Fl f) : Bool := decide (a ≠ nan ∧ b ≠ nan ∧ a.ext < b.ext)
/-- `a <= b`: false if one is NaN. -/
noncomputable def le (a b : Fl f) : Bool := decide (a ≠ nan ∧ b ≠ nan ∧ a.ext ≤ b.ext)
/-- `a.is_infinite()`. -/
def isInfinite : Fl f → Bool
  | inf _ => true
  | _ => false
/-- `a.signum()`: 1 with the sign of `a`, also for zeros; NaN for NaN. -/
noncomputable def signum (a : Fl f) : Fl f :=
  if a = nan then nan else if a.sign then (Ops.ieee f).one.neg else (Ops.ieee f).one
/-- `a - b`. -/
noncomputable def sub (a b : Fl f) : Fl f := a.add b.neg

end Fl

namespace Sf
variable {f : FloatFormat}

/-- `a < b`. -/
def lt : Sf f → Sf f → Bool
  | nan, _ => false
  | _, nan => false
  | inf s, inf s' => s && !s'
  | inf s, _ => s
  | _, inf s => !s
  | a, b => decide (a.val < b.val)
/-- `a <= b`. -/
def le (a b : Sf f) : Bool := a.lt b || a.beq b
/-- `a.is_infinite()`. -/
def isInfinite : Sf f → Bool
  | inf _ => true
  | _ => false
/-- `a.abs()`. -/
def abs (a : Sf f) : Sf f := if a.sign then a.neg else a
/-- `a.signum()`. -/
def signum (a : Sf f) : Sf f := if a = nan then nan else if a.sign then (ofInt 1).neg else ofInt 1

end Sf

/-- The operations on values. -/
noncomputable def FloatCmp.ieee (f : FloatFormat) : FloatCmp (Fl f) where
  eq := Fl.beq
  lt := Fl.lt
  le := Fl.le
  isInfinite := Fl.isInfinite
  abs := Fl.abs
  signum := Fl.signum
  sub := Fl.sub
  mul := Fl.mul

/-- The operations on bits. -/
def FloatCmp.bits (f : FloatFormat) (k : Nat) : FloatCmp (BitVec (k + f.prec)) where
  eq a b := (f.decode k a).beq (f.decode k b)
  lt a b := (f.decode k a).lt (f.decode k b)
  le a b := (f.decode k a).le (f.decode k b)
  isInfinite a := (f.decode k a).isInfinite
  abs a := f.encode k (f.decode k a).abs
  signum a := f.encode k (f.decode k a).signum
  sub a b := f.encode k ((f.decode k a).add (f.decode k b).neg)
  mul a b := f.encode k ((f.decode k a).mul (f.decode k b))

namespace Approx
variable {T : Type} (A : FloatCmp T)

/-- `relative_eq` (approx 0.1, macro `impl_float_relative_eq`; called in src/matrix/mod.rs:894):
```
if self == other { return true; }
if self.is_infinite() || other.is_infinite() { return false; }
let abs_diff = (self - other).abs();
if abs_diff <= epsilon { return true; }
let abs_self = self.abs();
let abs_other = other.abs();
let largest = if abs_other > abs_self { abs_other } else { abs_self };
abs_diff <= largest * max_relative
``` -/
def relativeEq (a b eps rel : T) : Bool :=
  if A.eq a b then true
  else if A.isInfinite a || A.isInfinite b then false
  else
    let d := A.abs (A.sub a b)
    if A.le d eps then true
    else
      let x := A.abs a
      let y := A.abs b
      let largest := if A.lt x y then y else x
      A.le d (A.mul largest rel)

/-- `ulps_eq` (approx 0.1; called in src/matrix/mod.rs:901) for the type of `w` bits, whose bits are read as a signed integer:
```
if (self - other).abs() <= epsilon { return true; }
if self.signum() != other.signum() { return false; }
let int_self: iN = mem::transmute(*self);
let int_other: iN = mem::transmute(*other);
iN::abs(int_self - int_other) <= max_ulps as iN
```
`max_ulps` is a `u32`; `as i32` keeps its bits, `as i64` its value. -/
def ulpsEq {w : Nat} (t : Target) (A : FloatCmp (BitVec w)) (a b eps : BitVec w) (maxUlps : BitVec 32) : Res Bool :=
  if A.le (A.abs (A.sub a b)) eps then .ok true
  else if !A.eq (A.signum a) (A.signum b) then .ok false
  else do
    let d ← fitS t.overflowChecks w (a.toInt - b.toInt)
    let d' ← fitS t.overflowChecks w |d.toInt|
    pure (d'.sle (maxUlps.setWidth w))

/-- `default_epsilon()` and `default_max_relative()` (approx 0.1: `std::f32::EPSILON`, `std::f64::EPSILON`): the distance from 1
to the next number.  [src/matrix/mod.rs:876-884.] -/
def epsilon (f : FloatFormat) : ℚ := pow2 (1 - f.prec)

/-- `default_max_ulps()` (approx 0.1).  [src/matrix/mod.rs:887-889.] -/
def defaultMaxUlps : BitVec 32 := 4

end Approx

namespace Mat
variable {r c : Nat}

/-- `relative_eq` of matrices of values (src/matrix/mod.rs:891-896). -/
noncomputable def relativeEqFl {f : FloatFormat} (t : Target) (a b : Mat (Fl f) r c) (eps rel : Fl f) : Res Bool :=
  Mat.relativeEqM (m := Res) t pure (fun x y e m => .ok (Approx.relativeEq (.ieee f) x y e m)) a b eps rel

/-- `relative_eq` of matrices of bits (src/matrix/mod.rs:891-896). -/
def relativeEqBits (t : Target) (f : FloatFormat) (k : Nat) (a b : Mat (BitVec (k + f.prec)) r c) (eps rel : BitVec (k + f.prec)) :
    Res Bool :=
  Mat.relativeEqM (m := Res) t pure (fun x y e m => .ok (Approx.relativeEq (.bits f k) x y e m)) a b eps rel

/-- `ulps_eq` of matrices of bits (src/matrix/mod.rs:898-903). -/
def ulpsEqBits (t : Target) (f : FloatFormat) (k : Nat) (a b : Mat (BitVec (k + f.prec)) r c) (eps : BitVec (k + f.prec))
    (maxUlps : BitVec 32) : Res Bool :=
  Mat.ulpsEqM (m := Res) t pure (fun x y e n => Approx.ulpsEq t (.bits f k) x y e (BitVec.ofNat 32 n)) a b eps maxUlps.toNat

end Mat
end Rowcol
