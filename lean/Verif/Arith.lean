import Verif.Spec
import Mathlib.Algebra.Field.Basic
import Mathlib.Algebra.Field.Rat
import Mathlib.Algebra.Ring.Int.Defs
import Mathlib.Data.Int.Cast.Lemmas

/-! What it means that an element type's `num`/`std::ops` operations are the operations of an algebraic
structure, and concrete element types. -/

namespace Rowcol

namespace Ops
variable {T : Type}

/-- The type's `zero`, `one`, `+`, `*` are total and are those of the semiring `T`. -/
structure IsSemiring [Semiring T] (O : Ops T) : Prop where
  zero : O.zero = 0
  one : O.one = 1
  add : ∀ a b, O.add a b = .ok (a + b)
  mul : ∀ a b, O.mul a b = .ok (a * b)

/-- In addition binary and unary minus. -/
structure IsRing [Ring T] (O : Ops T) : Prop extends O.IsSemiring where
  sub : ∀ a b, O.sub a b = .ok (a - b)
  neg : ∀ a, O.neg a = .ok (-a)

/-- In addition division by non-zero values and an exact zero test; dividing by zero may do anything. -/
structure IsField [Field T] (O : Ops T) : Prop extends O.IsRing where
  div : ∀ a b, b ≠ 0 → O.div a b = .ok (a / b)
  isZero : ∀ a, O.isZero a = true ↔ a = 0

/-- Exact field arithmetic (like `Ratio<BigInt>`): division by zero panics. -/
def exact (K : Type) [Field K] [DecidableEq K] : Ops K where
  zero := 0
  one := 1
  add a b := .ok (a + b)
  sub a b := .ok (a - b)
  mul a b := .ok (a * b)
  div a b := if b = 0 then .error .panic else .ok (a / b)
  neg a := .ok (-a)
  isZero a := a = 0

theorem exact_isField (K : Type) [Field K] [DecidableEq K] : (exact K).IsField where
  zero := rfl
  one := rfl
  add _ _ := rfl
  mul _ _ := rfl
  sub _ _ := rfl
  neg _ := rfl
  div a b h := by simp [exact, h]
  isZero a := by simp [exact]

/-- Unbounded integers (like `BigInt`): division truncates towards zero and panics on zero. -/
def int : Ops Int where
  zero := 0
  one := 1
  add a b := .ok (a + b)
  sub a b := .ok (a - b)
  mul a b := .ok (a * b)
  div a b := if b = 0 then .error .panic else .ok (a.tdiv b)
  neg a := .ok (-a)
  isZero a := a = 0

theorem int_isRing : int.IsRing where
  zero := rfl
  one := rfl
  add _ _ := rfl
  mul _ _ := rfl
  sub _ _ := rfl
  neg _ := rfl

/-- Unbounded naturals (like `BigUint`): subtraction and negation below zero panic. -/
def nat : Ops Nat where
  zero := 0
  one := 1
  add a b := .ok (a + b)
  sub a b := if b ≤ a then .ok (a - b) else .error .panic
  mul a b := .ok (a * b)
  div a b := if b = 0 then .error .panic else .ok (a / b)
  neg a := if a = 0 then .ok 0 else .error .panic
  isZero a := a = 0

theorem nat_isSemiring : nat.IsSemiring where
  zero := rfl
  one := rfl
  add _ _ := rfl
  mul _ _ := rfl

end Ops
end Rowcol
