import Verif.Arith
import Mathlib.Algebra.Order.Field.Basic
import Mathlib.Algebra.BigOperators.Group.Finset.Basic
import Mathlib.Tactic.Ring
import Mathlib.Tactic.Linarith

/-! The element type `num::Complex<T>` (`num` 0.1, complex.rs, which is not in /repo): its operations, and the algebra of complex
numbers with parts in `T`. -/

namespace Rowcol
open scoped BigOperators

variable {T : Type}

/-- The element operations of `num::Complex<T>`.  `zero`, `one`: `Complex::new(Zero::zero(), Zero::zero())`,
`Complex::new(One::one(), Zero::zero())`; `*`: `re = a.re * b.re - a.im * b.im`, `im = a.re * b.im + a.im * b.re`; `/`:
`norm_sqr = b.re * b.re + b.im * b.im`, `re = a.re * b.re + a.im * b.im`, `im = a.im * b.re - a.re * b.im`, then both parts divided by
`norm_sqr`; `is_zero`: both parts are zero. -/
def Ops.complex (O : Ops T) : Ops (Mat.Cpx T) where
  zero := ⟨O.zero, O.zero⟩
  one := ⟨O.one, O.zero⟩
  add z w := do
    let x ← O.add z.re w.re
    let y ← O.add z.im w.im
    pure ⟨x, y⟩
  sub z w := do
    let x ← O.sub z.re w.re
    let y ← O.sub z.im w.im
    pure ⟨x, y⟩
  mul z w := do
    let a ← O.mul z.re w.re
    let b ← O.mul z.im w.im
    let x ← O.sub a b
    let a ← O.mul z.re w.im
    let b ← O.mul z.im w.re
    let y ← O.add a b
    pure ⟨x, y⟩
  div z w := do
    let a ← O.mul w.re w.re
    let b ← O.mul w.im w.im
    let s ← O.add a b
    let a ← O.mul z.re w.re
    let b ← O.mul z.im w.im
    let x ← O.add a b
    let a ← O.mul z.im w.re
    let b ← O.mul z.re w.im
    let y ← O.sub a b
    let x ← O.div x s
    let y ← O.div y s
    pure ⟨x, y⟩
  neg z := do
    let x ← O.neg z.re
    let y ← O.neg z.im
    pure ⟨x, y⟩
  isZero z := O.isZero z.re && O.isZero z.im

namespace Mat.Cpx

@[ext] theorem ext {z w : Cpx T} (hr : z.re = w.re) (hi : z.im = w.im) : z = w := by
  cases z; cases w; simp_all

section CommRing
variable [CommRing T]

instance : Zero (Cpx T) := ⟨⟨0, 0⟩⟩
instance : One (Cpx T) := ⟨⟨1, 0⟩⟩
instance : Add (Cpx T) := ⟨fun z w => ⟨z.re + w.re, z.im + w.im⟩⟩
instance : Sub (Cpx T) := ⟨fun z w => ⟨z.re - w.re, z.im - w.im⟩⟩
instance : Neg (Cpx T) := ⟨fun z => ⟨-z.re, -z.im⟩⟩
instance : Mul (Cpx T) := ⟨fun z w => ⟨z.re * w.re - z.im * w.im, z.re * w.im + z.im * w.re⟩⟩

@[simp] theorem zero_re : (0 : Cpx T).re = 0 := rfl
@[simp] theorem zero_im : (0 : Cpx T).im = 0 := rfl
@[simp] theorem one_re : (1 : Cpx T).re = 1 := rfl
@[simp] theorem one_im : (1 : Cpx T).im = 0 := rfl
@[simp] theorem add_re (z w : Cpx T) : (z + w).re = z.re + w.re := rfl
@[simp] theorem add_im (z w : Cpx T) : (z + w).im = z.im + w.im := rfl
@[simp] theorem sub_re (z w : Cpx T) : (z - w).re = z.re - w.re := rfl
@[simp] theorem sub_im (z w : Cpx T) : (z - w).im = z.im - w.im := rfl
@[simp] theorem neg_re (z : Cpx T) : (-z).re = -z.re := rfl
@[simp] theorem neg_im (z : Cpx T) : (-z).im = -z.im := rfl
@[simp] theorem mul_re (z w : Cpx T) : (z * w).re = z.re * w.re - z.im * w.im := rfl
@[simp] theorem mul_im (z w : Cpx T) : (z * w).im = z.re * w.im + z.im * w.re := rfl

/-- The complex numbers over a commutative ring are a commutative ring. -/
instance : CommRing (Cpx T) where
  add_assoc _ _ _ := by ext <;> simp [add_assoc]
  zero_add _ := by ext <;> simp
  add_zero _ := by ext <;> simp
  add_comm _ _ := by ext <;> simp [add_comm]
  neg_add_cancel _ := by ext <;> simp
  sub_eq_add_neg _ _ := by ext <;> simp [sub_eq_add_neg]
  mul_assoc _ _ _ := by ext <;> simp <;> ring
  one_mul _ := by ext <;> simp
  mul_one _ := by ext <;> simp
  left_distrib _ _ _ := by ext <;> simp <;> ring
  right_distrib _ _ _ := by ext <;> simp <;> ring
  mul_comm _ _ := by ext <;> simp <;> ring
  zero_mul _ := by ext <;> simp
  mul_zero _ := by ext <;> simp
  nsmul := nsmulRec
  zsmul := zsmulRec

theorem isRing {O : Ops T} (hO : O.IsRing) : (Ops.complex O).IsRing where
  zero := by simp only [Ops.complex, hO.zero]; rfl
  one := by simp only [Ops.complex, hO.zero, hO.one]; rfl
  add a b := by simp only [Ops.complex, hO.add]; rfl
  mul a b := by simp only [Ops.complex, hO.add, hO.sub, hO.mul]; rfl
  sub a b := by simp only [Ops.complex, hO.sub]; rfl
  neg a := by simp only [Ops.complex, hO.neg]; rfl

/-- Conjugation as a ring homomorphism. -/
def conjHom : Cpx T →+* Cpx T where
  toFun z := ⟨z.re, -z.im⟩
  map_zero' := by ext <;> simp
  map_one' := by ext <;> simp
  map_add' _ _ := by ext <;> simp [add_comm]
  map_mul' _ _ := by ext <;> simp <;> ring

/-- The real numbers as complex numbers. -/
def realHom : T →+* Cpx T where
  toFun x := ⟨x, 0⟩
  map_zero' := rfl
  map_one' := rfl
  map_add' _ _ := by ext <;> simp
  map_mul' _ _ := by ext <;> simp

@[simp] theorem conjHom_re (z : Cpx T) : (conjHom z).re = z.re := rfl
@[simp] theorem conjHom_im (z : Cpx T) : (conjHom z).im = -z.im := rfl
@[simp] theorem realHom_re (x : T) : (realHom x).re = x := rfl
@[simp] theorem realHom_im (x : T) : (realHom x).im = 0 := rfl

@[simp] theorem sum_re {ι : Type} (s : Finset ι) (f : ι → Cpx T) : (∑ i ∈ s, f i).re = ∑ i ∈ s, (f i).re :=
  map_sum (⟨⟨Cpx.re, rfl⟩, fun _ _ => rfl⟩ : Cpx T →+ T) f s

@[simp] theorem sum_im {ι : Type} (s : Finset ι) (f : ι → Cpx T) : (∑ i ∈ s, f i).im = ∑ i ∈ s, (f i).im :=
  map_sum (⟨⟨Cpx.im, rfl⟩, fun _ _ => rfl⟩ : Cpx T →+ T) f s

end CommRing

section Field
variable {K : Type} [Field K] [LinearOrder K] [IsStrictOrderedRing K]

theorem normSq_pos {z : Cpx K} (h : z ≠ 0) : 0 < z.re * z.re + z.im * z.im := by
  rcases eq_or_ne z.re 0 with hr | hr
  · have hi : z.im ≠ 0 := fun hi => h (ext hr hi)
    have := mul_self_pos.2 hi
    have := mul_self_nonneg z.re
    linarith
  · have := mul_self_pos.2 hr
    have := mul_self_nonneg z.im
    linarith

/-- The complex numbers over an ordered field are a field. -/
instance : Field (Cpx K) where
  __ := (inferInstance : CommRing (Cpx K))
  inv z := ⟨z.re / (z.re * z.re + z.im * z.im), -z.im / (z.re * z.re + z.im * z.im)⟩
  exists_pair_ne := ⟨0, 1, fun h => zero_ne_one (congrArg Cpx.re h)⟩
  mul_inv_cancel z h := by
    have := (normSq_pos h).ne'
    ext
    · change z.re * (z.re / (z.re * z.re + z.im * z.im)) - z.im * (-z.im / (z.re * z.re + z.im * z.im)) = 1
      rw [← mul_div_assoc, ← mul_div_assoc, ← sub_div, div_eq_one_iff_eq this]; ring
    · change z.re * (-z.im / (z.re * z.re + z.im * z.im)) + z.im * (z.re / (z.re * z.re + z.im * z.im)) = 0
      rw [← mul_div_assoc, ← mul_div_assoc, ← add_div, div_eq_zero_iff]; left; ring
  inv_zero := by ext <;> change _ / _ = (0 : K) <;> simp
  nnqsmul := _
  qsmul := _

theorem inv_re (z : Cpx K) : (z⁻¹).re = z.re / (z.re * z.re + z.im * z.im) := rfl
theorem inv_im (z : Cpx K) : (z⁻¹).im = -z.im / (z.re * z.re + z.im * z.im) := rfl

theorem isField {O : Ops K} (hO : O.IsField) : (Ops.complex O).IsField where
  toIsRing := isRing hO.toIsRing
  div a b h := by
    have hs := (normSq_pos h).ne'
    simp only [Ops.complex, hO.add, hO.sub, hO.mul]
    change ((O.div _ _).bind fun _ => (O.div _ _).bind _) = _
    rw [hO.div _ _ hs]
    change ((O.div _ _).bind _) = _
    rw [hO.div _ _ hs]
    change Except.ok _ = Except.ok _
    congr 1
    rw [div_eq_mul_inv]
    ext
    · change _ = a.re * (b.re / (b.re * b.re + b.im * b.im)) - a.im * (-b.im / (b.re * b.re + b.im * b.im))
      rw [← mul_div_assoc, ← mul_div_assoc, ← sub_div]; ring
    · change _ = a.re * (-b.im / (b.re * b.re + b.im * b.im)) + a.im * (b.re / (b.re * b.re + b.im * b.im))
      rw [← mul_div_assoc, ← mul_div_assoc, ← add_div]; ring
  isZero a := by
    simp only [Ops.complex, Bool.and_eq_true, hO.isZero]
    exact ⟨fun h => ext h.1 h.2, fun h => h ▸ ⟨rfl, rfl⟩⟩

end Field
end Mat.Cpx
end Rowcol
