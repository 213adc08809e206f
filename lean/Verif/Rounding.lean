import Verif.Arith
import Mathlib.Algebra.Order.Archimedean.Real.Basic
import Mathlib.Data.Int.Log
import Mathlib.Algebra.Order.Round
import Mathlib.Tactic.Linarith
import Mathlib.Tactic.Positivity
import Mathlib.Tactic.NormNum

/-! Floating point element types: the standard model of rounding, and an instance (binary floating point with `p`
significant digits, rounding to nearest, without bounds on the exponent). -/

namespace Rowcol

/-- The standard model of floating point arithmetic: `val` is the real number a float stands for; every operation that
succeeds returns the exact result up to a relative error of at most `u` (for `f64` to nearest, `u = 2^-53`), negation and
the zero test are exact.  An operation that leaves the range in which this holds (overflow, underflow) may be taken to
fail: nothing is said about it. -/
structure Ops.Rounds {F : Type} (O : Ops F) (val : F → ℝ) (u : ℝ) : Prop where
  nonneg : 0 ≤ u
  zero : val O.zero = 0
  one : val O.one = 1
  add : ∀ {a b z}, O.add a b = .ok z → |val z - (val a + val b)| ≤ u * |val a + val b|
  sub : ∀ {a b z}, O.sub a b = .ok z → |val z - (val a - val b)| ≤ u * |val a - val b|
  mul : ∀ {a b z}, O.mul a b = .ok z → |val z - val a * val b| ≤ u * |val a * val b|
  div : ∀ {a b z}, val b ≠ 0 → O.div a b = .ok z → |val z - val a / val b| ≤ u * |val a / val b|
  neg : ∀ {a z}, O.neg a = .ok z → val z = -val a
  isZero : ∀ a, O.isZero a = true ↔ val a = 0

/-- Exact real operations followed by a rounding function; division by zero panics here (no claim depends on it). -/
noncomputable def Ops.rounded (rnd : ℝ → ℝ) : Ops ℝ where
  zero := 0
  one := 1
  add a b := .ok (rnd (a + b))
  sub a b := .ok (rnd (a - b))
  mul a b := .ok (rnd (a * b))
  div a b := open Classical in if b = 0 then .error .panic else .ok (rnd (a / b))
  neg a := .ok (-a)
  isZero a := open Classical in decide (a = 0)

theorem Ops.rounded_rounds {rnd : ℝ → ℝ} {u : ℝ} (hu : 0 ≤ u) (h : ∀ x, |rnd x - x| ≤ u * |x|) :
    (Ops.rounded rnd).Rounds id u where
  nonneg := hu
  zero := rfl
  one := rfl
  add := by rintro a b _ ⟨⟩; exact h _
  sub := by rintro a b _ ⟨⟩; exact h _
  mul := by rintro a b _ ⟨⟩; exact h _
  div := by
    intro a b z hb hz
    simp only [Ops.rounded, id] at hz hb
    rw [if_neg hb] at hz
    cases hz; exact h _
  neg := by rintro a _ ⟨⟩; rfl
  isZero a := by simp [Ops.rounded]

/-- Round `x` to the nearest number with `p` significant binary digits (ties upwards). -/
noncomputable def roundBin (p : Nat) (x : ℝ) : ℝ :=
  round (x / 2 ^ (Int.log 2 |x| - p + 1)) * 2 ^ (Int.log 2 |x| - p + 1)

theorem roundBin_error (p : Nat) (x : ℝ) : |roundBin p x - x| ≤ (1 / 2) ^ p * |x| := by
  by_cases hx : x = 0
  · subst hx; simp [roundBin]
  have hpos : 0 < |x| := abs_pos.2 hx
  set k := Int.log 2 |x| with hk
  have hlog : (2 : ℝ) ^ k ≤ |x| := by
    have := Int.zpow_log_le_self (b := 2) (r := |x|) (by norm_num) hpos
    simpa using this
  set e : ℝ := 2 ^ (k - p + 1) with he
  have hepos : 0 < e := zpow_pos (by norm_num) _
  have h1 : |roundBin p x - x| = |(round (x / e) : ℝ) - x / e| * e := by
    rw [roundBin, ← hk, ← he, ← abs_of_pos hepos, ← abs_mul, abs_of_pos hepos, sub_mul, div_mul_cancel₀ _ hepos.ne']
  rw [h1, abs_sub_comm]
  have h2 := abs_sub_round (x / e)
  have h3 : e = 2 ^ k * (1 / 2) ^ p * 2 := by
    rw [he, zpow_add₀ (by norm_num), zpow_sub₀ (by norm_num), zpow_natCast, zpow_one]
    simp [div_eq_mul_inv]
  calc |x / e - round (x / e)| * e ≤ 1 / 2 * e := by gcongr
    _ = (1 / 2) ^ p * 2 ^ k := by rw [h3]; ring
    _ ≤ (1 / 2) ^ p * |x| := by gcongr

/-- Integers of at most `p` binary digits are represented exactly. -/
theorem roundBin_int (p : Nat) (hp : 0 < p) (z : ℤ) (hz : |z| ≤ 2 ^ p) : roundBin p z = z := by
  by_cases h0 : z = 0
  · subst h0; simp [roundBin]
  set k := Int.log 2 |(z : ℝ)| with hk
  have hz1 : (1 : ℝ) ≤ |(z : ℝ)| := by
    have : (1 : ℤ) ≤ |z| := Int.one_le_abs h0
    exact_mod_cast this
  have hlog : (2 : ℝ) ^ k ≤ |(z : ℝ)| := by
    have := Int.zpow_log_le_self (b := 2) (r := |(z : ℝ)|) (by norm_num) (by linarith)
    simpa using this
  have hlog' : |(z : ℝ)| < (2 : ℝ) ^ (k + 1) := by
    have := Int.lt_zpow_succ_log_self (b := 2) (by norm_num) |(z : ℝ)|
    simpa using this
  have hzr : |(z : ℝ)| ≤ 2 ^ p := by exact_mod_cast hz
  have hkp : k ≤ p := by
    have : (2 : ℝ) ^ k ≤ 2 ^ (p : ℤ) := by rw [zpow_natCast]; linarith
    exact (zpow_le_zpow_iff_right₀ (by norm_num)).1 this
  -- the unit in the last place divides the number
  have hdiv : ∃ m : ℤ, (z : ℝ) / 2 ^ (k - p + 1) = m := by
    by_cases hlt : k < p
    · refine ⟨z * 2 ^ (p - k - 1).toNat, ?_⟩
      have : ((2 : ℤ) ^ (p - k - 1).toNat : ℤ) = (2 : ℝ) ^ (p - k - 1 : ℤ) := by
        push_cast
        rw [← zpow_natCast, Int.toNat_of_nonneg (by omega)]
      push_cast at this ⊢
      rw [this, div_eq_mul_inv, ← zpow_neg]
      congr 2; ring
    · have hkp' : k = p := by omega
      rw [hkp'] at hlog
      have : |(z : ℝ)| = 2 ^ p := le_antisymm hzr (by rw [zpow_natCast] at hlog; exact hlog)
      have hz' : |z| = 2 ^ p := by exact_mod_cast this
      rw [hkp', show ((p : ℤ) - p + 1) = 1 by ring, zpow_one]
      rcases p with _ | p
      · omega
      · rcases abs_eq (by positivity : (0 : ℤ) ≤ 2 ^ (p + 1)) |>.1 hz' with h | h
        · refine ⟨2 ^ p, ?_⟩; rw [h]; push_cast; rw [pow_succ]; ring
        · refine ⟨-2 ^ p, ?_⟩; rw [h]; push_cast; rw [pow_succ]; ring
  obtain ⟨m, hm⟩ := hdiv
  rw [roundBin, ← hk, hm, round_intCast, ← hm, div_mul_cancel₀ _ (zpow_pos (by norm_num) _).ne']

/-- Numbers that do not fit are rounded. -/
theorem roundBin_tie : roundBin 24 (2 ^ 24 + 1) = 2 ^ 24 + 2 := by
  have h : Int.log 2 |(2 ^ 24 + 1 : ℝ)| = 24 := by
    rw [abs_of_pos (by positivity)]
    have : ((2 : ℝ) ^ 24 + 1) = ((2 ^ 24 + 1 : Nat) : ℝ) := by norm_num
    rw [this, Int.log_natCast]
    rw [show Nat.log 2 (2 ^ 24 + 1) = 24 by decide +kernel]; rfl
  have h2 : (((2 : ℝ) ^ 24 + 1) / 2) = ((2 ^ 23 : ℤ) : ℝ) + 2⁻¹ := by norm_num
  simp only [roundBin, h]
  norm_num [h2]

end Rowcol
