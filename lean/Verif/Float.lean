import Verif.Rounding
import Mathlib.Data.EReal.Basic
import Mathlib.Analysis.Real.Sqrt

/-! The element types `f32` and `f64`: IEEE 754 binary arithmetic with round to nearest, ties to even, gradual underflow,
infinities, signed zeros and one NaN (payloads are not distinguished).  Rust's `f32`/`f64` operators are these operations;
`Zero::is_zero` of `num` is `*self == 0.0`. -/

namespace Rowcol

/-- A binary format: `prec` significant digits, `emin` the exponent of the smallest positive number, `emax` the exponent of
the leading digit of the largest number. -/
structure FloatFormat where
  prec : Nat
  emin : ℤ
  emax : ℤ
  prec_pos : 0 < prec
  emin_le : emin ≤ 0
  prec_le : (prec : ℤ) ≤ emax

namespace FloatFormat

/-- `f32`. -/
def f32 : FloatFormat := ⟨24, -149, 127, by norm_num, by norm_num, by norm_num⟩
/-- `f64`. -/
def f64 : FloatFormat := ⟨53, -1074, 1023, by norm_num, by norm_num, by norm_num⟩

variable (f : FloatFormat)

/-- The largest finite number, `1.11..1 * 2^emax`. -/
noncomputable def max : ℝ := (2 ^ f.prec - 1) * 2 ^ (f.emax - f.prec + 1)

/-- The unit roundoff: half a unit in the last place of 1. -/
noncomputable def u : ℝ := (1 / 2) ^ f.prec

/-- Half of the smallest positive number. -/
noncomputable def eta : ℝ := 2 ^ (f.emin - 1)

/-- The numbers of the format, were the exponent not bounded above. -/
def Rep (x : ℝ) : Prop := ∃ m e : ℤ, f.emin ≤ e ∧ |m| < 2 ^ f.prec ∧ x = m * 2 ^ e

end FloatFormat

/-- The nearest integer, the even one if there are two. -/
noncomputable def roundEven (x : ℝ) : ℤ :=
  if Int.fract x < 1 / 2 then ⌊x⌋ else if 1 / 2 < Int.fract x then ⌊x⌋ + 1 else if Even ⌊x⌋ then ⌊x⌋ else ⌊x⌋ + 1

theorem roundEven_error (x : ℝ) : |(roundEven x : ℝ) - x| ≤ 1 / 2 := by
  have h0 := Int.fract_nonneg x
  have h1 := Int.fract_lt_one x
  have h2 : x = ⌊x⌋ + Int.fract x := (Int.floor_add_fract x).symm
  unfold roundEven
  split
  · rw [abs_le]; constructor <;> linarith
  · split
    · push_cast; rw [abs_le]; constructor <;> linarith
    · split
      · rw [abs_le]; constructor <;> linarith
      · push_cast; rw [abs_le]; constructor <;> linarith

theorem roundEven_int (m : ℤ) : roundEven m = m := by simp [roundEven]

theorem roundEven_abs_le {x : ℝ} {m : ℤ} (h : |x| ≤ m) : |roundEven x| ≤ m := by
  have h1 := roundEven_error x
  have h2 : |(roundEven x : ℝ)| ≤ m + 1 / 2 := by
    have := abs_add_le ((roundEven x : ℝ) - x) x
    rw [sub_add_cancel] at this; linarith
  have h3 : ((|roundEven x| : ℤ) : ℝ) < ((m + 1 : ℤ) : ℝ) := by push_cast; linarith
  have := Int.cast_lt.1 h3
  omega

namespace FloatFormat
variable (f : FloatFormat)

/-- The exponent of the last place at `x`. -/
noncomputable def lastPlace (x : ℝ) : ℤ := Max.max (Int.log 2 |x| - f.prec + 1) f.emin

/-- `x` rounded to the nearest number of the format, ties to even, as if the exponent were not bounded above. -/
noncomputable def rnd (x : ℝ) : ℝ := roundEven (x / 2 ^ f.lastPlace x) * 2 ^ f.lastPlace x

theorem u_pos : 0 < f.u := by unfold u; positivity
theorem u_lt_one : f.u < 1 := pow_lt_one₀ (by norm_num) (by norm_num) f.prec_pos.ne'
theorem eta_pos : 0 < f.eta := zpow_pos (by norm_num) _

@[simp] theorem rnd_zero : f.rnd 0 = 0 := by simp [rnd, roundEven]

theorem two_zpow_pos (e : ℤ) : (0 : ℝ) < 2 ^ e := zpow_pos (by norm_num) _

theorem log_le {x : ℝ} (hx : x ≠ 0) : (2 : ℝ) ^ Int.log 2 |x| ≤ |x| := by
  have := Int.zpow_log_le_self (b := 2) (r := |x|) (by norm_num) (abs_pos.2 hx)
  simpa using this

theorem lt_log (x : ℝ) : |x| < (2 : ℝ) ^ (Int.log 2 |x| + 1) := by
  have := Int.lt_zpow_succ_log_self (b := 2) (by norm_num) |x|
  simpa using this

theorem rnd_sub (x : ℝ) : |f.rnd x - x| ≤ 1 / 2 * 2 ^ f.lastPlace x := by
  have hp := two_zpow_pos (f.lastPlace x)
  have e : f.rnd x - x = (roundEven (x / 2 ^ f.lastPlace x) - x / 2 ^ f.lastPlace x) * 2 ^ f.lastPlace x := by
    rw [rnd, sub_mul, div_mul_cancel₀ _ hp.ne']
  rw [e, abs_mul, abs_of_pos hp]
  exact mul_le_mul_of_nonneg_right (roundEven_error _) hp.le

/-- The relative error is at most `u` unless the last place is that of the smallest numbers. -/
theorem rnd_relative {x : ℝ} (h : f.emin ≤ Int.log 2 |x| - f.prec + 1) : |f.rnd x - x| ≤ f.u * |x| := by
  by_cases hx : x = 0
  · subst hx; simp
  refine (f.rnd_sub x).trans ?_
  have e : f.lastPlace x = Int.log 2 |x| - f.prec + 1 := max_eq_left h
  have e' : (1 / 2 : ℝ) * 2 ^ (Int.log 2 |x| - f.prec + 1) = f.u * 2 ^ Int.log 2 |x| := by
    rw [u, zpow_add₀ (by norm_num), zpow_sub₀ (by norm_num), zpow_natCast, zpow_one]
    simp [div_eq_mul_inv]; ring
  rw [e, e']
  exact mul_le_mul_of_nonneg_left (log_le hx) f.u_pos.le

theorem rnd_tiny {x : ℝ} (h : Int.log 2 |x| - f.prec + 1 ≤ f.emin) : |f.rnd x - x| ≤ f.eta := by
  refine (f.rnd_sub x).trans (le_of_eq ?_)
  rw [show f.lastPlace x = f.emin from max_eq_right h, eta, zpow_sub₀ (by norm_num), zpow_one]; ring

/-- The error is relative, or at most half of the smallest number. -/
theorem rnd_error (x : ℝ) : |f.rnd x - x| ≤ f.u * |x| + f.eta := by
  rcases le_total f.emin (Int.log 2 |x| - f.prec + 1) with h | h
  · have := f.rnd_relative h; linarith [f.eta_pos]
  · have := f.rnd_tiny h
    have := mul_nonneg f.u_pos.le (abs_nonneg x); linarith

theorem zpow_split (a b : ℤ) (h : b ≤ a) : ∃ k : Nat, (2 : ℝ) ^ a = ((2 ^ k : ℤ) : ℝ) * 2 ^ b ∧ (k : ℤ) = a - b := by
  refine ⟨(a - b).toNat, ?_, Int.toNat_of_nonneg (by omega)⟩
  push_cast
  rw [← zpow_natCast, Int.toNat_of_nonneg (by omega), ← zpow_add₀ (by norm_num)]
  congr 1; omega

/-- Numbers of the format are unchanged. -/
theorem rnd_rep {x : ℝ} (hx : f.Rep x) : f.rnd x = x := by
  by_cases h0 : x = 0
  · subst h0; simp
  obtain ⟨m, e, he, hm, rfl⟩ := hx
  have hp := two_zpow_pos (f.lastPlace (m * 2 ^ e))
  suffices ∃ k : ℤ, (m * 2 ^ e : ℝ) / 2 ^ f.lastPlace (m * 2 ^ e) = k by
    obtain ⟨k, hk⟩ := this
    rw [rnd, hk, roundEven_int, ← hk, div_mul_cancel₀ _ hp.ne']
  -- the last place is at most `e`
  have hl : f.lastPlace (m * 2 ^ e) ≤ e := by
    refine max_le ?_ he
    have h1 := log_le h0
    have h2 : |(m : ℝ) * 2 ^ e| < 2 ^ ((f.prec : ℤ) + e) := by
      rw [abs_mul, abs_of_pos (two_zpow_pos e), zpow_add₀ (by norm_num), zpow_natCast]
      refine mul_lt_mul_of_pos_right ?_ (two_zpow_pos e)
      exact_mod_cast hm
    have := (zpow_lt_zpow_iff_right₀ (by norm_num : (1 : ℝ) < 2)).1 (lt_of_le_of_lt h1 h2)
    omega
  obtain ⟨k, hk, _⟩ := zpow_split e _ hl
  refine ⟨m * 2 ^ k, ?_⟩
  rw [div_eq_iff hp.ne']
  generalize f.lastPlace (m * 2 ^ e) = L at *
  rw [hk]; push_cast; ring

/-- The result of rounding is a number of the format. -/
theorem rep_rnd (x : ℝ) : f.Rep (f.rnd x) := by
  have hp := two_zpow_pos (f.lastPlace x)
  have hl : f.emin ≤ f.lastPlace x := le_max_right _ _
  have hb : |x / 2 ^ f.lastPlace x| ≤ ((2 ^ f.prec : ℤ) : ℝ) := by
    rw [abs_div, abs_of_pos hp, div_le_iff₀ hp]
    have h1 := lt_log x
    have h2 : (2 : ℝ) ^ (Int.log 2 |x| + 1) ≤ 2 ^ ((f.prec : ℤ) + f.lastPlace x) := by
      refine zpow_le_zpow_right₀ (by norm_num) ?_
      have : Int.log 2 |x| - f.prec + 1 ≤ f.lastPlace x := le_max_left _ _
      omega
    rw [zpow_add₀ (by norm_num) (f.prec : ℤ), zpow_natCast] at h2
    push_cast
    linarith
  have hm := roundEven_abs_le hb
  rcases lt_or_eq_of_le hm with h | h
  · exact ⟨_, _, hl, h, rfl⟩
  · -- rounded up to a power of two
    obtain ⟨q, hq⟩ : ∃ q, f.prec = q + 1 := ⟨f.prec - 1, by have := f.prec_pos; omega⟩
    have hlt : (2 : ℤ) ^ q < 2 ^ f.prec := by rw [hq, pow_succ]; have : (0 : ℤ) < 2 ^ q := by positivity
                                              omega
    rcases abs_eq (by positivity : (0 : ℤ) ≤ 2 ^ f.prec) |>.1 h with h' | h'
    · refine ⟨2 ^ q, f.lastPlace x + 1, by omega, by rwa [abs_of_pos (by positivity)], ?_⟩
      rw [rnd, h', hq, zpow_add₀ (by norm_num), zpow_one]; push_cast; rw [pow_succ]; ring
    · refine ⟨-2 ^ q, f.lastPlace x + 1, by omega, by rwa [abs_neg, abs_of_pos (by positivity)], ?_⟩
      rw [rnd, h', hq, zpow_add₀ (by norm_num), zpow_one]; push_cast; rw [pow_succ]; ring

theorem Rep.zero : f.Rep 0 := ⟨0, 0, f.emin_le, by simp, by simp⟩

theorem Rep.int {z : ℤ} (hz : |z| ≤ 2 ^ f.prec) : f.Rep z := by
  rcases lt_or_eq_of_le hz with h | h
  · exact ⟨z, 0, f.emin_le, h, by simp⟩
  · have h2 : |(1 : ℤ)| < 2 ^ f.prec := by
      rw [abs_one]; exact one_lt_pow₀ (by norm_num) f.prec_pos.ne'
    have := f.emin_le
    rcases abs_eq (by positivity : (0 : ℤ) ≤ 2 ^ f.prec) |>.1 h with h' | h'
    · exact ⟨1, f.prec, by omega, h2, by rw [h']; push_cast; rw [zpow_natCast]; ring⟩
    · exact ⟨-1, f.prec, by omega, by rwa [abs_neg], by rw [h']; push_cast; rw [zpow_natCast]; ring⟩

variable {f} in
theorem Rep.neg {x : ℝ} (h : f.Rep x) : f.Rep (-x) := by
  obtain ⟨m, e, he, hm, rfl⟩ := h
  exact ⟨-m, e, he, by rwa [abs_neg], by push_cast; ring⟩

variable {f} in
/-- A sum of numbers of the format is rounded with a relative error of at most `u`: small sums are exact. -/
theorem rnd_add {x y : ℝ} (hx : f.Rep x) (hy : f.Rep y) : |f.rnd (x + y) - (x + y)| ≤ f.u * |x + y| := by
  rcases le_total f.emin (Int.log 2 |x + y| - f.prec + 1) with h | h
  · exact f.rnd_relative h
  · suffices f.Rep (x + y) by
      rw [f.rnd_rep this, sub_self, abs_zero]; exact mul_nonneg f.u_pos.le (abs_nonneg _)
    obtain ⟨m, e, he, _, ex⟩ := hx
    obtain ⟨m', e', he', _, ey⟩ := hy
    obtain ⟨k, hk, _⟩ := zpow_split e _ he
    obtain ⟨k', hk', _⟩ := zpow_split e' _ he'
    have e1 : x + y = ((m * 2 ^ k + m' * 2 ^ k' : ℤ) : ℝ) * 2 ^ f.emin := by
      rw [ex, ey, hk, hk']; push_cast; ring
    have h2 : |x + y| < 2 ^ f.prec * 2 ^ f.emin := by
      refine lt_of_lt_of_le (lt_log _) ?_
      rw [← zpow_natCast, ← zpow_add₀ (by norm_num)]
      exact zpow_le_zpow_right₀ (by norm_num) (by omega)
    refine ⟨_, f.emin, le_rfl, ?_, e1⟩
    rw [e1, abs_mul, abs_of_pos (two_zpow_pos _)] at h2
    have := lt_of_mul_lt_mul_right h2 (two_zpow_pos _).le
    exact_mod_cast this

theorem pow_le_max : (2 : ℝ) ^ f.prec ≤ f.max := by
  obtain ⟨q, hq⟩ : ∃ q, f.prec = q + 1 := ⟨f.prec - 1, by have := f.prec_pos; omega⟩
  have h1 : (2 : ℝ) ^ (1 : ℤ) ≤ 2 ^ (f.emax - f.prec + 1) := zpow_le_zpow_right₀ (by norm_num) (by have := f.prec_le; omega)
  rw [zpow_one] at h1
  have h2 : (1 : ℝ) ≤ 2 ^ q := one_le_pow₀ (by norm_num)
  have h3 : (0 : ℝ) ≤ 2 ^ f.prec - 1 := by rw [hq, pow_succ]; linarith
  unfold max
  have := mul_le_mul_of_nonneg_left h1 h3
  rw [hq, pow_succ] at this ⊢
  linarith

end FloatFormat

/-- The values of the format: NaN, the infinities, the finite numbers (with `fin 0` as +0) and -0. -/
inductive Fl (f : FloatFormat) where
  | nan
  | inf (neg : Bool)
  | negZero
  | fin (x : ℝ) (rep : f.Rep x) (le : |x| ≤ f.max)

namespace Fl
open Classical
variable {f : FloatFormat}

/-- Neither NaN nor infinite. -/
def IsFinite : Fl f → Prop
  | negZero => True
  | fin .. => True
  | _ => False

/-- The real number a finite value stands for. -/
def val : Fl f → ℝ
  | fin x _ _ => x
  | _ => 0

/-- The sign bit. -/
noncomputable def sign : Fl f → Bool
  | nan => false
  | inf s => s
  | negZero => true
  | fin x _ _ => decide (x < 0)

/-- The correctly rounded result for the exact value `x`; `s` is the sign of an exact zero. -/
noncomputable def round (s : Bool) (x : ℝ) : Fl f :=
  if h : |f.rnd x| ≤ f.max then
    if f.rnd x = 0 ∧ (x < 0 ∨ x = 0 ∧ s = true) then negZero else fin (f.rnd x) (f.rep_rnd x) h
  else inf (decide (x < 0))

/-- `-a`. -/
noncomputable def neg : Fl f → Fl f
  | nan => nan
  | inf s => inf !s
  | negZero => fin 0 (.zero f) (by rw [abs_zero]; exact (by positivity : (0:ℝ) ≤ 2 ^ f.prec).trans f.pow_le_max)
  | fin x r h => if x = 0 then negZero else fin (-x) r.neg (by rwa [abs_neg])

/-- `a + b`. -/
noncomputable def add : Fl f → Fl f → Fl f
  | nan, _ => nan
  | _, nan => nan
  | inf s, inf s' => if s = s' then inf s else nan
  | inf s, _ => inf s
  | _, inf s => inf s
  | a, b => round (a.sign && b.sign) (a.val + b.val)

/-- `a * b`. -/
noncomputable def mul : Fl f → Fl f → Fl f
  | nan, _ => nan
  | _, nan => nan
  | inf s, inf s' => inf (s ^^ s')
  | inf s, b => if b.val = 0 then nan else inf (s ^^ b.sign)
  | a, inf s => if a.val = 0 then nan else inf (a.sign ^^ s)
  | a, b => round (a.sign ^^ b.sign) (a.val * b.val)

/-- `a / b`. -/
noncomputable def div : Fl f → Fl f → Fl f
  | nan, _ => nan
  | _, nan => nan
  | inf _, inf _ => nan
  | inf s, b => inf (s ^^ b.sign)
  | a, inf s => round (a.sign ^^ s) 0
  | a, b => if b.val = 0 then (if a.val = 0 then nan else inf (a.sign ^^ b.sign)) else round (a.sign ^^ b.sign) (a.val / b.val)

/-- `*self == 0.0`. -/
noncomputable def isZero : Fl f → Bool
  | negZero => true
  | fin x _ _ => decide (x = 0)
  | _ => false

/-- `a.sqrt()`: correctly rounded; NaN for numbers below zero. -/
noncomputable def sqrt : Fl f → Fl f
  | nan => nan
  | inf s => if s then nan else inf false
  | negZero => negZero
  | fin x _ _ => if x < 0 then nan else round false (Real.sqrt x)

/-- `a.abs()`. -/
noncomputable def abs (a : Fl f) : Fl f := if a.sign then a.neg else a

/-- The value on the extended real line; 0 for NaN. -/
noncomputable def ext : Fl f → EReal
  | inf s => if s then ⊥ else ⊤
  | a => (a.val : EReal)

/-- `a == b`. -/
noncomputable def beq (a b : Fl f) : Bool := decide (a ≠ nan ∧ b ≠ nan ∧ a.ext = b.ext)

/-- An integer of at most `prec` digits. -/
noncomputable def ofInt (z : ℤ) (hz : |z| ≤ 2 ^ f.prec) : Fl f :=
  fin z (.int f hz) (by
    have : |(z : ℝ)| ≤ 2 ^ f.prec := by exact_mod_cast hz
    exact this.trans f.pow_le_max)

end Fl

/-- The arithmetic of the floating point type: no operation panics. -/
noncomputable def Ops.ieee (f : FloatFormat) : Ops (Fl f) where
  zero := .ofInt 0 (by simp)
  one := .ofInt 1 (by rw [abs_one]; exact one_le_pow₀ (by norm_num))
  add a b := .ok (a.add b)
  sub a b := .ok (a.add b.neg)
  mul a b := .ok (a.mul b)
  div a b := .ok (a.div b)
  neg a := .ok a.neg
  isZero a := a.isZero

end Rowcol
