import Verif.SoftFloat
import Verif.Lemmas.FloatLaws
import Mathlib.Data.Rat.Floor
import Mathlib.Algebra.Order.Field.Power

/-! The executable floating point numbers are those of `Verif/Float.lean`. -/

namespace Rowcol

theorem pow2_eq (e : ℤ) : pow2 e = (2 : ℚ) ^ e := by
  unfold pow2
  split
  · next h =>
    obtain ⟨n, rfl⟩ := Int.eq_ofNat_of_zero_le h
    simp
  · next h =>
    obtain ⟨n, rfl⟩ : ∃ n : Nat, e = -(n : ℤ) := ⟨(-e).toNat, by omega⟩
    simp [Rat.mkRat_eq_div]

theorem pow2_pos (e : ℤ) : 0 < pow2 e := by rw [pow2_eq]; positivity

theorem pow2_cast (e : ℤ) : ((pow2 e : ℚ) : ℝ) = 2 ^ e := by rw [pow2_eq]; push_cast; rfl

theorem pow2_add (a b : ℤ) : pow2 (a + b) = pow2 a * pow2 b := by
  rw [pow2_eq, pow2_eq, pow2_eq, zpow_add₀ (by norm_num)]

theorem pow2_le {a b : ℤ} (h : a ≤ b) : pow2 a ≤ pow2 b := by
  rw [pow2_eq, pow2_eq]; exact zpow_le_zpow_right₀ (by norm_num) h

theorem pow2_nat (n : Nat) : pow2 n = ((2 ^ n : Nat) : ℚ) := by rw [pow2_eq]; simp

theorem ilog2_spec {q : ℚ} (hq : q ≠ 0) : pow2 (ilog2 q) ≤ |q| ∧ |q| < pow2 (ilog2 q + 1) := by
  have hn : q.num.natAbs ≠ 0 := by simpa using hq
  have hd : q.den ≠ 0 := q.den_ne_zero
  have e : |q| = (q.num.natAbs : ℚ) / q.den := by
    rw [← Rat.num_div_den q, abs_div, Nat.abs_cast, Rat.num_div_den]
    congr 1
    rw [Nat.cast_natAbs]; push_cast; rfl
  have n1 := Nat.log2_self_le hn
  have n2 := Nat.lt_log2_self (n := q.num.natAbs)
  have d1 := Nat.log2_self_le hd
  have d2 := Nat.lt_log2_self (n := q.den)
  unfold ilog2
  generalize Nat.log2 q.num.natAbs = a at *
  generalize Nat.log2 q.den = b at *
  have n1' : ((2 ^ a : Nat) : ℚ) ≤ q.num.natAbs := by exact_mod_cast n1
  have n2' : (q.num.natAbs : ℚ) < ((2 ^ (a + 1) : Nat) : ℚ) := by exact_mod_cast n2
  have d1' : ((2 ^ b : Nat) : ℚ) ≤ q.den := by exact_mod_cast d1
  have d2' : (q.den : ℚ) < ((2 ^ (b + 1) : Nat) : ℚ) := by exact_mod_cast d2
  rw [← pow2_nat] at n1' n2' d1' d2'
  have hd0 : (0 : ℚ) < q.den := by exact_mod_cast q.den_pos
  have up : |q| < pow2 ((a : ℤ) - b + 1) := by
    rw [e, div_lt_iff₀ hd0]
    have : pow2 ((a + 1 : Nat) : ℤ) = pow2 ((a : ℤ) - b + 1) * pow2 b := by rw [← pow2_add]; congr 1; push_cast; ring
    rw [this] at n2'
    exact n2'.trans_le (mul_le_mul_of_nonneg_left d1' (pow2_pos _).le)
  have lo : pow2 ((a : ℤ) - b - 1) ≤ |q| := by
    rw [e, le_div_iff₀ hd0]
    have : pow2 (a : ℤ) = pow2 ((a : ℤ) - b - 1) * pow2 ((b + 1 : Nat) : ℤ) := by rw [← pow2_add]; congr 1; push_cast; ring
    rw [this] at n1'
    exact (mul_le_mul_of_nonneg_left d2'.le (pow2_pos _).le).trans n1'
  dsimp only
  split
  · next h => exact ⟨h, up⟩
  · next h =>
    refine ⟨lo, ?_⟩
    rw [sub_add_cancel]
    exact not_le.1 h

theorem log_unique {x : ℝ} {l : ℤ} (h1 : (2 : ℝ) ^ l ≤ |x|) (h2 : |x| < 2 ^ (l + 1)) : Int.log 2 |x| = l := by
  have hx : 0 < |x| := lt_of_lt_of_le (by positivity) h1
  have a := (Int.zpow_le_iff_le_log (b := 2) (by norm_num) hx (x := l)).1 (by simpa using h1)
  have b := (Int.lt_zpow_iff_log_lt (b := 2) (by norm_num) hx (x := l + 1)).1 (by simpa using h2)
  omega

theorem log_cast {q : ℚ} (hq : q ≠ 0) : Int.log 2 |(q : ℝ)| = ilog2 q := by
  obtain ⟨h1, h2⟩ := ilog2_spec hq
  apply log_unique
  · rw [← pow2_cast]; exact_mod_cast h1
  · rw [← pow2_cast]; exact_mod_cast h2

theorem roundEven_cast (q : ℚ) : roundEven (q : ℝ) = roundEvenQ q := by
  have hf : ⌊(q : ℝ)⌋ = q.num / q.den := by rw [Rat.floor_cast, Rat.floor_def']
  have hd : (0 : ℝ) < q.den := by exact_mod_cast q.den_pos
  have hfr : Int.fract (q : ℝ) = ((q.num - q.num / q.den * q.den : ℤ) : ℝ) / q.den := by
    rw [Int.fract, hf]
    rw [show ((q : ℝ)) = (q.num : ℝ) / q.den from Rat.cast_def q]
    field_simp
    push_cast; ring
  have lt1 : Int.fract (q : ℝ) < 1 / 2 ↔ 2 * (q.num - q.num / q.den * q.den) < (q.den : ℤ) := by
    rw [hfr, div_lt_div_iff₀ hd (by norm_num)]
    rw [← Int.cast_lt (R := ℝ)]; push_cast; constructor <;> intro h <;> linarith
  have gt1 : 1 / 2 < Int.fract (q : ℝ) ↔ (q.den : ℤ) < 2 * (q.num - q.num / q.den * q.den) := by
    rw [hfr, div_lt_div_iff₀ (by norm_num) hd]
    rw [← Int.cast_lt (R := ℝ)]; push_cast; constructor <;> intro h <;> linarith
  unfold roundEven roundEvenQ
  simp only [lt1, gt1, hf, Int.even_iff]

theorem isqrtAux_spec (n k r : Nat) (h1 : r * r ≤ n) (h2 : n < (r + 2 ^ k) * (r + 2 ^ k)) :
    isqrtAux n k r * isqrtAux n k r ≤ n ∧ n < (isqrtAux n k r + 1) * (isqrtAux n k r + 1) := by
  induction k generalizing r with
  | zero => exact ⟨h1, h2⟩
  | succ k ih =>
    rw [isqrtAux]
    split
    · next h => exact ih _ h (by rw [add_assoc, ← two_mul, ← pow_succ']; exact h2)
    · next h => exact ih _ h1 (not_le.1 h)

theorem isqrt_spec (n : Nat) : isqrt n * isqrt n ≤ n ∧ n < (isqrt n + 1) * (isqrt n + 1) := by
  refine isqrtAux_spec _ _ _ (by simp) ?_
  have h := Nat.lt_log2_self (n := n)
  refine h.trans_le ?_
  rw [zero_add, ← pow_add]
  exact Nat.pow_le_pow_right (by norm_num) (by omega)

namespace FloatFormat
variable (f : FloatFormat)

theorem maxQ_cast : ((f.maxQ : ℚ) : ℝ) = f.max := by
  unfold maxQ max
  rw [Rat.cast_mul, pow2_cast]
  congr 1
  have : 1 ≤ 2 ^ f.prec := Nat.one_le_two_pow
  push_cast [Nat.cast_sub this]
  rfl

theorem place_eq (l : ℤ) : f.place l = Max.max (l - f.prec + 1) f.emin := by
  unfold place
  split
  · next h => exact (max_eq_right h.le).symm
  · next h => exact (max_eq_left (not_lt.1 h)).symm

theorem lastPlace_cast {q : ℚ} (hq : q ≠ 0) : f.lastPlace (q : ℝ) = f.place (ilog2 q) := by
  rw [lastPlace, log_cast hq, place_eq]

theorem rnd_cast (q : ℚ) : f.rnd (q : ℝ) = (f.rndQ q : ℚ) := by
  unfold rndQ
  split
  · next h => subst h; simp
  · next h =>
    dsimp only
    rw [rnd, lastPlace_cast f h, ← pow2_cast, ← Rat.cast_div, roundEven_cast]
    push_cast; rfl

theorem sqrtQ_cast {q : ℚ} (hq : 0 ≤ q) : f.rnd (Real.sqrt q) = (f.sqrtQ q : ℚ) := by
  unfold sqrtQ
  split
  · next h => subst h; simp
  · next h =>
    have hq0 : 0 < q := lt_of_le_of_ne hq (Ne.symm h)
    have hqr : (0 : ℝ) < q := by exact_mod_cast hq0
    have hs : 0 < Real.sqrt q := Real.sqrt_pos.2 hqr
    obtain ⟨l1, l2⟩ := ilog2_spec h
    rw [abs_of_pos hq0] at l1 l2
    have lr1 : (2 : ℝ) ^ ilog2 q ≤ q := by rw [← pow2_cast]; exact_mod_cast l1
    have lr2 : (q : ℝ) < 2 ^ (ilog2 q + 1) := by rw [← pow2_cast]; exact_mod_cast l2
    have hlog : Int.log 2 |Real.sqrt q| = ilog2 q / 2 := by
      apply log_unique
      · rw [abs_of_pos hs]
        apply Real.le_sqrt_of_sq_le
        rw [← zpow_natCast, ← zpow_mul]
        exact (zpow_le_zpow_right₀ (by norm_num) (by push_cast; omega)).trans lr1
      · rw [abs_of_pos hs, Real.sqrt_lt' (by positivity), ← zpow_natCast, ← zpow_mul]
        exact lr2.trans_le (zpow_le_zpow_right₀ (by norm_num) (by push_cast; omega))
    have hlp : f.lastPlace (Real.sqrt q) = f.place (ilog2 q / 2) := by rw [lastPlace, hlog, place_eq]
    dsimp only
    rw [rnd, hlp]
    generalize f.place (ilog2 q / 2) = p
    set y : ℚ := q / pow2 (2 * p) with hy
    have hy0 : 0 < y := div_pos hq0 (pow2_pos _)
    have hyr : Real.sqrt q / 2 ^ p = Real.sqrt (y : ℝ) := by
      rw [hy, Rat.cast_div, pow2_cast, mul_comm, zpow_mul, Real.sqrt_div' _ (by positivity)]
      congr 1
      rw [show ((2 : ℝ) ^ p) ^ (2 : ℤ) = (2 ^ p) ^ 2 from zpow_natCast _ 2, Real.sqrt_sq (by positivity)]
    rw [hyr]
    have hfl : y.num / (y.den : ℤ) = ⌊y⌋ := Rat.floor_def'.symm
    rw [hfl]
    have hf0 : 0 ≤ ⌊y⌋ := Int.floor_nonneg.2 hy0.le
    obtain ⟨N, hN⟩ := Int.eq_ofNat_of_zero_le hf0
    rw [hN]
    obtain ⟨s1, s2⟩ := isqrt_spec N
    simp only [Int.toNat_natCast]
    generalize isqrt N = n at *
    have y1 : (N : ℚ) ≤ y := by have := Int.floor_le y; rw [hN] at this; exact_mod_cast this
    have y2 : y < N + 1 := by have := Int.lt_floor_add_one y; rw [hN] at this; exact_mod_cast this
    have n1 : (n : ℝ) ≤ Real.sqrt y := by
      apply Real.le_sqrt_of_sq_le
      have : ((n * n : Nat) : ℚ) ≤ y := le_trans (by exact_mod_cast s1) y1
      have : (((n * n : Nat) : ℚ) : ℝ) ≤ (y : ℝ) := by exact_mod_cast this
      push_cast at this; nlinarith
    have n2 : Real.sqrt y < (n : ℝ) + 1 := by
      rw [Real.sqrt_lt' (by positivity)]
      have : y < (((n + 1) * (n + 1) : Nat) : ℚ) := lt_of_lt_of_le y2 (by exact_mod_cast s2)
      have : (y : ℝ) < ((((n + 1) * (n + 1) : Nat) : ℚ) : ℝ) := by exact_mod_cast this
      push_cast at this; nlinarith
    have hfloor : ⌊Real.sqrt (y : ℝ)⌋ = (n : ℤ) := Int.floor_eq_iff.2 ⟨by exact_mod_cast n1, by exact_mod_cast n2⟩
    have hfr : Int.fract (Real.sqrt (y : ℝ)) = Real.sqrt y - n := by rw [Int.fract, hfloor]; simp
    have hh : (((n : ℚ) + 1 / 2) * (n + 1 / 2) : ℚ) = ((n : ℚ) + 1 / 2) ^ 2 := by ring
    have hyr0 : (0 : ℝ) ≤ y := by exact_mod_cast hy0.le
    have lt1 : Int.fract (Real.sqrt (y : ℝ)) < 1 / 2 ↔ y < ((n : ℚ) + 1 / 2) * (n + 1 / 2) := by
      rw [hfr, sub_lt_iff_lt_add, Real.sqrt_lt' (by positivity), hh, ← Rat.cast_lt (K := ℝ)]
      push_cast; rw [add_comm]
    have gt1 : 1 / 2 < Int.fract (Real.sqrt (y : ℝ)) ↔ ((n : ℚ) + 1 / 2) * (n + 1 / 2) < y := by
      rw [hfr, lt_sub_iff_add_lt, Real.lt_sqrt (by positivity), hh, ← Rat.cast_lt (K := ℝ)]
      push_cast; rw [add_comm]
    have key : roundEven (Real.sqrt (y : ℝ)) =
        ((if y < ((n : ℚ) + 1 / 2) * (n + 1 / 2) then n else if ((n : ℚ) + 1 / 2) * (n + 1 / 2) < y then n + 1
          else if n % 2 = 0 then n else n + 1 : Nat) : ℤ) := by
      unfold roundEven
      simp only [lt1, gt1, hfloor, Int.even_iff]
      have : ((n : ℤ) % 2 = 0) ↔ n % 2 = 0 := by omega
      simp only [this]
      split_ifs <;> push_cast <;> rfl
    rw [key, ← pow2_cast]
    split_ifs <;> push_cast <;> rfl

theorem rep_cast {q : ℚ} (h : f.rndQ q = q) : f.Rep (q : ℝ) := by
  have := f.rep_rnd (q : ℝ)
  rwa [rnd_cast, h] at this

theorem rndQ_of_rep {q : ℚ} (h : f.Rep (q : ℝ)) : f.rndQ q = q := by
  have := f.rnd_rep h
  rw [rnd_cast] at this
  exact_mod_cast this

theorem rndQ_rndQ (q : ℚ) : f.rndQ (f.rndQ q) = f.rndQ q := by
  apply f.rndQ_of_rep
  rw [← rnd_cast]
  exact f.rep_rnd _

theorem rndQ_sqrtQ {q : ℚ} (hq : 0 ≤ q) : f.rndQ (f.sqrtQ q) = f.sqrtQ q := by
  apply f.rndQ_of_rep
  rw [← sqrtQ_cast f hq]
  exact f.rep_rnd _

theorem le_cast {q : ℚ} : |(q : ℝ)| ≤ f.max ↔ |q| ≤ f.maxQ := by
  rw [← maxQ_cast]; exact_mod_cast Iff.rfl

end FloatFormat

namespace Sf
variable {f : FloatFormat}

/-- The value as one of `Verif/Float.lean`. -/
noncomputable def toFl : Sf f → Fl f
  | nan => .nan
  | inf s => .inf s
  | negZero => .negZero
  | fin q r h => .fin (q : ℝ) (f.rep_cast r) (f.le_cast.2 h)

@[simp] theorem toFl_nan : (nan : Sf f).toFl = .nan := rfl
@[simp] theorem toFl_inf (s : Bool) : (inf s : Sf f).toFl = .inf s := rfl
@[simp] theorem toFl_negZero : (negZero : Sf f).toFl = .negZero := rfl
theorem toFl_fin (q : ℚ) (r : f.rndQ q = q) (h : |q| ≤ f.maxQ) :
    (fin q r h : Sf f).toFl = .fin (q : ℝ) (f.rep_cast r) (f.le_cast.2 h) := rfl

theorem toFl_pack (neg : Bool) (x : ℝ) (q : ℚ) (hq : f.rnd x = q) (hr : f.rndQ q = q)
    (s : Bool) (hn : neg = true ↔ (x < 0 ∨ x = 0 ∧ s = true)) : (pack neg q : Sf f).toFl = .round s x := by
  unfold pack Fl.round
  by_cases h : |q| ≤ f.maxQ
  · have h' : |f.rnd x| ≤ f.max := by rw [hq]; exact f.le_cast.2 h
    rw [dif_pos h, dif_pos h']
    have hz : f.rnd x = 0 ↔ q = 0 := by rw [hq]; exact_mod_cast Iff.rfl
    simp only [hz, ← hn]
    by_cases h0 : q = 0 ∧ neg = true
    · rw [if_pos h0, if_pos h0]; rfl
    · rw [if_neg h0, if_neg h0, dif_pos hr]
      simp only [toFl, hq]
  · have h' : ¬ |f.rnd x| ≤ f.max := by rw [hq]; exact fun g => h (f.le_cast.1 g)
    rw [dif_neg h, dif_neg h']
    simp only [toFl]
    congr 1
    have hx : x ≠ 0 := by
      rintro rfl
      apply h'
      rw [f.rnd_zero, abs_zero]
      exact le_trans (by positivity) f.pow_le_max
    rw [Bool.eq_iff_iff, hn]; simp [hx]

theorem toFl_round (s : Bool) (q : ℚ) : (round s q : Sf f).toFl = .round s (q : ℝ) := by
  unfold round
  refine toFl_pack _ _ _ (f.rnd_cast q) (f.rndQ_rndQ q) s ?_
  rw [decide_eq_true_iff]
  constructor <;> rintro (h | ⟨h, h'⟩)
  · exact .inl (by exact_mod_cast h)
  · exact .inr ⟨by exact_mod_cast h, h'⟩
  · exact .inl (by exact_mod_cast h)
  · exact .inr ⟨by exact_mod_cast h, h'⟩

theorem toFl_val (a : Sf f) : a.toFl.val = (a.val : ℚ) := by cases a <;> simp [toFl, Fl.val, val]

theorem toFl_sign (a : Sf f) : a.toFl.sign = a.sign := by
  cases a with
  | fin q => simp only [toFl, Fl.sign, sign]; congr 1; simp
  | _ => rfl

theorem toFl_isZero (a : Sf f) : a.toFl.isZero = a.isZero := by
  cases a with
  | fin q => simp only [toFl, Fl.isZero, isZero]; congr 1; simp
  | _ => rfl

theorem toFl_neg (a : Sf f) : a.neg.toFl = a.toFl.neg := by
  cases a with
  | nan => rfl
  | inf s => rfl
  | negZero =>
    simp only [neg, toFl_negZero, Fl.neg]
    have h0 : f.rndQ 0 = 0 := by simp [FloatFormat.rndQ]
    rw [toFl_pack false (0 : ℝ) 0 (by simp) h0 false (by simp)]
    unfold Fl.round
    simp only [FloatFormat.rnd_zero, abs_zero]
    rw [dif_pos (le_trans (by positivity) f.pow_le_max), if_neg (by simp)]
  | fin q r h =>
    simp only [neg, toFl_fin, Fl.neg]
    have hz : (q : ℝ) = 0 ↔ q = 0 := by exact_mod_cast Iff.rfl
    simp only [hz]
    by_cases h0 : q = 0
    · rw [if_pos h0, if_pos h0]; rfl
    · rw [if_neg h0, if_neg h0]
      have hr : f.rndQ (-q) = -q := by
        apply f.rndQ_of_rep
        push_cast
        exact (f.rep_cast r).neg
      unfold pack
      rw [dif_pos (by rwa [abs_neg]), if_neg (by simp [h0]), dif_pos hr]
      simp [toFl_fin]

theorem toFl_add (a b : Sf f) : (a.add b).toFl = a.toFl.add b.toFl := by
  cases a <;> cases b <;> simp only [add, toFl_nan, toFl_inf, toFl_negZero, toFl_fin, Fl.add, toFl_round]
  all_goals first
    | (split <;> rfl)
    | (simp only [sign, val, Fl.sign, Fl.val]; push_cast; simp)

theorem toFl_mul (a b : Sf f) : (a.mul b).toFl = a.toFl.mul b.toFl := by
  cases a <;> cases b <;> simp only [mul, toFl_nan, toFl_inf, toFl_negZero, toFl_fin, Fl.mul, toFl_round]
  all_goals first
    | (split_ifs <;> simp_all [sign, val, Fl.sign, Fl.val])
    | (simp [sign, val, Fl.sign, Fl.val])

theorem toFl_div (a b : Sf f) : (a.div b).toFl = a.toFl.div b.toFl := by
  cases a <;> cases b <;> simp only [div, toFl_nan, toFl_inf, toFl_negZero, toFl_fin, Fl.div, toFl_round]
  all_goals first
    | (split_ifs <;> simp_all [sign, val, Fl.sign, Fl.val, toFl_round])
    | (simp [sign, Fl.sign])

theorem toFl_sqrt (a : Sf f) : a.sqrt.toFl = a.toFl.sqrt := by
  cases a with
  | fin q r h =>
    simp only [sqrt, toFl_fin, Fl.sqrt, Rat.cast_lt_zero]
    by_cases hq : q < 0
    · rw [if_pos hq, if_pos hq]; rfl
    · rw [if_neg hq, if_neg hq]
      have hq := not_lt.1 hq
      refine toFl_pack _ _ _ (f.sqrtQ_cast hq) (f.rndQ_sqrtQ hq) _ ?_
      have := Real.sqrt_nonneg (q : ℝ)
      simp [not_lt.2 this]
  | inf s => cases s <;> rfl
  | _ => rfl

open Classical in
theorem toFl_beq (a b : Sf f) : a.beq b = a.toFl.beq b.toFl := by
  unfold Fl.beq
  have e : ∀ x y : ℚ, (x = y) ↔ (((x : ℝ) : EReal) = ((y : ℝ) : EReal)) := by
    intro x y; rw [EReal.coe_eq_coe_iff, Rat.cast_inj]
  have e0 : ∀ x : ℚ, (x = 0) ↔ (((x : ℝ) : EReal) = 0) := by
    intro x; rw [e x 0]; simp
  have e1 : ∀ x : ℚ, (0 = x) ↔ (0 = ((x : ℝ) : EReal)) := by
    intro x; rw [eq_comm, e0 x, eq_comm]
  rw [Bool.eq_iff_iff]
  rw [decide_eq_true_iff (p := _ ∧ _)]
  cases a with
  | nan => simp [beq]
  | inf s => cases b with
    | inf s' => cases s <;> cases s' <;> simp [beq, Fl.ext]
    | nan => simp [beq]
    | negZero => cases s <;> simp [beq, Fl.ext, Fl.val]
    | fin q r h => cases s <;> simp [beq, toFl_fin, Fl.ext, Fl.val]
  | negZero => cases b with
    | inf s' => cases s' <;> simp [beq, Fl.ext, Fl.val]
    | nan => simp [beq]
    | negZero => simp [beq]
    | fin q r h => simp [beq, toFl_fin, Fl.ext, val, Fl.val, e1]
  | fin q r h => cases b with
    | inf s' => cases s' <;> simp [beq, toFl_fin, Fl.ext, Fl.val]
    | nan => simp [beq]
    | negZero =>
      simp [beq, toFl_fin, Fl.ext, val, Fl.val]
      exact @decide_eq_true_iff _ _
    | fin q r h =>
      simp [beq, toFl_fin, Fl.ext, val, Fl.val]
      exact @decide_eq_true_iff _ _

theorem toFl_ofInt (z : ℤ) (hz : |z| ≤ 2 ^ f.prec) : (ofInt z : Sf f).toFl = Fl.ofInt z hz := by
  unfold ofInt
  rw [toFl_round, Rat.cast_intCast]
  have h : |(z : ℝ)| ≤ 2 ^ f.prec := by exact_mod_cast hz
  unfold Fl.round
  simp only [f.rnd_rep (FloatFormat.Rep.int f hz)]
  rw [dif_pos (h.trans f.pow_le_max), if_neg (by rintro ⟨h1, h2 | h2⟩ <;> simp_all)]
  rfl

theorem toFl_injective : Function.Injective (toFl : Sf f → Fl f) := by
  intro a b h
  cases a <;> cases b <;> simp_all [toFl]

theorem toFl_surjective : Function.Surjective (toFl : Sf f → Fl f) := by
  intro x
  cases x with
  | nan => exact ⟨.nan, rfl⟩
  | inf s => exact ⟨.inf s, rfl⟩
  | negZero => exact ⟨.negZero, rfl⟩
  | fin x r h =>
    obtain ⟨m, e, _, _, hx⟩ := id r
    have hq : ((m * 2 ^ e : ℚ) : ℝ) = x := by rw [hx]; push_cast; rfl
    refine ⟨.fin (m * 2 ^ e : ℚ) (f.rndQ_of_rep (by rw [hq]; exact r)) (f.le_cast.1 (by rw [hq]; exact h)), ?_⟩
    simp only [toFl, hq]

end Sf
end Rowcol
