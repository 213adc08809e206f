import Verif.Lemmas.Ieee

/-! Rounding is monotone, symmetric and commutes with powers of two; it gives the nearest number, ties to even. -/

namespace Rowcol
variable (f : FloatFormat)

/-! ### Nearest -/

theorem roundEven_nearest (x : ℝ) (k : ℤ) : |(roundEven x : ℝ) - x| ≤ |(k : ℝ) - x| := by
  have h0 := Int.fract_nonneg x
  have h1 := Int.fract_lt_one x
  have h2 : x = ⌊x⌋ + Int.fract x := (Int.floor_add_fract x).symm
  have hk : (k : ℝ) ≤ ⌊x⌋ ∨ (⌊x⌋ : ℝ) + 1 ≤ k := by
    rcases le_or_gt k ⌊x⌋ with h | h
    · left; exact_mod_cast h
    · right; exact_mod_cast h
  have lo : Int.fract x ≤ |(k : ℝ) - x| ∨ 1 - Int.fract x ≤ |(k : ℝ) - x| := by
    rcases hk with h | h
    · left; rw [abs_sub_comm]; exact le_trans (by linarith) (le_abs_self _)
    · right; exact le_trans (by linarith) (le_abs_self _)
  have e1 : |(⌊x⌋ : ℝ) - x| = Int.fract x := by
    rw [abs_sub_comm, abs_of_nonneg (by linarith)]; linarith
  have e2 : |((⌊x⌋ + 1 : ℤ) : ℝ) - x| = 1 - Int.fract x := by
    push_cast; rw [abs_of_nonneg (by linarith)]; linarith
  unfold roundEven
  split
  · rw [e1]; rcases lo with h | h <;> linarith
  · split
    · rw [e2]; rcases lo with h | h <;> linarith
    · split
      · rw [e1]; rcases lo with h | h <;> linarith
      · rw [e2]; rcases lo with h | h <;> linarith

theorem roundEven_tie (x : ℝ) (k : ℤ) (h : |(k : ℝ) - x| = |(roundEven x : ℝ) - x|) (hne : k ≠ roundEven x) :
    Even (roundEven x) := by
  have h0 := Int.fract_nonneg x
  have h1 := Int.fract_lt_one x
  have h2 : x = ⌊x⌋ + Int.fract x := (Int.floor_add_fract x).symm
  have hk : (k : ℝ) ≤ ⌊x⌋ ∨ (⌊x⌋ : ℝ) + 1 ≤ k := by
    rcases le_or_gt k ⌊x⌋ with h | h
    · left; exact_mod_cast h
    · right; exact_mod_cast h
  have e1 : |(⌊x⌋ : ℝ) - x| = Int.fract x := by
    rw [abs_sub_comm, abs_of_nonneg (by linarith)]; linarith
  have e2 : |((⌊x⌋ + 1 : ℤ) : ℝ) - x| = 1 - Int.fract x := by
    push_cast; rw [abs_of_nonneg (by linarith)]; linarith
  unfold roundEven at h hne ⊢
  split at h
  · rename_i c
    rw [if_pos c] at hne
    rw [e1] at h
    rcases hk with hk | hk
    · rw [abs_sub_comm, abs_of_nonneg (by linarith)] at h
      exact absurd (by exact_mod_cast (by linarith : (k : ℝ) = ⌊x⌋)) hne
    · rw [abs_of_nonneg (by linarith)] at h; linarith
  · rename_i c
    rw [if_neg c] at hne ⊢
    split at h
    · rename_i c'
      rw [if_pos c'] at hne
      rw [e2] at h
      rcases hk with hk | hk
      · rw [abs_sub_comm, abs_of_nonneg (by linarith)] at h; linarith
      · rw [abs_of_nonneg (by linarith)] at h
        exact absurd (by exact_mod_cast (by push_cast; linarith : (k : ℝ) = ((⌊x⌋ + 1 : ℤ) : ℝ))) hne
    · rename_i c'
      rw [if_neg c']
      split
      · assumption
      · rename_i c''
        exact (Int.not_even_iff_odd.1 c'').add_one

theorem roundEven_neg (x : ℝ) : roundEven (-x) = -roundEven x := by
  by_cases hx : Int.fract x = 0
  · have : x = ⌊x⌋ := by have := Int.floor_add_fract x; rw [hx] at this; linarith
    rw [this, roundEven_int, ← Int.cast_neg, roundEven_int]
  · have h1 : Int.fract (-x) = 1 - Int.fract x := Int.fract_neg hx
    have h2 : ⌊-x⌋ = -⌊x⌋ - 1 := by
      have a := Int.floor_add_fract x
      have b := Int.floor_add_fract (-x)
      rw [h1] at b
      have : (⌊-x⌋ : ℝ) = ((-⌊x⌋ - 1 : ℤ) : ℝ) := by push_cast; linarith
      exact_mod_cast this
    unfold roundEven
    rw [h1, h2]
    have n1 : ¬ ((1 : ℝ) / 2 < 1 / 2) := lt_irrefl _
    have n2 : ¬ (1 - (1 : ℝ) / 2 < 1 / 2) := by norm_num
    have n3 : ¬ ((1 : ℝ) / 2 < 1 - 1 / 2) := by norm_num
    rcases lt_trichotomy (Int.fract x) (1 / 2) with h | h | h
    · rw [if_neg (by linarith), if_pos (by linarith), if_pos h]; ring
    · simp only [h, if_neg n1, if_neg n2, if_neg n3]
      by_cases he : Even ⌊x⌋
      · have ho : ¬ Even (-⌊x⌋ - 1) := by rw [Int.even_sub]; simp [he]
        rw [if_pos he, if_neg ho]; ring
      · have ho : Even (-⌊x⌋ - 1) := by rw [Int.even_sub]; simp [he]
        rw [if_neg he, if_pos ho]; ring
    · rw [if_pos (by linarith), if_neg (by linarith), if_pos h]; ring

namespace FloatFormat

theorem lastPlace_neg (x : ℝ) : f.lastPlace (-x) = f.lastPlace x := by simp [lastPlace]

theorem rnd_neg (x : ℝ) : f.rnd (-x) = -f.rnd x := by
  rw [rnd, rnd, lastPlace_neg, neg_div, roundEven_neg]; push_cast; ring

/-- A number of the format is a multiple of the last place of `x`, or closer to zero than a multiple that is closer to zero
than `x`. -/
theorem rep_dichotomy {x y : ℝ} (hy : f.Rep y) :
    (∃ k : ℤ, y = k * 2 ^ f.lastPlace x) ∨ ((∃ k : ℤ, (2 : ℝ) ^ Int.log 2 |x| = k * 2 ^ f.lastPlace x) ∧ |y| < 2 ^ Int.log 2 |x|) := by
  obtain ⟨m, e, he, hm, rfl⟩ := hy
  have hp := f.prec_pos
  rcases le_or_gt (f.lastPlace x) e with h | h
  · obtain ⟨k, hk, _⟩ := zpow_split e _ h
    exact .inl ⟨m * 2 ^ k, by rw [hk]; push_cast; ring⟩
  · right
    have h1 : f.lastPlace x = Int.log 2 |x| - f.prec + 1 := by
      unfold lastPlace at h ⊢; omega
    constructor
    · obtain ⟨k, hk, _⟩ := zpow_split (Int.log 2 |x|) (f.lastPlace x) (by omega)
      exact ⟨_, hk⟩
    · rw [abs_mul, abs_of_pos (two_zpow_pos e)]
      have hm' : |(m : ℝ)| < 2 ^ f.prec := by exact_mod_cast hm
      calc |(m : ℝ)| * 2 ^ e < 2 ^ f.prec * 2 ^ e := mul_lt_mul_of_pos_right hm' (two_zpow_pos e)
        _ = 2 ^ ((f.prec : ℤ) + e) := by rw [zpow_add₀ (by norm_num), zpow_natCast]
        _ ≤ _ := zpow_le_zpow_right₀ (by norm_num) (by omega)

/-- `rnd` on multiples of the last place. -/
theorem rnd_nearest_multiple (x : ℝ) (k : ℤ) : |f.rnd x - x| ≤ |k * 2 ^ f.lastPlace x - x| := by
  have hM := two_zpow_pos (f.lastPlace x)
  have e : ∀ z : ℝ, |z * 2 ^ f.lastPlace x - x| = |z - x / 2 ^ f.lastPlace x| * 2 ^ f.lastPlace x := by
    intro z
    rw [← abs_of_pos hM, ← abs_mul, abs_of_pos hM, sub_mul, div_mul_cancel₀ _ hM.ne']
  rw [rnd, e, e]
  exact mul_le_mul_of_nonneg_right (roundEven_nearest _ _) hM.le

theorem closer {x y : ℝ} (hx : x ≠ 0) (h : |y| < 2 ^ Int.log 2 |x|) :
    ∃ z, (z = 2 ^ Int.log 2 |x| ∨ z = -2 ^ Int.log 2 |x|) ∧ |z - x| < |y - x| := by
  have h1 := log_le hx
  have h2 : |x| - |y| ≤ |y - x| := by rw [abs_sub_comm]; exact abs_sub_abs_le_abs_sub x y
  rcases lt_or_gt_of_ne hx with h0 | h0
  · refine ⟨_, .inr rfl, ?_⟩
    rw [abs_of_neg h0] at h1 h2 h ⊢
    rw [abs_of_nonneg (by linarith)]; linarith
  · refine ⟨_, .inl rfl, ?_⟩
    rw [abs_of_pos h0] at h1 h2 h ⊢
    rw [abs_of_nonpos (by linarith)]; linarith

/-- `rnd x` is a number of the format nearest to `x`. -/
theorem rnd_nearest (x : ℝ) {y : ℝ} (hy : f.Rep y) : |f.rnd x - x| ≤ |y - x| := by
  by_cases hx : x = 0
  · subst hx; simp
  · rcases f.rep_dichotomy (x := x) hy with ⟨k, rfl⟩ | ⟨⟨k, hk⟩, h⟩
    · exact f.rnd_nearest_multiple x k
    · obtain ⟨z, hz, hlt⟩ := closer hx h
      refine le_trans ?_ hlt.le
      rcases hz with rfl | rfl
      · rw [hk]; exact f.rnd_nearest_multiple x k
      · rw [hk, ← neg_mul, ← Int.cast_neg]; exact f.rnd_nearest_multiple x (-k)

/-- If two numbers of the format are nearest to `x`, the one with even last digit is taken. -/
theorem rnd_tie (x : ℝ) {y : ℝ} (hy : f.Rep y) (h : |y - x| = |f.rnd x - x|) (hne : y ≠ f.rnd x) :
    ∃ m : ℤ, Even m ∧ f.rnd x = m * 2 ^ f.lastPlace x := by
  refine ⟨_, ?_, rfl⟩
  have hM := two_zpow_pos (f.lastPlace x)
  have e : ∀ z : ℝ, |z * 2 ^ f.lastPlace x - x| = |z - x / 2 ^ f.lastPlace x| * 2 ^ f.lastPlace x := by
    intro z
    rw [← abs_of_pos hM, ← abs_mul, abs_of_pos hM, sub_mul, div_mul_cancel₀ _ hM.ne']
  by_cases hx : x = 0
  · subst hx; simp only [zero_div]; simp [roundEven]
  · rcases f.rep_dichotomy (x := x) hy with ⟨k, rfl⟩ | ⟨⟨k, hk⟩, h'⟩
    · rw [rnd, e, e] at h
      refine roundEven_tie _ k (mul_right_cancel₀ hM.ne' h) fun hk => hne ?_
      rw [rnd, hk]
    · obtain ⟨z, hz, hlt⟩ := closer hx h'
      rw [h] at hlt
      refine absurd hlt (not_lt.2 ?_)
      rcases hz with rfl | rfl
      · rw [hk]; exact f.rnd_nearest_multiple x k
      · rw [hk, ← neg_mul, ← Int.cast_neg]; exact f.rnd_nearest_multiple x (-k)

theorem rnd_mono {x y : ℝ} (h : x ≤ y) : f.rnd x ≤ f.rnd y := by
  by_contra hlt
  rw [not_le] at hlt
  have h1 := f.rnd_nearest x (f.rep_rnd y)
  have h2 := f.rnd_nearest y (f.rep_rnd x)
  have a1 : f.rnd x + f.rnd y ≤ 2 * x := by
    by_contra hc
    rw [not_le] at hc
    have := sq_le_sq.2 h1
    nlinarith
  have a2 : 2 * y ≤ f.rnd x + f.rnd y := by
    by_contra hc
    rw [not_le] at hc
    have := sq_le_sq.2 h2
    nlinarith
  have : x = y := by linarith
  rw [this] at hlt
  exact lt_irrefl _ hlt

theorem rnd_nonneg {x : ℝ} (h : 0 ≤ x) : 0 ≤ f.rnd x := by have := f.rnd_mono h; simpa using this

/-! ### Powers of two -/

theorem log_scale {x : ℝ} (hx : x ≠ 0) (k : ℤ) : Int.log 2 |2 ^ k * x| = Int.log 2 |x| + k := by
  rw [abs_mul, abs_of_pos (two_zpow_pos k)]
  have h1 := log_le hx
  have h2 := lt_log x
  have hp : 0 < (2 : ℝ) ^ k * |x| := mul_pos (two_zpow_pos k) (abs_pos.2 hx)
  apply le_antisymm
  · rw [← Int.lt_add_one_iff, ← Int.lt_zpow_iff_log_lt (by norm_num) hp]
    push_cast
    calc (2 : ℝ) ^ k * |x| < 2 ^ k * 2 ^ (Int.log 2 |x| + 1) := mul_lt_mul_of_pos_left h2 (two_zpow_pos k)
      _ = _ := by rw [← zpow_add₀ (by norm_num)]; congr 1; ring
  · rw [← Int.zpow_le_iff_le_log (by norm_num) hp]
    push_cast
    calc (2 : ℝ) ^ (Int.log 2 |x| + k) = 2 ^ k * 2 ^ Int.log 2 |x| := by rw [← zpow_add₀ (by norm_num)]; congr 1; ring
      _ ≤ _ := mul_le_mul_of_nonneg_left h1 (two_zpow_pos k).le

theorem rnd_scale {x : ℝ} {k : ℤ} (h : f.lastPlace (2 ^ k * x) = f.lastPlace x + k) : f.rnd (2 ^ k * x) = 2 ^ k * f.rnd x := by
  have hk := two_zpow_pos k
  rw [rnd, rnd, h, zpow_add₀ (by norm_num : (2:ℝ) ≠ 0), mul_comm ((2:ℝ) ^ f.lastPlace x), mul_div_mul_left _ _ hk.ne']
  ring

theorem rep_scale {x : ℝ} (hx : f.Rep x) {k : ℤ} (hk : 0 ≤ k) : f.Rep (2 ^ k * x) := by
  obtain ⟨m, e, he, hm, rfl⟩ := hx
  exact ⟨m, e + k, by omega, hm, by rw [zpow_add₀ (by norm_num)]; ring⟩

theorem rep_add_tiny {x y : ℝ} (hx : f.Rep x) (hy : f.Rep y) (h : Int.log 2 |x + y| - f.prec + 1 ≤ f.emin) : f.Rep (x + y) := by
  obtain ⟨m, e, he, _, ex⟩ := hx
  obtain ⟨m', e', he', _, ey⟩ := hy
  obtain ⟨k, hk, _⟩ := zpow_split e _ he
  obtain ⟨k', hk', _⟩ := zpow_split e' _ he'
  have e1 : x + y = ((m * 2 ^ k + m' * 2 ^ k' : ℤ) : ℝ) * 2 ^ f.emin := by
    rw [ex, ey, hk, hk']; push_cast; ring
  have h2 : |x + y| < 2 ^ f.prec * 2 ^ f.emin := by
    refine lt_of_lt_of_le (lt_log _) ?_
    rw [← zpow_natCast, ← zpow_add₀ (by norm_num)]
    exact zpow_le_zpow_right₀ (by norm_num) (by omega)
  refine ⟨_, f.emin, le_rfl, ?_, e1⟩
  rw [e1, abs_mul, abs_of_pos (two_zpow_pos _)] at h2
  have := lt_of_mul_lt_mul_right h2 (two_zpow_pos _).le
  exact_mod_cast this

/-- Sums of numbers of the format scale exactly. -/
theorem rnd_scale_add {x y : ℝ} {k : ℤ} (hx : f.Rep x) (hy : f.Rep y) (hx' : f.Rep (2 ^ k * x)) (hy' : f.Rep (2 ^ k * y)) :
    f.rnd (2 ^ k * (x + y)) = 2 ^ k * f.rnd (x + y) := by
  by_cases h0 : x + y = 0
  · rw [h0]; simp
  have hl := log_scale h0 k
  have both : f.Rep (x + y) → f.Rep (2 ^ k * (x + y)) → f.rnd (2 ^ k * (x + y)) = 2 ^ k * f.rnd (x + y) := by
    intro h1 h2; rw [f.rnd_rep h1, f.rnd_rep h2]
  rcases le_total 0 k with hk | hk
  · by_cases ht : Int.log 2 |x + y| - f.prec + 1 ≤ f.emin
    · have := f.rep_add_tiny hx hy ht
      exact both this (f.rep_scale this hk)
    · apply f.rnd_scale
      unfold lastPlace
      rw [hl]; omega
  · by_cases ht : Int.log 2 |2 ^ k * (x + y)| - f.prec + 1 ≤ f.emin
    · have h1 : f.Rep (2 ^ k * (x + y)) := by
        rw [mul_add] at ht ⊢
        exact f.rep_add_tiny hx' hy' ht
      refine both ?_ h1
      have := f.rep_scale h1 (k := -k) (by omega)
      rwa [← mul_assoc, ← zpow_add₀ (by norm_num), neg_add_cancel, zpow_zero, one_mul] at this
    · apply f.rnd_scale
      rw [hl] at ht
      unfold lastPlace
      rw [hl]; omega

end FloatFormat
end Rowcol

namespace Rowcol
namespace FloatFormat
variable (f : FloatFormat)

theorem rep_max : f.Rep f.max := by
  have h := f.prec_le
  have h' := f.emin_le
  have h1 : (1 : ℤ) ≤ 2 ^ f.prec := one_le_pow₀ (by norm_num)
  refine ⟨2 ^ f.prec - 1, f.emax - f.prec + 1, by omega, ?_, by rw [max]; push_cast; ring⟩
  rw [abs_of_nonneg (by omega)]; omega

theorem rnd_le_max {x : ℝ} (h : |x| ≤ f.max) : |f.rnd x| ≤ f.max := by
  rw [abs_le] at h ⊢
  have h1 := f.rnd_mono h.1
  have h2 := f.rnd_mono h.2
  rw [f.rnd_rep f.rep_max] at h2
  rw [f.rnd_neg, f.rnd_rep f.rep_max] at h1
  exact ⟨h1, h2⟩

theorem rnd_overflow {x y : ℝ} (h : ¬ |f.rnd x| ≤ f.max) (hy : ∀ y', f.Rep y' → |y - x| ≤ |y' - x|) : f.max ≤ |y| := by
  have hx : f.max < |x| := by
    by_contra hc; exact h (f.rnd_le_max (not_lt.1 hc))
  have h1 := hy _ f.rep_max
  have h2 := hy _ f.rep_max.neg
  have hm : 0 ≤ f.max := le_trans (by positivity) f.pow_le_max
  by_contra hc
  rw [not_le, abs_lt] at hc
  rcases lt_abs.1 hx with hx | hx
  · rw [abs_of_nonpos (by linarith), abs_of_nonpos (by linarith)] at h1; linarith
  · rw [abs_of_nonneg (by linarith), abs_of_nonneg (by linarith)] at h2; linarith

/-- The two nearest numbers of a tie are neighbours. -/
theorem rnd_tie' (x : ℝ) {y : ℝ} (hy : f.Rep y) (h : |y - x| = |f.rnd x - x|) (hne : y ≠ f.rnd x) :
    ∃ m e : ℤ, Even m ∧ f.rnd x = m * 2 ^ e ∧ |y - f.rnd x| = 2 ^ e := by
  obtain ⟨m, hm, e⟩ := f.rnd_tie x hy h hne
  refine ⟨m, _, hm, e, ?_⟩
  have hM := two_zpow_pos (f.lastPlace x)
  have hs := f.rnd_sub x
  have ha : |y - f.rnd x| = 2 * |f.rnd x - x| := by
    rcases abs_eq_abs.1 h with h' | h'
    · exact absurd (by linarith) hne
    · have : y - f.rnd x = -(2 * (f.rnd x - x)) := by linarith
      rw [this, abs_neg, abs_mul, abs_of_pos (by norm_num : (0 : ℝ) < 2)]
  refine le_antisymm (by rw [ha]; linarith) ?_
  by_cases hx : x = 0
  · subst hx; simp [abs_eq_zero] at h hne; exact absurd h hne
  rcases f.rep_dichotomy (x := x) hy with ⟨k, rfl⟩ | ⟨⟨k, hk⟩, h'⟩
  · rw [e, ← sub_mul, abs_mul, abs_of_pos hM]
    have hkm : k - m ≠ 0 := by
      intro h0; apply hne; rw [e, sub_eq_zero.1 h0]
    have : (1 : ℝ) ≤ |(k : ℝ) - m| := by exact_mod_cast Int.one_le_abs hkm
    nlinarith
  · obtain ⟨z, hz, hlt⟩ := closer hx h'
    rw [h] at hlt
    refine absurd hlt (not_lt.2 ?_)
    rcases hz with rfl | rfl
    · rw [hk]; exact f.rnd_nearest_multiple x k
    · rw [hk, ← neg_mul, ← Int.cast_neg]; exact f.rnd_nearest_multiple x (-k)

theorem rnd_scale_normal {x : ℝ} {k : ℤ} (h : x = 0 ∨ (2 : ℝ) ^ (f.emin + f.prec - 1) ≤ |x|)
    (h' : 2 ^ k * x = 0 ∨ (2 : ℝ) ^ (f.emin + f.prec - 1) ≤ |2 ^ k * x|) : f.rnd (2 ^ k * x) = 2 ^ k * f.rnd x := by
  by_cases hx : x = 0
  · subst hx; simp
  have hkx : (2 : ℝ) ^ k * x ≠ 0 := mul_ne_zero (two_zpow_pos k).ne' hx
  have h1 := (zpow_lt_zpow_iff_right₀ (by norm_num : (1 : ℝ) < 2)).1 (lt_of_le_of_lt (h.resolve_left hx) (lt_log x))
  have h2 := (zpow_lt_zpow_iff_right₀ (by norm_num : (1 : ℝ) < 2)).1 (lt_of_le_of_lt (h'.resolve_left hkx) (lt_log _))
  apply f.rnd_scale
  have hl := log_scale hx k
  unfold lastPlace
  rw [hl] at h2 ⊢; omega

end FloatFormat
end Rowcol
