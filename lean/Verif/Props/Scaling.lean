import Verif.Lemmas.Graded
import Verif.Lemmas.FloatLaws
import Verif.Props.Special

/-! C98: changing signs of rows and columns, or scaling them by powers of two, changes floating point results by exactly the
factor that linear algebra says, although every operation rounds.  C87: what rounding is, and the constants of the types. -/

namespace Rowcol

/-! ### The constants of the types, and what the rounding is -/

/-- C87: the numbers that the bounds of C83-C87 are about, for `f32` and `f64`: unit roundoff, half of the smallest positive
number, the largest number, the smallest number with full precision (`EPSILON / 2`, `MAX`, `MIN_POSITIVE` of Rust), and the
range of exact integers. -/
theorem C87_formats :
    (FloatFormat.f32.u = 1 / 2 ^ 24 ∧ FloatFormat.f32.eta = 1 / 2 ^ 150 ∧ FloatFormat.f32.max = 2 ^ 128 - 2 ^ 104 ∧
      FloatFormat.f32.minPos = 1 / 2 ^ 126 ∧
      (Ops.ieee .f32).ExactInts (fun x z => x.IsFinite ∧ x.val = z) (2 ^ 24)) ∧
    (FloatFormat.f64.u = 1 / 2 ^ 53 ∧ FloatFormat.f64.eta = 1 / 2 ^ 1075 ∧ FloatFormat.f64.max = 2 ^ 1024 - 2 ^ 971 ∧
      FloatFormat.f64.minPos = 1 / 2 ^ 1022 ∧
      (Ops.ieee .f64).ExactInts (fun x z => x.IsFinite ∧ x.val = z) (2 ^ 53)) := by
  have neg : ∀ k : Nat, (2 : ℝ) ^ (-(k : ℤ)) = 1 / 2 ^ k := fun k => by rw [zpow_neg, zpow_natCast, one_div]
  have pos : ∀ k : Nat, (2 : ℝ) ^ (k : ℤ) = 2 ^ k := fun k => zpow_natCast _ _
  have mx : ∀ a b : Nat, ((2 : ℝ) ^ a - 1) * 2 ^ b = 2 ^ (a + b) - 2 ^ b := fun a b => by rw [pow_add]; ring
  refine ⟨⟨?_, ?_, ?_, ?_, C87_ints .f32⟩, ?_, ?_, ?_, ?_, C87_ints .f64⟩
  · rw [FloatFormat.u, one_div_pow]; rfl
  · exact neg 150
  · refine Eq.trans ?_ (mx 24 104)
    rw [← pos 104]; rfl
  · exact neg 126
  · rw [FloatFormat.u, one_div_pow]; rfl
  · exact neg 1075
  · refine Eq.trans ?_ (mx 53 971)
    rw [← pos 971]; rfl
  · exact neg 1022

/-- C87: what an operation on `f32`/`f64` returns, if it is finite: a number of the format that is nearest to the exact
result, and if there are two, one that is an even multiple of the unit in the last place.  It is not finite only if the
nearest number exceeds the largest one. -/
theorem C87_nearest (f : FloatFormat) (a b : Fl f) (ha : a.IsFinite) (hb : b.IsFinite) :
    ∀ (z : Fl f) (x : ℝ), (z = a.add b ∧ x = a.val + b.val ∨ z = a.add b.neg ∧ x = a.val - b.val ∨ z = a.mul b ∧ x = a.val * b.val ∨
        b.val ≠ 0 ∧ z = a.div b ∧ x = a.val / b.val) →
      (z.IsFinite → (∀ y, f.Rep y → |z.val - x| ≤ |y - x|) ∧
        ∀ y, f.Rep y → |y - x| = |z.val - x| → y ≠ z.val → ∃ m e : ℤ, Even m ∧ z.val = m * 2 ^ e ∧ |y - z.val| = 2 ^ e) ∧
      (¬ z.IsFinite → ∀ y, f.Rep y → (∀ y', f.Rep y' → |y - x| ≤ |y' - x|) → f.max ≤ |y|) := by
  have key : ∀ (z : Fl f) (x : ℝ) (s : Bool), z = .round s x →
      (z.IsFinite → (∀ y, f.Rep y → |z.val - x| ≤ |y - x|) ∧
        ∀ y, f.Rep y → |y - x| = |z.val - x| → y ≠ z.val → ∃ m e : ℤ, Even m ∧ z.val = m * 2 ^ e ∧ |y - z.val| = 2 ^ e) ∧
      (¬ z.IsFinite → ∀ y, f.Rep y → (∀ y', f.Rep y' → |y - x| ≤ |y' - x|) → f.max ≤ |y|) := by
    rintro z x s rfl
    refine ⟨fun hf => ?_, fun hf y _ hn => f.rnd_overflow (fun h => hf (Fl.round_finite_iff.2 h)) hn⟩
    rw [Fl.val_round hf]
    exact ⟨fun y hy => f.rnd_nearest x hy, fun y hy h hne => f.rnd_tie' x hy h hne⟩
  rintro z x (⟨rfl, rfl⟩ | ⟨rfl, rfl⟩ | ⟨rfl, rfl⟩ | ⟨h0, rfl, rfl⟩)
  · exact key _ _ _ (Fl.add_of_finite ha hb)
  · refine key _ _ (a.sign && b.neg.sign) ?_
    rw [Fl.add_of_finite ha (Fl.finite_neg.2 hb), Fl.val_neg, sub_eq_add_neg]
  · exact key _ _ _ (Fl.mul_of_finite ha hb)
  · exact key _ _ _ (Fl.div_of_finite ha hb h0)

/-! ### Signs -/

/-- `y` is `s` times `x`, except that the sign of a zero is not looked at. -/
def Fl.Signed {f : FloatFormat} (s : ℤˣ) (x y : Fl f) : Prop :=
  x = .nan ∧ y = .nan ∨ (∃ b, x = .inf b ∧ y = .inf (b ^^ decide (s = -1))) ∨
    x.IsFinite ∧ y.IsFinite ∧ y.val = ((s : ℤ) : ℝ) * x.val

namespace Fl
variable {f : FloatFormat}

theorem nan_add (b : Fl f) : nan.add b = nan := by cases b <;> rfl
theorem add_nan (b : Fl f) : b.add nan = nan := by cases b <;> rfl
theorem nan_mul (b : Fl f) : nan.mul b = nan := by cases b <;> rfl
theorem mul_nan (b : Fl f) : b.mul nan = nan := by cases b <;> rfl
theorem nan_div (b : Fl f) : nan.div b = nan := by cases b <;> rfl
theorem div_nan (b : Fl f) : b.div nan = nan := by cases b <;> rfl
theorem inf_add {s : Bool} {b : Fl f} (hb : b.IsFinite) : (inf s).add b = inf s := by
  cases b <;> first | rfl | exact hb.elim
theorem add_inf {s : Bool} {b : Fl f} (hb : b.IsFinite) : b.add (inf s) = inf s := by
  cases b <;> first | rfl | exact hb.elim
theorem inf_mul {s : Bool} {b : Fl f} (hb : b.IsFinite) : (inf s).mul b = if b.val = 0 then nan else inf (s ^^ b.sign) := by
  cases b <;> first | rfl | exact hb.elim
theorem mul_inf {s : Bool} {b : Fl f} (hb : b.IsFinite) : b.mul (inf s) = if b.val = 0 then nan else inf (b.sign ^^ s) := by
  cases b <;> first | rfl | exact hb.elim
theorem inf_div {s : Bool} {b : Fl f} (hb : b.IsFinite) : (inf s).div b = inf (s ^^ b.sign) := by
  cases b <;> first | rfl | exact hb.elim
theorem div_inf {s : Bool} {b : Fl f} (hb : b.IsFinite) : b.div (inf s) = round (b.sign ^^ s) 0 := by
  cases b <;> first | rfl | exact hb.elim
theorem sign_of_ne {b : Fl f} (hb : b.IsFinite) (h : b.val ≠ 0) : b.sign = decide (b.val < 0) := by
  cases b with
  | fin x r h => rfl
  | negZero => exact absurd rfl h
  | _ => exact hb.elim

theorem Signed.round (s : ℤˣ) (b b' : Bool) (x : ℝ) : Signed s (round b x : Fl f) (round b' (((s : ℤ) : ℝ) * x)) := by
  have e : f.rnd (((s : ℤ) : ℝ) * x) = ((s : ℤ) : ℝ) * f.rnd x := by
    rcases Int.units_eq_one_or s with rfl | rfl
    · simp
    · simp [f.rnd_neg]
  have ea : |f.rnd (((s : ℤ) : ℝ) * x)| = |f.rnd x| := by
    rw [e]; rcases Int.units_eq_one_or s with rfl | rfl <;> simp
  by_cases h : |f.rnd x| ≤ f.max
  · have h1 := (round_finite_iff (f := f) (s := b) (x := x)).2 h
    have h2 := (round_finite_iff (f := f) (s := b') (x := ((s : ℤ) : ℝ) * x)).2 (ea ▸ h)
    exact .inr (.inr ⟨h1, h2, by rw [val_round h1, val_round h2, e]⟩)
  · refine .inr (.inl ⟨decide (x < 0), by rw [Fl.round, dif_neg h], ?_⟩)
    rw [Fl.round, dif_neg (ea ▸ h)]
    congr 1
    have hx : x ≠ 0 := by
      rintro rfl
      rw [f.rnd_zero, abs_zero] at h
      exact h (le_trans (by positivity) f.pow_le_max)
    rcases Int.units_eq_one_or s with rfl | rfl
    · simp
    · rcases lt_or_gt_of_ne hx with h' | h' <;> simp [h', h'.not_gt]

theorem Signed.neg {s : ℤˣ} {x y : Fl f} (h : Signed s x y) : Signed s x.neg y.neg := by
  rcases h with ⟨rfl, rfl⟩ | ⟨b, rfl, rfl⟩ | ⟨h1, h2, h3⟩
  · exact .inl ⟨rfl, rfl⟩
  · exact .inr (.inl ⟨!b, rfl, by simp [Fl.neg]⟩)
  · exact .inr (.inr ⟨finite_neg.2 h1, finite_neg.2 h2, by rw [val_neg, val_neg, h3]; ring⟩)

theorem Signed.add {s : ℤˣ} {a b a' b' : Fl f} (ha : Signed s a a') (hb : Signed s b b') : Signed s (a.add b) (a'.add b') := by
  rcases ha with ⟨rfl, rfl⟩ | ⟨x, rfl, rfl⟩ | ⟨h1, h2, h3⟩
  · rw [nan_add, nan_add]; exact .inl ⟨rfl, rfl⟩
  · rcases hb with ⟨rfl, rfl⟩ | ⟨y, rfl, rfl⟩ | ⟨h1, h2, _⟩
    · rw [add_nan, add_nan]; exact .inl ⟨rfl, rfl⟩
    · simp only [Fl.add, Bool.xor_left_inj]
      split
      · exact .inr (.inl ⟨x, rfl, rfl⟩)
      · exact .inl ⟨rfl, rfl⟩
    · rw [inf_add h1, inf_add h2]; exact .inr (.inl ⟨x, rfl, rfl⟩)
  · rcases hb with ⟨rfl, rfl⟩ | ⟨y, rfl, rfl⟩ | ⟨h4, h5, h6⟩
    · rw [add_nan, add_nan]; exact .inl ⟨rfl, rfl⟩
    · rw [add_inf h1, add_inf h2]; exact .inr (.inl ⟨y, rfl, rfl⟩)
    · rw [add_of_finite h1 h4, add_of_finite h2 h5, h3, h6, ← mul_add]; exact .round s _ _ _

theorem sign_mul {s : ℤˣ} {b b' : Fl f} (h1 : b.IsFinite) (h2 : b'.IsFinite) (h3 : b'.val = ((s : ℤ) : ℝ) * b.val) (h0 : b.val ≠ 0) :
    b'.val ≠ 0 ∧ b'.sign = (b.sign ^^ decide (s = -1)) := by
  have h0' : b'.val ≠ 0 := by
    rw [h3]; rcases Int.units_eq_one_or s with rfl | rfl <;> simpa using h0
  refine ⟨h0', ?_⟩
  rw [sign_of_ne h1 h0, sign_of_ne h2 h0', h3]
  rcases Int.units_eq_one_or s with rfl | rfl
  · simp
  · rcases lt_or_gt_of_ne h0 with h' | h' <;> simp [h', h'.not_gt]

theorem xor4 (a b c d : Bool) : ((a ^^ b) ^^ (c ^^ d)) = ((a ^^ c) ^^ (b ^^ d)) := by
  cases a <;> cases b <;> cases c <;> cases d <;> rfl
theorem xor4' (a b c d : Bool) : (a ^^ (b ^^ (c ^^ d))) = ((a ^^ c) ^^ (b ^^ d)) := by
  cases a <;> cases b <;> cases c <;> cases d <;> rfl

theorem dec_mul (s s' : ℤˣ) : decide (s * s' = -1) = (decide (s = -1) ^^ decide (s' = -1)) := by
  rcases Int.units_eq_one_or s with rfl | rfl <;> rcases Int.units_eq_one_or s' with rfl | rfl <;> decide

theorem Signed.mul {s s' : ℤˣ} {a b a' b' : Fl f} (ha : Signed s a a') (hb : Signed s' b b') :
    Signed (s * s') (a.mul b) (a'.mul b') := by
  rcases ha with ⟨rfl, rfl⟩ | ⟨x, rfl, rfl⟩ | ⟨h1, h2, h3⟩
  · rw [nan_mul, nan_mul]; exact .inl ⟨rfl, rfl⟩
  · rcases hb with ⟨rfl, rfl⟩ | ⟨y, rfl, rfl⟩ | ⟨h4, h5, h6⟩
    · rw [mul_nan, mul_nan]; exact .inl ⟨rfl, rfl⟩
    · refine .inr (.inl ⟨_, rfl, ?_⟩)
      simp only [Fl.mul, dec_mul]
      congr 1; exact xor4 _ _ _ _
    · rw [inf_mul h4, inf_mul h5]
      by_cases h0 : b.val = 0
      · rw [if_pos h0, if_pos (by rw [h6, h0, mul_zero])]; exact .inl ⟨rfl, rfl⟩
      · obtain ⟨h7, h8⟩ := sign_mul h4 h5 h6 h0
        rw [if_neg h0, if_neg h7, h8]
        refine .inr (.inl ⟨_, rfl, ?_⟩)
        rw [dec_mul]; congr 1; exact xor4 _ _ _ _
  · rcases hb with ⟨rfl, rfl⟩ | ⟨y, rfl, rfl⟩ | ⟨h4, h5, h6⟩
    · rw [mul_nan, mul_nan]; exact .inl ⟨rfl, rfl⟩
    · rw [mul_inf h1, mul_inf h2]
      by_cases h0 : a.val = 0
      · rw [if_pos h0, if_pos (by rw [h3, h0, mul_zero])]; exact .inl ⟨rfl, rfl⟩
      · obtain ⟨h7, h8⟩ := sign_mul h1 h2 h3 h0
        rw [if_neg h0, if_neg h7, h8]
        refine .inr (.inl ⟨_, rfl, ?_⟩)
        rw [dec_mul]; congr 1; exact xor4 _ _ _ _
    · rw [mul_of_finite h1 h4, mul_of_finite h2 h5, h3, h6]
      convert Signed.round (f := f) (s * s') (a.sign ^^ b.sign) (a'.sign ^^ b'.sign) (a.val * b.val) using 2
      push_cast; ring

theorem isZero_iff' {s : ℤˣ} {x y : Fl f} (h : Signed s x y) : y.isZero = x.isZero := by
  rw [Bool.eq_iff_iff, isZero_iff, isZero_iff]
  rcases h with ⟨rfl, rfl⟩ | ⟨b, rfl, rfl⟩ | ⟨h1, h2, h3⟩
  · exact Iff.rfl
  · exact Iff.rfl
  · rw [h3]; rcases Int.units_eq_one_or s with rfl | rfl <;> simp [h1, h2]

theorem Signed.div {s s' : ℤˣ} {a b a' b' : Fl f} (ha : Signed s a a') (hb : Signed s' b b') (hz : b.isZero = false) :
    Signed (s / s') (a.div b) (a'.div b') := by
  have hs : s / s' = s * s' := by rw [div_eq_mul_inv, Int.units_inv_eq_self]
  rw [hs]
  rcases ha with ⟨rfl, rfl⟩ | ⟨x, rfl, rfl⟩ | ⟨h1, h2, h3⟩
  · rw [nan_div, nan_div]; exact .inl ⟨rfl, rfl⟩
  · rcases hb with ⟨rfl, rfl⟩ | ⟨y, rfl, rfl⟩ | ⟨h4, h5, h6⟩
    · rw [div_nan, div_nan]; exact .inl ⟨rfl, rfl⟩
    · exact .inl ⟨rfl, rfl⟩
    · have h0 : b.val ≠ 0 := fun h => by rw [(isZero_iff b).2 ⟨h4, h⟩] at hz; cases hz
      obtain ⟨h7, h8⟩ := sign_mul h4 h5 h6 h0
      rw [inf_div h4, inf_div h5, h8]
      refine .inr (.inl ⟨_, rfl, ?_⟩)
      rw [dec_mul]; congr 1; exact xor4 _ _ _ _
  · rcases hb with ⟨rfl, rfl⟩ | ⟨y, rfl, rfl⟩ | ⟨h4, h5, h6⟩
    · rw [div_nan, div_nan]; exact .inl ⟨rfl, rfl⟩
    · rw [div_inf h1, div_inf h2]
      convert Signed.round (f := f) (s * s') _ _ 0 using 2
      rw [mul_zero]
    · have h0 : b.val ≠ 0 := fun h => by rw [(isZero_iff b).2 ⟨h4, h⟩] at hz; cases hz
      obtain ⟨h7, h8⟩ := sign_mul h4 h5 h6 h0
      rw [div_of_finite h1 h4 h0, div_of_finite h2 h5 h7, h3, h6]
      convert Signed.round (f := f) (s * s') (a.sign ^^ b.sign) (a'.sign ^^ b'.sign) (a.val / b.val) using 2
      rcases Int.units_eq_one_or s' with rfl | rfl
      · push_cast; ring
      · push_cast; rw [neg_mul, one_mul, div_neg]; ring

end Fl

theorem ieee_signed (f : FloatFormat) : Ops.Graded (Ops.ieee f) (Ops.ieee f) (Fl.Signed (f := f)) where
  zero g := .inr (.inr ⟨trivial, trivial, by simp [Ops.ieee, Fl.ofInt, Fl.val]⟩)
  one := .inr (.inr ⟨trivial, trivial, by simp [Ops.ieee, Fl.ofInt, Fl.val]⟩)
  add ha hb := .ok (ha.add hb)
  sub ha hb := .ok (ha.add hb.neg)
  mul ha hb := .ok (ha.mul hb)
  neg ha := .ok ha.neg
  isZero h := Fl.isZero_iff' h
  div ha hb hz := .ok (ha.div hb hz)

/-! ### Powers of two -/

/-- `y` is `x` times the power of two. -/
def Scaled {f : FloatFormat} (e : Multiplicative ℤ) (x y : {x : Fl f // x.IsFinite}) : Prop :=
  y.1.val = 2 ^ e.toAdd * x.1.val

theorem trap_scaled (f : FloatFormat) : Ops.Graded (Ops.trap f) (Ops.trap f) (Scaled (f := f)) := by
  have addp : ∀ {k : ℤ} {a b a' b' : Fl f}, a'.val = 2 ^ k * a.val → b'.val = 2 ^ k * b.val → (a.add b).IsFinite → (a'.add b').IsFinite →
      (a'.add b').val = 2 ^ k * (a.add b).val := by
    intro k a b a' b' h1 h2 h3 h4
    rw [(Fl.finite_add h3).2.2, (Fl.finite_add h4).2.2, h1, h2, ← mul_add]
    exact f.rnd_scale_add a.rep_val b.rep_val (h1 ▸ a'.rep_val) (h2 ▸ b'.rep_val)
  refine ⟨?_, ?_, ?_, ?_, ?_, ?_, ?_, ?_⟩
  · intro g; simp [Scaled, Ops.trap, Ops.ieee, Fl.ofInt, Fl.val]
  · simp [Scaled, Ops.trap, Ops.ieee, Fl.ofInt, Fl.val]
  · intro g a b a' b' ha hb x y hx hy
    simp only [Ops.trap] at hx hy
    split at hx <;> cases hx
    split at hy <;> cases hy
    exact addp ha hb ‹_› ‹_›
  · intro g a b a' b' ha hb x y hx hy
    simp only [Ops.trap] at hx hy
    split at hx <;> cases hx
    split at hy <;> cases hy
    refine addp ha ?_ ‹_› ‹_›
    rw [Fl.val_neg, Fl.val_neg, hb]; ring
  · intro g h a b a' b' ha hb x y hx hy
    simp only [Ops.trap] at hx hy
    split at hx <;> cases hx
    split at hy <;> cases hy
    rename_i h1 h2
    unfold Scaled at ha hb ⊢
    dsimp only
    rw [(Fl.finite_mul h1.1).2.2, (Fl.finite_mul h2.1).2.2]
    have e : a'.1.val * b'.1.val = 2 ^ (g * h).toAdd * (a.1.val * b.1.val) := by
      rw [ha, hb, toAdd_mul, zpow_add₀ (by norm_num)]; ring
    rw [e] at h2 ⊢
    exact f.rnd_scale_normal h1.2 h2.2
  · intro g a a' ha x y hx hy
    cases hx; cases hy
    unfold Scaled at ha ⊢
    dsimp only
    rw [Fl.val_neg, Fl.val_neg, ha]; ring
  · intro g a a' ha
    simp only [Ops.trap]
    rw [Bool.eq_iff_iff, Fl.isZero_iff, Fl.isZero_iff, ha]
    have := (FloatFormat.two_zpow_pos g.toAdd).ne'
    simp [a.2, a'.2, this]
  · intro g h a b a' b' ha hb hz x y hx hy
    simp only [Ops.trap] at hx hy hz
    have h0 : b.1.val ≠ 0 := fun h => by rw [(Fl.isZero_iff b.1).2 ⟨b.2, h⟩] at hz; cases hz
    have h0' : b'.1.val ≠ 0 := by rw [hb]; exact mul_ne_zero (FloatFormat.two_zpow_pos _).ne' h0
    split at hx <;> cases hx
    split at hy <;> cases hy
    rename_i h1 h2
    unfold Scaled at ha hb ⊢
    dsimp only
    have f1 := h1.1
    have f2 := h2.1
    rw [Fl.div_of_finite a.2 b.2 h0] at f1 ⊢
    rw [Fl.div_of_finite a'.2 b'.2 h0'] at f2 ⊢
    rw [Fl.val_round f1, Fl.val_round f2]
    have e : a'.1.val / b'.1.val = 2 ^ (g / h).toAdd * (a.1.val / b.1.val) := by
      rw [ha, hb, toAdd_div, zpow_sub₀ (by norm_num)]
      have := (FloatFormat.two_zpow_pos h.toAdd).ne'
      field_simp
    have n1 := h1.2
    have n2 := h2.2
    rw [e] at n2 ⊢
    exact f.rnd_scale_normal n1 n2


/-! ### The results -/

section
variable {f : FloatFormat} {n r c l : Nat} (t : Target)

/-- Two runs that return, with related results. -/
def Returns {α β : Type} (R : α → β → Prop) (x : Res α) (y : Res β) : Prop := ∃ a b, x = .ok a ∧ y = .ok b ∧ R a b

theorem Both.returns {α β : Type} {R : α → β → Prop} {x : Res α} {y : Res β} (h : Both R x y) (hx : ∃ a, x = .ok a)
    (hy : ∃ b, y = .ok b) : Returns R x y := by
  obtain ⟨a, ha⟩ := hx
  obtain ⟨b, hb⟩ := hy
  exact ⟨a, b, ha, hb, h a b ha hb⟩

theorem units_inv (s : ℤˣ) : s⁻¹ = s := Int.units_inv_eq_self s

/-- C98: what the relation `Fl.Signed` of the theorems below contains: an element and its negative, an element and itself,
and zeros of any signs; and nothing else for numbers other than zero. -/
theorem C98_signed (x y : Fl f) :
    Fl.Signed 1 x x ∧ Fl.Signed (-1) x x.neg ∧ (x.isZero = true → y.isZero = true → ∀ s, Fl.Signed s x y) ∧
    (x.isZero = false → Fl.Signed 1 x y → y = x) ∧ (x.isZero = false → Fl.Signed (-1) x y → y = x.neg) := by
  have eq : ∀ {x y : Fl f}, x.isZero = false → Fl.Signed 1 x y → y = x := by
    rintro x y h0 (⟨rfl, rfl⟩ | ⟨b, rfl, rfl⟩ | ⟨h1, h2, h3⟩)
    · rfl
    · simp
    · have h0' : x.val ≠ 0 := fun h => by rw [(Fl.isZero_iff x).2 ⟨h1, h⟩] at h0; cases h0
      have h3 : y.val = x.val := by simpa using h3
      cases x <;> cases y <;> first | exact h1.elim | exact h2.elim | exact absurd rfl h0' | exact absurd (h3 ▸ rfl) h0' | skip
      cases h3
      rfl
  have self : ∀ x : Fl f, Fl.Signed 1 x x := fun x => by
    cases x
    · exact .inl ⟨rfl, rfl⟩
    · exact .inr (.inl ⟨_, rfl, by simp⟩)
    · exact .inr (.inr ⟨trivial, trivial, by simp⟩)
    · exact .inr (.inr ⟨trivial, trivial, by simp⟩)
  have neg : ∀ x : Fl f, Fl.Signed (-1) x x.neg := fun x => by
    rcases self x with ⟨rfl, -⟩ | ⟨b, rfl, -⟩ | ⟨h1, -, -⟩
    · exact .inl ⟨rfl, rfl⟩
    · exact .inr (.inl ⟨_, rfl, by simp [Fl.neg]⟩)
    · exact .inr (.inr ⟨h1, Fl.finite_neg.2 h1, by rw [Fl.val_neg]; simp⟩)
  refine ⟨self x, neg x, fun hx hy s => ?_, eq, fun h0 h => ?_⟩
  · rw [Fl.isZero_iff] at hx hy
    exact .inr (.inr ⟨hx.1, hy.1, by rw [hx.2, hy.2, mul_zero]⟩)
  · have hz : x.neg.isZero = false := by rw [Fl.isZero_iff' (neg x)]; exact h0
    refine eq hz ?_
    rcases h with ⟨rfl, rfl⟩ | ⟨b, rfl, rfl⟩ | ⟨h1, h2, h3⟩
    · exact self _
    · exact .inr (.inl ⟨!b, rfl, by simp⟩)
    · exact .inr (.inr ⟨Fl.finite_neg.2 h1, h2, by rw [Fl.val_neg, h3]; simp⟩)

/-- C98, signs: sums and dot products.  Changing the sign of all elements changes the sign of the sum; if the sign of some
elements is changed in both operands (`σ`), and then all of one (`s`), only `s` affects `dot`. -/
theorem C98_signs_sums (s : ℤˣ) :
    (∀ v v' : Vec (Fl f) n, (∀ i, Fl.Signed s (v.get i) (v'.get i)) →
      Returns (Fl.Signed s) (v.sum (Ops.ieee f)) (v'.sum (Ops.ieee f))) ∧
    (∀ a a' : Mat (Fl f) r c, (∀ i j, Fl.Signed s (a.get i j) (a'.get i j)) →
      Returns (Fl.Signed s) (a.sum (Ops.ieee f)) (a'.sum (Ops.ieee f))) ∧
    (∀ (σ : Fin n → ℤˣ) (a b a' b' : Vec (Fl f) n), (∀ i, Fl.Signed (σ i) (a.get i) (a'.get i)) →
      (∀ i, Fl.Signed (σ i * s) (b.get i) (b'.get i)) →
      Returns (Fl.Signed s) (a.dot (Ops.ieee f) b) (a'.dot (Ops.ieee f) b')) := by
  have H := ieee_signed f
  refine ⟨fun v v' h => (both_vecSum H h).returns ?_ ?_, fun a a' h => (both_matSum H h).returns ?_ ?_,
    fun σ a b a' b' ha hb => (fin_dot H ha fun i => by rw [units_inv]; exact hb i).returns ?_ ?_⟩
  · obtain ⟨z, h, _⟩ := C87_vec_sum v; exact ⟨z, h⟩
  · obtain ⟨z, h, _⟩ := C87_vec_sum v'; exact ⟨z, h⟩
  · obtain ⟨z, h, _⟩ := C87_mat_sum a; exact ⟨z, h⟩
  · obtain ⟨z, h, _⟩ := C87_mat_sum a'; exact ⟨z, h⟩
  · obtain ⟨z, h, _⟩ := C87_dot a b; exact ⟨z, h⟩
  · obtain ⟨z, h, _⟩ := C87_dot a' b'; exact ⟨z, h⟩

/-- C98, signs: products.  Signs of the rows of the left operand (`ρ`) and of the columns of the right one (`σ`) come out
in the rows and columns of the product; signs of the columns of the left one that are also those of the rows of the right one
(`τ`) do not matter. -/
theorem C98_signs_products (ρ : Fin l → ℤˣ) (τ : Fin n → ℤˣ) (hl : l < t.W) (hn : n < t.W) (a a' : Mat (Fl f) l n)
    (ha : ∀ i k, Fl.Signed (ρ i * τ k) (a.get i k) (a'.get i k)) :
    (∀ (σ : Fin c → ℤˣ) (b b' : Mat (Fl f) n c), (∀ k j, Fl.Signed (τ k * σ j) (b.get k j) (b'.get k j)) → c < t.W →
      ∀ op ∈ mulForms (l := l) (n := n) (c := c) t (Ops.ieee f),
        Returns (fun w w' => ∀ i j, Fl.Signed (ρ i * σ j) (w.get i j) (w'.get i j)) (op a b) (op a' b')) ∧
    (∀ v v' : Vec (Fl f) n, (∀ k, Fl.Signed (τ k) (v.get k) (v'.get k)) →
      Returns (fun w w' => ∀ i, Fl.Signed (ρ i) (w.get i) (w'.get i)) (a.mulVec t (Ops.ieee f) v) (a'.mulVec t (Ops.ieee f) v') ∧
      Returns (fun w w' => ∀ i, Fl.Signed (ρ i) (w.get i) (w'.get i)) (a.mulVecRef t (Ops.ieee f) v)
        (a'.mulVecRef t (Ops.ieee f) v')) := by
  have H := ieee_signed f
  refine ⟨fun σ b b' hb hc op hop => (fin_mul H t t rfl hop hop (fun i k => by rw [units_inv]; exact ha i k) hb hl hn hc).returns ?_ ?_,
    fun v v' hv => ?_⟩
  · obtain ⟨z, h, _⟩ := C87_mul t op hop a b hl hn hc; exact ⟨z, h⟩
  · obtain ⟨z, h, _⟩ := C87_mul t op hop a' b' hl hn hc; exact ⟨z, h⟩
  · obtain ⟨h1, h2⟩ := fin_mulVec H t t rfl (fun i k => by rw [units_inv]; exact ha i k) hv hl
    obtain ⟨z, h3, h4, _⟩ := C87_mul_vec t a v hl
    obtain ⟨z', h3', h4', _⟩ := C87_mul_vec t a' v' hl
    exact ⟨h1.returns ⟨z, h3⟩ ⟨z', h3'⟩, h2.returns ⟨z, h4⟩ ⟨z', h4'⟩⟩

theorem ieee_pow_total (a : Mat (Fl f) n n) (k : Nat) (hn : n < t.W) : ∃ w, a.pow t (Ops.ieee f) k = .ok w := by
  rw [Mat.pow, Mat.clone_ok, res_ok_bind]
  have h1 : ∃ e, Mat.one t (Ops.ieee f) n = .ok e := by
    rw [Mat.one, Mat.identity, Mat.generate_ok t _ (fun i j => if i = j then (Ops.ieee f).one else (Ops.ieee f).zero) (by
      intro i j; simp [Fin.ext_iff])]
    exact ⟨_, rfl⟩
  refine numPow_total h1 (fun a b => ?_) a k
  obtain ⟨z, h, _⟩ := C87_mul t (Mat.mulVV t (Ops.ieee f)) (by simp [mulForms]) a b hn hn hn
  exact ⟨z, h⟩

/-- C98, signs: powers. -/
theorem C98_signs_pow (s : ℤˣ) (ρ : Fin n → ℤˣ) (a a' : Mat (Fl f) n n)
    (ha : ∀ i j, Fl.Signed (s * (ρ i * ρ j)) (a.get i j) (a'.get i j)) (k : Nat) (hn : n < t.W) :
    Returns (fun w w' => ∀ i j, Fl.Signed (s ^ k * (ρ i * ρ j)) (w.get i j) (w'.get i j)) (a.pow t (Ops.ieee f) k)
      (a'.pow t (Ops.ieee f) k) :=
  ((fin_pow (ieee_signed f) t t rfl (ρ := ρ) (fun i j => by rw [units_inv]; exact ha i j) k hn).mono fun _ _ h i j => by
    have := h i j; rwa [units_inv] at this).returns (ieee_pow_total t a k hn) (ieee_pow_total t a' k hn)

/-- C98, signs: `cross`.  Signs common to both operands (`κ`) come out as those of the other two coordinates. -/
theorem C98_signs_cross (s s' : ℤˣ) (κ : Fin 3 → ℤˣ) (a b a' b' : Vec (Fl f) 3)
    (ha : ∀ i, Fl.Signed (s * κ i) (a.get i) (a'.get i)) (hb : ∀ i, Fl.Signed (s' * κ i) (b.get i) (b'.get i)) :
    Returns (fun w w' => ∀ i, Fl.Signed (s * s' * (κ (i + 1) * κ (i + 2))) (w.get i) (w'.get i)) (a.cross t (Ops.ieee f) b)
      (a'.cross t (Ops.ieee f) b') := by
  obtain ⟨z, h, _⟩ := C87_cross t a b
  obtain ⟨z', h', _⟩ := C87_cross t a' b'
  exact (fin_cross (ieee_signed f) t t ha hb).returns ⟨z, h⟩ ⟨z', h'⟩

theorem cofactor_total {T : Type} {O : Ops T} (hO : O.TotalExceptDivZero) (k : Nat) (a : Mat T (k + 2) (k + 2)) (i j : Fin (k + 2))
    (hk : k + 2 < t.W) (hp : i.val + j.val < t.W) : ∃ z, a.cofactor t O k (i, j) = .ok z := by
  have hs := cofSign_total hO t hp
  match k with
  | 0 =>
    change ∃ z, a.cof2 t O (i, j) = .ok z
    unfold Mat.cof2
    rw [usub_ok t (by dsimp; omega), usub_ok t (by dsimp; omega)]
    simp only [res_ok_bind]
    exact bind_total hs fun _ _ => bind_total (index_total a (by omega) (by omega)) fun _ _ => hO.mul _ _
  | 1 =>
    change ∃ z, a.cof3 t O (i, j) = .ok z
    unfold Mat.cof3
    rw [if_pos ⟨i.isLt, j.isLt⟩]
    exact bind_total hs fun _ _ => bind_total ⟨_, minor_eq t a i j hk⟩ fun _ _ => bind_total (det2_total hO t _) fun _ _ => hO.mul _ _
  | k + 2 =>
    change ∃ z, a.cofGen t O _ (i, j) = .ok z
    unfold Mat.cofGen
    rw [if_pos ⟨i.isLt, j.isLt⟩]
    exact bind_total ⟨_, minor_eq t a i j hk⟩ fun _ _ => bind_total hs fun _ _ =>
      bind_total (C52_determinant_total hO t _ _ (by omega)) fun _ _ => hO.mul _ _

/-- C98, signs: determinants and cofactors get the product of the signs of the rows and columns they are made of. -/
theorem C98_signs_determinant (k : Nat) :
    (∀ (ρ σ : Fin (k + 1) → ℤˣ) (a a' : Mat (Fl f) (k + 1) (k + 1)), (∀ i j, Fl.Signed (ρ i * σ j) (a.get i j) (a'.get i j)) →
      k + 1 < t.W →
      Returns (Fl.Signed ((∏ i, ρ i) * ∏ j, σ j)) (a.determinant t (Ops.ieee f) k) (a'.determinant t (Ops.ieee f) k)) ∧
    (∀ (ρ σ : Fin (k + 2) → ℤˣ) (a a' : Mat (Fl f) (k + 2) (k + 2)), (∀ i j, Fl.Signed (ρ i * σ j) (a.get i j) (a'.get i j)) →
      k + 2 < t.W → ∀ (i j : Fin (k + 2)), i.val + j.val < t.W →
      Returns (Fl.Signed ((∏ m, ρ (i.succAbove m)) * ∏ m, σ (j.succAbove m))) (a.cofactor t (Ops.ieee f) k (i, j))
        (a'.cofactor t (Ops.ieee f) k (i, j))) := by
  have H := ieee_signed f
  exact ⟨fun ρ σ a a' ha hk => (fin_det H t t rfl k ha hk).returns (C52_determinant_total (ieee_total f) t k a hk)
      (C52_determinant_total (ieee_total f) t k a' hk),
    fun ρ σ a a' ha hk i j hp => (fin_cof H t t rfl k ha i j hk hp).returns (cofactor_total t (ieee_total f) k a i j hk hp)
      (cofactor_total t (ieee_total f) k a' i j hk hp)⟩

/-- C98, signs: both inverses are `None` or both exist, and rows and columns have exchanged their signs. -/
theorem C98_signs_inverse (k : Nat) (ρ σ : Fin (k + 1) → ℤˣ) (a a' : Mat (Fl f) (k + 1) (k + 1))
    (ha : ∀ i j, Fl.Signed (ρ i * σ j) (a.get i j) (a'.get i j)) :
    (a.inverse t (Ops.ieee f) k = .ok none ∧ a'.inverse t (Ops.ieee f) k = .ok none) ∨
    ∃ w w', a.inverse t (Ops.ieee f) k = .ok (some w) ∧ a'.inverse t (Ops.ieee f) k = .ok (some w') ∧
      ∀ i j, Fl.Signed (σ i * ρ j) (w.get i j) (w'.get i j) := by
  obtain ⟨o, o', h1, h2, h3⟩ := (fin_inverse (ieee_signed f) t t k ha).returns (C52_inverse_total (ieee_total f) t k a)
    (C52_inverse_total (ieee_total f) t k a')
  cases o <;> cases o' <;> simp only [OptRel] at h3
  · exact .inl ⟨h1, h2⟩
  · exact .inr ⟨_, _, h1, h2, fun i j => by have := h3 i j; rwa [units_inv, units_inv] at this⟩

/-! With exponents instead of factors: the statements about powers of two. -/

/-- The computation on the scaled data gives the scaled result, if nothing overflows, underflows or is divided by zero in
either. -/
def Scales {α β : Type} (R : α → β → Prop) (x : Res α) (y : Res β) : Prop := ∀ a b, x = .ok a → y = .ok b → R a b

/-- C98, powers of two: sums and dot products. -/
theorem C98_scale_sums (e : ℤ) :
    (∀ v v' : Vec {x : Fl f // x.IsFinite} n, (∀ i, (v'.get i).1.val = 2 ^ e * (v.get i).1.val) →
      Scales (fun z z' => z'.1.val = 2 ^ e * z.1.val) (v.sum (Ops.trap f)) (v'.sum (Ops.trap f))) ∧
    (∀ a a' : Mat {x : Fl f // x.IsFinite} r c, (∀ i j, (a'.get i j).1.val = 2 ^ e * (a.get i j).1.val) →
      Scales (fun z z' => z'.1.val = 2 ^ e * z.1.val) (a.sum (Ops.trap f)) (a'.sum (Ops.trap f))) ∧
    (∀ (p : Fin n → ℤ) (a b a' b' : Vec {x : Fl f // x.IsFinite} n), (∀ i, (a'.get i).1.val = 2 ^ p i * (a.get i).1.val) →
      (∀ i, (b'.get i).1.val = 2 ^ (e - p i) * (b.get i).1.val) →
      Scales (fun z z' => z'.1.val = 2 ^ e * z.1.val) (a.dot (Ops.trap f) b) (a'.dot (Ops.trap f) b')) := by
  have H := trap_scaled f
  refine ⟨fun v v' h => both_vecSum H (g := .ofAdd e) h, fun a a' h => both_matSum H (g := .ofAdd e) h,
    fun p a b a' b' ha hb => fin_dot H (γ := fun i => .ofAdd (p i)) (ε := .ofAdd e) ha fun i => ?_⟩
  have := hb i
  rwa [sub_eq_neg_add] at this

/-- C98, powers of two: products. -/
theorem C98_scale_products (p : Fin l → ℤ) (q : Fin n → ℤ) (hl : l < t.W) (hn : n < t.W) (a a' : Mat {x : Fl f // x.IsFinite} l n)
    (ha : ∀ i k, (a'.get i k).1.val = 2 ^ (p i - q k) * (a.get i k).1.val) :
    (∀ (s : Fin c → ℤ) (b b' : Mat {x : Fl f // x.IsFinite} n c),
      (∀ k j, (b'.get k j).1.val = 2 ^ (q k + s j) * (b.get k j).1.val) → c < t.W →
      ∀ op ∈ mulForms (l := l) (n := n) (c := c) t (Ops.trap f),
        Scales (fun w w' => ∀ i j, (w'.get i j).1.val = 2 ^ (p i + s j) * (w.get i j).1.val) (op a b) (op a' b')) ∧
    (∀ v v' : Vec {x : Fl f // x.IsFinite} n, (∀ k, (v'.get k).1.val = 2 ^ q k * (v.get k).1.val) →
      Scales (fun w w' => ∀ i, (w'.get i).1.val = 2 ^ p i * (w.get i).1.val) (a.mulVec t (Ops.trap f) v) (a'.mulVec t (Ops.trap f) v') ∧
      Scales (fun w w' => ∀ i, (w'.get i).1.val = 2 ^ p i * (w.get i).1.val) (a.mulVecRef t (Ops.trap f) v)
        (a'.mulVecRef t (Ops.trap f) v')) := by
  have H := trap_scaled f
  have ha' : ∀ i k, Scaled (.ofAdd (p i) * (.ofAdd (q k))⁻¹) (a.get i k) (a'.get i k) := fun i k => by
    have := ha i k
    rwa [sub_eq_add_neg] at this
  exact ⟨fun s b b' hb hc op hop => fin_mul H t t rfl hop hop (ρ := fun i => .ofAdd (p i)) (τ := fun i => .ofAdd (q i))
    (σ := fun i => .ofAdd (s i)) ha' hb hl hn hc,
    fun v v' hv => fin_mulVec H t t rfl (ρ := fun i => .ofAdd (p i)) (τ := fun i => .ofAdd (q i)) ha' hv hl⟩

/-- C98, powers of two: powers. -/
theorem C98_scale_pow (e : ℤ) (p : Fin n → ℤ) (a a' : Mat {x : Fl f // x.IsFinite} n n)
    (ha : ∀ i j, (a'.get i j).1.val = 2 ^ (e + (p i - p j)) * (a.get i j).1.val) (k : Nat) (hn : n < t.W) :
    Scales (fun w w' => ∀ i j, (w'.get i j).1.val = 2 ^ (k * e + (p i - p j)) * (w.get i j).1.val) (a.pow t (Ops.trap f) k)
      (a'.pow t (Ops.trap f) k) := by
  refine (fin_pow (trap_scaled f) t t rfl (g := .ofAdd e) (ρ := fun i => .ofAdd (p i)) (fun i j => ?_) k hn).mono fun _ _ h i j => ?_
  · have := ha i j; rwa [sub_eq_add_neg] at this
  · have h := h i j
    unfold Scaled at h
    rw [toAdd_mul, toAdd_mul, toAdd_inv, toAdd_pow, nsmul_eq_mul, ← sub_eq_add_neg] at h
    exact h

/-- C98, powers of two: `cross`. -/
theorem C98_scale_cross (e e' : ℤ) (p : Fin 3 → ℤ) (a b a' b' : Vec {x : Fl f // x.IsFinite} 3)
    (ha : ∀ i, (a'.get i).1.val = 2 ^ (e + p i) * (a.get i).1.val) (hb : ∀ i, (b'.get i).1.val = 2 ^ (e' + p i) * (b.get i).1.val) :
    Scales (fun w w' => ∀ i, (w'.get i).1.val = 2 ^ (e + e' + (p (i + 1) + p (i + 2))) * (w.get i).1.val) (a.cross t (Ops.trap f) b)
      (a'.cross t (Ops.trap f) b') :=
  fin_cross (trap_scaled f) t t (α := .ofAdd e) (β := .ofAdd e') (κ := fun i => .ofAdd (p i)) ha hb

theorem prod_ofAdd (p : Fin n → ℤ) : (∏ i, Multiplicative.ofAdd (p i)) = Multiplicative.ofAdd (∑ i, p i) := (ofAdd_sum _ _).symm

/-- C98, powers of two: determinants and cofactors. -/
theorem C98_scale_determinant (k : Nat) :
    (∀ (p q : Fin (k + 1) → ℤ) (a a' : Mat {x : Fl f // x.IsFinite} (k + 1) (k + 1)),
      (∀ i j, (a'.get i j).1.val = 2 ^ (p i + q j) * (a.get i j).1.val) → k + 1 < t.W →
      Scales (fun z z' => z'.1.val = 2 ^ (∑ i, p i + ∑ j, q j) * z.1.val) (a.determinant t (Ops.trap f) k)
        (a'.determinant t (Ops.trap f) k)) ∧
    (∀ (p q : Fin (k + 2) → ℤ) (a a' : Mat {x : Fl f // x.IsFinite} (k + 2) (k + 2)),
      (∀ i j, (a'.get i j).1.val = 2 ^ (p i + q j) * (a.get i j).1.val) →
      k + 2 < t.W → ∀ (i j : Fin (k + 2)), i.val + j.val < t.W →
      Scales (fun z z' => z'.1.val = 2 ^ (∑ m, p (i.succAbove m) + ∑ m, q (j.succAbove m)) * z.1.val)
        (a.cofactor t (Ops.trap f) k (i, j)) (a'.cofactor t (Ops.trap f) k (i, j))) := by
  have H := trap_scaled f
  refine ⟨fun p q a a' ha hk => (fin_det H t t rfl k (ρ := fun i => .ofAdd (p i)) (σ := fun i => .ofAdd (q i)) ha hk).mono
      fun _ _ h => ?_, fun p q a a' ha hk i j hp => (fin_cof H t t rfl k (ρ := fun i => .ofAdd (p i)) (σ := fun i => .ofAdd (q i)) ha
      i j hk hp).mono fun _ _ h => ?_⟩
  · rw [prod_ofAdd, prod_ofAdd] at h; exact h
  · rw [prod_ofAdd fun m => p (i.succAbove m), prod_ofAdd fun m => q (j.succAbove m)] at h; exact h

/-- C98, powers of two: inverses. -/
theorem C98_scale_inverse (k : Nat) (p q : Fin (k + 1) → ℤ) (a a' : Mat {x : Fl f // x.IsFinite} (k + 1) (k + 1))
    (ha : ∀ i j, (a'.get i j).1.val = 2 ^ (p i + q j) * (a.get i j).1.val) (o o')
    (ho : a.inverse t (Ops.trap f) k = .ok o) (ho' : a'.inverse t (Ops.trap f) k = .ok o') :
    (o = none ↔ o' = none) ∧ ∀ w w', o = some w → o' = some w' →
      ∀ i j, (w'.get i j).1.val = 2 ^ (- q i - p j) * (w.get i j).1.val := by
  have h := fin_inverse (trap_scaled f) t t k (ρ := fun i => .ofAdd (p i)) (σ := fun i => .ofAdd (q i)) ha o o' ho ho'
  cases o <;> cases o' <;> simp only [OptRel] at h
  · simp
  · refine ⟨by simp, fun w w' hw hw' i j => ?_⟩
    cases hw; cases hw'
    have h := h i j
    unfold Scaled at h
    rw [toAdd_mul, toAdd_inv, toAdd_inv, ← sub_eq_add_neg] at h
    exact h

end

/-! ### Concrete cases -/

/-- Arithmetic with small multiples of 1/64; `z` stands for `z/64`.  Fails if a result is not one. -/
def Ops.dy : Ops ℤ where
  zero := 0
  one := 64
  add a b := if (a + b).natAbs ≤ 4096 then .ok (a + b) else .error .panic
  sub a b := if (a - b).natAbs ≤ 4096 then .ok (a - b) else .error .panic
  mul a b := if a * b % 64 = 0 ∧ (a * b / 64).natAbs ≤ 4096 then .ok (a * b / 64) else .error .panic
  div a b := if b ≠ 0 ∧ 64 * a % b = 0 ∧ (64 * a / b).natAbs ≤ 4096 then .ok (64 * a / b) else .error .panic
  neg a := .ok (-a)
  isZero a := decide (a = 0)

theorem dy_exact (z : ℤ) (hz : z.natAbs ≤ 4096) : FloatFormat.f32.rnd ((z : ℝ) / 64) = z / 64 ∧
    |(z : ℝ) / 64| ≤ FloatFormat.f32.max ∧ ((z : ℝ) / 64 = 0 ∨ FloatFormat.f32.minPos ≤ |(z : ℝ) / 64|) := by
  have h1 : |z| ≤ 4096 := by rw [Int.abs_eq_natAbs]; exact_mod_cast hz
  have h1' : |(z : ℝ)| ≤ 4096 := by exact_mod_cast h1
  have hm := C87_formats.1.2.2.1
  have hp := C87_formats.1.2.2.2.1
  refine ⟨FloatFormat.f32.rnd_rep ⟨z, -6, by decide, ?_, ?_⟩, ?_, ?_⟩
  · exact lt_of_le_of_lt h1 (by decide +kernel)
  · rw [zpow_neg]; norm_num [div_eq_mul_inv]
  · rw [abs_div, hm, abs_of_pos (by norm_num : (0 : ℝ) < 64)]
    refine le_trans (b := 64) ?_ (by norm_num)
    rw [div_le_iff₀ (by norm_num)]; linarith
  · by_cases h0 : z = 0
    · left; simp [h0]
    · right
      have : (1 : ℝ) ≤ |(z : ℝ)| := by exact_mod_cast Int.one_le_abs h0
      rw [abs_div, hp, abs_of_pos (by norm_num : (0 : ℝ) < 64), le_div_iff₀ (by norm_num)]
      refine le_trans ?_ this
      norm_num

theorem dy_round (s : Bool) (z : ℤ) (hz : z.natAbs ≤ 4096) {x : ℝ} (hx : x = z / 64) :
    (Fl.round s x : Fl .f32).IsFinite ∧ (Fl.round s x : Fl .f32).val = z / 64 := by
  obtain ⟨h1, h2, _⟩ := dy_exact z hz
  subst hx
  have := (Fl.round_finite_iff (f := .f32) (s := s) (x := (z : ℝ) / 64)).2 (by rw [h1]; exact h2)
  exact ⟨this, by rw [Fl.val_round this, h1]⟩

/-- Small multiples of 1/64 in `f32` are exact and do not trap. -/
theorem dy_trap : Ops.RelDivHom True Ops.dy (Ops.trap .f32) (fun z x => x.1.val = (z : ℝ) / 64) := by
  constructor
  · constructor
    · simp [Ops.trap, Ops.ieee, Fl.ofInt, Fl.val, Ops.dy]
    · simp [Ops.trap, Ops.ieee, Fl.ofInt, Fl.val, Ops.dy]
    · rintro a b ⟨a', fa⟩ ⟨b', fb⟩ ha hb
      refine rel_of_ok' fun z hz => ?_
      simp only [Ops.dy] at hz
      split at hz <;> cases hz
      have h := dy_round (a'.sign && b'.sign) (a + b) ‹_› (x := a'.val + b'.val) (by rw [ha, hb]; push_cast; ring)
      rw [← Fl.add_of_finite fa fb] at h
      exact ⟨⟨_, h.1⟩, dif_pos h.1, h.2⟩
    · rintro a b ⟨a', fa⟩ ⟨b', fb⟩ ha hb
      refine rel_of_ok' fun z hz => ?_
      simp only [Ops.dy] at hz
      split at hz <;> cases hz
      have h := dy_round (a'.sign && b'.neg.sign) (a - b) ‹_› (x := a'.val + b'.neg.val) (by rw [Fl.val_neg, ha, hb]; push_cast; ring)
      rw [← Fl.add_of_finite fa (Fl.finite_neg.2 fb)] at h
      exact ⟨⟨_, h.1⟩, dif_pos h.1, h.2⟩
    · rintro a b ⟨a', fa⟩ ⟨b', fb⟩ ha hb
      refine rel_of_ok' fun z hz => ?_
      simp only [Ops.dy] at hz
      split at hz <;> cases hz
      rename_i hc
      have e : a'.val * b'.val = ((a * b / 64 : ℤ) : ℝ) / 64 := by
        have e1 : a * b = a * b / 64 * 64 := by have := hc.1; omega
        have e2 : (a : ℝ) * b = ((a * b / 64 : ℤ) : ℝ) * 64 := by exact_mod_cast e1
        dsimp only at ha hb
        rw [ha, hb, div_mul_div_comm, e2]; ring
      have h := dy_round (a'.sign ^^ b'.sign) (a * b / 64) hc.2 e
      rw [← Fl.mul_of_finite fa fb] at h
      exact ⟨⟨_, h.1⟩, dif_pos ⟨h.1, by rw [e]; exact (dy_exact _ hc.2).2.2⟩, h.2⟩
    · rintro a ⟨a', fa⟩ ha
      refine rel_of_ok' fun z hz => ?_
      cases hz
      exact ⟨_, rfl, (Fl.val_neg _).trans (by rw [ha]; push_cast; ring)⟩
  · rintro a ⟨a', fa⟩ ha
    rw [Bool.eq_iff_iff]
    refine (Fl.isZero_iff a').trans ?_
    dsimp only at ha
    rw [ha]
    simp [Ops.dy, fa]
  · rintro a b ⟨a', fa⟩ ⟨b', fb⟩ ha hb hz
    refine rel_of_ok' fun z hz' => ?_
    simp only [Ops.dy] at hz'
    split at hz' <;> cases hz'
    rename_i hc
    dsimp only at ha hb
    have hb0 : (b : ℝ) ≠ 0 := by exact_mod_cast hc.1
    have e : a'.val / b'.val = ((64 * a / b : ℤ) : ℝ) / 64 := by
      have e1 : 64 * a = 64 * a / b * b := (Int.ediv_mul_cancel (Int.dvd_of_emod_eq_zero hc.2.1)).symm
      have e2 : (64 : ℝ) * a = ((64 * a / b : ℤ) : ℝ) * b := by exact_mod_cast e1
      rw [ha, hb, div_div_div_cancel_right₀ (by norm_num), div_eq_div_iff hb0 (by norm_num), mul_comm, e2]
    have h := dy_round (a'.sign ^^ b'.sign) (64 * a / b) hc.2.2 e
    rw [← Fl.div_of_finite fa fb (by rw [hb]; exact div_ne_zero hb0 (by norm_num))] at h
    exact ⟨⟨_, h.1⟩, dif_pos ⟨h.1, by rw [e]; exact (dy_exact _ hc.2.2).2.2⟩, h.2⟩

/-- The `f32` that is `z/64`. -/
noncomputable def dyF32 (z : ℤ) (hz : z.natAbs ≤ 4096) : {x : Fl .f32 // x.IsFinite} := ⟨.round false (z / 64), (dy_round _ z hz rfl).1⟩

theorem dyF32_mat {r c : Nat} (m : Fin r → Fin c → ℤ) (h : ∀ i j, (m i j).natAbs ≤ 4096) :
    MatRel (fun (z : ℤ) x => x.1.val = (z : ℝ) / 64) (Mat.ofFn m) (Mat.ofFn fun i j => dyF32 (m i j) (h i j)) := fun i j => by
  rw [Mat.get_ofFn, Mat.get_ofFn]; exact (dy_round _ _ (h i j) rfl).2

/-- A matrix with a nontrivial elimination (the entries are 64 times the numbers). -/
def dySample (i j : Fin 4) : ℤ := ([[32, 64, 0, 32], [32, 0, 64, 64], [64, -64, 128, 32], [0, 128, 32, 128]].getD i []).getD j 0
/-- The same with the first row doubled and the last column halved. -/
def dySample' (i j : Fin 4) : ℤ := dySample i j * (if i = 0 then 2 else 1) / (if j = 3 then 2 else 1)

/-- The hypotheses of `C98_scale_determinant` and `C98_scale_inverse` hold for the samples: the runs do not trap, in both
an elimination takes place, and the exponents are not all zero. -/
example : ∃ (a a' : Mat {x : Fl .f32 // x.IsFinite} 4 4) (z z' : _) (w w' : _),
    (∀ i j, (a'.get i j).1.val = 2 ^ ((if i = 0 then 1 else 0) + (if j = 3 then -1 else 0) : ℤ) * (a.get i j).1.val) ∧
    a.determinant ⟨true, true, 2 ^ 64⟩ (Ops.trap .f32) 3 = .ok z ∧ a'.determinant ⟨true, true, 2 ^ 64⟩ (Ops.trap .f32) 3 = .ok z' ∧
    z.1.val = -1 ∧ z'.1.val = -1 ∧
    a.inverse ⟨true, true, 2 ^ 64⟩ (Ops.trap .f32) 3 = .ok (some w) ∧
    a'.inverse ⟨true, true, 2 ^ 64⟩ (Ops.trap .f32) 3 = .ok (some w') := by
  have hs : ∀ i j, (dySample i j).natAbs ≤ 4096 := by decide
  have hs' : ∀ i j, (dySample' i j).natAbs ≤ 4096 := by decide
  obtain ⟨z, h1, h2⟩ := (rel_det dy_trap.weak ⟨true, true, 2 ^ 64⟩ ⟨true, true, 2 ^ 64⟩ rfl 3 (dyF32_mat dySample hs) (by decide)).ok_left
    (show Mat.determinant ⟨true, true, 2 ^ 64⟩ Ops.dy 3 (Mat.ofFn dySample) = .ok (-64) by decide +kernel)
  obtain ⟨z', h1', h2'⟩ := (rel_det dy_trap.weak ⟨true, true, 2 ^ 64⟩ ⟨true, true, 2 ^ 64⟩ rfl 3 (dyF32_mat dySample' hs') (by decide)).ok_left
    (show Mat.determinant ⟨true, true, 2 ^ 64⟩ Ops.dy 3 (Mat.ofFn dySample') = .ok (-64) by decide +kernel)
  have inv : ∀ (m : Fin 4 → Fin 4 → ℤ) (hm : ∀ i j, (m i j).natAbs ≤ 4096),
      (match Mat.inverse ⟨true, true, 2 ^ 64⟩ Ops.dy 3 (Mat.ofFn m) with | .ok (some _) => true | _ => false) = true →
      ∃ w, Mat.inverse ⟨true, true, 2 ^ 64⟩ (Ops.trap .f32) 3 (Mat.ofFn fun i j => dyF32 (m i j) (hm i j)) = .ok (some w) := by
    intro m hm h
    split at h
    · next b hb =>
      obtain ⟨o, h3, h4⟩ := (rel_inverse dy_trap.weak ⟨true, true, 2 ^ 64⟩ ⟨true, true, 2 ^ 64⟩ 3 (dyF32_mat m hm)).ok_left hb
      cases o with
      | none => exact h4.elim
      | some w => exact ⟨w, h3⟩
    · cases h
  obtain ⟨w, hw⟩ := inv dySample hs (by decide +kernel)
  obtain ⟨w', hw'⟩ := inv dySample' hs' (by decide +kernel)
  refine ⟨_, _, z, z', w, w', fun i j => ?_, h1, h1', ?_, ?_, hw, hw'⟩
  · rw [Mat.get_ofFn, Mat.get_ofFn]
    have e : ∀ z hz, (dyF32 z hz).1.val = (z : ℝ) / 64 := fun z hz => (dy_round _ z hz rfl).2
    rw [e, e]
    have key : ∀ i j : Fin 4, dySample' i j * (if j = 3 then 2 else 1) = dySample i j * (if i = 0 then 2 else 1) := by decide
    have key : (dySample' i j : ℝ) * (if j = 3 then 2 else 1) = dySample i j * (if i = 0 then 2 else 1) := by
      have := key i j
      exact_mod_cast this
    generalize (dySample' i j : ℝ) = x at key ⊢
    generalize (dySample i j : ℝ) = y at key ⊢
    have z1 : (2 : ℝ) ^ (1 + -1 : ℤ) = 1 := by norm_num
    have z2 : (2 : ℝ) ^ (1 + 0 : ℤ) = 2 := by norm_num
    have z3 : (2 : ℝ) ^ (0 + -1 : ℤ) = 1 / 2 := by norm_num
    have z4 : (2 : ℝ) ^ (0 + 0 : ℤ) = 1 := by norm_num
    by_cases hi : i = 0 <;> by_cases hj : j = 3 <;> simp only [hi, hj, if_true, if_false, z1, z2, z3, z4] at key ⊢ <;> linarith
  · rw [h2]; norm_num
  · rw [h2']; norm_num

/-- The hypotheses of the `C98_signs` theorems: the negation of a matrix with a NaN, an infinity and a zero (`ρ = -1`,
`σ = 1`). -/
example (a : Mat (Fl .f64) 4 4) : ∀ i j, Fl.Signed ((-1 : ℤˣ) * 1) (a.get i j) ((Mat.ofFn fun i j => (a.get i j).neg : Mat (Fl .f64) 4 4).get i j) := by
  intro i j
  rw [Mat.get_ofFn, mul_one]
  cases h : a.get i j with
  | nan => exact .inl ⟨rfl, rfl⟩
  | inf b => exact .inr (.inl ⟨b, rfl, by simp [Fl.neg]⟩)
  | negZero => exact .inr (.inr ⟨trivial, trivial, by simp [Fl.val, Fl.neg]⟩)
  | fin x r hx => exact .inr (.inr ⟨trivial, Fl.finite_neg.2 trivial, by rw [Fl.val_neg]; simp⟩)

end Rowcol
