import Verif.Props.FloatOrder
import Verif.Props.Bitwise

/-! C99, continued: `norm` and `normalized` of `f32` and `f64`. -/

namespace Rowcol

namespace FloatFormat
variable (f : FloatFormat)

theorem rep_multiple {x : ℝ} (hx : f.Rep x) : ∃ m : ℤ, x = m * 2 ^ f.lastPlace x :=
  ⟨_, by rw [← rnd]; exact (f.rnd_rep hx).symm⟩

/-- A number of the format is the rounded square root of what is close to its square. -/
theorem rnd_sqrt {x y : ℝ} (hx : f.Rep x) (h0 : 0 < x) (hy0 : 0 ≤ y) (hy : |y - x ^ 2| ≤ f.u * x ^ 2)
    (hp : x = 2 ^ Int.log 2 |x| → y = x ^ 2) : f.rnd (Real.sqrt y) = x := by
  have hu := f.u_pos
  have hu1 := f.u_lt_one
  by_cases hpow : x = 2 ^ Int.log 2 |x|
  · rw [hp hpow, Real.sqrt_sq h0.le, f.rnd_rep hx]
  set e := Int.log 2 |x| with he
  set q := f.lastPlace x with hq
  set s := Real.sqrt y with hs
  have hs0 : 0 ≤ s := Real.sqrt_nonneg y
  have hs2 : s ^ 2 = y := Real.sq_sqrt hy0
  have hQ := two_zpow_pos q
  have h1 : (2 : ℝ) ^ e < x := by
    have := (log_le h0.ne').trans_eq (abs_of_pos h0)
    exact lt_of_le_of_ne this (fun h => hpow h.symm)
  have h2 : x < (2 : ℝ) ^ (e + 1) := (abs_of_pos h0).symm.trans_lt (lt_log x)
  obtain ⟨m, hm⟩ := f.rep_multiple hx
  rw [← hq] at hm
  have hmpos : 0 < m := by
    by_contra h
    have : (m : ℝ) ≤ 0 := by exact_mod_cast not_lt.1 h
    have := mul_nonpos_of_nonpos_of_nonneg this hQ.le
    linarith
  have hqe : q ≤ e := by
    have h3 : (2 : ℝ) ^ q ≤ x := by
      have : (1 : ℝ) ≤ m := by exact_mod_cast hmpos
      rw [hm]; nlinarith
    have := (zpow_lt_zpow_iff_right₀ (by norm_num : (1 : ℝ) < 2)).1 (lt_of_le_of_lt h3 h2)
    omega
  -- half a unit in the last place
  have hhalf : f.u * 2 ^ (e + 1) ≤ 2 ^ q := by
    have : f.u * 2 ^ (e + 1) = 2 ^ (e - f.prec + 1) := by
      rw [u, zpow_add₀ (by norm_num), zpow_add₀ (by norm_num), zpow_sub₀ (by norm_num), zpow_natCast, zpow_one]
      simp [div_eq_mul_inv]; ring
    rw [this]
    exact zpow_le_zpow_right₀ (by norm_num) (le_max_left _ _)
  have hxu : x ≤ 2 ^ (e + 1) * (1 - f.u) := by
    obtain ⟨k, hk, _⟩ := zpow_split (e + 1) q (by omega)
    have h4 : m < 2 ^ k := by
      have : (m : ℝ) * 2 ^ q < ((2 ^ k : ℤ) : ℝ) * 2 ^ q := by rw [← hk, ← hm]; exact h2
      exact_mod_cast lt_of_mul_lt_mul_right this hQ.le
    have h5 : (m : ℝ) ≤ ((2 ^ k : ℤ) : ℝ) - 1 := by
      have : m ≤ 2 ^ k - 1 := by omega
      exact_mod_cast this
    have h6 : x ≤ 2 ^ (e + 1) - 2 ^ q := by
      rw [hm, hk]; nlinarith
    nlinarith
  have hE := two_zpow_pos e
  have hE1 : (2 : ℝ) ^ (e + 1) = 2 ^ e * 2 := by rw [zpow_add₀ (by norm_num), zpow_one]
  have hs1 : x * (1 - f.u) ≤ s := by
    rw [hs]
    apply Real.le_sqrt_of_sq_le
    have h7 := (abs_le.1 hy).1
    have : (x * (1 - f.u)) ^ 2 ≤ x ^ 2 * (1 - f.u) := by
      have : 0 ≤ x ^ 2 * (f.u * (1 - f.u)) := by have := sub_pos.2 hu1; positivity
      nlinarith
    nlinarith
  have hclose : |s - x| < f.u * 2 ^ e := by
    have hd : |s - x| * (s + x) = |y - x ^ 2| := by
      rw [← abs_of_pos (by linarith : 0 < s + x), ← abs_mul, ← hs2]; congr 1; ring
    have h8 : |s - x| * (s + x) ≤ f.u * x ^ 2 := hd ▸ hy
    have h9 : x * (2 - f.u) ≤ s + x := by nlinarith
    have h10 : f.u * x ^ 2 < f.u * 2 ^ e * (s + x) := by
      have : f.u * x ^ 2 < f.u * 2 ^ e * (x * (2 - f.u)) := by
        have h11 : x < 2 ^ e * (2 - f.u) := by
          rw [hE1] at hxu
          nlinarith
        have : 0 < f.u * x := mul_pos hu h0
        nlinarith
      have : f.u * 2 ^ e * (x * (2 - f.u)) ≤ f.u * 2 ^ e * (s + x) := mul_le_mul_of_nonneg_left h9 (by positivity)
      linarith
    exact lt_of_mul_lt_mul_right (h8.trans_lt h10) (by linarith)
  have hnear := f.rnd_nearest s hx
  have hdist : |f.rnd s - x| < 2 ^ q := by
    have h12 : |f.rnd s - x| ≤ |f.rnd s - s| + |s - x| := abs_sub_le _ _ _
    have h13 : |x - s| = |s - x| := abs_sub_comm _ _
    rw [hE1] at hhalf
    linarith
  rcases f.rep_dichotomy (x := x) (f.rep_rnd s) with ⟨k, hk⟩ | ⟨⟨k, hk⟩, h14⟩
  · rw [← hq] at hk
    rw [hk, hm, ← sub_mul, abs_mul, abs_of_pos hQ] at hdist
    have h15 : |(k : ℝ) - m| < 1 := by
      by_contra h
      have := mul_le_mul_of_nonneg_right (not_lt.1 h) hQ.le
      linarith
    have h16 : |k - m| < 1 := by exact_mod_cast h15
    have : k = m := by have := abs_lt.1 h16; omega
    rw [hk, this, ← hm]
  · exfalso
    rw [← hq, ← he] at hk
    rw [← he] at h14
    have h17 : k < m := by
      have : (k : ℝ) * 2 ^ q < m * 2 ^ q := by rw [← hk, ← hm]; exact h1
      exact_mod_cast lt_of_mul_lt_mul_right this hQ.le
    have h18 : (k : ℝ) + 1 ≤ m := by exact_mod_cast h17
    have h19 : (2 : ℝ) ^ e + 2 ^ q ≤ x := by rw [hk, hm]; nlinarith
    have h20 := (abs_lt.1 hdist).1
    have h21 := le_abs_self (f.rnd s)
    linarith

/-- Square, round, square root, round: the magnitude, unless the square underflows. -/
theorem rnd_sqrt_sq {x : ℝ} (hx : f.Rep x) (h : x = 0 ∨ f.minPos ≤ x ^ 2) : f.rnd (Real.sqrt (f.rnd (x * x))) = |x| := by
  have key : ∀ {x : ℝ}, f.Rep x → (x = 0 ∨ f.minPos ≤ x ^ 2) → 0 ≤ x → f.rnd (Real.sqrt (f.rnd (x * x))) = x := by
    intro x hx h h0
    rcases eq_or_lt_of_le h0 with rfl | h0
    · simp
    have hmin : f.minPos ≤ x ^ 2 := h.resolve_left h0.ne'
    refine f.rnd_sqrt hx h0 (f.rnd_nonneg (mul_self_nonneg x)) ?_ fun hp => ?_
    · have := f.rnd_normal (x := x ^ 2) (.inr (by rwa [abs_of_nonneg (sq_nonneg x)]))
      rw [← sq]
      rwa [abs_of_nonneg (sq_nonneg x)] at this
    · rw [sq]
      apply f.rnd_rep
      refine ⟨1, 2 * Int.log 2 |x|, ?_, ?_, ?_⟩
      · have e : x ^ 2 = 2 ^ (2 * Int.log 2 |x|) := by
          rw [two_mul, zpow_add₀ (by norm_num), ← hp, sq]
        rw [e, minPos] at hmin
        have := (zpow_le_zpow_iff_right₀ (by norm_num : (1 : ℝ) < 2)).1 hmin
        have := f.prec_pos
        omega
      · rw [abs_one]; exact one_lt_pow₀ (by norm_num) f.prec_pos.ne'
      · rw [two_mul, zpow_add₀ (by norm_num), ← hp]; simp
  rcases le_total 0 x with h0 | h0
  · rw [abs_of_nonneg h0]; exact key hx h h0
  · rw [abs_of_nonpos h0, ← neg_mul_neg]
    exact key hx.neg (by simpa using h) (by linarith)

end FloatFormat

namespace Fl
variable {f : FloatFormat}

theorem nonneg_of_sign {a : Fl f} (h : a.sign = false) : 0 ≤ a.ext := by
  cases a with
  | nan => exact le_rfl
  | inf s => simp only [sign] at h; subst h; exact le_top
  | negZero => exact le_rfl
  | fin x r hx =>
    simp only [sign, decide_eq_false_iff_not, not_lt] at h
    rw [ext_of_finite (show (fin x r hx : Fl f).IsFinite from trivial)]
    exact_mod_cast h

theorem sign_abs (a : Fl f) : a.abs.sign = false := by
  unfold Fl.abs
  by_cases h : a.sign = true
  · rw [if_pos h]
    cases a with
    | nan => cases h
    | inf s => simp only [sign] at h; subst h; rfl
    | negZero => simp [neg, sign]
    | fin x r hx =>
      have hx : x < 0 := by simpa [sign] using h
      rw [neg, if_neg hx.ne, sign, decide_eq_false_iff_not]; linarith
  · rw [if_neg h]; simpa using h

theorem abs_nan : (nan : Fl f).abs = nan := rfl
theorem abs_inf (s : Bool) : (inf s : Fl f).abs = inf false := by cases s <;> rfl
theorem abs_eq_nan {a : Fl f} : a.abs = nan ↔ a = nan := by
  cases a with
  | nan => simp [abs_nan]
  | inf s => simp [abs_inf]
  | negZero => simp [Fl.abs, sign, neg]
  | fin x r hx =>
    unfold Fl.abs neg
    split
    · simp only; split <;> simp
    · simp
theorem finite_abs {a : Fl f} : a.abs.IsFinite ↔ a.IsFinite := by
  unfold Fl.abs; split
  · exact finite_neg
  · rfl
theorem val_abs {a : Fl f} : a.abs.val = |a.val| := by
  unfold Fl.abs
  split
  · rename_i h
    rw [val_neg]
    cases a with
    | nan => simp [val]
    | inf s => simp [val]
    | negZero => simp [val]
    | fin x r hx => simp only [sign, decide_eq_true_eq] at h; simp only [val]; rw [abs_of_neg h]
  · rename_i h
    cases a with
    | nan => simp [val]
    | inf s => simp [val]
    | negZero => simp [val]
    | fin x r hx => simp only [sign, decide_eq_true_eq, not_lt] at h; simp only [val]; rw [abs_of_nonneg h]

/-- Squares do not depend on the sign. -/
theorem abs_mul_abs (a : Fl f) : a.abs.mul a.abs = a.mul a := by
  by_cases h : a.IsFinite
  · rw [mul_of_finite (finite_abs.2 h) (finite_abs.2 h), mul_of_finite h h, val_abs, abs_mul_abs_self]
    simp
  · cases a with
    | nan => rfl
    | inf s => cases s <;> rfl
    | _ => exact absurd trivial h

theorem sqrt_mono {a b : Fl f} (h : Between a b) : Between a.sqrt b.sqrt := by
  rcases h with rfl | rfl | ⟨h0, h1⟩
  · exact .inl rfl
  · exact .inr (.inl rfl)
  have fin : ∀ {x : Fl f}, x ≠ nan → 0 ≤ x.ext → x = inf false ∨ x.IsFinite ∧ 0 ≤ x.val ∧ x.sqrt.ext = (round false (Real.sqrt x.val) : Fl f).ext := by
    intro x hn h0
    by_cases hf : x.IsFinite
    · rw [ext_of_finite hf] at h0
      have h0 : 0 ≤ x.val := by exact_mod_cast h0
      refine .inr ⟨hf, h0, ?_⟩
      cases x with
      | fin x r hx => rw [sqrt, if_neg (show ¬ x < 0 from not_lt.2 h0)]; rfl
      | negZero =>
        have hz : (round false (Real.sqrt (negZero : Fl f).val) : Fl f).IsFinite := by
          rw [round_finite_iff]; simp only [val, Real.sqrt_zero, f.rnd_zero, abs_zero]
          exact (by positivity : (0:ℝ) ≤ 2 ^ f.prec).trans f.pow_le_max
        rw [ext_of_finite hz, val_round hz]
        simp [sqrt, ext, val]
      | _ => exact hf.elim
    · cases x with
      | nan => exact absurd rfl hn
      | inf s => cases s
                 · exact .inl rfl
                 · exact absurd h0 (by simp [ext])
      | _ => exact absurd trivial hf
  by_cases na : a = nan
  · subst na; exact .inl rfl
  by_cases nb : b = nan
  · subst nb; exact .inr (.inl rfl)
  rcases fin nb (h0.trans h1) with rfl | ⟨fb, hb, eb⟩
  · refine .inr (.inr ⟨?_, le_top⟩)
    rcases fin na h0 with rfl | ⟨fa, ha, ea⟩
    · exact le_top
    · rw [ea]; exact nonneg_round (Real.sqrt_nonneg _) _
  · rcases fin na h0 with rfl | ⟨fa, ha, ea⟩
    · rw [ext_of_finite fb] at h1
      exact absurd h1 (by simp [ext])
    · refine .inr (.inr ?_)
      rw [ea, eb]
      rw [ext_of_finite fa, ext_of_finite fb, EReal.coe_le_coe_iff] at h1
      exact ⟨nonneg_round (Real.sqrt_nonneg _) _, ext_round_mono (Real.sqrt_le_sqrt h1) _ _⟩

/-- The square root of something without sign has no sign and is NaN only for NaN. -/
theorem sqrt_sign {a : Fl f} (h : a.sign = false) : a.sqrt.sign = false ∧ (a.sqrt = nan ↔ a = nan) := by
  cases a with
  | nan => exact ⟨rfl, by simp [sqrt]⟩
  | inf s => simp only [sign] at h; subst h; simp [sqrt, sign]
  | negZero => simp [sign] at h
  | fin x r hx =>
    simp only [sign, decide_eq_false_iff_not] at h
    rw [sqrt, if_neg h]
    obtain ⟨e1, e2⟩ := sign_round (f := f) (s := false) (Real.sqrt_nonneg x) (fun _ => rfl)
    exact ⟨e1, by simp [e2]⟩

/-- Square and square root give back the magnitude. -/
theorem sqrt_square {a : Fl f} (hf : a.IsFinite) (h : a.val = 0 ∨ f.minPos ≤ a.val ^ 2) (ho : (a.mul a).IsFinite) :
    (a.mul a).sqrt = a.abs := by
  obtain ⟨_, _, hv⟩ := finite_mul ho
  have hs := (sign_mul_self a).1
  have key : ∀ b c : Fl f, b.IsFinite → c.IsFinite → b.sign = false → c.sign = false → b.val = c.val → b = c := by
    intro b c hb hc h1 h2 h3
    cases b <;> cases c <;> first | exact hb.elim | exact hc.elim | cases h1 | cases h2 | skip
    cases h3; rfl
  have hsq : (a.mul a).sqrt = round false (Real.sqrt (a.mul a).val) := by
    generalize a.mul a = b at *
    cases b with
    | nan => exact ho.elim
    | inf => exact ho.elim
    | negZero => simp [sign] at hs
    | fin x r hx => simp only [sign, decide_eq_false_iff_not] at hs; rw [sqrt, if_neg hs]; rfl
  have hr : f.rnd (Real.sqrt (a.mul a).val) = |a.val| := by rw [hv]; exact f.rnd_sqrt_sq a.rep_val h
  have hfin : (a.mul a).sqrt.IsFinite := by rw [hsq, round_finite_iff, hr, abs_abs]; exact a.abs_val_le
  refine key _ _ hfin (finite_abs.2 hf) (sqrt_sign hs).1 (sign_abs a) ?_
  rw [hsq] at hfin ⊢
  rw [val_round hfin, hr, val_abs]

end Fl

variable {f : FloatFormat} {n : Nat} (t : Target) {powi : Fl f → Int → Fl f}

theorem Fl.add_comm (a b : Fl f) : a.add b = b.add a := by
  cases a <;> cases b <;> simp only [Fl.add, Bool.and_comm, _root_.add_comm, Fl.val, Fl.sign]
  all_goals (split <;> split <;> simp_all)

/-- A sum of elements without sign is at least each of them. -/
theorem le_fold {ι : Type} (g : ι → Fl f) (hg : ∀ i, (g i).sign = false) (l : List ι) {x z : Fl f} (hx : x.sign = false)
    (hz : l.foldlM (fun acc i => (Ops.ieee f).add acc (g i)) x = .ok z) (hn : z ≠ .nan) :
    x.ext ≤ z.ext ∧ ∀ i ∈ l, (g i).ext ≤ z.ext := by
  induction l generalizing x with
  | nil => cases hz; exact ⟨le_rfl, by simp⟩
  | cons i l ih =>
    obtain ⟨h1, h2⟩ := sign_add hx (hg i)
    obtain ⟨z', e1, e2, e3⟩ := sign_fold g hg l h1
    rw [List.foldlM_cons] at hz
    have hz : l.foldlM (fun acc i => (Ops.ieee f).add acc (g i)) (x.add (g i)) = .ok z := hz
    rw [e1] at hz
    cases hz
    obtain ⟨h3, h4⟩ := ih h1 e1
    have hxi : x.add (g i) ≠ .nan := fun h => hn (e3.2 (.inl h))
    have h5 := Fl.le_add hxi (Fl.nonneg_of_sign (hg i))
    have h6 : (g i).ext ≤ (x.add (g i)).ext := by
      rw [Fl.add_comm] at hxi ⊢
      exact Fl.le_add hxi (Fl.nonneg_of_sign hx)
    refine ⟨h5.trans h3, fun j hj => ?_⟩
    rcases List.mem_cons.1 hj with rfl | hj
    · exact h6.trans h3
    · exact h4 j hj

theorem norm_eq (hp : ∀ x, powi x 2 = x.mul x) (v : Vec (Fl f) n) :
    v.norm (Ops.ieee f) Fl.sqrt powi = (v.dot (Ops.ieee f) v).map Fl.sqrt := by
  rw [Vec.norm, Vec.dot, Vec.zip_eq, mulFold, List.foldlM_map, Vec.toList_eq, List.foldlM_map, List.foldlM_map]
  simp only [hp]
  rfl

/-- C99, `norm` (with `powi(x, 2)` the rounded square): it always returns, is NaN exactly if an element is, never negative and
never `-0`, and `+∞` if an element is infinite and none is NaN. -/
theorem C99_norm (hp : ∀ x, powi x 2 = x.mul x) (v : Vec (Fl f) n) :
    ∃ z, v.norm (Ops.ieee f) Fl.sqrt powi = .ok z ∧ z.sign = false ∧ (z = .nan ↔ ∃ i, v.get i = .nan) ∧
      ((∃ i s, v.get i = .inf s) → (∀ i, v.get i ≠ .nan) → z = .inf false) := by
  obtain ⟨d, h1, h2, h3⟩ := C89_dot_self v
  refine ⟨d.sqrt, by rw [norm_eq hp, h1]; rfl, (Fl.sqrt_sign h2).1, by rw [(Fl.sqrt_sign h2).2, h3], ?_⟩
  rintro ⟨i, s, hi⟩ hn
  have hd : d ≠ .nan := fun h => by obtain ⟨i, h⟩ := h3.1 h; exact hn i h
  rw [Vec.dot, Vec.zip_eq, mulFold, List.foldlM_map] at h1
  have h4 := (le_fold (fun i => (v.get i).mul (v.get i)) (fun i => (sign_mul_self _).1) _
    (by simp [Ops.ieee, Fl.ofInt, Fl.sign]) h1 hd).2 i (List.mem_finRange i)
  simp only [hi, Fl.mul, Bool.xor_self] at h4
  have : d = .inf false := by
    by_contra h
    exact absurd (Fl.ext_lt_top h) (not_lt.2 h4)
  rw [this]; rfl

/-- C99: `norm` sees only the magnitudes of the elements, bit for bit, ... -/
theorem C99_norm_signs (hp : ∀ x, powi x 2 = x.mul x) (v v' : Vec (Fl f) n) (h : ∀ i, (v'.get i).abs = (v.get i).abs) :
    v'.norm (Ops.ieee f) Fl.sqrt powi = v.norm (Ops.ieee f) Fl.sqrt powi := by
  rw [norm_eq hp, norm_eq hp, Vec.dot, Vec.dot, Vec.zip_eq, Vec.zip_eq, mulFold, mulFold, List.foldlM_map, List.foldlM_map]
  have : ∀ i, (v'.get i).mul (v'.get i) = (v.get i).mul (v.get i) := fun i => by
    rw [← Fl.abs_mul_abs, h, Fl.abs_mul_abs]
  simp only [Ops.ieee, this]

/-- C99: ... and is monotone in them. -/
theorem C99_norm_monotone (hp : ∀ x, powi x 2 = x.mul x) (v v' : Vec (Fl f) n) (h : ∀ i, (v.get i).abs.Le (v'.get i).abs) :
    Returns Fl.Le (v.norm (Ops.ieee f) Fl.sqrt powi) (v'.norm (Ops.ieee f) Fl.sqrt powi) := by
  have hb : ∀ i, Fl.Between ((v.get i).mul (v.get i)) ((v'.get i).mul (v'.get i)) := fun i => by
    rw [← Fl.abs_mul_abs, ← Fl.abs_mul_abs (v'.get i)]
    have : Fl.Between (v.get i).abs (v'.get i).abs := (h i).imp id (Or.imp id fun h => ⟨Fl.nonneg_of_sign (Fl.sign_abs _), h⟩)
    exact this.mul this
  obtain ⟨d, d', h1, h2, h3⟩ := fold_dot Fl.between_zero Fl.Between.add v v v' v' hb
  rw [norm_eq hp, norm_eq hp, h1, h2]
  refine ⟨_, _, rfl, rfl, ?_⟩
  exact (Fl.sqrt_mono h3).imp id (Or.imp id And.right)

/-- C99: the sum of elements that are not negative is at least each of them. -/
theorem C99_sum_ge (v : Vec (Fl f) n) (h : ∀ i, (v.get i).sign = false) :
    ∃ z, v.sum (Ops.ieee f) = .ok z ∧ ∀ i, (v.get i).Le z := by
  obtain ⟨z, h1, _⟩ := C89_sum_nonneg v h
  refine ⟨z, h1, fun i => ?_⟩
  by_cases hn : z = .nan
  · exact .inr (.inl hn)
  · rw [Vec.sum, Vec.toList_eq, List.foldlM_map] at h1
    exact .inr (.inr ((le_fold v.get h _ (by simp [Ops.ieee, Fl.ofInt, Fl.sign]) h1 hn).2 i (List.mem_finRange i)))

/-- C99: `norm` is at least the magnitude of each element whose square does not underflow. -/
theorem C99_norm_ge (hp : ∀ x, powi x 2 = x.mul x) (v : Vec (Fl f) n) :
    ∃ z, v.norm (Ops.ieee f) Fl.sqrt powi = .ok z ∧
      ∀ i, ((v.get i).IsFinite → (v.get i).val = 0 ∨ f.minPos ≤ (v.get i).val ^ 2) → (v.get i).abs.Le z := by
  obtain ⟨d, h1, h2, h3⟩ := C89_dot_self v
  refine ⟨d.sqrt, by rw [norm_eq hp, h1]; rfl, fun i hi => ?_⟩
  by_cases hd : d = .nan
  · subst hd; exact .inr (.inl rfl)
  rw [Vec.dot, Vec.zip_eq, mulFold, List.foldlM_map] at h1
  have h4 := (le_fold (fun i => (v.get i).mul (v.get i)) (fun i => (sign_mul_self _).1) _
    (by simp [Ops.ieee, Fl.ofInt, Fl.sign]) h1 hd).2 i (List.mem_finRange i)
  have h5 : Fl.Between ((v.get i).mul (v.get i)).sqrt d.sqrt :=
    Fl.sqrt_mono (.inr (.inr ⟨Fl.nonneg_of_sign (sign_mul_self _).1, h4⟩))
  by_cases hf : (v.get i).IsFinite
  · by_cases ho : ((v.get i).mul (v.get i)).IsFinite
    · rw [Fl.sqrt_square hf (hi hf) ho] at h5
      exact h5.imp id (Or.imp id And.right)
    · have hs := (sign_mul_self (v.get i))
      have : (v.get i).mul (v.get i) = .inf false := by
        generalize hq : (v.get i).mul (v.get i) = q at *
        cases q with
        | nan => rw [hs.2.1 rfl] at hf; exact hf.elim
        | inf s => have := hs.1; simp only [Fl.sign] at this; rw [this]
        | _ => exact absurd trivial ho
      rw [this] at h5 h4
      rcases h5 with h5 | h5 | h5
      · simp [Fl.sqrt] at h5
      · exact .inr (.inl h5)
      · exact .inr (.inr (le_trans le_top h5.2))
  · generalize v.get i = x at *
    cases x with
    | nan => exact .inl rfl
    | inf s =>
      rw [show (Fl.inf s : Fl f).mul (.inf s) = .inf false by simp [Fl.mul]] at h5
      rcases h5 with h5 | h5 | h5
      · simp [Fl.sqrt] at h5
      · exact .inr (.inl h5)
      · exact .inr (.inr (le_trans le_top h5.2))
    | _ => exact absurd trivial hf

/-- The zero that sums start from is neutral for values without sign. -/
theorem Fl.add_zero_right {a b : Fl f} (ha : a.sign = false) (hb : b.isZero = true) (hs : b.sign = false) : a.add b = a := by
  rw [Fl.isZero_iff] at hb
  cases a with
  | nan => exact Fl.nan_add b
  | inf s => exact Fl.inf_add hb.1
  | negZero => simp [Fl.sign] at ha
  | fin x r hx =>
    have hx0 : ¬ x < 0 := by simpa [Fl.sign] using ha
    rw [Fl.add_of_finite (show (Fl.fin x r hx : Fl f).IsFinite from trivial) hb.1, hb.2, add_zero, hs, Bool.and_false]
    change Fl.round false x = _
    unfold Fl.round
    have e := f.rnd_rep r
    rw [dif_pos (by rwa [e]), if_neg (by simp [hx0])]
    congr 1

/-- C99: `norm` of a vector with at most one element that is not zero is the magnitude of that element, bit for bit, unless
its square overflows or underflows. -/
theorem C99_norm_single (hp : ∀ x, powi x 2 = x.mul x) (v : Vec (Fl f) n) (i : Fin n) (h0 : ∀ j, j ≠ i → (v.get j).isZero = true)
    (hf : (v.get i).IsFinite) (ho : |f.rnd ((v.get i).val ^ 2)| ≤ f.max) (hu : (v.get i).val = 0 ∨ f.minPos ≤ (v.get i).val ^ 2) :
    v.norm (Ops.ieee f) Fl.sqrt powi = .ok (v.get i).abs := by
  have hfin : ((v.get i).mul (v.get i)).IsFinite := by
    rw [Fl.mul_of_finite hf hf, Fl.round_finite_iff, ← sq]; exact ho
  have hz : ∀ {x : Fl f}, x.isZero = true → (x.mul x).isZero = true := by
    intro x hx
    rw [Fl.isZero_iff] at hx
    have : (x.mul x).IsFinite := by
      rw [Fl.mul_of_finite hx.1 hx.1, Fl.round_finite_iff, hx.2, mul_zero, f.rnd_zero, abs_zero]
      exact (by positivity : (0:ℝ) ≤ 2 ^ f.prec).trans f.pow_le_max
    rw [Fl.isZero_iff]
    exact ⟨this, by rw [(Fl.finite_mul this).2.2, hx.2, mul_zero, f.rnd_zero]⟩
  have hfold : ∀ l : List (Fin n), l.Nodup → (i ∉ l → ∀ x : Fl f, x.sign = false →
        l.foldlM (fun acc i => (Ops.ieee f).add acc ((v.get i).mul (v.get i))) x = .ok x) ∧
      (i ∈ l → l.foldlM (fun acc i => (Ops.ieee f).add acc ((v.get i).mul (v.get i))) (Ops.ieee f).zero =
        .ok ((v.get i).mul (v.get i))) := by
    intro l hl
    have zs : ((Ops.ieee f).zero).sign = false := by simp [Ops.ieee, Fl.ofInt, Fl.sign]
    have zz : ((Ops.ieee f).zero).isZero = true := by simp [Ops.ieee, Fl.ofInt, Fl.isZero]
    induction l with
    | nil => exact ⟨fun _ _ _ => rfl, by simp⟩
    | cons j l ih =>
      obtain ⟨hj, hl⟩ := List.nodup_cons.1 hl
      obtain ⟨ih1, ih2⟩ := ih hl
      refine ⟨fun hi x hx => ?_, fun hi => ?_⟩
      · obtain ⟨h1, h2⟩ := not_or.1 (fun h => hi (List.mem_cons.2 h))
        rw [List.foldlM_cons]
        change List.foldlM _ (x.add _) l = _
        rw [Fl.add_zero_right hx (hz (h0 j (Ne.symm h1))) (sign_mul_self _).1]
        exact ih1 h2 x hx
      · rw [List.foldlM_cons]
        change List.foldlM _ (Fl.add _ _) l = _
        by_cases hij : i = j
        · subst hij
          rw [Fl.add_comm, Fl.add_zero_right (sign_mul_self _).1 zz zs]
          exact ih1 hj _ (sign_mul_self _).1
        · rw [Fl.add_zero_right zs (hz (h0 j (Ne.symm hij))) (sign_mul_self _).1]
          exact ih2 ((List.mem_cons.1 hi).resolve_left hij)
  have hd : v.dot (Ops.ieee f) v = .ok ((v.get i).mul (v.get i)) := by
    rw [Vec.dot, Vec.zip_eq, mulFold, List.foldlM_map]
    exact (hfold _ (List.nodup_finRange n)).2 (List.mem_finRange i)
  rw [norm_eq hp, hd]
  exact congrArg Except.ok (Fl.sqrt_square hf hu hfin)

theorem normalized_ok (v : Vec (Fl f) n) {z : Fl f} (hz : v.norm (Ops.ieee f) Fl.sqrt powi = .ok z) :
    ∃ w, v.normalized t (Ops.ieee f) Fl.sqrt powi = .ok w ∧ ∀ i, w.get i = (v.get i).div z := by
  refine ⟨Vec.ofFn fun i => (v.get i).div z, ?_, fun i => by rw [Vec.get_ofFn]⟩
  rw [Vec.normalized, Vec.clone_ok, hz]
  simp only [res_ok_bind]
  refine (C19_vec_ok t (Ops.ieee f).div (Ops.ieee f).neg v z _).2.1.2 fun i => ?_
  rw [Vec.get_ofFn]; rfl

theorem Fl.sign_round' {s : Bool} {x : ℝ} (h0 : x ≠ 0) : (Fl.round s x : Fl f).sign = decide (x < 0) := by
  unfold Fl.round
  split
  · split
    · rename_i h
      have : x < 0 := by
        rcases h.2 with h | h
        · exact h
        · exact absurd h.1 h0
      simp [Fl.sign, this]
    · rename_i h
      simp only [Fl.sign, decide_eq_decide]
      constructor
      · intro hr
        by_contra hx
        have := f.rnd_nonneg (not_lt.1 hx)
        linarith
      · intro hx
        have h1 := f.rnd_mono hx.le
        rw [f.rnd_zero] at h1
        refine lt_of_le_of_ne h1 fun h2 => h ⟨h2, .inl hx⟩
  · rfl

/-- C99, `normalized`: if no square underflows and the norm is a positive finite number, all components of the result are
finite, at most 1 in magnitude, and have the signs of the elements. -/
theorem C99_normalized (hp : ∀ x, powi x 2 = x.mul x) (v : Vec (Fl f) n)
    (hu : ∀ i, (v.get i).val = 0 ∨ f.minPos ≤ (v.get i).val ^ 2) {z : Fl f} (hz : v.norm (Ops.ieee f) Fl.sqrt powi = .ok z)
    (hf : z.IsFinite) (h0 : z.val ≠ 0) :
    ∃ w, v.normalized t (Ops.ieee f) Fl.sqrt powi = .ok w ∧
      ∀ i, (w.get i).IsFinite ∧ |(w.get i).val| ≤ 1 ∧ (w.get i).sign = (v.get i).sign := by
  obtain ⟨w, hw, hwi⟩ := normalized_ok t v hz
  obtain ⟨z', e1, hge⟩ := C99_norm_ge hp v
  obtain ⟨z'', e2, hs, hnan, _⟩ := C99_norm hp v
  rw [hz] at e1 e2
  cases e1; cases e2
  refine ⟨w, hw, fun i => ?_⟩
  have hn : v.get i ≠ .nan := fun h => by rw [hnan.2 ⟨i, h⟩] at hf; exact hf
  have hle := ((hge i fun _ => hu i).resolve_left (fun h => hn (Fl.abs_eq_nan.1 h))).resolve_left (by rintro rfl; exact hf)
  have hz0 : 0 ≤ z.val := by
    have := Fl.nonneg_of_sign hs
    rw [Fl.ext_of_finite hf] at this
    exact_mod_cast this
  have hzpos : 0 < z.val := lt_of_le_of_ne hz0 (Ne.symm h0)
  have hfi : (v.get i).IsFinite := by
    rw [← Fl.finite_abs]
    rw [Fl.ext_of_finite hf] at hle
    refine Fl.finite_of_ext (fun h => hn (Fl.abs_eq_nan.1 h)) (hle.trans_lt (EReal.coe_lt_top _)).ne fun h => ?_
    have := Fl.nonneg_of_sign (Fl.sign_abs (v.get i))
    rw [h] at this
    exact absurd this (by simp)
  rw [Fl.ext_of_finite hf, Fl.ext_of_finite (Fl.finite_abs.2 hfi), EReal.coe_le_coe_iff, Fl.val_abs] at hle
  have hq : |(v.get i).val / z.val| ≤ 1 := by
    rw [abs_div, abs_of_pos hzpos]; exact (div_le_one hzpos).2 hle
  have hr : |f.rnd ((v.get i).val / z.val)| ≤ 1 := by
    have r1 : f.rnd 1 = 1 := by
      have := ((Ops.ieee f).one).rep_val
      have h1 : ((Ops.ieee f).one).val = 1 := by simp [Ops.ieee, Fl.ofInt, Fl.val]
      rw [h1] at this
      exact f.rnd_rep this
    rw [abs_le] at hq ⊢
    have h1 := f.rnd_mono hq.1
    have h2 := f.rnd_mono hq.2
    rw [f.rnd_neg, r1] at h1
    rw [r1] at h2
    exact ⟨h1, h2⟩
  have h1m : (1 : ℝ) ≤ f.max := (one_le_pow₀ (by norm_num)).trans f.pow_le_max
  have hd := Fl.div_of_finite hfi hf h0
  rw [hwi, hd]
  have hfin : (Fl.round ((v.get i).sign ^^ z.sign) ((v.get i).val / z.val) : Fl f).IsFinite := by
    rw [Fl.round_finite_iff]; exact hr.trans h1m
  refine ⟨hfin, by rw [Fl.val_round hfin]; exact hr, ?_⟩
  by_cases hv0 : (v.get i).val = 0
  · rw [hv0, zero_div, hs, Bool.xor_false]
    unfold Fl.round
    rw [dif_pos (by rw [f.rnd_zero, abs_zero]; linarith)]
    split
    · rename_i h
      have := h.2.resolve_left (lt_irrefl _)
      rw [this.2]; rfl
    · rename_i h
      simp only [f.rnd_zero, lt_irrefl, true_and, false_or, Bool.not_eq_true] at h
      rw [h]; simp [Fl.sign]
  · rw [Fl.sign_round' (div_ne_zero hv0 h0), Fl.sign_of_ne hfi hv0, decide_eq_decide]
    constructor
    · intro h
      by_contra hc
      exact absurd h (not_lt.2 (div_nonneg (not_lt.1 hc) hz0))
    · exact fun h => div_neg_of_neg_of_pos h hzpos

/-- C99, `normalized` at the borders: NaN everywhere for the zero vector; with an infinite norm (overflow or an infinite
element) finite elements give zeros and infinite ones NaN. -/
theorem C99_normalized_special (hp : ∀ x, powi x 2 = x.mul x) (v : Vec (Fl f) n) :
    ((∀ i, (v.get i).isZero = true) → ∃ w, v.normalized t (Ops.ieee f) Fl.sqrt powi = .ok w ∧ ∀ i, w.get i = .nan) ∧
    (v.norm (Ops.ieee f) Fl.sqrt powi = .ok (.inf false) → ∃ w, v.normalized t (Ops.ieee f) Fl.sqrt powi = .ok w ∧
      ∀ i, ((v.get i).IsFinite → (w.get i).isZero = true ∧ (w.get i).sign = (v.get i).sign) ∧ (¬ (v.get i).IsFinite → w.get i = .nan)) := by
  have hmax : (0 : ℝ) ≤ f.max := (by positivity : (0:ℝ) ≤ 2 ^ f.prec).trans f.pow_le_max
  refine ⟨fun h => ?_, fun hz => ?_⟩
  · have hn : ∃ z, v.norm (Ops.ieee f) Fl.sqrt powi = .ok z ∧ ∀ _ : Fin n, z.isZero = true := by
      rcases Nat.eq_zero_or_pos n with rfl | hn
      · obtain ⟨z, hz, _⟩ := C99_norm hp v
        exact ⟨z, hz, fun i => i.elim0⟩
      · have hi := (Fl.isZero_iff _).1 (h ⟨0, hn⟩)
        refine ⟨_, C99_norm_single hp v ⟨0, hn⟩ (fun j _ => h j) hi.1 (by rw [hi.2]; simpa using hmax) (.inl hi.2), fun _ => ?_⟩
        rw [Fl.isZero_iff]
        exact ⟨Fl.finite_abs.2 hi.1, by rw [Fl.val_abs, hi.2, abs_zero]⟩
    obtain ⟨z, hz, h0⟩ := hn
    obtain ⟨w, hw, hwi⟩ := normalized_ok t v hz
    refine ⟨w, hw, fun i => ?_⟩
    rw [hwi]
    have h1 := (Fl.isZero_iff _).1 (h i)
    have h2 := (Fl.isZero_iff _).1 (h0 i)
    generalize v.get i = a at *
    cases a <;> cases z <;> first | exact h1.1.elim | exact h2.1.elim | skip
    all_goals (simp only [Fl.val] at h1 h2; simp [Fl.div, Fl.val, h1, h2])
  · obtain ⟨w, hw, hwi⟩ := normalized_ok t v hz
    refine ⟨w, hw, fun i => ⟨fun hf => ?_, fun hf => ?_⟩⟩
    · rw [hwi, Fl.div_inf hf, Bool.xor_false]
      have hfin : (Fl.round (v.get i).sign 0 : Fl f).IsFinite := by rw [Fl.round_finite_iff, f.rnd_zero, abs_zero]; exact hmax
      refine ⟨(Fl.isZero_iff _).2 ⟨hfin, by rw [Fl.val_round hfin, f.rnd_zero]⟩, ?_⟩
      unfold Fl.round
      rw [dif_pos (by rw [f.rnd_zero, abs_zero]; exact hmax)]
      split
      · rename_i h
        have := h.2.resolve_left (lt_irrefl _)
        rw [this.2]; rfl
      · rename_i h
        simp only [f.rnd_zero, lt_irrefl, true_and, false_or, Bool.not_eq_true] at h
        rw [h]; simp [Fl.sign]
    · rw [hwi]
      generalize v.get i = a at *
      cases a with
      | nan => rfl
      | inf s => rfl
      | _ => exact absurd trivial hf

/-- The rounded square root of a number has a small relative error; it does not underflow. -/
theorem FloatFormat.rnd_sqrt_error (hf : f.emin + 2 * f.prec ≤ 2) {d : ℝ} (hd : f.Rep d) (h0 : 0 ≤ d) :
    |f.rnd (Real.sqrt d) - Real.sqrt d| ≤ f.u * Real.sqrt d := by
  have hs := Real.sqrt_nonneg d
  have h : Real.sqrt d = 0 ∨ f.minPos ≤ |Real.sqrt d| := by
    rcases eq_or_lt_of_le h0 with rfl | hpos
    · left; simp
    · right
      rw [abs_of_nonneg hs]
      apply Real.le_sqrt_of_sq_le
      obtain ⟨m, e, he, _, rfl⟩ := hd
      have hm : 1 ≤ m := by
        by_contra hc
        have : (m : ℝ) ≤ 0 := by exact_mod_cast (by omega : m ≤ 0)
        have := mul_nonpos_of_nonpos_of_nonneg this (FloatFormat.two_zpow_pos e).le
        linarith
      have hm' : (1 : ℝ) ≤ m := by exact_mod_cast hm
      have h1 : (2 : ℝ) ^ e ≤ m * 2 ^ e := by have := FloatFormat.two_zpow_pos e; nlinarith
      refine le_trans ?_ h1
      rw [FloatFormat.minPos, sq, ← zpow_add₀ (by norm_num)]
      exact zpow_le_zpow_right₀ (by norm_num) (by omega)
  have := f.rnd_normal h
  rwa [abs_of_nonneg hs] at this

/-- C87, `norm`: within the bounds of the dot product (and one rounding of the square root), whenever it is finite; it is
finite if the bound on the sum of squares does not exceed the largest number.  The condition on the format holds for `f32` and
`f64`. -/
theorem C87_norm (hf : f.emin + 2 * f.prec ≤ 2) (hp : ∀ x, powi x 2 = x.mul x) (v : Vec (Fl f) n) :
    ∃ z, v.norm (Ops.ieee f) Fl.sqrt powi = .ok z ∧
      (z.IsFinite →
        (1 - f.u) * Real.sqrt ((1 - ((1 + f.u) ^ (n + 1) - 1)) * ∑ i, (v.get i).val ^ 2 - (1 + f.u) ^ (n + 1) * (n * f.eta)) ≤ z.val ∧
        z.val ≤ (1 + f.u) * Real.sqrt ((1 + f.u) ^ (n + 1) * (∑ i, (v.get i).val ^ 2 + n * f.eta))) ∧
      ((∀ i, (v.get i).IsFinite) → (1 + f.u) ^ (n + 1) * (∑ i, (v.get i).val ^ 2 + n * f.eta) ≤ f.max → z.IsFinite) := by
  obtain ⟨d, h1, h2, h3⟩ := C87_dot v v
  obtain ⟨d', h1', hs, _⟩ := C89_dot_self v
  rw [h1] at h1'
  cases h1'
  have hfin : d.sqrt.IsFinite ↔ d.IsFinite := by
    cases d with
    | nan => rfl
    | inf s => simp only [Fl.sign] at hs; subst hs; rfl
    | negZero => rfl
    | fin x r hx =>
      simp only [Fl.sign, decide_eq_false_iff_not, not_lt] at hs
      rw [Fl.sqrt, if_neg (not_lt.2 hs), Fl.round_finite_iff]
      refine iff_of_true ?_ trivial
      apply f.rnd_le_max
      rw [abs_of_nonneg (Real.sqrt_nonneg x)]
      have h1m : (1 : ℝ) ≤ f.max := (one_le_pow₀ (by norm_num)).trans f.pow_le_max
      rw [abs_of_nonneg hs] at hx
      exact Real.sqrt_le_iff.2 ⟨by linarith, by nlinarith⟩
  refine ⟨d.sqrt, by rw [norm_eq hp, h1]; rfl, fun hz => ?_, fun hv hm => ?_⟩
  · have hd := hfin.1 hz
    have hd0 : 0 ≤ d.val := by
      have := Fl.nonneg_of_sign hs
      rw [Fl.ext_of_finite hd] at this
      exact_mod_cast this
    have hval : d.sqrt.val = f.rnd (Real.sqrt d.val) := by
      cases d with
      | nan => exact hd.elim
      | inf s => exact hd.elim
      | negZero => simp [Fl.sqrt, Fl.val]
      | fin x r hx =>
        rw [Fl.sqrt, if_neg (show ¬ x < 0 from not_lt.2 hd0)] at hz ⊢
        exact Fl.val_round hz
    have he := f.rnd_sqrt_error hf d.rep_val hd0
    have hb := h2 hd
    simp only [← sq] at hb
    have hb' : |d.val - ∑ i, (v.get i).val ^ 2| ≤ ((1 + f.u) ^ (n + 1) - 1) * ∑ i, (v.get i).val ^ 2 + (1 + f.u) ^ (n + 1) * (n * f.eta) := by
      simpa only [sq_abs] using hb
    rw [abs_le] at he hb'
    have hu := f.u_pos
    have hu1 := f.u_lt_one
    rw [hval]
    constructor
    · refine le_trans (mul_le_mul_of_nonneg_left (Real.sqrt_le_sqrt ?_) (by linarith)) (by linarith [he.1] : (1 - f.u) * Real.sqrt d.val ≤ _)
      linarith [hb'.1]
    · refine le_trans (by linarith [he.2] : f.rnd (Real.sqrt d.val) ≤ (1 + f.u) * Real.sqrt d.val)
        (mul_le_mul_of_nonneg_left (Real.sqrt_le_sqrt ?_) (by linarith))
      linarith [hb'.2]
  · refine hfin.2 (h3 (fun i => ⟨hv i, hv i⟩) ?_)
    simpa only [← sq, sq_abs] using hm

/-- C99: the limits of the straightforward formula, for `f32` and `f64`: in every dimension there are vectors of finite numbers
whose norm is infinite, and vectors that are not zero whose norm is zero (so that `normalized` divides by zero). -/
theorem C99_norm_limits (hf : f.emin < 0) (hp : ∀ x, powi x 2 = x.mul x) (n : Nat) :
    (∃ v : Vec (Fl f) (n + 1), (∀ i, (v.get i).IsFinite) ∧ v.norm (Ops.ieee f) Fl.sqrt powi = .ok (.inf false)) ∧
    (∃ (v : Vec (Fl f) (n + 1)) (z : Fl f), (∀ i, (v.get i).IsFinite ∧ (v.get i).val ≠ 0) ∧
      v.norm (Ops.ieee f) Fl.sqrt powi = .ok z ∧ z.isZero = true) := by
  have hmax : (2 : ℝ) ^ f.emax ≤ f.max ∧ f.max < 2 ^ (f.emax + 1) := by
    have hP := FloatFormat.two_zpow_pos (f.emax - f.prec + 1)
    obtain ⟨p, hp⟩ : ∃ p, f.prec = p + 1 := ⟨f.prec - 1, by have := f.prec_pos; omega⟩
    have e1 : (2 : ℝ) ^ f.emax = 2 ^ p * 2 ^ (f.emax - f.prec + 1) := by
      rw [← zpow_natCast, ← zpow_add₀ (by norm_num)]; congr 1; rw [hp]; push_cast; ring
    have e2 : (2 : ℝ) ^ (f.emax + 1) = 2 ^ f.prec * 2 ^ (f.emax - f.prec + 1) := by
      rw [← zpow_natCast, ← zpow_add₀ (by norm_num)]; congr 1; ring
    have hp1 : (1 : ℝ) ≤ 2 ^ p := one_le_pow₀ (by norm_num)
    rw [FloatFormat.max, e1, e2]
    refine ⟨mul_le_mul_of_nonneg_right ?_ hP.le, by nlinarith⟩
    rw [hp, pow_succ]; linarith
  have hemax : 1 ≤ f.emax := by have := f.prec_pos; have := f.prec_le; omega
  have one : ∀ e : ℤ, f.emin ≤ e → f.Rep (2 ^ e) := fun e he =>
    ⟨1, e, he, by rw [abs_one]; exact one_lt_pow₀ (by norm_num) f.prec_pos.ne', by simp⟩
  refine ⟨?_, ?_⟩
  · let M : Fl f := .fin (2 ^ f.emax) (one _ (by have := f.emin_le; omega)) (by rw [abs_of_pos (FloatFormat.two_zpow_pos _)]; exact hmax.1)
    have hM : M.mul M = .inf false := by
      change Fl.round _ (M.val * M.val) = _
      have hv : M.val * M.val = 2 ^ (f.emax + f.emax) := (zpow_add₀ (by norm_num) _ _).symm
      have hp := FloatFormat.two_zpow_pos (f.emax + f.emax)
      rw [hv, Fl.round, dif_neg, decide_eq_false (not_lt.2 hp.le)]
      rw [f.rnd_rep (one _ (by have := f.emin_le; omega)), abs_of_pos hp, not_le]
      exact hmax.2.trans_le (zpow_le_zpow_right₀ (by norm_num) (by omega))
    refine ⟨Vec.ofFn fun _ => M, fun i => by rw [Vec.get_ofFn]; trivial, ?_⟩
    obtain ⟨d, h1, h2, h3⟩ := C89_dot_self (Vec.ofFn fun _ : Fin (n + 1) => M)
    rw [norm_eq hp, h1]
    have hd : d ≠ .nan := fun h => by
      obtain ⟨i, hi⟩ := h3.1 h
      rw [Vec.get_ofFn] at hi
      have hMf : M.IsFinite := trivial
      rw [hi] at hMf; exact hMf
    rw [Vec.dot, Vec.zip_eq, mulFold, List.foldlM_map] at h1
    have h4 := (le_fold (fun i => ((Vec.ofFn fun _ : Fin (n + 1) => M).get i).mul ((Vec.ofFn fun _ : Fin (n + 1) => M).get i))
      (fun i => (sign_mul_self _).1) _ (by simp [Ops.ieee, Fl.ofInt, Fl.sign]) h1 hd).2 0 (List.mem_finRange 0)
    rw [Vec.get_ofFn, hM] at h4
    have : d = .inf false := by
      by_contra h
      exact absurd (Fl.ext_lt_top h) (not_lt.2 h4)
    rw [this]; rfl
  · have hpos := FloatFormat.two_zpow_pos f.emin
    let m : Fl f := .fin (2 ^ f.emin) (one _ le_rfl) (by
      rw [abs_of_pos hpos]
      exact (zpow_le_zpow_right₀ (by norm_num) (by omega)).trans hmax.1)
    have hr : f.rnd (m.val * m.val) = 0 := by
      have hv : m.val * m.val = 2 ^ (f.emin + f.emin) := (zpow_add₀ (by norm_num) _ _).symm
      have hl : f.lastPlace (2 ^ (f.emin + f.emin)) = f.emin := by
        have : Int.log 2 |(2 : ℝ) ^ (f.emin + f.emin)| = f.emin + f.emin := by
          rw [abs_of_pos (FloatFormat.two_zpow_pos _)]
          exact_mod_cast Int.log_zpow (R := ℝ) (b := 2) (by norm_num) (f.emin + f.emin)
        rw [FloatFormat.lastPlace, this]
        have := f.prec_pos
        exact max_eq_right (by omega)
      have hq : (2 : ℝ) ^ (f.emin + f.emin) / 2 ^ f.emin = 2 ^ f.emin := by
        rw [zpow_add₀ (by norm_num)]; field_simp
      have hhalf : (2 : ℝ) ^ f.emin ≤ 1 / 2 := by
        have : (2 : ℝ) ^ f.emin ≤ 2 ^ (-1 : ℤ) := zpow_le_zpow_right₀ (by norm_num) (by omega)
        simpa using this
      rw [hv, FloatFormat.rnd, hl, hq]
      have h0 : ⌊(2 : ℝ) ^ f.emin⌋ = 0 := Int.floor_eq_zero_iff.2 ⟨hpos.le, by linarith⟩
      have h1 : Int.fract ((2 : ℝ) ^ f.emin) = 2 ^ f.emin := by rw [Int.fract, h0]; simp
      have : roundEven ((2 : ℝ) ^ f.emin) = 0 := by
        unfold roundEven
        rw [h0, h1]
        split
        · rfl
        · rw [if_neg (not_lt.2 hhalf)]; simp
      rw [this]; simp
    have hm : m.mul m = (Ops.ieee f).zero := by
      change Fl.round (m.sign ^^ m.sign) (m.val * m.val) = _
      have h0 : 0 ≤ m.val * m.val := mul_self_nonneg _
      have hne : m.val * m.val ≠ 0 := mul_ne_zero hpos.ne' hpos.ne'
      unfold Fl.round
      rw [dif_pos (by rw [hr, abs_zero]; linarith [hmax.1, FloatFormat.two_zpow_pos f.emax]),
        if_neg (by rw [not_and_or, not_or]; exact .inr ⟨not_lt.2 h0, fun h => hne h.1⟩)]
      simp only [Ops.ieee, Fl.ofInt, hr]
      congr 1; simp
    have zs : ((Ops.ieee f).zero).sign = false := by simp [Ops.ieee, Fl.ofInt, Fl.sign]
    have zz : ((Ops.ieee f).zero).isZero = true := by simp [Ops.ieee, Fl.ofInt, Fl.isZero]
    have hd : (Vec.ofFn fun _ : Fin (n + 1) => m).dot (Ops.ieee f) (Vec.ofFn fun _ : Fin (n + 1) => m) = .ok (Ops.ieee f).zero := by
      rw [Vec.dot, Vec.zip_eq, mulFold, List.foldlM_map]
      induction List.finRange (n + 1) with
      | nil => rfl
      | cons i l ih =>
        rw [List.foldlM_cons, Vec.get_ofFn]
        change List.foldlM _ (Fl.add _ (m.mul m)) l = _
        rw [hm, Fl.add_zero_right zs zz zs]
        exact ih
    refine ⟨Vec.ofFn fun _ => m, ((Ops.ieee f).zero).sqrt, fun i => ?_, by rw [norm_eq hp, hd]; rfl, ?_⟩
    · rw [Vec.get_ofFn]; exact ⟨trivial, hpos.ne'⟩
    · have : ((Ops.ieee f).zero).sqrt = Fl.round false 0 := by simp [Ops.ieee, Fl.ofInt, Fl.sqrt]
      have hf0 : (Fl.round false 0 : Fl f).IsFinite := by
        rw [Fl.round_finite_iff, f.rnd_zero, abs_zero]; linarith [hmax.1, FloatFormat.two_zpow_pos f.emax]
      rw [this, Fl.isZero_iff]
      exact ⟨hf0, by rw [Fl.val_round hf0, f.rnd_zero]⟩

/-! The hypotheses are met by `f32` and `f64` with the usual `powi`, and by vectors that are not trivial. -/

example : FloatFormat.f32.emin + 2 * FloatFormat.f32.prec ≤ 2 ∧ FloatFormat.f64.emin + 2 * FloatFormat.f64.prec ≤ 2 ∧
    FloatFormat.f32.emin < 0 ∧ FloatFormat.f64.emin < 0 ∧
    ∀ x : Fl .f32, (fun (x : Fl .f32) (_ : Int) => x.mul x) x 2 = x.mul x := ⟨by decide, by decide, by decide, by decide, fun _ => rfl⟩

/-- -3, 0, -0 in `f32`. -/
noncomputable def normSample : Vec (Fl .f32) 3 := ⟨[.ofInt (-3) (by norm_num [FloatFormat.f32]), .ofInt 0 (by simp), .negZero], rfl⟩

theorem normSample_sq : FloatFormat.f32.minPos ≤ (((-3 : ℤ) : ℝ)) ^ 2 ∧ |FloatFormat.f32.rnd ((((-3 : ℤ) : ℝ)) ^ 2)| ≤ FloatFormat.f32.max := by
  obtain ⟨_, _, hm, hp, _⟩ := C87_formats.1
  constructor
  · rw [hp]
    have : (1 : ℝ) / 2 ^ 126 ≤ 1 := by
      rw [div_le_one (by positivity)]; exact one_le_pow₀ (by norm_num)
    norm_num at this ⊢
  · apply FloatFormat.rnd_le_max
    rw [hm]; norm_num

/-- `C99_norm_single` and `C99_normalized` apply to it: its norm is 3, and the normalized vector is finite. -/
example : normSample.norm (Ops.ieee .f32) Fl.sqrt (fun x _ => x.mul x) = .ok (normSample.get 0).abs ∧
    ∃ w, normSample.normalized ⟨true, true, 2 ^ 64⟩ (Ops.ieee .f32) Fl.sqrt (fun x _ => x.mul x) = .ok w ∧
      ∀ i, (w.get i).IsFinite ∧ |(w.get i).val| ≤ 1 ∧ (w.get i).sign = (normSample.get i).sign := by
  have hv : (normSample.get 0).val = ((-3 : ℤ) : ℝ) := rfl
  have h0 : ∀ j, j ≠ 0 → (normSample.get j).isZero = true := by
    intro j hj
    fin_cases j
    · exact absurd rfl hj
    · simp [normSample, Vec.get, Fl.ofInt, Fl.isZero]
    · rfl
  have hn : normSample.norm (Ops.ieee .f32) Fl.sqrt (fun x _ => x.mul x) = .ok (normSample.get 0).abs :=
    C99_norm_single (fun _ => rfl) normSample 0 h0 trivial (by rw [hv]; exact normSample_sq.2) (.inr (by rw [hv]; exact normSample_sq.1))
  refine ⟨hn, C99_normalized _ (fun _ => rfl) normSample (fun j => ?_) hn (Fl.finite_abs.2 trivial) ?_⟩
  · by_cases hj : j = 0
    · subst hj; exact .inr (by rw [hv]; exact normSample_sq.1)
    · exact .inl ((Fl.isZero_iff _).1 (h0 j hj)).2
  · rw [Fl.val_abs, hv]; norm_num

end Rowcol
