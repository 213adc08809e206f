import Verif.Approx
import Verif.Props.FloatNorm
import Verif.Props.FloatOrder
import Verif.Props.FloatBits
import Verif.Props.Compare
import Mathlib.Algebra.Order.Field.Power

/-! # C107: approximate equality of matrices of `f32` and `f64` -/

namespace Rowcol

namespace Fl
variable {f : FloatFormat}

theorem le_iff {a b : Fl f} : a.le b = true ↔ a ≠ nan ∧ b ≠ nan ∧ a.ext ≤ b.ext := by simp [le]
theorem lt_iff {a b : Fl f} : a.lt b = true ↔ a ≠ nan ∧ b ≠ nan ∧ a.ext < b.ext := by simp [lt]
theorem ne_nan_of_finite {a : Fl f} (h : a.IsFinite) : a ≠ nan := by rintro rfl; exact h
theorem isInfinite_iff {a : Fl f} : a.isInfinite = true ↔ ∃ s, a = inf s := by cases a <;> simp [isInfinite]
theorem finite_of {a : Fl f} (h1 : a ≠ nan) (h2 : a.isInfinite ≠ true) : a.IsFinite := by
  cases a with
  | nan => exact absurd rfl h1
  | inf s => exact absurd rfl h2
  | _ => trivial
theorem not_infinite {a : Fl f} (h : a.IsFinite) : a.isInfinite = false := by cases a <;> first | rfl | exact h.elim

/-- The absolute value of a finite number. -/
theorem abs_of_finite {a : Fl f} (h : a.IsFinite) : a.abs = fin |a.val| (by
    rcases le_total 0 a.val with g | g
    · rw [abs_of_nonneg g]; exact a.rep_val
    · rw [abs_of_nonpos g]; exact a.rep_val.neg) (by rw [_root_.abs_abs]; exact a.abs_val_le) := by
  have h1 := finite_abs.2 h
  have h2 := val_abs (a := a)
  have h3 := sign_abs a
  generalize a.abs = b at *
  cases b with
  | nan => exact h1.elim
  | inf s => exact h1.elim
  | negZero => cases h3
  | fin x r hx => simp only [val] at h2; subst h2; rfl

theorem sub_of_finite {a b : Fl f} (ha : a.IsFinite) (hb : b.IsFinite) : ∃ s, a.sub b = round s (a.val - b.val) :=
  ⟨_, by rw [sub, add_of_finite ha (finite_neg.2 hb), val_neg, sub_eq_add_neg]⟩

theorem round_ne_nan (s : Bool) (x : ℝ) : (round s x : Fl f) ≠ nan := by
  unfold round; split
  · split <;> nofun
  · nofun

theorem ext_round {s : Bool} {x : ℝ} (h : |f.rnd x| ≤ f.max) : (round s x : Fl f).ext = (f.rnd x : EReal) := by
  have := round_finite_iff (s := s).2 h
  rw [ext_of_finite this, val_round this]

/-- The computed distance is the rounded distance. -/
theorem ext_dist {a b : Fl f} (ha : a.IsFinite) (hb : b.IsFinite) :
    (a.sub b).abs ≠ nan ∧ (a.sub b).abs.ext = (round false |a.val - b.val| : Fl f).ext := by
  obtain ⟨s, e⟩ := sub_of_finite ha hb
  rw [e]
  refine ⟨fun h => round_ne_nan _ _ (abs_eq_nan.1 h), ?_⟩
  generalize a.val - b.val = x
  have hr : f.rnd |x| = |f.rnd x| := by
    rcases le_total 0 x with h | h
    · rw [abs_of_nonneg h, abs_of_nonneg (f.rnd_nonneg h)]
    · rw [abs_of_nonpos h, f.rnd_neg, abs_of_nonpos]
      have := f.rnd_mono h; simpa using this
  by_cases h : |f.rnd x| ≤ f.max
  · rw [ext_round (by rw [hr, _root_.abs_abs]; exact h), ext_of_finite (finite_abs.2 (round_finite_iff.2 h)), val_abs,
      val_round (round_finite_iff.2 h), hr]
  · have h1 : (round s x : Fl f) = inf (decide (x < 0)) := by unfold round; rw [dif_neg h]
    have h2 : (round false |x| : Fl f) = inf (decide (|x| < 0)) := by unfold round; rw [dif_neg (by rw [hr, _root_.abs_abs]; exact h)]
    rw [h1, h2, abs_inf, decide_eq_false (by simp)]

/-- The larger of two numbers in absolute value, as `relative_eq` computes it. -/
noncomputable def big (a b : Fl f) : Fl f := if a.abs.lt b.abs then b.abs else a.abs

theorem big_spec {a b : Fl f} (ha : a.IsFinite) (hb : b.IsFinite) : ∃ r h, big a b = fin (Max.max |a.val| |b.val|) r h := by
  have e : a.abs.lt b.abs = true ↔ |a.val| < |b.val| := by
    rw [lt_iff, ext_of_finite (finite_abs.2 ha), ext_of_finite (finite_abs.2 hb), EReal.coe_lt_coe_iff, val_abs, val_abs]
    exact ⟨fun h => h.2.2, fun h => ⟨ne_nan_of_finite (finite_abs.2 ha), ne_nan_of_finite (finite_abs.2 hb), h⟩⟩
  unfold big
  by_cases h : |a.val| < |b.val|
  · rw [if_pos (e.2 h), abs_of_finite hb, max_eq_right h.le]; exact ⟨_, _, rfl⟩
  · rw [if_neg (fun g => h (e.1 g)), abs_of_finite ha, max_eq_left (not_lt.1 h)]; exact ⟨_, _, rfl⟩

theorem big_comm {a b : Fl f} (ha : a.IsFinite) (hb : b.IsFinite) : big a b = big b a := by
  obtain ⟨r, h, e⟩ := big_spec ha hb
  obtain ⟨r', h', e'⟩ := big_spec hb ha
  rw [e, e']; congr 1; exact max_comm _ _

end Fl

namespace Approx
open Fl
variable {f : FloatFormat} {a b eps rel eps' rel' : Fl f}

theorem relativeEq_eq : relativeEq (.ieee f) a b eps rel = (if a.beq b then true else if a.isInfinite || b.isInfinite then false
    else if (a.sub b).abs.le eps then true else (a.sub b).abs.le ((big a b).mul rel)) := rfl

theorem relativeEq_nan (h : a = nan ∨ b = nan) : relativeEq (.ieee f) a b eps rel = false := by
  have e : a.beq b = false := by
    rw [← Bool.not_eq_true, beq_iff]; rintro ⟨h1, h2, -⟩; exact h.elim h1 h2
  have d : (a.sub b).abs = nan := by
    rw [abs_eq_nan, Fl.sub]
    rcases h with rfl | rfl
    · exact nan_add _
    · exact add_nan _
  rw [relativeEq_eq, e, d]
  have l : ∀ x : Fl f, Fl.le nan x = false := fun x => by rw [← Bool.not_eq_true, le_iff]; simp
  simp [l]

theorem relativeEq_inf (ha : a ≠ nan) (hb : b ≠ nan) (h : ¬ (a.IsFinite ∧ b.IsFinite)) :
    relativeEq (.ieee f) a b eps rel = true ↔ a = b := by
  have i : a.isInfinite = true ∨ b.isInfinite = true := by
    by_contra g; push Not at g; exact h ⟨finite_of ha g.1, finite_of hb g.2⟩
  rw [relativeEq_eq]
  have e : a.beq b = true ↔ a = b := by
    rw [beq_iff]
    refine ⟨fun g => ?_, fun g => ⟨ha, hb, by rw [g]⟩⟩
    have key : ∀ (s : Bool) (x : Fl f), x ≠ nan → (inf s : Fl f).ext = x.ext → inf s = x := by
      intro s x hx e
      cases x with
      | nan => exact absurd rfl hx
      | inf s' => cases s <;> cases s' <;> first | rfl | (simp [ext] at e)
      | negZero => cases s <;> simp [ext, val] at e
      | fin q r h => cases s <;> simp [ext, val] at e
    rcases i with i | i
    · obtain ⟨s, rfl⟩ := isInfinite_iff.1 i; exact key s b hb g.2.2
    · obtain ⟨s, rfl⟩ := isInfinite_iff.1 i; exact (key s a ha g.2.2.symm).symm
  by_cases g : a = b
  · rw [if_pos (e.2 g)]; simp [g]
  · have : ¬ a.beq b = true := fun h => g (e.1 h)
    simp [this, i, g]

theorem relativeEq_fin (ha : a.IsFinite) (hb : b.IsFinite) :
    relativeEq (.ieee f) a b eps rel = true ↔ a.val = b.val ∨
      (eps ≠ nan ∧ (round false |a.val - b.val| : Fl f).ext ≤ eps.ext) ∨
      ((big a b).mul rel ≠ nan ∧ (round false |a.val - b.val| : Fl f).ext ≤ ((big a b).mul rel).ext) := by
  obtain ⟨d1, d2⟩ := ext_dist ha hb
  have e : a.beq b = true ↔ a.val = b.val := by
    rw [beq_iff, ext_of_finite ha, ext_of_finite hb, EReal.coe_eq_coe_iff]
    exact ⟨fun h => h.2.2, fun h => ⟨ne_nan_of_finite ha, ne_nan_of_finite hb, h⟩⟩
  have l : ∀ x : Fl f, (a.sub b).abs.le x = true ↔ x ≠ nan ∧ (round false |a.val - b.val| : Fl f).ext ≤ x.ext := fun x => by
    rw [le_iff, d2]; exact ⟨fun h => h.2, fun h => ⟨d1, h⟩⟩
  rw [relativeEq_eq, not_infinite ha, not_infinite hb, ← l, ← l, ← e]
  by_cases h1 : a.beq b = true
  · simp [h1]
  · by_cases h2 : (a.sub b).abs.le eps = true
    · simp [h1, h2]
    · simp [h1, h2]

/-! ### One element -/

theorem rnd_abs (x : ℝ) : f.rnd |x| = |f.rnd x| := by
  rcases le_total 0 x with h | h
  · rw [abs_of_nonneg h, abs_of_nonneg (f.rnd_nonneg h)]
  · rw [abs_of_nonpos h, f.rnd_neg, abs_of_nonpos]
    have := f.rnd_mono h; simpa using this

theorem holds (ha : a.IsFinite) (hb : b.IsFinite)
    (h : eps.IsFinite ∧ |a.val - b.val| ≤ eps.val ∨ rel.IsFinite ∧ |a.val - b.val| ≤ rel.val * Max.max |a.val| |b.val|) :
    relativeEq (.ieee f) a b eps rel = true := by
  rw [relativeEq_fin ha hb]
  rcases h with ⟨h1, h2⟩ | ⟨h1, h2⟩
  · refine .inr (.inl ⟨ne_nan_of_finite h1, ?_⟩)
    have hr := f.rnd_rep eps.rep_val
    have := ext_round_mono (f := f) h2 false false
    rwa [ext_round (x := eps.val) (by rw [hr]; exact eps.abs_val_le), hr, ← ext_of_finite h1] at this
  · obtain ⟨r, g, e⟩ := big_spec ha hb
    have e' : (big a b).mul rel = round _ ((big a b).val * rel.val) := mul_of_finite (by rw [e]; trivial) h1
    refine .inr (.inr ⟨by rw [e']; exact round_ne_nan _ _, ?_⟩)
    rw [e']
    refine ext_round_mono ?_ _ _
    rw [e, val, mul_comm]; exact h2

theorem implies (ha : a.IsFinite) (hb : b.IsFinite) (he : eps.IsFinite) (hr : rel.IsFinite) (h0 : 0 ≤ rel.val) (h1 : rel.val ≤ 1)
    (h : relativeEq (.ieee f) a b eps rel = true) :
    a.val = b.val ∨ (1 - f.u) * |a.val - b.val| ≤ eps.val ∨
      (1 - f.u) * |a.val - b.val| ≤ (1 + f.u) * (rel.val * Max.max |a.val| |b.val|) + f.eta := by
  have low : (1 - f.u) * |a.val - b.val| ≤ f.rnd |a.val - b.val| := by
    have := FloatFormat.rnd_add a.rep_val b.rep_val.neg
    rw [← sub_eq_add_neg] at this
    rw [rnd_abs]
    have h2 := abs_sub_abs_le_abs_sub (a.val - b.val) (f.rnd (a.val - b.val))
    rw [abs_sub_comm (a.val - b.val) (f.rnd _)] at h2
    linarith
  have fin : ∀ y : ℝ, (round false |a.val - b.val| : Fl f).ext ≤ (y : EReal) → f.rnd |a.val - b.val| ≤ y := by
    intro y hy
    by_cases g : |(f.rnd |a.val - b.val|)| ≤ f.max
    · rw [ext_round g] at hy; exact_mod_cast hy
    · have : (round false |a.val - b.val| : Fl f) = inf false := by
        unfold Fl.round; rw [dif_neg g, decide_eq_false (by simp)]
      rw [this] at hy
      exact absurd hy (not_le.2 (EReal.coe_lt_top y))
  rcases (relativeEq_fin ha hb).1 h with h2 | ⟨_, h2⟩ | ⟨_, h2⟩
  · exact .inl h2
  · rw [ext_of_finite he] at h2
    exact .inr (.inl (low.trans (fin _ h2)))
  · refine .inr (.inr (low.trans ?_))
    obtain ⟨r, g, e⟩ := big_spec ha hb
    have e' : (big a b).mul rel = round _ ((big a b).val * rel.val) := mul_of_finite (by rw [e]; trivial) hr
    have hM : (0 : ℝ) ≤ Max.max |a.val| |b.val| := (abs_nonneg _).trans (le_max_left _ _)
    have hle : |(big a b).val * rel.val| ≤ f.max := by
      rw [abs_mul, abs_of_nonneg h0]
      calc _ ≤ |(big a b).val| * 1 := mul_le_mul_of_nonneg_left h1 (abs_nonneg _)
        _ ≤ _ := by rw [mul_one]; exact (big a b).abs_val_le
    rw [e', ext_round (f.rnd_le_max hle)] at h2
    refine (fin _ h2).trans ?_
    have := f.rnd_error ((big a b).val * rel.val)
    rw [e] at this ⊢
    simp only [val_fin] at this ⊢
    have h3 := le_abs_self (f.rnd (Max.max |a.val| |b.val| * rel.val) - Max.max |a.val| |b.val| * rel.val)
    rw [abs_of_nonneg (mul_nonneg hM h0)] at this
    linarith [mul_comm rel.val (Max.max |a.val| |b.val|)]

theorem refl (h : a ≠ nan) : relativeEq (.ieee f) a a eps rel = true := by
  rw [relativeEq_eq, if_pos (beq_iff.2 ⟨h, h, rfl⟩)]

theorem symm : relativeEq (.ieee f) a b eps rel = relativeEq (.ieee f) b a eps rel := by
  by_cases hn : a = nan ∨ b = nan
  · rw [relativeEq_nan hn, relativeEq_nan hn.symm]
  push Not at hn
  by_cases hf : a.IsFinite ∧ b.IsFinite
  · rw [Bool.eq_iff_iff, relativeEq_fin hf.1 hf.2, relativeEq_fin hf.2 hf.1, big_comm hf.2 hf.1, abs_sub_comm, eq_comm]
  · rw [Bool.eq_iff_iff, relativeEq_inf hn.1 hn.2 hf, relativeEq_inf hn.2 hn.1 (fun g => hf g.symm), eq_comm]

theorem mono (he : eps.le eps' = true) (hr : rel.le rel' = true) (h : relativeEq (.ieee f) a b eps rel = true) :
    relativeEq (.ieee f) a b eps' rel' = true := by
  by_cases hn : a = nan ∨ b = nan
  · rw [relativeEq_nan hn] at h; cases h
  push Not at hn
  by_cases hf : a.IsFinite ∧ b.IsFinite
  · obtain ⟨ha, hb⟩ := hf
    obtain ⟨r, g, e⟩ := big_spec ha hb
    have fb : (big a b).IsFinite := by rw [e]; trivial
    rw [relativeEq_fin ha hb] at h ⊢
    rcases h with h | ⟨_, h⟩ | ⟨h1, h⟩
    · exact .inl h
    · exact .inr (.inl ⟨(le_iff.1 he).2.1, h.trans (le_iff.1 he).2.2⟩)
    · obtain ⟨_, hr', hle⟩ := le_iff.1 hr
      by_cases h2 : (big a b).mul rel' = nan
      · left
        cases rel' with
        | nan => exact absurd rfl hr'
        | inf s =>
          rw [mul_inf fb] at h2
          split at h2
          · rename_i h3
            rw [e, val] at h3
            have h4 := le_max_left |a.val| |b.val|
            have h5 := le_max_right |a.val| |b.val|
            rw [h3] at h4 h5
            rw [abs_nonpos_iff.1 h4, abs_nonpos_iff.1 h5]
          · cases h2
        | negZero => rw [mul_of_finite fb (show (negZero : Fl f).IsFinite from trivial)] at h2; exact absurd h2 (round_ne_nan _ _)
        | fin x r' h' => rw [mul_of_finite fb (show (fin x r' h' : Fl f).IsFinite from trivial)] at h2; exact absurd h2 (round_ne_nan _ _)
      · refine .inr (.inr ⟨h2, h.trans ?_⟩)
        have hb0 : 0 ≤ (big a b).ext := by
          rw [ext_of_finite fb, e, val]
          exact_mod_cast (abs_nonneg _).trans (le_max_left _ _)
        exact ((Le.mul_left hb0 (.inr (.inr hle))).resolve_left h1).resolve_left h2
  · rw [relativeEq_inf hn.1 hn.2 hf] at h ⊢; exact h

/-- Neighbours are within the default tolerance. -/
theorem neighbours (hk : f.emin ≤ 1 - f.prec)
    (hn : ∀ x : Fl f, x.IsFinite → ¬ (Min.min a.val b.val < x.val ∧ x.val < Max.max a.val b.val)) :
    |a.val - b.val| ≤ 2 ^ (1 - f.prec : ℤ) ∨ |a.val - b.val| ≤ 2 ^ (1 - f.prec : ℤ) * Max.max |a.val| |b.val| := by
  have hu : (2 : ℝ) ^ (1 - f.prec : ℤ) = 2 * f.u := by
    rw [FloatFormat.u, zpow_sub₀ (by norm_num), zpow_one, zpow_natCast]; simp [div_eq_mul_inv]
  set m := Min.min a.val b.val with hm
  set M := Max.max a.val b.val with hM
  have hmM : m ≤ M := min_le_max
  have hd : |a.val - b.val| = M - m := by rw [hM, hm]; exact (max_sub_min_eq_abs' _ _).symm
  have hma : f.Rep m ∧ |m| ≤ f.max := by
    rcases min_choice a.val b.val with e | e
    · rw [hm, e]; exact ⟨a.rep_val, a.abs_val_le⟩
    · rw [hm, e]; exact ⟨b.rep_val, b.abs_val_le⟩
  have hMa : f.Rep M ∧ |M| ≤ f.max := by
    rcases max_choice a.val b.val with e | e
    · rw [hM, e]; exact ⟨a.rep_val, a.abs_val_le⟩
    · rw [hM, e]; exact ⟨b.rep_val, b.abs_val_le⟩
  set z := (m + M) / 2 with hz
  have l1 : m ≤ f.rnd z := by
    have := f.rnd_mono (show m ≤ z by linarith); rwa [f.rnd_rep hma.1] at this
  have l2 : f.rnd z ≤ M := by
    have := f.rnd_mono (show z ≤ M by linarith); rwa [f.rnd_rep hMa.1] at this
  have lz : |f.rnd z| ≤ f.max := by
    rw [abs_le] at *
    exact ⟨hma.2.1.trans l1, l2.trans hMa.2.2⟩
  have gap : (M - m) / 2 ≤ |f.rnd z - z| := by
    have := hn (.fin (f.rnd z) (f.rep_rnd z) lz) trivial
    simp only [val] at this
    by_cases h1 : m < f.rnd z
    · have h2 : M ≤ f.rnd z := by by_contra g; exact this ⟨h1, not_le.1 g⟩
      have := le_abs_self (f.rnd z - z); linarith
    · have := neg_le_abs (f.rnd z - z); linarith [not_lt.1 h1]
  have lzz : |z| ≤ Max.max |a.val| |b.val| := by
    have h1 : |m| ≤ Max.max |a.val| |b.val| := by
      rcases min_choice a.val b.val with e | e
      · rw [hm, e]; exact le_max_left _ _
      · rw [hm, e]; exact le_max_right _ _
    have h2 : |M| ≤ Max.max |a.val| |b.val| := by
      rcases max_choice a.val b.val with e | e
      · rw [hM, e]; exact le_max_left _ _
      · rw [hM, e]; exact le_max_right _ _
    rw [abs_le] at *
    constructor <;> linarith [h1.1, h1.2, h2.1, h2.2]
  rcases le_total f.emin (Int.log 2 |z| - f.prec + 1) with h | h
  · right
    have := f.rnd_relative h
    rw [hd, hu]
    have := mul_le_mul_of_nonneg_left lzz f.u_pos.le
    linarith
  · left
    have := f.rnd_tiny h
    have e : 2 * f.eta = 2 ^ f.emin := by rw [FloatFormat.eta, zpow_sub₀ (by norm_num), zpow_one]; ring
    have := zpow_le_zpow_right₀ (by norm_num : (1 : ℝ) ≤ 2) hk
    rw [hd]; linarith

theorem exact_iff {z : Fl f} (hz : z.IsFinite) (h0 : z.val = 0) : relativeEq (.ieee f) a b z z = a.beq b := by
  by_cases hn : a = nan ∨ b = nan
  · rw [relativeEq_nan hn, eq_comm, ← Bool.not_eq_true, beq_iff]
    rintro ⟨h1, h2, -⟩; exact hn.elim h1 h2
  push Not at hn
  by_cases hf : a.IsFinite ∧ b.IsFinite
  · obtain ⟨ha, hb⟩ := hf
    rw [Bool.eq_iff_iff, beq_iff, ext_of_finite ha, ext_of_finite hb, EReal.coe_eq_coe_iff]
    refine ⟨fun h => ⟨hn.1, hn.2, ?_⟩, fun h => ?_⟩
    · have key : f.rnd |a.val - b.val| ≤ 0 → a.val = b.val := by
        intro g
        have := FloatFormat.rnd_add a.rep_val b.rep_val.neg
        rw [← sub_eq_add_neg] at this
        rw [rnd_abs] at g
        rw [abs_nonpos_iff.1 g, zero_sub, abs_neg] at this
        have h2 := f.u_lt_one
        have h3 : |a.val - b.val| ≤ 0 := by
          by_contra h4
          have := mul_lt_mul_of_pos_right h2 (not_le.1 h4)
          linarith
        linarith [abs_nonpos_iff.1 h3]
      have fin : (round false |a.val - b.val| : Fl f).ext ≤ 0 → a.val = b.val := by
        intro hy
        by_cases g : |(f.rnd |a.val - b.val|)| ≤ f.max
        · rw [ext_round g] at hy; exact key (by exact_mod_cast hy)
        · have : (round false |a.val - b.val| : Fl f) = inf false := by
            unfold Fl.round; rw [dif_neg g, decide_eq_false (by simp)]
          rw [this] at hy
          exact absurd hy (not_le.2 (EReal.coe_lt_top 0))
      rcases (relativeEq_fin ha hb).1 h with h2 | ⟨_, h2⟩ | ⟨_, h2⟩
      · exact h2
      · rw [ext_of_finite hz, h0] at h2; exact fin h2
      · obtain ⟨r, g, e⟩ := big_spec ha hb
        have e' : (big a b).mul z = round _ ((big a b).val * z.val) := mul_of_finite (by rw [e]; trivial) hz
        have e2 : f.rnd ((big a b).val * z.val) = 0 := by rw [h0, mul_zero, f.rnd_zero]
        rw [e', ext_round (x := (big a b).val * z.val) (by rw [e2, abs_zero]; exact (abs_nonneg _).trans a.abs_val_le), e2] at h2
        exact fin h2
    · exact (relativeEq_fin ha hb).2 (.inl h.2.2)
  · rw [Bool.eq_iff_iff, relativeEq_inf hn.1 hn.2 hf]
    constructor
    · rintro rfl; exact beq_iff.2 ⟨hn.1, hn.1, rfl⟩
    · intro h
      refine (relativeEq_inf (eps := z) (rel := z) hn.1 hn.2 hf).1 ?_
      rw [relativeEq_eq, if_pos h]

end Approx

/-! ## Matrices of values -/

namespace ApproxMat
open Fl Approx
variable {f : FloatFormat} {r c : Nat} (t : Target) (hr : r < t.W) (a b : Mat (Fl f) r c) (eps rel : Fl f)

theorem relativeEqM_pure {T : Type} {r c : Nat} (t : Target) (hr : r < t.W) (e : T → T → T → T → Bool) (a b : Mat T r c) (eps rel : T) :
    ∃ x, a.relativeEqM (m := Res) t pure (fun x y u v => .ok (e x y u v)) b eps rel = .ok x ∧
      (x = true ↔ ∀ i j, e (a.get i j) (b.get i j) eps rel = true) := by
  obtain ⟨x, h1, h2⟩ := C66_approx_eq t (fun x y => e x y eps rel) a b hr
  refine ⟨x, ?_, h2⟩
  have h3 := (C94_pure (m := Res) t (⟨[], rfl⟩ : Vec T 0) ⟨[], rfl⟩ a b ⟨[eps], rfl⟩ ⟨⟨[⟨[eps], rfl⟩], rfl⟩⟩ (fun x y => e x y eps rel)
    (fun _ => true) (fun _ _ => .eq) eps eps).2.2.2.2.1 hr
  rw [h1] at h3
  unfold Mat.relativeEqM
  simp only [pure_bind]
  exact h3

include hr in
theorem relative_iff : ∃ x, a.relativeEqFl t b eps rel = .ok x ∧
    (x = true ↔ ∀ i j, relativeEq (.ieee f) (a.get i j) (b.get i j) eps rel = true) :=
  relativeEqM_pure t hr (relativeEq (.ieee f)) a b eps rel

include hr in
theorem relative_true : a.relativeEqFl t b eps rel = .ok true ↔
    ∀ i j, relativeEq (.ieee f) (a.get i j) (b.get i j) eps rel = true := by
  obtain ⟨x, h1, h2⟩ := relative_iff t hr a b eps rel
  rw [h1, ← h2, Except.ok.injEq]

include hr in
/-- C107: `relative_eq` never panics. -/
theorem C107_relative_total : ∃ x, a.relativeEqFl t b eps rel = .ok x :=
  (relative_iff t hr a b eps rel).imp fun _ h => h.1

include hr in
/-- C107: matrices whose corresponding entries are at most `epsilon` apart, or at most `max_relative` times the larger one, are
approximately equal: rounding in the comparison does not spoil this. -/
theorem C107_relative_holds
    (h : ∀ i j, (a.get i j).IsFinite ∧ (b.get i j).IsFinite ∧
      (eps.IsFinite ∧ |(a.get i j).val - (b.get i j).val| ≤ eps.val ∨
        rel.IsFinite ∧ |(a.get i j).val - (b.get i j).val| ≤ rel.val * Max.max |(a.get i j).val| |(b.get i j).val|)) :
    a.relativeEqFl t b eps rel = .ok true :=
  (relative_true t hr a b eps rel).2 fun i j => holds (h i j).1 (h i j).2.1 (h i j).2.2

include hr in
/-- C107: conversely, approximately equal finite entries are within the tolerances, up to the relative error `u` of the
subtraction and of the product of the tolerance, and the underflow of the latter. -/
theorem C107_relative_implies (he : eps.IsFinite) (hm : rel.IsFinite) (h0 : 0 ≤ rel.val) (h1 : rel.val ≤ 1)
    (h : a.relativeEqFl t b eps rel = .ok true) (i : Fin r) (j : Fin c)
    (ha : (a.get i j).IsFinite) (hb : (b.get i j).IsFinite) :
    (a.get i j).val = (b.get i j).val ∨ (1 - f.u) * |(a.get i j).val - (b.get i j).val| ≤ eps.val ∨
      (1 - f.u) * |(a.get i j).val - (b.get i j).val| ≤
        (1 + f.u) * (rel.val * Max.max |(a.get i j).val| |(b.get i j).val|) + f.eta :=
  implies ha hb he hm h0 h1 ((relative_true t hr a b eps rel).1 h i j)

include hr in
/-- C107: whatever the tolerances, NaN is approximately equal to nothing, and an infinity only to itself. -/
theorem C107_relative_special (h : a.relativeEqFl t b eps rel = .ok true) (i : Fin r) (j : Fin c) :
    a.get i j ≠ nan ∧ b.get i j ≠ nan ∧ ((a.get i j).IsFinite ∧ (b.get i j).IsFinite ∨ a.get i j = b.get i j) := by
  have h := (relative_true t hr a b eps rel).1 h i j
  by_cases hn : a.get i j = nan ∨ b.get i j = nan
  · rw [relativeEq_nan hn] at h; cases h
  push Not at hn
  refine ⟨hn.1, hn.2, ?_⟩
  by_cases hf : (a.get i j).IsFinite ∧ (b.get i j).IsFinite
  · exact .inl hf
  · exact .inr ((relativeEq_inf hn.1 hn.2 hf).1 h)

include hr in
/-- C107: whatever the tolerances, a matrix is approximately equal to itself exactly if it contains no NaN. -/
theorem C107_relative_reflexive : a.relativeEqFl t a eps rel = .ok true ↔ ∀ i j, a.get i j ≠ nan :=
  ⟨fun h i j => (C107_relative_special t hr a a eps rel h i j).1, fun h => (relative_true t hr a a eps rel).2 fun i j => refl (h i j)⟩

include hr in
/-- C107: the order of the operands does not matter. -/
theorem C107_relative_symmetric : a.relativeEqFl t b eps rel = b.relativeEqFl t a eps rel := by
  obtain ⟨x, h1, h2⟩ := relative_iff t hr a b eps rel
  obtain ⟨y, h3, h4⟩ := relative_iff t hr b a eps rel
  rw [h1, h3]
  simp only [symm (a := b.get _ _)] at h4
  rw [Except.ok.injEq, Bool.eq_iff_iff, h2, h4]

include hr in
/-- C107: larger tolerances accept more. -/
theorem C107_relative_monotone (eps' rel' : Fl f) (he : eps.le eps' = true) (hm : rel.le rel' = true)
    (h : a.relativeEqFl t b eps rel = .ok true) : a.relativeEqFl t b eps' rel' = .ok true :=
  (relative_true t hr a b eps' rel').2 fun i j => mono he hm ((relative_true t hr a b eps rel).1 h i j)

include hr in
/-- C107: with both tolerances zero, `relative_eq` is `==`. -/
theorem C107_relative_zero (z : Fl f) (hz : z.IsFinite) (h0 : z.val = 0) :
    a.relativeEqFl t b z z = .ok (a.eq Fl.beq b) := by
  obtain ⟨x, h1, h2⟩ := relative_iff t hr a b z z
  rw [h1, Except.ok.injEq, Bool.eq_iff_iff, h2]
  simp only [exact_iff hz h0]
  exact (C30_mat_eq Fl.beq a b).symm

include hr in
/-- C107: with the default tolerances, entries without a number between them are approximately equal. -/
theorem C107_relative_neighbours (hk : f.emin ≤ 1 - f.prec) (he : eps.IsFinite) (hv : eps.val = 2 ^ (1 - f.prec : ℤ))
    (h : ∀ i j, (a.get i j).IsFinite ∧ (b.get i j).IsFinite ∧ ∀ x : Fl f, x.IsFinite →
      ¬ (Min.min (a.get i j).val (b.get i j).val < x.val ∧ x.val < Max.max (a.get i j).val (b.get i j).val)) :
    a.relativeEqFl t b eps eps = .ok true :=
  C107_relative_holds t hr a b eps eps fun i j => ⟨(h i j).1, (h i j).2.1, by
    rw [hv]
    exact (neighbours hk (h i j).2.2).imp (fun g => ⟨he, g⟩) fun g => ⟨he, g⟩⟩

end ApproxMat
/-! ## Bits -/

namespace Sf
variable {f : FloatFormat}

theorem toFl_ne_nan {a : Sf f} : a.toFl ≠ .nan ↔ a ≠ .nan := by cases a <;> simp [toFl]

theorem toFl_lt (a b : Sf f) : a.lt b = a.toFl.lt b.toFl := by
  rw [Bool.eq_iff_iff, Fl.lt_iff]
  cases a with
  | nan => simp [lt, toFl]
  | inf s =>
    cases b with
    | nan => simp [lt, toFl]
    | inf s' => cases s <;> cases s' <;> simp [lt, toFl, Fl.ext]
    | negZero => cases s <;> simp [lt, toFl, Fl.ext, Fl.val]
    | fin q r h => cases s <;> simp [lt, toFl, Fl.ext, Fl.val]
  | negZero =>
    cases b with
    | nan => simp [lt, toFl]
    | inf s => cases s <;> simp [lt, toFl, Fl.ext, Fl.val]
    | negZero => simp [lt, toFl, Fl.ext, Fl.val, val]
    | fin q r h => simp [lt, toFl, Fl.ext, Fl.val, val]; exact decide_eq_true_iff
  | fin q r h =>
    cases b with
    | nan => simp [lt, toFl]
    | inf s => cases s <;> simp [lt, toFl, Fl.ext, Fl.val]
    | negZero => simp [lt, toFl, Fl.ext, Fl.val, val]; exact decide_eq_true_iff
    | fin q' r' h' => simp [lt, toFl, Fl.ext, Fl.val, val]; exact decide_eq_true_iff

theorem toFl_le (a b : Sf f) : a.le b = a.toFl.le b.toFl := by
  rw [le, toFl_lt, toFl_beq, Bool.eq_iff_iff, Bool.or_eq_true, Fl.lt_iff, Fl.beq_iff, Fl.le_iff, le_iff_lt_or_eq]
  tauto

theorem toFl_abs (a : Sf f) : a.abs.toFl = a.toFl.abs := by
  unfold abs Fl.abs
  rw [toFl_sign, apply_ite toFl, toFl_neg]

theorem toFl_isInfinite (a : Sf f) : a.isInfinite = a.toFl.isInfinite := by cases a <;> rfl

theorem toFl_one : (ofInt 1 : Sf f).toFl = (Ops.ieee f).one :=
  toFl_ofInt 1 (by rw [abs_one]; exact one_le_pow₀ (by norm_num))

theorem toFl_signum (a : Sf f) : a.signum.toFl = a.toFl.signum := by
  unfold signum Fl.signum
  have e : a = .nan ↔ a.toFl = .nan := by cases a <;> simp [toFl]
  by_cases h : a = .nan
  · rw [if_pos h, if_pos (e.1 h)]; rfl
  · rw [if_neg h, if_neg (fun g => h (e.2 g)), toFl_sign, apply_ite toFl, toFl_neg, toFl_one]

end Sf

namespace ApproxMat
open Fl Approx FloatBits FloatFormat
variable {f : FloatFormat} {k : Nat}

theorem relativeEq_bits (hk : f.Interchange k) (a b eps rel : BitVec (k + f.prec)) :
    relativeEq (.bits f k) a b eps rel = relativeEq (.ieee f) (value f k a) (value f k b) (value f k eps) (value f k rel) := by
  unfold relativeEq
  simp only [FloatCmp.bits, FloatCmp.ieee, value, hk.decode_encode, Sf.toFl_beq, Sf.toFl_lt, Sf.toFl_le, Sf.toFl_abs, Sf.toFl_isInfinite,
    Sf.toFl_add, Sf.toFl_neg, Sf.toFl_mul, Fl.sub, apply_ite (f.decode k), apply_ite Sf.toFl]
  rfl

/-- C107: on bits, `relative_eq` gives the same answer as on the values they stand for. -/
theorem C107_relative_bits {r c : Nat} (hk : f.Interchange k) (t : Target) (a b : Mat (BitVec (k + f.prec)) r c) (eps rel : BitVec (k + f.prec))
    (hr : r < t.W) :
    a.relativeEqBits t f k b eps rel =
      (Mat.ofFn fun i j => value f k (a.get i j)).relativeEqFl t (Mat.ofFn fun i j => value f k (b.get i j)) (value f k eps) (value f k rel) := by
  obtain ⟨x, h1, h2⟩ := relativeEqM_pure t hr (relativeEq (.bits f k)) a b eps rel
  obtain ⟨y, h3, h4⟩ := relative_iff t hr (Mat.ofFn fun i j => value f k (a.get i j)) (Mat.ofFn fun i j => value f k (b.get i j)) (value f k eps) (value f k rel)
  rw [h3, Mat.relativeEqBits, h1, Except.ok.injEq, Bool.eq_iff_iff, h2, h4]
  simp only [Mat.get_ofFn, relativeEq_bits hk]

/-- C107: the default tolerance of `f32` and `f64` is the distance from 1 to the next number. -/
theorem C107_default (hk : f.Interchange k) :
    (value f k (f.encode k (Sf.round false (epsilon f)))).IsFinite ∧
    (value f k (f.encode k (Sf.round false (epsilon f)))).val = 2 ^ (1 - f.prec : ℤ) ∧
    f.Rep (1 + 2 ^ (1 - f.prec : ℤ)) ∧ ∀ x : ℝ, f.Rep x → 1 < x → 1 + 2 ^ (1 - f.prec : ℤ) ≤ x := by
  have hp := f.prec_pos
  have hp2 := hk.prec
  have hemin : f.emin ≤ 1 - f.prec := by rw [hk.emin]; have := f.prec_le; omega
  have hr : f.Rep (2 ^ (1 - f.prec : ℤ)) :=
    ⟨1, 1 - f.prec, hemin, by rw [abs_one]; exact one_lt_pow₀ (by norm_num) hp.ne', by push_cast; ring⟩
  have hle : |(2 : ℝ) ^ (1 - f.prec : ℤ)| ≤ f.max := by
    rw [abs_of_pos (two_zpow_pos _)]
    refine le_trans ?_ f.pow_le_max
    rw [← zpow_natCast]
    exact zpow_le_zpow_right₀ (by norm_num) (by omega)
  have e : value f k (f.encode k (Sf.round false (epsilon f))) = .round false (2 ^ (1 - f.prec : ℤ)) := by
    unfold value
    rw [hk.decode_encode, Sf.toFl_round, epsilon, pow2_cast]
  have hfin : (Fl.round false (2 ^ (1 - f.prec : ℤ)) : Fl f).IsFinite := by rwa [round_finite_iff, f.rnd_rep hr]
  have hone : (1 : ℝ) = ((2 ^ (f.prec - 1) : ℤ) : ℝ) * 2 ^ (1 - f.prec : ℤ) := by
    push_cast
    rw [← zpow_natCast, ← zpow_add₀ (by norm_num)]
    rw [show ((f.prec - 1 : Nat) : ℤ) + (1 - f.prec : ℤ) = 0 by omega, zpow_zero]
  have hhalf : (2 : ℤ) ^ f.prec = 2 * 2 ^ (f.prec - 1) := by rw [← pow_succ']; congr 1; omega
  have hq2 : (2 : ℤ) ≤ 2 ^ (f.prec - 1) := by
    calc (2 : ℤ) = 2 ^ 1 := by norm_num
      _ ≤ _ := pow_le_pow_right₀ (by norm_num) (by omega)
  rw [e]
  refine ⟨hfin, by rw [val_round hfin, f.rnd_rep hr], ?_, ?_⟩
  · refine ⟨2 ^ (f.prec - 1) + 1, 1 - f.prec, hemin, ?_, ?_⟩
    · rw [abs_of_pos (by omega)]; omega
    · conv_lhs => rw [hone]
      push_cast; ring
  · rintro x ⟨m, e', he, hm, rfl⟩ hx
    by_cases h : 1 - (f.prec : ℤ) ≤ e'
    · obtain ⟨q, hq, _⟩ := zpow_split e' _ h
      rw [hq] at hx ⊢
      rw [hone] at hx ⊢
      have hpos := two_zpow_pos (1 - f.prec : ℤ)
      have h1 : ((2 ^ (f.prec - 1) : ℤ) : ℝ) < ((m * 2 ^ q : ℤ) : ℝ) := by
        refine lt_of_mul_lt_mul_right ?_ hpos.le
        calc _ < _ := hx
          _ = _ := by push_cast; ring
      have h2 : (2 : ℤ) ^ (f.prec - 1) + 1 ≤ m * 2 ^ q := by exact_mod_cast h1
      have h3 : ((2 ^ (f.prec - 1) + 1 : ℤ) : ℝ) ≤ ((m * 2 ^ q : ℤ) : ℝ) := by exact_mod_cast h2
      have h4 := mul_le_mul_of_nonneg_right h3 hpos.le
      push_cast at h4 ⊢
      linarith
    · exfalso
      have h1 : (m : ℝ) ≤ 2 ^ f.prec := by
        have := (le_abs_self m).trans hm.le
        exact_mod_cast this
      have h2 : (2 : ℝ) ^ e' ≤ 2 ^ (-(f.prec : ℤ)) := zpow_le_zpow_right₀ (by norm_num) (by omega)
      have h3 : (m : ℝ) * 2 ^ e' ≤ 2 ^ f.prec * 2 ^ (-(f.prec : ℤ)) :=
        mul_le_mul h1 h2 (two_zpow_pos _).le (by positivity)
      rw [zpow_neg, zpow_natCast, mul_inv_cancel₀ (by positivity)] at h3
      linarith

/-! ### The order of the bits -/

theorem magnitude_succ (b : Nat) : f.magnitude b < f.magnitude (b + 1) := by
  have hP : 0 < 2 ^ (f.prec - 1) := by positivity
  have hdiv := Nat.div_add_mod b (2 ^ (f.prec - 1))
  have hmod := Nat.mod_lt b hP
  unfold magnitude
  dsimp only
  generalize b / 2 ^ (f.prec - 1) = e at *
  generalize b % 2 ^ (f.prec - 1) = m at *
  generalize 2 ^ (f.prec - 1) = P at *
  subst hdiv
  by_cases h : m + 1 < P
  · have e1 : (P * e + m + 1) / P = e := by
      rw [Nat.add_assoc, Nat.mul_add_div hP, Nat.div_eq_of_lt h, add_zero]
    have e2 : (P * e + m + 1) % P = m + 1 := by
      rw [Nat.add_assoc, Nat.mul_add_mod, Nat.mod_eq_of_lt h]
    rw [e1, e2]
    split
    · refine mul_lt_mul_of_pos_right ?_ (pow2_pos _); push_cast; linarith
    · refine mul_lt_mul_of_pos_right ?_ (pow2_pos _); push_cast; linarith
  · obtain rfl : P = m + 1 := by omega
    have e1 : ((m + 1) * e + m + 1) / (m + 1) = e + 1 := by
      rw [Nat.add_assoc, Nat.mul_add_div hP, Nat.div_self hP]
    have e2 : ((m + 1) * e + m + 1) % (m + 1) = 0 := by
      rw [Nat.add_assoc, Nat.mul_add_mod, Nat.mod_self]
    rw [e1, e2, if_neg (by omega : ¬ e + 1 = 0)]
    split
    · rename_i h0
      subst h0
      rw [show f.emin + ((0 + 1 : Nat) : ℤ) - 1 = f.emin by push_cast; ring]
      refine mul_lt_mul_of_pos_right ?_ (pow2_pos _); push_cast; linarith
    · rw [show f.emin + ((e + 1 : Nat) : ℤ) - 1 = 1 + (f.emin + (e : ℤ) - 1) by push_cast; ring, pow2_add 1]
      have := pow2_pos (f.emin + (e : ℤ) - 1)
      have h2 : pow2 1 = 2 := by rw [pow2_eq]; norm_num
      rw [h2, ← mul_assoc]
      refine mul_lt_mul_of_pos_right ?_ this
      push_cast
      have : (0 : ℚ) ≤ m := by positivity
      linarith

theorem magnitude_strictMono : StrictMono f.magnitude := strictMono_nat_of_lt_succ magnitude_succ

/-- The value on the extended real line of the bits `m` without sign. -/
noncomputable def extMag (f : FloatFormat) (k m : Nat) : EReal := if m = f.top k then ⊤ else (((f.magnitude m : ℚ) : ℝ) : EReal)

theorem extMag_lt {m n : Nat} (hm : m ≤ f.top k) (hn : n ≤ f.top k) : extMag f k m < extMag f k n ↔ m < n := by
  unfold extMag
  by_cases h1 : m = f.top k
  · rw [if_pos h1]; constructor
    · intro h; exact absurd h not_top_lt
    · intro h; omega
  · rw [if_neg h1]
    by_cases h2 : n = f.top k
    · rw [if_pos h2]; exact ⟨fun _ => by omega, fun _ => EReal.coe_lt_top _⟩
    · rw [if_neg h2, EReal.coe_lt_coe_iff, Rat.cast_lt, magnitude_strictMono.lt_iff_lt]

theorem extMag_le {m n : Nat} (hm : m ≤ f.top k) (hn : n ≤ f.top k) : extMag f k m ≤ extMag f k n ↔ m ≤ n := by
  rw [← not_lt, extMag_lt hn hm, not_lt]

/-- The bits with a sign. -/
def pat (f : FloatFormat) (k : Nat) (s : Bool) (m : Nat) : BitVec (k + f.prec) :=
  BitVec.ofNat _ (m + if s then 2 ^ (k + f.prec - 1) else 0)

/-- The bits without sign. -/
def magBits (f : FloatFormat) (k : Nat) (b : BitVec (k + f.prec)) : Nat := b.toNat % 2 ^ (k + f.prec - 1)

theorem value_pat (hk : f.Interchange k) (s : Bool) {m : Nat} (hm : m ≤ f.top k) :
    value f k (pat f k s m) ≠ nan ∧ (value f k (pat f k s m)).sign = s ∧
      (value f k (pat f k s m)).ext = if s then -extMag f k m else extMag f k m := by
  have htop := hk.top_lt
  have hP : 0 < 2 ^ (f.prec - 1) := by positivity
  obtain ⟨e1, e2⟩ := hk.split s (m := m) (by omega)
  unfold value decode pat
  dsimp only
  rw [e1, e2, if_neg (by omega)]
  by_cases h : m = f.top k
  · rw [if_pos h, extMag, if_pos h]
    refine ⟨by simp, rfl, ?_⟩
    cases s <;> simp [ext]
  · rw [if_neg h, extMag, if_neg h]
    obtain ⟨r, h0, hle, hz⟩ := hk.magnitude_spec (b := m) (by omega)
    have habs : |f.magnitude m| ≤ f.maxQ := by rwa [abs_of_nonneg h0]
    cases s
    · simp only [Bool.false_eq_true, if_false]
      rw [hk.pack_fin false r habs (fun _ => rfl)]
      exact ⟨by simp [Sf.toFl], by simp [Sf.toFl, sign, h0], by simp [Sf.toFl, ext, val]⟩
    · simp only [if_true]
      rcases h0.eq_or_lt with h1 | h1
      · rw [← h1, neg_zero]
        unfold Sf.pack
        rw [dif_pos (by rw [abs_zero]; exact h0.trans hle), if_pos ⟨rfl, rfl⟩]
        exact ⟨by simp, rfl, by simp [ext, val]⟩
      · rw [hk.pack_fin true (hk.rndQ_neg r) (by rwa [abs_neg]) (fun g => absurd g (by linarith))]
        exact ⟨by simp [Sf.toFl], by simp [Sf.toFl, sign, h1], by simp [Sf.toFl, ext, val]⟩

theorem pat_of (hk : f.Interchange k) (b : BitVec (k + f.prec)) (hb : value f k b ≠ nan) :
    magBits f k b ≤ f.top k ∧ b = pat f k b.msb (magBits f k b) := by
  refine ⟨?_, hk.unsplit b⟩
  by_contra h
  refine hb ?_
  unfold value decode
  dsimp only
  rw [show b.toNat % 2 ^ (k + f.prec - 1) = magBits f k b from rfl, if_pos (by omega)]
  rfl

theorem sign_value (hk : f.Interchange k) (b : BitVec (k + f.prec)) (hb : value f k b ≠ nan) : (value f k b).sign = b.msb := by
  obtain ⟨h1, h2⟩ := pat_of hk b hb
  have := (value_pat hk b.msb h1).2.1
  rwa [← h2] at this

theorem toInt_eq (b : BitVec (k + f.prec)) :
    b.toInt = (magBits f k b : ℤ) - (if b.msb then 2 ^ (k + f.prec - 1) else 0) ∧ magBits f k b < 2 ^ (k + f.prec - 1) := by
  have hw : 2 ^ (k + f.prec) = 2 * 2 ^ (k + f.prec - 1) := by
    have := f.prec_pos
    rw [← pow_succ']; congr 1; omega
  have hb := b.isLt
  have hH : 0 < 2 ^ (k + f.prec - 1) := by positivity
  refine ⟨?_, Nat.mod_lt _ hH⟩
  rw [BitVec.toInt_eq_msb_cond, BitVec.msb_eq_decide, magBits]
  have hc : ((2 ^ (k + f.prec) : Nat) : ℤ) = 2 * ((2 ^ (k + f.prec - 1) : Nat) : ℤ) := by rw [hw]; push_cast; ring
  have hc2 : (2 : ℤ) ^ (k + f.prec - 1) = ((2 ^ (k + f.prec - 1) : Nat) : ℤ) := by push_cast; rfl
  by_cases h : 2 ^ (k + f.prec - 1) ≤ b.toNat
  · simp only [h, decide_true, if_true]
    rw [hc, hc2]
    have : b.toNat % 2 ^ (k + f.prec - 1) = b.toNat - 2 ^ (k + f.prec - 1) := by
      rw [Nat.mod_eq_sub_mod h, Nat.mod_eq_of_lt (by omega)]
    rw [this]; omega
  · simp only [h, decide_false, Bool.false_eq_true, if_false]
    rw [Nat.mod_eq_of_lt (by omega)]; omega

theorem dist_nat (m n : Nat) : ((Max.max m n - Min.min m n : Nat) : ℤ) = |(m : ℤ) - n| := by
  rcases le_total m n with h | h
  · rw [max_eq_right h, min_eq_left h, abs_of_nonpos (by omega)]; omega
  · rw [max_eq_left h, min_eq_right h, abs_of_nonneg (by omega)]; omega

/-- The values with the sign of `x` that are passed on the way from the smaller of `x` and `y` to the larger one, which is
counted and the other not: as many as there are steps from a number to the next. -/
def steps (x y : Fl f) : Set (Fl f) :=
  {z | z ≠ nan ∧ z.sign = x.sign ∧ Min.min x.ext y.ext < z.ext ∧ z.ext ≤ Max.max x.ext y.ext}

/-- C107: for numbers of the same sign, the difference of the bits is the number of steps from one to the other. -/
theorem C107_ulps_distance (hk : f.Interchange k) (a b : BitVec (k + f.prec)) (ha : value f k a ≠ nan) (hb : value f k b ≠ nan)
    (hs : (value f k a).sign = (value f k b).sign) :
    (steps (value f k a) (value f k b)).Finite ∧
    ((steps (value f k a) (value f k b)).ncard : ℤ) = |a.toInt - b.toInt| := by
  obtain ⟨a1, a2⟩ := pat_of hk a ha
  obtain ⟨b1, b2⟩ := pat_of hk b hb
  have sa := sign_value hk a ha
  have sb := sign_value hk b hb
  have ea := (value_pat hk a.msb a1).2.2
  have eb := (value_pat hk b.msb b1).2.2
  rw [← a2] at ea
  rw [← b2] at eb
  have hab : a.msb = b.msb := by rw [← sa, ← sb, hs]
  have hdiff : a.toInt - b.toInt = (magBits f k a : ℤ) - magBits f k b := by
    rw [(toInt_eq a).1, (toInt_eq b).1, hab]; ring
  rw [hdiff]
  rw [hab] at ea
  generalize hsv : b.msb = s at *
  generalize magBits f k a = m at *
  generalize magBits f k b = n at *
  have inj : Set.InjOn (fun i => value f k (pat f k s i)) {i | i ≤ f.top k} := by
    intro i hi j hj h
    have h1 := (value_pat hk s hi).2.2
    have h2 := (value_pat hk s hj).2.2
    simp only at h
    rw [h, h2] at h1
    have h3 : extMag f k j = extMag f k i := by
      cases s
      · simpa using h1
      · simpa using h1
    have h4 := (extMag_le hi hj).1 h3.ge
    have h5 := (extMag_le hj hi).1 h3.le
    omega
  have every : ∀ z : Fl f, z ≠ nan → z.sign = s → ∃ i, i ≤ f.top k ∧ value f k (pat f k s i) = z := by
    intro z hz hzs
    obtain ⟨c, rfl⟩ := (C105_patterns hk).1 z
    obtain ⟨c1, c2⟩ := pat_of hk c hz
    refine ⟨_, c1, ?_⟩
    rw [← hzs, sign_value hk c hz, ← c2]
  have count : ∀ I : Finset Nat, (∀ i ∈ I, i ≤ f.top k) →
      (∀ i, i ≤ f.top k → (i ∈ I ↔ Min.min (value f k a).ext (value f k b).ext < (value f k (pat f k s i)).ext ∧
        (value f k (pat f k s i)).ext ≤ Max.max (value f k a).ext (value f k b).ext)) →
      (steps (value f k a) (value f k b)).Finite ∧ (steps (value f k a) (value f k b)).ncard = I.card := by
    intro I hI hmem
    have e : steps (value f k a) (value f k b) = (fun i => value f k (pat f k s i)) '' (I : Set Nat) := by
      ext z
      simp only [steps, Set.mem_ofPred_eq, Set.mem_image, Finset.mem_coe]
      constructor
      · rintro ⟨z1, z2, z3, z4⟩
        rw [sa] at z2
        obtain ⟨i, hi, rfl⟩ := every z z1 (by rw [z2, hab])
        exact ⟨i, (hmem i hi).2 ⟨z3, z4⟩, rfl⟩
      · rintro ⟨i, hi, rfl⟩
        obtain ⟨p1, p2, _⟩ := value_pat hk s (hI i hi)
        exact ⟨p1, by rw [p2, sa, hab], (hmem i (hI i hi)).1 hi⟩
    rw [e]
    refine ⟨(Finset.finite_toSet I).image _, ?_⟩
    rw [Set.InjOn.ncard_image (inj.mono fun i hi => hI i hi), Set.ncard_coe_finset]
  rw [ea, eb] at count
  cases s
  · simp only [Bool.false_eq_true, if_false] at count
    obtain ⟨c1, c2⟩ := count (Finset.Ioc (Min.min m n) (Max.max m n)) (fun i hi => by
      rw [Finset.mem_Ioc] at hi; have := max_le a1 b1; omega) (fun i hi => by
      have h2 := (value_pat hk false hi).2.2
      simp only [Bool.false_eq_true, if_false] at h2
      rw [h2, Finset.mem_Ioc, min_lt_iff, min_lt_iff, le_max_iff, le_max_iff, extMag_lt a1 hi, extMag_lt b1 hi, extMag_le hi a1, extMag_le hi b1])
    refine ⟨c1, ?_⟩
    rw [c2, Nat.card_Ioc, dist_nat]
  · simp only [if_true] at count
    obtain ⟨c1, c2⟩ := count (Finset.Ico (Min.min m n) (Max.max m n)) (fun i hi => by
      rw [Finset.mem_Ico] at hi; have := max_le a1 b1; omega) (fun i hi => by
      have h2 := (value_pat hk true hi).2.2
      simp only [if_true] at h2
      rw [h2, Finset.mem_Ico, min_le_iff, lt_max_iff, le_max_iff, min_lt_iff, EReal.neg_lt_neg_iff, EReal.neg_lt_neg_iff, EReal.neg_le_neg_iff,
        EReal.neg_le_neg_iff, extMag_lt hi a1, extMag_lt hi b1, extMag_le a1 hi, extMag_le b1 hi]
      tauto)
    refine ⟨c1, ?_⟩
    rw [c2, Nat.card_Ico, dist_nat]

/-! ### `ulps_eq` -/

theorem one_sign : ((Ops.ieee f).one).sign = false ∧ ((Ops.ieee f).one).IsFinite ∧ ((Ops.ieee f).one).val = 1 := by
  simp [Ops.ieee, Fl.ofInt, sign, Fl.IsFinite, val]

theorem signum_eq (x y : Fl f) : x.signum.beq y.signum = true ↔ x ≠ nan ∧ y ≠ nan ∧ x.sign = y.sign := by
  obtain ⟨_, o2, o3⟩ := one_sign (f := f)
  have n2 := finite_neg.2 o2
  have n3 : (Ops.ieee f).one.neg.val = -1 := by rw [val_neg, o3]
  rw [beq_iff]
  unfold signum
  by_cases hx : x = nan
  · simp [hx]
  by_cases hy : y = nan
  · simp [hy]
  rw [if_neg hx, if_neg hy]
  have c : ∀ s : Bool, (if s = true then (Ops.ieee f).one.neg else (Ops.ieee f).one) ≠ nan ∧
      (if s = true then (Ops.ieee f).one.neg else (Ops.ieee f).one).ext = (((if s = true then -1 else 1 : ℝ)) : EReal) := by
    intro s
    cases s
    · simp only [Bool.false_eq_true, if_false]; exact ⟨ne_nan_of_finite o2, by rw [ext_of_finite o2, o3]⟩
    · simp only [if_true]; exact ⟨ne_nan_of_finite n2, by rw [ext_of_finite n2, n3]⟩
  rw [(c x.sign).2, (c y.sign).2, EReal.coe_eq_coe_iff]
  refine ⟨fun h => ⟨hx, hy, ?_⟩, fun h => ⟨(c _).1, (c _).1, by rw [h.2.2]⟩⟩
  have := h.2.2
  cases hsx : x.sign <;> cases hsy : y.sign <;> rw [hsx, hsy] at this <;> first | rfl | (norm_num at this)

theorem fitS_fits (checks : Bool) {w : Nat} (hw : 0 < w) {z : ℤ} (h1 : -2 ^ (w - 1) ≤ z) (h2 : z < 2 ^ (w - 1)) :
    ∃ b, fitS checks w z = .ok b ∧ b.toInt = z := by
  refine ⟨BitVec.ofInt w z, ?_, ?_⟩
  · unfold fitS; rw [if_neg (by simp [h1, h2])]
  · rw [BitVec.toInt_ofInt]
    obtain ⟨n, rfl⟩ : ∃ n, w = n + 1 := ⟨w - 1, by omega⟩
    simp only [Nat.add_sub_cancel] at h1 h2
    have e : ((2 ^ (n + 1) : Nat) : ℤ) = 2 * 2 ^ n := by push_cast; ring
    rw [Int.bmod_eq_of_le]
    · rw [e]; omega
    · rw [e]; omega

theorem ulpsEq_iff (hk : f.Interchange k) (t : Target) (a b eps : BitVec (k + f.prec)) (n : BitVec 32) :
    ∃ x, ulpsEq t (.bits f k) a b eps n = .ok x ∧ (x = true ↔
      ((value f k a).sub (value f k b)).abs.le (value f k eps) = true ∨
      (value f k a ≠ nan ∧ value f k b ≠ nan ∧ (value f k a).sign = (value f k b).sign ∧
        ((steps (value f k a) (value f k b)).ncard : ℤ) ≤ (n.setWidth (k + f.prec)).toInt)) := by
  have e1 : (FloatCmp.bits f k).le ((FloatCmp.bits f k).abs ((FloatCmp.bits f k).sub a b)) eps =
      ((value f k a).sub (value f k b)).abs.le (value f k eps) := by
    simp only [FloatCmp.bits, value, hk.decode_encode, Sf.toFl_le, Sf.toFl_abs, Sf.toFl_add, Sf.toFl_neg, Fl.sub]
  have e2 : (FloatCmp.bits f k).eq ((FloatCmp.bits f k).signum a) ((FloatCmp.bits f k).signum b) =
      (value f k a).signum.beq (value f k b).signum := by
    simp only [FloatCmp.bits, value, hk.decode_encode, Sf.toFl_beq, Sf.toFl_signum]
  unfold ulpsEq
  rw [e1, e2]
  by_cases h1 : ((value f k a).sub (value f k b)).abs.le (value f k eps) = true
  · rw [if_pos h1]; exact ⟨true, rfl, by simp [h1]⟩
  rw [if_neg h1]
  by_cases h2 : (value f k a).signum.beq (value f k b).signum = true
  · rw [if_neg (by simp [h2])]
    rw [signum_eq] at h2
    obtain ⟨ha, hb, hs⟩ := h2
    have hab : a.msb = b.msb := by rw [← sign_value hk a ha, ← sign_value hk b hb, hs]
    have hw : 0 < k + f.prec := by have := f.prec_pos; omega
    have hdiff : a.toInt - b.toInt = (magBits f k a : ℤ) - magBits f k b := by
      rw [(toInt_eq a).1, (toInt_eq b).1, hab]; ring
    have ba : (magBits f k a : ℤ) < 2 ^ (k + f.prec - 1) := by exact_mod_cast (toInt_eq a).2
    have bb : (magBits f k b : ℤ) < 2 ^ (k + f.prec - 1) := by exact_mod_cast (toInt_eq b).2
    obtain ⟨d, d1, d2⟩ := fitS_fits t.overflowChecks hw (z := a.toInt - b.toInt) (by omega) (by omega)
    have habs : |d.toInt| < 2 ^ (k + f.prec - 1) := by rw [d2, abs_lt]; constructor <;> omega
    obtain ⟨d', d3, d4⟩ := fitS_fits t.overflowChecks hw (z := |d.toInt|) (by have := abs_nonneg d.toInt; omega) habs
    rw [d1, res_ok_bind, d3, res_ok_bind]
    refine ⟨_, rfl, ?_⟩
    rw [BitVec.sle_iff_toInt_le, d4, d2, (C107_ulps_distance hk a b ha hb hs).2]
    simp [h1, ha, hb, hs]
  · rw [if_pos (by simp [h2])]
    rw [signum_eq] at h2
    refine ⟨false, rfl, ?_⟩
    simp only [Bool.false_eq_true, h1, false_or, false_iff]
    rintro ⟨g1, g2, g3, -⟩
    exact h2 ⟨g1, g2, g3⟩

variable {r c : Nat}

theorem ulps_iff (hk : f.Interchange k) (t : Target) (hr : r < t.W) (a b : Mat (BitVec (k + f.prec)) r c) (eps : BitVec (k + f.prec)) (n : BitVec 32) :
    ∃ x, a.ulpsEqBits t f k b eps n = .ok x ∧ (x = true ↔ ∀ i j,
      ((value f k (a.get i j)).sub (value f k (b.get i j))).abs.le (value f k eps) = true ∨
      (value f k (a.get i j) ≠ nan ∧ value f k (b.get i j) ≠ nan ∧ (value f k (a.get i j)).sign = (value f k (b.get i j)).sign ∧
        ((steps (value f k (a.get i j)) (value f k (b.get i j))).ncard : ℤ) ≤ (n.setWidth (k + f.prec)).toInt)) := by
  choose g g1 g2 using fun x y : BitVec (k + f.prec) => ulpsEq_iff hk t x y eps n
  obtain ⟨x, h1, h2⟩ := relativeEqM_pure t hr (fun x y _ _ => g x y) a b eps eps
  refine ⟨x, ?_, ?_⟩
  · rw [← h1]
    unfold Mat.ulpsEqBits Mat.ulpsEqM Mat.relativeEqM
    simp only [pure_bind, BitVec.ofNat_toNat, BitVec.setWidth_eq, g1]
  · simp only [h2, g2]

/-- C107, `ulps_eq` with a tolerance that fits the signed integer type of the width (always for `f64`; below `2^31` for `f32`): it
never panics, and holds if every two corresponding entries are at most `epsilon` apart as computed, or are numbers of the same
sign with at most `max_ulps` steps between them. -/
theorem C107_ulps_eq (hk : f.Interchange k) (t : Target) (hr : r < t.W) (a b : Mat (BitVec (k + f.prec)) r c) (eps : BitVec (k + f.prec))
    (n : BitVec 32) (hw : 32 ≤ k + f.prec) (hn : n.toNat < 2 ^ (k + f.prec - 1)) :
    ∃ x, a.ulpsEqBits t f k b eps n = .ok x ∧ (x = true ↔ ∀ i j,
      ((value f k (a.get i j)).sub (value f k (b.get i j))).abs.le (value f k eps) = true ∨
      (value f k (a.get i j) ≠ nan ∧ value f k (b.get i j) ≠ nan ∧ (value f k (a.get i j)).sign = (value f k (b.get i j)).sign ∧
        (steps (value f k (a.get i j)) (value f k (b.get i j))).ncard ≤ n.toNat)) := by
  obtain ⟨x, h1, h2⟩ := ulps_iff hk t hr a b eps n
  refine ⟨x, h1, ?_⟩
  have e : (n.setWidth (k + f.prec)).toInt = n.toNat := by
    have h3 : (n.setWidth (k + f.prec)).toNat = n.toNat := by
      rw [BitVec.toNat_setWidth, Nat.mod_eq_of_lt]
      exact lt_of_lt_of_le n.isLt (Nat.pow_le_pow_right (by norm_num) hw)
    rw [BitVec.toInt_eq_toNat_of_msb, h3]
    rw [BitVec.msb_eq_decide, h3]; simpa using hn
  rw [h2, e]
  simp only [Nat.cast_le]

/-- C107: the defaults, and what `max_ulps` can be, for the two types. -/
theorem C107_ulps_ranges : 8 + f32.prec = 32 ∧ 11 + f64.prec = 64 ∧ (∀ n : BitVec 32, n.toNat < 2 ^ (11 + f64.prec - 1)) ∧
    defaultMaxUlps.toNat = 4 := by
  refine ⟨rfl, rfl, fun n => lt_of_lt_of_le n.isLt ?_, rfl⟩
  exact Nat.pow_le_pow_right (by norm_num) (by decide)

/-- C107: for `f32` a tolerance of `2^31` steps or more is negative as an `i32`, and then only `epsilon` counts: equal infinities
differ. -/
theorem C107_ulps_wraps (t : Target) (hr : r < t.W) (a b : Mat (BitVec (8 + f32.prec)) r c) (eps : BitVec (8 + f32.prec))
    (n : BitVec 32) (hn : 2 ^ 31 ≤ n.toNat) :
    ∃ x, a.ulpsEqBits t f32 8 b eps n = .ok x ∧ (x = true ↔ ∀ i j,
      ((value f32 8 (a.get i j)).sub (value f32 8 (b.get i j))).abs.le (value f32 8 eps) = true) := by
  obtain ⟨x, h1, h2⟩ := ulps_iff C105_formats.1 t hr a b eps n
  refine ⟨x, h1, ?_⟩
  have e : (n.setWidth (8 + f32.prec)).toInt < 0 := by
    show (n.setWidth 32).toInt < 0
    rw [BitVec.setWidth_eq, BitVec.toInt_eq_msb_cond, BitVec.msb_eq_decide]
    have := n.isLt
    rw [if_pos (by simpa using hn)]
    omega
  rw [h2]
  refine forall_congr' fun i => forall_congr' fun j => or_iff_left ?_
  rintro ⟨-, -, -, h⟩
  omega

theorem sub_abs_le_comm (x y e : Fl f) : (x.sub y).abs.le e = (y.sub x).abs.le e := by
  by_cases hx : x.IsFinite
  · by_cases hy : y.IsFinite
    · obtain ⟨d1, d2⟩ := ext_dist hx hy
      obtain ⟨d3, d4⟩ := ext_dist hy hx
      rw [Bool.eq_iff_iff, le_iff, le_iff, d2, d4, abs_sub_comm]
      simp [d1, d3]
    · cases y with
      | nan => simp [Fl.sub, nan_add, Fl.neg, add_nan]
      | inf s =>
        rw [Fl.sub, Fl.sub, Fl.neg, add_inf hx, inf_add (finite_neg.2 hx), abs_inf, abs_inf]
      | _ => exact absurd trivial hy
  · cases x with
    | nan => simp [Fl.sub, nan_add, Fl.neg, add_nan]
    | inf s =>
      by_cases hy : y.IsFinite
      · rw [Fl.sub, Fl.sub, Fl.neg, add_inf hy, inf_add (finite_neg.2 hy), abs_inf, abs_inf]
      · cases y with
        | nan => simp [Fl.sub, nan_add, Fl.neg, add_nan]
        | inf s' => cases s <;> cases s' <;> rfl
        | _ => exact absurd trivial hy
    | _ => exact absurd trivial hx

/-- C107: `ulps_eq` does not depend on the order of the operands; larger tolerances accept more; a matrix is equal to itself
exactly if it contains no NaN (for all tolerances of C107_ulps_eq). -/
theorem C107_ulps_laws (hk : f.Interchange k) (t : Target) (hr : r < t.W) (a b : Mat (BitVec (k + f.prec)) r c) (eps eps' : BitVec (k + f.prec))
    (n n' : BitVec 32) (hw : 32 ≤ k + f.prec) (hn : n.toNat < 2 ^ (k + f.prec - 1)) (hn' : n'.toNat < 2 ^ (k + f.prec - 1)) :
    a.ulpsEqBits t f k b eps n = b.ulpsEqBits t f k a eps n ∧
    ((value f k eps).le (value f k eps') = true → n.toNat ≤ n'.toNat → a.ulpsEqBits t f k b eps n = .ok true →
      a.ulpsEqBits t f k b eps' n' = .ok true) ∧
    (a.ulpsEqBits t f k a eps n = .ok true ↔ ∀ i j, value f k (a.get i j) ≠ nan) := by
  have key : ∀ (a b : Mat (BitVec (k + f.prec)) r c) (eps : BitVec (k + f.prec)) (n : BitVec 32), n.toNat < 2 ^ (k + f.prec - 1) →
      (a.ulpsEqBits t f k b eps n = .ok true ↔ ∀ i j,
      ((value f k (a.get i j)).sub (value f k (b.get i j))).abs.le (value f k eps) = true ∨
      (value f k (a.get i j) ≠ nan ∧ value f k (b.get i j) ≠ nan ∧ (value f k (a.get i j)).sign = (value f k (b.get i j)).sign ∧
        (steps (value f k (a.get i j)) (value f k (b.get i j))).ncard ≤ n.toNat)) := by
    intro a b eps n hn
    obtain ⟨x, h1, h2⟩ := C107_ulps_eq hk t hr a b eps n hw hn
    rw [h1, ← h2, Except.ok.injEq]
  refine ⟨?_, fun he hle h => ?_, ?_⟩
  · obtain ⟨x, h1, h2⟩ := C107_ulps_eq hk t hr a b eps n hw hn
    obtain ⟨y, h3, h4⟩ := C107_ulps_eq hk t hr b a eps n hw hn
    rw [h1, h3, Except.ok.injEq, Bool.eq_iff_iff, h2, h4]
    refine forall_congr' fun i => forall_congr' fun j => ?_
    rw [sub_abs_le_comm]
    refine or_congr_right ?_
    have e : ∀ x y : Fl f, x.sign = y.sign → steps x y = steps y x := fun x y h => by
      unfold steps; rw [h, min_comm, max_comm]
    constructor
    · rintro ⟨g1, g2, g3, g4⟩; exact ⟨g2, g1, g3.symm, by rwa [e _ _ g3.symm]⟩
    · rintro ⟨g1, g2, g3, g4⟩; exact ⟨g2, g1, g3.symm, by rwa [e _ _ g3.symm]⟩
  · rw [key _ _ _ _ hn] at h
    rw [key _ _ _ _ hn']
    intro i j
    rcases h i j with g | ⟨g1, g2, g3, g4⟩
    · left
      rw [le_iff] at g he ⊢
      exact ⟨g.1, he.2.1, g.2.2.trans he.2.2⟩
    · exact .inr ⟨g1, g2, g3, g4.trans hle⟩
  · rw [key _ _ _ _ hn]
    refine forall_congr' fun i => forall_congr' fun j => ⟨?_, fun h => .inr ⟨h, h, rfl, ?_⟩⟩
    · rintro (g | ⟨g, -⟩)
      · intro hx
        rw [le_iff, hx] at g
        exact g.1 (by rw [Fl.sub, nan_add, abs_nan])
      · exact g
    · have : steps (value f k (a.get i j)) (value f k (a.get i j)) = ∅ := by
        ext z
        simp only [steps, Set.mem_ofPred_eq, min_self, max_self, Set.mem_empty_iff_false, iff_false]
        rintro ⟨-, -, z3, z4⟩
        exact absurd z3 (not_lt.2 z4)
      rw [this, Set.ncard_empty]; exact Nat.zero_le _

theorem magnitude_gap (b : Nat) : f.magnitude (b + 1) - f.magnitude b ≤ Max.max (pow2 f.emin) (f.magnitude b / 2 ^ (f.prec - 1)) := by
  have hP : 0 < 2 ^ (f.prec - 1) := by positivity
  have hdiv := Nat.div_add_mod b (2 ^ (f.prec - 1))
  have hmod := Nat.mod_lt b hP
  have hPc : ((2 : ℚ) ^ (f.prec - 1)) = ((2 ^ (f.prec - 1) : Nat) : ℚ) := by push_cast; rfl
  rw [hPc]
  unfold magnitude
  dsimp only
  generalize b / 2 ^ (f.prec - 1) = e at *
  generalize b % 2 ^ (f.prec - 1) = m at *
  generalize 2 ^ (f.prec - 1) = P at *
  subst hdiv
  have hPq : (0 : ℚ) < P := by exact_mod_cast hP
  have big : ∀ (L : ℤ), pow2 L ≤ ((m + P : Nat) : ℚ) * pow2 L / P := by
    intro L
    rw [le_div_iff₀ hPq, mul_comm]
    refine mul_le_mul_of_nonneg_right ?_ (pow2_pos L).le
    push_cast; have : (0 : ℚ) ≤ m := by positivity
    linarith
  by_cases h : m + 1 < P
  · have e1 : (P * e + m + 1) / P = e := by
      rw [Nat.add_assoc, Nat.mul_add_div hP, Nat.div_eq_of_lt h, add_zero]
    have e2 : (P * e + m + 1) % P = m + 1 := by
      rw [Nat.add_assoc, Nat.mul_add_mod, Nat.mod_eq_of_lt h]
    rw [e1, e2]
    split
    · refine le_max_of_le_left (le_of_eq ?_); push_cast; ring
    · refine le_max_of_le_right ((le_of_eq ?_).trans (big _)); push_cast; ring
  · obtain rfl : P = m + 1 := by omega
    have e1 : ((m + 1) * e + m + 1) / (m + 1) = e + 1 := by
      rw [Nat.add_assoc, Nat.mul_add_div hP, Nat.div_self hP]
    have e2 : ((m + 1) * e + m + 1) % (m + 1) = 0 := by
      rw [Nat.add_assoc, Nat.mul_add_mod, Nat.mod_self]
    rw [e1, e2, if_neg (by omega : ¬ e + 1 = 0)]
    split
    · rename_i h0
      subst h0
      rw [show f.emin + ((0 + 1 : Nat) : ℤ) - 1 = f.emin by push_cast; ring]
      refine le_max_of_le_left (le_of_eq ?_); push_cast; ring
    · rw [show f.emin + ((e + 1 : Nat) : ℤ) - 1 = 1 + (f.emin + (e : ℤ) - 1) by push_cast; ring, pow2_add 1]
      have h2 : pow2 1 = 2 := by rw [pow2_eq]; norm_num
      rw [h2]
      refine le_max_of_le_right ((le_of_eq ?_).trans (big _)); push_cast; ring

theorem magnitude_dist (b d : Nat) : f.magnitude (b + d) - f.magnitude b ≤ d * Max.max (pow2 f.emin) (f.magnitude (b + d) / 2 ^ (f.prec - 1)) := by
  induction d with
  | zero => simp
  | succ d ih =>
    have h1 := magnitude_gap (f := f) (b + d)
    have hm := (magnitude_succ (f := f) (b + d)).le
    have h2 : Max.max (pow2 f.emin) (f.magnitude (b + d) / 2 ^ (f.prec - 1)) ≤ Max.max (pow2 f.emin) (f.magnitude (b + d + 1) / 2 ^ (f.prec - 1)) :=
      max_le_max le_rfl (div_le_div_of_nonneg_right hm (by positivity))
    rw [← Nat.add_assoc]
    push_cast
    have h3 := mul_le_mul_of_nonneg_left h2 (show (0 : ℚ) ≤ d by positivity)
    have h4 := h1.trans h2
    linarith

/-- C107: finite numbers of the same sign with `n` steps between them differ by at most `n` times the default tolerance
`EPSILON`, relative to the larger one, or `n` times the smallest positive number. -/
theorem C107_ulps_implies (hk : f.Interchange k) (x y : Fl f) (hx : x.IsFinite) (hy : y.IsFinite) (hs : x.sign = y.sign) :
    |x.val - y.val| ≤ (steps x y).ncard * Max.max (2 ^ f.emin) (2 ^ (1 - f.prec : ℤ) * Max.max |x.val| |y.val|) := by
  obtain ⟨a, rfl⟩ := (C105_patterns hk).1 x
  obtain ⟨b, rfl⟩ := (C105_patterns hk).1 y
  have nx := ne_nan_of_finite hx
  have ny := ne_nan_of_finite hy
  obtain ⟨a1, a2⟩ := pat_of hk a nx
  obtain ⟨b1, b2⟩ := pat_of hk b ny
  have hab : a.msb = b.msb := by rw [← sign_value hk a nx, ← sign_value hk b ny, hs]
  have hdist := (C107_ulps_distance hk a b nx ny hs).2
  have hdiff : a.toInt - b.toInt = (magBits f k a : ℤ) - magBits f k b := by
    rw [(toInt_eq a).1, (toInt_eq b).1, hab]; ring
  rw [hdiff] at hdist
  have ha : (magBits f k a) < f.top k ∧ |(value f k a).val| = f.magnitude (magBits f k a) ∧
      (value f k a).val = (if a.msb then -1 else 1) * (f.magnitude (magBits f k a) : ℝ) := by
    have := (value_pat hk a.msb a1).2.2
    rw [← a2, ext_of_finite hx, extMag] at this
    by_cases h : magBits f k a = f.top k
    · rw [if_pos h] at this
      cases hm : a.msb <;> rw [hm] at this <;> simp at this
    · rw [if_neg h] at this
      have h0 := (hk.magnitude_spec (b := magBits f k a) (by omega)).2.1
      have h0' : (0 : ℝ) ≤ (f.magnitude (magBits f k a) : ℝ) := by exact_mod_cast h0
      refine ⟨by omega, ?_⟩
      cases hm : a.msb <;> rw [hm] at this <;> simp only [Bool.false_eq_true, if_false, if_true, ← EReal.coe_neg, EReal.coe_eq_coe_iff] at this ⊢
      · rw [this]; exact ⟨abs_of_nonneg h0', by ring⟩
      · rw [this]; exact ⟨by rw [abs_neg, abs_of_nonneg h0'], by ring⟩
  have hb : (magBits f k b) < f.top k ∧ |(value f k b).val| = f.magnitude (magBits f k b) ∧
      (value f k b).val = (if b.msb then -1 else 1) * (f.magnitude (magBits f k b) : ℝ) := by
    have := (value_pat hk b.msb b1).2.2
    rw [← b2, ext_of_finite hy, extMag] at this
    by_cases h : magBits f k b = f.top k
    · rw [if_pos h] at this
      cases hm : b.msb <;> rw [hm] at this <;> simp at this
    · rw [if_neg h] at this
      have h0 := (hk.magnitude_spec (b := magBits f k b) (by omega)).2.1
      have h0' : (0 : ℝ) ≤ (f.magnitude (magBits f k b) : ℝ) := by exact_mod_cast h0
      refine ⟨by omega, ?_⟩
      cases hm : b.msb <;> rw [hm] at this <;> simp only [Bool.false_eq_true, if_false, if_true, ← EReal.coe_neg, EReal.coe_eq_coe_iff] at this ⊢
      · rw [this]; exact ⟨abs_of_nonneg h0', by ring⟩
      · rw [this]; exact ⟨by rw [abs_neg, abs_of_nonneg h0'], by ring⟩
  have hval : |(value f k a).val - (value f k b).val| = |(f.magnitude (magBits f k a) : ℝ) - (f.magnitude (magBits f k b) : ℝ)| := by
    rw [ha.2.2, hb.2.2, hab, ← mul_sub, abs_mul]
    cases b.msb <;> simp
  rw [hval, ha.2.1, hb.2.1]
  generalize magBits f k a = m at *
  generalize magBits f k b = n at *
  generalize (steps (value f k a) (value f k b)).ncard = N at *
  clear hval ha hb a2 b2 hx hy nx ny hs hdiff a1 b1
  have two : (2 : ℝ) ^ (1 - f.prec : ℤ) = 1 / 2 ^ (f.prec - 1) := by
    have := f.prec_pos
    rw [show (1 - f.prec : ℤ) = -((f.prec - 1 : Nat) : ℤ) by omega, zpow_neg, zpow_natCast, one_div]
  have main : ∀ m d : Nat, |(f.magnitude m : ℝ) - (f.magnitude (m + d) : ℝ)| ≤
      d * Max.max (2 ^ f.emin) (2 ^ (1 - f.prec : ℤ) * Max.max (f.magnitude m : ℝ) (f.magnitude (m + d) : ℝ)) := by
    intro m d
    have h1 := magnitude_dist (f := f) m d
    have h2 : f.magnitude m ≤ f.magnitude (m + d) := magnitude_strictMono.monotone (by omega)
    have h3 : (f.magnitude m : ℝ) ≤ (f.magnitude (m + d) : ℝ) := by exact_mod_cast h2
    rw [max_eq_right h3, abs_sub_comm, abs_of_nonneg (by linarith), two, ← pow2_cast]
    have h4 : ((f.magnitude (m + d) - f.magnitude m : ℚ) : ℝ) ≤
      ((d * Max.max (pow2 f.emin) (f.magnitude (m + d) / 2 ^ (f.prec - 1)) : ℚ) : ℝ) := by exact_mod_cast h1
    push_cast at h4
    calc _ ≤ _ := h4
      _ = _ := by congr 2; ring
  rcases le_total m n with h | h
  · obtain ⟨d, rfl⟩ := Nat.exists_eq_add_of_le h
    have : N = d := by rw [abs_of_nonpos (by omega)] at hdist; omega
    rw [this]; exact main m d
  · obtain ⟨d, rfl⟩ := Nat.exists_eq_add_of_le h
    have : N = d := by rw [abs_of_nonneg (by omega)] at hdist; omega
    rw [this, abs_sub_comm, max_comm (f.magnitude (n + d) : ℝ)]; exact main n d

/-! ### Examples -/

deriving instance DecidableEq for Except

/-- Tolerances and entries as in C107_relative_holds and C107_relative_implies: 1 and 2 are 1 apart. -/
example (t : Target) (ht : 1 < t.W) :
    (⟨⟨[⟨[.ofInt 1 (by norm_num [f64])], rfl⟩], rfl⟩⟩ : Mat (Fl f64) 1 1).relativeEqFl t
      ⟨⟨[⟨[.ofInt 2 (by norm_num [f64])], rfl⟩], rfl⟩⟩ (.ofInt 1 (by norm_num [f64])) (.ofInt 0 (by norm_num [f64])) = .ok true := by
  refine C107_relative_holds t ht _ _ _ _ fun i j => ?_
  obtain rfl := Subsingleton.elim i 0
  obtain rfl := Subsingleton.elim j 0
  refine ⟨trivial, trivial, .inl ⟨trivial, ?_⟩⟩
  show |((1 : ℤ) : ℝ) - ((2 : ℤ) : ℝ)| ≤ ((1 : ℤ) : ℝ)
  norm_num

/-- A row of three `f32`, as bits. -/
def row (a b c : BitVec 32) : Mat (BitVec (8 + f32.prec)) 1 3 := ⟨⟨[⟨[a, b, c], rfl⟩], rfl⟩⟩
/-- A target for the examples. -/
def tgt : Target := ⟨true, true, 2 ^ 64⟩
/-- `f32::EPSILON`. -/
def eps32 : BitVec 32 := 0x34000000#32

/-- C107: approximate equality with the default tolerances is not transitive; `-0.0` and `0.0` are equal; `MAX` is 1 step from
infinity, so that `ulps_eq` accepts what `relative_eq` rejects; NaN differs from itself; infinity equals itself, but not with
`max_ulps` of `2^31`; and numbers around zero differ if neither is below the tolerance. -/
theorem C107_examples :
    (f32.encode 8 (Sf.round false (epsilon f32))).toNat = eps32.toNat ∧
    -- 1, 1 + EPSILON, 1 + 2 * EPSILON
    (row 0x3f800000 0 0).relativeEqBits tgt f32 8 (row 0x3f800001 0 0x80000000) eps32 eps32 = .ok true ∧
    (row 0x3f800001 0 0).relativeEqBits tgt f32 8 (row 0x3f800002 0 0x80000000) eps32 eps32 = .ok true ∧
    (row 0x3f800000 0 0).relativeEqBits tgt f32 8 (row 0x3f800002 0 0x80000000) eps32 eps32 = .ok false ∧
    (row 0x7f7fffff 0 0).ulpsEqBits tgt f32 8 (row 0x7f800000 0 0x80000000) eps32 defaultMaxUlps = .ok true ∧
    (row 0x7f7fffff 0 0).relativeEqBits tgt f32 8 (row 0x7f800000 0 0x80000000) eps32 eps32 = .ok false ∧
    (row 0x7fc00000 0 0).ulpsEqBits tgt f32 8 (row 0x7fc00000 0 0) eps32 defaultMaxUlps = .ok false ∧
    (row 0xff800000 0 0).ulpsEqBits tgt f32 8 (row 0xff800000 0 0) eps32 defaultMaxUlps = .ok true ∧
    (row 0xff800000 0 0).ulpsEqBits tgt f32 8 (row 0xff800000 0 0) eps32 0x80000000 = .ok false ∧
    -- 1 and the fourth and fifth number after it; -1 and 1
    (row 0x3f800000 0 0).ulpsEqBits tgt f32 8 (row 0x3f800004 0 0) 0 defaultMaxUlps = .ok true ∧
    (row 0x3f800000 0 0).ulpsEqBits tgt f32 8 (row 0x3f800005 0 0) 0 defaultMaxUlps = .ok false ∧
    (row 0x3f800000 0 0).ulpsEqBits tgt f32 8 (row 0xbf800000 0 0) 0 0x7fffffff = .ok false := by
  refine ⟨?_, ?_, ?_, ?_, ?_, ?_, ?_, ?_, ?_, ?_, ?_, ?_⟩ <;> decide +kernel

end ApproxMat
end Rowcol
