import Verif.Float

/-! Facts about the floating point operations. -/

namespace Rowcol
namespace Fl
variable {f : FloatFormat}

theorem finite_nan : (nan : Fl f).IsFinite ↔ False := Iff.rfl
theorem finite_inf {s : Bool} : (inf s : Fl f).IsFinite ↔ False := Iff.rfl
theorem finite_negZero : (negZero : Fl f).IsFinite ↔ True := Iff.rfl
theorem finite_fin {x : ℝ} {r : f.Rep x} {h : |x| ≤ f.max} : (fin x r h : Fl f).IsFinite ↔ True := Iff.rfl
theorem val_fin {x : ℝ} {r : f.Rep x} {h : |x| ≤ f.max} : (fin x r h : Fl f).val = x := rfl

theorem rep_val (a : Fl f) : f.Rep a.val := by
  cases a with
  | fin x r h => exact r
  | _ => exact .zero f

theorem abs_val_le (a : Fl f) : |a.val| ≤ f.max := by
  cases a with
  | fin x r h => exact h
  | _ => simp only [val, abs_zero]; exact (by positivity : (0 : ℝ) ≤ 2 ^ f.prec).trans f.pow_le_max

theorem round_finite_iff {s : Bool} {x : ℝ} : (round s x : Fl f).IsFinite ↔ |f.rnd x| ≤ f.max := by
  unfold round
  split
  · rename_i h; split <;> simp only [finite_negZero, finite_fin, h]
  · rename_i h; simp only [finite_inf, h]

theorem val_round {s : Bool} {x : ℝ} (h : (round s x : Fl f).IsFinite) : (round s x : Fl f).val = f.rnd x := by
  rw [round_finite_iff] at h
  unfold round
  rw [dif_pos h]
  split
  · rename_i h'; simp [val, h'.1]
  · rfl

theorem finite_add {a b : Fl f} (h : (a.add b).IsFinite) :
    a.IsFinite ∧ b.IsFinite ∧ (a.add b).val = f.rnd (a.val + b.val) := by
  cases a <;> cases b <;> simp only [add, finite_nan, finite_inf, finite_negZero, finite_fin, true_and] at h ⊢
  all_goals first
    | exact val_round h
    | exact h.elim
    | (split at h <;> exact h.elim)

theorem finite_neg {a : Fl f} : a.neg.IsFinite ↔ a.IsFinite := by
  cases a <;> simp only [neg, finite_nan, finite_inf, finite_negZero, finite_fin]
  split <;> simp only [finite_negZero, finite_fin]

theorem val_neg (a : Fl f) : a.neg.val = -a.val := by
  cases a with
  | fin x r h =>
    simp only [neg]
    split
    · rename_i h'; simp [val, h']
    · rfl
  | _ => simp [neg, val]

theorem finite_mul {a b : Fl f} (h : (a.mul b).IsFinite) :
    a.IsFinite ∧ b.IsFinite ∧ (a.mul b).val = f.rnd (a.val * b.val) := by
  cases a <;> cases b <;> simp only [mul, finite_nan, finite_inf, finite_negZero, finite_fin, true_and] at h ⊢
  all_goals first
    | exact val_round h
    | exact h.elim
    | (split at h <;> exact h.elim)

theorem add_of_finite {a b : Fl f} (ha : a.IsFinite) (hb : b.IsFinite) :
    a.add b = round (a.sign && b.sign) (a.val + b.val) := by
  cases a <;> cases b <;> first | rfl | exact ha.elim | exact hb.elim

theorem mul_of_finite {a b : Fl f} (ha : a.IsFinite) (hb : b.IsFinite) :
    a.mul b = round (a.sign ^^ b.sign) (a.val * b.val) := by
  cases a <;> cases b <;> first | rfl | exact ha.elim | exact hb.elim

theorem div_of_finite {a b : Fl f} (ha : a.IsFinite) (hb : b.IsFinite) (h0 : b.val ≠ 0) :
    a.div b = round (a.sign ^^ b.sign) (a.val / b.val) := by
  cases a <;> cases b <;> first | exact ha.elim | exact hb.elim | (simp only [div]; rw [if_neg h0])

theorem isZero_iff (a : Fl f) : a.isZero = true ↔ a.IsFinite ∧ a.val = 0 := by
  cases a <;> simp [isZero, IsFinite, val]

end Fl
end Rowcol
