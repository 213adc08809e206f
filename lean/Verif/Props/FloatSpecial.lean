import Verif.Props.FloatNorm

/-! C87: the special values of `f32`/`f64`: when an operation returns NaN, an infinity or a zero, and with which sign; division
of vectors and matrices by zero. -/

namespace Rowcol

namespace Fl
variable {f : FloatFormat}

theorem round_ne_nan (s : Bool) (x : ℝ) : (round s x : Fl f) ≠ nan := by
  unfold round
  split
  · split <;> simp
  · simp

theorem not_finite_iff {a : Fl f} : ¬ a.IsFinite ↔ a = nan ∨ ∃ s, a = inf s := by
  cases a <;> simp [IsFinite]

theorem inf_of_not_finite {a : Fl f} (h : ¬ a.IsFinite) (hn : a ≠ nan) : a = inf a.sign := by
  cases a <;> simp_all [IsFinite, sign]

/-- The sign of a zero that rounding an exact zero gives. -/
theorem round_zero (s : Bool) : (round s 0 : Fl f).IsFinite ∧ (round s 0 : Fl f).val = 0 ∧ (round s 0 : Fl f).sign = s := by
  have hmax : |f.rnd 0| ≤ f.max := by
    rw [f.rnd_zero, abs_zero]; exact (by positivity : (0:ℝ) ≤ 2 ^ f.prec).trans f.pow_le_max
  have h1 : (round s 0 : Fl f).IsFinite := round_finite_iff.2 hmax
  refine ⟨h1, by rw [val_round h1, f.rnd_zero], ?_⟩
  unfold round
  rw [dif_pos hmax]
  cases s <;> simp [sign]

theorem sign_xor {a b : Fl f} (ha : a.IsFinite) (hb : b.IsFinite) (ha0 : a.val ≠ 0) (hb0 : b.val ≠ 0) :
    (a.sign ^^ b.sign) = decide (a.val * b.val < 0) ∧ (a.sign ^^ b.sign) = decide (a.val / b.val < 0) := by
  rw [sign_of_ne ha ha0, sign_of_ne hb hb0]
  rcases lt_or_gt_of_ne ha0 with h | h <;> rcases lt_or_gt_of_ne hb0 with h' | h'
  · have h1 := mul_pos_of_neg_of_neg h h'
    have h2 := div_pos_of_neg_of_neg h h'
    simp [h, h', not_lt.2 h1.le, not_lt.2 h2.le]
  · have h1 := mul_neg_of_neg_of_pos h h'
    have h2 := div_neg_of_neg_of_pos h h'
    simp [h, not_lt.2 h'.le, h1, h2]
  · have h1 := mul_neg_of_pos_of_neg h h'
    have h2 := div_neg_of_pos_of_neg h h'
    simp [not_lt.2 h.le, h', h1, h2]
  · have h1 := mul_pos h h'
    have h2 := div_pos h h'
    simp [not_lt.2 h.le, not_lt.2 h'.le, not_lt.2 h1.le, not_lt.2 h2.le]

end Fl

variable {f : FloatFormat} {n r c : Nat}

/-- C87: the operations on `f32`/`f64` that return NaN (IEEE 754, section 7.2): those with a NaN operand, `∞ - ∞`, `∞ * 0`,
`∞ / ∞`, `0 / 0` and the square root of a number below zero; no other. -/
theorem C87_nan (a b : Fl f) :
    (a.add b = .nan ↔ a = .nan ∨ b = .nan ∨ ∃ s, a = .inf s ∧ b = .inf !s) ∧
    (a.add b.neg = .nan ↔ a = .nan ∨ b = .nan ∨ ∃ s, a = .inf s ∧ b = .inf s) ∧
    (a.mul b = .nan ↔ a = .nan ∨ b = .nan ∨ (∃ s, a = .inf s) ∧ b.isZero = true ∨ a.isZero = true ∧ ∃ s, b = .inf s) ∧
    (a.div b = .nan ↔ a = .nan ∨ b = .nan ∨ (∃ s s', a = .inf s ∧ b = .inf s') ∨ a.isZero = true ∧ b.isZero = true) ∧
    (a.neg = .nan ↔ a = .nan) ∧
    (a.sqrt = .nan ↔ a = .nan ∨ a = .inf true ∨ a.IsFinite ∧ a.val < 0) := by
  have hadd : ∀ a b : Fl f, a.add b = .nan ↔ a = .nan ∨ b = .nan ∨ ∃ s, a = .inf s ∧ b = .inf !s := by
    intro a b
    cases a <;> cases b <;> simp [Fl.add, Fl.round_ne_nan]
    rename_i s s'
    cases s <;> cases s' <;> simp
  have hneg : a.neg = .nan ↔ a = .nan := by
    cases a <;> simp [Fl.neg]
    split <;> simp
  refine ⟨hadd a b, ?_, ?_, ?_, hneg, ?_⟩
  · rw [hadd]
    have e1 : b.neg = .nan ↔ b = .nan := by
      cases b <;> simp [Fl.neg]
      split <;> simp
    have e2 : ∀ s, b.neg = .inf (!s) ↔ b = .inf s := by
      intro s
      cases b <;> simp [Fl.neg]
      split <;> simp
    simp only [e1, e2]
  · clear hadd hneg
    cases a <;> cases b <;> simp [Fl.mul, Fl.round_ne_nan, Fl.isZero, Fl.val]
    · rename_i x _ _; by_cases h : x = 0 <;> simp [h]
    · rename_i x _ _ _; by_cases h : x = 0 <;> simp [h]
  · clear hadd hneg
    cases a <;> cases b <;> simp [Fl.div, Fl.round_ne_nan, Fl.isZero, Fl.val]
    · rename_i x _ _; by_cases h : x = 0 <;> simp [h]
    · rename_i x _ _ y _ _
      by_cases h : y = 0 <;> by_cases h' : x = 0 <;> simp [h, h', Fl.round_ne_nan]
  · clear hadd hneg
    cases a <;> simp [Fl.sqrt, Fl.IsFinite, Fl.val]
    rename_i x _ _
    by_cases h : x < 0
    · simp [h, not_le.2 h]
    · simp [not_lt.1 h, Fl.round_ne_nan, h]

/-- C87: signs and infinities.  A product or quotient that is not NaN has the sign that the signs of the operands prescribe,
also if it is a zero or an infinity; an exact zero sum is `-0` only if both terms have the sign bit set; `∞` absorbs finite
terms and factors other than zero; finite nonzero numbers divided by zero are infinite, by infinity zero; and an operation on
finite numbers (except division by zero) is infinite only by overflow. -/
theorem C87_signs (a b : Fl f) :
    (a.mul b ≠ .nan → (a.mul b).sign = (a.sign ^^ b.sign)) ∧
    (a.div b ≠ .nan → (a.div b).sign = (a.sign ^^ b.sign)) ∧
    (a.IsFinite → b.IsFinite → a.val + b.val = 0 → (a.add b).isZero = true ∧ (a.add b).sign = (a.sign && b.sign)) ∧
    (a.IsFinite → b.IsFinite → a.val + b.val ≠ 0 → (a.add b).sign = decide (a.val + b.val < 0)) ∧
    (∀ s, b.IsFinite → (Fl.inf s).add b = .inf s ∧ b.add (.inf s) = .inf s) ∧
    (∀ s, b ≠ .nan → b.isZero = false → (Fl.inf s).mul b = .inf (s ^^ b.sign) ∧ b.mul (.inf s) = .inf (s ^^ b.sign)) ∧
    (∀ s, b.IsFinite → (Fl.inf s).div b = .inf (s ^^ b.sign)) ∧
    (a.IsFinite → a.isZero = false → b.isZero = true → a.div b = .inf (a.sign ^^ b.sign)) ∧
    (∀ s, a.IsFinite → (a.div (.inf s)).isZero = true) := by
  have hround : ∀ (x : ℝ) (s : Bool), (x ≠ 0 → s = decide (x < 0)) → (Fl.round s x : Fl f).sign = s := by
    intro x s h
    by_cases hx : x = 0
    · rw [hx]; exact (Fl.round_zero s).2.2
    · rw [Fl.sign_round' hx, h hx]
  have hm : ∀ a b : Fl f, a.mul b ≠ .nan → (a.mul b).sign = (a.sign ^^ b.sign) := by
    intro a b hne
    by_cases h : a.IsFinite ∧ b.IsFinite
    · rw [Fl.mul_of_finite h.1 h.2]
      exact hround _ _ fun h0 => (Fl.sign_xor h.1 h.2 (left_ne_zero_of_mul h0) (right_ne_zero_of_mul h0)).1
    · clear hround
      rw [not_and_or, Fl.not_finite_iff, Fl.not_finite_iff] at h
      rcases h with (rfl | ⟨s, rfl⟩) | (rfl | ⟨s, rfl⟩)
      · exact absurd (Fl.nan_mul b) hne
      · cases b with
        | nan => exact absurd rfl hne
        | inf s' => rfl
        | negZero => exact absurd (if_pos rfl) hne
        | fin x hx hle =>
          by_cases hx0 : x = 0
          · exact absurd (if_pos hx0) hne
          · exact congrArg Fl.sign (if_neg hx0 : (Fl.inf s).mul (.fin x hx hle) = _)
      · exact absurd (Fl.mul_nan a) hne
      · cases a with
        | nan => exact absurd rfl hne
        | inf s' => rfl
        | negZero => exact absurd (if_pos rfl) hne
        | fin x hx hle =>
          by_cases hx0 : x = 0
          · exact absurd (if_pos hx0) hne
          · exact congrArg Fl.sign (if_neg hx0 : (Fl.fin x hx hle).mul (.inf s) = _)
  have hdiv0 : ∀ a b : Fl f, a.IsFinite → a.val ≠ 0 → b.IsFinite → b.val = 0 → a.div b = .inf (a.sign ^^ b.sign) := by
    intro a b ha ha0 hb hb0
    clear hround hm
    cases a <;> cases b <;> first | exact ha.elim | exact hb.elim | exact absurd rfl ha0 | skip
    · exact (if_pos rfl).trans (if_neg ha0)
    · exact (if_pos hb0).trans (if_neg ha0)
  have hdiv : ∀ a b : Fl f, a.div b ≠ .nan → (a.div b).sign = (a.sign ^^ b.sign) := by
    intro a b hne
    by_cases h : a.IsFinite ∧ b.IsFinite
    · by_cases h0 : b.val = 0
      · by_cases ha0 : a.val = 0
        · exact absurd ((C87_nan a b).2.2.2.1.2 (.inr (.inr (.inr ⟨(Fl.isZero_iff _).2 ⟨h.1, ha0⟩, (Fl.isZero_iff _).2 ⟨h.2, h0⟩⟩)))) hne
        · rw [hdiv0 a b h.1 ha0 h.2 h0]; rfl
      · rw [Fl.div_of_finite h.1 h.2 h0]
        exact hround _ _ fun h' => (Fl.sign_xor h.1 h.2 (fun e => h' (by rw [e, zero_div])) h0).2
    · clear hround hm hdiv0
      rw [not_and_or, Fl.not_finite_iff, Fl.not_finite_iff] at h
      rcases h with (rfl | ⟨s, rfl⟩) | (rfl | ⟨s, rfl⟩)
      · exact absurd (Fl.nan_div b) hne
      · cases b with
        | nan => exact absurd rfl hne
        | inf s' => exact absurd rfl hne
        | negZero => rfl
        | fin x hx hle => rfl
      · exact absurd ((C87_nan a .nan).2.2.2.1.2 (.inr (.inl rfl))) hne
      · by_cases ha : a.IsFinite
        · rw [Fl.div_inf ha, (Fl.round_zero _).2.2]; rfl
        · rcases Fl.not_finite_iff.1 ha with rfl | ⟨s', rfl⟩
          · exact absurd rfl hne
          · exact absurd rfl hne
  refine ⟨hm a b, hdiv a b, ?_, ?_, ?_, ?_, ?_, ?_, ?_⟩
  · intro ha hb h0
    rw [Fl.add_of_finite ha hb, h0]
    obtain ⟨h1, h2, h3⟩ := Fl.round_zero (f := f) (a.sign && b.sign)
    exact ⟨(Fl.isZero_iff _).2 ⟨h1, h2⟩, h3⟩
  · intro ha hb h0
    rw [Fl.add_of_finite ha hb, Fl.sign_round' h0]
  · intro s hb
    cases b <;> first | exact hb.elim | exact ⟨rfl, rfl⟩
  · intro s hn h0
    have hx : ∀ x : Bool, (x ^^ s) = (s ^^ x) := fun x => Bool.xor_comm _ _
    cases b with
    | nan => exact absurd rfl hn
    | inf s' => exact ⟨rfl, congrArg Fl.inf (hx s')⟩
    | negZero => cases h0
    | fin x hx' hle =>
      have h0' : x ≠ 0 := by simpa [Fl.isZero] using h0
      exact ⟨if_neg h0', (if_neg h0' : (Fl.fin x hx' hle).mul (.inf s) = _).trans (congrArg Fl.inf (hx _))⟩
  · intro s hb
    cases b <;> first | exact hb.elim | rfl
  · intro ha h0 hb
    have h1 := (Fl.isZero_iff _).1 hb
    exact hdiv0 a b ha (fun e => by rw [(Fl.isZero_iff _).2 ⟨ha, e⟩] at h0; cases h0) h1.1 h1.2
  · intro s ha
    rw [Fl.div_inf ha]
    obtain ⟨h1, h2, _⟩ := Fl.round_zero (f := f) (a.sign ^^ s)
    exact (Fl.isZero_iff _).2 ⟨h1, h2⟩

/-- What `x / z` is if `z` is `+0` or `-0`. -/
def Fl.OverZero (x z y : Fl f) : Prop :=
  (x = .nan ∨ x.isZero = true → y = .nan) ∧ (x ≠ .nan → x.isZero = false → y = .inf (x.sign ^^ z.sign))

theorem Fl.div_zero (x z : Fl f) (hz : z.isZero = true) : x.OverZero z (x.div z) := by
  have hz' := (Fl.isZero_iff _).1 hz
  refine ⟨fun h => (C87_nan x z).2.2.2.1.2 (h.elim .inl fun h => .inr (.inr (.inr ⟨h, hz⟩))), fun hn h0 => ?_⟩
  by_cases hx : x.IsFinite
  · exact (C87_signs x z).2.2.2.2.2.2.2.1 hx h0 hz
  · obtain rfl | ⟨s, rfl⟩ := Fl.not_finite_iff.1 hx
    · exact absurd rfl hn
    · exact (C87_signs (.inf s) z).2.2.2.2.2.2.1 s hz'.1

/-- C87: dividing a vector or matrix of `f32`/`f64` by zero never panics: zeros and NaN become NaN, everything else becomes
infinite, with the sign of the element times the sign of the zero. -/
theorem C87_div_zero (t : Target) (v : Vec (Fl f) n) (a : Mat (Fl f) r c) (z : Fl f) (hz : z.isZero = true) :
    (∃ w, v.divScalar t (Ops.ieee f).div z = .ok w ∧ ∀ i, (v.get i).OverZero z (w.get i)) ∧
    (∃ b, a.divScalar t (Ops.ieee f).div z = .ok b ∧ ∀ i j, (a.get i j).OverZero z (b.get i j)) := by
  refine ⟨⟨Vec.ofFn fun i => (v.get i).div z, ?_, fun i => ?_⟩, ⟨Mat.ofFn fun i j => (a.get i j).div z, ?_, fun i j => ?_⟩⟩
  · exact (C19_vec_ok t (Ops.ieee f).div (Ops.ieee f).neg v z _).2.1.2 fun i => by rw [Vec.get_ofFn]; rfl
  · rw [Vec.get_ofFn]; exact Fl.div_zero _ _ hz
  · exact (C19_mat_ok t (Ops.ieee f).div (Ops.ieee f).neg a z _ a).2.1.2 fun i j => by rw [Mat.get_ofFn]; rfl
  · rw [Mat.get_ofFn]; exact Fl.div_zero _ _ hz

example : (Fl.negZero : Fl f).isZero = true ∧ (Ops.ieee f).zero.isZero = true ∧ (Ops.ieee f).one.isZero = false := by
  refine ⟨rfl, ?_, ?_⟩ <;> simp [Ops.ieee, Fl.ofInt, Fl.isZero]

end Rowcol
