import Verif.Props.Scaling
import Verif.Props.Misc

/-! C99: comparisons and monotonicity for `f32` and `f64`. -/

namespace Rowcol

namespace Fl
variable {f : FloatFormat}

theorem ext_of_finite {a : Fl f} (h : a.IsFinite) : a.ext = (a.val : EReal) := by cases a <;> first | rfl | exact h.elim
theorem ext_inf (s : Bool) : (inf s : Fl f).ext = if s then ⊥ else ⊤ := rfl
theorem ext_lt_top {a : Fl f} (h : a ≠ inf false) : a.ext < ⊤ := by
  cases a with
  | inf s => cases s
             · exact absurd rfl h
             · exact bot_lt_top
  | _ => exact EReal.coe_lt_top _
theorem bot_lt_ext {a : Fl f} (h : a ≠ inf true) : ⊥ < a.ext := by
  cases a with
  | inf s => cases s
             · exact bot_lt_top
             · exact absurd rfl h
  | _ => exact EReal.bot_lt_coe _
theorem finite_of_ext {a : Fl f} (hn : a ≠ nan) (h1 : a.ext ≠ ⊤) (h2 : a.ext ≠ ⊥) : a.IsFinite := by
  cases a with
  | nan => exact absurd rfl hn
  | inf s => cases s
             · exact absurd rfl h1
             · exact absurd rfl h2
  | _ => trivial

theorem beq_iff {a b : Fl f} : a.beq b = true ↔ a ≠ nan ∧ b ≠ nan ∧ a.ext = b.ext := by simp [beq]

/-- `==` is the relation of C98 without a change of sign, NaN excluded. -/
theorem signed_one_iff {a b : Fl f} : Signed 1 a b ↔ (a = nan ∧ b = nan) ∨ a.beq b = true := by
  rw [beq_iff]
  constructor
  · rintro (⟨rfl, rfl⟩ | ⟨b, rfl, rfl⟩ | ⟨h1, h2, h3⟩)
    · exact .inl ⟨rfl, rfl⟩
    · exact .inr ⟨nofun, nofun, by simp⟩
    · refine .inr ⟨fun h => ?_, fun h => ?_, ?_⟩
      · subst h; exact h1.elim
      · subst h; exact h2.elim
      · rw [ext_of_finite h1, ext_of_finite h2, h3]; simp
  · rintro (⟨rfl, rfl⟩ | ⟨h1, h2, h3⟩)
    · exact .inl ⟨rfl, rfl⟩
    · by_cases ha : a.IsFinite
      · have hb : b.IsFinite := finite_of_ext h2 (by rw [← h3, ext_of_finite ha]; exact EReal.coe_ne_top _)
          (by rw [← h3, ext_of_finite ha]; exact EReal.coe_ne_bot _)
        rw [ext_of_finite ha, ext_of_finite hb, EReal.coe_eq_coe_iff] at h3
        exact .inr (.inr ⟨ha, hb, by simp [h3]⟩)
      · cases a with
        | nan => exact absurd rfl h1
        | inf s =>
          cases b with
          | nan => exact absurd rfl h2
          | inf s' =>
            refine .inr (.inl ⟨s, rfl, ?_⟩)
            cases s <;> cases s' <;> first | rfl | (simp [ext] at h3)
          | _ => cases s <;> simp [ext] at h3
        | _ => exact absurd trivial ha

theorem ext_round_mono {x y : ℝ} (h : x ≤ y) (s s' : Bool) : (round s x : Fl f).ext ≤ (round s' y : Fl f).ext := by
  have hm := f.rnd_mono h
  by_cases h1 : (round s x : Fl f).IsFinite
  · by_cases h2 : (round s' y : Fl f).IsFinite
    · rw [ext_of_finite h1, ext_of_finite h2, val_round h1, val_round h2]
      exact_mod_cast hm
    · have h2' := h2
      rw [round_finite_iff] at h1 h2
      rw [Fl.round, Fl.round, dif_neg h2, ext_inf]
      have : ¬ y < 0 := fun hy => h2 (by
        have h3 := f.rnd_mono hy.le
        rw [f.rnd_zero] at h3
        rw [abs_of_nonpos h3]
        rw [abs_of_nonpos (hm.trans h3)] at h1
        linarith)
      simp [this]
  · rw [round_finite_iff] at h1
    rw [Fl.round, dif_neg h1, ext_inf]
    by_cases hx : x < 0
    · simp [hx]
    · have : (round s' y : Fl f) = inf false := by
        rw [Fl.round, dif_neg, decide_eq_false (by linarith)]
        intro h2
        have h3 := f.rnd_nonneg (not_lt.1 hx)
        rw [abs_of_nonneg h3] at h1
        rw [abs_of_nonneg (h3.trans hm)] at h2
        exact h1 (hm.trans h2)
      rw [this]; simp [hx, ext_inf]

theorem add_ne_nan {a b : Fl f} (h : a.add b ≠ nan) : a ≠ nan ∧ b ≠ nan :=
  ⟨fun e => h (by rw [e, nan_add]), fun e => h (by rw [e, add_nan])⟩
theorem mul_ne_nan {a b : Fl f} (h : a.mul b ≠ nan) : a ≠ nan ∧ b ≠ nan :=
  ⟨fun e => h (by rw [e, nan_mul]), fun e => h (by rw [e, mul_nan])⟩

/-- An infinite operand decides the sum. -/
theorem add_inf_left {s : Bool} {b : Fl f} (h : (inf s).add b ≠ nan) : (inf s).add b = inf s := by
  cases b with
  | nan => exact absurd rfl h
  | inf s' =>
    simp only [add] at h ⊢
    split
    · rfl
    · rename_i hs; rw [if_neg hs] at h; exact absurd rfl h
  | _ => rfl
theorem add_inf_right {s : Bool} {b : Fl f} (h : b.add (inf s) ≠ nan) : b.add (inf s) = inf s := by
  cases b with
  | nan => exact absurd rfl h
  | inf s' =>
    simp only [add] at h ⊢
    split
    · rename_i hs; rw [hs]
    · rename_i hs; rw [if_neg hs] at h; exact absurd rfl h
  | _ => rfl

/-- At most, unless one of them is NaN. -/
def Le (x y : Fl f) : Prop := x = nan ∨ y = nan ∨ x.ext ≤ y.ext
/-- Not negative and at most, unless one of them is NaN. -/
def Between (x y : Fl f) : Prop := x = nan ∨ y = nan ∨ 0 ≤ x.ext ∧ x.ext ≤ y.ext
/-- A magnitude: if `y` is a number then `x` is one with `|x| ≤ y`; otherwise `y` is `+∞` or NaN. -/
def Dominated (x y : Fl f) : Prop := y = nan ∨ y = inf false ∨ x.IsFinite ∧ y.IsFinite ∧ |x.val| ≤ y.val

theorem Le.add {a b a' b' : Fl f} (ha : Le a a') (hb : Le b b') : Le (a.add b) (a'.add b') := by
  by_cases h1 : a.add b = nan
  · exact .inl h1
  by_cases h2 : a'.add b' = nan
  · exact .inr (.inl h2)
  obtain ⟨na, nb⟩ := add_ne_nan h1
  obtain ⟨na', nb'⟩ := add_ne_nan h2
  replace ha := (ha.resolve_left na).resolve_left na'
  replace hb := (hb.resolve_left nb).resolve_left nb'
  refine .inr (.inr ?_)
  by_cases h3 : (a.add b).ext = ⊥
  · rw [h3]; exact bot_le
  by_cases h4 : (a'.add b').ext = ⊤
  · rw [h4]; exact le_top
  have ea : a ≠ inf true := by rintro rfl; rw [add_inf_left h1] at h3; exact h3 rfl
  have eb : b ≠ inf true := by rintro rfl; rw [add_inf_right h1] at h3; exact h3 rfl
  have ea' : a' ≠ inf false := by rintro rfl; rw [add_inf_left h2] at h4; exact h4 rfl
  have eb' : b' ≠ inf false := by rintro rfl; rw [add_inf_right h2] at h4; exact h4 rfl
  have fa := finite_of_ext na (ha.trans_lt (ext_lt_top ea')).ne (bot_lt_ext ea).ne'
  have fb := finite_of_ext nb (hb.trans_lt (ext_lt_top eb')).ne (bot_lt_ext eb).ne'
  have fa' := finite_of_ext na' (ext_lt_top ea').ne ((bot_lt_ext ea).trans_le ha).ne'
  have fb' := finite_of_ext nb' (ext_lt_top eb').ne ((bot_lt_ext eb).trans_le hb).ne'
  rw [ext_of_finite fa, ext_of_finite fa', EReal.coe_le_coe_iff] at ha
  rw [ext_of_finite fb, ext_of_finite fb', EReal.coe_le_coe_iff] at hb
  rw [add_of_finite fa fb, add_of_finite fa' fb']
  exact ext_round_mono (by linarith) _ _

theorem ext_zero : ((Ops.ieee f).zero).ext = 0 := by simp [Ops.ieee, ofInt, ext, val]

theorem nonneg_add {a b : Fl f} (h : a.add b ≠ nan) (ha : 0 ≤ a.ext) (hb : 0 ≤ b.ext) : 0 ≤ (a.add b).ext := by
  have h0 : Le (((Ops.ieee f).zero).add (Ops.ieee f).zero) (a.add b) :=
    Le.add (.inr (.inr (by rw [ext_zero]; exact ha))) (.inr (.inr (by rw [ext_zero]; exact hb)))
  have e : (((Ops.ieee f).zero).add (Ops.ieee f).zero).ext = 0 := by
    have : ((Ops.ieee f).zero).IsFinite := trivial
    rw [add_of_finite this this]
    have hv : ((Ops.ieee f).zero).val = 0 := by simp [Ops.ieee, ofInt, val]
    rw [hv, add_zero]
    have hf : (round (((Ops.ieee f).zero).sign && ((Ops.ieee f).zero).sign) 0 : Fl f).IsFinite := by
      rw [round_finite_iff, f.rnd_zero, abs_zero]
      exact (by positivity : (0:ℝ) ≤ 2 ^ f.prec).trans f.pow_le_max
    rw [ext_of_finite hf, val_round hf, f.rnd_zero]; rfl
  rcases h0 with h0 | h0 | h0
  · rw [h0] at e; 
    have : ((Ops.ieee f).zero).IsFinite := trivial
    rw [add_of_finite this this] at h0
    unfold Fl.round at h0
    split at h0
    · split at h0 <;> cases h0
    · cases h0
  · exact absurd h0 h
  · rwa [e] at h0

theorem Between.add {a b a' b' : Fl f} (ha : Between a a') (hb : Between b b') : Between (a.add b) (a'.add b') := by
  by_cases h1 : a.add b = nan
  · exact .inl h1
  by_cases h2 : a'.add b' = nan
  · exact .inr (.inl h2)
  obtain ⟨na, nb⟩ := add_ne_nan h1
  obtain ⟨na', nb'⟩ := add_ne_nan h2
  replace ha := (ha.resolve_left na).resolve_left na'
  replace hb := (hb.resolve_left nb).resolve_left nb'
  exact .inr (.inr ⟨nonneg_add h1 ha.1 hb.1,
    ((Le.add (.inr (.inr ha.2)) (.inr (.inr hb.2))).resolve_left h1).resolve_left h2⟩)

/-- The product of numbers that are not negative. -/
theorem ext_mul {a b : Fl f} (h : a.mul b ≠ nan) (ha : 0 ≤ a.ext) (hb : 0 ≤ b.ext) :
    a.mul b = inf false ∨ a.IsFinite ∧ b.IsFinite := by
  have pos : ∀ {x : Fl f}, x.IsFinite → 0 ≤ x.ext → x.val ≠ 0 → x.sign = false := fun {x} hx h0 hne => by
    rw [ext_of_finite hx] at h0
    rw [sign_of_ne hx hne, decide_eq_false_iff_not, not_lt]
    exact_mod_cast h0
  have notbot : ∀ {s : Bool}, 0 ≤ (inf s : Fl f).ext → s = false := fun {s} h => by
    cases s
    · rfl
    · exact absurd h (by simp [ext])
  by_cases fa : a.IsFinite
  · by_cases fb : b.IsFinite
    · exact .inr ⟨fa, fb⟩
    · cases b with
      | nan => exact absurd (mul_nan a) h
      | inf s =>
        have hs := notbot hb
        subst hs
        rw [mul_inf fa] at h ⊢
        split at h
        · exact absurd rfl h
        · rename_i h0
          rw [if_neg h0, pos fa ha h0]; exact .inl rfl
      | _ => exact absurd trivial fb
  · cases a with
    | nan => exact absurd (nan_mul b) h
    | inf s =>
      have hs := notbot ha
      subst hs
      by_cases fb : b.IsFinite
      · rw [inf_mul fb] at h ⊢
        split at h
        · exact absurd rfl h
        · rename_i h0
          rw [if_neg h0, pos fb hb h0]; exact .inl rfl
      · cases b with
        | nan => exact absurd (mul_nan _) h
        | inf s =>
          have hs := notbot hb
          subst hs
          exact .inl rfl
        | _ => exact absurd trivial fb
    | _ => exact absurd trivial fa

theorem nonneg_round {x : ℝ} (h : 0 ≤ x) (s : Bool) : 0 ≤ (round s x : Fl f).ext := by
  have := ext_round_mono (f := f) h false s
  have hf : (round false 0 : Fl f).IsFinite := by
    rw [round_finite_iff, f.rnd_zero, abs_zero]
    exact (by positivity : (0:ℝ) ≤ 2 ^ f.prec).trans f.pow_le_max
  rw [ext_of_finite hf, val_round hf, f.rnd_zero] at this
  exact this

theorem nonneg_mul {a b : Fl f} (h : a.mul b ≠ nan) (ha : 0 ≤ a.ext) (hb : 0 ≤ b.ext) : 0 ≤ (a.mul b).ext := by
  rcases ext_mul h ha hb with h1 | ⟨fa, fb⟩
  · rw [h1]; exact le_top
  · rw [ext_of_finite fa] at ha
    rw [ext_of_finite fb] at hb
    rw [mul_of_finite fa fb]
    exact nonneg_round (mul_nonneg (by exact_mod_cast ha) (by exact_mod_cast hb)) _

theorem Between.mul {a b a' b' : Fl f} (ha : Between a a') (hb : Between b b') : Between (a.mul b) (a'.mul b') := by
  by_cases h1 : a.mul b = nan
  · exact .inl h1
  by_cases h2 : a'.mul b' = nan
  · exact .inr (.inl h2)
  obtain ⟨na, nb⟩ := mul_ne_nan h1
  obtain ⟨na', nb'⟩ := mul_ne_nan h2
  replace ha := (ha.resolve_left na).resolve_left na'
  replace hb := (hb.resolve_left nb).resolve_left nb'
  refine .inr (.inr ⟨nonneg_mul h1 ha.1 hb.1, ?_⟩)
  rcases ext_mul h2 (ha.1.trans ha.2) (hb.1.trans hb.2) with h3 | ⟨fa', fb'⟩
  · rw [h3]; exact le_top
  · have fin : ∀ {x y : Fl f}, x ≠ nan → y.IsFinite → 0 ≤ x.ext → x.ext ≤ y.ext → x.IsFinite := fun {x y} hx hy h0 h => by
      rw [ext_of_finite hy] at h
      exact finite_of_ext hx (h.trans_lt (EReal.coe_lt_top _)).ne (fun e => by rw [e] at h0; exact absurd h0 (by simp))
    have fa := fin na fa' ha.1 ha.2
    have fb := fin nb fb' hb.1 hb.2
    rw [ext_of_finite fa, ext_of_finite fa'] at ha
    rw [ext_of_finite fb, ext_of_finite fb'] at hb
    have ha1 : 0 ≤ a.val := by exact_mod_cast ha.1
    have ha2 : a.val ≤ a'.val := by exact_mod_cast ha.2
    have hb1 : 0 ≤ b.val := by exact_mod_cast hb.1
    have hb2 : b.val ≤ b'.val := by exact_mod_cast hb.2
    rw [mul_of_finite fa fb, mul_of_finite fa' fb']
    exact ext_round_mono (by nlinarith) _ _

theorem Dominated.round {x y : ℝ} (h : |x| ≤ y) (s s' : Bool) : Dominated (round s x : Fl f) (round s' y) := by
  have hy : 0 ≤ y := (abs_nonneg x).trans h
  by_cases h2 : (Fl.round s' y : Fl f).IsFinite
  · have ha : |f.rnd x| ≤ f.rnd y := by
      rw [abs_le] at h ⊢
      exact ⟨by rw [← f.rnd_neg]; exact f.rnd_mono h.1, f.rnd_mono h.2⟩
    have h3 := h2
    rw [round_finite_iff, abs_of_nonneg (f.rnd_nonneg hy)] at h3
    have h1 : (Fl.round s x : Fl f).IsFinite := by rw [round_finite_iff]; exact ha.trans h3
    exact .inr (.inr ⟨h1, h2, by rw [val_round h1, val_round h2]; exact ha⟩)
  · rw [round_finite_iff] at h2
    refine .inr (.inl ?_)
    rw [Fl.round, dif_neg h2, decide_eq_false (by linarith)]

theorem Dominated.add {a b a' b' : Fl f} (ha : Dominated a a') (hb : Dominated b b') : Dominated (a.add b) (a'.add b') := by
  rcases ha with rfl | rfl | ⟨h1, h2, h3⟩
  · exact .inl (nan_add _)
  · by_cases h : (inf false).add b' = nan
    · exact .inl h
    · exact .inr (.inl (add_inf_left h))
  · rcases hb with rfl | rfl | ⟨h4, h5, h6⟩
    · exact .inl (add_nan _)
    · by_cases h : a'.add (inf false) = nan
      · exact .inl h
      · exact .inr (.inl (add_inf_right h))
    · rw [add_of_finite h1 h4, add_of_finite h2 h5]
      exact .round ((abs_add_le _ _).trans (add_le_add h3 h6)) _ _

theorem Dominated.mul {a b a' b' : Fl f} (ha : Dominated a a') (hb : Dominated b b') : Dominated (a.mul b) (a'.mul b') := by
  have nn : ∀ {x y : Fl f}, Dominated x y → y = nan ∨ 0 ≤ y.ext := by
    rintro x y (h | rfl | ⟨_, h2, h3⟩)
    · exact .inl h
    · exact .inr le_top
    · refine .inr ?_
      rw [ext_of_finite h2]
      exact_mod_cast (abs_nonneg _).trans h3
  by_cases h : a'.mul b' = nan
  · exact .inl h
  obtain ⟨na', nb'⟩ := mul_ne_nan h
  rcases ext_mul h ((nn ha).resolve_left na') ((nn hb).resolve_left nb') with h1 | ⟨fa, fb⟩
  · exact .inr (.inl h1)
  · obtain ⟨h1, h2, h3⟩ := (ha.resolve_left na').resolve_left (by rintro rfl; exact fa)
    obtain ⟨h4, h5, h6⟩ := (hb.resolve_left nb').resolve_left (by rintro rfl; exact fb)
    rw [mul_of_finite h1 h4, mul_of_finite h2 h5]
    exact .round (by rw [abs_mul]; exact mul_le_mul h3 h6 (abs_nonneg _) ((abs_nonneg _).trans h3)) _ _

theorem inf_mul_sign {x : Fl f} (h : (inf false).mul x ≠ nan) : (inf false).mul x = inf (decide (x.ext < 0)) := by
  cases x with
  | nan => exact absurd rfl h
  | inf s => cases s <;> simp [mul, ext]
  | negZero => exact absurd (by simp [mul, val]) h
  | fin x r hx =>
    have h0 : x ≠ 0 := by rintro rfl; exact h (by simp [mul, val])
    have e : x < 0 ↔ (fin x r hx : Fl f).ext < 0 := by
      rw [ext_of_finite (show (fin x r hx : Fl f).IsFinite from trivial)]; exact_mod_cast Iff.rfl
    simp only [mul, val, if_neg h0, sign, Bool.false_xor, e]

theorem Le.mul_left {a b b' : Fl f} (ha : 0 ≤ a.ext) (hb : Le b b') : Le (a.mul b) (a.mul b') := by
  by_cases h1 : a.mul b = nan
  · exact .inl h1
  by_cases h2 : a.mul b' = nan
  · exact .inr (.inl h2)
  obtain ⟨na, nb⟩ := mul_ne_nan h1
  obtain ⟨_, nb'⟩ := mul_ne_nan h2
  replace hb := (hb.resolve_left nb).resolve_left nb'
  refine .inr (.inr ?_)
  by_cases fa : a.IsFinite
  · have ha' : 0 ≤ a.val := by rw [ext_of_finite fa] at ha; exact_mod_cast ha
    have infs : ∀ {s : Bool}, a.mul (inf s) ≠ nan → a.mul (inf s) = inf s := fun {s} h => by
      rw [mul_inf fa] at h ⊢
      split at h
      · exact absurd rfl h
      · rename_i h0
        rw [if_neg h0, sign_of_ne fa h0, decide_eq_false (not_lt.2 ha'), Bool.false_xor]
    by_cases e1 : b = inf true
    · subst e1; rw [infs h1]; exact bot_le
    by_cases e2 : b' = inf false
    · subst e2; rw [infs h2]; exact le_top
    have fb := finite_of_ext nb (hb.trans_lt (ext_lt_top e2)).ne (bot_lt_ext e1).ne'
    have fb' := finite_of_ext nb' (ext_lt_top e2).ne ((bot_lt_ext e1).trans_le hb).ne'
    rw [ext_of_finite fb, ext_of_finite fb', EReal.coe_le_coe_iff] at hb
    rw [mul_of_finite fa fb, mul_of_finite fa fb']
    exact ext_round_mono (mul_le_mul_of_nonneg_left hb ha') _ _
  · have : a = inf false := by
      cases a with
      | nan => exact absurd rfl na
      | inf s => cases s
                 · rfl
                 · exact absurd ha (by simp [ext])
      | _ => exact absurd trivial fa
    subst this
    rw [inf_mul_sign h1, inf_mul_sign h2]
    by_cases h3 : b'.ext < 0
    · rw [decide_eq_true (hb.trans_lt h3)]; exact bot_le
    · rw [decide_eq_false h3]; exact le_top

/-- Adding something that is not negative does not make a number smaller. -/
theorem le_add {a b : Fl f} (h : a.add b ≠ nan) (hb : 0 ≤ b.ext) : a.ext ≤ (a.add b).ext := by
  have h0 : Le (a.add (Ops.ieee f).zero) (a.add b) :=
    Le.add (.inr (.inr le_rfl)) (.inr (.inr (by rw [ext_zero]; exact hb)))
  obtain ⟨na, _⟩ := add_ne_nan h
  have e : (a.add (Ops.ieee f).zero).ext = a.ext ∧ a.add (Ops.ieee f).zero ≠ nan := by
    have hz : ((Ops.ieee f).zero).IsFinite := trivial
    by_cases fa : a.IsFinite
    · have hv : ((Ops.ieee f).zero).val = 0 := by simp [Ops.ieee, ofInt, val]
      rw [add_of_finite fa hz, hv, add_zero]
      have hf : (round (a.sign && ((Ops.ieee f).zero).sign) a.val : Fl f).IsFinite := by
        rw [round_finite_iff]; exact f.rnd_le_max a.abs_val_le
      refine ⟨?_, fun h => by rw [h] at hf; exact hf⟩
      rw [ext_of_finite hf, val_round hf, f.rnd_rep a.rep_val, ext_of_finite fa]
    · cases a with
      | nan => exact absurd rfl na
      | inf s => exact ⟨rfl, nofun⟩
      | _ => exact absurd trivial fa
  have h1 := (h0.resolve_left e.2).resolve_left h
  rwa [e.1] at h1

end Fl

variable {f : FloatFormat} {n l c r : Nat} (t : Target)

/-! ### `==` -/

/-- C99: `==` of vectors and matrices of floats: no element of either is NaN and corresponding elements are the same number or
the same infinity (`-0` and `+0` are the same number).  It is symmetric and transitive; it is reflexive exactly without NaN. -/
theorem C99_eq (v w x : Vec (Fl f) n) (a b d : Mat (Fl f) r c) :
    (v.eq Fl.beq w = true ↔ ∀ i, v.get i ≠ .nan ∧ w.get i ≠ .nan ∧ (v.get i).ext = (w.get i).ext) ∧
    (a.eq Fl.beq b = true ↔ ∀ i j, a.get i j ≠ .nan ∧ b.get i j ≠ .nan ∧ (a.get i j).ext = (b.get i j).ext) ∧
    (v.eq Fl.beq v = true ↔ ∀ i, v.get i ≠ .nan) ∧ (a.eq Fl.beq a = true ↔ ∀ i j, a.get i j ≠ .nan) ∧
    (v.eq Fl.beq w = true → w.eq Fl.beq v = true) ∧ (v.eq Fl.beq w = true → w.eq Fl.beq x = true → v.eq Fl.beq x = true) ∧
    (a.eq Fl.beq b = true → b.eq Fl.beq a = true) ∧ (a.eq Fl.beq b = true → b.eq Fl.beq d = true → a.eq Fl.beq d = true) := by
  simp only [C30_vec_eq, C30_mat_eq, Fl.beq_iff]
  refine ⟨trivial, trivial, ?_, ?_, fun h i => ⟨(h i).2.1, (h i).1, (h i).2.2.symm⟩,
    fun h h' i => ⟨(h i).1, (h' i).2.1, (h i).2.2.trans (h' i).2.2⟩, fun h i j => ⟨(h i j).2.1, (h i j).1, (h i j).2.2.symm⟩,
    fun h h' i j => ⟨(h i j).1, (h' i j).2.1, (h i j).2.2.trans (h' i j).2.2⟩⟩
  · simp
  · simp

/-- C99: `is_zero()` is `== zero()`. -/
theorem C99_is_zero (v : Vec (Fl f) n) (a : Mat (Fl f) r c) :
    (∃ z, Vec.zero t n (Ops.ieee f).zero = .ok z ∧ v.isZero (Ops.ieee f).isZero = v.eq Fl.beq z) ∧
    (∃ z, Mat.zero t r c (Ops.ieee f).zero = .ok z ∧ a.isZero (Ops.ieee f).isZero = a.eq Fl.beq z) := by
  have e : ∀ x : Fl f, (Ops.ieee f).isZero x = true ↔ x.beq (Ops.ieee f).zero = true := fun x => by
    rw [Fl.beq_iff, Fl.ext_zero]
    change x.isZero = true ↔ _
    rw [Fl.isZero_iff]
    constructor
    · rintro ⟨h1, h2⟩
      exact ⟨by rintro rfl; exact h1, nofun, by rw [Fl.ext_of_finite h1, h2]; rfl⟩
    · rintro ⟨h1, _, h2⟩
      have h3 := Fl.finite_of_ext h1 (by rw [h2]; simp) (by rw [h2]; simp)
      rw [Fl.ext_of_finite h3] at h2
      exact ⟨h3, by exact_mod_cast h2⟩
  obtain ⟨⟨z, h1, h2⟩, _⟩ := C32_vec_const (n := n) t (Ops.ieee f).zero
  obtain ⟨⟨w, h3, h4⟩, _⟩ := C32_mat_const (r := r) (c := c) t (Ops.ieee f).zero
  refine ⟨⟨z, h1, ?_⟩, w, h3, ?_⟩
  · rw [Bool.eq_iff_iff, (C32_is_zero _ v a).1, C30_vec_eq]
    simp only [e, h2]
  · rw [Bool.eq_iff_iff, (C32_is_zero _ v a).2, C30_mat_eq]
    simp only [e, h4]

/-- Both are NaN or they are `==`. -/
def Fl.Same (x y : Fl f) : Prop := (x = .nan ∧ y = .nan) ∨ x.beq y = true

/-- C99: operands that are `==` (or NaN at the same places) cannot be told apart by the results: those are `==` or NaN at the
same places.  So the sign of zeros among the elements never matters, except for the sign of zeros in results. -/
theorem C99_substitute :
    (∀ v v' : Vec (Fl f) n, (∀ i, (v.get i).Same (v'.get i)) → Returns Fl.Same (v.sum (Ops.ieee f)) (v'.sum (Ops.ieee f))) ∧
    (∀ a a' : Mat (Fl f) r c, (∀ i j, (a.get i j).Same (a'.get i j)) → Returns Fl.Same (a.sum (Ops.ieee f)) (a'.sum (Ops.ieee f))) ∧
    (∀ a a' b b' : Vec (Fl f) n, (∀ i, (a.get i).Same (a'.get i)) → (∀ i, (b.get i).Same (b'.get i)) →
      Returns Fl.Same (a.dot (Ops.ieee f) b) (a'.dot (Ops.ieee f) b')) ∧
    (∀ a a' b b' : Vec (Fl f) 3, (∀ i, (a.get i).Same (a'.get i)) → (∀ i, (b.get i).Same (b'.get i)) →
      Returns (fun w w' => ∀ i, (w.get i).Same (w'.get i)) (a.cross t (Ops.ieee f) b) (a'.cross t (Ops.ieee f) b')) ∧
    (∀ (a a' : Mat (Fl f) l n) (b b' : Mat (Fl f) n c), (∀ i j, (a.get i j).Same (a'.get i j)) →
      (∀ i j, (b.get i j).Same (b'.get i j)) → l < t.W → n < t.W → c < t.W → ∀ op ∈ mulForms (l := l) (n := n) (c := c) t (Ops.ieee f),
      Returns (fun w w' => ∀ i j, (w.get i j).Same (w'.get i j)) (op a b) (op a' b')) ∧
    (∀ (a a' : Mat (Fl f) l n) (v v' : Vec (Fl f) n), (∀ i j, (a.get i j).Same (a'.get i j)) →
      (∀ i, (v.get i).Same (v'.get i)) → l < t.W → n < t.W →
      Returns (fun w w' => ∀ i, (w.get i).Same (w'.get i)) (a.mulVec t (Ops.ieee f) v) (a'.mulVec t (Ops.ieee f) v') ∧
      Returns (fun w w' => ∀ i, (w.get i).Same (w'.get i)) (a.mulVecRef t (Ops.ieee f) v) (a'.mulVecRef t (Ops.ieee f) v')) ∧
    (∀ (a a' : Mat (Fl f) n n), (∀ i j, (a.get i j).Same (a'.get i j)) → n < t.W → ∀ k,
      Returns (fun w w' => ∀ i j, (w.get i j).Same (w'.get i j)) (a.pow t (Ops.ieee f) k) (a'.pow t (Ops.ieee f) k)) ∧
    (∀ k (a a' : Mat (Fl f) (k + 1) (k + 1)), (∀ i j, (a.get i j).Same (a'.get i j)) → k + 1 < t.W →
      Returns Fl.Same (a.determinant t (Ops.ieee f) k) (a'.determinant t (Ops.ieee f) k)) ∧
    (∀ k (a a' : Mat (Fl f) (k + 2) (k + 2)), (∀ i j, (a.get i j).Same (a'.get i j)) → k + 2 < t.W → ∀ i j : Fin (k + 2),
      i.val + j.val < t.W → Returns Fl.Same (a.cofactor t (Ops.ieee f) k (i, j)) (a'.cofactor t (Ops.ieee f) k (i, j))) ∧
    (∀ k (a a' : Mat (Fl f) (k + 1) (k + 1)), (∀ i j, (a.get i j).Same (a'.get i j)) →
      (a.inverse t (Ops.ieee f) k = .ok none ∧ a'.inverse t (Ops.ieee f) k = .ok none) ∨
      ∃ w w', a.inverse t (Ops.ieee f) k = .ok (some w) ∧ a'.inverse t (Ops.ieee f) k = .ok (some w') ∧
        ∀ i j, (w.get i j).Same (w'.get i j)) := by
  have e : ∀ x y : Fl f, x.Same y ↔ Fl.Signed 1 x y := fun x y => Fl.signed_one_iff.symm
  have e' : (Fl.Same : Fl f → Fl f → Prop) = Fl.Signed 1 := by funext x y; exact propext (e x y)
  simp only [e', e]
  refine ⟨(C98_signs_sums (r := 0) (c := 0) 1).1, (C98_signs_sums (n := 0) 1).2.1, fun a a' b b' ha hb => ?_, fun a a' b b' ha hb => ?_,
    fun a a' b b' ha hb hl hn hc op hop => ?_, fun a a' v v' ha hv hl hn => ?_, fun a a' ha hn k => ?_, fun k a a' ha hk => ?_,
    fun k a a' ha hk i j hp => ?_, fun k a a' ha => ?_⟩
  · exact (C98_signs_sums (r := 0) (c := 0) 1).2.2 1 a b a' b' ha (by simpa using hb)
  · have := C98_signs_cross t 1 1 1 a b a' b' (by simpa using ha) (by simpa using hb)
    simpa using this
  · have := (C98_signs_products (c := c) t 1 1 hl hn a a' (by simpa using ha)).1 1 b b' (by simpa using hb) hc op hop
    simpa using this
  · have := (C98_signs_products (c := 0) t 1 1 hl hn a a' (by simpa using ha)).2 v v' (by simpa using hv)
    simpa using this
  · have := C98_signs_pow t 1 1 a a' (by simpa using ha) k hn
    simpa using this
  · have := (C98_signs_determinant t k).1 1 1 a a' (by simpa using ha) hk
    simpa using this
  · have := (C98_signs_determinant t k).2 1 1 a a' (by simpa using ha) hk i j hp
    simpa using this
  · have := C98_signs_inverse t k 1 1 a a' (by simpa using ha)
    simpa using this

/-! ### Monotonicity -/

section Folds
variable {S : Fl f → Fl f → Prop} (h0 : S (Ops.ieee f).zero (Ops.ieee f).zero)
  (ha : ∀ {a b a' b'}, S a a' → S b b' → S (a.add b) (a'.add b'))
include h0 ha

theorem fold_sum {ι : Type} (is : List ι) (x x' : ι → Fl f) (h : ∀ i, S (x i) (x' i)) :
    Returns S (is.foldlM (fun s i => (Ops.ieee f).add s (x i)) (Ops.ieee f).zero)
      (is.foldlM (fun s i => (Ops.ieee f).add s (x' i)) (Ops.ieee f).zero) := by
  suffices ∀ z z', S z z' → Returns S (is.foldlM (fun s i => (Ops.ieee f).add s (x i)) z)
      (is.foldlM (fun s i => (Ops.ieee f).add s (x' i)) z') from this _ _ h0
  induction is with
  | nil => exact fun z z' hz => ⟨z, z', rfl, rfl, hz⟩
  | cons i is ih =>
    intro z z' hz
    rw [List.foldlM_cons, List.foldlM_cons]
    exact ih _ _ (ha hz (h i))

theorem fold_vecSum (v v' : Vec (Fl f) n) (h : ∀ i, S (v.get i) (v'.get i)) :
    Returns S (v.sum (Ops.ieee f)) (v'.sum (Ops.ieee f)) := by
  rw [Vec.sum, Vec.sum, Vec.toList_eq v, Vec.toList_eq v', List.foldlM_map, List.foldlM_map]
  exact fold_sum h0 ha _ _ _ h

theorem fold_matSum (a a' : Mat (Fl f) r c) (h : ∀ i j, S (a.get i j) (a'.get i j)) :
    Returns S (a.sum (Ops.ieee f)) (a'.sum (Ops.ieee f)) := by
  have hr := fun i => fold_vecSum h0 ha (a.rows.get i) (a'.rows.get i) (h i)
  choose x x' h1 h2 h3 using hr
  rw [Mat.sum, Mat.sum, Vec.toList_eq a.rows, Vec.toList_eq a'.rows, List.foldlM_map, List.foldlM_map]
  simp only [h1, h2, res_ok_bind]
  exact fold_sum h0 ha _ _ _ h3

theorem fold_mulFold (x x' y y' : Fin n → Fl f) (h : ∀ i, S ((x i).mul (y i)) ((x' i).mul (y' i))) :
    Returns S (mulFold (Ops.ieee f) ((List.finRange n).map fun i => (x i, y i)))
      (mulFold (Ops.ieee f) ((List.finRange n).map fun i => (x' i, y' i))) := by
  rw [mulFold, mulFold, List.foldlM_map, List.foldlM_map]
  exact fold_sum h0 ha _ _ _ h

theorem fold_dot (a b a' b' : Vec (Fl f) n) (h : ∀ i, S ((a.get i).mul (b.get i)) ((a'.get i).mul (b'.get i))) :
    Returns S (a.dot (Ops.ieee f) b) (a'.dot (Ops.ieee f) b') := by
  rw [Vec.dot, Vec.dot, Vec.zip_eq, Vec.zip_eq]
  exact fold_mulFold h0 ha _ _ _ _ h

theorem fold_mul (a a' : Mat (Fl f) l n) (b b' : Mat (Fl f) n c)
    (h : ∀ i j k, S ((a.get i k).mul (b.get k j)) ((a'.get i k).mul (b'.get k j))) (hl : l < t.W) (hn : n < t.W) (hc : c < t.W)
    (op) (hop : op ∈ mulForms (l := l) (n := n) (c := c) t (Ops.ieee f)) :
    Returns (fun w w' => ∀ i j, S (w.get i j) (w'.get i j)) (op a b) (op a' b') := by
  obtain ⟨z, h1, _⟩ := C87_mul t op hop a b hl hn hc
  obtain ⟨z', h1', _⟩ := C87_mul t op hop a' b' hl hn hc
  refine ⟨z, z', h1, h1', fun i j => ?_⟩
  obtain ⟨x, x', e, e', hs⟩ := fold_mulFold h0 ha (a.get i) (a'.get i) (fun k => b.get k j) (fun k => b'.get k j) (h i j)
  have h2 := (C41_mul_entries t _ op hop a b hl hn hc z).1 h1 i j
  have h2' := (C41_mul_entries t _ op hop a' b' hl hn hc z').1 h1' i j
  rw [← mulFold_mulSum, e] at h2
  rw [← mulFold_mulSum, e'] at h2'
  cases h2; cases h2'
  exact hs

omit h0 ha in
theorem mulVec_free {T : Type} {O : Ops T} (a : Mat T r c) (v : Vec T c) (hr : r < t.W) :
    a.mulVec t O v = Vec.collect t r ((List.finRange r).map fun i => mulFold O ((List.finRange c).map fun k => (a.get i k, v.get k))) ∧
    a.mulVecRef t O v = Vec.collect t r ((List.finRange r).map fun i => mulFold O ((List.finRange c).map fun k => (a.get i k, v.get k))) := by
  rw [Mat.mulVec, Mat.mulVecRef, drain_rowsRef t a hr, rowsOf_eq a]
  simp only [res_ok_bind, rowsOf, List.map_map, Function.comp_def, Vec.zip_eq, Vec.get_ofFn, and_self]

theorem fold_mulVec (a a' : Mat (Fl f) l n) (v v' : Vec (Fl f) n)
    (h : ∀ i k, S ((a.get i k).mul (v.get k)) ((a'.get i k).mul (v'.get k))) (hl : l < t.W) :
    Returns (fun w w' => ∀ i, S (w.get i) (w'.get i)) (a.mulVec t (Ops.ieee f) v) (a'.mulVec t (Ops.ieee f) v') ∧
    Returns (fun w w' => ∀ i, S (w.get i) (w'.get i)) (a.mulVecRef t (Ops.ieee f) v) (a'.mulVecRef t (Ops.ieee f) v') := by
  rw [(mulVec_free t a v hl).1, (mulVec_free t a v hl).2, (mulVec_free t a' v' hl).1, (mulVec_free t a' v' hl).2, and_self]
  have hr := fun i => fold_mulFold h0 ha (a.get i) (a'.get i) v.get v'.get (h i)
  choose x x' h1 h2 h3 using hr
  refine ⟨Vec.ofFn x, Vec.ofFn x', ?_, ?_, fun i => by rw [Vec.get_ofFn, Vec.get_ofFn]; exact h3 i⟩
  · rw [Vec.collect_finRange_ok_iff]; intro i; rw [Vec.get_ofFn]; exact h1 i
  · rw [Vec.collect_finRange_ok_iff]; intro i; rw [Vec.get_ofFn]; exact h2 i

theorem fold_pow (hm : ∀ {a b a' b'}, S a a' → S b b' → S (a.mul b) (a'.mul b')) (h1 : S (Ops.ieee f).one (Ops.ieee f).one)
    (a a' : Mat (Fl f) n n) (h : ∀ i j, S (a.get i j) (a'.get i j)) (hn : n < t.W) (k : Nat) :
    Returns (fun w w' => ∀ i j, S (w.get i j) (w'.get i j)) (a.pow t (Ops.ieee f) k) (a'.pow t (Ops.ieee f) k) := by
  have H : Ops.RelHom False { Ops.ieee f with sub := fun _ _ => .error .panic, neg := fun _ => .error .panic }
      { Ops.ieee f with sub := fun _ _ => .error .panic, neg := fun _ => .error .panic } S :=
    ⟨h0, h1, fun h h' => .ok (ha h h'), fun _ _ => .fail _, fun h h' => .ok (hm h h'), fun _ => .fail _⟩
  obtain ⟨w, e⟩ := ieee_pow_total t a k hn
  obtain ⟨w', e', hw⟩ := (rel_pow H t t rfl (a := a) (a' := a') h k hn).ok_left e
  exact ⟨w, w', e, e', hw⟩

end Folds

theorem Fl.le_zero : Fl.Le (Ops.ieee f).zero (Ops.ieee f).zero := .inr (.inr le_rfl)
theorem Fl.between_zero : Fl.Between (Ops.ieee f).zero (Ops.ieee f).zero := .inr (.inr ⟨by rw [Fl.ext_zero], le_rfl⟩)
theorem Fl.ext_one : ((Ops.ieee f).one).ext = 1 := by simp [Ops.ieee, Fl.ofInt, Fl.ext, Fl.val]
theorem Fl.between_one : Fl.Between (Ops.ieee f).one (Ops.ieee f).one := .inr (.inr ⟨by rw [Fl.ext_one]; exact zero_le_one, le_rfl⟩)
theorem Fl.dominated_zero : Fl.Dominated (Ops.ieee f).zero (Ops.ieee f).zero :=
  .inr (.inr ⟨trivial, trivial, by simp [Ops.ieee, Fl.ofInt, Fl.val]⟩)
theorem Fl.dominated_one : Fl.Dominated (Ops.ieee f).one (Ops.ieee f).one :=
  .inr (.inr ⟨trivial, trivial, by simp [Ops.ieee, Fl.ofInt, Fl.val]⟩)

/-- C99: larger elements give larger sums, although every addition rounds. -/
theorem C99_sum_monotone :
    (∀ v v' : Vec (Fl f) n, (∀ i, (v.get i).Le (v'.get i)) → Returns Fl.Le (v.sum (Ops.ieee f)) (v'.sum (Ops.ieee f))) ∧
    (∀ a a' : Mat (Fl f) r c, (∀ i j, (a.get i j).Le (a'.get i j)) → Returns Fl.Le (a.sum (Ops.ieee f)) (a'.sum (Ops.ieee f))) :=
  ⟨fold_vecSum Fl.le_zero Fl.Le.add, fold_matSum Fl.le_zero Fl.Le.add⟩

/-- C99: `dot` and products with a vector or matrix are monotone in the other operand if the elements of the first are not
negative. -/
theorem C99_product_monotone :
    (∀ a b b' : Vec (Fl f) n, (∀ i, 0 ≤ (a.get i).ext) → (∀ i, (b.get i).Le (b'.get i)) →
      Returns Fl.Le (a.dot (Ops.ieee f) b) (a.dot (Ops.ieee f) b')) ∧
    (∀ (a : Mat (Fl f) l n) (v v' : Vec (Fl f) n), (∀ i k, 0 ≤ (a.get i k).ext) → (∀ k, (v.get k).Le (v'.get k)) → l < t.W →
      Returns (fun w w' => ∀ i, (w.get i).Le (w'.get i)) (a.mulVec t (Ops.ieee f) v) (a.mulVec t (Ops.ieee f) v') ∧
      Returns (fun w w' => ∀ i, (w.get i).Le (w'.get i)) (a.mulVecRef t (Ops.ieee f) v) (a.mulVecRef t (Ops.ieee f) v')) ∧
    (∀ (a : Mat (Fl f) l n) (b b' : Mat (Fl f) n c), (∀ i k, 0 ≤ (a.get i k).ext) → (∀ k j, (b.get k j).Le (b'.get k j)) →
      l < t.W → n < t.W → c < t.W → ∀ op ∈ mulForms (l := l) (n := n) (c := c) t (Ops.ieee f),
      Returns (fun w w' => ∀ i j, (w.get i j).Le (w'.get i j)) (op a b) (op a b')) :=
  ⟨fun a b b' h hb => fold_dot Fl.le_zero Fl.Le.add a b a b' fun i => (hb i).mul_left (h i),
   fun a v v' h hv hl => fold_mulVec t Fl.le_zero Fl.Le.add a a v v' (fun i k => (hv k).mul_left (h i k)) hl,
   fun a b b' h hb hl hn hc op hop => fold_mul t Fl.le_zero Fl.Le.add a a b b' (fun i j k => (hb k j).mul_left (h i k)) hl hn hc op hop⟩

/-- C99: for elements that are not negative all products and powers are monotone in all operands, and not negative. -/
theorem C99_nonneg_monotone :
    (∀ a b a' b' : Vec (Fl f) n, (∀ i, (a.get i).Between (a'.get i)) → (∀ i, (b.get i).Between (b'.get i)) →
      Returns Fl.Between (a.dot (Ops.ieee f) b) (a'.dot (Ops.ieee f) b')) ∧
    (∀ (a a' : Mat (Fl f) l n) (v v' : Vec (Fl f) n), (∀ i k, (a.get i k).Between (a'.get i k)) →
      (∀ k, (v.get k).Between (v'.get k)) → l < t.W →
      Returns (fun w w' => ∀ i, (w.get i).Between (w'.get i)) (a.mulVec t (Ops.ieee f) v) (a'.mulVec t (Ops.ieee f) v') ∧
      Returns (fun w w' => ∀ i, (w.get i).Between (w'.get i)) (a.mulVecRef t (Ops.ieee f) v) (a'.mulVecRef t (Ops.ieee f) v')) ∧
    (∀ (a a' : Mat (Fl f) l n) (b b' : Mat (Fl f) n c), (∀ i k, (a.get i k).Between (a'.get i k)) →
      (∀ k j, (b.get k j).Between (b'.get k j)) →
      l < t.W → n < t.W → c < t.W → ∀ op ∈ mulForms (l := l) (n := n) (c := c) t (Ops.ieee f),
      Returns (fun w w' => ∀ i j, (w.get i j).Between (w'.get i j)) (op a b) (op a' b')) ∧
    (∀ (a a' : Mat (Fl f) n n), (∀ i k, (a.get i k).Between (a'.get i k)) → n < t.W → ∀ k,
      Returns (fun w w' => ∀ i j, (w.get i j).Between (w'.get i j)) (a.pow t (Ops.ieee f) k) (a'.pow t (Ops.ieee f) k)) :=
  ⟨fun a b a' b' ha hb => fold_dot Fl.between_zero Fl.Between.add a b a' b' fun i => (ha i).mul (hb i),
   fun a a' v v' ha hv hl => fold_mulVec t Fl.between_zero Fl.Between.add a a' v v' (fun i k => (ha i k).mul (hv k)) hl,
   fun a a' b b' ha hb hl hn hc op hop => fold_mul t Fl.between_zero Fl.Between.add a a' b b'
     (fun i j k => (ha i k).mul (hb k j)) hl hn hc op hop,
   fun a a' ha hn k => fold_pow t Fl.between_zero Fl.Between.add Fl.Between.mul Fl.between_one a a' ha hn k⟩

/-- C99: a computation with magnitudes shows that there is no overflow: if `|a| ≤ a'` for all elements, then wherever the
result for `a'` is a finite number, the result for `a` is one too, and of at most that magnitude. -/
theorem C99_magnitudes :
    (∀ v v' : Vec (Fl f) n, (∀ i, (v.get i).Dominated (v'.get i)) →
      Returns Fl.Dominated (v.sum (Ops.ieee f)) (v'.sum (Ops.ieee f))) ∧
    (∀ a a' : Mat (Fl f) r c, (∀ i j, (a.get i j).Dominated (a'.get i j)) →
      Returns Fl.Dominated (a.sum (Ops.ieee f)) (a'.sum (Ops.ieee f))) ∧
    (∀ a b a' b' : Vec (Fl f) n, (∀ i, (a.get i).Dominated (a'.get i)) → (∀ i, (b.get i).Dominated (b'.get i)) →
      Returns Fl.Dominated (a.dot (Ops.ieee f) b) (a'.dot (Ops.ieee f) b')) ∧
    (∀ (a a' : Mat (Fl f) l n) (v v' : Vec (Fl f) n), (∀ i k, (a.get i k).Dominated (a'.get i k)) →
      (∀ k, (v.get k).Dominated (v'.get k)) → l < t.W →
      Returns (fun w w' => ∀ i, (w.get i).Dominated (w'.get i)) (a.mulVec t (Ops.ieee f) v) (a'.mulVec t (Ops.ieee f) v') ∧
      Returns (fun w w' => ∀ i, (w.get i).Dominated (w'.get i)) (a.mulVecRef t (Ops.ieee f) v) (a'.mulVecRef t (Ops.ieee f) v')) ∧
    (∀ (a a' : Mat (Fl f) l n) (b b' : Mat (Fl f) n c), (∀ i k, (a.get i k).Dominated (a'.get i k)) →
      (∀ k j, (b.get k j).Dominated (b'.get k j)) →
      l < t.W → n < t.W → c < t.W → ∀ op ∈ mulForms (l := l) (n := n) (c := c) t (Ops.ieee f),
      Returns (fun w w' => ∀ i j, (w.get i j).Dominated (w'.get i j)) (op a b) (op a' b')) ∧
    (∀ (a a' : Mat (Fl f) n n), (∀ i k, (a.get i k).Dominated (a'.get i k)) → n < t.W → ∀ k,
      Returns (fun w w' => ∀ i j, (w.get i j).Dominated (w'.get i j)) (a.pow t (Ops.ieee f) k) (a'.pow t (Ops.ieee f) k)) :=
  ⟨fold_vecSum Fl.dominated_zero Fl.Dominated.add, fold_matSum Fl.dominated_zero Fl.Dominated.add,
   fun a b a' b' ha hb => fold_dot Fl.dominated_zero Fl.Dominated.add a b a' b' fun i => (ha i).mul (hb i),
   fun a a' v v' ha hv hl => fold_mulVec t Fl.dominated_zero Fl.Dominated.add a a' v v' (fun i k => (ha i k).mul (hv k)) hl,
   fun a a' b b' ha hb hl hn hc op hop => fold_mul t Fl.dominated_zero Fl.Dominated.add a a' b b'
     (fun i j k => (ha i k).mul (hb k j)) hl hn hc op hop,
   fun a a' ha hn k => fold_pow t Fl.dominated_zero Fl.Dominated.add Fl.Dominated.mul Fl.dominated_one a a' ha hn k⟩

/-! ### Examples -/

/-- `[-0, 1] == [0, 1]`, although their bits differ; with a NaN a vector is not `==` itself. -/
example : (⟨[.negZero, (Ops.ieee f).one], rfl⟩ : Vec (Fl f) 2).eq Fl.beq ⟨[(Ops.ieee f).zero, (Ops.ieee f).one], rfl⟩ = true ∧
    (⟨[.nan, (Ops.ieee f).one], rfl⟩ : Vec (Fl f) 2).eq Fl.beq ⟨[.nan, (Ops.ieee f).one], rfl⟩ = false := by
  constructor
  · rw [C30_vec_eq]
    intro i
    rw [Fl.beq_iff]
    fin_cases i
    · exact ⟨nofun, nofun, by
        change Fl.ext .negZero = ((Ops.ieee f).zero).ext
        rw [Fl.ext_zero]; rfl⟩
    · exact ⟨nofun, nofun, rfl⟩
  · rw [Bool.eq_false_iff, ne_eq, C30_vec_eq]
    intro h
    exact ((Fl.beq_iff.1 (h 0)).1) rfl

/-- The relations of the theorems hold between elements that differ: `-1 ≤ 1`, `0 ≤ 1`, `|-1| ≤ 1`, `-∞ ≤ 1`, ... -/
example : (Fl.ofInt (-1) (by simp [one_le_pow₀])).Le (Ops.ieee f).one ∧ (Ops.ieee f).zero.Between (Ops.ieee f).one ∧
    (Fl.ofInt (-1) (by simp [one_le_pow₀])).Dominated (Ops.ieee f).one ∧ (Fl.inf true).Le (Ops.ieee f).one ∧
    ¬ (Ops.ieee f).one.Le (Ops.ieee f).zero ∧ ¬ (Fl.nan).Dominated (Ops.ieee f).one := by
  refine ⟨.inr (.inr ?_), .inr (.inr ⟨?_, ?_⟩), .inr (.inr ⟨trivial, trivial, ?_⟩), .inr (.inr bot_le), ?_, ?_⟩
  · rw [Fl.ext_one, Fl.ext_of_finite (show (Fl.ofInt (-1) (by simp [one_le_pow₀]) : Fl f).IsFinite from trivial)]
    simp only [Fl.ofInt, Fl.val]
    exact_mod_cast (by norm_num : (-1 : ℝ) ≤ 1)
  · rw [Fl.ext_zero]
  · rw [Fl.ext_zero, Fl.ext_one]; exact zero_le_one
  · simp [Fl.ofInt, Fl.val, Ops.ieee]
  · rintro (h | h | h)
    · cases h
    · cases h
    · rw [Fl.ext_one, Fl.ext_zero] at h; exact absurd h (by simp)
  · rintro (h | h | h)
    · cases h
    · cases h
    · exact h.1

end Rowcol
