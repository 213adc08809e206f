import Verif.ErrorSpec
import Verif.RewriteSpec
import Verif.Lemmas.ProgramRel
import Verif.Props.Programs
import Verif.Props.Ieee
import Verif.Props.Approx
import Verif.Props.FloatBits

/-! # C115: error bounds for whole expressions and programs in floating point -/

namespace Rowcol
namespace FloatFormat
variable (f : FloatFormat)

theorem uQ_cast : ((f.uQ : ℚ) : ℝ) = f.u := by
  rw [uQ, pow2_cast, u, zpow_neg, zpow_natCast, one_div, inv_pow]

theorem etaQ_cast : ((f.etaQ : ℚ) : ℝ) = f.eta := by
  rw [etaQ, pow2_cast, eta]

end FloatFormat

namespace Unc
variable {f : FloatFormat}

theorem round_mid {x d e : ℚ} {k : Unc} (h : Unc.round f x d e = .ok k) : k.mid = x := by
  unfold Unc.round at h
  dsimp only at h
  split at h
  · cases h; rfl
  · split at h
    · cases h; rfl
    · cases h

theorem round_error {x d e : ℚ} {ff : Fault} (h : Unc.round f x d e = .error ff) : ff = .panic := by
  unfold Unc.round at h
  dsimp only at h
  split at h
  · cases h
  · split at h
    · cases h
    · cases h; rfl

/-- A rounded result lies within the uncertainty computed for it. -/
theorem round_sound {x d e : ℚ} {k : Unc} (h : Unc.round f x d e = .ok k) {y : ℝ} (s : Bool)
    (hy : |y - (x : ℝ)| ≤ (d : ℝ)) (he : |f.rnd y - y| ≤ f.u * |y| + (e : ℝ)) :
    k.Covers (Fl.round s y : Fl f) := by
  unfold Unc.round at h
  dsimp only at h
  have fin : ∀ k : Unc, |f.rnd y| ≤ f.max → |f.rnd y - (k.mid : ℝ)| ≤ (k.err : ℝ) → k.Covers (Fl.round s y : Fl f) := by
    intro k h1 h2
    have h3 : (Fl.round s y : Fl f).IsFinite := Fl.round_finite_iff.2 h1
    exact ⟨h3, by rw [Fl.val_round h3]; exact h2⟩
  split at h
  · next hx =>
    obtain ⟨rfl, hx1, hx2⟩ := hx
    cases h
    have hyx : y = (x : ℝ) := by
      have : |y - (x : ℝ)| ≤ 0 := by simpa using hy
      exact sub_eq_zero.1 (abs_eq_zero.1 (le_antisymm this (abs_nonneg _)))
    have hxi : x = (x.num : ℚ) := (Rat.den_eq_one_iff x).1 hx1 |>.symm
    have hz : |x.num| ≤ 2 ^ f.prec := by
      have : |(x.num : ℚ)| ≤ ((2 ^ f.prec : ℕ) : ℚ) := by rw [← hxi]; exact hx2
      exact_mod_cast this
    have hyz : y = ((x.num : ℤ) : ℝ) := by rw [hyx]; conv_lhs => rw [hxi]
                                           push_cast; rfl
    have hr : f.rnd y = y := f.rnd_rep (by rw [hyz]; exact .int f hz)
    refine fin _ ?_ ?_
    · rw [hr, hyz]
      refine le_trans ?_ f.pow_le_max
      exact_mod_cast hz
    · rw [hr, hyx]; simp
  · split at h
    · next hx =>
      cases h
      have hm : |(x : ℝ)| + ((d : ℝ) + f.u * (|(x : ℝ)| + d) + e) ≤ f.max := by
        have := hx
        have h2 : ((|x| + (d + f.uQ * (|x| + d) + e) : ℚ) : ℝ) ≤ ((f.maxQ : ℚ) : ℝ) := by exact_mod_cast this
        rw [f.maxQ_cast] at h2
        push_cast [f.uQ_cast] at h2
        exact h2
      have h1 : |y| ≤ |(x : ℝ)| + d := by
        have := abs_add_le (y - x) x; rw [sub_add_cancel] at this; linarith
      have h2 : f.u * |y| ≤ f.u * (|(x : ℝ)| + d) := mul_le_mul_of_nonneg_left h1 f.u_pos.le
      have h3 : |f.rnd y - x| ≤ d + f.u * (|(x : ℝ)| + d) + e := by
        have := abs_add_le (f.rnd y - y) (y - x); rw [sub_add_sub_cancel] at this; linarith
      refine fin _ ?_ ?_
      · have := abs_add_le (f.rnd y - x) x; rw [sub_add_cancel] at this; linarith
      · push_cast [f.uQ_cast]; exact h3
    · cases h

theorem rel_round {x d e : ℚ} {y : ℝ} {s : Bool} {z : Fl f} (hz : z = Fl.round s y)
    (h : |y - (x : ℝ)| ≤ (d : ℝ)) (he : |f.rnd y - y| ≤ f.u * |y| + (e : ℝ)) :
    Rel True Unc.Covers (Unc.round f x d e) (.ok z) := by
  cases hr : Unc.round f x d e with
  | error ff => exact .inr ⟨ff, rfl, .inl trivial⟩
  | ok k => subst hz; exact .ok (round_sound hr s h he)

variable (f)

/-- Floating point operations stay within the uncertainty computed for them. -/
theorem unc_rel : Ops.RelHom True (Ops.unc f) (Ops.ieee f) Unc.Covers where
  zero := ⟨trivial, by simp [Ops.unc, Ops.ieee, Fl.ofInt, Fl.val]⟩
  one := ⟨trivial, by simp [Ops.unc, Ops.ieee, Fl.ofInt, Fl.val]⟩
  add {a b a' b'} ha hb := by
    refine rel_round (Fl.add_of_finite ha.1 hb.1) ?_ (by simpa using FloatFormat.rnd_add a'.rep_val b'.rep_val)
    push_cast
    have e : a'.val + b'.val - ((a.mid : ℝ) + b.mid) = (a'.val - a.mid) + (b'.val - b.mid) := by ring
    rw [e]
    exact (abs_add_le _ _).trans (add_le_add ha.2 hb.2)
  sub {a b a' b'} ha hb := by
    refine rel_round (Fl.add_of_finite ha.1 (Fl.finite_neg.2 hb.1)) ?_
      (by simpa using FloatFormat.rnd_add a'.rep_val b'.neg.rep_val)
    push_cast
    have e : a'.val + b'.neg.val - ((a.mid : ℝ) - b.mid) = (a'.val - a.mid) - (b'.val - b.mid) := by rw [Fl.val_neg]; ring
    rw [e]
    exact (abs_sub _ _).trans (add_le_add ha.2 hb.2)
  mul {a b a' b'} ha hb := by
    refine rel_round (Fl.mul_of_finite ha.1 hb.1) ?_ (by rw [f.etaQ_cast]; exact f.rnd_error _)
    push_cast
    have e : a'.val * b'.val - (a.mid : ℝ) * b.mid =
      a.mid * (b'.val - b.mid) + b.mid * (a'.val - a.mid) + (a'.val - a.mid) * (b'.val - b.mid) := by ring
    rw [e]
    have h1 := ha.2
    have h2 := hb.2
    refine (abs_add_le _ _).trans (add_le_add ((abs_add_le _ _).trans (add_le_add ?_ ?_)) ?_)
    · rw [abs_mul]; exact mul_le_mul_of_nonneg_left h2 (abs_nonneg _)
    · rw [abs_mul]; exact mul_le_mul_of_nonneg_left h1 (abs_nonneg _)
    · rw [abs_mul]; exact mul_le_mul h1 h2 (abs_nonneg _) ((abs_nonneg _).trans h1)
  neg {a a'} ha := by
    refine .ok ⟨Fl.finite_neg.2 ha.1, ?_⟩
    rw [Fl.val_neg]
    push_cast
    rw [← abs_neg]
    convert ha.2 using 2
    ring

variable {f}

theorem unc_quot {a b : Unc} {a' b' : Fl f} (ha : a.Covers a') (hb : b.Covers b') :
    Rel True Unc.Covers ((Ops.unc f).div a b) ((Ops.ieee f).div a' b') := by
  simp only [Ops.unc, Ops.ieee]
  split
  · next h =>
    have hq : (b.err : ℝ) < |(b.mid : ℝ)| := by exact_mod_cast h.2
    have h1 := ha.2
    have h2 := hb.2
    have hm : (b.mid : ℝ) ≠ 0 := by
      intro h0; rw [h0, abs_zero] at hq; have := (abs_nonneg _).trans h2; linarith
    have hb1 : |(b.mid : ℝ)| - b.err ≤ |b'.val| := by
      have := abs_add_le ((b.mid : ℝ) - b'.val) b'.val
      rw [sub_add_cancel, abs_sub_comm] at this; linarith
    have hb0 : b'.val ≠ 0 := by intro h0; rw [h0, abs_zero] at hb1; linarith
    refine rel_round (Fl.div_of_finite ha.1 hb.1 hb0) ?_ (by rw [f.etaQ_cast]; exact f.rnd_error _)
    push_cast
    have e : a'.val / b'.val - (a.mid : ℝ) / b.mid =
        ((a'.val - a.mid) - a.mid / b.mid * (b'.val - b.mid)) / b'.val := by field_simp; ring
    rw [e, abs_div]
    have h3 : |(a'.val - a.mid) - (a.mid : ℝ) / b.mid * (b'.val - b.mid)| ≤ a.err + |(a.mid : ℝ) / b.mid| * b.err := by
      refine (abs_sub _ _).trans (add_le_add h1 ?_)
      rw [abs_mul]; exact mul_le_mul_of_nonneg_left h2 (abs_nonneg _)
    exact div_le_div₀ ((abs_nonneg _).trans h3) h3 (by linarith) hb1
  · exact .inr ⟨_, rfl, .inl trivial⟩

theorem unc_zero {k : Unc} {x : Fl f} (h : k.Covers x) (hk : k.IsZero) : x.isZero = true := by
  have h3 := h.2
  rw [hk.1, hk.2] at h3
  simp only [Rat.cast_zero, sub_zero] at h3
  exact (Fl.isZero_iff _).2 ⟨h.1, abs_eq_zero.1 (le_antisymm h3 (abs_nonneg _))⟩

theorem unc_nonZero {k : Unc} {x : Fl f} (h : k.Covers x) (hk : k.NonZero) : x.isZero = false := by
  refine Bool.eq_false_iff.2 fun h0 => ?_
  have h1 := ((Fl.isZero_iff _).1 h0).2
  have h2 := h.2
  have hq : (k.err : ℝ) < |(k.mid : ℝ)| := by exact_mod_cast hk.2
  rw [h1, zero_sub, abs_neg] at h2
  linarith

theorem div_nonZero {x k y : Unc} (h : (Ops.unc f).div x k = .ok y) : k.NonZero := by
  simp only [Ops.unc] at h
  split at h
  · assumption
  · cases h

theorem zero_not {k : Unc} (h : k.NonZero) : ¬ k.IsZero := fun h' => h.1 h'.1

/-- The condition on zero tests. -/
theorem test_of {U : Type} {O' : Ops U} {R : Unc → U → Prop} (hz : ∀ {k x}, R k x → k.IsZero → O'.isZero x = true)
    (hn : ∀ {k x}, R k x → k.NonZero → O'.isZero x = false) {k : Unc} {x : U} (h : R k x) :
    O'.isZero x = (Ops.unc f).isZero k ∨ (True ∧ (Ops.unc f).isZero k = false ∧ ∀ a b, (Ops.unc f).div a k ≠ .ok b) := by
  change _ = decide k.IsZero ∨ (_ ∧ decide k.IsZero = false ∧ _)
  by_cases h0 : k.IsZero
  · exact .inl (by rw [hz h h0, decide_eq_true h0])
  · rw [decide_eq_false h0]
    by_cases h1 : k.NonZero
    · exact .inl (hn h h1)
    · exact .inr ⟨trivial, rfl, fun a b hd => h1 (div_nonZero hd)⟩

theorem unc_weak : Prog.WeakRel True (Ops.unc f) (Ops.ieee f) Unc.Covers where
  toRelHom := unc_rel f
  test := test_of unc_zero unc_nonZero
  div ha hb _ := unc_quot ha hb
  quot ha hb := unc_quot ha hb
  safe := by simp [Ops.unc]
  safe' := by simp [Ops.ieee]

theorem mid_round {x d e : ℚ} : Rel True (fun k y => y = Unc.mid k) (Unc.round f x d e) (.ok x) := by
  cases h : Unc.round f x d e with
  | error ff => exact .inr ⟨ff, rfl, .inl trivial⟩
  | ok k => exact .ok (round_mid h).symm

theorem mid_quot {a b : Unc} {a' b' : ℚ} (ha : a' = a.mid) (hb : b' = b.mid) :
    Rel True (fun k y => y = Unc.mid k) ((Ops.unc f).div a b) ((Ops.exact ℚ).div a' b') := by
  subst ha hb
  simp only [Ops.unc, Ops.exact]
  split
  · next h => rw [if_neg h.1]; exact mid_round
  · exact .inr ⟨_, rfl, .inl trivial⟩

/-- The middles are exact. -/
theorem mid_weak : Prog.WeakRel True (Ops.unc f) (Ops.exact ℚ) (fun k x => x = Unc.mid k) where
  zero := rfl
  one := rfl
  add ha hb := by subst ha hb; exact mid_round
  sub ha hb := by subst ha hb; exact mid_round
  mul ha hb := by subst ha hb; exact mid_round
  neg ha := by subst ha; exact .ok rfl
  test h := test_of (O' := Ops.exact ℚ) (R := fun k x => x = Unc.mid k) (fun h hk => by subst h; simp [Ops.exact, hk.1])
    (fun h hk => by subst h; simp [Ops.exact, hk.1]) h
  div ha hb _ := mid_quot ha hb
  quot ha hb := mid_quot ha hb
  safe := by simp [Ops.unc]
  safe' := by simp [Ops.exact]

end Unc

namespace Prog
variable {f : FloatFormat} {τ : Ty}

theorem rel_covers (τ : Ty) (w : Val Unc τ) (v : Val (Fl f) τ) : Val.Rel Unc.Covers τ w v ↔ Val.Covers τ w v := by
  match τ with
  | .s => exact Iff.rfl
  | .v n => exact Iff.rfl
  | .m r c => exact Iff.rfl

theorem rel_store (σ : Store Unc) (ρ : Store (Fl f)) : σ.Rel Unc.Covers ρ ↔ σ.Covers ρ :=
  ⟨fun h τ i => (rel_covers τ _ _).1 (h τ i), fun h τ i => (rel_covers τ _ _).2 (h τ i)⟩

theorem rel_mid (τ : Ty) (x : Val Unc τ) (y : Val ℚ τ) (h : Val.Rel (fun k y => y = Unc.mid k) τ x y) :
    Val.den id τ y = Val.den Unc.mid τ x := by
  match τ with
  | .s => exact h
  | .v n => exact funext fun i => h i
  | .m r c => exact funext fun i => funext fun j => h i j

theorem mid_store (σ : Store Unc) : σ.Rel (fun k y => y = Unc.mid k) (σ.map Unc.mid) := by
  intro τ i
  match τ with
  | .s => rfl
  | .v n => exact fun j => by simp [Store.map, Val.map]
  | .m r c => exact fun j k => by simp [Store.map, Val.map]

theorem entry_rel {T U : Type} {R : T → U → Prop} (τ : Ty) (x : Val T τ) (y : Val U τ) (h : Val.Rel R τ x y) (q : τ.Pos) :
    R (Val.entry τ x q) (Val.entry τ y q) := by
  match τ with
  | .s => exact h
  | .v n => exact h q
  | .m r c => exact h q.1 q.2

/-- `is_zero` by entries. -/
theorem isZero_entry {T : Type} (O : Ops T) (τ : Ty) (x : Val T τ) :
    Val.isZero O τ x = true ↔ ∀ q, O.isZero (Val.entry τ x q) = true := by
  have vec : ∀ {n} (v : Vec T n), Vec.isZero O.isZero v = true ↔ ∀ i, O.isZero (v.get i) = true := fun v => by
    rw [Vec.isZero, Vec.toList_eq v]; simp
  match τ with
  | .s => exact ⟨fun h _ => h, fun h => h ()⟩
  | .v n => exact vec x
  | .m r c =>
    change Mat.isZero O.isZero x = true ↔ _
    rw [Mat.isZero, Vec.toList_eq (Mat.rows x)]
    rw [List.all_map, List.all_eq_true]
    exact ⟨fun h q => (vec _).1 (h q.1 (List.mem_finRange _)) q.2, fun h i _ => (vec _).2 fun j => h (i, j)⟩

theorem sure_zero {U : Type} {O' : Ops U} {R : Unc → U → Prop} (hz : ∀ {k x}, R k x → k.IsZero → O'.isZero x = true)
    (τ : Ty) (x : Val Unc τ) (y : Val U τ) (h : Val.Rel R τ x y) (hx : Val.SureZero τ x) : Val.isZero O' τ y = true :=
  (isZero_entry O' τ y).2 fun q => hz (entry_rel τ x y h q) (hx q)

theorem sure_nonZero {U : Type} {O' : Ops U} {R : Unc → U → Prop} (hn : ∀ {k x}, R k x → k.NonZero → O'.isZero x = false)
    (τ : Ty) (x : Val Unc τ) (y : Val U τ) (h : Val.Rel R τ x y) (hx : Val.SureNonZero τ x) : Val.isZero O' τ y = false := by
  obtain ⟨q, hq⟩ := hx
  refine Bool.eq_false_iff.2 fun h0 => ?_
  have := (isZero_entry O' τ y).1 h0 q
  rw [hn (entry_rel τ x y h q) hq] at this
  cases this

/-- A run with sure answers is followed by every element type whose numbers lie within the uncertainty. -/
theorem sure_run {U : Type} {O' : Ops U} {R : Unc → U → Prop} (H : WeakRel True (Ops.unc f) O' R)
    (hz : ∀ {k x}, R k x → k.IsZero → O'.isZero x = true) (hn : ∀ {k x}, R k x → k.NonZero → O'.isZero x = false)
    (t : Target) (p : Stmt) (hs : p.Small t.W) (σ σ' : Store Unc) (ρ : Store U) (hσ : σ.Rel R ρ) (h : SureRun t f p σ σ') :
    ∃ ρ', Run t O' p ρ (.ok ρ') ∧ σ'.Rel R ρ' := by
  have ev : ∀ {τ : Ty} {e : Ex τ} {σ : Store Unc} {ρ : Store U} {k}, σ.Rel R ρ → e.Small t.W → e.eval t (Ops.unc f) σ = .ok k →
      ∃ v, e.eval t O' ρ = .ok v ∧ Val.Rel R τ k v := fun hσ hs h =>
    (rel_eval_gen H.toRelHom t t H.safe H.safe' rfl hσ _ hs (.inl H)).ok_left h
  induction h generalizing ρ with
  | skip σ => exact ⟨ρ, .skip _, hσ⟩
  | @act a σ σ' h =>
    obtain ⟨ρ', h1, h2⟩ := (rel_exec_gen H.toRelHom t t H.safe H.safe' rfl hσ a hs (.inl H)).ok_left h
    exact ⟨ρ', h1 ▸ .act a ρ, h2⟩
  | seq _ _ ih1 ih2 =>
    obtain ⟨y, h1, h2⟩ := ih1 hs.1 ρ hσ
    obtain ⟨z, h3, h4⟩ := ih2 hs.2 y h2
    exact ⟨z, .seq h1 h3, h4⟩
  | iteZero he hk _ ih =>
    obtain ⟨v, h1, h2⟩ := ev hσ hs.1 he
    obtain ⟨y, h3, h4⟩ := ih hs.2.1 ρ hσ
    exact ⟨y, .iteZero h1 (sure_zero hz _ _ _ h2 hk) h3, h4⟩
  | iteElse he hk _ ih =>
    obtain ⟨v, h1, h2⟩ := ev hσ hs.1 he
    obtain ⟨y, h3, h4⟩ := ih hs.2.2 ρ hσ
    exact ⟨y, .iteElse h1 (sure_nonZero hn _ _ _ h2 hk) h3, h4⟩
  | @loopGo τ b e p σ k σ' σ'' he hk _ _ ih1 ih2 =>
    obtain ⟨v, h1, h2⟩ := ev hσ hs.1 he
    obtain ⟨y, h3, h4⟩ := ih1 hs.2 ρ hσ
    obtain ⟨z, h5, h6⟩ := ih2 hs y h4
    refine ⟨z, .loopGo h1 ?_ h3 h5, h6⟩
    cases b
    · exact sure_nonZero hn _ _ _ h2 (by simpa using hk)
    · exact sure_zero hz _ _ _ h2 (by simpa using hk)
  | @loopEnd τ b e p σ k he hk =>
    obtain ⟨v, h1, h2⟩ := ev hσ hs.1 he
    refine ⟨ρ, .loopEnd h1 ?_, hσ⟩
    cases b
    · rw [sure_zero hz _ _ _ h2 (by simpa using hk)]; simp
    · rw [sure_nonZero hn _ _ _ h2 (by simpa using hk)]; simp

/-- C115: error bounds for expressions.  Propagate the uncertainty of the variables through an expression.  If this gives an
answer, the expression evaluated in floating point does not panic, all entries of its result are finite and lie within
the computed uncertainty of their middles, and the middles are the exact value of the expression in linear algebra. -/
theorem C115_expressions (t : Target) (e : Ex τ) (hs : e.Small t.W) (σ : Store Unc) (ρ : Store (Fl f)) (hσ : σ.Covers ρ)
    (w : Val Unc τ) (h : e.eval t (Ops.unc f) σ = .ok w) :
    ∃ v, e.eval t (Ops.ieee f) ρ = .ok v ∧ Val.Covers τ w v ∧
      Val.den Unc.mid τ w = e.den (· / ·) (σ.den Unc.mid) := by
  have H := Unc.unc_weak (f := f)
  have M := Unc.mid_weak (f := f)
  obtain ⟨v, h1, h2⟩ := (rel_eval_gen H.toRelHom t t H.safe H.safe' rfl ((rel_store σ ρ).2 hσ) e hs (.inl H)).ok_left h
  refine ⟨v, h1, (rel_covers τ w v).1 h2, ?_⟩
  obtain ⟨x, h3, h4⟩ := (rel_eval_gen M.toRelHom t t M.safe M.safe' rfl (mid_store σ) e hs (.inl M)).ok_left h
  rcases exact_eval (Ops.exact_isField ℚ).toIsRing t (σ.map Unc.mid) e hs (.inr (exact_divOk ℚ t)) with ⟨h5, _⟩ | ⟨y, h5, h6⟩
  · rw [h3] at h5; cases h5
  · rw [h3] at h5; cases h5
    rw [← rel_mid τ w x h4, h6, Store.den_map]

/-- C115: error bounds for programs.  If the program run with uncertain numbers ends well, all its tests having sure
answers, then it ends well in floating point, with every variable finite and within its uncertainty, and the middles are
what the program means in linear algebra. -/
theorem C115_programs (t : Target) (p : Stmt) (hs : p.Small t.W) (σ σ' : Store Unc) (ρ : Store (Fl f)) (hσ : σ.Covers ρ)
    (h : SureRun t f p σ σ') :
    ∃ ρ', Run t (Ops.ieee f) p ρ (.ok ρ') ∧ σ'.Covers ρ' ∧ Means (· / ·) p (σ.den Unc.mid) (σ'.den Unc.mid) := by
  obtain ⟨ρ', h1, h2⟩ := sure_run Unc.unc_weak Unc.unc_zero Unc.unc_nonZero t p hs σ σ' ρ ((rel_store σ ρ).2 hσ) h
  refine ⟨ρ', h1, (rel_store σ' ρ').1 h2, ?_⟩
  obtain ⟨x, h3, h4⟩ := sure_run Unc.mid_weak (fun h hk => by subst h; simp [Ops.exact, hk.1])
    (fun h hk => by subst h; simp [Ops.exact, hk.1]) t p hs σ σ' (σ.map Unc.mid) (mid_store σ) h
  rcases exact_run (Ops.exact_isField ℚ).toIsRing t (Ops.exact_isField ℚ).isZero p _ _ h3 hs (.inr (exact_divOk ℚ t))
    with ⟨h5, _⟩ | ⟨y, h5, h6⟩
  · cases h5
  · cases h5
    have e : x.den id = σ'.den Unc.mid := funext fun τ => funext fun i => rel_mid τ _ _ (h4 τ i)
    rwa [Store.den_map, e] at h6

theorem covers_within (w₁ w₂ : Val Unc τ) (v₁ v₂ : Val (Fl f) τ) (h₁ : Val.Covers τ w₁ v₁) (h₂ : Val.Covers τ w₂ v₂)
    (h : Val.den Unc.mid τ w₁ = Val.den Unc.mid τ w₂) : Val.Within τ v₁ v₂ w₁ w₂ := by
  have key : ∀ {k l : Unc} {x y : Fl f}, k.Covers x → l.Covers y → k.mid = l.mid →
      |x.val - y.val| ≤ ((k.err + l.err : ℚ) : ℝ) := by
    intro k l x y hx hy e
    have h1 := hx.2
    have h2 := hy.2
    rw [← e, abs_sub_comm] at h2
    have := abs_add_le (x.val - k.mid) (k.mid - y.val)
    rw [sub_add_sub_cancel] at this
    push_cast
    linarith
  match τ with
  | .s => exact key h₁ h₂ h
  | .v n => exact fun i => key (h₁ i) (h₂ i) (congrFun h i)
  | .m r c => exact fun i j => key (h₁ i j) (h₂ i j) (congrFun (congrFun h i) j)

/-- C115: two expressions that mean the same in linear algebra give, in floating point, results that differ in every entry by
at most the sum of their uncertainties. -/
theorem C115_rewrite (t : Target) (e₁ e₂ : Ex τ) (hs₁ : e₁.Small t.W) (hs₂ : e₂.Small t.W)
    (σ : Store Unc) (ρ : Store (Fl f))
    (hσ : σ.Covers ρ) (he : ∀ ρ : Env ℚ, e₁.den (· / ·) ρ = e₂.den (· / ·) ρ)
    (w₁ w₂ : Val Unc τ) (h₁ : e₁.eval t (Ops.unc f) σ = .ok w₁) (h₂ : e₂.eval t (Ops.unc f) σ = .ok w₂) :
    ∃ v₁ v₂, e₁.eval t (Ops.ieee f) ρ = .ok v₁ ∧ e₂.eval t (Ops.ieee f) ρ = .ok v₂ ∧ Val.Within τ v₁ v₂ w₁ w₂ := by
  obtain ⟨v₁, a1, a2, a3⟩ := C115_expressions t e₁ hs₁ σ ρ hσ w₁ h₁
  obtain ⟨v₂, b1, b2, b3⟩ := C115_expressions t e₂ hs₂ σ ρ hσ w₂ h₂
  exact ⟨v₁, v₂, a1, b1, covers_within w₁ w₂ v₁ v₂ a2 b2 (by rw [a3, b3, he])⟩

/-- C115: so `relative_eq` calls the two results equal, whatever the relative tolerance, if the absolute tolerance is at
least the sum of the uncertainties. -/
theorem C115_relative_eq {r c : Nat} (t : Target) (e₁ e₂ : Ex (.m r c)) (hs₁ : e₁.Small t.W) (hs₂ : e₂.Small t.W)
    (σ : Store Unc) (ρ : Store (Fl f))
    (hσ : σ.Covers ρ) (he : ∀ ρ : Env ℚ, e₁.den (· / ·) ρ = e₂.den (· / ·) ρ)
    (w₁ w₂ : Mat Unc r c) (h₁ : e₁.eval t (Ops.unc f) σ = .ok w₁) (h₂ : e₂.eval t (Ops.unc f) σ = .ok w₂)
    (eps rel : Fl f) (hf : eps.IsFinite) (heps : ∀ i j, (((w₁.get i j).err + (w₂.get i j).err : ℚ) : ℝ) ≤ eps.val) :
    ∃ v₁ v₂ : Mat (Fl f) r c, e₁.eval t (Ops.ieee f) ρ = .ok v₁ ∧ e₂.eval t (Ops.ieee f) ρ = .ok v₂ ∧
      v₁.relativeEqFl t v₂ eps rel = .ok true := by
  obtain ⟨v₁, a1, a2, a3⟩ := C115_expressions t e₁ hs₁ σ ρ hσ w₁ h₁
  obtain ⟨v₂, b1, b2, b3⟩ := C115_expressions t e₂ hs₂ σ ρ hσ w₂ h₂
  have h := covers_within (τ := .m r c) w₁ w₂ v₁ v₂ a2 b2 (by rw [a3, b3, he])
  have hr : 2 * r < t.W := hs₁.ty.1
  exact ⟨v₁, v₂, a1, b1, ApproxMat.C107_relative_holds t (by omega) v₁ v₂ eps rel fun i j =>
    ⟨(a2 i j).1, (b2 i j).1, .inl ⟨hf, (h i j).trans (heps i j)⟩⟩⟩

/-! ### Bounds that hold for all inputs -/

theorem rel_map {T U : Type} {φ : T → U} (τ : Ty) (x : Val T τ) (y : Val U τ) :
    Val.Rel (fun a b => b = φ a) τ x y ↔ y = Val.map φ τ x := by
  match τ with
  | .s => exact Iff.rfl
  | .v n => exact vecRel_fn
  | .m r c => exact matRel_fn

theorem eval_map {T U : Type} {φ : T → U} {O : Ops T} {O' : Ops U} (H : Ops.RelHom False O O' (fun a b => b = φ a))
    (hu : O.neg O.one ≠ .error .ub) (hu' : O'.neg O'.one ≠ .error .ub) (t : Target) (e : Ex τ) (hs : e.Small t.W)
    (hd : e.DivFree) (σ : Store T) : e.eval t O' (σ.map φ) = (e.eval t O σ).map (Val.map φ τ) := by
  have h := rel_eval_gen H t t hu hu' rfl (σ := σ) (ρ := σ.map φ) (fun τ i => (rel_map τ _ _).2 rfl) e hs (.inr hd)
  rcases h with ⟨x, y, h1, h2, h3⟩ | ⟨x, h1, h2 | h2⟩
  · rw [h1, h2, (rel_map τ x y).1 h3]; rfl
  · exact h2.elim
  · rw [h1, h2]; rfl

theorem map_map {A B C : Type} (g : B → C) (h : A → B) (σ : Store A) : (σ.map h).map g = σ.map fun x => g (h x) := by
  funext τ i
  match τ with
  | .s => rfl
  | .v n => exact Vec.ext_get fun j => by simp [Store.map, Val.map]
  | .m r c => exact Mat.ext_get fun j k => by simp [Store.map, Val.map]

theorem entry_map {T U : Type} (φ : T → U) (τ : Ty) (x : Val T τ) (q : τ.Pos) :
    Val.entry τ (Val.map φ τ x) q = φ (Val.entry τ x q) := by
  match τ with
  | .s => rfl
  | .v n => exact Vec.get_mapV _ _ _
  | .m r c => exact Mat.get_mapV _ _ _ _

theorem entry_den {T K : Type} (φ : T → K) (τ : Ty) (x : Val T τ) (q : τ.Pos) :
    Den.entry τ (Val.den φ τ x) q = φ (Val.entry τ x q) := by
  match τ with
  | .s => rfl
  | .v n => rfl
  | .m r c => rfl

theorem rel_mapped {T U : Type} {R : T → U → Prop} {g : T → U} (h : ∀ x, R x (g x)) (σ : Store T) : σ.Rel R (σ.map g) := by
  intro τ i
  match τ with
  | .s => exact h _
  | .v n => exact fun j => by simp only [Store.map, Val.map, Vec.get_mapV]; exact h _
  | .m r c => exact fun j k => by simp only [Store.map, Val.map, Mat.get_mapV]; exact h _

open Classical in
/-- What the calculus says about a whole expression. -/
theorem trk_eval (t : Target) (dv : ℝ → ℝ → ℝ) (e : Ex τ) (hs : e.Small t.W) (hd : e.DivFree) (hi : e.InRange) (σ : Store Trk) :
    ∃ w, e.eval t Ops.trk σ = .ok w ∧
      e.eval t Ops.magn (σ.map Trk.bound) = .ok (Val.map Trk.bound τ w) ∧
      e.eval t Ops.cnt (σ.map Trk.cnt) = .ok (Val.map Trk.cnt τ w) ∧
      ∀ q, (Val.entry τ w q).exact = Den.entry τ (e.den dv (σ.den Trk.exact)) q := by
  have h1 := eval_map trk_exact.rel (by simp [Ops.trk]) (by simp [Ops.exact]) t e hs hd σ
  have h2 := eval_map trk_magn.rel (by simp [Ops.trk]) (by simp [Ops.magn]) t e hs hd σ
  have h3 := eval_map trk_cnt.rel (by simp [Ops.trk]) (by simp [Ops.cnt]) t e hs hd σ
  rcases exact_eval (Ops.exact_isField ℝ).toIsRing t (dv := dv) (σ.map Trk.exact) e hs (.inl hd) with ⟨_, h5⟩ | ⟨x, h5, h6⟩
  · exact absurd ⟨hd, hi⟩ h5
  · rw [h5] at h1
    cases hw : e.eval t Ops.trk σ with
    | error ff => rw [hw] at h1; cases h1
    | ok w =>
      rw [hw] at h1 h2 h3
      refine ⟨w, rfl, h2, h3, fun q => ?_⟩
      rw [Store.den_map] at h6
      rw [← h6, Except.ok.inj h1, Val.den_map, entry_den]

/-- C115: an expression that does not divide and whose indices are in range evaluates in `f32` and `f64`, whatever the
inputs, and every entry of the result that is finite is within `(1 + u)^k M - m` of the exact value.  Here `k`, `M` and `m`
are what the same expression gives when its operations count roundings (`+`, `-` one more than the larger operand, `*` one
more than both together), add up magnitudes with half of the smallest positive number for every product, and add up
magnitudes. -/
theorem C115_all_inputs (t : Target) (dv : ℝ → ℝ → ℝ) (e : Ex τ) (hs : e.Small t.W) (hd : e.DivFree) (hi : e.InRange)
    (ρ : Store (Fl f)) :
    ∃ v k M m, e.eval t (Ops.ieee f) ρ = .ok v ∧ e.eval t Ops.cnt (ρ.map fun _ => 0) = .ok k ∧
      e.eval t (Ops.high f.eta) (ρ.map fun x => |x.val|) = .ok M ∧ e.eval t Ops.magn (ρ.map fun x => |x.val|) = .ok m ∧
      ∀ q, (Val.entry τ v q).IsFinite → |(Val.entry τ v q).val - Den.entry τ (e.den dv (ρ.den Fl.val)) q| ≤
        (1 + f.u) ^ Val.entry τ k q * Val.entry τ M q - Val.entry τ m q := by
  have hr := rel_eval_gen (ieee_tracks f) t t (by simp [Ops.ieee]) (by simp [Ops.ftrk]) rfl
    (rel_mapped (g := fun x : Fl f => FTrk.input x.val) ftracks_input ρ) e hs (.inr hd)
  have h1 := eval_map (ftrk_trk f.eta).rel (by simp [Ops.ftrk]) (by simp [Ops.trk]) t e hs hd
    (ρ.map fun x : Fl f => FTrk.input x.val)
  have h2 := eval_map (ftrk_high f.eta).rel (by simp [Ops.ftrk]) (by simp [Ops.high]) t e hs hd
    (ρ.map fun x : Fl f => FTrk.input x.val)
  rw [map_map] at h1 h2
  obtain ⟨w, w1, w2, w3, w4⟩ := trk_eval t dv e hs hd hi (ρ.map fun x : Fl f => Trk.input x.val)
  rw [map_map] at w2 w3
  have hden : (ρ.map fun x : Fl f => Trk.input x.val).den Trk.exact = ρ.den Fl.val := by
    rw [← Store.den_map, map_map, Store.den_map]; rfl
  rw [hden] at w4
  rcases hr with ⟨v, y, e1, e2, e3⟩ | ⟨ff, e1, e2 | e2⟩
  · rw [e2] at h1 h2
    have h1' := w1.symm.trans h1
    refine ⟨v, _, _, _, e1, w3, h2, w2, fun q hf => ?_⟩
    have h3 := (entry_rel τ v y e3 q).2 hf
    have h4 := w4 q
    rw [Except.ok.inj h1'] at h4 ⊢
    rw [← h4]
    simp only [entry_map] at h3 ⊢
    exact h3
  · exact e2.elim
  · rw [e2] at h1
    have h1' := w1.symm.trans h1
    cases h1'

/-- C115: with any rounding element type (`Verif/Rounding.lean`): if the expression evaluates, every entry of the result is
within `((1 + u)^k - 1) m` of the exact value, with `k` the count of roundings and `m` the sum of magnitudes. -/
theorem C115_rounding {F : Type} {O : Ops F} {val : F → ℝ} {u : ℝ} (H : O.Rounds val u) (t : Target) (dv : ℝ → ℝ → ℝ)
    (hu : O.neg O.one ≠ .error .ub) (e : Ex τ) (hs : e.Small t.W) (hd : e.DivFree) (hi : e.InRange) (ρ : Store F) (v : Val F τ)
    (hv : e.eval t O ρ = .ok v) :
    ∃ k m, e.eval t Ops.cnt (ρ.map fun _ => 0) = .ok k ∧ e.eval t Ops.magn (ρ.map fun x => |val x|) = .ok m ∧
      ∀ q, |val (Val.entry τ v q) - Den.entry τ (e.den dv (ρ.den val)) q| ≤
        ((1 + u) ^ Val.entry τ k q - 1) * Val.entry τ m q := by
  obtain ⟨y, e2, e3⟩ := (rel_eval_gen H.tracks t t hu (by simp [Ops.trk]) rfl
    (rel_mapped (g := fun x => Trk.input (val x)) tracks_input ρ) e hs (.inr hd)).ok_left hv
  obtain ⟨w, w1, w2, w3, w4⟩ := trk_eval t dv e hs hd hi (ρ.map fun x => Trk.input (val x))
  rw [map_map] at w2 w3
  have hden : (ρ.map fun x => Trk.input (val x)).den Trk.exact = ρ.den val := by
    rw [← Store.den_map, map_map, Store.den_map]; rfl
  rw [hden] at w4
  cases w1.symm.trans e2
  refine ⟨_, _, w3, w2, fun q => ?_⟩
  have h3 := (entry_rel τ v y e3 q).2
  rw [← w4 q]
  simp only [entry_map] at h3 ⊢
  exact h3

/-! ### Inputs that are not exactly known -/

/-- The real number lies within `mid ± err`. -/
def R' (k : Unc) (y : ℝ) : Prop := |y - (k.mid : ℝ)| ≤ (k.err : ℝ)

theorem rel_round' {x d e : ℚ} {y : ℝ} (h : |y - (x : ℝ)| ≤ (d : ℝ)) (he : 0 ≤ e) :
    Rel True R' (Unc.round f x d e) (.ok y) := by
  cases hr : Unc.round f x d e with
  | error ff => exact .inr ⟨ff, rfl, .inl trivial⟩
  | ok k =>
    refine .ok ?_
    unfold Unc.round at hr
    dsimp only at hr
    split at hr
    · next hx => cases hr; rw [hx.1] at h; exact h
    · split at hr
      · cases hr
        refine h.trans ?_
        have hd : (0 : ℝ) ≤ d := (abs_nonneg _).trans h
        have h1 : (0 : ℝ) ≤ f.u * (|(x : ℝ)| + d) := mul_nonneg f.u_pos.le (by positivity)
        have h2 : (0 : ℝ) ≤ e := by exact_mod_cast he
        push_cast [f.uQ_cast]
        linarith
      · cases hr

open Classical in
theorem real_rel : Ops.RelHom True (Ops.unc f) (Ops.exact ℝ) R' where
  zero := by simp [R', Ops.unc, Ops.exact]
  one := by simp [R', Ops.unc, Ops.exact]
  add {a b a' b'} ha hb := by
    refine rel_round' ?_ le_rfl
    push_cast
    have e : a' + b' - ((a.mid : ℝ) + b.mid) = (a' - a.mid) + (b' - b.mid) := by ring
    rw [e]
    exact (abs_add_le _ _).trans (add_le_add ha hb)
  sub {a b a' b'} ha hb := by
    refine rel_round' ?_ le_rfl
    push_cast
    have e : a' - b' - ((a.mid : ℝ) - b.mid) = (a' - a.mid) - (b' - b.mid) := by ring
    rw [e]
    exact (abs_sub _ _).trans (add_le_add ha hb)
  mul {a b a' b'} ha hb := by
    refine rel_round' ?_ (pow2_pos _).le
    push_cast
    have e : a' * b' - (a.mid : ℝ) * b.mid =
      a.mid * (b' - b.mid) + b.mid * (a' - a.mid) + (a' - a.mid) * (b' - b.mid) := by ring
    rw [e]
    have h1 := ha
    have h2 := hb
    refine (abs_add_le _ _).trans (add_le_add ((abs_add_le _ _).trans (add_le_add ?_ ?_)) ?_)
    · rw [abs_mul]; exact mul_le_mul_of_nonneg_left h2 (abs_nonneg _)
    · rw [abs_mul]; exact mul_le_mul_of_nonneg_left h1 (abs_nonneg _)
    · rw [abs_mul]; exact mul_le_mul h1 h2 (abs_nonneg _) ((abs_nonneg _).trans h1)
  neg {a a'} ha := by
    refine .ok ?_
    unfold R' at ha ⊢
    push_cast
    rw [← abs_neg]
    convert ha using 2
    ring

open Classical in
theorem real_quot {a b : Unc} {a' b' : ℝ} (ha : R' a a') (hb : R' b b') :
    Rel True R' ((Ops.unc f).div a b) ((Ops.exact ℝ).div a' b') := by
  simp only [Ops.unc, Ops.exact]
  split
  · next h =>
    have hq : (b.err : ℝ) < |(b.mid : ℝ)| := by exact_mod_cast h.2
    have h1 : |a' - (a.mid : ℝ)| ≤ a.err := ha
    have h2 : |b' - (b.mid : ℝ)| ≤ b.err := hb
    have hm : (b.mid : ℝ) ≠ 0 := by exact_mod_cast h.1
    have hb1 : |(b.mid : ℝ)| - b.err ≤ |b'| := by
      have := abs_add_le ((b.mid : ℝ) - b') b'
      rw [sub_add_cancel, abs_sub_comm] at this; linarith
    have hb0 : b' ≠ 0 := by intro h0; rw [h0, abs_zero] at hb1; linarith
    rw [if_neg hb0]
    refine rel_round' ?_ (pow2_pos _).le
    push_cast
    have e : a' / b' - (a.mid : ℝ) / b.mid = ((a' - a.mid) - a.mid / b.mid * (b' - b.mid)) / b' := by field_simp; ring
    rw [e, abs_div]
    have h3 : |(a' - a.mid) - (a.mid : ℝ) / b.mid * (b' - b.mid)| ≤ a.err + |(a.mid : ℝ) / b.mid| * b.err := by
      refine (abs_sub _ _).trans (add_le_add h1 ?_)
      rw [abs_mul]; exact mul_le_mul_of_nonneg_left h2 (abs_nonneg _)
    exact div_le_div₀ ((abs_nonneg _).trans h3) h3 (by linarith) hb1
  · exact .inr ⟨_, rfl, .inl trivial⟩

open Classical in
theorem real_zero {k : Unc} {y : ℝ} (h : R' k y) (hk : k.IsZero) : (Ops.exact ℝ).isZero y = true := by
  unfold R' at h
  rw [hk.1, hk.2] at h
  simp only [Rat.cast_zero, sub_zero] at h
  exact decide_eq_true (abs_eq_zero.1 (le_antisymm h (abs_nonneg _)))

open Classical in
theorem real_nonZero {k : Unc} {y : ℝ} (h : R' k y) (hk : k.NonZero) : (Ops.exact ℝ).isZero y = false := by
  refine decide_eq_false fun h0 => ?_
  have hq : (k.err : ℝ) < |(k.mid : ℝ)| := by exact_mod_cast hk.2
  unfold R' at h
  rw [h0, zero_sub, abs_neg] at h
  linarith

open Classical in
theorem real_weak : WeakRel True (Ops.unc f) (Ops.exact ℝ) R' where
  toRelHom := real_rel
  test := Unc.test_of real_zero real_nonZero
  div ha hb _ := real_quot ha hb
  quot ha hb := real_quot ha hb
  safe := by simp [Ops.unc]
  safe' := by simp [Ops.exact]

/-- Variables with given numbers. -/
noncomputable def ofDen : (τ : Ty) → Den ℝ τ → Val ℝ τ
  | .s, x => x
  | .v _, x => Vec.ofFn x
  | .m _ _, x => Mat.ofFn x

theorem den_ofDen (τ : Ty) (x : Den ℝ τ) : Val.den id τ (ofDen τ x) = x := by
  match τ with
  | .s => rfl
  | .v n => funext i; simp [Val.den, ofDen, Vec.vals]
  | .m r c => funext i j; exact Mat.get_ofFn _ _ _

theorem near_rel (τ : Ty) (k : Val Unc τ) (y : Val ℝ τ) : Val.Rel R' τ k y ↔ Val.Near τ k (Val.den id τ y) := by
  match τ with
  | .s => exact Iff.rfl
  | .v n => exact Iff.rfl
  | .m r c => exact Iff.rfl

theorem covers_near {k : Unc} {x : Fl f} {y : ℝ} (hx : k.Covers x) (hy : |y - (k.mid : ℝ)| ≤ k.err) :
    x.IsFinite ∧ |x.val - y| ≤ 2 * (k.err : ℝ) := by
  refine ⟨hx.1, ?_⟩
  have h1 := hx.2
  rw [abs_sub_comm] at hy
  have := abs_add_le (x.val - k.mid) (k.mid - y)
  rw [sub_add_sub_cancel] at this
  linarith

theorem entry_near (τ : Ty) (k : Val Unc τ) (x : Val (Fl f) τ) (y : Den ℝ τ) (hx : Val.Covers τ k x) (hy : Val.Near τ k y)
    (q : τ.Pos) : (Val.entry τ x q).IsFinite ∧ |(Val.entry τ x q).val - Den.entry τ y q| ≤ 2 * ((Val.entry τ k q).err : ℝ) := by
  match τ with
  | .s => exact covers_near hx hy
  | .v n => exact covers_near (hx q) (hy q)
  | .m r c => exact covers_near (hx q.1 q.2) (hy q.1 q.2)

theorem near_store (σ : Store Unc) (ρ' : Env ℝ) (h : ∀ τ i, Val.Near τ (σ τ i) (ρ' τ i)) :
    σ.Rel R' (fun τ i => ofDen τ (ρ' τ i)) := fun τ i => (near_rel τ _ _).2 (by rw [den_ofDen]; exact h τ i)

theorem den_store (ρ' : Env ℝ) : Store.den id (fun τ i => ofDen τ (ρ' τ i)) = ρ' :=
  funext fun τ => funext fun _ => den_ofDen τ _

open Classical in
/-- C115: uncertain inputs.  If the true inputs, real numbers, are only known to lie within the uncertainties, then so does
the exact value of the expression for the true inputs; it differs from the computed result by at most twice the
uncertainty. -/
theorem C115_true_inputs (t : Target) (e : Ex τ) (hs : e.Small t.W) (σ : Store Unc) (ρ : Store (Fl f)) (ρ' : Env ℝ)
    (hσ : σ.Covers ρ) (hσ' : ∀ τ i, Val.Near τ (σ τ i) (ρ' τ i)) (w : Val Unc τ) (h : e.eval t (Ops.unc f) σ = .ok w) :
    Val.Near τ w (e.den (· / ·) ρ') ∧ ∃ v, e.eval t (Ops.ieee f) ρ = .ok v ∧
      ∀ q, (Val.entry τ v q).IsFinite ∧
        |(Val.entry τ v q).val - Den.entry τ (e.den (· / ·) ρ') q| ≤ 2 * ((Val.entry τ w q).err : ℝ) := by
  have H := real_weak (f := f)
  obtain ⟨y, h1, h2⟩ := (rel_eval_gen H.toRelHom t t H.safe H.safe' rfl (near_store σ ρ' hσ') e hs (.inl H)).ok_left h
  have h3 : Val.den id τ y = e.den (· / ·) ρ' := by
    rcases exact_eval (Ops.exact_isField ℝ).toIsRing t (fun τ i => ofDen τ (ρ' τ i)) e hs (.inr (exact_divOk ℝ t)) with ⟨h5, _⟩ | ⟨x, h5, h6⟩
    · rw [h1] at h5; cases h5
    · rw [h1] at h5; cases h5; rw [h6, den_store]
  have h4 := (near_rel τ w y).1 h2
  rw [h3] at h4
  obtain ⟨v, v1, v2, _⟩ := C115_expressions t e hs σ ρ hσ w h
  exact ⟨h4, v, v1, entry_near τ w v _ v2 h4⟩

open Classical in
/-- C115: the same for programs: the true variables, real numbers computed exactly, take the same branches and end within the
uncertainties too. -/
theorem C115_true_programs (t : Target) (p : Stmt) (hs : p.Small t.W) (σ σ' : Store Unc) (ρ : Store (Fl f)) (η : Env ℝ)
    (hσ : σ.Covers ρ) (hη : ∀ τ i, Val.Near τ (σ τ i) (η τ i)) (h : SureRun t f p σ σ') :
    ∃ ρ' η', Run t (Ops.ieee f) p ρ (.ok ρ') ∧ Means (· / ·) p η η' ∧ (∀ τ i, Val.Near τ (σ' τ i) (η' τ i)) ∧
      ∀ τ i q, (Val.entry τ (ρ' τ i) q).IsFinite ∧
        |(Val.entry τ (ρ' τ i) q).val - Den.entry τ (η' τ i) q| ≤ 2 * ((Val.entry τ (σ' τ i) q).err : ℝ) := by
  obtain ⟨ρ', h1, h2, _⟩ := C115_programs t p hs σ σ' ρ hσ h
  obtain ⟨x, h3, h4⟩ := sure_run real_weak real_zero real_nonZero t p hs σ σ' _ (near_store σ η hη) h
  rcases exact_run (Ops.exact_isField ℝ).toIsRing t (Ops.exact_isField ℝ).isZero p _ _ h3 hs (.inr (exact_divOk ℝ t))
    with ⟨h5, _⟩ | ⟨y, h5, h6⟩
  · cases h5
  · cases h5
    rw [den_store] at h6
    have h7 : ∀ τ i, Val.Near τ (σ' τ i) (x.den id τ i) := fun τ i => (near_rel τ _ _).1 (h4 τ i)
    exact ⟨ρ', x.den id, h1, h6, h7, fun τ i => entry_near τ _ _ _ (h2 τ i) (h7 τ i)⟩

/-! ### Inputs, and computing the bounds -/

/-- C115: rational inputs.  If the variables are rational numbers, each rounded to the nearest floating point number, then they
lie within `x ± (u |x| + η)`, provided none overflows. -/
theorem C115_inputs (σ : Store ℚ) (h : ∀ τ i q, |Val.entry τ (σ τ i) q| * (1 + f.uQ) + f.etaQ ≤ f.maxQ) :
    (σ.map (Unc.input f)).Covers (σ.map fun x : ℚ => (Fl.round false (x : ℝ) : Fl f)) := by
  have key : ∀ x : ℚ, |x| * (1 + f.uQ) + f.etaQ ≤ f.maxQ → (Unc.input f x).Covers (Fl.round false (x : ℝ) : Fl f) := by
    intro x h
    have h' : |(x : ℝ)| * (1 + f.u) + f.eta ≤ f.max := by
      have : ((|x| * (1 + f.uQ) + f.etaQ : ℚ) : ℝ) ≤ ((f.maxQ : ℚ) : ℝ) := by exact_mod_cast h
      rw [f.maxQ_cast] at this
      push_cast [f.uQ_cast, f.etaQ_cast] at this
      exact this
    have h1 := f.rnd_error (x : ℝ)
    have h2 : (Fl.round false (x : ℝ) : Fl f).IsFinite := Fl.round_finite_iff.2 (by
      have := abs_add_le (f.rnd x - x) x
      rw [sub_add_cancel] at this
      linarith)
    refine ⟨h2, ?_⟩
    rw [Fl.val_round h2]
    simp only [Unc.input]
    push_cast [f.uQ_cast, f.etaQ_cast]
    exact h1
  intro τ i
  match τ with
  | .s => exact key _ (h .s i ())
  | .v n => exact fun j => by simp only [Store.map, Val.map, Vec.get_mapV]; exact key _ (h (.v n) i j)
  | .m r c => exact fun j k => by simp only [Store.map, Val.map, Mat.get_mapV]; exact key _ (h (.m r c) i (j, k))

theorem toOption_eq {A : Type} {x : Res A} {a : A} (h : x.toOption = some a) : x = .ok a := by
  cases x with
  | error e => cases h
  | ok b => cases h; rfl

/-- C115: the uncertainties a program ends with can be computed, and what is computed holds. -/
theorem C115_computed (t : Target) (n : Nat) (p : Stmt) (hs : p.Small t.W) (σ σ' : Store Unc) (ρ : Store (Fl f))
    (hσ : σ.Covers ρ) (h : p.sure t f n σ = some σ') :
    ∃ ρ', Run t (Ops.ieee f) p ρ (.ok ρ') ∧ σ'.Covers ρ' ∧ Means (· / ·) p (σ.den Unc.mid) (σ'.den Unc.mid) := by
  refine C115_programs t p hs σ σ' ρ hσ ?_
  clear hσ ρ hs
  induction p generalizing σ σ' with
  | skip => cases h; exact .skip _
  | act a => exact .act (toOption_eq h)
  | seq p q ih1 ih2 =>
    rw [Stmt.sure, Option.bind_eq_some_iff] at h
    obtain ⟨σ₁, h1, h2⟩ := h
    exact .seq (ih1 _ _ h1) (ih2 _ _ h2)
  | ite e p q ih1 ih2 =>
    rw [Stmt.sure, Option.bind_eq_some_iff] at h
    obtain ⟨k, h1, h2⟩ := h
    split at h2
    · next h0 => exact .iteZero (toOption_eq h1) h0 (ih1 _ _ h2)
    · split at h2
      · next h0 => exact .iteElse (toOption_eq h1) h0 (ih2 _ _ h2)
      · cases h2
  | @loop τ b e p ih =>
    rw [Stmt.sure] at h
    have : ∀ (m : Nat) (σ σ' : Store Unc), Stmt.sure.go t f τ b e (p.sure t f n) m σ = some σ' → SureRun t f (.loop b e p) σ σ' := by
      intro m
      induction m with
      | zero => intro σ σ' h; cases h
      | succ m ihm =>
        intro σ σ' h
        rw [Stmt.sure.go, Option.bind_eq_some_iff] at h
        obtain ⟨k, h1, h2⟩ := h
        by_cases h0 : (if b = true then Val.SureZero τ k else Val.SureNonZero τ k)
        · rw [if_pos h0, Option.bind_eq_some_iff] at h2
          obtain ⟨σ₁, h3, h4⟩ := h2
          exact .loopGo (toOption_eq h1) h0 (ih _ _ h3) (ihm _ _ h4)
        · rw [if_neg h0] at h2
          by_cases h0' : (if b = true then Val.SureNonZero τ k else Val.SureZero τ k)
          · rw [if_pos h0'] at h2; cases h2; exact .loopEnd (toOption_eq h1) h0'
          · rw [if_neg h0'] at h2; cases h2
    exact this n σ σ' h

/-- C115: down to the bits, on any processor (C105): the program leaves bit patterns whose values lie within the computed
uncertainties. -/
theorem C115_bits {k : Nat} {O : Ops (BitVec (k + f.prec))} (hO : FloatBits.Processor f k O) (t : Target) (n : Nat) (p : Stmt)
    (hs : p.Small t.W) (σ σ' : Store Unc) (ρ : Store (BitVec (k + f.prec)))
    (hσ : σ.Covers (ρ.map (FloatBits.value f k))) (h : p.sure t f n σ = some σ') :
    ∃ ρ', Run t O p ρ (.ok ρ') ∧ σ'.Covers (ρ'.map (FloatBits.value f k)) ∧
      Means (· / ·) p (σ.den Unc.mid) (σ'.den Unc.mid) := by
  obtain ⟨x, h1, h2, h3⟩ := C115_computed t n p hs σ σ' _ hσ h
  obtain ⟨ρ', h4, rfl⟩ := (FloatBits.C105_programs hO t t rfl p hs ρ).2.1 x h1
  exact ⟨ρ', h4, h2, h3⟩

namespace ErrorExamples
open Examples

/-- Hilbert matrices: entry `(i, j)` of matrix `k` is `1 / (i + j + k + 1)`. -/
def hilbert : Store ℚ := fun τ k => match τ with
  | .s => 1
  | .v _ => Vec.ofFn fun i => 1 / (i.val + 1 : Nat)
  | .m _ _ => Mat.ofFn fun i j => 1 / (i.val + j.val + k + 1 : Nat)

theorem hilbert_le : ∀ τ i q, |Val.entry τ (hilbert τ i) q| * (1 + FloatFormat.f64.uQ) + FloatFormat.f64.etaQ ≤
    FloatFormat.f64.maxQ := by
  have key : ∀ x : ℚ, |x| ≤ 1 → |x| * (1 + FloatFormat.f64.uQ) + FloatFormat.f64.etaQ ≤ FloatFormat.f64.maxQ := fun x h => by
    have h1 : (0 : ℚ) ≤ 1 + FloatFormat.f64.uQ := by decide +kernel
    have h2 : 1 * (1 + FloatFormat.f64.uQ) + FloatFormat.f64.etaQ ≤ FloatFormat.f64.maxQ := by decide +kernel
    exact (by gcongr : |x| * (1 + FloatFormat.f64.uQ) + FloatFormat.f64.etaQ ≤ _).trans h2
  have inv : ∀ n : ℕ, |(1 : ℚ) / ((n + 1 : ℕ) : ℚ)| ≤ 1 := fun n => by
    rw [abs_of_nonneg (by positivity), div_le_one (by positivity)]
    exact_mod_cast Nat.le_add_left 1 n
  intro τ i q
  refine key _ ?_
  match τ with
  | .s => simp [Val.entry, hilbert]
  | .v n => simp only [Val.entry, hilbert, Vec.get_ofFn]; exact inv _
  | .m r c => simp only [Val.entry, hilbert, Mat.get_ofFn]; exact inv _

/-- The middles and uncertainties of an expression for Hilbert matrices. -/
def bounds {τ : Ty} (e : Ex τ) : Option (List Unc) :=
  ((e.eval t64 (Ops.unc .f64) (hilbert.map (Unc.input .f64))).map (list τ)).toOption

/-! The inverse of the Hilbert matrix of size 4 computed in `f64` by Gauss-Jordan elimination: the entries are integers, and
the computed ones are off by less than 10⁻⁷.  At size 5, which has condition number 10⁵·⁷, by less than 10⁻³. -/
example : (bounds (.inv (k := 3) (.var _ 0))).map (·.map Unc.mid) =
    some [16, -120, 240, -140, -120, 1200, -2700, 1680, 240, -2700, 6480, -4200, -140, 1680, -4200, 2800] := by decide +kernel
example : (bounds (.inv (k := 3) (.var _ 0))).map (·.all fun k => k.err < 1 / 10 ^ 7) = some true := by decide +kernel
example : (bounds (.inv (k := 4) (.var _ 0))).map (·.all fun k => k.err < 1 / 10 ^ 3 ∧ k.mid.den = 1) = some true := by
  decide +kernel
/-! The determinant at size 4 is 1/6048000, computed with a relative error below 10⁻¹⁰. -/
example : (bounds (.det (k := 3) (.var _ 0))).map (·.map fun k => (k.mid, decide (k.err < k.mid / 10 ^ 10))) =
    some [(1 / 6048000, true)] := by decide +kernel
/-! The product of the matrix and its computed inverse is the identity up to 10⁻⁶. -/
example : (bounds (.mul .vv (.var (.m 3 3) 0) (.inv (k := 2) (.var _ 0)))).map (·.map fun k => (k.mid, decide (k.err < 1 / 10 ^ 6))) =
    some [(1, true), (0, true), (0, true), (0, true), (1, true), (0, true), (0, true), (0, true), (1, true)] := by decide +kernel
/-! A singular matrix: the elimination meets a number that may or may not be zero, so there is no bound. -/
example : bounds (.inv (k := 2) (.bin .sub .vv (.var (.m 3 3) 0) (.var (.m 3 3) 0))) = none := by decide +kernel

/-- So, in `f64`: the theorem applied to size 4. -/
example : ∃ v : Mat (Fl .f64) 4 4,
    (Ex.inv (k := 3) (.var _ 0)).eval t64 (Ops.ieee .f64) (hilbert.map fun x : ℚ => Fl.round false (x : ℝ)) = .ok v ∧
    ∀ i j, (v.get i j).IsFinite ∧ |(v.get i j).val -
      ((Ex.inv (k := 3) (.var _ 0)).den (· / ·) (hilbert.den id) i j : ℚ)| < 1 / 10 ^ 7 := by
  have h1 : ∃ w : Mat Unc 4 4, (Ex.inv (k := 3) (.var _ 0)).eval t64 (Ops.unc .f64) (hilbert.map (Unc.input .f64)) = .ok w := by
    have : ((Ex.inv (k := 3) (.var _ 0)).eval t64 (Ops.unc .f64) (hilbert.map (Unc.input .f64))).isOk = true := by decide +kernel
    revert this
    cases (Ex.inv (k := 3) (.var _ 0)).eval t64 (Ops.unc .f64) (hilbert.map (Unc.input .f64)) with
    | error e => intro h; cases h
    | ok w => intro _; exact ⟨w, rfl⟩
  obtain ⟨w, hw⟩ := h1
  have h2 : ∀ i j, (w.get i j).err < 1 / 10 ^ 7 := by
    have : ∀ i j, ∀ w ∈ ((Ex.inv (k := 3) (.var _ 0)).eval t64 (Ops.unc .f64) (hilbert.map (Unc.input .f64))).toOption,
        (Mat.get w i j).err < 1 / 10 ^ 7 := by decide +kernel
    intro i j
    exact this i j w (by rw [hw]; rfl)
  obtain ⟨v, a, b, c⟩ := C115_expressions t64 (Ex.inv (k := 3) (.var _ 0)) (by simp [Ex.Every, Ex.SmallStep, Ty.Small, t64]) _ _
    (C115_inputs hilbert hilbert_le) w hw
  refine ⟨v, a, fun i j => ⟨(b i j).1, ?_⟩⟩
  have hd : (hilbert.map (Unc.input .f64)).den Unc.mid = hilbert.den id := by
    rw [← Store.den_map, map_map, Store.den_map]; rfl
  rw [← hd, ← c]
  refine lt_of_le_of_lt (b i j).2 ?_
  have := h2 i j
  have h3 : (((w.get i j).err : ℚ) : ℝ) < ((1 / 10 ^ 7 : ℚ) : ℝ) := by exact_mod_cast this
  simpa using h3

/-- `n = 1 + 1; while !n.is_zero() { n -= 1; m *= m; } if m.is_zero() { } else { m = m.inverse().unwrap(); }`. -/
def powers : Stmt :=
  .seq (.act (.set 0 (.bin .add .vv .one .one))) <|
  .seq (.loop false (.var .s 0) (.seq (.act (.upd (τ := .s) .sub 0 .one)) (.act (.updMul (n := 2) 0 (.var _ 0))))) <|
  .ite (.var (.m 2 2) 0) .skip (.act (.set 0 (.inv (k := 1) (.var _ 0))))

/-! The loop and the test have sure answers; the result is the exact one up to 10⁻⁵. -/
example : ((powers.sure t64 .f64 10 (hilbert.map (Unc.input .f64))).map fun σ => (list (.m 2 2) (σ (.m 2 2) 0)).map fun k =>
    (k.mid, decide (k.err < 1 / 10 ^ 5))) =
    some [(11920, true), (-22272, true), (-22272, true), (41616, true)] := by decide +kernel
example : powers.Small (2 ^ 64) := by
  simp [powers, Stmt.Every, Act.Small, Ex.Every, Ex.SmallStep, Ty.Small]

end ErrorExamples
end Prog
end Rowcol
