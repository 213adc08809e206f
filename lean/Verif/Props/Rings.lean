import Verif.Lemmas.Quotients
import Mathlib.Analysis.Calculus.Deriv.Inv

/-! # C117: numbers without reciprocals, derivatives and modular arithmetic -/

namespace Rowcol
open Prog
variable {T : Type} {n : Nat}

/-! ## Determinants, cofactors and inverses over commutative rings -/

section ring
variable [CommRing T] {O : Ops T} (hO : O.IsRing) (t : Target)
include hO

/-- C117: over a commutative ring whose division is exact or panics, `determinant()` of any size is exact or panics. -/
theorem C117_determinant (hd : O.ExactDiv) (k : Nat) (a : Mat T (k + 1) (k + 1)) (hk : k + 1 < t.W) :
    a.determinant t O k = .error .panic ∨
      a.determinant t O k = .ok (∑ σ : Equiv.Perm (Fin (k + 1)), (Equiv.Perm.sign σ : ℤ) * ∏ i, a.get (σ i) i) := by
  refine (determinant_ring hO hd t k a hk).imp id fun h => ?_
  rw [h, Matrix.det_apply']; rfl

/-- C117: the same for `cofactor((i, j))`. -/
theorem C117_cofactor (hd : O.ExactDiv) (k : Nat) (a : Mat T (k + 2) (k + 2)) (i j : Fin (k + 2)) (hk : k + 2 < t.W)
    (hij : i.val + j.val < t.W) :
    a.cofactor t O k (i, j) = .error .panic ∨
      a.cofactor t O k (i, j) = .ok ((-1) ^ (i.val + j.val) * (a.toMatrix.submatrix i.succAbove j.succAbove).det) :=
  cofactor_ring hO hd t k a i j hk hij

/-- C117: if moreover only numbers with reciprocals can be divided by, `inverse()` panics, returns `None`, or returns a matrix whose
products with the argument, as the crate computes them, are the identity. -/
theorem C117_inverse (hd : O.UnitDiv) (k : Nat) (a : Mat T (k + 1) (k + 1)) (hk : k + 1 < t.W) :
    a.inverse t O k = .error .panic ∨ a.inverse t O k = .ok none ∨
      ∃ x e, a.inverse t O k = .ok (some x) ∧ Mat.identity t O (k + 1) = .ok e ∧ a.mulVV t O x = .ok e ∧ x.mulVV t O a = .ok e := by
  rcases inverse_ring hO hd t k a with h | h | ⟨x, h, hx⟩
  · exact .inl h
  · exact .inr (.inl h)
  · refine .inr (.inr ⟨x, _, h, identity_eq hO.toIsSemiring t _, ?_, ?_⟩)
    · rw [mulVV_eq hO.toIsSemiring t a x hk hk hk, mul_eq_one_comm.1 hx]
    · rw [mulVV_eq hO.toIsSemiring t x a hk hk hk, hx]

/-- C117: `inverse()` returns `Some` up to size 3 exactly if the determinant has a reciprocal, and from size 4 on exactly if all leading
principal minors have one. -/
theorem C117_inverse_some (hd : O.UnitDiv) (hz : ∀ a, O.isZero a = true → ¬ IsUnit a)
    (hu : ∀ a b, IsUnit b → O.div a b ≠ .error .panic) (k : Nat) (a : Mat T (k + 1) (k + 1)) :
    (∃ x, a.inverse t O k = .ok (some x)) ↔
      if k < 3 then IsUnit a.toMatrix.det else ∀ l, ∀ hl : l ≤ k + 1, 0 < l → IsUnit (lead a.toMatrix l hl).det := by
  have small : ∀ {n : Nat} {A : Matrix (Fin n) (Fin n) T} {r}, SmallInv O A r → ((∃ x, r = .ok (some x)) ↔ IsUnit A.det) := by
    intro n A r h
    refine ⟨fun ⟨x, hx⟩ => ?_, h.2 hz hu⟩
    rcases h.1 with h | h | h
    · rw [hx] at h; cases h
    · rw [hx] at h; cases h
    · exact h.1
  match k with
  | 0 => rw [if_pos (by omega)]; exact small (inv1_ring hO hd t a)
  | 1 => rw [if_pos (by omega)]; exact small (inv2_ring hO hd t a)
  | 2 => rw [if_pos (by omega)]; exact small (inv3_ring hO hd t a)
  | k + 3 =>
    rw [if_neg (by omega), Mat.inverse]
    obtain ⟨h1, h2⟩ := invGen_ring hO hd t a
    refine ⟨fun ⟨x, hx⟩ => ?_, h2 hz hu⟩
    rcases h1 with h | h | h
    · rw [hx] at h; cases h
    · rw [hx] at h; cases h
    · exact h.1

end ring

namespace Prog
variable {K : Type} {τ : Ty}

/-! ## Expressions and programs -/

/-- C117: an expression over such a ring panics, or all its divisors have reciprocals and its value is what it means in linear algebra. -/
theorem C117_expressions [CommRing K] {O : Ops K} (hO : O.IsRing) (hd : O.UnitDiv) (t : Target) (e : Ex τ) (hs : e.Small t.W)
    (σ : Store K) : e.eval t O σ = .error .panic ∨
      ∃ v, e.eval t O σ = .ok v ∧ Val.den id τ v = e.den ringDiv (σ.den id) ∧ e.Defined (σ.den id) := by
  rcases exact_eval hO t σ e hs (.inr (ring_divOk hO hd t)) with ⟨h, _⟩ | ⟨v, h, hv⟩
  · exact .inl h
  · exact .inr ⟨v, h, hv, eval_defined hO hd t e hs σ v h⟩

/-- C117: the same for programs with all their tests and loops. -/
theorem C117_programs [CommRing K] {O : Ops K} (hO : O.IsRing) (hd : O.UnitDiv) (hz : ∀ a, O.isZero a = true ↔ a = 0) (t : Target)
    (p : Stmt) (hs : p.Small t.W) (σ : Store K) (x : Res (Store K)) (h : Run t O p σ x) :
    x = .error .panic ∨ ∃ σ', x = .ok σ' ∧ Means ringDiv p (σ.den id) (σ'.den id) := by
  rcases exact_run hO t hz p _ _ h hs (.inr (ring_divOk hO hd t)) with h | h
  · exact .inl h.1
  · exact .inr h

/-- C117: over an exact field it is known exactly which expressions panic. -/
theorem C117_panics [Field K] {O : Ops K} (hO : O.IsField) (hd : O.UnitDiv) (t : Target) (e : Ex τ) (hs : e.Small t.W) (σ : Store K) :
    (e.Defined (σ.den id) → ∃ v, e.eval t O σ = .ok v ∧ Val.den id τ v = e.den (· / ·) (σ.den id)) ∧
      (¬ e.Defined (σ.den id) → e.eval t O σ = .error .panic) := by
  constructor
  · intro h
    obtain ⟨v, hv⟩ := defined_eval hO hd t e hs σ h
    refine ⟨v, hv, ?_⟩
    rw [eval_den hO.toIsRing hd t hs hv, ringDiv_field]
  · intro h
    rcases C117_expressions hO.toIsRing hd t e hs σ with h' | ⟨v, _, _, h'⟩
    · exact h'
    · exact absurd h' h

/-- C117: and which programs without tests. -/
theorem C117_program_panics [Field K] {O : Ops K} (hO : O.IsField) (hd : O.UnitDiv) (t : Target) (p : Stmt) (hs : p.Small t.W)
    (hp : p.Straight) (σ : Store K) :
    (p.Defined (σ.den id) → ∃ σ', Run t O p σ (.ok σ') ∧ σ'.den id = p.den (· / ·) (σ.den id)) ∧
      (¬ p.Defined (σ.den id) → ∀ σ', ¬ Run t O p σ (.ok σ')) := by
  constructor
  · intro h
    obtain ⟨σ', h'⟩ := defined_run hO hd t p hs hp σ h
    refine ⟨σ', h', ?_⟩
    rw [(run_defined hO.toIsRing hd t p hs hp σ σ' h').2, ringDiv_field]
  · exact fun h σ' h' => h (run_defined hO.toIsRing hd t p hs hp σ σ' h').1

/-! ## The element types -/

theorem exact_unitDiv (K : Type) [Field K] [DecidableEq K] : (Ops.exact K).UnitDiv := fun a b => by
  by_cases h : b = 0
  · exact .inl (by simp [Ops.exact, h])
  · exact .inr ⟨a / b, by simp [Ops.exact, h], div_mul_cancel₀ a h, isUnit_iff_ne_zero.2 h⟩

theorem dual_unit [Field K] {y : DualNumber K} (h : y.fst ≠ 0) :
    TrivSqZeroExt.inl y.fst⁻¹ + TrivSqZeroExt.inr (-y.snd * (y.fst⁻¹ * y.fst⁻¹)) = Ring.inverse y ∧ IsUnit y := by
  have e : (TrivSqZeroExt.inl y.fst⁻¹ + TrivSqZeroExt.inr (-y.snd * (y.fst⁻¹ * y.fst⁻¹))) * y = 1 := by
    refine TrivSqZeroExt.ext ?_ ?_
    · simp [h]
    · simp only [TrivSqZeroExt.snd_mul, TrivSqZeroExt.fst_add, TrivSqZeroExt.fst_inl, TrivSqZeroExt.fst_inr, TrivSqZeroExt.snd_add,
        TrivSqZeroExt.snd_inl, TrivSqZeroExt.snd_inr, smul_eq_mul, op_smul_eq_mul, TrivSqZeroExt.snd_one]
      field_simp; ring
  have hu : IsUnit y := IsUnit.of_mul_eq_one _ ((mul_comm _ _).trans e)
  refine ⟨?_, hu⟩
  have := congrArg (· * Ring.inverse y) e
  simpa only [mul_assoc, Ring.mul_inverse_cancel _ hu, mul_one, one_mul] using this

theorem dual_unit_iff [Field K] (y : DualNumber K) : IsUnit y ↔ y.fst ≠ 0 := by
  refine ⟨fun h => ?_, fun h => (dual_unit h).2⟩
  have := h.map (TrivSqZeroExt.fstHom K K K)
  exact this.ne_zero

/-- C117: dual numbers `a + b ε` with the quotient rule are such an element type, with reciprocals for `a ≠ 0`. -/
theorem C117_dual (K : Type) [Field K] [DecidableEq K] : (Ops.dual K).IsRing ∧ (Ops.dual K).UnitDiv ∧
    (∀ a, (Ops.dual K).isZero a = true ↔ a = 0) ∧ (∀ a b, IsUnit b → (Ops.dual K).div a b ≠ .error .panic) ∧
    ∀ a : DualNumber K, IsUnit a ↔ a.fst ≠ 0 := by
  refine ⟨dual_isRing K, fun a b => ?_, fun a => ?_, fun a b h => ?_, dual_unit_iff⟩
  · by_cases h : b.1 = 0
    · exact .inl (by simp [Ops.dual, h])
    · refine .inr ⟨_, if_neg h, ?_, (dual_unit_iff b).2 h⟩
      refine TrivSqZeroExt.ext ?_ ?_
      · exact div_mul_cancel₀ a.1 h
      · refine (TrivSqZeroExt.snd_mul _ _).trans ?_
        change a.1 / b.1 * b.2 + (a.2 * b.1 - a.1 * b.2) / (b.1 * b.1) * b.1 = a.2
        field_simp; ring
  · simp only [Ops.dual, decide_eq_true_eq]
    exact ⟨fun h => TrivSqZeroExt.ext h.1 h.2, fun h => by rw [h]; exact ⟨rfl, rfl⟩⟩
  · have : b.1 ≠ 0 := (dual_unit_iff b).1 h
    simp [Ops.dual, this]

/-- C117: integers modulo `m` are such an element type, with reciprocals for the numbers prime to `m`. -/
theorem C117_modulo (m : Nat) : (Ops.zmod m).IsRing ∧ (Ops.zmod m).UnitDiv ∧ (∀ a, (Ops.zmod m).isZero a = true ↔ a = 0) ∧
    (∀ a b, IsUnit b → (Ops.zmod m).div a b ≠ .error .panic) ∧ ∀ a : ZMod m, IsUnit a ↔ a.val.Coprime m := by
  have hu : ∀ a : ZMod m, IsUnit a ↔ a.val.Coprime m := fun a => by
    constructor
    · rintro ⟨u, rfl⟩; exact ZMod.val_coe_unit_coprime u
    · intro h
      have e := ZMod.mul_inv_eq_gcd a
      rw [h] at e
      exact IsUnit.of_mul_eq_one _ (e.trans Nat.cast_one)
  refine ⟨⟨⟨rfl, rfl, fun _ _ => rfl, fun _ _ => rfl⟩, fun _ _ => rfl, fun _ => rfl⟩, fun a b => ?_, fun a => ?_, fun a b h => ?_, hu⟩
  · by_cases h : b.val.Coprime m
    · refine .inr ⟨_, if_pos h, ?_, (hu b).2 h⟩
      have e := ZMod.mul_inv_eq_gcd b
      rw [h, Nat.cast_one] at e
      rw [mul_assoc, mul_comm b⁻¹, e, mul_one]
    · exact .inl (if_neg h)
  · simp [Ops.zmod]
  · simp [Ops.zmod, (hu b).1 h]

/-! ## Derivatives -/

/-- Dual numbers with the functions whose value and derivative at 0 they are. -/
def derivRing : Subring (DualNumber ℝ × (ℝ → ℝ)) where
  carrier := {b | b.2 0 = b.1.fst ∧ HasDerivAt b.2 b.1.snd 0}
  zero_mem' := ⟨rfl, hasDerivAt_const _ _⟩
  one_mem' := ⟨rfl, hasDerivAt_const _ _⟩
  add_mem' {a b} ha hb := ⟨by
    show a.2 0 + b.2 0 = _
    rw [ha.1, hb.1]; rfl, ha.2.add hb.2⟩
  neg_mem' {a} ha := ⟨by
    show -(a.2 0) = _
    rw [ha.1]; rfl, ha.2.neg⟩
  mul_mem' {a b} ha hb := ⟨by
    show a.2 0 * b.2 0 = _
    rw [ha.1, hb.1]; rfl, (ha.2.mul hb.2).congr_deriv (by
      rw [show (a * b).1.snd = a.1.fst • b.1.snd + MulOpposite.op b.1.fst • a.1.snd from TrivSqZeroExt.snd_mul _ _, ha.1, hb.1,
        smul_eq_mul, op_smul_eq_mul]
      ring)⟩

theorem derivRing_inv (b) (hb : b ∈ derivRing) (hu : IsUnit b.1) : (Ring.inverse b.1, fun s => Ring.inverse (b.2 s)) ∈ derivRing := by
  have h0 : b.1.fst ≠ 0 := (dual_unit_iff _).1 hu
  have h1 : b.2 0 ≠ 0 := by rw [hb.1]; exact h0
  rw [← (dual_unit h0).1]
  simp only [Ring.inverse_eq_inv']
  refine ⟨by simp [hb.1], (hb.2.inv h1).congr_deriv ?_⟩
  rw [hb.1]
  simp only [TrivSqZeroExt.snd_add, TrivSqZeroExt.snd_inl, TrivSqZeroExt.snd_inr, zero_add]
  field_simp

theorem derivRing_near (b) (hb : b ∈ derivRing) (hu : IsUnit b.1) : ∀ᶠ s in nhds (0 : ℝ), IsUnit (b.2 s) := by
  have h1 : b.2 0 ≠ 0 := by rw [hb.1]; exact (dual_unit_iff _).1 hu
  exact (hb.2.continuousAt.eventually_ne h1).mono fun s hs => isUnit_iff_ne_zero.2 hs

theorem derivRing_line (G : Place → DualNumber ℝ) (q : Place) :
    (G q, fun s : ℝ => (G q).fst + s * (G q).snd) ∈ derivRing :=
  ⟨by simp, by simpa using ((hasDerivAt_id (0 : ℝ)).mul_const (G q).snd).const_add (G q).fst⟩

theorem isDeriv_of_rel {a : Den (DualNumber ℝ) τ} {y : Den (ℝ → ℝ) τ} {F : ℝ → Den ℝ τ} (hy : ∀ s, Den.map (fun f => f s) τ y = F s)
    (h : Den.Rel (fun u v => (u, v) ∈ derivRing) τ a y) : IsDeriv τ F a := by
  obtain rfl : F = fun s => Den.map (fun f => f s) τ y := funext fun s => (hy s).symm
  match τ, a, y, h with
  | .s, a, y, h => exact ⟨h.1.symm, h.2⟩
  | .v _, a, y, h => exact ⟨funext fun i => (h i).1.symm, fun i => (h i).2⟩
  | .m _ _, a, y, h => exact ⟨funext fun i => funext fun j => (h i j).1.symm, fun i j => (h i j).2⟩

/-- A value with given numbers. -/
def Val.ofDen : (τ : Ty) → Den K τ → Val K τ
  | .s, a => a
  | .v _, a => Vec.ofFn a
  | .m _ _, a => Mat.ofFn a

theorem Val.den_ofDen (τ : Ty) (a : Den K τ) : Val.den id τ (Val.ofDen τ a) = a := by
  match τ with
  | .s => rfl
  | .v _ => exact funext fun i => Vec.get_ofFn _ _
  | .m _ _ => exact funext fun i => funext fun j => Mat.get_ofFn _ _ _

/-- C117: automatic differentiation with division.  If an expression, evaluated on dual numbers `x + x' ε`, returns a value `v`, then
for all `s` near 0 it returns a value `F s` on the real numbers `x + s x'`, and the numbers in `v` are those in `F 0` with the
derivatives at 0 of those in `F s`. -/
theorem C117_derivative {O : Ops (DualNumber ℝ)} (hO : O.IsRing) (hd : O.UnitDiv) {O' : Ops ℝ} (hO' : O'.IsField) (hd' : O'.UnitDiv)
    (t : Target) (e : Ex τ) (hs : e.Small t.W) (G : Place → DualNumber ℝ) (v : Val (DualNumber ℝ) τ)
    (h : e.eval t O (Store.ofPlaces G) = .ok v) :
    ∃ F : ℝ → Val ℝ τ, (∀ᶠ s in nhds (0 : ℝ), e.eval t O' (Store.ofPlaces fun q => (G q).fst + s * (G q).snd) = .ok (F s)) ∧
      IsDeriv τ (fun s => Val.den id τ (F s)) (Val.den id τ v) := by
  have hD := eval_defined hO hd t e hs _ v h
  have hv := eval_den hO hd t hs h
  rw [Store.ofPlaces_den] at hD hv
  obtain ⟨h1, y, h2, h3⟩ := Ex.pair derivRing derivRing_inv (nhds 0) derivRing_near e
    (fun q => (G q, fun s : ℝ => (G q).fst + s * (G q).snd)) (derivRing_line G) hD
  refine ⟨fun s => Val.ofDen τ (e.den ringDiv (Env.ofPlaces fun q => (G q).fst + s * (G q).snd)), ?_, ?_⟩
  · refine h1.mono fun s hsd => ?_
    obtain ⟨w, hw⟩ := defined_eval hO' hd' t e hs (Store.ofPlaces fun q => (G q).fst + s * (G q).snd) (by
      rw [Store.ofPlaces_den]; exact hsd)
    rw [hw]
    refine congrArg _ (Val.den_injective Function.injective_id τ _ _ ?_)
    rw [Val.den_ofDen, eval_den hO'.toIsRing hd' t hs hw, Store.ofPlaces_den]
    rfl
  · simp only [Val.den_ofDen]
    rw [hv]
    exact isDeriv_of_rel h2 h3

/-- C117: the same for programs without tests. -/
theorem C117_derivative_programs {O : Ops (DualNumber ℝ)} (hO : O.IsRing) (hd : O.UnitDiv) {O' : Ops ℝ} (hO' : O'.IsField)
    (hd' : O'.UnitDiv) (t : Target) (p : Stmt) (hs : p.Small t.W) (hp : p.Straight) (G : Place → DualNumber ℝ)
    (σ : Store (DualNumber ℝ)) (h : Run t O p (Store.ofPlaces G) (.ok σ)) :
    ∃ F : ℝ → Store ℝ, (∀ᶠ s in nhds (0 : ℝ), Run t O' p (Store.ofPlaces fun q => (G q).fst + s * (G q).snd) (.ok (F s))) ∧
      ∀ τ i, IsDeriv τ (fun s => Val.den id τ (F s τ i)) (Val.den id τ (σ τ i)) := by
  obtain ⟨hD, hv⟩ := run_defined hO hd t p hs hp _ _ h
  rw [Store.ofPlaces_den] at hD hv
  obtain ⟨h1, h2⟩ := Stmt.pair derivRing derivRing_inv (nhds 0) derivRing_near p
    (fun q => (G q, fun s : ℝ => (G q).fst + s * (G q).snd)) (derivRing_line G) hD
  refine ⟨fun s τ i => Val.ofDen τ (p.den ringDiv (Env.ofPlaces fun q => (G q).fst + s * (G q).snd) τ i), ?_, fun τ i => ?_⟩
  · refine h1.mono fun s hsd => ?_
    obtain ⟨w, hw⟩ := defined_run hO' hd' t p hs hp (Store.ofPlaces fun q => (G q).fst + s * (G q).snd) (by
      rw [Store.ofPlaces_den]; exact hsd)
    have hw' := (run_defined hO'.toIsRing hd' t p hs hp _ _ hw).2
    rw [Store.ofPlaces_den] at hw'
    have e : w = fun τ i => Val.ofDen τ (p.den ringDiv (Env.ofPlaces fun q => (G q).fst + s * (G q).snd) τ i) := by
      funext τ i
      refine Val.den_injective Function.injective_id τ _ _ ?_
      rw [Val.den_ofDen]
      exact congrFun (congrFun hw' τ) i
    rw [e] at hw
    exact hw
  · obtain ⟨y, h3, h4⟩ := h2 τ i
    simp only [Val.den_ofDen]
    rw [show Val.den id τ (σ τ i) = p.den ringDiv (Env.ofPlaces G) τ i from congrFun (congrFun hv τ) i]
    exact isDeriv_of_rel h3 h4

/-! ## Modular arithmetic -/

theorem reduces_iff (m : Nat) (hm : 1 < m) (x : ℚ) (z : ZMod m) :
    Reduces m x z ↔ ∃ a b : ℤ, IsUnit (b : ZMod m) ∧ x * b = a ∧ (a : ZMod m) = z * b := by
  have : Fact (1 < m) := ⟨hm⟩
  constructor
  · rintro ⟨h1, h2⟩
    refine ⟨x.num, x.den, ?_, ?_, by exact_mod_cast h2⟩
    · rw [Int.cast_natCast]; exact (ZMod.isUnit_iff_coprime _ _).2 h1
    · exact_mod_cast Rat.mul_den_eq_num x
  · rintro ⟨a, b, hb, h1, h2⟩
    have hb0 : (b : ℚ) ≠ 0 := by
      intro h
      have : b = 0 := by exact_mod_cast h
      rw [this, Int.cast_zero] at hb
      exact not_isUnit_zero hb
    have hx : x = (a : ℚ) / b := by rw [eq_div_iff hb0, h1]
    have hdvd : (x.den : ℤ) ∣ b := by
      have h3 := Rat.den_dvd a b
      rw [Rat.divInt_eq_div] at h3
      rw [hx]; exact h3
    have hden : IsUnit ((x.den : ℕ) : ZMod m) := by
      obtain ⟨c, hc⟩ := hdvd
      rw [hc, Int.cast_mul, Int.cast_natCast] at hb
      exact (IsUnit.mul_iff.1 hb).1
    refine ⟨(ZMod.isUnit_iff_coprime _ _).1 hden, ?_⟩
    have hn : x.num * b = a * x.den := by
      have h3 := Rat.mul_den_eq_num x
      have : ((x.num * b : ℤ) : ℚ) = ((a * x.den : ℤ) : ℚ) := by
        push_cast
        rw [← h3, ← h1]; ring
      exact_mod_cast this
    have hn' := congrArg (Int.cast : ℤ → ZMod m) hn
    push_cast at hn'
    rw [h2] at hn'
    refine hb.mul_right_cancel ?_
    rw [hn']; ring

/-- Numbers modulo `m` with the fractions that they are. -/
def reduceRing (m : Nat) (hm : 1 < m) : Subring (ZMod m × (Unit → ℚ)) where
  carrier := {b | Reduces m (b.2 ()) b.1}
  zero_mem' := (reduces_iff m hm _ _).2 ⟨0, 1, by simp, by simp, by simp⟩
  one_mem' := (reduces_iff m hm _ _).2 ⟨1, 1, by simp, by simp, by simp⟩
  add_mem' {x y} hx hy := by
    obtain ⟨a, b, h1, h2, h3⟩ := (reduces_iff m hm _ _).1 hx
    obtain ⟨a', b', h1', h2', h3'⟩ := (reduces_iff m hm _ _).1 hy
    refine (reduces_iff m hm _ _).2 ⟨a * b' + a' * b, b * b', by push_cast; exact h1.mul h1', ?_, ?_⟩
    · push_cast
      rw [← h2, ← h2']
      show (x.2 () + y.2 ()) * _ = _
      ring
    · push_cast
      rw [h3, h3']
      show _ = (x.1 + y.1) * _
      ring
  neg_mem' {x} hx := by
    obtain ⟨a, b, h1, h2, h3⟩ := (reduces_iff m hm _ _).1 hx
    refine (reduces_iff m hm _ _).2 ⟨-a, b, h1, ?_, ?_⟩
    · push_cast
      rw [← h2]
      show (-x.2 ()) * _ = _
      ring
    · push_cast
      rw [h3]
      show _ = (-x.1) * _
      ring
  mul_mem' {x y} hx hy := by
    obtain ⟨a, b, h1, h2, h3⟩ := (reduces_iff m hm _ _).1 hx
    obtain ⟨a', b', h1', h2', h3'⟩ := (reduces_iff m hm _ _).1 hy
    refine (reduces_iff m hm _ _).2 ⟨a * a', b * b', by push_cast; exact h1.mul h1', ?_, ?_⟩
    · push_cast
      rw [← h2, ← h2']
      show (x.2 () * y.2 ()) * _ = _
      ring
    · push_cast
      rw [h3, h3']
      show _ = (x.1 * y.1) * _
      ring

theorem reduce_ne (m : Nat) (hm : 1 < m) {x : ℚ} {z : ZMod m} (h : Reduces m x z) (hu : IsUnit z) : x ≠ 0 := by
  have : Fact (1 < m) := ⟨hm⟩
  rintro rfl
  have := h.2
  simp only [Rat.num_zero, Int.cast_zero, Rat.den_zero, Nat.cast_one, mul_one] at this
  rw [← this] at hu
  exact not_isUnit_zero hu

theorem reduceRing_inv (m : Nat) (hm : 1 < m) (b) (hb : b ∈ reduceRing m hm) (hu : IsUnit b.1) :
    (Ring.inverse b.1, fun i => Ring.inverse (b.2 i)) ∈ reduceRing m hm := by
  have hx := reduce_ne m hm hb hu
  obtain ⟨a, d, h1, h2, h3⟩ := (reduces_iff m hm _ _).1 hb
  refine (reduces_iff m hm _ _).2 ⟨d, a, ?_, ?_, ?_⟩
  · rw [h3]; exact hu.mul h1
  · rw [← h2]
    show Ring.inverse (b.2 ()) * _ = _
    rw [Ring.inverse_eq_inv', inv_mul_cancel_left₀ hx]
  · rw [h3]
    show _ = Ring.inverse b.1 * _
    rw [← mul_assoc, Ring.inverse_mul_cancel _ hu, one_mul]

theorem rel_of_reduce {m : Nat} {hm : 1 < m} {a : Den (ZMod m) τ} {y : Den (Unit → ℚ) τ} {b : Den ℚ τ}
    (hy : Den.map (fun f => f ()) τ y = b) (h : Den.Rel (fun u v => (u, v) ∈ reduceRing m hm) τ a y) :
    Den.Rel (Reduces m) τ b a := by
  subst hy
  match τ, a, y, h with
  | .s, a, y, h => exact h
  | .v _, a, y, h => exact h
  | .m _ _, a, y, h => exact h

/-- C117: modular arithmetic.  Start from fractions whose denominators are prime to `m`, and from the same numbers modulo `m`.  If an
expression returns a value modulo `m`, it returns a value with fractions; the denominators of the latter are prime to `m`, and
modulo `m` it is the former. -/
theorem C117_modular (m : Nat) (hm : 1 < m) {O : Ops (ZMod m)} (hO : O.IsRing) (hd : O.UnitDiv) {O' : Ops ℚ} (hO' : O'.IsField)
    (hd' : O'.UnitDiv) (t : Target) (e : Ex τ) (hs : e.Small t.W) (x : Place → ℚ) (z : Place → ZMod m) (hxz : ∀ q, Reduces m (x q) (z q))
    (v : Val (ZMod m) τ) (h : e.eval t O (Store.ofPlaces z) = .ok v) :
    ∃ w, e.eval t O' (Store.ofPlaces x) = .ok w ∧ Den.Rel (Reduces m) τ (Val.den id τ w) (Val.den id τ v) := by
  have hD := eval_defined hO hd t e hs _ v h
  have hv := eval_den hO hd t hs h
  rw [Store.ofPlaces_den] at hD hv
  obtain ⟨h1, y, h2, h3⟩ := Ex.pair (reduceRing m hm) (reduceRing_inv m hm) ⊤
    (fun b hb hu => .of_forall fun i => isUnit_iff_ne_zero.2 (reduce_ne m hm hb hu)) e (fun q => (z q, fun _ => x q)) hxz hD
  obtain ⟨w, hw⟩ := defined_eval hO' hd' t e hs (Store.ofPlaces x) (by
    rw [Store.ofPlaces_den]; exact Filter.eventually_top.1 h1 ())
  refine ⟨w, hw, ?_⟩
  rw [hv, eval_den hO'.toIsRing hd' t hs hw, Store.ofPlaces_den]
  exact rel_of_reduce (h2 ()) h3

/-- C117: the same for programs without tests. -/
theorem C117_modular_programs (m : Nat) (hm : 1 < m) {O : Ops (ZMod m)} (hO : O.IsRing) (hd : O.UnitDiv) {O' : Ops ℚ}
    (hO' : O'.IsField) (hd' : O'.UnitDiv) (t : Target) (p : Stmt) (hs : p.Small t.W) (hp : p.Straight) (x : Place → ℚ)
    (z : Place → ZMod m) (hxz : ∀ q, Reduces m (x q) (z q)) (σ : Store (ZMod m)) (h : Run t O p (Store.ofPlaces z) (.ok σ)) :
    ∃ σ', Run t O' p (Store.ofPlaces x) (.ok σ') ∧ ∀ τ i, Den.Rel (Reduces m) τ (Val.den id τ (σ' τ i)) (Val.den id τ (σ τ i)) := by
  obtain ⟨hD, hv⟩ := run_defined hO hd t p hs hp _ _ h
  rw [Store.ofPlaces_den] at hD hv
  obtain ⟨h1, h2⟩ := Stmt.pair (reduceRing m hm) (reduceRing_inv m hm) ⊤
    (fun b hb hu => .of_forall fun i => isUnit_iff_ne_zero.2 (reduce_ne m hm hb hu)) p (fun q => (z q, fun _ => x q)) hxz hD
  obtain ⟨σ', hw⟩ := defined_run hO' hd' t p hs hp (Store.ofPlaces x) (by
    rw [Store.ofPlaces_den]; exact Filter.eventually_top.1 h1 ())
  have hw' := (run_defined hO'.toIsRing hd' t p hs hp _ _ hw).2
  rw [Store.ofPlaces_den] at hw'
  refine ⟨σ', hw, fun τ i => ?_⟩
  obtain ⟨y, h3, h4⟩ := h2 τ i
  rw [show Val.den id τ (σ τ i) = p.den ringDiv (Env.ofPlaces z) τ i from congrFun (congrFun hv τ) i,
    show Val.den id τ (σ' τ i) = p.den ringDiv (Env.ofPlaces x) τ i from congrFun (congrFun hw' τ) i]
  exact rel_of_reduce (h3 ()) h4

/-! ## Examples -/

namespace RingEx
deriving instance DecidableEq for Vec, Mat

private abbrev t64 : Target := ⟨true, true, 2 ^ 64⟩

/-- The numbers of a result, row by row. -/
def look {T : Type} {n : Nat} : Res (Val T (.m n n)) → Option (List T)
  | .ok a => some (List.ofFn fun i : Fin (n * n) => a.get ⟨i / n, Nat.div_lt_of_lt_mul i.isLt⟩
      ⟨i % n, Nat.mod_lt _ (Nat.pos_of_ne_zero fun h => absurd i.isLt (by simp [h]))⟩)
  | .error _ => none

/-- A Hill cipher: the key `3 3; 2 5` has an inverse modulo 26, `15 17; 20 9`; the key `2 1; 4 3`, with determinant 2, makes `inverse()`
panic, and `2 1; 4 2` makes it return `None`. -/
example : ((Mat.ofFn fun i j => if i = 0 then 3 else if j = 0 then 2 else 5 : Mat (ZMod 26) 2 2).inverse t64 (Ops.zmod 26) 1) =
    .ok (some (Mat.ofFn fun i j => if i = 0 then (if j = 0 then 15 else 17) else if j = 0 then 20 else 9)) := by decide +kernel
example : ((Mat.ofFn fun i j => if i = 0 then 2 - j else 4 - j : Mat (ZMod 26) 2 2).inverse t64 (Ops.zmod 26) 1) =
    .error .panic := by decide +kernel
example : ((Mat.ofFn fun i j => if i = 0 then 2 - j else 4 - 2 * j : Mat (ZMod 26) 2 2).inverse t64 (Ops.zmod 26) 1) = .ok none := by
  decide +kernel

/-- The inverse of a `2 x 2` matrix variable. -/
def inv2x : Ex (.m 2 2) := .inv (.var (.m 2 2) 0)

theorem inv2x_small : inv2x.Small t64.W := by simp [inv2x, Ex.Every, Ex.SmallStep, Ty.Small]

/-- The same entries as fractions: the inverse `5/9 -1/3; -2/9 1/3` is `15 17; 20 9` modulo 26. -/
def hill : Place → ℤ := fun q => if q.row = 0 then 3 else if q.col = 0 then 2 else 5

example : look (inv2x.eval t64 (Ops.zmod 26) (Store.ofPlaces fun q => (hill q : ZMod 26))) = some [15, 17, 20, 9] ∧
    look (inv2x.eval t64 (Ops.exact ℚ) (Store.ofPlaces fun q => (hill q : ℚ))) = some [5/9, -1/3, -2/9, 1/3] := by
  decide +kernel

example (v : Val (ZMod 26) (.m 2 2)) (h : inv2x.eval t64 (Ops.zmod 26) (Store.ofPlaces fun q => (hill q : ZMod 26)) = .ok v) :
    ∃ w, inv2x.eval t64 (Ops.exact ℚ) (Store.ofPlaces fun q => (hill q : ℚ)) = .ok w ∧
      Den.Rel (Reduces 26) (.m 2 2) (Val.den id (.m 2 2) w) (Val.den id (.m 2 2) v) := by
  refine C117_modular 26 (by decide) (C117_modulo 26).1 (C117_modulo 26).2.1 (Ops.exact_isField ℚ) (exact_unitDiv ℚ) t64 inv2x inv2x_small
    _ _ (fun q => ?_) v h
  exact ⟨by simp, by simp⟩

/-- Modulo 9 the same key has no inverse. -/
example : look (inv2x.eval t64 (Ops.zmod 9) (Store.ofPlaces fun q => (hill q : ZMod 9))) = none := by decide +kernel

/-- `1 / x` over dual numbers at `2 + ε` is `1/2 - 1/4 ε`. -/
def recip : Ex .s := .quot .one (.var .s 0)

theorem recip_small : recip.Small t64.W := by simp [recip, Ex.Every, Ex.SmallStep, Ty.Small]

/-- Which is the derivative of the `1 / x` that the crate computes over the reals. -/
example : ∃ F : ℝ → ℝ, (∀ᶠ s in nhds (0 : ℝ), recip.eval t64 (Ops.exact ℝ) (Store.ofPlaces fun _ => 2 + s * 1) = .ok (F s)) ∧
    HasDerivAt F (-1/4) 0 := by
  have e : recip.eval t64 (Ops.dual ℝ) (Store.ofPlaces fun _ => ((2, 1) : DualNumber ℝ)) = .ok (((1 / 2, -1/4) : DualNumber ℝ)) := by
    show (Ops.dual ℝ).div 1 ((2, 1) : DualNumber ℝ) = _
    refine (if_neg (two_ne_zero (α := ℝ))).trans ?_
    refine congrArg Except.ok (TrivSqZeroExt.ext rfl ?_)
    show ((0 : ℝ) * 2 - 1 * 1) / (2 * 2) = -1/4
    norm_num
  obtain ⟨F, h1, h2⟩ := C117_derivative (C117_dual ℝ).1 (C117_dual ℝ).2.1 (Ops.exact_isField ℝ) (exact_unitDiv ℝ) t64 recip recip_small
    (fun _ => ((2, 1) : DualNumber ℝ)) _ e
  exact ⟨F, h1, h2.2⟩

/-- The inverse of `x 1; 1 x` at `x = 2 + ε`. -/
example : (match inv2x.eval t64 (Ops.dual ℚ) (Store.ofPlaces fun q => if q.row = q.col then ((2, 1) : DualNumber ℚ) else 1) with
    | .ok a => (let a : Mat (DualNumber ℚ) 2 2 := a
        decide (((a.get 0 0).fst = 2/3 ∧ (a.get 0 0).snd = -5/9) ∧ (a.get 0 1).fst = -1/3 ∧ (a.get 0 1).snd = 4/9))
    | .error _ => false) = true := by decide +kernel

/-- A program with a divisor that may be zero: `a /= s` panics exactly for `s = 0`, unless `a` has no entries. -/
def divide (n : Nat) : Stmt := .act (.updQuot (.v n) 0 (.var .s 0))

example (σ : Store ℚ) : (divide 3).Defined (σ.den id) ↔ (show ℚ from σ .s 0) ≠ 0 := by
  show True ∧ ((0 < 3) → IsUnit (show ℚ from σ .s 0)) ↔ _
  simp
example (σ : Store ℚ) : (divide 0).Defined (σ.den id) := ⟨trivial, fun h => absurd h (by simp [Ty.NonEmpty])⟩
example (σ : Store ℚ) (h : (show ℚ from σ .s 0) = 0) (σ' : Store ℚ) : ¬ Run t64 (Ops.exact ℚ) (divide 3) σ (.ok σ') := by
  refine (C117_program_panics (Ops.exact_isField ℚ) (exact_unitDiv ℚ) t64 (divide 3) ?_ ?_ σ).2 (fun hD => ?_) σ'
  · simp [divide, Stmt.Every, Act.Small, Ex.Small, Ex.Every, Ex.SmallStep, Ty.Small]
  · simp [divide, Stmt.Straight]
  · exact (hD.2 (by simp [Ty.NonEmpty])).ne_zero h

end RingEx

end Prog
end Rowcol
