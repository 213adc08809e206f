import Verif.Props.Inv
import Mathlib.Algebra.Order.Field.Basic
import Mathlib.Algebra.Order.BigOperators.Group.Finset
import Mathlib.Algebra.Order.AbsoluteValue.Basic
import Mathlib.LinearAlgebra.Matrix.ToLinearEquiv
import Mathlib.LinearAlgebra.Matrix.Transvection

/-! # C80, C81: laws of `inverse`, and matrices of size 4 and more for which it always succeeds -/

namespace Rowcol

variable {T : Type} [Field T] {O : Ops T} (hO : O.IsField) (t : Target)

/-- The matrices for which `inverse()` returns `Some` (sizes up to 3: invertible; from 4: C57). -/
def Good (k : Nat) (M : Matrix (Fin (k + 1)) (Fin (k + 1)) T) : Prop :=
  (k < 3 ∧ M.det ≠ 0) ∨ (3 ≤ k ∧ ∀ l, ∀ hl : l ≤ k + 1, 0 < l → (lead M l hl).det ≠ 0)

omit [Field T] in
theorem lead_full {n : Nat} (M : Matrix (Fin n) (Fin n) T) : lead M n (Nat.le_refl n) = M := rfl

theorem Good.det_ne {k : Nat} {M : Matrix (Fin (k + 1)) (Fin (k + 1)) T} (h : Good k M) : M.det ≠ 0 := by
  rcases h with ⟨_, h⟩ | ⟨_, h⟩
  · exact h
  · have := h (k + 1) (Nat.le_refl _) (by omega)
    rwa [lead_full] at this

theorem good_small {k : Nat} (hk : k < 3) (M : Matrix (Fin (k + 1)) (Fin (k + 1)) T) : Good k M ↔ M.det ≠ 0 :=
  ⟨Good.det_ne, fun h => .inl ⟨hk, h⟩⟩

include hO in
theorem inverse_good (k : Nat) (a : Mat T (k + 1) (k + 1)) :
    (Good k a.toMatrix ∧ a.inverse t O k = .ok (some (Mat.ofMatrix a.toMatrix⁻¹))) ∨
    (¬ Good k a.toMatrix ∧ a.inverse t O k = .ok none) := by
  obtain ⟨o, ho⟩ := inverse_ok t hO k a
  have hg : (∃ x, a.inverse t O k = .ok (some x)) ↔ Good k a.toMatrix := by
    by_cases hk : k < 3
    · rw [C56_complete_partial t hO k hk, good_small hk]
      constructor
      · rintro ⟨y, hy⟩ h0
        have := congrArg Matrix.det hy
        rw [Matrix.det_mul, h0, zero_mul, Matrix.det_one] at this
        exact zero_ne_one this
      · intro h
        exact ⟨a.toMatrix⁻¹, Matrix.mul_nonsing_inv _ (isUnit_iff_ne_zero.2 h)⟩
    · rw [C57_minors t hO k (by omega)]
      exact ⟨fun h => .inr ⟨by omega, h⟩, fun h => h.elim (fun h => absurd h.1 hk) (fun h => h.2)⟩
  cases o with
  | none =>
    right
    refine ⟨fun h => ?_, ho⟩
    obtain ⟨x, hx⟩ := hg.2 h
    rw [ho] at hx; exact absurd (Except.ok.inj hx) (by simp)
  | some x =>
    left
    refine ⟨hg.1 ⟨x, ho⟩, ?_⟩
    rw [ho, ← C55_unique t hO k a x ho, Mat.ofMatrix_toMatrix]

include hO in
theorem inverse_some_iff (k : Nat) (a x : Mat T (k + 1) (k + 1)) :
    a.inverse t O k = .ok (some x) ↔ Good k a.toMatrix ∧ x.toMatrix = a.toMatrix⁻¹ := by
  rcases inverse_good hO t k a with ⟨h1, h2⟩ | ⟨h1, h2⟩
  · rw [h2]
    constructor
    · intro h
      obtain rfl := Option.some.inj (Except.ok.inj h)
      exact ⟨h1, Mat.toMatrix_ofMatrix _⟩
    · rintro ⟨_, h⟩
      rw [← h, Mat.ofMatrix_toMatrix]
  · rw [h2]
    exact ⟨fun h => absurd (Except.ok.inj h) (by simp), fun h => absurd h.1 h1⟩

include hO in
theorem inverse_none_iff (k : Nat) (a : Mat T (k + 1) (k + 1)) :
    a.inverse t O k = .ok none ↔ ¬ Good k a.toMatrix := by
  rcases inverse_good hO t k a with ⟨h1, h2⟩ | ⟨h1, h2⟩
  · rw [h2]; exact ⟨fun h => absurd (Except.ok.inj h) (by simp), fun h => absurd h1 h⟩
  · rw [h2]; exact ⟨fun _ => h1, fun _ => rfl⟩

theorem good_transpose {k : Nat} (M : Matrix (Fin (k + 1)) (Fin (k + 1)) T) : Good k M.transpose ↔ Good k M := by
  have : ∀ l (hl : l ≤ k + 1), lead M.transpose l hl = (lead M l hl).transpose := fun _ _ => rfl
  simp only [Good, Matrix.det_transpose, this]

theorem good_smul {k : Nat} (M : Matrix (Fin (k + 1)) (Fin (k + 1)) T) (s : T) (hs : s ≠ 0) : Good k (s • M) ↔ Good k M := by
  have h : ∀ l (hl : l ≤ k + 1), lead (s • M) l hl = s • lead M l hl := fun _ _ => rfl
  have h2 : ∀ (l : Nat) (A : Matrix (Fin l) (Fin l) T), (s • A).det ≠ 0 ↔ A.det ≠ 0 := by
    intro l A
    rw [Matrix.det_smul, Fintype.card_fin]
    exact ⟨fun h h0 => h (by rw [h0, mul_zero]), fun h => mul_ne_zero (pow_ne_zero _ hs) h⟩
  simp only [Good, h, h2]

/-! ## C80 -/

section laws
variable (k : Nat) (hk : k + 1 < t.W)
include hO hk

/-- C80: inversion commutes with transposition, for every size and also when it gives `None`. -/
theorem C80_transposed (a b : Mat T (k + 1) (k + 1)) (hb : a.transposed t = .ok b) :
    (a.inverse t O k = .ok none ↔ b.inverse t O k = .ok none) ∧
    (∀ x, a.inverse t O k = .ok (some x) → ∃ y, x.transposed t = .ok y ∧ b.inverse t O k = .ok (some y)) := by
  rw [transposed_eq t a hk] at hb
  obtain rfl := Except.ok.inj hb
  refine ⟨?_, fun x hx => ⟨_, transposed_eq t x hk, ?_⟩⟩
  · rw [inverse_none_iff hO, inverse_none_iff hO, Mat.toMatrix_ofMatrix, good_transpose]
  · rw [inverse_some_iff hO] at hx ⊢
    rw [Mat.toMatrix_ofMatrix, Mat.toMatrix_ofMatrix, good_transpose, hx.2, Matrix.transpose_nonsing_inv]
    exact ⟨hx.1, rfl⟩

/-- C80: the determinant of the inverse is the inverse of the determinant. -/
theorem C80_determinant (a x : Mat T (k + 1) (k + 1)) (d : T) (h : a.inverse t O k = .ok (some x))
    (hd : a.determinant t O k = .ok d) : d ≠ 0 ∧ x.determinant t O k = .ok d⁻¹ := by
  rw [inverse_some_iff hO] at h
  rw [C48_determinant hO t k _ hk] at hd ⊢
  obtain rfl := Except.ok.inj hd
  refine ⟨h.1.det_ne, ?_⟩
  rw [h.2, Matrix.det_nonsing_inv, Ring.inverse_eq_inv']

/-- C80: when all three inverses are found, the inverse of a product is the product of the inverses in reverse order. -/
theorem C80_product (a b p x y z : Mat T (k + 1) (k + 1)) (hp : a.mulVV t O b = .ok p) (ha : a.inverse t O k = .ok (some x))
    (hb : b.inverse t O k = .ok (some y)) (hz : p.inverse t O k = .ok (some z)) : y.mulVV t O x = .ok z := by
  rw [mulVV_eq hO.toIsSemiring t _ _ hk hk hk] at hp ⊢
  obtain rfl := Except.ok.inj hp
  rw [inverse_some_iff hO] at ha hb hz
  rw [Mat.toMatrix_ofMatrix] at hz
  rw [ha.2, hb.2, ← Matrix.mul_inv_rev, ← hz.2, Mat.ofMatrix_toMatrix]

/-- C80: up to size 3 the inverse of the product is always found. -/
theorem C80_product_small (h3 : k < 3) (a b p x y : Mat T (k + 1) (k + 1)) (hp : a.mulVV t O b = .ok p)
    (ha : a.inverse t O k = .ok (some x)) (hb : b.inverse t O k = .ok (some y)) :
    ∃ z, p.inverse t O k = .ok (some z) ∧ y.mulVV t O x = .ok z := by
  have hp' := hp
  rw [mulVV_eq hO.toIsSemiring t _ _ hk hk hk] at hp'
  obtain rfl := Except.ok.inj hp'
  have hz : (Mat.ofMatrix (a.toMatrix * b.toMatrix)).inverse t O k =
      .ok (some (Mat.ofMatrix (a.toMatrix * b.toMatrix)⁻¹)) := by
    rw [inverse_some_iff hO]
    refine ⟨?_, by rw [Mat.toMatrix_ofMatrix, Mat.toMatrix_ofMatrix]⟩
    rw [good_small h3, Mat.toMatrix_ofMatrix, Matrix.det_mul]
    rw [inverse_some_iff hO] at ha hb
    exact mul_ne_zero ha.1.det_ne hb.1.det_ne
  exact ⟨_, hz, C80_product hO t k hk a b _ x y _ hp ha hb hz⟩

omit hk in
/-- C80: inverting twice, when both inverses are found, gives back the matrix. -/
theorem C80_twice (a x y : Mat T (k + 1) (k + 1)) (h : a.inverse t O k = .ok (some x)) (h2 : x.inverse t O k = .ok (some y)) :
    y = a := by
  rw [inverse_some_iff hO] at h h2
  apply Mat.toMatrix_injective
  rw [h2.2, h.2, Matrix.nonsing_inv_nonsing_inv _ (isUnit_iff_ne_zero.2 h.1.det_ne)]

omit hk in
/-- C80: up to size 3 the second inverse is always found. -/
theorem C80_twice_small (h3 : k < 3) (a x : Mat T (k + 1) (k + 1)) (h : a.inverse t O k = .ok (some x)) :
    x.inverse t O k = .ok (some a) := by
  rw [inverse_some_iff hO] at h ⊢
  have hu := isUnit_iff_ne_zero.2 h.1.det_ne
  refine ⟨?_, by rw [h.2, Matrix.nonsing_inv_nonsing_inv _ hu]⟩
  rw [good_small h3, h.2, Matrix.det_nonsing_inv, Ring.inverse_eq_inv']
  exact inv_ne_zero h.1.det_ne

omit hk in
/-- C80: scaling by `s ≠ 0` scales the inverse by `1 / s`, also when it gives `None`, for every size. -/
theorem C80_scalar (a b : Mat T (k + 1) (k + 1)) (s : T) (hs : s ≠ 0) (hb : a.mulScalar t O.mul s = .ok b) :
    (a.inverse t O k = .ok none ↔ b.inverse t O k = .ok none) ∧
    (∀ x, a.inverse t O k = .ok (some x) → ∃ y, x.mulScalar t O.mul s⁻¹ = .ok y ∧ b.inverse t O k = .ok (some y)) := by
  have e : ∀ (M : Matrix (Fin (k + 1)) (Fin (k + 1)) T) (u : T), M * Matrix.scalar _ u = u • M := by
    intro M u; rw [Matrix.scalar_apply, ← Matrix.smul_one_eq_diagonal, Matrix.mul_smul, Matrix.mul_one]
  rw [matSmul' hO.toIsSemiring, e] at hb
  obtain rfl := Except.ok.inj hb
  refine ⟨?_, fun x hx => ⟨_, matSmul' hO.toIsSemiring t x s⁻¹, ?_⟩⟩
  · rw [inverse_none_iff hO, inverse_none_iff hO, Mat.toMatrix_ofMatrix, good_smul _ s hs]
  · rw [inverse_some_iff hO] at hx ⊢
    rw [Mat.toMatrix_ofMatrix, Mat.toMatrix_ofMatrix, good_smul _ s hs, hx.2, e]
    refine ⟨hx.1, ?_⟩
    symm
    apply Matrix.inv_eq_left_inv
    rw [Matrix.smul_mul, Matrix.mul_smul, smul_smul, inv_mul_cancel₀ hs, one_smul,
      Matrix.nonsing_inv_mul _ (isUnit_iff_ne_zero.2 hx.1.det_ne)]

omit hk in
/-- C80: the identity is its own inverse. -/
theorem C80_identity (e : Mat T (k + 1) (k + 1)) (he : Mat.identity t O (k + 1) = .ok e) :
    e.inverse t O k = .ok (some e) := by
  rw [identity_eq hO.toIsSemiring] at he
  obtain rfl := Except.ok.inj he
  rw [inverse_some_iff hO, Mat.toMatrix_ofMatrix, inv_one]
  refine ⟨?_, rfl⟩
  have h1 : ∀ l (hl : l ≤ k + 1), lead (1 : Matrix (Fin (k + 1)) (Fin (k + 1)) T) l hl = 1 :=
    fun l hl => Matrix.submatrix_one _ (Fin.castLE_injective hl)
  by_cases h3 : k < 3
  · exact (good_small h3 _).2 (by rw [Matrix.det_one]; exact one_ne_zero)
  · exact .inr ⟨by omega, fun l hl _ => by rw [h1, Matrix.det_one]; exact one_ne_zero⟩

/-- C80: the inverse solves linear systems: `x` is the only matrix (vector, for one column) with `a * x = b`. -/
theorem C80_solves {c : Nat} (hc : c < t.W) (a i : Mat T (k + 1) (k + 1)) (b : Mat T (k + 1) c) (h : a.inverse t O k = .ok (some i)) :
    ∃ x, i.mulVV t O b = .ok x ∧ ∀ y, a.mulVV t O y = .ok b ↔ y = x := by
  rw [inverse_some_iff hO] at h
  have hu := isUnit_iff_ne_zero.2 h.1.det_ne
  refine ⟨_, mulVV_eq hO.toIsSemiring t _ _ hk hk hc, fun y => ?_⟩
  rw [mulVV_eq hO.toIsSemiring t _ _ hk hk hc]
  constructor
  · intro hy
    rw [← Except.ok.inj hy, Mat.toMatrix_ofMatrix, h.2, ← Matrix.mul_assoc, Matrix.nonsing_inv_mul _ hu, Matrix.one_mul,
      Mat.ofMatrix_toMatrix]
  · rintro rfl
    rw [Mat.toMatrix_ofMatrix, h.2, ← Matrix.mul_assoc, Matrix.mul_nonsing_inv _ hu, Matrix.one_mul, Mat.ofMatrix_toMatrix]

end laws

/-! ### Triangular factors -/

/-- Zero above the diagonal. -/
def LowerTri {n : Nat} (M : Matrix (Fin n) (Fin n) T) : Prop := ∀ i j, i < j → M i j = 0

theorem lead_mul {n : Nat} (L U : Matrix (Fin n) (Fin n) T) (hL : LowerTri L) (l : Nat) (hl : l ≤ n) :
    lead (L * U) l hl = lead L l hl * lead U l hl := by
  obtain ⟨m, rfl⟩ := Nat.exists_eq_add_of_le hl
  ext i j
  change ∑ x, L (Fin.castLE hl i) x * U x (Fin.castLE hl j) = ∑ x, L (Fin.castLE hl i) (Fin.castLE hl x) * U (Fin.castLE hl x) (Fin.castLE hl j)
  rw [Fin.sum_univ_add]
  have : ∑ x : Fin m, L (Fin.castLE hl i) (Fin.natAdd l x) * U (Fin.natAdd l x) (Fin.castLE hl j) = 0 := by
    apply Finset.sum_eq_zero
    intro x _
    rw [hL _ _ (by rw [Fin.lt_def]; simp; omega), zero_mul]
  rw [this, add_zero]
  rfl

theorem det_lead_lower {n : Nat} (L : Matrix (Fin n) (Fin n) T) (hL : LowerTri L) (l : Nat) (hl : l ≤ n) :
    (lead L l hl).det = ∏ i : Fin l, L (Fin.castLE hl i) (Fin.castLE hl i) := by
  rw [Matrix.det_of_isLowerTriangular]
  · rfl
  · intro i j hij
    exact hL _ _ hij

/-- A product of a lower and an upper triangular matrix without zeros on their diagonals has no vanishing leading minor. -/
theorem good_lu (k : Nat) (L U : Matrix (Fin (k + 1)) (Fin (k + 1)) T) (hL : LowerTri L) (hU : LowerTri U.transpose)
    (hLd : ∀ i, L i i ≠ 0) (hUd : ∀ i, U i i ≠ 0) : Good k (L * U) := by
  have key : ∀ l (hl : l ≤ k + 1), (lead (L * U) l hl).det ≠ 0 := by
    intro l hl
    rw [lead_mul L U hL, Matrix.det_mul, det_lead_lower L hL]
    have : (lead U l hl).det = (lead U.transpose l hl).det := by rw [← Matrix.det_transpose]; rfl
    rw [this, det_lead_lower _ hU]
    exact mul_ne_zero (Finset.prod_ne_zero_iff.2 fun i _ => hLd _) (Finset.prod_ne_zero_iff.2 fun i _ => hUd _)
  by_cases h3 : k < 3
  · refine (good_small h3 _).2 ?_
    have := key (k + 1) (Nat.le_refl _)
    rwa [lead_full] at this
  · exact .inr ⟨by omega, fun l hl _ => key l hl⟩


/-! ### From size 4 on the `Some` in the laws can be missing -/

section mayfail
variable (k : Nat)

/-- `1` on the diagonal, `c` in row 0 and column 1. -/
def shearUp (c : T) : Matrix (Fin (k + 4)) (Fin (k + 4)) T := Matrix.transvection 0 1 c
/-- `1` on the diagonal, `c` in row 1 and column 0. -/
def shearDown (c : T) : Matrix (Fin (k + 4)) (Fin (k + 4)) T := Matrix.transvection 1 0 c

theorem shearDown_lower (c : T) : LowerTri (shearDown k c) := by
  intro i j hij
  rw [shearDown, Matrix.transvection, Matrix.add_apply, Matrix.one_apply_ne hij.ne, zero_add, Matrix.single_apply]
  rw [if_neg]
  rintro ⟨rfl, rfl⟩
  exact absurd hij (by simp)

theorem shearUp_upper (c : T) : LowerTri (shearUp k c).transpose := by
  intro i j hij
  rw [shearUp, Matrix.transpose_apply, Matrix.transvection, Matrix.add_apply, Matrix.one_apply_ne hij.ne', zero_add, Matrix.single_apply]
  rw [if_neg]
  rintro ⟨rfl, rfl⟩
  exact absurd hij (by simp)

theorem shearDown_diag (c : T) (i : Fin (k + 4)) : shearDown k c i i ≠ 0 := by
  rw [shearDown, Matrix.transvection, Matrix.add_apply, Matrix.one_apply_eq, Matrix.single_apply, if_neg, add_zero]
  · exact one_ne_zero
  · rintro ⟨h1, h2⟩
    rw [← h1] at h2; exact absurd h2 (by simp)

theorem shearUp_diag (c : T) (i : Fin (k + 4)) : shearUp k c i i ≠ 0 := by
  rw [shearUp, Matrix.transvection, Matrix.add_apply, Matrix.one_apply_eq, Matrix.single_apply, if_neg, add_zero]
  · exact one_ne_zero
  · rintro ⟨h1, h2⟩
    rw [← h1] at h2; exact absurd h2 (by simp)

theorem lower_one : LowerTri (1 : Matrix (Fin (k + 4)) (Fin (k + 4)) T) := fun _ _ h => Matrix.one_apply_ne h.ne

theorem shear_bad : ¬ Good (k + 3) (shearUp k 1 * shearDown k (-1) : Matrix _ _ T) := by
  rintro (⟨h, _⟩ | ⟨_, h⟩)
  · omega
  · apply h 1 (by omega) (by omega)
    rw [Matrix.det_fin_one]
    change (shearUp k 1 * shearDown k (-1) : Matrix _ _ T) 0 0 = 0
    rw [shearUp, Matrix.transvection_mul_apply_same, shearDown]
    simp [Matrix.transvection]

theorem shear_inv : (shearDown k 1 * shearUp k (-1) : Matrix _ _ T)⁻¹ = shearUp k 1 * shearDown k (-1) := by
  apply Matrix.inv_eq_left_inv
  have h01 : (0 : Fin (k + 4)) ≠ 1 := by simp
  have hd : (shearDown k (-1) * shearDown k 1 : Matrix _ _ T) = 1 := by
    rw [shearDown, shearDown, Matrix.transvection_mul_transvection_same _ _ h01.symm, neg_add_cancel, Matrix.transvection_zero]
  have hu : (shearUp k 1 * shearUp k (-1) : Matrix _ _ T) = 1 := by
    rw [shearUp, shearUp, Matrix.transvection_mul_transvection_same _ _ h01, add_neg_cancel, Matrix.transvection_zero]
  rw [Matrix.mul_assoc, ← Matrix.mul_assoc (shearDown k (-1)), hd, Matrix.one_mul, hu]

include hO in
/-- C80: for every size from 4 and every field there are two matrices that both have their inverse found, whose product does not. -/
theorem C80_product_may_fail (hk : k + 4 < t.W) :
    ∃ a b p x y : Mat T (k + 4) (k + 4), a.inverse t O (k + 3) = .ok (some x) ∧ b.inverse t O (k + 3) = .ok (some y) ∧
      a.mulVV t O b = .ok p ∧ p.toMatrix.det ≠ 0 ∧ p.inverse t O (k + 3) = .ok none := by
  have h1 : Good (k + 3) (shearUp k 1 : Matrix _ _ T) := by
    have := good_lu (k + 3) 1 (shearUp k (1 : T)) (lower_one k) (shearUp_upper k 1) (fun i => by simp) (shearUp_diag k 1)
    rwa [Matrix.one_mul] at this
  have h2 : Good (k + 3) (shearDown k (-1) : Matrix _ _ T) := by
    have := good_lu (k + 3) (shearDown k (-1 : T)) 1 (shearDown_lower k (-1)) (by rw [Matrix.transpose_one]; exact lower_one k)
      (shearDown_diag k (-1)) (fun i => by simp)
    rwa [Matrix.mul_one] at this
  refine ⟨Mat.ofMatrix (shearUp k 1), Mat.ofMatrix (shearDown k (-1)), _, _, _, (inverse_some_iff hO t _ _ _).2 ⟨?_, Mat.toMatrix_ofMatrix _⟩,
    (inverse_some_iff hO t _ _ _).2 ⟨?_, Mat.toMatrix_ofMatrix _⟩, mulVV_eq hO.toIsSemiring t _ _ hk hk hk, ?_, ?_⟩
  · rwa [Mat.toMatrix_ofMatrix]
  · rwa [Mat.toMatrix_ofMatrix]
  · rw [Mat.toMatrix_ofMatrix, Mat.toMatrix_ofMatrix, Mat.toMatrix_ofMatrix, Matrix.det_mul]
    exact mul_ne_zero h1.det_ne h2.det_ne
  · rw [inverse_none_iff hO, Mat.toMatrix_ofMatrix, Mat.toMatrix_ofMatrix, Mat.toMatrix_ofMatrix]
    exact shear_bad k

include hO in
/-- C80: for every size from 4 and every field there is a matrix whose inverse is found, while the inverse of that inverse is not. -/
theorem C80_twice_may_fail :
    ∃ a x : Mat T (k + 4) (k + 4), a.inverse t O (k + 3) = .ok (some x) ∧ x.inverse t O (k + 3) = .ok none := by
  refine ⟨Mat.ofMatrix (shearDown k 1 * shearUp k (-1)), Mat.ofMatrix (shearUp k 1 * shearDown k (-1)), ?_, ?_⟩
  · rw [inverse_some_iff hO, Mat.toMatrix_ofMatrix, Mat.toMatrix_ofMatrix, shear_inv]
    exact ⟨good_lu _ _ _ (shearDown_lower k 1) (shearUp_upper k _) (shearDown_diag k _) (shearUp_diag k _), rfl⟩
  · rw [inverse_none_iff hO, Mat.toMatrix_ofMatrix]
    exact shear_bad k

end mayfail

/-! ## C81: sufficient conditions -/

section classes
variable (k : Nat)
include hO

/-- C81: the inverse of a product of a lower and an upper triangular matrix without zeros on the diagonals is found, at every size. -/
theorem C81_lu (hk : k + 1 < t.W) (l u p : Mat T (k + 1) (k + 1))
    (hl : ∀ i j, i < j → l.toMatrix i j = 0) (hu : ∀ i j, j < i → u.toMatrix i j = 0)
    (hld : ∀ i, l.toMatrix i i ≠ 0) (hud : ∀ i, u.toMatrix i i ≠ 0) (hp : l.mulVV t O u = .ok p) :
    ∃ x, p.inverse t O k = .ok (some x) ∧ x.toMatrix * p.toMatrix = 1 := by
  rw [mulVV_eq hO.toIsSemiring t _ _ hk hk hk] at hp
  obtain rfl := Except.ok.inj hp
  have hg := good_lu k l.toMatrix u.toMatrix hl (fun i j h => hu j i h) hld hud
  refine ⟨_, (inverse_some_iff hO t _ _ _).2 ⟨?_, Mat.toMatrix_ofMatrix _⟩, ?_⟩
  · rwa [Mat.toMatrix_ofMatrix]
  · rw [Mat.toMatrix_ofMatrix, Mat.toMatrix_ofMatrix]
    exact Matrix.nonsing_inv_mul _ (isUnit_iff_ne_zero.2 hg.det_ne)

/-- Whatever is `Good` has its inverse found. -/
theorem found_of_good (a : Mat T (k + 1) (k + 1)) (h : Good k a.toMatrix) :
    ∃ x, a.inverse t O k = .ok (some x) ∧ x.toMatrix * a.toMatrix = 1 := by
  refine ⟨_, (inverse_some_iff hO t _ _ _).2 ⟨h, Mat.toMatrix_ofMatrix _⟩, ?_⟩
  rw [Mat.toMatrix_ofMatrix]
  exact Matrix.nonsing_inv_mul _ (isUnit_iff_ne_zero.2 h.det_ne)

/-- C81: a lower triangular matrix has its inverse found exactly when its diagonal has no zero, at every size. -/
theorem C81_lower (a : Mat T (k + 1) (k + 1)) (hl : ∀ i j, i < j → a.toMatrix i j = 0) :
    (∃ x, a.inverse t O k = .ok (some x)) ↔ ∀ i, a.toMatrix i i ≠ 0 := by
  constructor
  · rintro ⟨x, hx⟩ i
    have := ((inverse_some_iff hO t _ _ _).1 hx).1.det_ne
    rw [← lead_full a.toMatrix, det_lead_lower _ hl] at this
    exact Finset.prod_ne_zero_iff.1 this i (Finset.mem_univ i)
  · intro hd
    have := good_lu k a.toMatrix 1 hl (by rw [Matrix.transpose_one]; exact fun _ _ h => Matrix.one_apply_ne h.ne) hd (fun i => by simp)
    rw [Matrix.mul_one] at this
    exact (found_of_good hO t k a this).imp fun _ h => h.1

/-- C81: the same for upper triangular matrices. -/
theorem C81_upper (a : Mat T (k + 1) (k + 1)) (hu : ∀ i j, j < i → a.toMatrix i j = 0) :
    (∃ x, a.inverse t O k = .ok (some x)) ↔ ∀ i, a.toMatrix i i ≠ 0 := by
  have h : ∀ b : Mat T (k + 1) (k + 1), (∃ x, b.inverse t O k = .ok (some x)) ↔ Good k b.toMatrix := fun b =>
    ⟨fun ⟨x, hx⟩ => ((inverse_some_iff hO t _ _ _).1 hx).1, fun h => (found_of_good hO t k b h).imp fun _ h => h.1⟩
  have := C81_lower hO t k (Mat.ofMatrix a.toMatrix.transpose) (fun i j hij => by rw [Mat.toMatrix_ofMatrix]; exact hu j i hij)
  rw [h, Mat.toMatrix_ofMatrix, good_transpose, ← h] at this
  exact this

end classes

section ordered
variable [LinearOrder T] [IsStrictOrderedRing T]

omit [LinearOrder T] [IsStrictOrderedRing T] in
theorem good_of_lead (k : Nat) (M : Matrix (Fin (k + 1)) (Fin (k + 1)) T) (h : ∀ l (hl : l ≤ k + 1), (lead M l hl).det ≠ 0) : Good k M := by
  by_cases h3 : k < 3
  · refine (good_small h3 _).2 ?_
    have := h (k + 1) (Nat.le_refl _)
    rwa [lead_full] at this
  · exact .inr ⟨by omega, fun l hl _ => h l hl⟩

/-- A vector with `m` zeros appended. -/
def padZ {l n : Nat} (v : Fin l → T) : Fin n → T := fun i => if h : i.val < l then v ⟨i.val, h⟩ else 0

omit [LinearOrder T] [IsStrictOrderedRing T] in
theorem sum_padZ {l n : Nat} (hl : l ≤ n) (v : Fin l → T) (f : Fin n → T) :
    ∑ i, f i * padZ v i = ∑ i, f (Fin.castLE hl i) * v i := by
  obtain ⟨m, rfl⟩ := Nat.exists_eq_add_of_le hl
  rw [Fin.sum_univ_add]
  have h0 : ∑ i : Fin m, f (Fin.natAdd l i) * padZ v (Fin.natAdd l i) = 0 :=
    Finset.sum_eq_zero fun i _ => by rw [padZ, dif_neg (by simp), mul_zero]
  rw [h0, add_zero]
  refine Finset.sum_congr rfl fun i _ => ?_
  rw [padZ, dif_pos (by simp)]
  rfl

omit [IsStrictOrderedRing T] in
include hO in
/-- C81: over an ordered field a positive definite matrix (`vᵀ a v > 0` for every `v ≠ 0`; it need not be symmetric) has its
inverse found, at every size. -/
theorem C81_positive_definite (k : Nat) (a : Mat T (k + 1) (k + 1))
    (hpos : ∀ v : Fin (k + 1) → T, v ≠ 0 → 0 < ∑ i, v i * ∑ j, a.toMatrix i j * v j) :
    ∃ x, a.inverse t O k = .ok (some x) ∧ x.toMatrix * a.toMatrix = 1 := by
  apply found_of_good hO
  apply good_of_lead
  intro l hl h0
  obtain ⟨v, hv, hz⟩ := Matrix.exists_mulVec_eq_zero_iff.2 h0
  have hne : (padZ v : Fin (k + 1) → T) ≠ 0 := by
    intro h
    apply hv
    funext i
    have := congrFun h (Fin.castLE hl i)
    rwa [padZ, dif_pos (by simp)] at this
  have hp := hpos (padZ v) hne
  have : ∑ i, padZ v i * ∑ j, a.toMatrix i j * padZ v j = 0 := by
    simp only [sum_padZ hl v]
    simp only [mul_comm (padZ v _)]
    rw [sum_padZ hl v (fun i => ∑ j, a.toMatrix i (Fin.castLE hl j) * v j)]
    apply Finset.sum_eq_zero
    intro i _
    have := congrFun hz i
    rw [show (∑ j, a.toMatrix (Fin.castLE hl i) (Fin.castLE hl j) * v j) = 0 from this, zero_mul]
  rw [this] at hp
  exact absurd hp (lt_irrefl _)

include hO in
/-- C81, least squares: if the columns of a matrix are linearly independent, the inverse of `aᵀ a` is found, at every size, and
`(aᵀ a)⁻¹ (aᵀ b)` makes `|a y - b|²` smallest among all `y`. -/
theorem C81_least_squares {r : Nat} (k : Nat) (a : Mat T r (k + 1)) (b : Vec T r) (hr : r < t.W) (hk : k + 1 < t.W)
    (hind : ∀ v : Fin (k + 1) → T, (∀ i, ∑ j, a.get i j * v j = 0) → v = 0) :
    ∃ g x y, (do let u ← a.transposed t; u.mulVV t O a) = .ok g ∧ g.inverse t O k = .ok (some x) ∧
      (do let u ← a.transposed t; let w ← u.mulVec t O b; x.mulVec t O w) = .ok y ∧
      ∀ z : Fin (k + 1) → T,
        ∑ i, ((∑ j, a.get i j * y.get j) - b.get i) ^ 2 ≤ ∑ i, ((∑ j, a.get i j * z j) - b.get i) ^ 2 := by
  have hS := hO.toIsRing.toIsSemiring
  rw [transposed_eq t a hk, res_ok_bind, mulVV_eq hS t _ _ hk hr hk, Mat.toMatrix_ofMatrix]
  have hq : ∀ v : Fin (k + 1) → T, ∑ i, v i * ∑ j, (a.toMatrix.transpose * a.toMatrix) i j * v j = ∑ m, (∑ j, a.get m j * v j) ^ 2 := by
    intro v
    have h1 : ∑ i, v i * ∑ j, (a.toMatrix.transpose * a.toMatrix) i j * v j =
        v ⬝ᵥ ((a.toMatrix.transpose * a.toMatrix).mulVec v) := rfl
    rw [h1, ← Matrix.mulVec_mulVec, Matrix.dotProduct_mulVec, Matrix.vecMul_transpose]
    exact Finset.sum_congr rfl fun m _ => (pow_two _).symm
  obtain ⟨x, hx, hx1⟩ := C81_positive_definite hO t k (Mat.ofMatrix (a.toMatrix.transpose * a.toMatrix)) (by
    intro v hv
    rw [Mat.toMatrix_ofMatrix, hq]
    obtain ⟨m, hm⟩ : ∃ m, ∑ j, a.get m j * v j ≠ 0 := by
      by_contra h
      push Not at h
      exact hv (hind v h)
    exact Finset.sum_pos' (fun _ _ => sq_nonneg _) ⟨m, Finset.mem_univ _, by positivity⟩)
  rw [Mat.toMatrix_ofMatrix] at hx1
  refine ⟨_, x, Vec.ofFn (x.toMatrix.mulVec (a.toMatrix.transpose.mulVec b.get)), rfl, hx, ?_, ?_⟩
  · rw [res_ok_bind, (mulVec_eq hS t _ _ hk).1, res_ok_bind, (mulVec_eq hS t _ _ hk).1, Mat.toMatrix_ofMatrix]
    have g : ∀ {n : Nat} (f : Fin n → T), (Vec.ofFn f).get = f := fun f => funext fun i => Vec.get_ofFn f i
    rw [g]
  · intro z
    simp only [Vec.get_ofFn]
    set y := x.toMatrix.mulVec (a.toMatrix.transpose.mulVec b.get) with hy
    have hG : (a.toMatrix.transpose * a.toMatrix) * x.toMatrix = 1 := mul_eq_one_comm.1 hx1
    have hn : a.toMatrix.transpose.mulVec (fun i => (∑ j, a.get i j * y j) - b.get i) = 0 := by
      have h1 : (fun i => (∑ j, a.get i j * y j) - b.get i) = a.toMatrix.mulVec y - b.get := rfl
      rw [h1, Matrix.mulVec_sub, Matrix.mulVec_mulVec, hy, Matrix.mulVec_mulVec, hG, Matrix.one_mulVec, sub_self]
    have hsplit : ∀ i, (∑ j, a.get i j * z j) - b.get i =
        ((∑ j, a.get i j * y j) - b.get i) + ∑ j, a.get i j * (z j - y j) := by
      intro i
      simp only [mul_sub, Finset.sum_sub_distrib]; ring
    have hcross : ∑ i, ((∑ j, a.get i j * y j) - b.get i) * ∑ j, a.get i j * (z j - y j) = 0 := by
      have h2 : ∑ i, ((∑ j, a.get i j * y j) - b.get i) * ∑ j, a.get i j * (z j - y j) =
          (fun i => (∑ j, a.get i j * y j) - b.get i) ⬝ᵥ a.toMatrix.mulVec (z - y) := rfl
      rw [h2, Matrix.dotProduct_mulVec, ← Matrix.mulVec_transpose, hn, zero_dotProduct]
    have hexp : ∑ i, ((∑ j, a.get i j * z j) - b.get i) ^ 2 = ∑ i, ((∑ j, a.get i j * y j) - b.get i) ^ 2 +
        2 * ∑ i, ((∑ j, a.get i j * y j) - b.get i) * (∑ j, a.get i j * (z j - y j)) +
        ∑ i, (∑ j, a.get i j * (z j - y j)) ^ 2 := by
      rw [Finset.mul_sum, ← Finset.sum_add_distrib, ← Finset.sum_add_distrib]
      exact Finset.sum_congr rfl fun i _ => by rw [hsplit i]; ring
    rw [hexp, hcross, mul_zero, add_zero]
    exact le_add_of_nonneg_right (Finset.sum_nonneg fun _ _ => sq_nonneg _)

include hO in
/-- C81: over an ordered field a strictly diagonally dominant matrix has its inverse found, at every size. -/
theorem C81_diagonally_dominant (k : Nat) (a : Mat T (k + 1) (k + 1))
    (hdom : ∀ i, ∑ j ∈ Finset.univ.filter (· ≠ i), |a.toMatrix i j| < |a.toMatrix i i|) :
    ∃ x, a.inverse t O k = .ok (some x) ∧ x.toMatrix * a.toMatrix = 1 := by
  apply found_of_good hO
  apply good_of_lead
  intro l hl h0
  obtain ⟨v, hv, hz⟩ := Matrix.exists_mulVec_eq_zero_iff.2 h0
  obtain ⟨i0, hi0⟩ := Function.ne_iff.1 hv
  obtain ⟨m, -, hm⟩ := Finset.exists_max_image Finset.univ (fun i => |v i|) ⟨i0, Finset.mem_univ _⟩
  have hmpos : 0 < |v m| := lt_of_lt_of_le (abs_pos.2 hi0) (hm i0 (Finset.mem_univ _))
  have hrow : ∑ j, a.toMatrix (Fin.castLE hl m) (Fin.castLE hl j) * v j = 0 := congrFun hz m
  rw [← Finset.add_sum_erase _ _ (Finset.mem_univ m)] at hrow
  have hsub : ∑ j ∈ Finset.univ.erase m, |a.toMatrix (Fin.castLE hl m) (Fin.castLE hl j)| ≤
      ∑ j ∈ Finset.univ.filter (· ≠ Fin.castLE hl m), |a.toMatrix (Fin.castLE hl m) j| := by
    have hinj : Function.Injective (Fin.castLE hl) := Fin.castLE_injective hl
    rw [← Finset.sum_image (s := Finset.univ.erase m) (g := Fin.castLE hl) (f := fun j => |a.toMatrix (Fin.castLE hl m) j|)
      (fun x _ y _ h => hinj h)]
    apply Finset.sum_le_sum_of_subset_of_nonneg
    · intro x hx
      obtain ⟨y, hy, rfl⟩ := Finset.mem_image.1 hx
      rw [Finset.mem_filter]
      exact ⟨Finset.mem_univ _, fun h => (Finset.mem_erase.1 hy).1 (hinj h)⟩
    · intro _ _ _; exact abs_nonneg _
  have h1 : |a.toMatrix (Fin.castLE hl m) (Fin.castLE hl m)| * |v m| ≤
      (∑ j ∈ Finset.univ.erase m, |a.toMatrix (Fin.castLE hl m) (Fin.castLE hl j)|) * |v m| := by
    rw [← abs_mul, eq_neg_of_add_eq_zero_left hrow, abs_neg, Finset.sum_mul]
    refine (Finset.abs_sum_le_sum_abs _ _).trans (Finset.sum_le_sum fun j _ => ?_)
    rw [abs_mul]
    exact mul_le_mul_of_nonneg_left (hm j (Finset.mem_univ _)) (abs_nonneg _)
  exact absurd (le_of_mul_le_mul_right h1 hmpos) (not_le.2 (lt_of_le_of_lt hsub (hdom _)))

end ordered

/-! Concrete cases. -/

section cases
/-- A 64-bit debug build. -/
def dbg64 : Target := ⟨true, true, 2 ^ 64⟩

/-- `7` on the diagonal, small entries elsewhere; not symmetric. -/
def domEx : Matrix (Fin 4) (Fin 4) ℚ := !![7, 1, -2, 3; 0, 7, 1, 5; -1, -1, 7, 2; 3, 3, 0, -7]

example : ∃ x, (Mat.ofMatrix domEx).inverse dbg64 (Ops.exact ℚ) 3 = .ok (some x) ∧ x.toMatrix * domEx = 1 := by
  have := C81_diagonally_dominant (Ops.exact_isField ℚ) dbg64 3 (Mat.ofMatrix domEx) (by
    rw [Mat.toMatrix_ofMatrix]
    decide +kernel)
  rwa [Mat.toMatrix_ofMatrix] at this

example (k : Nat) : ∃ x, (Mat.ofMatrix (3 : Matrix (Fin (k + 1)) (Fin (k + 1)) ℚ)).inverse dbg64 (Ops.exact ℚ) k = .ok (some x) ∧
    x.toMatrix * (3 : Matrix (Fin (k + 1)) (Fin (k + 1)) ℚ) = 1 := by
  have := C81_positive_definite (Ops.exact_isField ℚ) dbg64 k (Mat.ofMatrix (3 : Matrix (Fin (k + 1)) (Fin (k + 1)) ℚ)) (by
    intro v hv
    rw [Mat.toMatrix_ofMatrix]
    have e : ∀ i : Fin (k + 1), ∑ j, (3 : Matrix (Fin (k + 1)) (Fin (k + 1)) ℚ) i j * v j = 3 * v i := by
      intro i
      have : ((3 : Matrix (Fin (k + 1)) (Fin (k + 1)) ℚ).mulVec v) i = 3 * v i := by
        rw [show (3 : Matrix (Fin (k + 1)) (Fin (k + 1)) ℚ) = (3 : ℚ) • 1 by ext i j; simp [Matrix.one_apply, Matrix.ofNat_apply], Matrix.smul_mulVec, Matrix.one_mulVec]
        rfl
      exact this
    simp only [e]
    obtain ⟨i0, hi0⟩ := Function.ne_iff.1 hv
    refine Finset.sum_pos' (fun i _ => by nlinarith [mul_self_nonneg (v i)]) ⟨i0, Finset.mem_univ _, ?_⟩
    have : 0 < v i0 * v i0 := mul_self_pos.2 hi0
    linarith)
  rwa [Mat.toMatrix_ofMatrix] at this

/-! `C81_least_squares`: the columns `(1, 1, 1)` and `(0, 1, 2)` are linearly independent (fitting a line). -/
example (v : Fin 2 → ℚ)
    (h : ∀ i, ∑ j, (⟨⟨[⟨[1, 0], rfl⟩, ⟨[1, 1], rfl⟩, ⟨[1, 2], rfl⟩], rfl⟩⟩ : Mat ℚ 3 2).get i j * v j = 0) : v = 0 := by
  have h0 : (1 : ℚ) * v 0 + 0 * v 1 = 0 := (Fin.sum_univ_two _).symm.trans (h 0)
  have h1 : (1 : ℚ) * v 0 + 1 * v 1 = 0 := (Fin.sum_univ_two _).symm.trans (h 1)
  funext i
  fin_cases i
  · change v 0 = 0; linarith
  · change v 1 = 0; linarith

/-- Lower triangular, no zero on the diagonal. -/
def lowEx : Matrix (Fin 4) (Fin 4) ℚ := !![1, 0, 0, 0; 5, 2, 0, 0; 0, 1, 3, 0; 1, 1, 1, 4]

/-- Upper triangular, a zero on the diagonal. -/
def upEx : Matrix (Fin 4) (Fin 4) ℚ := !![1, 9, 0, 0; 0, 2, 0, 0; 0, 0, 0, 1; 0, 0, 0, 4]

example : ∃ x, (Mat.ofMatrix lowEx).inverse dbg64 (Ops.exact ℚ) 3 = .ok (some x) :=
  (C81_lower (Ops.exact_isField ℚ) dbg64 3 _ (by rw [Mat.toMatrix_ofMatrix]; intro i j; fin_cases i <;> fin_cases j <;> decide +kernel)).2
    (by rw [Mat.toMatrix_ofMatrix]; decide +kernel)

example : ¬ ∃ x, (Mat.ofMatrix upEx).inverse dbg64 (Ops.exact ℚ) 3 = .ok (some x) :=
  fun h => absurd ((C81_upper (Ops.exact_isField ℚ) dbg64 3 _ (by rw [Mat.toMatrix_ofMatrix]; intro i j; fin_cases i <;> fin_cases j <;> decide +kernel)).1 h)
    (by rw [Mat.toMatrix_ofMatrix]; decide +kernel)

/-- The inverse of `[[2, 1], [7, 4]]` is found and has determinant 1. -/
example : (⟨⟨[⟨[4, -1], rfl⟩, ⟨[-7, 2], rfl⟩], rfl⟩⟩ : Mat ℚ 2 2).determinant dbg64 (Ops.exact ℚ) 1 = .ok 1⁻¹ :=
  (C80_determinant (Ops.exact_isField ℚ) dbg64 1 (by decide) ⟨⟨[⟨[2, 1], rfl⟩, ⟨[7, 4], rfl⟩], rfl⟩⟩ _ 1 inverse_ex (by
    rw [C48_determinant (Ops.exact_isField ℚ) dbg64 1 _ (by decide)]
    exact congrArg Except.ok (by decide +kernel))).2

example : (⟨⟨[⟨[4, -1], rfl⟩, ⟨[-7, 2], rfl⟩], rfl⟩⟩ : Mat ℚ 2 2).inverse dbg64 (Ops.exact ℚ) 1 =
    .ok (some ⟨⟨[⟨[2, 1], rfl⟩, ⟨[7, 4], rfl⟩], rfl⟩⟩) :=
  C80_twice_small (Ops.exact_isField ℚ) dbg64 1 (by omega) ⟨⟨[⟨[2, 1], rfl⟩, ⟨[7, 4], rfl⟩], rfl⟩⟩ _ inverse_ex

end cases

end Rowcol
