import Verif.Lemmas.Mul
import Verif.Props.Products
import Mathlib.Analysis.InnerProductSpace.PiL2

/-! # C25: `norm` and `normalized` over the reals -/

namespace Rowcol

variable {n : Nat}

/-- The vector as a point of Euclidean space (Mathlib). -/
noncomputable def Vec.toEuclidean (v : Vec ℝ n) : EuclideanSpace ℝ (Fin n) := WithLp.toLp 2 v.get

/-- Exact `Float` methods on the reals: `sqrt` is the real square root, `powi` the integer power. -/
noncomputable def realPowi (x : ℝ) (k : Int) : ℝ := x ^ k

theorem foldlM_powi {O : Ops ℝ} (hO : O.IsField) (v : Vec ℝ n) :
    (v.toList.map fun x => realPowi x 2).foldlM O.add O.zero = .ok (∑ i, v.get i ^ 2) := by
  rw [foldlM_add hO.toIsSemiring, hO.zero, zero_add, Vec.toList_eq, List.map_map, Fin.sum_univ_def]
  rfl

/-- C25: `norm` is the square root of the sum of the squares. -/
theorem C25_norm {O : Ops ℝ} (hO : O.IsField) (v : Vec ℝ n) :
    v.norm O Real.sqrt realPowi = .ok (Real.sqrt (∑ i, v.get i ^ 2)) := by
  rw [Vec.norm, foldlM_powi hO]; rfl

/-- C25: `norm` is the Euclidean norm. -/
theorem C25_norm_euclidean {O : Ops ℝ} (hO : O.IsField) (v : Vec ℝ n) :
    v.norm O Real.sqrt realPowi = .ok ‖v.toEuclidean‖ := by
  rw [C25_norm hO, EuclideanSpace.norm_eq]
  simp [Vec.toEuclidean]

/-- C25: `norm` is never negative and is zero exactly for the zero vector. -/
theorem C25_norm_zero {O : Ops ℝ} (hO : O.IsField) (v : Vec ℝ n) :
    ∃ x, v.norm O Real.sqrt realPowi = .ok x ∧ 0 ≤ x ∧ (x = 0 ↔ ∀ i, v.get i = 0) := by
  refine ⟨_, C25_norm hO v, Real.sqrt_nonneg _, ?_⟩
  rw [Real.sqrt_eq_zero (Finset.sum_nonneg fun i _ => sq_nonneg _),
    Finset.sum_eq_zero_iff_of_nonneg fun i _ => sq_nonneg _]
  simp

/-- C25: `(v * s).norm() = |s| * v.norm()`. -/
theorem C25_norm_homogeneous {O : Ops ℝ} (hO : O.IsField) (t : Target) (v : Vec ℝ n) (s : ℝ) :
    ∃ x, v.norm O Real.sqrt realPowi = .ok x ∧
      (do let w ← v.mulScalar t O.mul s; w.norm O Real.sqrt realPowi) = .ok (|s| * x) := by
  refine ⟨_, C25_norm hO v, ?_⟩
  have h : v.mulScalar t O.mul s = .ok (Vec.ofFn fun i => v.get i * s) :=
    (C19_vec_ok t O.mul (fun x => (.ok x : Res ℝ)) v s _).1.2 fun i => by rw [hO.mul, Vec.get_ofFn]
  rw [h]
  simp only [res_ok_bind, C25_norm hO, Vec.get_ofFn, mul_pow, ← Finset.sum_mul]
  rw [mul_comm |s|, Real.sqrt_mul (Finset.sum_nonneg fun i _ => sq_nonneg _), Real.sqrt_sq_eq_abs]

/-- C25: the triangle inequality `(v + w).norm() <= v.norm() + w.norm()`. -/
theorem C25_norm_triangle {O : Ops ℝ} (hO : O.IsField) (t : Target) (v w : Vec ℝ n) :
    ∃ x y z, v.norm O Real.sqrt realPowi = .ok x ∧ w.norm O Real.sqrt realPowi = .ok y ∧
      (do let u ← Vec.opVV t O.add v w; u.norm O Real.sqrt realPowi) = .ok z ∧ z ≤ x + y := by
  refine ⟨_, _, ‖v.toEuclidean + w.toEuclidean‖, C25_norm_euclidean hO v, C25_norm_euclidean hO w, ?_, norm_add_le _ _⟩
  have h : Vec.opVV t O.add v w = .ok (Vec.ofFn fun i => v.get i + w.get i) :=
    (C18_vec_ok t O.add _ (by simp [vecForms]) v w _).2 fun i => by rw [hO.add, Vec.get_ofFn]
  rw [h]
  simp only [res_ok_bind, C25_norm_euclidean hO]
  congr 2
  ext i
  simp [Vec.toEuclidean]

/-- C25: the Cauchy-Schwarz inequality `|v.dot(w)| <= v.norm() * w.norm()`, and `v.dot(v) = v.norm()^2`. -/
theorem C25_cauchy_schwarz {O : Ops ℝ} (hO : O.IsField) (v w : Vec ℝ n) :
    ∃ x y d q, v.norm O Real.sqrt realPowi = .ok x ∧ w.norm O Real.sqrt realPowi = .ok y ∧
      v.dot O w = .ok d ∧ v.dot O v = .ok q ∧ |d| ≤ x * y ∧ q = x ^ 2 := by
  refine ⟨_, _, _, _, C25_norm hO v, C25_norm hO w, C23_dot hO.toIsSemiring v w, C23_dot hO.toIsSemiring v v, ?_, ?_⟩
  · rw [← Real.sqrt_sq_eq_abs, ← Real.sqrt_mul (Finset.sum_nonneg fun i _ => sq_nonneg _)]
    exact Real.sqrt_le_sqrt (Finset.sum_mul_sq_le_sq_mul_sq _ _ _)
  · rw [Real.sq_sqrt (Finset.sum_nonneg fun i _ => sq_nonneg _)]
    exact Finset.sum_congr rfl fun i _ => (sq _).symm

/-- C25: for a non-zero vector `normalized` returns the vector divided by its norm: it has norm 1 and a positive
multiple of it is the original vector. -/
theorem C25_normalized {O : Ops ℝ} (hO : O.IsField) (t : Target) (v : Vec ℝ n) (h : ∃ i, v.get i ≠ 0) :
    ∃ w, v.normalized t O Real.sqrt realPowi = .ok w ∧ w.norm O Real.sqrt realPowi = .ok 1 ∧
      ∃ x > 0, v.norm O Real.sqrt realPowi = .ok x ∧ ∀ i, v.get i = x * w.get i := by
  obtain ⟨x, hx, h0, hz⟩ := C25_norm_zero hO v
  have hne : x ≠ 0 := fun e => by obtain ⟨i, hi⟩ := h; exact hi (hz.1 e i)
  have hs : x = Real.sqrt (∑ i, v.get i ^ 2) := Except.ok.inj (hx.symm.trans (C25_norm hO v))
  have hd : v.divScalar t O.div x = .ok (Vec.ofFn fun i => v.get i / x) :=
    (C19_vec_ok t O.div (fun x => (.ok x : Res ℝ)) v x _).2.1.2 fun i => by rw [hO.div _ _ hne, Vec.get_ofFn]
  refine ⟨Vec.ofFn fun i => v.get i / x, ?_, ?_, x, lt_of_le_of_ne h0 hne.symm, hx, fun i => ?_⟩
  · rw [Vec.normalized, Vec.clone_ok, hx]; exact hd
  · simp only [C25_norm hO, Vec.get_ofFn, div_pow, ← Finset.sum_div]
    rw [Real.sqrt_div' _ (sq_nonneg x), Real.sqrt_sq h0, ← hs, div_self hne]
  · rw [Vec.get_ofFn]; field_simp

/-- The zero vector has no direction: dividing it by its norm divides by zero, which panics in exact arithmetic
(and gives NaN in floating point), if there is anything to divide. -/
theorem C25_normalized_zero (t : Target) (v : Vec ℝ (n + 1)) (h : ∀ i, v.get i = 0) [DecidableEq ℝ] :
    v.normalized t (Ops.exact ℝ) Real.sqrt realPowi = .error .panic := by
  obtain ⟨x, hx, _, hz⟩ := C25_norm_zero (Ops.exact_isField ℝ) v
  obtain rfl := hz.2 h
  rw [Vec.normalized, Vec.clone_ok, hx]
  simp only [res_ok_bind, Vec.divScalar, Vec.toList_eq, List.map_map]
  refine (Vec.collect_finRange_error_iff t _ .panic).2 ⟨0, ?_, fun i hi => ?_⟩
  · simp [Ops.exact]
  · exact absurd hi (Nat.not_lt_zero _)

open Classical in
example : (⟨[3, 4], rfl⟩ : Vec ℝ 2).norm (Ops.exact ℝ) Real.sqrt realPowi = .ok 5 := by
  rw [C25_norm (Ops.exact_isField ℝ), Fin.sum_univ_two]
  have : ((3 : ℝ) ^ 2 + 4 ^ 2) = 5 ^ 2 := by norm_num
  simp only [Vec.get, Except.ok.injEq]
  show Real.sqrt ((3 : ℝ) ^ 2 + 4 ^ 2) = 5
  rw [this, Real.sqrt_sq (by norm_num)]

open Classical in
example (t : Target) : ∃ w, (⟨[3, 4], rfl⟩ : Vec ℝ 2).normalized t (Ops.exact ℝ) Real.sqrt realPowi = .ok w ∧
    w.norm (Ops.exact ℝ) Real.sqrt realPowi = .ok 1 := by
  obtain ⟨w, h, h1, _⟩ := C25_normalized (Ops.exact_isField ℝ) t (⟨[3, 4], rfl⟩ : Vec ℝ 2)
    ⟨0, by simp [Vec.get]⟩
  exact ⟨w, h, h1⟩

end Rowcol
