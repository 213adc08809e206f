import Verif.Lemmas.Elim
import Verif.Props.Shape
import Mathlib.Tactic.Ring
import Mathlib.Tactic.LinearCombination

/-! # C48-C54: determinant and cofactor

`a.toMatrix` is the Mathlib matrix with entries `a.get i j`; `Matrix.det` is Mathlib's Leibniz determinant
(`C48_leibniz` spells the formula out). -/

namespace Rowcol

variable {T : Type} {n : Nat}

/-! ## Sizes 1, 2, 3 over a commutative ring -/

section ring
variable [CommRing T] {O : Ops T} (hO : O.IsRing)
include hO

omit hO in
theorem det1_eq (t : Target) (a : Mat T 1 1) : a.det1 t = .ok a.toMatrix.det := by
  rw [Mat.det1, Mat.idxStatic_ok t a (by omega) (by omega), Matrix.det_fin_one]; rfl

theorem det2_eq (t : Target) (a : Mat T 2 2) : a.det2 t O = .ok a.toMatrix.det := by
  simp only [Mat.det2, Mat.idxStatic_ok t a (show 0 < 2 by omega) (show 0 < 2 by omega),
    Mat.idxStatic_ok t a (show 0 < 2 by omega) (show 1 < 2 by omega),
    Mat.idxStatic_ok t a (show 1 < 2 by omega) (show 0 < 2 by omega),
    Mat.idxStatic_ok t a (show 1 < 2 by omega) (show 1 < 2 by omega), res_ok_bind, hO.mul, hO.sub, Matrix.det_fin_two,
    Mat.toMatrix_apply]
  congr 1
  simp only [Fin.mk_zero, Fin.mk_one]
  ring

theorem det3Term_eq (t : Target) (a : Mat T 3 3) (i j k : Fin 3) :
    a.det3Term t O i j k = .ok (a.get 0 i * a.get 1 j * a.get 2 k) := by
  simp only [Mat.det3Term, Mat.idxStatic_ok t a (show 0 < 3 by omega) i.isLt,
    Mat.idxStatic_ok t a (show 1 < 3 by omega) j.isLt,
    Mat.idxStatic_ok t a (show 2 < 3 by omega) k.isLt, res_ok_bind, hO.mul]
  rfl

theorem det3_eq (t : Target) (a : Mat T 3 3) : a.det3 t O = .ok a.toMatrix.det := by
  have h := fun i j k => det3Term_eq hO t a i j k
  have h1 := h 0 1 2
  have h2 := h 1 2 0
  have h3 := h 2 0 1
  have h4 := h 2 1 0
  have h5 := h 1 0 2
  have h6 := h 0 2 1
  simp only [Fin.val_zero, Fin.val_one, Fin.val_two] at h1 h2 h3 h4 h5 h6
  unfold Mat.det3
  rw [h1, h2, h3, h4, h5, h6]
  simp only [res_ok_bind, hO.add, hO.sub, Matrix.det_fin_three, Mat.toMatrix_apply]
  congr 1
  ring

/-- C50: for sizes 1, 2, 3 over any commutative ring `determinant()` is the determinant and never panics; only the
ring operations are constrained, so no division or zero test is used. -/
theorem C50_small (t : Target) (k : Nat) (hk : k < 3) (a : Mat T (k + 1) (k + 1)) :
    a.determinant t O k = .ok a.toMatrix.det := by
  match k, hk with
  | 0, _ => exact det1_eq t a
  | 1, _ => exact det2_eq hO t a
  | 2, _ => exact det3_eq hO t a

end ring

example : (⟨⟨[⟨[1, 2, 3], rfl⟩, ⟨[4, 5, 6], rfl⟩, ⟨[7, 8, 10], rfl⟩], rfl⟩⟩ : Mat Int 3 3).determinant
    ⟨true, true, 2 ^ 64⟩ Ops.int 2 = .ok (-3) := rfl

/-! ## Cofactors -/

theorem fin_sum_foldlM [CommRing T] {O : Ops T} (hO : O.IsRing) (n : Nat) (p : Nat → Res T) (f : Fin n → T)
    (h : ∀ i : Fin n, p i = .ok (f i)) :
    (List.range n).foldlM (fun acc i => do
      let x ← p i
      O.add acc x) O.zero = .ok (∑ i, f i) := by
  have key : ∀ (l : List (Fin n)) (x : T), (l.map Fin.val).foldlM (fun acc i => do
      let x ← p i
      O.add acc x) x = .ok (x + (l.map f).sum) := by
    intro l
    induction l with
    | nil => intro x; simp
    | cons a as ih =>
      intro x
      rw [List.map_cons, List.foldlM_cons, h, res_ok_bind, hO.add, res_ok_bind, ih]; simp [add_assoc]
  rw [Vec.range_eq, key, hO.zero, zero_add, Fin.sum_univ_def]

theorem cofGen_eq [CommRing T] {O : Ops T} (hO : O.IsRing) (t : Target) (det : Mat T n n → Res T)
    (hdet : ∀ b, det b = .ok b.toMatrix.det) (a : Mat T (n + 1) (n + 1)) (i j : Fin (n + 1)) (hn : n + 1 < t.W)
    (hij : i.val + j.val < t.W) :
    Mat.cofGen t O det a (i, j) =
      .ok ((-1) ^ (i.val + j.val) * (a.toMatrix.submatrix i.succAbove j.succAbove).det) := by
  unfold Mat.cofGen
  simp only [i.isLt, j.isLt, and_self, if_true, minor_eq t a i j hn, cofSign_eq hO t i j hij, res_ok_bind, hdet,
    Mat.toMatrix_ofMatrix, hO.mul]

theorem detGen_eq [Field T] {O : Ops T} (hO : O.IsField) (t : Target) (det : Mat T n n → Res T)
    (hdet : ∀ b, det b = .ok b.toMatrix.det) (a : Mat T (n + 1) (n + 1)) (hn : n + 1 < t.W) :
    Mat.detGen t O (Mat.cofGen t O det a) a = .ok a.toMatrix.det := by
  unfold Mat.detGen
  rw [Mat.clone_ok, res_ok_bind]
  have ha := (Mat.ofMatrix_toMatrix a).symm
  rcases elimAll_spec hO (n + 1) 0 (by omega) a.toMatrix (fun a b h => absurd h (by omega)) with h | ⟨M', h1, h2, h3⟩
  · rw [Mat.ofMatrix_toMatrix, ← List.range_eq_range'] at h
    rw [h, res_ok_bind]
    simp only
    rw [Matrix.det_succ_column_zero]
    have := fin_sum_foldlM hO.toIsRing (n + 1) (fun i => do
        O.mul (← a.index (i, 0)) (← Mat.cofGen t O det a (i, 0)))
      (fun i => (-1) ^ i.val * a.toMatrix i 0 * (a.toMatrix.submatrix i.succAbove Fin.succ).det) (by
        intro i
        have hc := cofGen_eq hO.toIsRing t det hdet a i 0 hn (by simp; omega)
        simp only [Fin.val_zero] at hc
        simp only [Mat.index_ok a i.isLt (show 0 < n + 1 by omega), res_ok_bind, hc, hO.mul, Nat.add_zero]
        congr 1
        simp only [Fin.eta, Fin.zero_eta, Mat.toMatrix_apply, Fin.succAbove_zero]
        ring)
    simp only [bind_assoc] at this
    exact this
  · rw [Mat.ofMatrix_toMatrix, ← List.range_eq_range'] at h1
    rw [h1, res_ok_bind]
    simp only
    rw [diagProd_eq hO.toIsRing, ← h2, Matrix.det_of_isUpperTriangular]
    intro i j hij
    exact h3 i j hij

/-! ## C48 -/

/-- C48: for every size `k + 1` and every matrix over a field, `determinant()` returns the determinant; in particular
it never panics, whether or not the elimination meets a zero pivot. -/
theorem C48_determinant [Field T] {O : Ops T} (hO : O.IsField) (t : Target) (k : Nat) (a : Mat T (k + 1) (k + 1))
    (hk : k + 1 < t.W) : a.determinant t O k = .ok a.toMatrix.det := by
  induction k with
  | zero => exact det1_eq t a
  | succ k ih =>
    match k, ih with
    | 0, _ => exact det2_eq hO.toIsRing t a
    | 1, _ => exact det3_eq hO.toIsRing t a
    | k + 2, ih => exact detGen_eq hO t _ (fun b => ih b (by omega)) a hk

/-- C48, with the Leibniz formula spelled out. -/
theorem C48_leibniz [Field T] {O : Ops T} (hO : O.IsField) (t : Target) (k : Nat) (a : Mat T (k + 1) (k + 1))
    (hk : k + 1 < t.W) :
    a.determinant t O k = .ok (∑ σ : Equiv.Perm (Fin (k + 1)), (Equiv.Perm.sign σ : ℤ) * ∏ i, a.get (σ i) i) := by
  rw [C48_determinant hO t k a hk, Matrix.det_apply']; rfl

/-- A matrix on which the elimination meets a zero pivot and falls back to the expansion. -/
def swapped4 (K : Type) [Field K] : Mat K 4 4 :=
  Mat.ofFn fun i j => if (i = 0 ∧ j = 1) ∨ (i = 1 ∧ j = 0) ∨ (i = j ∧ 2 ≤ i.val) then 1 else 0

example : Mat.elimAll (Ops.exact ℚ) (List.range 4) (swapped4 ℚ) = .ok none ∧
    (swapped4 ℚ).determinant ⟨true, true, 2 ^ 64⟩ (Ops.exact ℚ) 3 = .ok (-1) := by
  refine ⟨by rfl, ?_⟩
  rw [C48_determinant (Ops.exact_isField ℚ) _ 3 _ (by decide)]
  congr 1
  simp [Matrix.det_succ_row_zero, Fin.sum_univ_succ, swapped4]
  decide

/-! ## C49 -/

section laws
variable [Field T] {O : Ops T} (hO : O.IsField) (t : Target) (k : Nat) (hk : k + 1 < t.W)
include hO hk

/-- C49: `(a * b).determinant() == a.determinant() * b.determinant()`. -/
theorem C49_mul (a b p : Mat T (k + 1) (k + 1)) (da db : T) (hp : a.mulVV t O b = .ok p)
    (ha : a.determinant t O k = .ok da) (hb : b.determinant t O k = .ok db) :
    p.determinant t O k = .ok (da * db) := by
  rw [C48_determinant hO t k _ hk] at *
  rw [mulVV_eq hO.toIsSemiring t a b hk hk hk] at hp
  obtain rfl := Except.ok.inj hp
  obtain rfl := Except.ok.inj ha
  obtain rfl := Except.ok.inj hb
  rw [Mat.toMatrix_ofMatrix, Matrix.det_mul]

/-- C49: transposing does not change the determinant. -/
theorem C49_transposed (a b : Mat T (k + 1) (k + 1)) (h : a.transposed t = .ok b) :
    b.determinant t O k = a.determinant t O k := by
  rw [transposed_eq t a hk] at h
  obtain rfl := Except.ok.inj h
  rw [C48_determinant hO t k _ hk, C48_determinant hO t k _ hk, Mat.toMatrix_ofMatrix, Matrix.det_transpose]

/-- C49: the identity has determinant one. -/
theorem C49_identity (e : Mat T (k + 1) (k + 1)) (h : Mat.identity t O (k + 1) = .ok e) :
    e.determinant t O k = .ok 1 := by
  rw [identity_eq hO.toIsSemiring] at h
  obtain rfl := Except.ok.inj h
  rw [C48_determinant hO t k _ hk, Mat.toMatrix_ofMatrix, Matrix.det_one]

/-- C49: multiplying a matrix of size `N` by `s` multiplies the determinant by `s ^ N`. -/
theorem C49_scalar (a b : Mat T (k + 1) (k + 1)) (s da : T) (h : a.mulScalar t O.mul s = .ok b)
    (ha : a.determinant t O k = .ok da) : b.determinant t O k = .ok (s ^ (k + 1) * da) := by
  rw [C48_determinant hO t k _ hk] at *
  rw [matSmul' hO.toIsSemiring] at h
  obtain rfl := Except.ok.inj h
  obtain rfl := Except.ok.inj ha
  rw [Mat.toMatrix_ofMatrix, Matrix.det_mul, Matrix.scalar_apply, Matrix.det_diagonal]
  simp [mul_comm]

/-- C49: two equal rows make the determinant zero. -/
theorem C49_equal_rows (a : Mat T (k + 1) (k + 1)) (i j : Fin (k + 1)) (hij : i ≠ j) (h : ∀ x, a.get i x = a.get j x) :
    a.determinant t O k = .ok 0 := by
  rw [C48_determinant hO t k _ hk, Matrix.det_zero_of_row_eq (M := a.toMatrix) hij (funext h)]

end laws

/-! ## C51 -/

/-- A 4x4 integer matrix of determinant 3. -/
def intBad : Mat Int 4 4 := Mat.ofFn ![![2, 1, 0, 0], ![1, 2, 0, 0], ![0, 0, 1, 0], ![0, 0, 0, 1]]

/-- C51 does not hold: for integers the elimination's truncating division gives 4 instead of 3. -/
theorem C51_false : intBad.determinant ⟨true, true, 2 ^ 64⟩ Ops.int 3 = .ok 4 ∧ intBad.toMatrix.det = 3 := by
  refine ⟨by rfl, ?_⟩
  have : intBad.toMatrix = !![2, 1, 0, 0; 1, 2, 0, 0; 0, 0, 1, 0; 0, 0, 0, 1] := by
    ext i j; fin_cases i <;> fin_cases j <;> rfl
  rw [this]
  simp [Matrix.det_succ_row_zero, Fin.sum_univ_succ, Fin.succAbove]

/-- C51, the part that holds: sizes up to 3.  Missing: sizes from 4, where the claim is false (`C51_false`). -/
theorem C51_small_partial (t : Target) (k : Nat) (hk : k < 3) (a : Mat Int (k + 1) (k + 1)) :
    a.determinant t Ops.int k = .ok a.toMatrix.det := C50_small Ops.int_isRing t k hk a

/-! ## C53 -/

/-- C53 for sizes up to 4 over any commutative ring: `cofactor((i, j))` is `(-1)^(i+j)` times the determinant of the
matrix without row `i` and column `j`. -/
theorem C53_cofactor_ring [CommRing T] {O : Ops T} (hO : O.IsRing) (t : Target) (k : Nat) (hk3 : k < 3)
    (a : Mat T (k + 2) (k + 2)) (i j : Fin (k + 2)) (hk : k + 2 < t.W) (hij : i.val + j.val < t.W) :
    a.cofactor t O k (i, j) = .ok ((-1) ^ (i.val + j.val) * (a.toMatrix.submatrix i.succAbove j.succAbove).det) := by
  match k, hk3 with
  | 0, _ =>
    have hi : 1 - i.val < 2 := by omega
    have hj : 1 - j.val < 2 := by omega
    simp only [Mat.cofactor, Mat.cof2, cofSign_eq hO t i j hij, res_ok_bind,
      usub_ok t (show i.val ≤ 1 by omega), usub_ok t (show j.val ≤ 1 by omega), Mat.index_ok a hi hj, hO.mul]
    congr 2
    have e : ∀ i : Fin 2, (⟨1 - i.val, by omega⟩ : Fin 2) = i.succAbove (0 : Fin 1) := by
      intro i; match i with | 0 => rfl | 1 => rfl
    rw [e i, e j]
    exact (Matrix.det_fin_one (a.toMatrix.submatrix i.succAbove j.succAbove)).symm
  | 1, _ =>
    simp only [Mat.cofactor, Mat.cof3, i.isLt, j.isLt, and_self, if_true, cofSign_eq hO t i j hij, res_ok_bind,
      minor_eq t a i j hk, det2_eq hO, Mat.toMatrix_ofMatrix, hO.mul]
  | 2, _ => exact cofGen_eq hO t _ (fun b => C50_small hO t 2 (by omega) b) a i j hk hij

/-- C53: the same for every size over a field. -/
theorem C53_cofactor [Field T] {O : Ops T} (hO : O.IsField) (t : Target) (k : Nat)
    (a : Mat T (k + 2) (k + 2)) (i j : Fin (k + 2)) (hk : k + 2 < t.W) (hij : i.val + j.val < t.W) :
    a.cofactor t O k (i, j) = .ok ((-1) ^ (i.val + j.val) * (a.toMatrix.submatrix i.succAbove j.succAbove).det) := by
  match k with
  | 0 => exact C53_cofactor_ring hO.toIsRing t 0 (by omega) a i j hk hij
  | 1 => exact C53_cofactor_ring hO.toIsRing t 1 (by omega) a i j hk hij
  | k + 2 => exact cofGen_eq hO.toIsRing t _ (fun b => C48_determinant hO t _ b (by omega)) a i j hk hij

/-- C53: the minor in terms of the API: its determinant is what `determinant()` returns for the matrix built from
the entries outside row `i` and column `j`. -/
theorem C53_minor [Field T] {O : Ops T} (hO : O.IsField) (t : Target) (k : Nat)
    (a : Mat T (k + 2) (k + 2)) (i j : Fin (k + 2)) (hk : k + 2 < t.W) (hij : i.val + j.val < t.W)
    (b : Mat T (k + 1) (k + 1)) (hb : ∀ x y : Fin (k + 1), b.get x y =
      a.get ⟨if x.val < i.val then x else x + 1, by split <;> omega⟩ ⟨if y.val < j.val then y else y + 1, by split <;> omega⟩)
    (d : T) (hd : b.determinant t O k = .ok d) : a.cofactor t O k (i, j) = .ok ((-1) ^ (i.val + j.val) * d) := by
  rw [C48_determinant hO t k b (by omega)] at hd
  rw [C53_cofactor hO t k a i j hk hij, ← Except.ok.inj hd]
  congr 3
  ext x y
  rw [Mat.toMatrix_apply, hb]
  simp only [Matrix.submatrix_apply, Mat.toMatrix_apply]
  have e : ∀ (i : Fin (k + 2)) (x : Fin (k + 1)), i.succAbove x = ⟨if x.val < i.val then x else x + 1, by split <;> omega⟩ := by
    intro i x
    apply Fin.ext
    simp only [Fin.succAbove, Fin.lt_def, Fin.val_castSucc]
    split <;> simp
  rw [e i, e j]

/-- C53: Laplace expansion along any row. -/
theorem C53_laplace_row [Field T] {O : Ops T} (hO : O.IsField) (t : Target) (k : Nat)
    (a : Mat T (k + 2) (k + 2)) (i : Fin (k + 2)) (hk : 2 * (k + 2) < t.W) (c : Fin (k + 2) → T)
    (hc : ∀ j, a.cofactor t O k (i.val, j.val) = .ok (c j)) :
    a.determinant t O (k + 1) = .ok (∑ j, a.get i j * c j) := by
  rw [C48_determinant hO t _ a (by omega), Matrix.det_succ_row _ i]
  congr 1
  apply Finset.sum_congr rfl; intro j _
  have := hc j
  rw [C53_cofactor hO t k a i j (by omega) (by omega)] at this
  rw [← Except.ok.inj this, Mat.toMatrix_apply]; ring

/-- C53: Laplace expansion along any column. -/
theorem C53_laplace_column [Field T] {O : Ops T} (hO : O.IsField) (t : Target) (k : Nat)
    (a : Mat T (k + 2) (k + 2)) (j : Fin (k + 2)) (hk : 2 * (k + 2) < t.W) (c : Fin (k + 2) → T)
    (hc : ∀ i, a.cofactor t O k (i.val, j.val) = .ok (c i)) :
    a.determinant t O (k + 1) = .ok (∑ i, a.get i j * c i) := by
  rw [C48_determinant hO t _ a (by omega), Matrix.det_succ_column _ j]
  congr 1
  apply Finset.sum_congr rfl; intro i _
  have := hc i
  rw [C53_cofactor hO t k a i j (by omega) (by omega)] at this
  rw [← Except.ok.inj this, Mat.toMatrix_apply]; ring

/-- C53: expansion with the cofactors of another row gives zero (the adjugate identity). -/
theorem C53_alien_row [Field T] {O : Ops T} (hO : O.IsField) (t : Target) (k : Nat)
    (a : Mat T (k + 2) (k + 2)) (i i' : Fin (k + 2)) (hii : i ≠ i') (hk : 2 * (k + 2) < t.W) (c : Fin (k + 2) → T)
    (hc : ∀ j, a.cofactor t O k (i'.val, j.val) = .ok (c j)) : ∑ j, a.get i j * c j = 0 := by
  have e : ∀ j, c j = a.toMatrix.adjugate j i' := by
    intro j
    have := hc j
    rw [C53_cofactor hO t k a i' j (by omega) (by omega)] at this
    rw [← Except.ok.inj this, Matrix.adjugate_fin_succ_eq_det_submatrix]
  simp only [e]
  have h := congrFun (congrFun (Matrix.mul_adjugate a.toMatrix) i) i'
  rw [Matrix.mul_apply] at h
  simp only [Mat.toMatrix_apply] at h
  rw [h]
  simp [hii]

example : (⟨⟨[⟨[1, 2, 3], rfl⟩, ⟨[4, 5, 6], rfl⟩, ⟨[7, 8, 10], rfl⟩], rfl⟩⟩ : Mat Int 3 3).cofactor
    ⟨true, true, 2 ^ 64⟩ Ops.int 1 (1, 2) = .ok 6 := rfl

/-! ## C54 -/

/-- C54: an out-of-range index makes `cofactor` panic, for every size, build mode and element type (the element
type's own negation is assumed not to commit an invalid access). -/
theorem C54_out_of_range (t : Target) (O : Ops T) (k : Nat) (a : Mat T (k + 2) (k + 2)) (i j : Nat) (hi : i < t.W)
    (hj : j < t.W) (h : k + 2 ≤ i ∨ k + 2 ≤ j) (hneg : O.neg O.one ≠ .error .ub) :
    a.cofactor t O k (i, j) = .error .panic := by
  have gen : ∀ {n : Nat} (i j : Nat), (n + 1 ≤ i ∨ n + 1 ≤ j) → ¬ (i < n + 1 ∧ j < n + 1) := by intros; omega
  match k with
  | 0 =>
    have hs : (∃ s, Mat.cofSign t O i j = .ok s) ∨ Mat.cofSign t O i j = .error .panic := by
      have hu : (∃ s, uadd t i j = .ok s) ∨ uadd t i j = .error .panic := by
        unfold uadd; split
        · exact Or.inl ⟨_, rfl⟩
        · split
          · exact Or.inr rfl
          · exact Or.inl ⟨_, rfl⟩
      unfold Mat.cofSign
      rcases hu with ⟨s, hu⟩ | hu
      · rw [hu, res_ok_bind]
        split
        · exact Or.inl ⟨_, rfl⟩
        · cases hn : O.neg O.one with
          | ok x => exact Or.inl ⟨x, rfl⟩
          | error e => cases e with
            | panic => exact Or.inr rfl
            | ub => exact absurd hn hneg
      · rw [hu]; exact Or.inr rfl
    have hb : ∀ x, x < t.W → (∃ y, usub t 1 x = .ok y ∧ (2 ≤ x → 2 ≤ y)) ∨ usub t 1 x = .error .panic := by
      intro x hx
      unfold usub; split
      · exact Or.inl ⟨_, rfl, by omega⟩
      · split
        · exact Or.inr rfl
        · exact Or.inl ⟨_, rfl, by omega⟩
    simp only [Mat.cofactor, Mat.cof2]
    rcases hs with ⟨s, hs⟩ | hs
    · rw [hs, res_ok_bind]
      rcases hb i hi with ⟨i', hi', hi2⟩ | hi'
      · rw [hi', res_ok_bind]
        rcases hb j hj with ⟨j', hj', hj2⟩ | hj'
        · rw [hj', res_ok_bind, Mat.index_panic a (i := i') (j := j') (by omega)]; rfl
        · rw [hj']; rfl
      · rw [hi']; rfl
    · rw [hs]; rfl
  | 1 => simp only [Mat.cofactor, Mat.cof3, gen i j h, if_false]
  | k + 2 => simp only [Mat.cofactor, Mat.cofGen, gen i j h, if_false]

example : (⟨⟨[⟨[1, 2], rfl⟩, ⟨[3, 4], rfl⟩], rfl⟩⟩ : Mat Int 2 2).cofactor
    ⟨false, false, 2 ^ 64⟩ Ops.int 0 (2 ^ 64 - 1, 0) = .error .panic := rfl

end Rowcol
