import Verif.Props.Det

/-! The Gauss-Jordan loops of `inverse()` as matrix operations. -/

namespace Rowcol

variable {T : Type} {n : Nat}

section ring
variable [CommRing T] {O : Ops T} (hO : O.IsRing)
include hO

theorem gjScale_eq (i : Fin n) (M B : Matrix (Fin n) (Fin n) T) (x : T) :
    Mat.gjScale O i x (Mat.ofMatrix M, Mat.ofMatrix B) =
      .ok (Mat.ofMatrix (M.updateRow i fun b => M i b * x), Mat.ofMatrix (B.updateRow i fun b => B i b * x)) := by
  have := foldlM_range (fun (s : Mat T n n × Mat T n n) j => do
    let y ← O.mul (← s.1.index (i.val, j)) x
    let mat ← s.1.indexSet (i.val, j) y
    let z ← O.mul (← s.2.index (i.val, j)) x
    let inv ← s.2.indexSet (i.val, j) z
    pure (mat, inv)) (fun k => (Mat.ofMatrix (rowState M i (fun b => M i b * x) k),
      Mat.ofMatrix (rowState B i (fun b => B i b * x) k))) n (by
      intro k hk
      have e1 := rowState_set M i (fun b => M i b * x) ⟨k, hk⟩
      have e2 := rowState_set B i (fun b => B i b * x) ⟨k, hk⟩
      have e3 := rowState_get_self M i (fun b => M i b * x) ⟨k, hk⟩
      have e4 := rowState_get_self B i (fun b => B i b * x) ⟨k, hk⟩
      simp only at e1 e2 e3 e4
      simp only [e3, e4, res_ok_bind, hO.mul, e1, e2]
      rfl)
  simp only [rowState_zero, rowState_end] at this
  exact this

theorem gjRow_eq (i j : Fin n) (hij : i ≠ j) (M B : Matrix (Fin n) (Fin n) T) (x : T) :
    Mat.gjRow O i j x (Mat.ofMatrix M, Mat.ofMatrix B) =
      .ok (Mat.ofMatrix (M.updateRow j fun b => M j b - M i b * x), Mat.ofMatrix (B.updateRow j fun b => B j b - B i b * x)) := by
  have := foldlM_range (fun (s : Mat T n n × Mat T n n) k => do
    let y ← O.sub (← s.1.index (j.val, k)) (← O.mul (← s.1.index (i.val, k)) x)
    let mat ← s.1.indexSet (j.val, k) y
    let z ← O.sub (← s.2.index (j.val, k)) (← O.mul (← s.2.index (i.val, k)) x)
    let inv ← s.2.indexSet (j.val, k) z
    pure (mat, inv)) (fun k => (Mat.ofMatrix (rowState M j (fun b => M j b - M i b * x) k),
      Mat.ofMatrix (rowState B j (fun b => B j b - B i b * x) k))) n (by
      intro k hk
      have e1 := rowState_set M j (fun b => M j b - M i b * x) ⟨k, hk⟩
      have e2 := rowState_set B j (fun b => B j b - B i b * x) ⟨k, hk⟩
      have e3 := rowState_get_self M j (fun b => M j b - M i b * x) ⟨k, hk⟩
      have e4 := rowState_get_self B j (fun b => B j b - B i b * x) ⟨k, hk⟩
      have e5 := rowState_get_ne M i j hij (fun b => M j b - M i b * x) ⟨k, hk⟩ ⟨k, hk⟩
      have e6 := rowState_get_ne B i j hij (fun b => B j b - B i b * x) ⟨k, hk⟩ ⟨k, hk⟩
      simp only at e1 e2 e3 e4 e5 e6
      simp only [e3, e4, e5, e6, res_ok_bind, hO.mul, hO.sub, e1, e2]
      rfl)
  simp only [rowState_zero, rowState_end] at this
  exact this

/-- The matrix after clearing column `i` in the first `k` rows. -/
def clearState (i : Fin n) (M X : Matrix (Fin n) (Fin n) T) (k : Nat) : Matrix (Fin n) (Fin n) T :=
  Matrix.of fun a b => if a.val < k ∧ a ≠ i then X a b - X i b * M a i else X a b

omit hO in
theorem clearState_step (i : Fin n) (M X : Matrix (Fin n) (Fin n) T) (j : Fin n) (hij : i ≠ j) :
    (clearState i M X j).updateRow j (fun b => clearState i M X j j b - clearState i M X j i b * M j i) =
      clearState i M X (j + 1) := by
  ext a b
  simp only [Matrix.updateRow_apply, clearState, Matrix.of_apply]
  by_cases h : a = j
  · subst h; simp [Ne.symm hij]
  · have : a.val ≠ j.val := fun h' => h (Fin.ext h')
    have e : a.val < j.val ↔ a.val < j.val + 1 := by omega
    simp only [h, if_false, e]

omit hO in
theorem clearState_skip (i : Fin n) (M X : Matrix (Fin n) (Fin n) T) :
    clearState i M X i = clearState i M X (i + 1) := by
  ext a b
  simp only [clearState, Matrix.of_apply]
  by_cases h : a = i
  · simp [h]
  · have : a.val ≠ i.val := fun h' => h (Fin.ext h')
    have e : a.val < i.val ↔ a.val < i.val + 1 := by omega
    simp only [e]

theorem gjClear_eq (i : Fin n) (M B : Matrix (Fin n) (Fin n) T) :
    Mat.gjClear O i (Mat.ofMatrix M, Mat.ofMatrix B) =
      .ok (Mat.ofMatrix (clearState i M M n), Mat.ofMatrix (clearState i M B n)) := by
  have := foldlM_range (fun (s : Mat T n n × Mat T n n) j => do
    if i.val = j then pure s
    else do
      let a ← s.1.index (j, i.val)
      Mat.gjRow O i j a s) (fun k => (Mat.ofMatrix (clearState i M M k), Mat.ofMatrix (clearState i M B k))) n (by
      intro k hk
      split
      · rename_i h
        subst h
        rw [← clearState_skip, ← clearState_skip]; rfl
      · rename_i h
        have hne : i ≠ ⟨k, hk⟩ := fun h' => h (by rw [h'])
        rw [index_ofMatrix _ hk i.isLt, res_ok_bind]
        have e := gjRow_eq hO i ⟨k, hk⟩ hne (clearState i M M k) (clearState i M B k) (clearState i M M k ⟨k, hk⟩ i)
        simp only at e
        rw [Fin.eta, e]
        have e1 : clearState i M M k ⟨k, hk⟩ i = M ⟨k, hk⟩ i := by simp [clearState]
        have c1 := clearState_step i M M ⟨k, hk⟩ hne
        have c2 := clearState_step i M B ⟨k, hk⟩ hne
        simp only at c1 c2
        rw [e1, c1, c2])
  have z : ∀ X : Matrix (Fin n) (Fin n) T, clearState i M X 0 = X := by intro X; ext a b; simp [clearState]
  simp only [z] at this
  exact this

end ring

variable [Field T]

/-- One Gauss-Jordan step with pivot `(i, i)` of `M`, applied to `X`. -/
def gjStep (i : Fin n) (M X : Matrix (Fin n) (Fin n) T) : Matrix (Fin n) (Fin n) T :=
  Matrix.of fun a b => if a = i then X i b / M i i else X a b - M a i * (X i b / M i i)

/-- The step as a left factor. -/
def gjFactor (i : Fin n) (M : Matrix (Fin n) (Fin n) T) : Matrix (Fin n) (Fin n) T :=
  (1 : Matrix (Fin n) (Fin n) T).updateCol i fun a => if a = i then (M i i)⁻¹ else - M a i * (M i i)⁻¹

theorem gjStep_eq_mul (i : Fin n) (M X : Matrix (Fin n) (Fin n) T) : gjStep i M X = gjFactor i M * X := by
  ext a b
  rw [Matrix.mul_apply]
  have : ∀ k, gjFactor i M a k * X k b =
      (if k = i then (if a = i then (M i i)⁻¹ else - M a i * (M i i)⁻¹) * X i b else 0) +
      (if k = a then (if a = i then 0 else X a b) else 0) := by
    intro k
    simp only [gjFactor, Matrix.updateCol_apply, Matrix.one_apply]
    by_cases h1 : k = i
    · subst h1
      by_cases h2 : k = a
      · subst h2; simp
      · simp [h2]
    · by_cases h2 : k = a
      · subst h2; simp [h1]
      · simp [h1, h2, Ne.symm h2]
  simp only [this, Finset.sum_add_distrib, Finset.sum_ite_eq', Finset.mem_univ, if_true, gjStep, Matrix.of_apply]
  split
  · rw [add_zero, div_eq_inv_mul]
  · rw [div_eq_inv_mul]; ring

theorem det_gjFactor (i : Fin n) (M : Matrix (Fin n) (Fin n) T) : (gjFactor i M).det = (M i i)⁻¹ := by
  rw [gjFactor, ← Matrix.cramer_apply, Matrix.cramer_one]; simp

section loops
variable {O : Ops T} (hO : O.IsField)
include hO

/-- One iteration of the Gauss-Jordan loop, zero pivot. -/
theorem gjLoop_zero (i : Fin n) (is : List Nat) (M B : Matrix (Fin n) (Fin n) T) (h : M i i = 0) :
    Mat.gjLoop O (i.val :: is) (Mat.ofMatrix M, Mat.ofMatrix B) = .ok none := by
  rw [Mat.gjLoop]
  simp only
  rw [index_ofMatrix _ i.isLt i.isLt, res_ok_bind, Fin.eta, if_pos ((hO.isZero _).2 h)]; rfl

theorem gjStep_eq_clear (i : Fin n) (M X : Matrix (Fin n) (Fin n) T) :
    clearState i (M.updateRow i fun b => M i b * (O.one / M i i)) (X.updateRow i fun b => X i b * (O.one / M i i)) n =
      gjStep i M X := by
  ext a b
  simp only [clearState, Matrix.of_apply, gjStep, a.isLt, true_and, Matrix.updateRow_self, hO.one]
  by_cases ha : a = i
  · subst ha; simp [div_eq_mul_inv]
  · simp only [ne_eq, ha, not_false_eq_true, if_true, if_false, Matrix.updateRow_ne ha]
    rw [one_div, ← div_eq_mul_inv]; ring

/-- One iteration of the Gauss-Jordan loop, non-zero pivot. -/
theorem gjLoop_cons (i : Fin n) (is : List Nat) (M B : Matrix (Fin n) (Fin n) T) (h : M i i ≠ 0) :
    Mat.gjLoop O (i.val :: is) (Mat.ofMatrix M, Mat.ofMatrix B) =
      Mat.gjLoop O is (Mat.ofMatrix (gjStep i M M), Mat.ofMatrix (gjStep i M B)) := by
  rw [Mat.gjLoop]
  simp only
  have hz : ¬ O.isZero (M i i) = true := fun h' => h ((hO.isZero _).1 h')
  rw [index_ofMatrix _ i.isLt i.isLt, res_ok_bind, Fin.eta, if_neg hz, hO.div _ _ h, res_ok_bind, gjScale_eq hO.toIsRing,
    res_ok_bind, gjClear_eq hO.toIsRing, res_ok_bind, gjStep_eq_clear hO, gjStep_eq_clear hO]

end loops

/-- The first `i` columns are those of the identity. -/
def IdCols (i : Nat) (M : Matrix (Fin n) (Fin n) T) : Prop := ∀ a b : Fin n, b.val < i → M a b = if a = b then 1 else 0

theorem IdCols.step {i : Fin n} {M : Matrix (Fin n) (Fin n) T} (h : IdCols i M) (hp : M i i ≠ 0) :
    IdCols (i + 1) (gjStep i M M) := by
  intro a b hb
  simp only [gjStep, Matrix.of_apply]
  by_cases hbi : b = i
  · subst hbi
    by_cases ha : a = b
    · simp [ha, hp]
    · simp [ha, hp]
  · have hlt : b.val < i.val := by
      have : b.val ≠ i.val := fun h => hbi (Fin.ext h)
      omega
    rw [h i b hlt, h a b hlt]
    by_cases ha : a = i
    · subst ha; simp [Ne.symm hbi]
    · simp [ha, Ne.symm hbi]

theorem IdCols.all {M : Matrix (Fin n) (Fin n) T} (h : IdCols n M) : M = 1 := by
  ext a b; rw [h a b b.isLt, Matrix.one_apply]

/-- The leading principal submatrix of size `k`. -/
def lead {T : Type} {n : Nat} (M : Matrix (Fin n) (Fin n) T) (k : Nat) (hk : k ≤ n) : Matrix (Fin k) (Fin k) T :=
  M.submatrix (Fin.castLE hk) (Fin.castLE hk)

theorem det_lead_pivot {i : Nat} (hi : i < n) {M : Matrix (Fin n) (Fin n) T} (h : IdCols i M) :
    (lead M (i + 1) hi).det = M ⟨i, hi⟩ ⟨i, hi⟩ := by
  rw [Matrix.det_of_isUpperTriangular]
  · rw [Fin.prod_univ_castSucc]
    have : ∏ x : Fin i, lead M (i + 1) hi x.castSucc x.castSucc = 1 := by
      apply Finset.prod_eq_one
      intro x _
      simp only [lead, Matrix.submatrix_apply]
      rw [h _ _ (by simp)]; simp
    rw [this, one_mul]; rfl
  · intro a b hab
    have hab' : b.val < a.val := hab
    simp only [lead, Matrix.submatrix_apply]
    rw [h _ _ (by simp; omega), if_neg]
    intro h'
    have := congrArg Fin.val h'
    simp at this; omega

theorem lead_gjStep {i : Nat} {k : Nat} (hk : k ≤ n) (hi : i < k) (M X : Matrix (Fin n) (Fin n) T) :
    lead (gjStep ⟨i, by omega⟩ M X) k hk = gjStep ⟨i, hi⟩ (lead M k hk) (lead X k hk) := by
  ext a b
  simp only [lead, gjStep, Matrix.submatrix_apply, Matrix.of_apply, Fin.castLE_mk]
  congr 1
  simp [Fin.ext_iff]

theorem det_lead_gjStep {i : Nat} {k : Nat} (hk : k ≤ n) (hi : i < k) (M : Matrix (Fin n) (Fin n) T) :
    (lead (gjStep ⟨i, by omega⟩ M M) k hk).det = (M ⟨i, by omega⟩ ⟨i, by omega⟩)⁻¹ * (lead M k hk).det := by
  rw [lead_gjStep hk hi, gjStep_eq_mul, Matrix.det_mul, det_gjFactor]; rfl

section loop
variable {O : Ops T} (hO : O.IsField)
include hO

/-- The Gauss-Jordan loop from column `i` on. -/
theorem gjLoop_spec (d i : Nat) (hd : i + d = n) (A M B : Matrix (Fin n) (Fin n) T) (hcol : IdCols i M) (hMB : M = B * A) :
    ((∃ k, ∃ hk : k ≤ n, i < k ∧ (lead M k hk).det = 0) ∧
      Mat.gjLoop O (List.range' i d) (Mat.ofMatrix M, Mat.ofMatrix B) = .ok none) ∨
    ((∀ k, ∀ hk : k ≤ n, i < k → (lead M k hk).det ≠ 0) ∧
      ∃ B', Mat.gjLoop O (List.range' i d) (Mat.ofMatrix M, Mat.ofMatrix B) = .ok (some (Mat.ofMatrix 1, Mat.ofMatrix B')) ∧
        B' * A = 1) := by
  induction d generalizing i M B with
  | zero =>
    right
    obtain rfl : i = n := by omega
    refine ⟨fun k hk h => by omega, B, ?_, ?_⟩
    · rw [hcol.all]; rfl
    · rw [← hMB, hcol.all]
  | succ d ih =>
    have hi : i < n := by omega
    rw [List.range'_succ]
    by_cases hp : M ⟨i, hi⟩ ⟨i, hi⟩ = 0
    · left
      exact ⟨⟨i + 1, hi, by omega, by rw [det_lead_pivot hi hcol, hp]⟩, gjLoop_zero hO ⟨i, hi⟩ (List.range' (i + 1) d) M B hp⟩
    · have hc := gjLoop_cons hO ⟨i, hi⟩ (List.range' (i + 1) d) M B hp
      simp only at hc
      rw [hc]
      have hcol' : IdCols (i + 1) (gjStep ⟨i, hi⟩ M M) := IdCols.step (i := ⟨i, hi⟩) hcol hp
      have hMB' : gjStep ⟨i, hi⟩ M M = gjStep ⟨i, hi⟩ M B * A := by
        rw [gjStep_eq_mul, gjStep_eq_mul, Matrix.mul_assoc, ← hMB]
      rcases ih (i + 1) (by omega) _ _ hcol' hMB' with ⟨⟨k, hk, hik, hdet⟩, h2⟩ | ⟨h1, h2⟩
      · left
        refine ⟨⟨k, hk, by omega, ?_⟩, h2⟩
        rw [det_lead_gjStep hk (by omega)] at hdet
        rcases mul_eq_zero.1 hdet with h | h
        · exact absurd h (inv_ne_zero hp)
        · exact h
      · right
        refine ⟨fun k hk hik hdet => ?_, h2⟩
        by_cases hik' : k = i + 1
        · subst hik'
          rw [det_lead_pivot hi hcol] at hdet
          exact hp hdet
        · apply h1 k hk (by omega)
          rw [det_lead_gjStep hk (by omega), hdet, mul_zero]

end loop
end Rowcol
