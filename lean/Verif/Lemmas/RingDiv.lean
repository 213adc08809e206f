import Verif.Lemmas.Program
import Verif.RingSpec

/-! Elimination and Gauss-Jordan over commutative rings with a division that is exact or panics. -/

namespace Rowcol
variable {T : Type} {n : Nat} [CommRing T] {O : Ops T}

theorem Ops.UnitDiv.exact (h : O.UnitDiv) : O.ExactDiv := fun a b => (h a b).imp id fun ⟨q, h1, h2, _⟩ => ⟨q, h1, h2⟩

/-! ### Determinants -/

theorem elimCol_ring (hO : O.IsRing) (hd : O.ExactDiv) (i : Fin n) (js : List Nat) (M : Matrix (Fin n) (Fin n) T)
    (hjs : ∀ j ∈ js, i.val < j ∧ j < n) (hnd : js.Nodup) :
    Mat.elimCol O i js (Mat.ofMatrix M) = .error .panic ∨ Mat.elimCol O i js (Mat.ofMatrix M) = .ok none ∨
    ∃ M', Mat.elimCol O i js (Mat.ofMatrix M) = .ok (some (Mat.ofMatrix M')) ∧ M'.det = M.det ∧
      ((∀ a b : Fin n, b < i → b < a → M a b = 0) → ∀ a b : Fin n, b < i → b < a → M' a b = 0) ∧
      (∀ a : Fin n, a.val ∉ js → M' a = M a) ∧ (∀ a : Fin n, a.val ∈ js → M' a i = 0) := by
  induction js generalizing M with
  | nil => exact .inr (.inr ⟨M, rfl, rfl, fun h => h, fun _ _ => rfl, fun a h => by simp at h⟩)
  | cons j js ih =>
    obtain ⟨hj1, hj2⟩ := hjs j (by simp)
    let j' : Fin n := ⟨j, hj2⟩
    have hij : i ≠ j' := fun h => by have := congrArg Fin.val h; simp only [j'] at this; omega
    unfold Mat.elimCol
    rw [index_ofMatrix M i.isLt i.isLt, index_ofMatrix M hj2 i.isLt]
    simp only [res_ok_bind, Fin.eta]
    by_cases hz : O.isZero (M i i) = true
    · right; left; simp [hz]
    rcases hd (M j' i) (M i i) with h | ⟨q, h, hq⟩
    · left
      have h' : O.div (M ⟨j, hj2⟩ i) (M i i) = .error .panic := h
      simp only [hz, if_false, Bool.false_eq_true, h']
      rfl
    have h' : O.div (M ⟨j, hj2⟩ i) (M i i) = .ok q := h
    simp only [hz, if_false, h', res_ok_bind, Bool.false_eq_true]
    have hrow := elimRow_eq hO M i j' hij q
    rw [show (j'.val) = j from rfl] at hrow
    rw [hrow]
    simp only [res_ok_bind]
    set M1 := M.updateRow j' (M j' + (-q) • M i) with hM1
    have hdet : M1.det = M.det := by
      rw [hM1]; exact Matrix.det_updateRow_add_smul_self M (Ne.symm hij) _
    rcases ih M1 (fun x hx => hjs x (by simp [hx])) (List.nodup_cons.1 hnd).2 with h | h | ⟨M', h1, h2, h3, h4, h5⟩
    · left; exact h
    · right; left; exact h
    · right; right
      refine ⟨M', h1, h2.trans hdet, ?_, ?_, ?_⟩
      · intro hM
        apply h3
        intro a b hb hba
        rw [hM1, Matrix.updateRow_apply]
        split
        · rename_i ha
          subst ha
          simp only [Pi.add_apply, Pi.smul_apply, smul_eq_mul, hM _ b hb hba, hM i b hb hb, mul_zero, add_zero]
        · exact hM a b hb hba
      · intro a ha
        rw [List.mem_cons, not_or] at ha
        rw [h4 a ha.2, hM1]
        have : a ≠ j' := fun h => ha.1 (by rw [h])
        exact Matrix.updateRow_ne this
      · intro a ha
        by_cases haj : a.val ∈ js
        · exact h5 a haj
        · have : a = j' := Fin.ext ((List.mem_cons.1 ha).resolve_right haj)
          rw [h4 a haj, hM1, this, Matrix.updateRow_self]
          simp only [Pi.add_apply, Pi.smul_apply, smul_eq_mul]
          rw [← hq]; ring

theorem elimAll_ring (hO : O.IsRing) (hdv : O.ExactDiv) (d : Nat) (i : Nat) (hd : i + d = n) (M : Matrix (Fin n) (Fin n) T)
    (hM : ∀ a b : Fin n, b.val < i → b < a → M a b = 0) :
    Mat.elimAll O (List.range' i d) (Mat.ofMatrix M) = .error .panic ∨ Mat.elimAll O (List.range' i d) (Mat.ofMatrix M) = .ok none ∨
    ∃ M', Mat.elimAll O (List.range' i d) (Mat.ofMatrix M) = .ok (some (Mat.ofMatrix M')) ∧ M'.det = M.det ∧
      ∀ a b : Fin n, b < a → M' a b = 0 := by
  induction d generalizing i M with
  | zero => exact .inr (.inr ⟨M, rfl, rfl, fun a b hab => hM a b (by have := b.isLt; omega) hab⟩)
  | succ d ih =>
    have hi : i < n := by omega
    rw [List.range'_succ, Mat.elimAll]
    rcases elimCol_ring hO hdv ⟨i, hi⟩ (List.range' (i + 1) (n - (i + 1))) M
      (fun j hj => by rw [List.mem_range'_1] at hj; exact ⟨by simp only; omega, by omega⟩)
      List.nodup_range' with h | h | ⟨M', h1, h2, h3, h4, h5⟩
    · left; simp only at h; rw [h]; rfl
    · right; left; simp only at h; rw [h]; rfl
    · simp only at h1; rw [h1]
      simp only [res_ok_bind]
      rcases ih (i + 1) (by omega) M' (by
        intro a b hb hba
        by_cases hbi : b.val = i
        · have hb' : b = ⟨i, hi⟩ := Fin.ext hbi
          have hba' : b.val < a.val := hba
          rw [hb']
          exact h5 a (by rw [List.mem_range'_1]; have := a.isLt; omega)
        · exact h3 (fun a b hb hba => hM a b hb hba) a b (show b.val < i by omega) hba) with h | h | ⟨M'', e1, e2, e3⟩
      · left; exact h
      · right; left; exact h
      · right; right; exact ⟨M'', e1, e2.trans h2, e3⟩

theorem sum_ring (hO : O.IsRing) (n : Nat) (p : Nat → Res T) (f : Fin n → T)
    (h : ∀ i : Fin n, p i = .error .panic ∨ p i = .ok (f i)) :
    (List.range n).foldlM (fun acc i => do
      let x ← p i
      O.add acc x) O.zero = .error .panic ∨
    (List.range n).foldlM (fun acc i => do
      let x ← p i
      O.add acc x) O.zero = .ok (∑ i, f i) := by
  have key : ∀ (l : List (Fin n)) (x : T), (l.map Fin.val).foldlM (fun acc i => do
      let x ← p i
      O.add acc x) x = .error .panic ∨ (l.map Fin.val).foldlM (fun acc i => do
      let x ← p i
      O.add acc x) x = .ok (x + (l.map f).sum) := by
    intro l
    induction l with
    | nil => intro x; right; simp
    | cons a as ih =>
      intro x
      rw [List.map_cons, List.foldlM_cons]
      rcases h a with h | h
      · left; rw [h]; rfl
      · rw [h, res_ok_bind, hO.add, res_ok_bind]
        rcases ih (x + f a) with h | h
        · exact .inl h
        · right; rw [h]; simp [add_assoc]
  rw [Vec.range_eq, hO.zero]
  refine (key (List.finRange n) 0).imp id fun h => ?_
  rw [h, zero_add, Fin.sum_univ_def]

theorem cofGen_ring (hO : O.IsRing) (t : Target) (det : Mat T n n → Res T)
    (hdet : ∀ b, det b = .error .panic ∨ det b = .ok b.toMatrix.det) (a : Mat T (n + 1) (n + 1)) (i j : Fin (n + 1))
    (hn : n + 1 < t.W) (hij : i.val + j.val < t.W) :
    Mat.cofGen t O det a (i, j) = .error .panic ∨ Mat.cofGen t O det a (i, j) =
      .ok ((-1) ^ (i.val + j.val) * (a.toMatrix.submatrix i.succAbove j.succAbove).det) := by
  unfold Mat.cofGen
  simp only [i.isLt, j.isLt, and_self, if_true, minor_eq t a i j hn, cofSign_eq hO t i j hij, res_ok_bind]
  rcases hdet (Mat.ofMatrix (a.toMatrix.submatrix i.succAbove j.succAbove)) with h | h
  · left; rw [h]; rfl
  · right; rw [h]; simp only [Mat.toMatrix_ofMatrix, res_ok_bind, hO.mul]

theorem detGen_ring (hO : O.IsRing) (hdv : O.ExactDiv) (t : Target) (det : Mat T n n → Res T)
    (hdet : ∀ b, det b = .error .panic ∨ det b = .ok b.toMatrix.det) (a : Mat T (n + 1) (n + 1)) (hn : n + 1 < t.W) :
    Mat.detGen t O (Mat.cofGen t O det a) a = .error .panic ∨ Mat.detGen t O (Mat.cofGen t O det a) a = .ok a.toMatrix.det := by
  unfold Mat.detGen
  rw [Mat.clone_ok, res_ok_bind]
  rcases elimAll_ring hO hdv (n + 1) 0 (by omega) a.toMatrix (fun a b h => absurd h (by omega)) with h | h | ⟨M', h1, h2, h3⟩
  · left
    rw [Mat.ofMatrix_toMatrix, ← List.range_eq_range'] at h
    rw [h]; rfl
  · rw [Mat.ofMatrix_toMatrix, ← List.range_eq_range'] at h
    rw [h, res_ok_bind]
    simp only
    rw [Matrix.det_succ_column_zero]
    have := sum_ring hO (n + 1) (fun i => do
        O.mul (← a.index (i, 0)) (← Mat.cofGen t O det a (i, 0)))
      (fun i => (-1) ^ i.val * a.toMatrix i 0 * (a.toMatrix.submatrix i.succAbove Fin.succ).det) (by
        intro i
        simp only [Mat.index_ok a i.isLt (show 0 < n + 1 by omega), res_ok_bind]
        rcases cofGen_ring hO t det hdet a i 0 hn (by simp; omega) with hc | hc
        · left; simp only [Fin.val_zero] at hc; rw [hc]; rfl
        · right
          simp only [Fin.val_zero] at hc
          simp only [res_ok_bind, hc, hO.mul, Nat.add_zero]
          congr 1
          simp only [Fin.eta, Fin.zero_eta, Mat.toMatrix_apply, Fin.succAbove_zero]
          ring)
    simp only [bind_assoc] at this
    exact this
  · right
    rw [Mat.ofMatrix_toMatrix, ← List.range_eq_range'] at h1
    rw [h1, res_ok_bind]
    simp only
    rw [diagProd_eq hO, ← h2, Matrix.det_of_isUpperTriangular]
    intro i j hij
    exact h3 i j hij

theorem determinant_ring (hO : O.IsRing) (hdv : O.ExactDiv) (t : Target) (k : Nat) (a : Mat T (k + 1) (k + 1)) (hk : k + 1 < t.W) :
    a.determinant t O k = .error .panic ∨ a.determinant t O k = .ok a.toMatrix.det := by
  induction k with
  | zero => exact .inr (det1_eq t a)
  | succ k ih =>
    match k, ih with
    | 0, _ => exact .inr (det2_eq hO t a)
    | 1, _ => exact .inr (det3_eq hO t a)
    | k + 2, ih => exact detGen_ring hO hdv t _ (fun b => ih b (by omega)) a hk

theorem cofactor_ring (hO : O.IsRing) (hdv : O.ExactDiv) (t : Target) (k : Nat) (a : Mat T (k + 2) (k + 2)) (i j : Fin (k + 2))
    (hk : k + 2 < t.W) (hij : i.val + j.val < t.W) :
    a.cofactor t O k (i, j) = .error .panic ∨
      a.cofactor t O k (i, j) = .ok ((-1) ^ (i.val + j.val) * (a.toMatrix.submatrix i.succAbove j.succAbove).det) := by
  match k with
  | 0 => exact .inr (C53_cofactor_ring hO t 0 (by omega) a i j hk hij)
  | 1 => exact .inr (C53_cofactor_ring hO t 1 (by omega) a i j hk hij)
  | k + 2 => exact cofGen_ring hO t _ (fun b => determinant_ring hO hdv t _ b (by omega)) a i j hk hij

/-! ### Inverses -/

/-- One Gauss-Jordan step with pivot `(i, i)` of `M`, whose inverse is `x`, applied to `X`. -/
def rjStep (i : Fin n) (x : T) (M X : Matrix (Fin n) (Fin n) T) : Matrix (Fin n) (Fin n) T :=
  Matrix.of fun a b => if a = i then X i b * x else X a b - M a i * (X i b * x)

/-- The step as a left factor. -/
def rjFactor (i : Fin n) (x : T) (M : Matrix (Fin n) (Fin n) T) : Matrix (Fin n) (Fin n) T :=
  (1 : Matrix (Fin n) (Fin n) T).updateCol i fun a => if a = i then x else - M a i * x

theorem rjStep_eq_mul (i : Fin n) (x : T) (M X : Matrix (Fin n) (Fin n) T) : rjStep i x M X = rjFactor i x M * X := by
  ext a b
  rw [Matrix.mul_apply]
  have : ∀ k, rjFactor i x M a k * X k b =
      (if k = i then (if a = i then x else - M a i * x) * X i b else 0) +
      (if k = a then (if a = i then 0 else X a b) else 0) := by
    intro k
    simp only [rjFactor, Matrix.updateCol_apply, Matrix.one_apply]
    by_cases h1 : k = i
    · subst h1
      by_cases h2 : k = a
      · subst h2; simp
      · simp [h2]
    · by_cases h2 : k = a
      · subst h2; simp [h1]
      · simp [h1, h2, Ne.symm h2]
  simp only [this, Finset.sum_add_distrib, Finset.sum_ite_eq', Finset.mem_univ, if_true, rjStep, Matrix.of_apply]
  split
  · ring
  · ring

theorem det_rjFactor (i : Fin n) (x : T) (M : Matrix (Fin n) (Fin n) T) : (rjFactor i x M).det = x := by
  rw [rjFactor, ← Matrix.cramer_apply, Matrix.cramer_one]; simp

theorem rjStep_eq_clear (i : Fin n) (x : T) (M X : Matrix (Fin n) (Fin n) T) (hx : x * M i i = 1) :
    clearState i (M.updateRow i fun b => M i b * x) (X.updateRow i fun b => X i b * x) n = rjStep i x M X := by
  ext a b
  simp only [clearState, Matrix.of_apply, rjStep, a.isLt, true_and, Matrix.updateRow_self]
  by_cases ha : a = i
  · subst ha; simp
  · simp only [ne_eq, ha, not_false_eq_true, if_true, if_false, Matrix.updateRow_ne ha]
    ring

/-- The first `i` columns are those of the identity. -/
def RIdCols (i : Nat) (M : Matrix (Fin n) (Fin n) T) : Prop := ∀ a b : Fin n, b.val < i → M a b = if a = b then 1 else 0

theorem RIdCols.step {i : Fin n} {x : T} {M : Matrix (Fin n) (Fin n) T} (h : RIdCols i M) (hp : x * M i i = 1) :
    RIdCols (i + 1) (rjStep i x M M) := by
  intro a b hb
  simp only [rjStep, Matrix.of_apply]
  have hp' : M i i * x = 1 := by rw [mul_comm]; exact hp
  by_cases hbi : b = i
  · subst hbi
    by_cases ha : a = b
    · simp [ha, hp']
    · simp [ha, hp']
  · have hlt : b.val < i.val := by
      have : b.val ≠ i.val := fun h => hbi (Fin.ext h)
      omega
    rw [h i b hlt, h a b hlt]
    by_cases ha : a = i
    · subst ha; simp [Ne.symm hbi]
    · simp [ha, Ne.symm hbi]

theorem RIdCols.all {M : Matrix (Fin n) (Fin n) T} (h : RIdCols n M) : M = 1 := by
  ext a b; rw [h a b b.isLt, Matrix.one_apply]

theorem det_lead_pivot_ring {i : Nat} (hi : i < n) {M : Matrix (Fin n) (Fin n) T} (h : RIdCols i M) :
    (lead M (i + 1) hi).det = M ⟨i, hi⟩ ⟨i, hi⟩ := by
  rw [Matrix.det_of_isUpperTriangular]
  · rw [Fin.prod_univ_castSucc]
    have : ∏ x : Fin i, lead M (i + 1) hi x.castSucc x.castSucc = 1 := by
      apply Finset.prod_eq_one
      intro x _
      simp only [lead, Matrix.submatrix_apply]
      rw [h _ _ (by simp)]; simp
    rw [this, one_mul]; rfl
  · intro a b hab
    have hab' : b.val < a.val := hab
    simp only [lead, Matrix.submatrix_apply]
    rw [h _ _ (by simp; omega), if_neg]
    intro h'
    have := congrArg Fin.val h'
    simp at this; omega

theorem lead_rjStep {i : Nat} {k : Nat} (hk : k ≤ n) (hi : i < k) (x : T) (M X : Matrix (Fin n) (Fin n) T) :
    lead (rjStep ⟨i, by omega⟩ x M X) k hk = rjStep ⟨i, hi⟩ x (lead M k hk) (lead X k hk) := by
  ext a b
  simp only [lead, rjStep, Matrix.submatrix_apply, Matrix.of_apply, Fin.castLE_mk]
  congr 1
  simp [Fin.ext_iff]

theorem det_lead_rjStep {i : Nat} {k : Nat} (hk : k ≤ n) (hi : i < k) (x : T) (M : Matrix (Fin n) (Fin n) T) :
    (lead (rjStep ⟨i, by omega⟩ x M M) k hk).det = x * (lead M k hk).det := by
  rw [lead_rjStep hk hi, rjStep_eq_mul, Matrix.det_mul, det_rjFactor]

/-- The Gauss-Jordan loop from column `i` on: a panic, `none`, or the inverse; the last exactly if all leading principal minors are
invertible (when division by invertible numbers succeeds and zero is recognised). -/
theorem gjLoop_ring (hO : O.IsRing) (hdv : O.UnitDiv) (d i : Nat) (hd : i + d = n) (A M B : Matrix (Fin n) (Fin n) T)
    (hcol : RIdCols i M) (hMB : M = B * A) :
    (Mat.gjLoop O (List.range' i d) (Mat.ofMatrix M, Mat.ofMatrix B) = .error .panic ∨
      Mat.gjLoop O (List.range' i d) (Mat.ofMatrix M, Mat.ofMatrix B) = .ok none ∨
      (∀ k, ∀ hk : k ≤ n, i < k → IsUnit (lead M k hk).det) ∧
      ∃ B', Mat.gjLoop O (List.range' i d) (Mat.ofMatrix M, Mat.ofMatrix B) = .ok (some (Mat.ofMatrix 1, Mat.ofMatrix B')) ∧
        B' * A = 1) ∧
    ((∀ a, O.isZero a = true → ¬ IsUnit a) → (∀ a b, IsUnit b → O.div a b ≠ .error .panic) →
      (∀ k, ∀ hk : k ≤ n, i < k → IsUnit (lead M k hk).det) →
      ∃ r, Mat.gjLoop O (List.range' i d) (Mat.ofMatrix M, Mat.ofMatrix B) = .ok (some r)) := by
  induction d generalizing i M B with
  | zero =>
    obtain rfl : i = n := by omega
    refine ⟨.inr (.inr ⟨fun k hk h => by omega, B, ?_, ?_⟩), fun _ _ _ => ⟨_, rfl⟩⟩
    · rw [hcol.all]; rfl
    · rw [← hMB, hcol.all]
  | succ d ih =>
    have hi : i < n := by omega
    rw [List.range'_succ, Mat.gjLoop]
    simp only
    rw [index_ofMatrix _ hi hi, res_ok_bind]
    by_cases hz : O.isZero (M ⟨i, hi⟩ ⟨i, hi⟩) = true
    · rw [if_pos hz]
      refine ⟨.inr (.inl rfl), fun h1 _ h2 => absurd ?_ (h1 _ hz)⟩
      rw [← det_lead_pivot_ring hi hcol]
      exact h2 (i + 1) hi (by omega)
    rw [if_neg hz]
    rcases hdv O.one (M ⟨i, hi⟩ ⟨i, hi⟩) with h | ⟨x, h, hx, hu⟩
    · rw [h]
      refine ⟨.inl rfl, fun _ h1 h2 => absurd h (h1 _ _ ?_)⟩
      rw [← det_lead_pivot_ring hi hcol]
      exact h2 (i + 1) hi (by omega)
    rw [hO.one] at hx
    have e1 := gjScale_eq hO ⟨i, hi⟩ M B x
    simp only at e1
    have e2 := fun M' B' => gjClear_eq (n := n) hO ⟨i, hi⟩ M' B'
    simp only at e2
    rw [h, res_ok_bind, e1, res_ok_bind, e2, res_ok_bind, rjStep_eq_clear _ _ _ _ hx, rjStep_eq_clear _ _ _ _ hx]
    have hcol' : RIdCols (i + 1) (rjStep ⟨i, hi⟩ x M M) := RIdCols.step (i := ⟨i, hi⟩) hcol hx
    have hMB' : rjStep ⟨i, hi⟩ x M M = rjStep ⟨i, hi⟩ x M B * A := by
      rw [rjStep_eq_mul, rjStep_eq_mul, Matrix.mul_assoc, ← hMB]
    have hux : IsUnit x := IsUnit.of_mul_eq_one _ hx
    obtain ⟨h1, h2⟩ := ih (i + 1) (by omega) _ _ hcol' hMB'
    constructor
    · rcases h1 with h1 | h1 | ⟨h1, h3⟩
      · exact .inl h1
      · exact .inr (.inl h1)
      · refine .inr (.inr ⟨fun k hk hik => ?_, h3⟩)
        by_cases hik' : k = i + 1
        · subst hik'
          rw [det_lead_pivot_ring hi hcol]
          exact hu
        · have := h1 k hk (by omega)
          rw [det_lead_rjStep hk (by omega)] at this
          exact (IsUnit.mul_iff.1 this).2
    · intro z1 z2 z3
      refine h2 z1 z2 fun k hk hik => ?_
      rw [det_lead_rjStep hk (by omega)]
      exact hux.mul (z3 k hk (by omega))

theorem invGen_ring (hO : O.IsRing) (hdv : O.UnitDiv) (t : Target) (a : Mat T n n) :
    (a.invGen t O = .error .panic ∨ a.invGen t O = .ok none ∨
      (∀ k, ∀ hk : k ≤ n, 0 < k → IsUnit (lead a.toMatrix k hk).det) ∧
        ∃ x, a.invGen t O = .ok (some x) ∧ x.toMatrix * a.toMatrix = 1) ∧
    ((∀ a, O.isZero a = true → ¬ IsUnit a) → (∀ a b, IsUnit b → O.div a b ≠ .error .panic) →
      (∀ k, ∀ hk : k ≤ n, 0 < k → IsUnit (lead a.toMatrix k hk).det) → ∃ x, a.invGen t O = .ok (some x)) := by
  unfold Mat.invGen
  rw [Mat.clone_ok, res_ok_bind, identity_eq hO.toIsSemiring, res_ok_bind, List.range_eq_range']
  have := gjLoop_ring hO hdv n 0 (by omega) a.toMatrix a.toMatrix 1 (fun a b h => absurd h (by omega)) (by rw [one_mul])
  rw [Mat.ofMatrix_toMatrix] at this
  refine ⟨?_, fun h1 h2 h3 => ?_⟩
  · rcases this.1 with h | h | ⟨h1, B, h2, h3⟩
    · left; rw [h]; rfl
    · right; left; rw [h]; rfl
    · right; right; exact ⟨h1, Mat.ofMatrix B, by rw [h2]; rfl, by rw [Mat.toMatrix_ofMatrix]; exact h3⟩
  · obtain ⟨r, hr⟩ := this.2 h1 h2 h3
    exact ⟨r.2, by rw [hr]; rfl⟩

/-- Dividing all entries of a matrix. -/
theorem divScalar_ring (hdv : O.UnitDiv) (t : Target) (b : Mat T (n + 1) (n + 1)) (d : T) :
    (b.divScalar t O.div d = .error .panic ∨
      ∃ x, b.divScalar t O.div d = .ok x ∧ IsUnit d ∧ d • x.toMatrix = b.toMatrix) ∧
    ((∀ x, O.div x d ≠ .error .panic) → ∃ x, b.divScalar t O.div d = .ok x) := by
  constructor
  · have hd : ∀ a b, O.div a b = .error .panic ∨ O.div a b = .ok (a * Ring.inverse b) := fun a b =>
      (hdv a b).imp id fun ⟨q, h1, h2, h3⟩ => by
        rw [h1, ← h2, mul_assoc, Ring.mul_inverse_cancel _ h3, mul_one]
    rcases Prog.exact_quot t hd (.m (n + 1) (n + 1)) b d with h | ⟨x, h, _⟩
    · exact .inl h
    · right
      have hx : b.divScalar t O.div d = .ok x := h
      have hg := hx
      rw [(C19_mat_ok t O.div (fun x => .ok x) b d x b).2.1] at hg
      have hq : ∀ i j, x.get i j * d = b.get i j ∧ IsUnit d := fun i j => by
        rcases hdv (b.get i j) d with h' | ⟨q, h', hq, hu⟩
        · rw [hg] at h'; cases h'
        · rw [hg] at h'; cases h'; exact ⟨hq, hu⟩
      refine ⟨x, hx, (hq 0 0).2, ?_⟩
      ext i j
      rw [Matrix.smul_apply, smul_eq_mul, mul_comm]
      exact (hq i j).1
  · intro h
    choose f hf using fun i j => (hdv (b.get i j) d).resolve_left (h _)
    refine ⟨Mat.ofFn f, ?_⟩
    rw [(C19_mat_ok t O.div (fun x => .ok x) b d _ b).2.1]
    intro i j
    rw [Mat.get_ofFn]
    exact (hf i j).1

/-- What `inverse` does at a size up to 3. -/
def SmallInv (O : Ops T) (A : Matrix (Fin n) (Fin n) T) (r : Res (Option (Mat T n n))) : Prop :=
  (r = .error .panic ∨ r = .ok none ∨ IsUnit A.det ∧ ∃ x, r = .ok (some x) ∧ x.toMatrix * A = 1) ∧
  ((∀ a, O.isZero a = true → ¬ IsUnit a) → (∀ a b, IsUnit b → O.div a b ≠ .error .panic) → IsUnit A.det → ∃ x, r = .ok (some x))

theorem smallInv_adj (hdv : O.UnitDiv) (t : Target) (A : Matrix (Fin (n + 1)) (Fin (n + 1)) T) (b : Mat T (n + 1) (n + 1))
    (hb : b.toMatrix = A.adjugate) :
    SmallInv O A (do let x ← b.divScalar t O.div A.det; pure (some x)) := by
  obtain ⟨h1, h2⟩ := divScalar_ring hdv t b A.det
  constructor
  · rcases h1 with h | ⟨x, h, hu, hx⟩
    · left; rw [h]; rfl
    · right; right
      refine ⟨hu, x, by rw [h]; rfl, ?_⟩
      have : A.det • (x.toMatrix * A) = A.det • 1 := by
        rw [← Matrix.smul_mul, hx, hb, Matrix.adjugate_mul]
      exact hu.smul_left_cancel.1 this
  · intro _ hU hu
    obtain ⟨x, hx⟩ := h2 fun y => hU y _ hu
    exact ⟨x, by rw [hx]; rfl⟩

theorem smallInv_none {A : Matrix (Fin n) (Fin n) T} (hz : O.isZero A.det = true) : SmallInv O A (.ok none) :=
  ⟨.inr (.inl rfl), fun h _ hu => absurd hu (h _ hz)⟩

theorem inv1_ring (hO : O.IsRing) (hdv : O.UnitDiv) (t : Target) (a : Mat T 1 1) : SmallInv O a.toMatrix (a.inv1 t O) := by
  have hd : a.idxStatic t 0 0 = .ok a.toMatrix.det := det1_eq t a
  unfold Mat.inv1
  rw [hd, res_ok_bind]
  by_cases hz : O.isZero a.toMatrix.det = true
  · rw [if_pos hz]; exact smallInv_none hz
  rw [if_neg hz]
  rcases hdv O.one a.toMatrix.det with h | ⟨q, h, hq, hu⟩
  · rw [h]
    exact ⟨.inl rfl, fun _ hU hu => absurd h (hU _ _ hu)⟩
  · rw [h, res_ok_bind]
    obtain ⟨b, hb, hg, -⟩ := C35_new t (⟨[⟨[q], rfl⟩], rfl⟩ : Vec (Vec T 1) 1)
    rw [hb, res_ok_bind]
    refine ⟨.inr (.inr ⟨hu, b, rfl, ?_⟩), fun _ _ _ => ⟨b, rfl⟩⟩
    rw [hO.one, Matrix.det_fin_one] at hq
    ext i j
    fin_cases i; fin_cases j
    rw [Matrix.mul_apply, Fin.sum_univ_one]
    have : b.toMatrix 0 0 = q := (hg 0 0).trans rfl
    exact (congrArg (· * a.toMatrix 0 0) this).trans hq

theorem inv2_ring (hO : O.IsRing) (hdv : O.UnitDiv) (t : Target) (a : Mat T 2 2) : SmallInv O a.toMatrix (a.inv2 t O) := by
  unfold Mat.inv2
  rw [det2_eq hO, res_ok_bind]
  by_cases hz : O.isZero a.toMatrix.det = true
  · rw [if_pos hz]; exact smallInv_none hz
  rw [if_neg hz, Mat.idxStatic_ok t a (show 0 < 2 by omega) (show 0 < 2 by omega),
    Mat.idxStatic_ok t a (show 0 < 2 by omega) (show 1 < 2 by omega),
    Mat.idxStatic_ok t a (show 1 < 2 by omega) (show 0 < 2 by omega),
    Mat.idxStatic_ok t a (show 1 < 2 by omega) (show 1 < 2 by omega)]
  simp only [res_ok_bind, hO.neg]
  obtain ⟨b, hb, hg, -⟩ := C35_new t (⟨[⟨[a.get ⟨1, by omega⟩ ⟨1, by omega⟩, -a.get ⟨0, by omega⟩ ⟨1, by omega⟩], rfl⟩,
    ⟨[-a.get ⟨1, by omega⟩ ⟨0, by omega⟩, a.get ⟨0, by omega⟩ ⟨0, by omega⟩], rfl⟩], rfl⟩ : Vec (Vec T 2) 2)
  rw [hb, res_ok_bind]
  refine smallInv_adj hdv t a.toMatrix b ?_
  ext i j
  rw [Mat.toMatrix_apply, hg, Matrix.adjugate_fin_two]
  fin_cases i <;> fin_cases j <;> rfl

theorem ms_ring (hO : O.IsRing) (t : Target) (a : Mat T 3 3) (p q u v : Fin 3 × Fin 3) :
    a.ms t O (p.1.val, p.2.val) (q.1.val, q.2.val) (u.1.val, u.2.val) (v.1.val, v.2.val) =
      .ok (a.get p.1 p.2 * a.get q.1 q.2 - a.get u.1 u.2 * a.get v.1 v.2) := by
  simp only [Mat.ms, Mat.idxStatic_ok t a p.1.isLt p.2.isLt, Mat.idxStatic_ok t a q.1.isLt q.2.isLt,
    Mat.idxStatic_ok t a u.1.isLt u.2.isLt, Mat.idxStatic_ok t a v.1.isLt v.2.isLt, res_ok_bind, hO.mul, hO.sub, Fin.eta]

theorem inv3_ring (hO : O.IsRing) (hdv : O.UnitDiv) (t : Target) (a : Mat T 3 3) : SmallInv O a.toMatrix (a.inv3 t O) := by
  unfold Mat.inv3
  rw [det3_eq hO, res_ok_bind]
  by_cases hz : O.isZero a.toMatrix.det = true
  · rw [if_pos hz]; exact smallInv_none hz
  rw [if_neg hz]
  have m := ms_ring hO t a
  have e1 := m (1,1) (2,2) (1,2) (2,1)
  have e2 := m (0,2) (2,1) (0,1) (2,2)
  have e3 := m (0,1) (1,2) (0,2) (1,1)
  have e4 := m (1,2) (2,0) (1,0) (2,2)
  have e5 := m (0,0) (2,2) (0,2) (2,0)
  have e6 := m (0,2) (1,0) (0,0) (1,2)
  have e7 := m (1,0) (2,1) (1,1) (2,0)
  have e8 := m (0,1) (2,0) (0,0) (2,1)
  have e9 := m (0,0) (1,1) (0,1) (1,0)
  simp only [Fin.val_zero, Fin.val_one, Fin.val_two] at e1 e2 e3 e4 e5 e6 e7 e8 e9
  rw [e1, e2, e3, e4, e5, e6, e7, e8, e9]
  simp only [res_ok_bind]
  obtain ⟨b, hb, hg, -⟩ := C35_new t (⟨[
    ⟨[a.get 1 1 * a.get 2 2 - a.get 1 2 * a.get 2 1, a.get 0 2 * a.get 2 1 - a.get 0 1 * a.get 2 2,
      a.get 0 1 * a.get 1 2 - a.get 0 2 * a.get 1 1], rfl⟩,
    ⟨[a.get 1 2 * a.get 2 0 - a.get 1 0 * a.get 2 2, a.get 0 0 * a.get 2 2 - a.get 0 2 * a.get 2 0,
      a.get 0 2 * a.get 1 0 - a.get 0 0 * a.get 1 2], rfl⟩,
    ⟨[a.get 1 0 * a.get 2 1 - a.get 1 1 * a.get 2 0, a.get 0 1 * a.get 2 0 - a.get 0 0 * a.get 2 1,
      a.get 0 0 * a.get 1 1 - a.get 0 1 * a.get 1 0], rfl⟩], rfl⟩ : Vec (Vec T 3) 3)
  rw [hb, res_ok_bind]
  refine smallInv_adj hdv t a.toMatrix b ?_
  ext i j
  rw [Mat.toMatrix_apply, hg, Matrix.adjugate_fin_three]
  fin_cases i <;> fin_cases j <;> simp [Vec.get] <;> ring

/-- `inverse()` at any size: a panic, `None`, or a left inverse. -/
theorem inverse_ring (hO : O.IsRing) (hdv : O.UnitDiv) (t : Target) (k : Nat) (a : Mat T (k + 1) (k + 1)) :
    a.inverse t O k = .error .panic ∨ a.inverse t O k = .ok none ∨
      ∃ x, a.inverse t O k = .ok (some x) ∧ x.toMatrix * a.toMatrix = 1 := by
  have small : ∀ {n : Nat} {A : Matrix (Fin n) (Fin n) T} {r}, SmallInv O A r →
      r = .error .panic ∨ r = .ok none ∨ ∃ x, r = .ok (some x) ∧ x.toMatrix * A = 1 := fun h =>
    h.1.imp id fun h => h.imp id fun h => h.2
  match k with
  | 0 => exact small (inv1_ring hO hdv t a)
  | 1 => exact small (inv2_ring hO hdv t a)
  | 2 => exact small (inv3_ring hO hdv t a)
  | k + 3 => exact (invGen_ring hO hdv t a).1.imp id fun h => h.imp id fun h => h.2

theorem ring_divOk (hO : O.IsRing) (hdv : O.UnitDiv) (t : Target) : Prog.DivOk t O (fun a b => a * Ring.inverse b) where
  div a b := (hdv a b).imp id fun ⟨q, h1, h2, h3⟩ => by rw [h1, ← h2, mul_assoc, Ring.mul_inverse_cancel _ h3, mul_one]
  det k a hk := determinant_ring hO hdv.exact t k a hk
  cof k a i j hk := cofactor_ring hO hdv.exact t k a i j (by omega) (by omega)
  inv k a := (inverse_ring hO hdv t k a).imp id fun h => h.imp id fun ⟨x, h1, h2⟩ => ⟨x, h1, (Matrix.inv_eq_left_inv h2).symm⟩

end Rowcol
