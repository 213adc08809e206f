import Verif.Lemmas.GJ
import Verif.Props.Index

/-! # C55-C57: inverse

`lead M k hk` is the leading principal `k × k` submatrix of `M` (rows and columns `0..k`). -/

namespace Rowcol

variable {T : Type} [Field T] {O : Ops T} (hO : O.IsField) (t : Target)

section small
include hO

theorem inv1_eq (a : Mat T 1 1) :
    (a.toMatrix.det = 0 ∧ a.inv1 t O = .ok none) ∨
    (a.toMatrix.det ≠ 0 ∧ ∃ x, a.inv1 t O = .ok (some x) ∧ x.toMatrix = a.toMatrix.det⁻¹ • a.toMatrix.adjugate) := by
  have hd : a.idxStatic t 0 0 = .ok a.toMatrix.det := det1_eq t a
  unfold Mat.inv1
  rw [hd, res_ok_bind]
  by_cases h : a.toMatrix.det = 0
  · exact Or.inl ⟨h, by rw [if_pos ((hO.isZero _).2 h)]; rfl⟩
  · refine Or.inr ⟨h, Mat.ofMatrix (a.toMatrix.det⁻¹ • a.toMatrix.adjugate), ?_, by simp⟩
    rw [if_neg (fun h' => h ((hO.isZero _).1 h')), hO.div _ _ h, res_ok_bind]
    obtain ⟨b, hb, hg, -⟩ := C35_new t (⟨[⟨[O.one / a.toMatrix.det], rfl⟩], rfl⟩ : Vec (Vec T 1) 1)
    rw [hb, res_ok_bind]
    refine congrArg (fun x => Except.ok (some x)) (Mat.ext_get fun i j => ?_)
    rw [hg, Mat.get_ofMatrix, Matrix.adjugate_fin_one]
    fin_cases i; fin_cases j
    simp [Vec.get, hO.one]

theorem inv2_eq (a : Mat T 2 2) :
    (a.toMatrix.det = 0 ∧ a.inv2 t O = .ok none) ∨
    (a.toMatrix.det ≠ 0 ∧ ∃ x, a.inv2 t O = .ok (some x) ∧ x.toMatrix = a.toMatrix.det⁻¹ • a.toMatrix.adjugate) := by
  unfold Mat.inv2
  rw [det2_eq hO.toIsRing, res_ok_bind]
  by_cases h : a.toMatrix.det = 0
  · exact Or.inl ⟨h, by rw [if_pos ((hO.isZero _).2 h)]; rfl⟩
  · refine Or.inr ⟨h, Mat.ofMatrix (a.toMatrix.det⁻¹ • a.toMatrix.adjugate), ?_, by simp⟩
    rw [if_neg (fun h' => h ((hO.isZero _).1 h')), Mat.idxStatic_ok t a (show 0 < 2 by omega) (show 0 < 2 by omega),
      Mat.idxStatic_ok t a (show 0 < 2 by omega) (show 1 < 2 by omega),
      Mat.idxStatic_ok t a (show 1 < 2 by omega) (show 0 < 2 by omega),
      Mat.idxStatic_ok t a (show 1 < 2 by omega) (show 1 < 2 by omega)]
    simp only [res_ok_bind, hO.neg]
    obtain ⟨b, hb, hg, -⟩ := C35_new t (⟨[⟨[a.get ⟨1, by omega⟩ ⟨1, by omega⟩, -a.get ⟨0, by omega⟩ ⟨1, by omega⟩], rfl⟩,
      ⟨[-a.get ⟨1, by omega⟩ ⟨0, by omega⟩, a.get ⟨0, by omega⟩ ⟨0, by omega⟩], rfl⟩], rfl⟩ : Vec (Vec T 2) 2)
    rw [hb, res_ok_bind]
    have hq : b.divScalar t O.div a.toMatrix.det = .ok (Mat.ofMatrix (a.toMatrix.det⁻¹ • a.toMatrix.adjugate)) := by
      rw [(C19_mat_ok t O.div (fun x => .ok x) b a.toMatrix.det _ b).2.1]
      intro i j
      rw [hO.div _ _ h, hg, Mat.get_ofMatrix, Matrix.adjugate_fin_two]
      congr 1
      rw [Matrix.smul_apply, smul_eq_mul, div_eq_inv_mul]
      congr 1
      fin_cases i <;> fin_cases j <;> rfl
    rw [hq]; rfl

theorem ms_eq (a : Mat T 3 3) (p q u v : Fin 3 × Fin 3) :
    a.ms t O (p.1.val, p.2.val) (q.1.val, q.2.val) (u.1.val, u.2.val) (v.1.val, v.2.val) =
      .ok (a.get p.1 p.2 * a.get q.1 q.2 - a.get u.1 u.2 * a.get v.1 v.2) := by
  simp only [Mat.ms, Mat.idxStatic_ok t a p.1.isLt p.2.isLt, Mat.idxStatic_ok t a q.1.isLt q.2.isLt,
    Mat.idxStatic_ok t a u.1.isLt u.2.isLt, Mat.idxStatic_ok t a v.1.isLt v.2.isLt, res_ok_bind, hO.mul, hO.sub, Fin.eta]

theorem inv3_eq (a : Mat T 3 3) :
    (a.toMatrix.det = 0 ∧ a.inv3 t O = .ok none) ∨
    (a.toMatrix.det ≠ 0 ∧ ∃ x, a.inv3 t O = .ok (some x) ∧ x.toMatrix = a.toMatrix.det⁻¹ • a.toMatrix.adjugate) := by
  unfold Mat.inv3
  rw [det3_eq hO.toIsRing, res_ok_bind]
  by_cases h : a.toMatrix.det = 0
  · exact Or.inl ⟨h, by rw [if_pos ((hO.isZero _).2 h)]; rfl⟩
  · refine Or.inr ⟨h, Mat.ofMatrix (a.toMatrix.det⁻¹ • a.toMatrix.adjugate), ?_, by simp⟩
    rw [if_neg (fun h' => h ((hO.isZero _).1 h'))]
    have m := ms_eq hO t a
    have e1 := m (1,1) (2,2) (1,2) (2,1)
    have e2 := m (0,2) (2,1) (0,1) (2,2)
    have e3 := m (0,1) (1,2) (0,2) (1,1)
    have e4 := m (1,2) (2,0) (1,0) (2,2)
    have e5 := m (0,0) (2,2) (0,2) (2,0)
    have e6 := m (0,2) (1,0) (0,0) (1,2)
    have e7 := m (1,0) (2,1) (1,1) (2,0)
    have e8 := m (0,1) (2,0) (0,0) (2,1)
    have e9 := m (0,0) (1,1) (0,1) (1,0)
    simp only [Fin.val_zero, Fin.val_one, Fin.val_two] at e1 e2 e3 e4 e5 e6 e7 e8 e9
    rw [e1, e2, e3, e4, e5, e6, e7, e8, e9]
    simp only [res_ok_bind]
    obtain ⟨b, hb, hg, -⟩ := C35_new t (⟨[
      ⟨[a.get 1 1 * a.get 2 2 - a.get 1 2 * a.get 2 1, a.get 0 2 * a.get 2 1 - a.get 0 1 * a.get 2 2,
        a.get 0 1 * a.get 1 2 - a.get 0 2 * a.get 1 1], rfl⟩,
      ⟨[a.get 1 2 * a.get 2 0 - a.get 1 0 * a.get 2 2, a.get 0 0 * a.get 2 2 - a.get 0 2 * a.get 2 0,
        a.get 0 2 * a.get 1 0 - a.get 0 0 * a.get 1 2], rfl⟩,
      ⟨[a.get 1 0 * a.get 2 1 - a.get 1 1 * a.get 2 0, a.get 0 1 * a.get 2 0 - a.get 0 0 * a.get 2 1,
        a.get 0 0 * a.get 1 1 - a.get 0 1 * a.get 1 0], rfl⟩], rfl⟩ : Vec (Vec T 3) 3)
    rw [hb, res_ok_bind]
    have hq : b.divScalar t O.div a.toMatrix.det = .ok (Mat.ofMatrix (a.toMatrix.det⁻¹ • a.toMatrix.adjugate)) := by
      rw [(C19_mat_ok t O.div (fun x => .ok x) b a.toMatrix.det _ b).2.1]
      intro i j
      rw [hO.div _ _ h, hg, Mat.get_ofMatrix, Matrix.adjugate_fin_three]
      congr 1
      rw [Matrix.smul_apply, smul_eq_mul, div_eq_inv_mul]
      congr 1
      fin_cases i <;> fin_cases j <;> simp [Vec.get] <;> ring
    rw [hq]; rfl

theorem invGen_eq {n : Nat} (a : Mat T n n) :
    ((∃ k, ∃ hk : k ≤ n, 0 < k ∧ (lead a.toMatrix k hk).det = 0) ∧ a.invGen t O = .ok none) ∨
    ((∀ k, ∀ hk : k ≤ n, 0 < k → (lead a.toMatrix k hk).det ≠ 0) ∧
      ∃ x, a.invGen t O = .ok (some x) ∧ x.toMatrix * a.toMatrix = 1) := by
  unfold Mat.invGen
  rw [Mat.clone_ok, res_ok_bind, identity_eq hO.toIsSemiring, res_ok_bind, List.range_eq_range']
  have := gjLoop_spec hO n 0 (by omega) a.toMatrix a.toMatrix 1 (fun a b h => absurd h (by omega)) (by rw [one_mul])
  rw [Mat.ofMatrix_toMatrix] at this
  rcases this with ⟨h1, h2⟩ | ⟨h1, B, h2, h3⟩
  · left; exact ⟨h1, by rw [h2]; rfl⟩
  · right; exact ⟨h1, Mat.ofMatrix B, by rw [h2]; rfl, by rw [Mat.toMatrix_ofMatrix]; exact h3⟩

end small

/-! ## C55 -/

/-- What `inverse()` returns is a left inverse. -/
theorem inverse_left (hO : O.IsField) (k : Nat) (a x : Mat T (k + 1) (k + 1)) (h : a.inverse t O k = .ok (some x)) :
    x.toMatrix * a.toMatrix = 1 := by
  have small : ∀ {n : Nat} (a x : Mat T n n) (r : Res (Option (Mat T n n))),
      ((a.toMatrix.det = 0 ∧ r = .ok none) ∨ (a.toMatrix.det ≠ 0 ∧ ∃ x, r = .ok (some x) ∧
        x.toMatrix = a.toMatrix.det⁻¹ • a.toMatrix.adjugate)) → r = .ok (some x) → x.toMatrix * a.toMatrix = 1 := by
    intro n a x r hr h
    rcases hr with ⟨_, h2⟩ | ⟨h1, y, h2, h3⟩
    · rw [h2] at h; exact absurd (Except.ok.inj h) (by simp)
    · rw [h2] at h
      obtain rfl := Option.some.inj (Except.ok.inj h)
      rw [h3, Matrix.smul_mul, Matrix.adjugate_mul, smul_smul, inv_mul_cancel₀ h1, one_smul]
  match k with
  | 0 => exact small a x _ (inv1_eq hO t a) h
  | 1 => exact small a x _ (inv2_eq hO t a) h
  | 2 => exact small a x _ (inv3_eq hO t a) h
  | k + 3 =>
    rcases invGen_eq hO t a with ⟨_, h2⟩ | ⟨_, y, h2, h3⟩
    · rw [Mat.inverse, h2] at h; exact absurd (Except.ok.inj h) (by simp)
    · rw [Mat.inverse, h2] at h
      obtain rfl := Option.some.inj (Except.ok.inj h)
      exact h3

/-- C55: if `inverse()` returns `Some(x)` then both `m * x` and `x * m` (as the crate computes them) are the identity
matrix, for every size over every field. -/
theorem C55_sound (hO : O.IsField) (k : Nat) (a x : Mat T (k + 1) (k + 1)) (hk : k + 1 < t.W)
    (h : a.inverse t O k = .ok (some x)) :
    ∃ e, Mat.identity t O (k + 1) = .ok e ∧ a.mulVV t O x = .ok e ∧ x.mulVV t O a = .ok e := by
  refine ⟨_, identity_eq hO.toIsSemiring t _, ?_, ?_⟩
  · rw [mulVV_eq hO.toIsSemiring t a x hk hk hk, mul_eq_one_comm.1 (inverse_left t hO k a x h)]
  · rw [mulVV_eq hO.toIsSemiring t x a hk hk hk, inverse_left t hO k a x h]

/-- C55: the returned matrix is the mathematical inverse (Mathlib's `⁻¹`). -/
theorem C55_unique (hO : O.IsField) (k : Nat) (a x : Mat T (k + 1) (k + 1)) (h : a.inverse t O k = .ok (some x)) :
    x.toMatrix = a.toMatrix⁻¹ := by
  have h1 := inverse_left t hO k a x h
  exact (Matrix.inv_eq_left_inv h1).symm

/-- `inverse()` never panics. -/
theorem inverse_ok (hO : O.IsField) (k : Nat) (a : Mat T (k + 1) (k + 1)) : ∃ o, a.inverse t O k = .ok o := by
  match k with
  | 0 => rcases inv1_eq hO t a with ⟨_, h⟩ | ⟨_, x, h, _⟩ <;> exact ⟨_, h⟩
  | 1 => rcases inv2_eq hO t a with ⟨_, h⟩ | ⟨_, x, h, _⟩ <;> exact ⟨_, h⟩
  | 2 => rcases inv3_eq hO t a with ⟨_, h⟩ | ⟨_, x, h, _⟩ <;> exact ⟨_, h⟩
  | k + 3 => rcases invGen_eq hO t a with ⟨_, h⟩ | ⟨_, x, h, _⟩ <;> exact ⟨_, h⟩

/-- C55: a singular matrix (one whose `determinant()` is zero) yields `None`. -/
theorem C55_singular (hO : O.IsField) (k : Nat) (a : Mat T (k + 1) (k + 1)) (hk : k + 1 < t.W)
    (h : a.determinant t O k = .ok 0) : a.inverse t O k = .ok none := by
  rw [C48_determinant hO t k a hk] at h
  have h0 := Except.ok.inj h
  obtain ⟨o, ho⟩ := inverse_ok t hO k a
  cases o with
  | none => exact ho
  | some x =>
    exfalso
    have h1 := congrArg Matrix.det (inverse_left t hO k a x ho)
    rw [Matrix.det_mul, h0, mul_zero, Matrix.det_one] at h1
    exact zero_ne_one h1

theorem inverse_ex : (⟨⟨[⟨[2, 1], rfl⟩, ⟨[7, 4], rfl⟩], rfl⟩⟩ : Mat ℚ 2 2).inverse ⟨true, true, 2 ^ 64⟩ (Ops.exact ℚ) 1 =
    .ok (some ⟨⟨[⟨[4, -1], rfl⟩, ⟨[-7, 2], rfl⟩], rfl⟩⟩) := by
  rcases inv2_eq (Ops.exact_isField ℚ) ⟨true, true, 2 ^ 64⟩ (⟨⟨[⟨[2, 1], rfl⟩, ⟨[7, 4], rfl⟩], rfl⟩⟩ : Mat ℚ 2 2) with
    ⟨h, _⟩ | ⟨_, x, h2, h3⟩
  · exfalso
    rw [Matrix.det_fin_two] at h
    simp [Mat.get, Vec.get] at h
    norm_num at h
  · rw [Mat.inverse, h2]
    refine congrArg (fun x => Except.ok (some x)) (Mat.toMatrix_injective ?_)
    rw [h3, Matrix.det_fin_two, Matrix.adjugate_fin_two]
    ext i j
    fin_cases i <;> fin_cases j <;> simp [Mat.get, Vec.get] <;> norm_num

/-! ## C56, C57 -/

/-- C57: for sizes from 4, `inverse()` returns `Some` exactly when all leading principal minors are non-zero. -/
theorem C57_minors (hO : O.IsField) (k : Nat) (hk : 3 ≤ k) (a : Mat T (k + 1) (k + 1)) :
    (∃ x, a.inverse t O k = .ok (some x)) ↔
      ∀ l, ∀ hl : l ≤ k + 1, 0 < l → (lead a.toMatrix l hl).det ≠ 0 := by
  obtain ⟨j, rfl⟩ : ∃ j, k = j + 3 := ⟨k - 3, by omega⟩
  rw [Mat.inverse]
  rcases invGen_eq hO t a with ⟨⟨l, hl, hl0, h1⟩, h2⟩ | ⟨h1, x, h2, _⟩
  · rw [h2]
    exact ⟨fun ⟨x, hx⟩ => absurd (Except.ok.inj hx) (by simp), fun h => absurd h1 (h l hl hl0)⟩
  · rw [h2]
    exact ⟨fun _ => h1, fun _ => ⟨x, rfl⟩⟩

/-- C57, other direction: some leading principal minor is zero exactly when `inverse()` returns `None`. -/
theorem C57_none (hO : O.IsField) (k : Nat) (hk : 3 ≤ k) (a : Mat T (k + 1) (k + 1)) :
    a.inverse t O k = .ok none ↔ ∃ l, ∃ hl : l ≤ k + 1, 0 < l ∧ (lead a.toMatrix l hl).det = 0 := by
  obtain ⟨o, ho⟩ := inverse_ok t hO k a
  have := C57_minors t hO k hk a
  constructor
  · intro h
    by_contra hc
    push Not at hc
    obtain ⟨x, hx⟩ := this.2 (fun l hl h0 => hc l hl h0)
    rw [h] at hx; exact absurd (Except.ok.inj hx) (by simp)
  · rintro ⟨l, hl, h0, hz⟩
    cases o with
    | none => exact ho
    | some x => exact absurd hz (this.1 ⟨x, ho⟩ l hl h0)

/-- C56, the part that holds: for sizes up to 3 `inverse()` returns `Some` exactly when the matrix is invertible, i.e.
has a non-zero `determinant()`.  Missing: sizes from 4, where the claim is false (`C56_false`; `C57_minors` says
exactly when a matrix is accepted). -/
theorem C56_complete_partial (hO : O.IsField) (k : Nat) (hk : k < 3) (a : Mat T (k + 1) (k + 1)) :
    (∃ x, a.inverse t O k = .ok (some x)) ↔ ∃ y : Matrix (Fin (k + 1)) (Fin (k + 1)) T, a.toMatrix * y = 1 := by
  have key : ∀ {n : Nat} (a : Mat T n n) (r : Res (Option (Mat T n n))),
      ((a.toMatrix.det = 0 ∧ r = .ok none) ∨ (a.toMatrix.det ≠ 0 ∧ ∃ x, r = .ok (some x) ∧
        x.toMatrix = a.toMatrix.det⁻¹ • a.toMatrix.adjugate)) →
      ((∃ x, r = .ok (some x)) ↔ ∃ y : Matrix (Fin n) (Fin n) T, a.toMatrix * y = 1) := by
    intro n a r hr
    rcases hr with ⟨h1, h2⟩ | ⟨h1, y, h2, h3⟩
    · rw [h2]
      refine ⟨fun ⟨x, hx⟩ => absurd (Except.ok.inj hx) (by simp), fun ⟨y, hy⟩ => ?_⟩
      have := congrArg Matrix.det hy
      rw [Matrix.det_mul, h1, zero_mul, Matrix.det_one] at this
      exact absurd this zero_ne_one
    · rw [h2]
      refine ⟨fun _ => ⟨a.toMatrix.det⁻¹ • a.toMatrix.adjugate, ?_⟩, fun _ => ⟨y, rfl⟩⟩
      rw [Matrix.mul_smul, Matrix.mul_adjugate, smul_smul, inv_mul_cancel₀ h1, one_smul]
  match k, hk with
  | 0, _ => exact key a _ (inv1_eq hO t a)
  | 1, _ => exact key a _ (inv2_eq hO t a)
  | 2, _ => exact key a _ (inv3_eq hO t a)

/-- The identity with its first two rows exchanged. -/
def swappedIdentity (T : Type) [Field T] (k : Nat) : Mat T (k + 2) (k + 2) :=
  Mat.ofFn fun i j => if Equiv.swap 0 1 i = j then 1 else 0

theorem swappedIdentity_sq (k : Nat) : (swappedIdentity T k).toMatrix * (swappedIdentity T k).toMatrix = 1 := by
  ext i j
  rw [Matrix.mul_apply]
  simp only [swappedIdentity, Mat.toMatrix_apply, Mat.get_ofFn, ite_mul, one_mul, zero_mul, Finset.sum_ite_eq,
    Finset.mem_univ, if_true, Equiv.swap_apply_self, Matrix.one_apply]

/-- C56 does not hold for any size from 4 over any field: exchanging two rows of the identity gives a matrix that is
its own inverse, yet `inverse()` returns `None`. -/
theorem C56_false (hO : O.IsField) (k : Nat) (hk : 2 ≤ k) (hW : k + 2 < t.W) :
    (∃ e, Mat.identity t O (k + 2) = .ok e ∧ (swappedIdentity T k).mulVV t O (swappedIdentity T k) = .ok e) ∧
      (swappedIdentity T k).inverse t O (k + 1) = .ok none := by
  refine ⟨⟨_, identity_eq hO.toIsSemiring t _, ?_⟩, ?_⟩
  · rw [mulVV_eq hO.toIsSemiring t _ _ hW hW hW, swappedIdentity_sq]
  · rw [C57_none t hO (k + 1) (by omega)]
    refine ⟨1, by omega, by omega, ?_⟩
    rw [Matrix.det_fin_one]
    simp [lead, swappedIdentity]

/-- A 4x4 matrix whose leading principal minors are all non-zero: the hypotheses of `C57_minors` are met. -/
example (hO : O.IsField) : ∃ x, (Mat.ofMatrix (1 : Matrix (Fin 4) (Fin 4) T)).inverse t O 3 = .ok (some x) := by
  rw [C57_minors t hO 3 (by omega)]
  intro l hl _
  rw [Mat.toMatrix_ofMatrix, lead, Matrix.submatrix_one _ (Fin.castLE_injective hl), Matrix.det_one]
  exact one_ne_zero

end Rowcol
