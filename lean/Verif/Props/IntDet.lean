import Verif.Props.DivZero
import Verif.Props.Ratio
import Verif.Props.Wrap
import Mathlib.LinearAlgebra.Matrix.SchurComplement

/-! # C51: integer determinants of size 4 and more -/

namespace Rowcol

variable {T : Type} {n : Nat}

/-- Arithmetic of a commutative ring with an exact zero test and some division: it returns something for every non-zero
divisor, and zero divided by anything else is zero.  `BigInt` (truncating division) and fields are examples. -/
structure Ops.IsDivRing [CommRing T] (O : Ops T) : Prop extends O.IsRing where
  isZero : ∀ a, O.isZero a = true ↔ a = 0
  div : ∀ a b, b ≠ 0 → ∃ q, O.div a b = .ok q
  zero_div : ∀ b, b ≠ 0 → O.div 0 b = .ok 0

theorem Ops.int_isDivRing : Ops.int.IsDivRing where
  toIsRing := Ops.int_isRing
  isZero a := by simp [Ops.int]
  div a b h := ⟨a.tdiv b, by simp [Ops.int, h]⟩
  zero_div b h := by simp [Ops.int, h]

/-- Upper or lower triangular. -/
def IsTriangular [Zero T] (M : Matrix (Fin n) (Fin n) T) : Prop :=
  (∀ a b, b < a → M a b = 0) ∨ (∀ a b, a < b → M a b = 0)

theorem elimRow_ring [CommRing T] {O : Ops T} (hO : O.IsRing) (M : Matrix (Fin n) (Fin n) T) (i j : Fin n) (hij : i ≠ j) (d : T) :
    Mat.elimRow O (Mat.ofMatrix M) i j d = .ok (Mat.ofMatrix (M.updateRow j (M j + (-d) • M i))) := by
  have := foldlM_range (fun mat k => do
    let sub ← O.sub (← mat.index (j.val, k)) (← O.mul (← mat.index (i.val, k)) d)
    mat.indexSet (j.val, k) sub) (fun k => Mat.ofMatrix (rowState M j (M j + (-d) • M i) k)) n (by
      intro k hk
      rw [rowState_get_self M j _ ⟨k, hk⟩, rowState_get_ne M i j hij _ ⟨k, hk⟩ ⟨k, hk⟩]
      simp only [res_ok_bind, hO.mul, hO.sub]
      have e : M j ⟨k, hk⟩ - M i ⟨k, hk⟩ * d = (M j + (-d) • M i) ⟨k, hk⟩ := by
        simp [Pi.add_apply, Pi.smul_apply, sub_eq_add_neg, mul_comm]
      rw [e]
      exact rowState_set M j _ ⟨k, hk⟩)
  simp only [rowState_zero, rowState_end] at this
  exact this

theorem diagProd_ring [CommRing T] {O : Ops T} (hO : O.IsRing) (M : Matrix (Fin n) (Fin n) T) :
    (List.range n).foldlM (fun acc i => do
      let x ← (Mat.ofMatrix M).index (i, i)
      O.mul acc x) O.one = .ok (∏ i, M i i) := by
  have key : ∀ (l : List (Fin n)) (x : T), (l.map Fin.val).foldlM (fun acc i => do
      let x ← (Mat.ofMatrix M).index (i, i)
      O.mul acc x) x = .ok (x * (l.map fun i => M i i).prod) := by
    intro l
    induction l with
    | nil => intro x; simp
    | cons a as ih =>
      intro x
      rw [List.map_cons, List.foldlM_cons, index_ofMatrix M a.isLt a.isLt]
      rw [res_ok_bind, Fin.eta, hO.mul, res_ok_bind, ih]; simp [mul_assoc]
  rw [Vec.range_eq, key, hO.one, one_mul, Fin.prod_univ_def]

/-- Elimination step by step: a predicate on matrices kept by every row operation is kept by the elimination. -/
theorem elimCol_inv [CommRing T] {O : Ops T} (hO : O.IsDivRing) (P : Matrix (Fin n) (Fin n) T → Prop)
    (hP : ∀ (M : Matrix (Fin n) (Fin n) T) (i j : Fin n) (q : T), P M → i < j → M i i ≠ 0 → O.div (M j i) (M i i) = .ok q →
      P (M.updateRow j (M j + (-q) • M i)))
    (i : Fin n) (js : List Nat) (M : Matrix (Fin n) (Fin n) T) (hjs : ∀ j ∈ js, i.val < j ∧ j < n) (hM : P M) :
    Mat.elimCol O i js (Mat.ofMatrix M) = .ok none ∨
    ∃ M', Mat.elimCol O i js (Mat.ofMatrix M) = .ok (some (Mat.ofMatrix M')) ∧ P M' := by
  induction js generalizing M with
  | nil => exact .inr ⟨M, rfl, hM⟩
  | cons j js ih =>
    obtain ⟨hj1, hj2⟩ := hjs j (by simp)
    unfold Mat.elimCol
    rw [index_ofMatrix M i.isLt i.isLt, index_ofMatrix M hj2 i.isLt]
    simp only [res_ok_bind, Fin.eta]
    by_cases hz : O.isZero (M i i) = true
    · left; simp [hz]
    · have hp : M i i ≠ 0 := fun h => hz ((hO.isZero _).2 h)
      obtain ⟨q, hq⟩ := hO.div (M ⟨j, hj2⟩ i) (M i i) hp
      have hij : i ≠ ⟨j, hj2⟩ := fun h => by have := congrArg Fin.val h; simp only at this; omega
      have hrow := elimRow_ring hO.toIsRing M i ⟨j, hj2⟩ hij q
      simp only at hrow
      simp only [hz, Bool.false_eq_true, if_false, hq, res_ok_bind, hrow]
      exact ih _ (fun x hx => hjs x (by simp [hx])) (hP M i ⟨j, hj2⟩ q hM (Fin.lt_def.2 hj1) hp hq)

theorem elimAll_inv [CommRing T] {O : Ops T} (hO : O.IsDivRing) (P : Matrix (Fin n) (Fin n) T → Prop)
    (hP : ∀ (M : Matrix (Fin n) (Fin n) T) (i j : Fin n) (q : T), P M → i < j → M i i ≠ 0 → O.div (M j i) (M i i) = .ok q →
      P (M.updateRow j (M j + (-q) • M i)))
    (is : List Nat) (M : Matrix (Fin n) (Fin n) T) (his : ∀ i ∈ is, i < n) (hM : P M) :
    Mat.elimAll O is (Mat.ofMatrix M) = .ok none ∨
    ∃ M', Mat.elimAll O is (Mat.ofMatrix M) = .ok (some (Mat.ofMatrix M')) ∧ P M' := by
  induction is generalizing M with
  | nil => exact .inr ⟨M, rfl, hM⟩
  | cons i is ih =>
    have hi := his i (by simp)
    rw [Mat.elimAll]
    rcases elimCol_inv hO P hP ⟨i, hi⟩ (List.range' (i + 1) (n - (i + 1))) M
      (fun j hj => by rw [List.mem_range'_1] at hj; exact ⟨by simp only; omega, by omega⟩) hM with h | ⟨M', h1, h2⟩
    · left; simp only at h; rw [h]; rfl
    · simp only at h1; rw [h1]
      exact ih M' (fun x hx => his x (by simp [hx])) h2

theorem triangular_step [CommRing T] {O : Ops T} (hO : O.IsDivRing) (M0 M : Matrix (Fin n) (Fin n) T) (i j : Fin n) (q : T)
    (hM : IsTriangular M ∧ ∀ a, M a a = M0 a a) (hij : i < j) (hp : M i i ≠ 0) (hq : O.div (M j i) (M i i) = .ok q) :
    IsTriangular (M.updateRow j (M j + (-q) • M i)) ∧ ∀ a, M.updateRow j (M j + (-q) • M i) a a = M0 a a := by
  obtain ⟨hM | hM, hd⟩ := hM
  · rw [hM j i hij, hO.zero_div _ hp] at hq
    have : q = 0 := (Except.ok.inj hq).symm
    subst this
    simp only [neg_zero, zero_smul, add_zero, Matrix.updateRow_eq_self]
    exact ⟨.inl hM, hd⟩
  · refine ⟨.inr fun a b hab => ?_, fun a => ?_⟩
    · rw [Matrix.updateRow_apply]
      split
      · rename_i h
        subst h
        simp [hM a b hab, hM i b (hij.trans hab)]
      · exact hM a b hab
    · rw [Matrix.updateRow_apply, ← hd]
      split
      · rename_i h
        subst h
        simp [hM i a hij]
      · rfl

theorem det_triangular [CommRing T] (M : Matrix (Fin n) (Fin n) T) (h : IsTriangular M) : M.det = ∏ i, M i i := by
  rcases h with h | h
  · exact Matrix.det_of_isUpperTriangular fun a b hab => h a b hab
  · rw [← Matrix.det_transpose]
    exact Matrix.det_of_isUpperTriangular (M := M.transpose) fun a b hab => h b a hab

theorem Ops.IsDivRing.total [CommRing T] {O : Ops T} (hO : O.IsDivRing) : O.TotalExceptDivZero where
  add a b := ⟨_, hO.add a b⟩
  sub a b := ⟨_, hO.sub a b⟩
  mul a b := ⟨_, hO.mul a b⟩
  neg a := ⟨_, hO.neg a⟩
  div a b h := hO.div a b fun h' => by rw [(hO.isZero b).2 h'] at h; cases h

/-- The cofactor of a given position, when the minor's determinant is known. -/
theorem cofGen_at [CommRing T] {O : Ops T} (hO : O.IsRing) (t : Target) (det : Mat T n n → Res T)
    (a : Mat T (n + 1) (n + 1)) (i j : Fin (n + 1)) (hn : n + 1 < t.W) (hij : i.val + j.val < t.W) (d : T)
    (hd : det (Mat.ofMatrix (a.toMatrix.submatrix i.succAbove j.succAbove)) = .ok d) :
    Mat.cofGen t O det a (i, j) = .ok ((-1) ^ (i.val + j.val) * d) := by
  unfold Mat.cofGen
  simp only [i.isLt, j.isLt, and_self, if_true, minor_eq t a i j hn, cofSign_eq hO t i j hij, res_ok_bind, hd, hO.mul]

/-- The expansion along the first column, when the cofactors are known. -/
theorem expansion_at [CommRing T] {O : Ops T} (hO : O.IsRing) (a : Mat T (n + 1) (n + 1)) (cof : Nat × Nat → Res T)
    (f : Fin (n + 1) → T) (hc : ∀ i : Fin (n + 1), cof (i, 0) = .ok (f i)) :
    (List.range (n + 1)).foldlM (fun acc i => do
      let p ← O.mul (← a.index (i, 0)) (← cof (i, 0))
      O.add acc p) O.zero = .ok (∑ i, a.get i 0 * f i) := by
  have := fin_sum_foldlM hO (n + 1) (fun i => do O.mul (← a.index (i, 0)) (← cof (i, 0))) (fun i => a.get i 0 * f i) (by
    intro i
    simp only [Mat.index_ok a i.isLt (show 0 < n + 1 by omega), res_ok_bind, hc, hO.mul]; rfl)
  simp only [bind_assoc] at this
  exact this

/-- A zero first row: the elimination gives up at once and the expansion yields zero. -/
theorem determinant_zero_row [CommRing T] {O : Ops T} (hO : O.IsDivRing) (t : Target) (k : Nat) (a : Mat T (k + 1) (k + 1))
    (hk : k + 1 < t.W) (h : ∀ b, a.get 0 b = 0) : a.determinant t O k = .ok 0 := by
  induction k with
  | zero => rw [C50_small hO.toIsRing t 0 (by omega), Matrix.det_eq_zero_of_row_eq_zero (A := a.toMatrix) 0 h]
  | succ k ih =>
    match k, ih with
    | 0, _ => rw [C50_small hO.toIsRing t 1 (by omega), Matrix.det_eq_zero_of_row_eq_zero (A := a.toMatrix) 0 h]
    | 1, _ => rw [C50_small hO.toIsRing t 2 (by omega), Matrix.det_eq_zero_of_row_eq_zero (A := a.toMatrix) 0 h]
    | k + 2, ih =>
      rw [Mat.determinant, Mat.detGen, Mat.clone_ok, res_ok_bind]
      have hel : Mat.elimAll O (List.range (k + 2 + 1 + 1)) a = .ok none := by
        rw [List.range_succ_eq_map, Mat.elimAll, show k + 2 + 1 + 1 - (0 + 1) = (k + 2) + 1 by omega, List.range'_succ,
          Mat.elimCol, Mat.index_ok a (by omega) (by omega)]
        have hz : O.isZero (a.get 0 0) = true := (hO.isZero _).2 (h _)
        simp [hz]
      rw [hel, res_ok_bind]
      simp only
      have htot : ∀ i : Fin (k + 2 + 1 + 1), ∃ d, Mat.determinant t O (k + 2)
          (Mat.ofMatrix (a.toMatrix.submatrix i.succAbove (0 : Fin (k + 2 + 1 + 1)).succAbove)) = .ok d ∧ (i ≠ 0 → d = 0) := by
        intro i
        by_cases hi : i = 0
        · obtain ⟨d, hd⟩ := C52_determinant_total hO.total t (k + 2)
            (Mat.ofMatrix (a.toMatrix.submatrix i.succAbove (0 : Fin (k + 2 + 1 + 1)).succAbove)) (by omega)
          exact ⟨d, hd, fun h' => absurd hi h'⟩
        · refine ⟨0, ih _ (by omega) fun b => ?_, fun _ => rfl⟩
          rw [Mat.get_ofMatrix, Matrix.submatrix_apply, Fin.succAbove_ne_zero_zero hi]
          exact h _
      choose d hd hd0 using htot
      rw [expansion_at hO.toIsRing a _ _ fun i => cofGen_at hO.toIsRing t _ a i 0 hk (by simp; omega) (d i) (hd i)]
      congr 1
      apply Finset.sum_eq_zero
      intro i _
      by_cases hi : i = 0
      · subst hi; rw [h, zero_mul]
      · rw [hd0 i hi, mul_zero, mul_zero]

/-- C51, more of what holds: `determinant()` of a triangular matrix (upper or lower) of any size is exact, although the
divisions of the elimination are not; also when diagonal entries are zero. -/
theorem C51_triangular_partial [CommRing T] {O : Ops T} (hO : O.IsDivRing) (t : Target) (k : Nat) (a : Mat T (k + 1) (k + 1))
    (hk : k + 1 < t.W) (h : IsTriangular a.toMatrix) :
    a.determinant t O k = .ok a.toMatrix.det ∧ a.toMatrix.det = ∏ i, a.get i i := by
  refine ⟨?_, det_triangular _ h⟩
  induction k with
  | zero => exact C50_small hO.toIsRing t 0 (by omega) a
  | succ k ih =>
    match k, ih with
    | 0, _ => exact C50_small hO.toIsRing t 1 (by omega) a
    | 1, _ => exact C50_small hO.toIsRing t 2 (by omega) a
    | k + 2, ih =>
      rw [Mat.determinant, Mat.detGen, Mat.clone_ok, res_ok_bind]
      have hel := elimAll_inv hO (fun M => IsTriangular M ∧ ∀ i, M i i = a.toMatrix i i)
        (fun M i j q => triangular_step hO a.toMatrix M i j q) (List.range (k + 2 + 1 + 1)) a.toMatrix (by simp) ⟨h, fun _ => rfl⟩
      rw [Mat.ofMatrix_toMatrix] at hel
      rcases hel with hel | ⟨M', hel, h1, h2⟩
      · rw [hel, res_ok_bind]
        simp only
        have htot : ∀ i : Fin (k + 2 + 1 + 1), ∃ d, Mat.determinant t O (k + 2)
            (Mat.ofMatrix (a.toMatrix.submatrix i.succAbove (0 : Fin (k + 2 + 1 + 1)).succAbove)) = .ok d ∧
            a.get i 0 * d = a.get i 0 * (a.toMatrix.submatrix i.succAbove (0 : Fin (k + 2 + 1 + 1)).succAbove).det := by
          intro i
          by_cases hi : i = 0
          · subst hi
            refine ⟨_, ih _ (by omega) ?_, by rw [Mat.toMatrix_ofMatrix]⟩
            rw [Mat.toMatrix_ofMatrix]
            rcases h with h | h
            · exact .inl fun x y hxy => h _ _ (by simpa using hxy)
            · exact .inr fun x y hxy => h _ _ (by simpa using hxy)
          · rcases h with h | h
            · obtain ⟨d, hd⟩ := C52_determinant_total hO.total t (k + 2)
                (Mat.ofMatrix (a.toMatrix.submatrix i.succAbove (0 : Fin (k + 2 + 1 + 1)).succAbove)) (by omega)
              have h0 : a.get i 0 = 0 := h i 0 (Fin.pos_of_ne_zero hi)
              exact ⟨d, hd, by rw [h0, zero_mul, zero_mul]⟩
            · have hz : ∀ b, a.toMatrix.submatrix i.succAbove (0 : Fin (k + 2 + 1 + 1)).succAbove 0 b = 0 := by
                intro b
                rw [Matrix.submatrix_apply, Fin.succAbove_ne_zero_zero hi]
                exact h 0 _ (by simp)
              refine ⟨0, determinant_zero_row hO t (k + 2) _ (by omega) fun b => ?_, ?_⟩
              · rw [Mat.get_ofMatrix]; exact hz b
              · rw [Matrix.det_eq_zero_of_row_eq_zero 0 hz]
        choose d hd hd0 using htot
        rw [expansion_at hO.toIsRing a _ _ fun i => cofGen_at hO.toIsRing t _ a i 0 hk (by simp; omega) (d i) (hd i),
          Matrix.det_succ_column_zero]
        congr 1
        apply Finset.sum_congr rfl
        intro i _
        have := hd0 i
        simp only [Fin.val_zero, add_zero]
        rw [mul_left_comm, this, ← mul_assoc]; rfl
      · rw [hel, res_ok_bind]
        simp only
        rw [diagProd_ring hO.toIsRing, det_triangular _ h]
        simp only [h2]

/-- A lower triangular integer matrix on which divisions leave remainders, and one with a zero on its diagonal. -/
def lowerInt : Mat Int 4 4 := Mat.ofFn ![![2, 0, 0, 0], ![3, 5, 0, 0], ![1, 7, 3, 0], ![9, 8, 7, 2]]
example : lowerInt.determinant ⟨true, true, 2 ^ 64⟩ Ops.int 3 = .ok 60 := by rfl
example : IsTriangular lowerInt.toMatrix := by
  right; intro a b h; fin_cases a <;> fin_cases b <;> simp at h <;> rfl

/-! ### Exact divisions -/

/-- Integers whose division panics when it leaves a remainder. -/
def Ops.intExact : Ops Int where
  zero := 0
  one := 1
  add a b := .ok (a + b)
  sub a b := .ok (a - b)
  mul a b := .ok (a * b)
  div a b := if b ≠ 0 ∧ b ∣ a then .ok (a.tdiv b) else .error .panic
  neg a := .ok (-a)
  isZero a := a = 0

theorem intExact_int : Ops.intExact.DivHom Ops.int id where
  zero := rfl
  one := rfl
  add _ _ := .ok _
  sub _ _ := .ok _
  mul _ _ := .ok _
  neg _ := .ok _
  isZero _ := rfl
  div a b hb := by
    have hb' : b ≠ 0 := by simpa [Ops.intExact] using hb
    simp only [Ops.intExact, Ops.int, id, if_neg hb']
    split
    · exact .ok _
    · exact .panic _

theorem intExact_rat : Ops.intExact.DivHom (Ops.exact ℚ) (fun z : Int => (z : ℚ)) where
  zero := by simp [Ops.intExact, Ops.exact]
  one := by simp [Ops.intExact, Ops.exact]
  add a b := .ok' (by push_cast; rfl)
  sub a b := .ok' (by push_cast; rfl)
  mul a b := .ok' (by push_cast; rfl)
  neg a := .ok' (by push_cast; rfl)
  isZero a := by simp [Ops.intExact, Ops.exact]
  div a b hb := by
    have hb' : b ≠ 0 := by simpa [Ops.intExact] using hb
    have hb'' : (b : ℚ) ≠ 0 := by exact_mod_cast hb'
    simp only [Ops.intExact, Ops.exact, if_neg hb'']
    split
    · rename_i h
      refine .ok' ?_
      obtain ⟨c, rfl⟩ := h.2
      rw [Int.mul_tdiv_cancel_left _ h.1]
      push_cast
      field_simp
    · exact .panic _

/-- C51, more of what holds: whenever no division performed leaves a remainder (so that integers in which such divisions
panic do not panic), `determinant()` of an integer matrix of any size is exact. -/
theorem C51_exact_division_partial (t : Target) (k : Nat) (a : Mat Int (k + 1) (k + 1)) (hk : k + 1 < t.W) (d : Int)
    (h : a.determinant t Ops.intExact k = .ok d) : a.determinant t Ops.int k = .ok d ∧ d = a.toMatrix.det := by
  constructor
  · have h1 := sim_det intExact_int t t rfl k a hk
    rw [show a.mapV id = a from Mat.ext_get fun i j => by simp, h] at h1
    exact h1.of_ok
  · have h1 := C75_determinant intExact_rat t k a hk
    rw [h] at h1
    have h2 := Except.ok.inj h1.of_ok
    have e : a.vals (fun z : Int => (z : ℚ)) = a.toMatrix.map (Int.castRingHom ℚ) := rfl
    rw [e, ← RingHom.mapMatrix_apply, ← RingHom.map_det] at h2
    rw [eq_intCast] at h2
    exact_mod_cast h2.symm

/-- Pivots 1, 1, 3, 2: every division is exact. -/
def exactInt : Mat Int 4 4 := Mat.ofFn ![![1, 2, 3, 4], ![2, 5, 7, 9], ![3, 7, 13, 16], ![1, 2, 6, 9]]
example : ∃ d, exactInt.determinant ⟨true, true, 2 ^ 64⟩ Ops.intExact 3 = .ok d ∧ d ≠ 0 := ⟨_, rfl, by decide⟩

/-! ### The failure at every size from 4 -/

/-- All multipliers zero: the elimination changes nothing. -/
theorem elimCol_fixed [CommRing T] {O : Ops T} (hO : O.IsDivRing) (M : Matrix (Fin n) (Fin n) T)
    (h : ∀ i j : Fin n, i < j → M i i ≠ 0 ∧ O.div (M j i) (M i i) = .ok 0) (i : Fin n) (js : List Nat)
    (hjs : ∀ j ∈ js, i.val < j ∧ j < n) : Mat.elimCol O i js (Mat.ofMatrix M) = .ok (some (Mat.ofMatrix M)) := by
  induction js with
  | nil => rfl
  | cons j js ih =>
    obtain ⟨hj1, hj2⟩ := hjs j (by simp)
    obtain ⟨hp, hq⟩ := h i ⟨j, hj2⟩ (Fin.lt_def.2 hj1)
    unfold Mat.elimCol
    rw [index_ofMatrix M i.isLt i.isLt, index_ofMatrix M hj2 i.isLt]
    simp only [res_ok_bind, Fin.eta]
    have hz : ¬ O.isZero (M i i) = true := fun h' => hp ((hO.isZero _).1 h')
    have hij : i ≠ ⟨j, hj2⟩ := fun h => by have := congrArg Fin.val h; simp only at this; omega
    have hrow := elimRow_ring hO.toIsRing M i ⟨j, hj2⟩ hij 0
    simp only [neg_zero, zero_smul, add_zero, Matrix.updateRow_eq_self] at hrow
    simp only [hz, Bool.false_eq_true, if_false, hq, res_ok_bind, hrow]
    exact ih fun x hx => hjs x (by simp [hx])

theorem elimAll_fixed [CommRing T] {O : Ops T} (hO : O.IsDivRing) (M : Matrix (Fin n) (Fin n) T)
    (h : ∀ i j : Fin n, i < j → M i i ≠ 0 ∧ O.div (M j i) (M i i) = .ok 0) (is : List Nat) (his : ∀ i ∈ is, i < n) :
    Mat.elimAll O is (Mat.ofMatrix M) = .ok (some (Mat.ofMatrix M)) := by
  induction is with
  | nil => rfl
  | cons i is ih =>
    have hi := his i (by simp)
    rw [Mat.elimAll]
    have := elimCol_fixed hO M h ⟨i, hi⟩ (List.range' (i + 1) (n - (i + 1)))
      (fun j hj => by rw [List.mem_range'_1] at hj; exact ⟨by simp only; omega, by omega⟩)
    simp only at this
    rw [this]
    exact ih fun x hx => his x (by simp [hx])

/-- `[[2, 1], [1, 2]]` in the top left corner of an identity matrix. -/
def cornerVec (n : Nat) : Fin n → Int := fun i => if i.val < 2 then 1 else 0
def cornerInt (n : Nat) : Mat Int n n := Mat.ofFn fun i j => (if i = j then 1 else 0) + cornerVec n i * cornerVec n j

theorem cornerInt_get (n : Nat) (i j : Fin n) :
    (cornerInt n).get i j = (if i = j then 1 else 0) + cornerVec n i * cornerVec n j := by
  simp [cornerInt]

/-- C51 does not hold at any size from 4 on: for every such size there is an integer matrix, of determinant 3, for which
`determinant()` returns 4. -/
theorem C51_false_every_size (t : Target) (k : Nat) (hk : 3 ≤ k) :
    ∃ a : Mat Int (k + 1) (k + 1), a.determinant t Ops.int k = .ok 4 ∧ a.toMatrix.det = 3 := by
  obtain ⟨k, rfl⟩ : ∃ m, k = m + 3 := ⟨k - 3, by omega⟩
  refine ⟨cornerInt (k + 3 + 1), ?_, ?_⟩
  · rw [Mat.determinant, Mat.detGen, Mat.clone_ok, res_ok_bind]
    have hel := elimAll_fixed Ops.int_isDivRing (cornerInt (k + 3 + 1)).toMatrix (by
      intro i j hij
      have e1 : (cornerInt (k + 3 + 1)).toMatrix i i = 1 + cornerVec _ i * cornerVec _ i := by
        simp [Mat.toMatrix, cornerInt_get]
      have e2 : (cornerInt (k + 3 + 1)).toMatrix j i = cornerVec _ j * cornerVec _ i := by
        simp [Mat.toMatrix, cornerInt_get, hij.ne']
      rw [e1, e2]
      rcases Nat.lt_or_ge i.val 2 with hi | hi <;> rcases Nat.lt_or_ge j.val 2 with hj | hj <;>
        simp [cornerVec, Ops.int, hi, hj, Nat.not_lt.2] ) (List.range (k + 3 + 1)) (by simp)
    rw [Mat.ofMatrix_toMatrix] at hel
    rw [hel, res_ok_bind]
    simp only
    have := diagProd_ring Ops.int_isRing (cornerInt (k + 3 + 1)).toMatrix
    rw [Mat.ofMatrix_toMatrix] at this
    rw [this, Fin.prod_univ_succ, Fin.prod_univ_succ]
    have : ∀ i : Fin (k + 2), (cornerInt (k + 3 + 1)).toMatrix i.succ.succ i.succ.succ = 1 := by
      intro i
      simp [Mat.toMatrix, cornerInt_get, cornerVec]
    simp only [this]
    simp [Mat.toMatrix, cornerInt_get, cornerVec]
  · have e : (cornerInt (k + 3 + 1)).toMatrix = 1 + Matrix.replicateCol Unit (cornerVec _) * Matrix.replicateRow Unit (cornerVec _) := by
      ext i j
      simp [Mat.toMatrix, cornerInt_get, Matrix.one_apply, Matrix.mul_apply]
    rw [e, Matrix.det_one_add_replicateCol_mul_replicateRow]
    simp [dotProduct, Fin.sum_univ_succ, cornerVec]

end Rowcol
