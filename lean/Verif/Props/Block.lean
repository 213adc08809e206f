import Verif.Model.Block
import Verif.Props.Products
import Verif.Props.Natural
import Verif.Props.Det
import Verif.Props.Misc
import Mathlib.Algebra.Ring.TransferInstance
import Mathlib.RingTheory.Norm.Transitivity

/-! # C96: matrices of matrices -/

namespace Rowcol

variable {T : Type} {l n r c m p q R C : Nat}

namespace Spec

/-- A matrix of `p x q` matrices read as one big matrix: row `i` of the big one is row `i % p` of the blocks in block row `i / p`, and
likewise for columns. -/
def flat (hR : R = r * p) (hC : C = c * q) (a : Mat (Mat T p q) r c) : Mat T R C :=
  Mat.ofFn fun i j => (a.get (i.cast hR).divNat (j.cast hC).divNat).get (i.cast hR).modNat (j.cast hC).modNat

/-- A vector of `p x q` matrices as one matrix: the blocks on top of each other. -/
def stack (hR : R = n * p) (v : Vec (Mat T p q) n) : Mat T R q :=
  Mat.ofFn fun i j => (v.get (i.cast hR).divNat).get (i.cast hR).modNat j

end Spec
open Spec

/-- The entries of `flat`, the other way round. -/
theorem flat_get (a : Mat (Mat T p q) r c) (i : Fin r) (k : Fin p) (j : Fin c) (x : Fin q) :
    (flat rfl rfl a).get (finProdFinEquiv (i, k)) (finProdFinEquiv (j, x)) = (a.get i j).get k x := by
  have h1 := finProdFinEquiv.symm_apply_apply (i, k)
  have h2 := finProdFinEquiv.symm_apply_apply (j, x)
  rw [finProdFinEquiv_symm_apply, Prod.mk.injEq] at h1 h2
  simp only [flat, Mat.get_ofFn, Fin.cast_eq_self, h1, h2]

/-! ### Square matrices form a ring -/

/-- A `Mat` is a Mathlib matrix. -/
def Mat.matrixEquiv (T : Type) (r c : Nat) : Mat T r c ≃ Matrix (Fin r) (Fin c) T where
  toFun := Mat.toMatrix
  invFun := Mat.ofMatrix
  left_inv := Mat.ofMatrix_toMatrix
  right_inv := Mat.toMatrix_ofMatrix

noncomputable instance [Semiring T] : Semiring (Mat T m m) := (Mat.matrixEquiv T m m).semiring
noncomputable instance [Ring T] : Ring (Mat T m m) := (Mat.matrixEquiv T m m).ring

/-- `toMatrix` as an isomorphism of rings. -/
noncomputable def Mat.ringIso (T : Type) (m : Nat) [Semiring T] : Mat T m m ≃+* Matrix (Fin m) (Fin m) T :=
  (Mat.matrixEquiv T m m).ringEquiv

theorem Mat.ringIso_apply [Semiring T] (a : Mat T m m) : Mat.ringIso T m a = a.toMatrix := rfl

/-- `zero()` and `one()` of `Matrix<T, N, N>` are what `Ops.block` says. -/
theorem Ops.block_zero (t : Target) (O : Ops T) : Mat.zero t m m O.zero = .ok (Ops.block t O m).zero :=
  Mat.generate_ok t _ _ (fun _ _ => by simp)

theorem Ops.block_one (t : Target) (O : Ops T) : Mat.one t O m = .ok (Ops.block t O m).one :=
  Mat.generate_ok t (fun p => pure (if p.1 = p.2 then O.one else O.zero)) _ (fun i j => by simp [Fin.val_inj])

theorem Ops.block_isSemiring [Semiring T] {O : Ops T} (hO : O.IsSemiring) (t : Target) (hm : m < t.W) :
    (Ops.block t O m).IsSemiring where
  zero := (Mat.ringIso T m).injective (by
    rw [map_zero, Mat.ringIso_apply]; ext i j; simp [Ops.block, Mat.toMatrix, hO.zero])
  one := (Mat.ringIso T m).injective (by
    rw [map_one, Mat.ringIso_apply]; ext i j; simp [Ops.block, Mat.toMatrix, hO.zero, hO.one, Matrix.one_apply])
  add a b := matAdd' hO t a b
  mul a b := mulVV_eq hO t a b hm hm hm

theorem Ops.block_isRing [Ring T] {O : Ops T} (hO : O.IsRing) (t : Target) (hm : m < t.W) : (Ops.block t O m).IsRing where
  toIsSemiring := Ops.block_isSemiring hO.toIsSemiring t hm
  sub a b := by
    rw [show a - b = Mat.ofMatrix (a.toMatrix - b.toMatrix) from rfl]
    exact (C18_mat_ok t O.sub (Mat.opVV t O.sub) (by simp [matForms]) a b _).2 fun i j => by simp [hO.sub]
  neg a := by
    rw [show -a = Mat.ofMatrix (-a.toMatrix) from rfl]
    exact (C19_mat_ok t (fun x _ => .ok x) O.neg a () a _).2.2.2 fun i j => by simp [hO.neg]

/-! ### Big matrices -/

/-- A matrix of matrices as a matrix indexed by pairs. -/
def pairMatrix (M : Matrix (Fin r) (Fin c) (Mat T p q)) : Matrix (Fin r × Fin p) (Fin c × Fin q) T :=
  fun x y => (M x.1 y.1).toMatrix x.2 y.2

/-- The numbering of the rows of `flat`. -/
def flatEquiv (h : R = r * p) : Fin R ≃ Fin r × Fin p := (finCongr h).trans finProdFinEquiv.symm

theorem flat_toMatrix (hR : R = r * p) (hC : C = c * q) (a : Mat (Mat T p q) r c) :
    (flat hR hC a).toMatrix = (pairMatrix a.toMatrix).submatrix (flatEquiv hR) (flatEquiv hC) := by
  ext i j
  simp [flat, Mat.toMatrix, pairMatrix, flatEquiv, finProdFinEquiv]

theorem flat_ofMatrix (hR : R = r * p) (hC : C = c * q) (M : Matrix (Fin r) (Fin c) (Mat T p q)) :
    flat hR hC (Mat.ofMatrix M) = Mat.ofMatrix ((pairMatrix M).submatrix (flatEquiv hR) (flatEquiv hC)) := by
  rw [← Mat.ofMatrix_toMatrix (flat hR hC _), flat_toMatrix, Mat.toMatrix_ofMatrix]

section Semiring
variable [Semiring T] {O : Ops T}

theorem toMatrix_sum {ι : Type} (s : Finset ι) (f : ι → Mat T m m) : (∑ i ∈ s, f i).toMatrix = ∑ i ∈ s, (f i).toMatrix :=
  map_sum (Mat.ringIso T m) f s

theorem toMatrix_mul (a b : Mat T m m) : (a * b).toMatrix = a.toMatrix * b.toMatrix := map_mul (Mat.ringIso T m) a b

theorem pairMatrix_mul (M : Matrix (Fin l) (Fin n) (Mat T m m)) (N : Matrix (Fin n) (Fin c) (Mat T m m)) :
    pairMatrix (M * N) = pairMatrix M * pairMatrix N := by
  ext x y
  simp only [pairMatrix, Matrix.mul_apply, toMatrix_sum, toMatrix_mul, Matrix.sum_apply, Fintype.sum_prod_type]

theorem pairMatrix_one : pairMatrix (1 : Matrix (Fin n) (Fin n) (Mat T m m)) = 1 := by
  ext x y
  simp only [pairMatrix, Matrix.one_apply]
  by_cases h : x.1 = y.1
  · rw [if_pos h, show (1 : Mat T m m).toMatrix = 1 from map_one (Mat.ringIso T m), Matrix.one_apply]
    simp [Prod.ext_iff, h]
  · rw [if_neg h, show (0 : Mat T m m).toMatrix = 0 from map_zero (Mat.ringIso T m)]
    simp [Prod.ext_iff, h]

theorem pairMatrix_pow (M : Matrix (Fin n) (Fin n) (Mat T m m)) (k : Nat) : pairMatrix (M ^ k) = pairMatrix M ^ k := by
  induction k with
  | zero => rw [pow_zero, pow_zero, pairMatrix_one]
  | succ k ih => rw [pow_succ, pow_succ, pairMatrix_mul, ih]

/-- C96, matrix products: multiplying matrices of matrices is multiplying the big matrices, in every form of `*`. -/
theorem C96_mul (hO : O.IsSemiring) (t : Target) (a : Mat (Mat T m m) l n) (b : Mat (Mat T m m) n c) {L N C : Nat}
    (hL : L = l * m) (hN : N = n * m) (hC : C = c * m) (wl : l < t.W) (wn : n < t.W) (wc : c < t.W) (wm : m < t.W)
    (wL : L < t.W) (wN : N < t.W) (wC : C < t.W)
    (op) (hop : op ∈ mulForms (l := l) (n := n) (c := c) t (Ops.block t O m)) (op') (hop' : op' ∈ mulForms (l := L) (n := N) (c := C) t O) :
    ∃ w, op a b = .ok w ∧ op' (flat hL hN a) (flat hN hC b) = .ok (flat hL hC w) := by
  refine ⟨_, mul_eq (Ops.block_isSemiring hO t wm) t op hop a b wl wn wc, ?_⟩
  rw [mul_eq hO t op' hop' _ _ wL wN wC, flat_ofMatrix, pairMatrix_mul, flat_toMatrix, flat_toMatrix, Matrix.submatrix_mul_equiv]

/-- C96, powers. -/
theorem C96_pow (hO : O.IsSemiring) (t : Target) (a : Mat (Mat T m m) n n) (k : Nat) {N : Nat} (hN : N = n * m) (wn : n < t.W)
    (wm : m < t.W) (wN : N < t.W) :
    ∃ w, a.pow t (Ops.block t O m) k = .ok w ∧ (flat hN hN a).pow t O k = .ok (flat hN hN w) := by
  refine ⟨_, pow_eq (Ops.block_isSemiring hO t wm) t a k wn, ?_⟩
  rw [pow_eq hO t _ k wN, flat_ofMatrix, pairMatrix_pow, flat_toMatrix]
  congr 2
  generalize pairMatrix a.toMatrix = M
  induction k with
  | zero => simp
  | succ k ih => rw [pow_succ, pow_succ, ← Matrix.submatrix_mul_equiv _ _ _ (flatEquiv hN), ih]

/-- C96, matrix times vector: the big product with the stacked blocks. -/
theorem C96_mul_vec (hO : O.IsSemiring) (t : Target) (a : Mat (Mat T m m) r c) (v : Vec (Mat T m m) c) {R C : Nat} (hR : R = r * m)
    (hC : C = c * m) (wr : r < t.W) (wm : m < t.W) (wR : R < t.W) (wC : C < t.W) :
    ∃ w, a.mulVec t (Ops.block t O m) v = .ok w ∧ a.mulVecRef t (Ops.block t O m) v = .ok w ∧
      (flat hR hC a).mulVV t O (stack hC v) = .ok (stack hR w) := by
  have h := mulVec_eq (Ops.block_isSemiring hO t wm) t a v wr
  refine ⟨_, h.1, h.2, ?_⟩
  rw [mulVV_eq hO t _ _ wR wC wm]
  congr 1
  refine Mat.ext_get fun i j => ?_
  rw [Mat.get_ofMatrix, flat_toMatrix, Matrix.mul_apply]
  simp only [stack, Mat.get_ofFn, Vec.get_ofFn, Matrix.mulVec, dotProduct]
  rw [show ∀ x : Mat T m m, x.get (i.cast hR).modNat j = x.toMatrix (i.cast hR).modNat j from fun _ => rfl, toMatrix_sum, Matrix.sum_apply]
  simp only [toMatrix_mul, Matrix.mul_apply]
  rw [← Fintype.sum_prod_type' (f := fun x y => (a.toMatrix (i.cast hR).divNat x).toMatrix (i.cast hR).modNat y *
    (v.get x).toMatrix y j)]
  refine Fintype.sum_equiv (flatEquiv hC) _ _ fun x => ?_
  simp [Mat.toMatrix, pairMatrix, flatEquiv, finProdFinEquiv]

/-- C96, `sum`: summing the blocks, then the entries of that sum, is summing all entries. -/
theorem C96_sum (hO : O.IsSemiring) (t : Target) (a : Mat (Mat T m m) r c) {R C : Nat} (hR : R = r * m) (hC : C = c * m)
    (wm : m < t.W) : ∃ s, a.sum (Ops.block t O m) = .ok s ∧ s.sum O = (flat hR hC a).sum O := by
  refine ⟨_, C26_mat_sum (Ops.block_isSemiring hO t wm) a, ?_⟩
  rw [C26_mat_sum hO, C26_mat_sum hO]
  congr 1
  have h1 : ∀ i j, (flat hR hC a).get i j = pairMatrix a.toMatrix (flatEquiv hR i) (flatEquiv hC j) := fun i j =>
    congrFun (congrFun (flat_toMatrix hR hC a) i) j
  simp only [h1]
  rw [Fintype.sum_equiv (flatEquiv hR) _ (fun x => ∑ y, pairMatrix a.toMatrix x y) (fun i =>
    Fintype.sum_equiv (flatEquiv hC) _ _ fun j => rfl)]
  simp only [Fintype.sum_prod_type]
  rw [show (∑ i, ∑ j, a.get i j) = ∑ i, ∑ j, a.get i j from rfl]
  have h2 : ∀ i j, (∑ i, ∑ j, a.get i j).get i j = (∑ i, ∑ j, a.get i j).toMatrix i j := fun _ _ => rfl
  simp only [h2, toMatrix_sum, Matrix.sum_apply]
  rw [Finset.sum_congr rfl fun x _ => Finset.sum_comm, Finset.sum_comm]
  refine Finset.sum_congr rfl fun i _ => ?_
  refine Finset.sum_congr rfl fun x _ => ?_
  rw [Finset.sum_comm]
  rfl

/-- C96, multiplying by a block: every block is multiplied by `x` from the right, so the big matrix is multiplied by the block diagonal
matrix with `x` along the diagonal. -/
theorem C96_scale (hO : O.IsSemiring) (t : Target) (a : Mat (Mat T m m) r c) (x : Mat T m m) (d : Mat (Mat T m m) c c)
    (hd : ∀ i j, d.get i j = if i = j then x else Mat.ofFn fun _ _ => O.zero) {R C : Nat} (hR : R = r * m)
    (hC : C = c * m) (wm : m < t.W) (wR : R < t.W) (wC : C < t.W) :
    ∃ w, a.mulScalar t (Ops.block t O m).mul x = .ok w ∧ (flat hR hC a).mulVV t O (flat hC hC d) = .ok (flat hR hC w) := by
  have hB := Ops.block_isSemiring hO t wm
  refine ⟨_, matSmul' hB t a x, ?_⟩
  have e : d.toMatrix = Matrix.scalar (Fin c) x := by
    ext1 i j
    rw [Matrix.scalar_apply, Matrix.diagonal_apply, Mat.toMatrix, hd, ← hB.zero]
    rfl
  rw [mulVV_eq hO t _ _ wR wC wC, flat_ofMatrix, pairMatrix_mul, flat_toMatrix, flat_toMatrix, Matrix.submatrix_mul_equiv, e]

/-- C96: the identity matrix of identity blocks is the big identity matrix. -/
theorem C96_identity (hO : O.IsSemiring) (t : Target) {N : Nat} (hN : N = n * m) (wm : m < t.W) :
    ∃ w, Mat.identity t (Ops.block t O m) n = .ok w ∧ Mat.identity t O N = .ok (flat hN hN w) := by
  refine ⟨_, identity_eq (Ops.block_isSemiring hO t wm) t n, ?_⟩
  rw [identity_eq hO, flat_ofMatrix, pairMatrix_one]
  simp

end Semiring

theorem flat_apply (hR : R = r * p) (hC : C = c * q) (a : Mat (Mat T p q) r c) (i : Fin R) (j : Fin C) :
    (flat hR hC a).get i j = (a.get (flatEquiv hR i).1 (flatEquiv hC j).1).get (flatEquiv hR i).2 (flatEquiv hC j).2 :=
  congrFun (congrFun (flat_toMatrix hR hC a) i) j

/-- A statement about the numbers of all rows of the big matrix. -/
theorem forall_flat (hR : R = r * p) (P : Fin r → Fin p → Prop) :
    (∀ i : Fin R, P (flatEquiv hR i).1 (flatEquiv hR i).2) ↔ ∀ i k, P i k :=
  ((flatEquiv hR).forall_congr_left (p := fun i => P (flatEquiv hR i).1 (flatEquiv hR i).2)).trans (by simp [Prod.forall])

/-- C96, elementwise operations (`+`, `-`), and unary minus, for any element operations, which may round or panic, and also for
rectangular blocks: a result is produced exactly if it is for the big matrices, and it is the same. -/
theorem C96_elementwise (t : Target) (f : T → T → Res T) (g : T → Res T) (a b : Mat (Mat T p q) r c) (hR : R = r * p)
    (hC : C = c * q) (w : Mat (Mat T p q) r c) :
    (∀ inner ∈ matForms t f, ∀ op ∈ matForms t inner, ∀ op' ∈ matForms t f,
      (op a b = .ok w ↔ op' (flat hR hC a) (flat hR hC b) = .ok (flat hR hC w))) ∧
    (a.neg t (fun x => x.neg t g) = .ok w ↔ (flat hR hC a).neg t g = .ok (flat hR hC w)) := by
  refine ⟨fun inner hin op hop op' hop' => ?_, ?_⟩
  · rw [C18_mat_ok t _ op hop, C18_mat_ok t _ op' hop']
    simp only [C18_mat_ok t _ inner hin, flat_apply]
    constructor
    · intro h i j; exact h _ _ _ _
    · intro h i j k x
      have := (forall_flat hR (fun i k => ∀ j : Fin C, f ((a.get i (flatEquiv hC j).1).get k (flatEquiv hC j).2)
        ((b.get i (flatEquiv hC j).1).get k (flatEquiv hC j).2) = .ok ((w.get i (flatEquiv hC j).1).get k (flatEquiv hC j).2))).1 h i k
      exact (forall_flat hC (fun j x => f ((a.get i j).get k x) ((b.get i j).get k x) = .ok ((w.get i j).get k x))).1 this j x
  · have e : ∀ {r c : Nat} {V : Type} (g : V → Res V) (a w : Mat V r c),
        a.neg t g = .ok w ↔ ∀ i j, g (a.get i j) = .ok (w.get i j) := fun g a w => (C19_mat_ok t (fun x _ => .ok x) g a () a w).2.2
    rw [e, e]
    simp only [e, flat_apply]
    constructor
    · intro h i j; exact h _ _ _ _
    · intro h i j k x
      have := (forall_flat hR (fun i k => ∀ j : Fin C, g ((a.get i (flatEquiv hC j).1).get k (flatEquiv hC j).2)
        = .ok ((w.get i (flatEquiv hC j).1).get k (flatEquiv hC j).2))).1 h i k
      exact (forall_flat hC (fun j x => g ((a.get i j).get k x) = .ok ((w.get i j).get k x))).1 this j x

/-- C96: the transpose of the big matrix is the transposed matrix of the transposed blocks, also for rectangular blocks. -/
theorem C96_transposed (t : Target) (a : Mat (Mat T p q) r c) (hR : R = r * p) (hC : C = c * q) (wc : c < t.W) (wq : q < t.W)
    (wC : C < t.W) :
    ∃ b : Mat (Mat T p q) c r, a.transposed t = .ok b ∧
    ∃ b' : Mat (Mat T q p) c r, (∀ i j, (b.get i j).transposed t = .ok (b'.get i j)) ∧
      (flat hR hC a).transposed t = .ok (flat hC hR b') := by
  refine ⟨_, transposed_eq t a wc, Mat.ofFn fun i j => Mat.ofMatrix (a.get j i).toMatrix.transpose, fun i j => ?_, ?_⟩
  · rw [transposed_eq t _ wq, Mat.get_ofFn, Mat.get_ofMatrix]
    rfl
  · rw [transposed_eq t _ wC]
    congr 1
    refine Mat.ext_get fun i j => ?_
    simp [flat, Mat.toMatrix, Matrix.transpose]

/-- C96, `==` and `is_zero()`: the same answer as for the big matrices. -/
theorem C96_eq_zero (eq : T → T → Bool) (isz : T → Bool) (a b : Mat (Mat T p q) r c) (hR : R = r * p) (hC : C = c * q) :
    a.eq (fun x y => x.eq eq y) b = (flat hR hC a).eq eq (flat hR hC b) ∧
    a.isZero (fun x => x.isZero isz) = (flat hR hC a).isZero isz := by
  have key : ∀ P : Fin r → Fin p → Fin c → Fin q → Prop, (∀ (i : Fin R) (j : Fin C), P (flatEquiv hR i).1 (flatEquiv hR i).2
      (flatEquiv hC j).1 (flatEquiv hC j).2) ↔ ∀ i j k x, P i k j x := by
    intro P
    rw [forall_flat hR (fun i k => ∀ j : Fin C, P i k (flatEquiv hC j).1 (flatEquiv hC j).2)]
    constructor
    · intro h i j k x; exact (forall_flat hC (fun j x => P i k j x)).1 (h i k) j x
    · intro h i k j; exact h _ _ _ _
  refine ⟨?_, ?_⟩
  · rw [Bool.eq_iff_iff, C30_mat_eq, C30_mat_eq]
    simp only [C30_mat_eq, flat_apply]
    rw [key (fun i k j x => eq ((a.get i j).get k x) ((b.get i j).get k x) = true)]
  · have e : ∀ {r c : Nat} {V : Type} (isz : V → Bool) (a : Mat V r c), a.isZero isz = true ↔ ∀ i j, isz (a.get i j) = true :=
      fun isz a => (C32_is_zero isz ⟨[], rfl⟩ a).2
    rw [Bool.eq_iff_iff, e, e]
    simp only [e, flat_apply]
    rw [key (fun i k j x => isz ((a.get i j).get k x) = true)]

open scoped IsMulCommutative in
/-- C96, determinants: if the blocks commute with each other, the determinant (a block) of a matrix of size up to 3 has the same
determinant as the big matrix. -/
theorem C96_determinant [CommRing T] {O : Ops T} (hO : O.IsRing) (t : Target) (k : Nat) (hk : k < 3) (wm : m < t.W)
    (a : Mat (Mat T m m) (k + 1) (k + 1)) {N : Nat} (hN : N = (k + 1) * m)
    (hcomm : ∀ i j i' j', (a.get i j).mulVV t O (a.get i' j') = (a.get i' j').mulVV t O (a.get i j)) :
    ∃ d, a.determinant t (Ops.block t O m) k = .ok d ∧ d.toMatrix.det = (flat hN hN a).toMatrix.det := by
  have hB := Ops.block_isRing hO t wm
  let s : Set (Mat T m m) := {x | ∃ i j, x = a.get i j}
  have hs : ∀ x ∈ s, ∀ y ∈ s, x * y = y * x := by
    rintro _ ⟨i, j, rfl⟩ _ ⟨i', j', rfl⟩
    have h := hcomm i j i' j'
    have h1 := hB.mul (a.get i j) (a.get i' j')
    have h2 := hB.mul (a.get i' j') (a.get i j)
    rw [show (Ops.block t O m).mul = Mat.mulVV t O from rfl] at h1 h2
    rw [h1, h2] at h
    exact Except.ok.inj h
  let S := Subring.closure s
  have : IsMulCommutative S := Subring.isMulCommutative_closure hs
  let f : S →+* Mat T m m := S.subtype
  let OS : Ops S := ⟨0, 1, fun a b => .ok (a + b), fun a b => .ok (a - b), fun a b => .ok (a * b), fun _ _ => .error .panic,
    fun a => .ok (-a), fun _ => false⟩
  have hOS : OS.IsRing := { zero := rfl, one := rfl, add := fun _ _ => rfl, mul := fun _ _ => rfl, sub := fun _ _ => rfl, neg := fun _ => rfl }
  let b : Mat S (k + 1) (k + 1) := Mat.ofFn fun i j => ⟨a.get i j, Subring.subset_closure ⟨i, j, rfl⟩⟩
  have hab : b.mapV f = a := Mat.ext_get fun i j => by simp [b, f, S]
  have h1 := C85_det_small (t := t) (C85_types.1 hOS hB f) k (by omega) b
  rw [hab, C50_small hOS t k hk b] at h1
  refine ⟨_, h1, ?_⟩
  have h2 := Matrix.det_det (M := b.toMatrix) (((Mat.ringIso T m).toRingHom).comp f)
  rw [flat_toMatrix, Matrix.det_submatrix_equiv_self]
  refine Eq.trans ?_ (h2.trans ?_)
  · rfl
  · congr 1
    ext x y
    simp [Matrix.comp_apply, pairMatrix, Mat.toMatrix, b, f, S, Mat.ringIso_apply]

/-- C96: over a field, `determinant()` of the big matrix is `determinant()` of the block that `determinant()` of the matrix of commuting
blocks returns. -/
theorem C96_determinant_twice [Field T] {O : Ops T} (hO : O.IsField) (t : Target) (k : Nat) (hk : k < 3)
    (a : Mat (Mat T (m + 1) (m + 1)) (k + 1) (k + 1)) {N : Nat} (hN : N + 1 = (k + 1) * (m + 1)) (wN : N + 1 < t.W)
    (hcomm : ∀ i j i' j', (a.get i j).mulVV t O (a.get i' j') = (a.get i' j').mulVV t O (a.get i j)) :
    ∃ d, a.determinant t (Ops.block t O (m + 1)) k = .ok d ∧
      d.determinant t O m = (flat hN hN a).determinant t O N := by
  have wm : m + 1 < t.W := by
    have : (k + 1) * (m + 1) = k * (m + 1) + (m + 1) := by ring
    omega
  obtain ⟨d, h1, h2⟩ := C96_determinant hO.toIsRing t k hk wm a hN hcomm
  exact ⟨d, h1, by rw [C48_determinant hO t m d wm, C48_determinant hO t N _ wN, h2]⟩

/-- Blocks that do not commute: the matrix units, arranged so that the big matrix is a permutation matrix. -/
def units22 : Mat (Mat Int 2 2) 2 2 := Mat.ofFn fun i j => Mat.ofFn fun k x => if k = j ∧ x = i then 1 else 0

/-- C96: if the blocks do not commute, the determinant of the determinant may be wrong. -/
theorem C96_determinant_may_fail (t : Target) (ht : 2 < t.W) :
    ∃ d, units22.determinant t (Ops.block t Ops.int 2) 1 = .ok d ∧ d.toMatrix.det = 0 ∧
      (flat (R := 4) (C := 4) rfl rfl units22).toMatrix.det = -1 := by
  have hB := Ops.block_isRing Ops.int_isRing t ht
  refine ⟨units22.get 0 0 * units22.get 1 1 - units22.get 1 0 * units22.get 0 1, ?_, ?_, ?_⟩
  · have e : ∀ (p q : Nat) (hp : p < 2) (hq : q < 2), units22.idxStatic t p q = .ok (units22.get ⟨p, hp⟩ ⟨q, hq⟩) :=
      fun p q hp hq => Mat.idxStatic_ok t units22 hp hq
    change units22.det2 t (Ops.block t Ops.int 2) = _
    unfold Mat.det2
    rw [e 0 0 (by decide) (by decide), e 1 1 (by decide) (by decide), e 1 0 (by decide) (by decide), e 0 1 (by decide) (by decide)]
    simp only [res_ok_bind, hB.mul, hB.sub]
    rfl
  · rw [show (units22.get 0 0 * units22.get 1 1 - units22.get 1 0 * units22.get 0 1).toMatrix =
      (units22.get 0 0).toMatrix * (units22.get 1 1).toMatrix - (units22.get 1 0).toMatrix * (units22.get 0 1).toMatrix from by
        rw [← toMatrix_mul, ← toMatrix_mul]; exact map_sub (Mat.ringIso Int 2) _ _]
    rw [Matrix.det_fin_two]
    decide +kernel
  · decide +kernel

/-! ### Examples -/

/-- A 1x2 matrix of 2x2 matrices, and the 2x4 matrix it stands for. -/
def blocks12 : Mat (Mat Int 2 2) 1 2 := Mat.ofFn fun _ j => Mat.ofFn fun k x => (10 * k.val + 2 * j.val + x.val : Nat)

example : (flat (R := 2) (C := 4) rfl rfl blocks12).toLists = [[0, 1, 2, 3], [10, 11, 12, 13]] := by decide +kernel

/-- Commuting blocks: the multiples of one matrix and the identity. -/
def blocks22 : Mat (Mat Int 2 2) 2 2 := Mat.ofFn fun i j => Mat.ofFn fun k x =>
  if k = x then 2 * i.val + j.val else if k < x then 1 else 0

example : ∃ d, blocks22.determinant debug64 (Ops.block debug64 Ops.int 2) 1 = .ok d ∧
    d.toMatrix.det = (flat (R := 4) (C := 4) rfl rfl blocks22).toMatrix.det :=
  C96_determinant Ops.int_isRing debug64 1 (by decide) (by decide) blocks22 rfl (by
    have h : ∀ i j i' j' k x : Fin 2, ((blocks22.get i j).toMatrix * (blocks22.get i' j').toMatrix) k x =
      ((blocks22.get i' j').toMatrix * (blocks22.get i j).toMatrix) k x := by decide +kernel
    intro i j i' j'
    have w : 2 < debug64.W := by decide
    rw [mulVV_eq Ops.int_isRing.toIsSemiring _ _ _ w w w, mulVV_eq Ops.int_isRing.toIsSemiring _ _ _ w w w,
      Matrix.ext fun k x => h i j i' j' k x])

example : ∃ w, blocks12.mulVV debug64 (Ops.block debug64 Ops.int 2) (blocks22.mapV id) = .ok w :=
  (C96_mul Ops.int_isRing.toIsSemiring debug64 blocks12 (blocks22.mapV id) rfl rfl rfl (by decide) (by decide) (by decide) (by decide)
    (by decide) (by decide) (by decide) _ (by simp [mulForms]) (Mat.mulVV debug64 Ops.int) (by simp [mulForms])).imp
    fun _ h => h.1

end Rowcol
