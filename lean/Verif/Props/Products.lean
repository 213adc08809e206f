import Verif.Lemmas.Mul
import Verif.Model.Examples
import Mathlib.LinearAlgebra.CrossProduct
import Mathlib.Data.Nat.Fib.Basic
import Mathlib.Data.UInt

/-! # C23, C24, C26, C39, C41-C47: products and sums -/

namespace Rowcol

variable {T : Type} {r c l n : Nat}

/-! ## C23 -/

/-- C23: `dot` is the sum of the products, over any semiring. -/
theorem C23_dot [Semiring T] {O : Ops T} (hO : O.IsSemiring) (a b : Vec T n) :
    a.dot O b = .ok (∑ i, a.get i * b.get i) := by
  rw [Vec.dot, Vec.zip_eq, mulFold_fin hO]

/-- C23: `dot` is symmetric, additive and homogeneous over a commutative ring. -/
theorem C23_dot_laws [CommRing T] {O : Ops T} (hO : O.IsRing) (t : Target) (a b x : Vec T n) (s : T) :
    a.dot O b = b.dot O a ∧
    (do let y ← Vec.opVV t O.add a b; y.dot O x) =
      (do let p ← a.dot O x; let q ← b.dot O x; O.add p q) ∧
    (do let y ← Vec.opVV t O.add a b; x.dot O y) =
      (do let p ← x.dot O a; let q ← x.dot O b; O.add p q) ∧
    (do let y ← a.mulScalar t O.mul s; y.dot O x) = (do let p ← a.dot O x; O.mul p s) ∧
    (do let y ← a.mulScalar t O.mul s; x.dot O y) = (do let p ← x.dot O a; O.mul p s) := by
  simp only [C23_dot hO.toIsSemiring, vecAdd O hO, vecSmul O hO, res_ok_bind, hO.add, hO.mul, Vec.get_ofFn,
    Except.ok.injEq, ← Finset.sum_add_distrib, Finset.sum_mul]
  refine ⟨?_, ?_, ?_, ?_, ?_⟩ <;> apply Finset.sum_congr rfl <;> intro i _ <;> ring

example : (⟨[1, 2, 3], rfl⟩ : Vec Int 3).dot Ops.int ⟨[4, -5, 6], rfl⟩ = .ok 12 := rfl

/-! ## C24 -/

theorem cross_eq [CommRing T] {O : Ops T} (hO : O.IsRing) (t : Target) (a b : Vec T 3) :
    a.cross t O b = .ok (Vec.ofFn (crossProduct a.get b.get)) := by
  have h0 : (0 : Nat) < 3 := by omega
  have h1 : (1 : Nat) < 3 := by omega
  have h2 : (2 : Nat) < 3 := by omega
  simp only [Vec.cross, Vec.getUnchecked_ok t _ h0, Vec.getUnchecked_ok t _ h1, Vec.getUnchecked_ok t _ h2,
    res_ok_bind, hO.mul, hO.sub, res_pure, Except.ok.injEq]
  apply Vec.ext_get
  intro i
  rw [Vec.get_ofFn, cross_apply]
  match i with
  | 0 => rfl
  | 1 => rfl
  | 2 => rfl

/-- C24: `cross` never panics or reads out of bounds and has the entries of the vector product. -/
theorem C24_cross [CommRing T] {O : Ops T} (hO : O.IsRing) (t : Target) (a b : Vec T 3) :
    ∃ w : Vec T 3, a.cross t O b = .ok w ∧
      w.get 0 = a.get 1 * b.get 2 - a.get 2 * b.get 1 ∧
      w.get 1 = a.get 2 * b.get 0 - a.get 0 * b.get 2 ∧
      w.get 2 = a.get 0 * b.get 1 - a.get 1 * b.get 0 :=
  ⟨_, cross_eq hO t a b, by simp [cross_apply], by simp [cross_apply], by simp [cross_apply]⟩

/-- C24: orthogonality, anticommutativity, `a × a = 0`, the Jacobi identity and Lagrange's identity. -/
theorem C24_cross_laws [CommRing T] {O : Ops T} (hO : O.IsRing) (t : Target) (a b d : Vec T 3) :
    (do let w ← a.cross t O b; a.dot O w) = .ok 0 ∧
    (do let w ← a.cross t O b; b.dot O w) = .ok 0 ∧
    (do let w ← a.cross t O b; w.neg t O.neg) = b.cross t O a ∧
    a.cross t O a = Vec.zero t 3 0 ∧
    (do let x ← b.cross t O d; let x ← a.cross t O x
        let y ← d.cross t O a; let y ← b.cross t O y
        let z ← a.cross t O b; let z ← d.cross t O z
        let s ← Vec.opVV t O.add x y; Vec.opVV t O.add s z) = Vec.zero t 3 0 ∧
    (do let w ← a.cross t O b; w.dot O w) =
      (do let p ← a.dot O a; let q ← b.dot O b; let s ← a.dot O b
          let pq ← O.mul p q; let ss ← O.mul s s; O.sub pq ss) := by
  have e : ∀ f : Fin 3 → T, (Vec.ofFn f).get = f := fun f => funext fun i => Vec.get_ofFn f i
  simp only [cross_eq hO t, C23_dot hO.toIsSemiring, vecAdd O hO, vecNeg O hO, vecZero, res_ok_bind, e, hO.mul, hO.sub,
    Except.ok.injEq]
  refine ⟨?_, ?_, ?_, ?_, ?_, ?_⟩
  · exact dot_self_cross _ _
  · exact dot_cross_self _ _
  · rw [← cross_anticomm a.get b.get]; rfl
  · rw [cross_self]; rfl
  · apply Vec.ext_get; intro i
    simp only [e]
    exact congrFun (jacobi_cross a.get b.get d.get) i
  · simp only [cross_apply, Fin.sum_univ_three]
    simp; ring

example : (⟨[1, 2, 3], rfl⟩ : Vec Int 3).cross ⟨true, true, 2 ^ 64⟩ Ops.int ⟨[4, 5, 6], rfl⟩ =
    .ok ⟨[-3, 6, -3], rfl⟩ := rfl

/-! ## C26 -/

/-- C26: `sum` of a vector is the sum of its entries. -/
theorem C26_vec_sum [Semiring T] {O : Ops T} (hO : O.IsSemiring) (v : Vec T n) : v.sum O = .ok (∑ i, v.get i) := by
  rw [Vec.sum, foldlM_add hO, hO.zero, zero_add, Vec.toList_eq, Fin.sum_univ_def]

/-- C26: `sum` of a matrix is the sum of its entries. -/
theorem C26_mat_sum [Semiring T] {O : Ops T} (hO : O.IsSemiring) (a : Mat T r c) :
    a.sum O = .ok (∑ i, ∑ j, a.get i j) := by
  have : ∀ (l : List (Vec T c)) (x : T), l.foldlM (fun acc row => do
      let s ← row.sum O
      O.add acc s) x = .ok (x + (l.map fun row => ∑ j, row.get j).sum) := by
    intro l
    simp only [C26_vec_sum hO, res_ok_bind, hO.add]
    induction l with
    | nil => intro x; simp
    | cons row l ih => intro x; simp [ih, add_assoc]
  rw [Mat.sum, this, hO.zero, zero_add, Vec.toList_eq, List.map_map, Fin.sum_univ_def]; rfl

/-- C26: `sum` is additive, and does not depend on the order of the entries. -/
theorem C26_sum_laws [CommRing T] {O : Ops T} (hO : O.IsRing) (t : Target) (v w : Vec T n) (a b : Mat T r c)
    (σ : Equiv.Perm (Fin n)) :
    (do let x ← Vec.opVV t O.add v w; x.sum O) = (do let p ← v.sum O; let q ← w.sum O; O.add p q) ∧
    (do let x ← Mat.opVV t O.add a b; x.sum O) = (do let p ← a.sum O; let q ← b.sum O; O.add p q) ∧
    (Vec.ofFn fun i => v.get (σ i)).sum O = v.sum O := by
  simp only [C26_vec_sum hO.toIsSemiring, C26_mat_sum hO.toIsSemiring, vecAdd O hO, matAdd O hO, res_ok_bind, hO.add,
    Vec.get_ofFn, Mat.get_ofFn, Except.ok.injEq, Finset.sum_add_distrib, true_and]
  exact Equiv.sum_comp σ fun i => v.get i

example : (⟨⟨[⟨[1, 2], rfl⟩, ⟨[3, 4], rfl⟩], rfl⟩⟩ : Mat Int 2 2).sum Ops.int = .ok 10 := rfl

/-! ## C39 -/

theorem identity_eq [Semiring T] {O : Ops T} (hO : O.IsSemiring) (t : Target) (n : Nat) :
    Mat.identity t O n = .ok (Mat.ofMatrix (1 : Matrix (Fin n) (Fin n) T)) := by
  apply Mat.generate_ok
  intro i j
  rw [Matrix.one_apply]
  by_cases h : i = j
  · simp [h, hO.one]
  · simp [h, Fin.val_inj, hO.zero]

/-- C39: `identity()` and `one()` have one on the diagonal and zero elsewhere (any element type). -/
theorem C39_identity (t : Target) (O : Ops T) (n : Nat) :
    ∃ e : Mat T n n, Mat.identity t O n = .ok e ∧ Mat.one t O n = .ok e ∧
      ∀ i j, e.get i j = if i = j then O.one else O.zero := by
  refine ⟨Mat.ofFn fun i j => if i = j then O.one else O.zero, ?_, ?_, by simp⟩
  · exact Mat.generate_ok t _ _ (fun i j => by simp [Fin.val_inj])
  · rw [Mat.one]; exact Mat.generate_ok t _ _ (fun i j => by simp [Fin.val_inj])

/-! ## C41 -/

/-- The four by-value/by-reference forms of the matrix product. -/
def mulForms (t : Target) (O : Ops T) : List (Mat T l n → Mat T n c → Res (Mat T l c)) :=
  [Mat.mulVV t O, Mat.mulVR t O, Mat.mulRR t O, Mat.mulRV t O]

theorem mulForms_eq (t : Target) (O : Ops T) (op) (hop : op ∈ mulForms (l := l) (n := n) (c := c) t O)
    (a : Mat T l n) (b : Mat T n c) (hl : l < t.W) (hn : n < t.W) (hc : c < t.W) :
    op a b = (do
      let v ← Vec.collect t l ((List.finRange l).map fun i =>
        Vec.collect t c ((List.finRange c).map fun j => mulFold O (mulPairs a b i j)))
      pure (⟨v⟩ : Mat T l c)) := by
  simp only [mulForms, List.mem_cons, List.not_mem_nil, or_false] at hop
  rcases hop with rfl | rfl | rfl | rfl <;> exact mul_core t O a b hl hn hc

/-- `mulSum O f g` is `(..((0 + f 0 * g 0) + f 1 * g 1) + ..)` computed left to right, for element operations that
may fail. -/
def mulSum (O : Ops T) : (n : Nat) → (Fin n → T) → (Fin n → T) → Res T
  | 0, _, _ => .ok O.zero
  | n + 1, f, g => do
    let acc ← mulSum O n (fun k => f k.castSucc) (fun k => g k.castSucc)
    let q ← O.mul (f (Fin.last n)) (g (Fin.last n))
    O.add acc q

theorem mulFold_mulSum (O : Ops T) (n : Nat) (f g : Fin n → T) :
    mulFold O ((List.finRange n).map fun k => (f k, g k)) = mulSum O n f g := by
  induction n with
  | zero => rfl
  | succ n ih =>
    rw [List.finRange_succ_last, List.map_append, mulFold, List.foldlM_append, mulSum, ← ih]
    simp only [List.map_map, mulFold, Function.comp_def, List.map_cons, List.map_nil, List.foldlM_cons, List.foldlM_nil,
      bind_pure]

/-- C41, any element type: entry `(i, j)` of the product is the left-to-right sum of the products, and the whole
product succeeds exactly when all entries do. -/
theorem C41_mul_entries (t : Target) (O : Ops T) (op) (hop : op ∈ mulForms (l := l) (n := n) (c := c) t O)
    (a : Mat T l n) (b : Mat T n c) (hl : l < t.W) (hn : n < t.W) (hc : c < t.W) (w : Mat T l c) :
    op a b = .ok w ↔ ∀ i j, mulSum O n (fun k => a.get i k) (fun k => b.get k j) = .ok (w.get i j) := by
  rw [mulForms_eq t O op hop a b hl hn hc, Mat.collect_ok_iff]
  simp only [mulPairs, mulFold_mulSum]

/-- C41, any element type: the product fails exactly with the first failing entry in row-major order. -/
theorem C41_mul_panic (t : Target) (O : Ops T) (op) (hop : op ∈ mulForms (l := l) (n := n) (c := c) t O)
    (a : Mat T l n) (b : Mat T n c) (hl : l < t.W) (hn : n < t.W) (hc : c < t.W) (e : Fault) :
    op a b = .error e ↔ ∃ i j, mulSum O n (fun k => a.get i k) (fun k => b.get k j) = .error e ∧
      ∀ i' j', (i' < i ∨ (i' = i ∧ j' < j)) →
        ∃ x, mulSum O n (fun k => a.get i' k) (fun k => b.get k j') = .ok x := by
  rw [mulForms_eq t O op hop a b hl hn hc, Mat.collect_error_iff]
  simp only [mulPairs, mulFold_mulSum]

theorem mul_eq [Semiring T] {O : Ops T} (hO : O.IsSemiring) (t : Target) (op)
    (hop : op ∈ mulForms (l := l) (n := n) (c := c) t O)
    (a : Mat T l n) (b : Mat T n c) (hl : l < t.W) (hn : n < t.W) (hc : c < t.W) :
    op a b = .ok (Mat.ofMatrix (a.toMatrix * b.toMatrix)) := by
  rw [mulForms_eq t O op hop a b hl hn hc, Mat.collect_ok_iff]
  intro i j
  rw [mulPairs, mulFold_fin hO, Mat.get_ofMatrix, Matrix.mul_apply]; rfl

/-- C41: over a semiring every form of `a * b` has `(i, j)` entry `∑ k, a[(i,k)] * b[(k,j)]`, and never panics. -/
theorem C41_mul [Semiring T] {O : Ops T} (hO : O.IsSemiring) (t : Target) (op)
    (hop : op ∈ mulForms (l := l) (n := n) (c := c) t O)
    (a : Mat T l n) (b : Mat T n c) (hl : l < t.W) (hn : n < t.W) (hc : c < t.W) :
    ∃ w : Mat T l c, op a b = .ok w ∧ ∀ i j, w.get i j = ∑ k, a.get i k * b.get k j :=
  ⟨_, mul_eq hO t op hop a b hl hn hc, fun i j => by rw [Mat.get_ofMatrix, Matrix.mul_apply]; rfl⟩

/-- C41: the four forms agree, for every element type (faults included). -/
theorem C41_forms_agree (t : Target) (O : Ops T) (op op') (hop : op ∈ mulForms (l := l) (n := n) (c := c) t O)
    (hop' : op' ∈ mulForms (l := l) (n := n) (c := c) t O)
    (a : Mat T l n) (b : Mat T n c) (hl : l < t.W) (hn : n < t.W) (hc : c < t.W) : op a b = op' a b := by
  rw [mulForms_eq t O op hop a b hl hn hc, mulForms_eq t O op' hop' a b hl hn hc]

theorem mulAssign_eq (t : Target) (O : Ops T) (a b : Mat T n n) :
    a.mulAssign t O b = match a.mulVV t O b with
      | .ok p => (.ok (), p)
      | .error e => (.error e, a) := rfl

/-- C41: `a *= b` leaves `a * b` in `a`. -/
theorem C41_mul_assign (t : Target) (O : Ops T) (a b w : Mat T n n) (h : a.mulVV t O b = .ok w) :
    a.mulAssign t O b = (.ok (), w) := by rw [mulAssign_eq, h]

/-! ## C43 -/

/-- C43: if computing `a * b` fails, `a *= b` fails the same way and `a` keeps its value (any element type). -/
theorem C43_mul_assign_atomic (t : Target) (O : Ops T) (a b : Mat T n n) (e : Fault) (h : a.mulVV t O b = .error e) :
    a.mulAssign t O b = (.error e, a) := by rw [mulAssign_eq, h]

example : (⟨⟨[⟨[1, 2], rfl⟩, ⟨[3, 4], rfl⟩], rfl⟩⟩ : Mat Nat 2 2).mulVV ⟨true, true, 2 ^ 64⟩ Ops.nat
    ⟨⟨[⟨[5, 6], rfl⟩, ⟨[7, 8], rfl⟩], rfl⟩⟩ = .ok ⟨⟨[⟨[19, 22], rfl⟩, ⟨[43, 50], rfl⟩], rfl⟩⟩ := rfl

/-- Checked unsigned arithmetic: panics instead of reaching `W` (a debug build's `u8`, `u64`, ..). -/
def Ops.checked (W : Nat) : Ops Nat where
  zero := 0
  one := 1
  add a b := if a + b < W then .ok (a + b) else .error .panic
  sub a b := if b ≤ a then .ok (a - b) else .error .panic
  mul a b := if a * b < W then .ok (a * b) else .error .panic
  div a b := if b = 0 then .error .panic else .ok (a / b)
  neg a := if a = 0 then .ok 0 else .error .panic
  isZero a := a = 0

example : (⟨⟨[⟨[1, 2], rfl⟩, ⟨[100, 4], rfl⟩], rfl⟩⟩ : Mat Nat 2 2).mulAssign ⟨true, true, 2 ^ 64⟩ (Ops.checked 256)
    ⟨⟨[⟨[5, 6], rfl⟩, ⟨[7, 8], rfl⟩], rfl⟩⟩ =
    (.error .panic, ⟨⟨[⟨[1, 2], rfl⟩, ⟨[100, 4], rfl⟩], rfl⟩⟩) := rfl

/-! ## C42 and C39 (neutrality) -/

theorem mulVV_eq [Semiring T] {O : Ops T} (hO : O.IsSemiring) (t : Target) (a : Mat T l n) (b : Mat T n c)
    (hl : l < t.W) (hn : n < t.W) (hc : c < t.W) : a.mulVV t O b = .ok (Mat.ofMatrix (a.toMatrix * b.toMatrix)) :=
  mul_eq hO t _ (by simp [mulForms]) a b hl hn hc

theorem matAdd' [Semiring T] {O : Ops T} (hO : O.IsSemiring) (t : Target) (a b : Mat T r c) :
    Mat.opVV t O.add a b = .ok (Mat.ofMatrix (a.toMatrix + b.toMatrix)) := by
  rw [C18_mat_ok t O.add _ (by simp [matForms])]; simp [hO.add]

theorem matSmul' [Semiring T] {O : Ops T} (hO : O.IsSemiring) (t : Target) (a : Mat T r c) (s : T) :
    a.mulScalar t O.mul s = .ok (Mat.ofMatrix (a.toMatrix * Matrix.scalar (Fin c) s)) := by
  rw [(C19_mat_ok t O.mul (fun x => .ok x) a s _ a).1]; simp [hO.mul]

/-- C39: the identity is two-sided neutral for multiplication, for rectangular factors too. -/
theorem C39_neutral [Semiring T] {O : Ops T} (hO : O.IsSemiring) (t : Target) (a : Mat T r c) (hr : r < t.W)
    (hc : c < t.W) :
    (do let e ← Mat.identity t O r; e.mulVV t O a) = .ok a ∧
    (do let e ← Mat.identity t O c; a.mulVV t O e) = .ok a := by
  simp only [identity_eq hO, res_ok_bind, mulVV_eq hO t _ _ hr hr hc, mulVV_eq hO t _ _ hr hc hc, Mat.toMatrix_ofMatrix,
    Matrix.one_mul, Matrix.mul_one, Mat.ofMatrix_toMatrix, and_self]

/-- C42: multiplication is associative and distributes over addition on both sides, over every semiring. -/
theorem C42_mul_laws [Semiring T] {O : Ops T} (hO : O.IsSemiring) (t : Target) (a a' : Mat T l n) (b b' : Mat T n r)
    (d : Mat T r c) (hl : l < t.W) (hn : n < t.W) (hr : r < t.W) (hc : c < t.W) :
    (do let x ← a.mulVV t O b; x.mulVV t O d) = (do let y ← b.mulVV t O d; a.mulVV t O y) ∧
    (do let s ← Mat.opVV t O.add b b'; a.mulVV t O s) =
      (do let x ← a.mulVV t O b; let y ← a.mulVV t O b'; Mat.opVV t O.add x y) ∧
    (do let s ← Mat.opVV t O.add a a'; s.mulVV t O b) =
      (do let x ← a.mulVV t O b; let y ← a'.mulVV t O b; Mat.opVV t O.add x y) := by
  simp only [mulVV_eq hO t _ _ hl hn hr, mulVV_eq hO t _ _ hl hr hc, mulVV_eq hO t _ _ hn hr hc,
    mulVV_eq hO t _ _ hl hn hc, matAdd' hO t, res_ok_bind, Mat.toMatrix_ofMatrix, Matrix.mul_assoc, Matrix.mul_add,
    Matrix.add_mul, and_self]

/-- C42: scalars move through products, and the transpose of a product is the product of the transposes in reverse
order, over every commutative semiring. -/
theorem C42_mul_comm_laws [CommSemiring T] {O : Ops T} (hO : O.IsSemiring) (t : Target) (a : Mat T l n) (b : Mat T n c)
    (s : T) (hl : l < t.W) (hn : n < t.W) (hc : c < t.W) :
    (do let x ← a.mulScalar t O.mul s; x.mulVV t O b) = (do let p ← a.mulVV t O b; p.mulScalar t O.mul s) ∧
    (do let y ← b.mulScalar t O.mul s; a.mulVV t O y) = (do let p ← a.mulVV t O b; p.mulScalar t O.mul s) ∧
    (do let p ← a.mulVV t O b; p.transposed t) =
      (do let x ← b.transposed t; let y ← a.transposed t; x.mulVV t O y) := by
  simp only [matSmul' hO t, mulVV_eq hO t _ _ hl hn hc, transposed_eq t _ hc, transposed_eq t _ hn,
    mulVV_eq hO t _ _ hc hn hl, res_ok_bind, Mat.toMatrix_ofMatrix, Except.ok.injEq]
  refine ⟨?_, ?_, by rw [Matrix.transpose_mul]⟩
  · rw [Matrix.mul_assoc, Matrix.mul_assoc, show Matrix.scalar (Fin n) s * b.toMatrix = b.toMatrix * Matrix.scalar (Fin c) s by
      ext i j; simp [Matrix.scalar_apply, mul_comm]]
  · rw [Matrix.mul_assoc]

/-! ## C44 -/

theorem mulVec_eq [Semiring T] {O : Ops T} (hO : O.IsSemiring) (t : Target) (a : Mat T r c) (v : Vec T c) (hr : r < t.W) :
    a.mulVec t O v = .ok (Vec.ofFn (a.toMatrix.mulVec v.get)) ∧ a.mulVecRef t O v = .ok (Vec.ofFn (a.toMatrix.mulVec v.get)) := by
  have e : (rowsOf a).map (fun row => mulFold O (row.toList.zip v.toList)) =
      (List.finRange r).map fun i => mulFold O ((List.finRange c).map fun j => (a.get i j, v.get j)) := by
    rw [rowsOf, List.map_map]
    apply List.map_congr_left; intro i _
    simp only [Function.comp_def]
    rw [Vec.zip_eq]; simp
  have key : Vec.collect t r ((rowsOf a).map fun row => mulFold O (row.toList.zip v.toList)) =
      .ok (Vec.ofFn (a.toMatrix.mulVec v.get)) := by
    rw [e]
    exact Vec.collect_finRange_ok t _ _ (fun i => mulFold_fin hO _ _)
  refine ⟨?_, ?_⟩
  · rw [Mat.mulVec, drain_rowsRef t a hr]; exact key
  · rw [Mat.mulVecRef, rowsOf_eq a]; exact key

/-- C44: `m * v` (by value and by reference) has entries `∑ j, m[(i,j)] * v[j]`. -/
theorem C44_mul_vec [Semiring T] {O : Ops T} (hO : O.IsSemiring) (t : Target) (a : Mat T r c) (v : Vec T c) (hr : r < t.W) :
    ∃ w : Vec T r, a.mulVec t O v = .ok w ∧ a.mulVecRef t O v = .ok w ∧
      ∀ i, w.get i = ∑ j, a.get i j * v.get j :=
  ⟨_, (mulVec_eq hO t a v hr).1, (mulVec_eq hO t a v hr).2, fun i => by rw [Vec.get_ofFn]; rfl⟩

/-- C44: `(a * b) * v = a * (b * v)`. -/
theorem C44_mul_vec_assoc [Semiring T] {O : Ops T} (hO : O.IsSemiring) (t : Target) (a : Mat T l n) (b : Mat T n c)
    (v : Vec T c) (hl : l < t.W) (hn : n < t.W) (hc : c < t.W) :
    (do let p ← a.mulVV t O b; p.mulVec t O v) = (do let w ← b.mulVec t O v; a.mulVec t O w) := by
  have e : ∀ (m : Nat) (f : Fin m → T), (Vec.ofFn f).get = f := fun m f => funext fun i => Vec.get_ofFn f i
  simp only [mulVV_eq hO t _ _ hl hn hc, (mulVec_eq hO t _ _ hl).1, (mulVec_eq hO t _ _ hn).1, res_ok_bind,
    Mat.toMatrix_ofMatrix, e, Matrix.mulVec_mulVec]

example : (⟨⟨[⟨[1, 2], rfl⟩, ⟨[3, 4], rfl⟩], rfl⟩⟩ : Mat Nat 2 2).mulVec ⟨true, true, 2 ^ 64⟩ Ops.nat ⟨[5, 6], rfl⟩ =
    .ok ⟨[17, 39], rfl⟩ := rfl

/-! ## C45 -/

section NumPow
variable {A M : Type} [Monoid M] (φ : A → M) (mul : A → A → Res A)
  (hmul : ∀ x y, ∃ z, mul x y = .ok z ∧ φ z = φ x * φ y)
include hmul

theorem powStrip_eq (base : A) (exp : Nat) (h0 : exp ≠ 0) :
    ∃ b e, powStrip mul base exp = .ok (b, e) ∧ e % 2 = 1 ∧ φ b ^ e = φ base ^ exp := by
  induction exp using Nat.strongRecOn generalizing base with
  | _ exp ih =>
    rw [powStrip]
    split
    · rename_i h
      obtain ⟨z, h1, h2⟩ := hmul base base
      obtain ⟨b, e, h3, h4, h5⟩ := ih (exp / 2) (by omega) z (by omega)
      refine ⟨b, e, by simp [h1, h3], h4, ?_⟩
      rw [h5, h2, ← pow_two, ← pow_mul]; congr 1; omega
    · exact ⟨base, exp, rfl, by omega, rfl⟩

theorem powLoop_eq (acc base : A) (exp : Nat) :
    ∃ w, powLoop mul acc base exp = .ok w ∧ φ w = φ acc * φ base ^ (2 * (exp / 2)) := by
  induction exp using Nat.strongRecOn generalizing acc base with
  | _ exp ih =>
    rw [powLoop]
    split
    · rename_i h
      obtain ⟨b, h1, h2⟩ := hmul base base
      simp only [h1, res_ok_bind]
      by_cases ho : exp / 2 % 2 = 1
      · obtain ⟨acc', h3, h4⟩ := hmul acc b
        obtain ⟨w, h5, h6⟩ := ih (exp / 2) (by omega) acc' b
        refine ⟨w, by simp [ho, h3, h5], ?_⟩
        rw [h6, h4, h2, ← pow_two, mul_assoc, ← pow_succ', ← pow_mul]
        congr 2; omega
      · obtain ⟨w, h5, h6⟩ := ih (exp / 2) (by omega) acc b
        refine ⟨w, by simp [ho, h5], ?_⟩
        rw [h6, h2, ← pow_two, ← pow_mul]
        congr 2; omega
    · refine ⟨acc, rfl, ?_⟩
      rw [show exp / 2 = 0 by omega]; simp

theorem numPow_eq (one : Res A) (hone : ∃ e, one = .ok e ∧ φ e = 1) (base : A) (exp : Nat) :
    ∃ w, numPow one mul base exp = .ok w ∧ φ w = φ base ^ exp := by
  unfold numPow
  split
  · rename_i h; obtain ⟨e, h1, h2⟩ := hone; exact ⟨e, h1, by simp [h, h2]⟩
  · rename_i h
    obtain ⟨b, e, h1, h2, h3⟩ := powStrip_eq φ mul hmul base exp h
    simp only [h1, res_ok_bind]
    by_cases h4 : e = 1
    · exact ⟨b, by simp [h4], by rw [← h3, h4, pow_one]⟩
    · obtain ⟨w, h5, h6⟩ := powLoop_eq φ mul hmul b b e
      refine ⟨w, by simp [h4, h5], ?_⟩
      rw [h6, ← pow_succ', ← h3]; congr 1; omega
end NumPow

theorem pow_eq [Semiring T] {O : Ops T} (hO : O.IsSemiring) (t : Target) (a : Mat T n n) (k : Nat) (hn : n < t.W) :
    a.pow t O k = .ok (Mat.ofMatrix (a.toMatrix ^ k)) := by
  have h := numPow_eq (Mat.toMatrix : Mat T n n → _) (Mat.mulVV t O)
    (fun x y => ⟨_, mulVV_eq hO t x y hn hn hn, by simp⟩) (Mat.one t O n) ⟨_, identity_eq hO t n, by simp⟩ a k
  obtain ⟨w, h1, h2⟩ := h
  rw [Mat.pow, Mat.clone_ok t a]
  simp only [res_ok_bind, h1]
  rw [← h2, Mat.ofMatrix_toMatrix]

/-- C45: `pow(0)` is the identity and `pow(k + 1) = pow(k) * a`, so `pow(k)` is the `k`-fold product; it never
panics. -/
theorem C45_pow [Semiring T] {O : Ops T} (hO : O.IsSemiring) (t : Target) (a : Mat T n n) (hn : n < t.W) :
    a.pow t O 0 = Mat.identity t O n ∧
    (∀ k, (∃ w, a.pow t O k = .ok w) ∧ a.pow t O (k + 1) = (do let p ← a.pow t O k; p.mulVV t O a)) := by
  simp only [pow_eq hO t _ _ hn, identity_eq hO t, mulVV_eq hO t _ _ hn hn hn, res_ok_bind, Mat.toMatrix_ofMatrix,
    pow_zero, pow_succ, true_and]
  exact fun k => ⟨⟨_, rfl⟩, trivial⟩

/-- C45: exponents add and multiply. -/
theorem C45_pow_laws [Semiring T] {O : Ops T} (hO : O.IsSemiring) (t : Target) (a : Mat T n n) (j k : Nat) (hn : n < t.W) :
    a.pow t O (j + k) = (do let x ← a.pow t O j; let y ← a.pow t O k; x.mulVV t O y) ∧
    a.pow t O (j * k) = (do let x ← a.pow t O j; x.pow t O k) := by
  simp only [pow_eq hO t _ _ hn, mulVV_eq hO t _ _ hn hn hn, res_ok_bind, Mat.toMatrix_ofMatrix, pow_add, pow_mul, and_self]

example : (5 : Nat) < (⟨true, true, 2 ^ 64⟩ : Target).W := by decide

/-! ## C46 -/

theorem fibMat_eq (t : Target) (O : Ops T) :
    fibMat t O = .ok ⟨⟨[⟨[O.one, O.one], rfl⟩, ⟨[O.one, O.zero], rfl⟩], rfl⟩⟩ := by
  unfold fibMat Mat.new
  rw [Vec.collect_pure]; rfl

theorem fib_matrix [Semiring T] (k : Nat) :
    (!![1, 1; 1, 0] : Matrix (Fin 2) (Fin 2) T) ^ k * !![1, 1; 1, 0] =
      !![(Nat.fib (k + 2) : T), (Nat.fib (k + 1) : T); (Nat.fib (k + 1) : T), (Nat.fib k : T)] := by
  induction k with
  | zero => simp
  | succ k ih =>
    rw [pow_succ, ih]
    have e1 : Nat.fib (k + 1 + 2) = Nat.fib (k + 1) + Nat.fib (k + 2) := Nat.fib_add_two
    have e2 : Nat.fib (k + 2) = Nat.fib k + Nat.fib (k + 1) := Nat.fib_add_two
    rw [show k + 1 + 1 = k + 2 from rfl, e1, e2]
    ext i j
    fin_cases i <;> fin_cases j <;> simp [Matrix.mul_apply, Fin.sum_univ_two] <;> abel

theorem fib_vec [Semiring T] (k : Nat) :
    ((!![1, 1; 1, 0] : Matrix (Fin 2) (Fin 2) T) ^ k).mulVec ![1, 0] = ![(Nat.fib (k + 1) : T), (Nat.fib k : T)] := by
  cases k with
  | zero => ext i; fin_cases i <;> simp [Matrix.mulVec, dotProduct, Fin.sum_univ_two]
  | succ k =>
    rw [pow_succ, fib_matrix]
    ext i; fin_cases i <;> simp [Matrix.mulVec, dotProduct, Fin.sum_univ_two]

section Fib
variable [Semiring T] {O : Ops T} (hO : O.IsSemiring) (t : Target) (ht : 2 < t.W)
include hO ht

omit ht in
theorem fibMat_toMatrix :
    (⟨⟨[⟨[O.one, O.one], rfl⟩, ⟨[O.one, O.zero], rfl⟩], rfl⟩⟩ : Mat T 2 2).toMatrix = !![1, 1; 1, 0] := by
  ext i j
  fin_cases i <;> fin_cases j <;> simp [Mat.toMatrix, Mat.get, Vec.get, hO.one, hO.zero]

omit ht in
theorem fibVec_get : (fibVec O).get = ![1, 0] := by
  ext i; fin_cases i <;> simp [fibVec, Vec.get, hO.one, hO.zero]

theorem fib_index (k : Nat) (p : Mat T 2 2) (hp : p.toMatrix = !![1, 1; 1, 0] ^ k) :
    (do let v ← p.mulVec t O (fibVec O); v.index 1) = .ok (Nat.fib k : T) := by
  rw [(mulVec_eq hO t p (fibVec O) ht).1, hp, fibVec_get hO, fib_vec]
  simp only [res_ok_bind]
  rw [Vec.index_ok _ (by omega), Vec.get_ofFn]; rfl

/-- C46: the documented program `fib(n)` returns the `n`-th Fibonacci number, in every semiring. -/
theorem C46_fib_doc (k : Nat) : fibDoc t O k = .ok (Nat.fib k : T) := by
  have h := fib_index hO t ht k (Mat.ofMatrix (!![1, 1; 1, 0] ^ k)) (by simp)
  rw [fibDoc, fibMat_eq]
  simp only [res_ok_bind, pow_eq hO t _ _ ht, fibMat_toMatrix hO]
  exact h

theorem fibLoop_eq (k s : Nat) (p : Mat T 2 2) (hp : p.toMatrix = !![1, 1; 1, 0] ^ s) :
    fibLoop t O ⟨⟨[⟨[O.one, O.one], rfl⟩, ⟨[O.one, O.zero], rfl⟩], rfl⟩⟩ k p =
      .ok ((List.range k).map fun i => (Nat.fib (s + i) : T)) := by
  induction k generalizing s p with
  | zero => rfl
  | succ k ih =>
    have h := fib_index hO t ht s p hp
    rw [fibLoop, ← bind_assoc, h]
    simp only [res_ok_bind]
    rw [mulAssign_eq, mulVV_eq hO t _ _ ht ht ht]
    simp only [fibMat_toMatrix hO, hp, ← pow_succ]
    rw [ih (s + 1) _ (by simp)]
    simp only [res_ok_bind, res_pure, List.range_succ_eq_map, List.map_cons, List.map_map]
    congr 2
    apply List.map_congr_left; intro i _
    simp only [Function.comp_def]
    rw [show s + 1 + i = s + (i + 1) by omega]

/-- C46: the example program prints `fib(0), fib(1), ...`. -/
theorem C46_fib_example (k : Nat) :
    fibExample t O k = .ok ((List.range k).map fun i => (Nat.fib i : T)) := by
  rw [fibExample, fibMat_eq, identity_eq hO]
  simp only [res_ok_bind]
  rw [fibLoop_eq hO t ht k 0 _ (by simp)]
  simp
end Fib

open scoped UInt64.CommRing in
/-- Wrapping 64-bit arithmetic (`u64` in a release build). -/
def Ops.u64 : Ops UInt64 where
  zero := 0
  one := 1
  add a b := .ok (a + b)
  sub a b := .ok (a - b)
  mul a b := .ok (a * b)
  div a b := if b = 0 then .error .panic else .ok (a / b)
  neg a := .ok (-a)
  isZero a := a == 0

open scoped UInt64.CommRing in
theorem Ops.u64_isRing : Ops.u64.IsRing where
  zero := rfl
  one := rfl
  add _ _ := rfl
  mul _ _ := rfl
  sub _ _ := rfl
  neg _ := rfl

open scoped UInt64.CommRing in
/-- C46 with `u64` in a release build: the Fibonacci numbers modulo 2^64. -/
theorem C46_fib_u64 (t : Target) (ht : 2 < t.W) (k : Nat) :
    ∃ x, fibDoc t Ops.u64 k = .ok x ∧ x.toNat = Nat.fib k % 2 ^ 64 := by
  refine ⟨_, C46_fib_doc Ops.u64_isRing.toIsSemiring t ht k, ?_⟩
  exact UInt64.toNat_ofNat'

example : fibDoc ⟨true, true, 2 ^ 64⟩ Ops.nat 10 = .ok 55 :=
  (C46_fib_doc Ops.nat_isSemiring _ (by decide) 10).trans (by decide)

end Rowcol
