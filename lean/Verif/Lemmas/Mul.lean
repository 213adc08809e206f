import Verif.Props.BorrowIter
import Verif.Props.Elementwise
import Mathlib.Algebra.BigOperators.Fin
import Mathlib.LinearAlgebra.Matrix.Notation
import Mathlib.Data.Matrix.Mul

/-! Products: reduction to sums and to Mathlib's matrices. -/

namespace Rowcol

variable {T : Type} {r c l n : Nat}

/-- The same matrix as a Mathlib matrix. -/
def Mat.toMatrix (a : Mat T r c) : Matrix (Fin r) (Fin c) T := fun i j => a.get i j

@[simp] theorem Mat.toMatrix_apply (a : Mat T r c) (i : Fin r) (j : Fin c) : a.toMatrix i j = a.get i j := rfl

theorem Mat.toMatrix_injective : Function.Injective (Mat.toMatrix : Mat T r c → _) := fun _ _ h =>
  Mat.ext_get fun i j => congrFun (congrFun h i) j

/-- The matrix of the model with the entries of a Mathlib matrix. -/
def Mat.ofMatrix (M : Matrix (Fin r) (Fin c) T) : Mat T r c := Mat.ofFn fun i j => M i j

@[simp] theorem Mat.get_ofMatrix (M : Matrix (Fin r) (Fin c) T) (i : Fin r) (j : Fin c) :
    (Mat.ofMatrix M).get i j = M i j := Mat.get_ofFn _ i j

@[simp] theorem Mat.toMatrix_ofMatrix (M : Matrix (Fin r) (Fin c) T) : (Mat.ofMatrix M).toMatrix = M := by
  ext i j; simp

@[simp] theorem Mat.ofMatrix_toMatrix (a : Mat T r c) : Mat.ofMatrix a.toMatrix = a := Mat.ext_get (by simp)

theorem Mat.generate_ok (t : Target) (f : Nat × Nat → Res T) (g : Fin r → Fin c → T)
    (h : ∀ (i : Fin r) (j : Fin c), f (i, j) = .ok (g i j)) : Mat.generate t r c f = .ok (Mat.ofFn g) := by
  unfold Mat.generate Vec.generate
  simp only [Vec.range_eq, List.map_map]
  exact Mat.collect_ok t (fun i j => f (i, j)) g h

theorem Vec.generate_ok (t : Target) (f : Nat → Res T) (g : Fin n → T)
    (h : ∀ i : Fin n, f i = .ok (g i)) : Vec.generate t n f = .ok (Vec.ofFn g) := by
  unfold Vec.generate
  simp only [Vec.range_eq, List.map_map]
  exact Vec.collect_finRange_ok t _ g h

theorem Vec.clone_ok (t : Target) (v : Vec T n) : v.clone t (fun x => (pure x : Res T)) = .ok v :=
  Vec.collect_pure t n v.toList v.length_eq

theorem Mat.clone_ok (t : Target) (a : Mat T r c) : a.clone t (fun x => (pure x : Res T)) = .ok a := by
  unfold Mat.clone Vec.clone
  rw [Vec.collect_map_ok t r a.rows.toList _ id a.rows.length_eq]
  · simp
  · intro x _; exact Vec.clone_ok t x

/-! ### Sums -/

theorem foldlM_add [Semiring T] {O : Ops T} (hO : O.IsSemiring) (l : List T) (x : T) :
    l.foldlM O.add x = .ok (x + l.sum) := by
  induction l generalizing x with
  | nil => simp
  | cons y ys ih => simp [hO.add, ih, add_assoc]

theorem mulFold_eq [Semiring T] {O : Ops T} (hO : O.IsSemiring) (ps : List (T × T)) :
    mulFold O ps = .ok (ps.map fun p => p.1 * p.2).sum := by
  have : ∀ x, ps.foldlM (fun acc p => do
      let q ← O.mul p.1 p.2
      O.add acc q) x = .ok (x + (ps.map fun p => p.1 * p.2).sum) := by
    simp only [hO.mul, hO.add, res_ok_bind]
    induction ps with
    | nil => intro x; simp
    | cons p ps ih => intro x; simp [ih, add_assoc]
  rw [mulFold, this, hO.zero, zero_add]

theorem mulFold_fin [Semiring T] {O : Ops T} (hO : O.IsSemiring) (f g : Fin n → T) :
    mulFold O ((List.finRange n).map fun k => (f k, g k)) = .ok (∑ k, f k * g k) := by
  rw [mulFold_eq hO, List.map_map, Fin.sum_univ_def]; rfl

/-! ### Draining the iterators used by the products -/

theorem drain_rowsRef (t : Target) (a : Mat T r c) (hr : r < t.W) :
    (RowsIterRef.machine t a.rows).toIter.drain (r + 1) (RowsIterRef.new a.rows) = .ok (rowsOf a) := by
  have := (rowsIterRef_cursor t a hr).drain_eq ⟨0, r⟩ (r + 1) (by simp) (by simp)
  rwa [left_all _ _ (rowsOf_length a)] at this

theorem drain_colsRef (t : Target) (a : Mat T r c) (hc : c < t.W) :
    (ColsIterRef.machine t a.rows).toIter.drain (c + 1) (ColsIterRef.new a.rows) = .ok (colItersOf a) := by
  have := (colsIterRef_cursor t a hc).drain_eq ⟨0, c⟩ (c + 1) (by simp) (by simp)
  rwa [left_all _ _ (colItersOf_length a)] at this

theorem drain_inner (t : Target) (a : Mat T r c) (hr : r < t.W) (j : Fin c) :
    (ColsIterRefInner.machine t a.rows).toIter.drain (r + 1) ⟨j, 0, r⟩ = .ok (colOf a j) := by
  have := (inner_cursor t a hr j).drain_eq ⟨0, r⟩ (r + 1) (by simp) (by simp)
  rwa [left_all _ _ (colOf_length a j)] at this

/-- `transposed` returns the transpose. -/
theorem transposed_eq (t : Target) (a : Mat T r c) (hc : c < t.W) :
    a.transposed t = .ok (Mat.ofMatrix a.toMatrix.transpose) := by
  have h := collect_of_cursor_back (colsIter_cursor t a hc) (by simpa) (colsOf_length a)
    (fun s hs => by simp [ColsIter.machine, ColsIter.count, usub_ok t hs]) [] trivial
  simp only [Spec.dequeRun, Spec.backTaken, ne_eq, not_true_eq_false, and_false, if_false, Spec.run, id] at h
  have key : ∀ m (hm : (colsOf a).length = m), Vec.fromIter t m (ColsIter.machine t a.rows).toIter (ColsIter.new a.rows) =
      .ok ⟨colsOf a, hm⟩ := by rintro m rfl; exact h
  rw [Mat.transposed, key c (colsOf_length a)]
  simp only [res_ok_bind, res_pure, Except.ok.injEq]
  apply Mat.ext_get; intro j i
  rw [Mat.get_ofMatrix]
  simp [Mat.get, Vec.get, colsOf, Vec.ofFn]

/-- The pairs multiplied for entry `(i, j)` of a product. -/
def mulPairs (a : Mat T l n) (b : Mat T n c) (i : Fin l) (j : Fin c) : List (T × T) :=
  (List.finRange n).map fun k => (a.get i k, b.get k j)

theorem row_zip_col (a : Mat T l n) (b : Mat T n c) (i : Fin l) (j : Fin c) :
    (Vec.ofFn fun k => a.get i k).toList.zip (colOf b j) = mulPairs a b i j := by
  rw [Vec.toList_ofFn, colOf, mulPairs, List.zip_map']

theorem mul_core (t : Target) (O : Ops T) (a : Mat T l n) (b : Mat T n c) (hl : l < t.W) (hn : n < t.W) (hc : c < t.W) :
    (do
      let lrows ← (RowsIterRef.machine t a.rows).toIter.drain (l + 1) (RowsIterRef.new a.rows)
      let v ← Vec.collect t l (lrows.map fun lrow => do
        let rcols ← (ColsIterRef.machine t b.rows).toIter.drain (c + 1) (ColsIterRef.new b.rows)
        Vec.collect t c (rcols.map fun rcol => do
          let col ← (ColsIterRefInner.machine t b.rows).toIter.drain (n + 1) rcol
          mulFold O (lrow.toList.zip col)))
      pure (⟨v⟩ : Mat T l c) : Res (Mat T l c)) =
    (do
      let v ← Vec.collect t l ((List.finRange l).map fun i =>
        Vec.collect t c ((List.finRange c).map fun j => mulFold O (mulPairs a b i j)))
      pure (⟨v⟩ : Mat T l c)) := by
  rw [drain_rowsRef t a hl, drain_colsRef t b hc]
  simp only [res_ok_bind]
  congr 2
  rw [rowsOf, List.map_map]
  apply List.map_congr_left; intro i _
  simp only [Function.comp_def]
  congr 1
  rw [colItersOf, Vec.range_eq, List.map_map, List.map_map]
  apply List.map_congr_left; intro j _
  simp only [Function.comp_def]
  rw [drain_inner t b hn j]
  simp only [res_ok_bind]
  rw [row_zip_col]

end Rowcol
