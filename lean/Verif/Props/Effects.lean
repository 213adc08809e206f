import Verif.Model.Effects
import Verif.Lemmas.Mul
import Verif.Lemmas.Elim
import Verif.Props.Products

/-! # C90: element operations with effects are called in a fixed order

The element operations `E` are arbitrary programs of an arbitrary monad with faults: they may count, log, allocate, panic or return
different values each time.  Every statement is an equation between programs, so it says which calls are made, with which
arguments, in which order, and that a panic ends the operation on the spot. -/

namespace Rowcol

variable {m : Type → Type} [RustM m] {T : Type} {l n r c : Nat} (E : Elem m T)

/-- **C90** (dot product). -/
theorem C90_dot (a b : Vec T n) :
    E.dot a b = (do
      let z ← E.zero
      (List.finRange n).foldlM (fun acc k => do
        let x ← E.clone (a.get k)
        let y ← E.clone (b.get k)
        let q ← E.mul x y
        E.add acc q) z) := by
  rw [Elem.dot, Elem.foldCC, Vec.zip_eq]
  simp only [List.foldlM_map]

/-- **C90** (sum of a vector). -/
theorem C90_vec_sum (v : Vec T n) :
    E.vecSum v = (do
      let z ← E.zero
      (List.finRange n).foldlM (fun acc k => do
        let x ← E.clone (v.get k)
        E.add acc x) z) := by
  rw [Elem.vecSum, Vec.toList_eq]
  simp only [List.foldlM_map]

/-- **C90** (sum of a matrix): row by row, each row starting from a zero of its own. -/
theorem C90_mat_sum (a : Mat T r c) :
    E.matSum a = (do
      let z ← E.zero
      (List.finRange r).foldlM (fun acc i => do
        let z' ← E.zero
        let s ← (List.finRange c).foldlM (fun acc j => do
          let x ← E.clone (a.get i j)
          E.add acc x) z'
        E.add acc s) z) := by
  rw [Elem.matSum, Vec.toList_eq]
  simp only [List.foldlM_map, C90_vec_sum, bind_assoc]
  rfl

/-- **C90** (cross product). -/
theorem C90_cross (t : Target) (a b : Vec T 3) :
    Vec.toList <$> E.cross t a b = [((1 : Fin 3), (2 : Fin 3)), (2, 0), (0, 1)].mapM (fun p => do
      let x ← E.clone (a.get p.1)
      let y ← E.clone (b.get p.2)
      let u ← E.mul x y
      let x ← E.clone (a.get p.2)
      let y ← E.clone (b.get p.1)
      let v ← E.mul x y
      E.sub u v) := by
  have h : ∀ i j : Fin 3, E.crossComp t a b i j = (do
      let x ← E.clone (a.get i)
      let y ← E.clone (b.get j)
      let u ← E.mul x y
      let x ← E.clone (a.get j)
      let y ← E.clone (b.get i)
      let v ← E.mul x y
      E.sub u v) := by
    intro i j
    simp only [Elem.crossComp, Vec.getUnchecked_ok t _ i.isLt, Vec.getUnchecked_ok t _ j.isLt, liftRes_ok, pure_bind, Fin.eta]
  rw [Elem.cross, show E.crossComp t a b 1 2 = _ from h 1 2, show E.crossComp t a b 2 0 = _ from h 2 0,
    show E.crossComp t a b 0 1 = _ from h 0 1]
  simp only [List.mapM_cons, List.mapM_nil, map_bind, map_pure, bind_assoc, pure_bind]

theorem mulWith_eq (t : Target) (fold : List (T × T) → m T) (a : Mat T l n) (b : Mat T n c)
    (hl : l < t.W) (hn : n < t.W) (hc : c < t.W) :
    Mat.toLists <$> Elem.mulWith t fold a b =
      (List.finRange l).mapM fun i => (List.finRange c).mapM fun j : Fin c => fold (mulPairs a b i j) := by
  rw [Elem.mulWith, drain_rowsRef t a hl, drain_colsRef t b hc]
  simp only [liftRes_ok, pure_bind]
  rw [← Mat.collect_toLists t l c (List.finRange l) (fun _ => List.finRange c) _ (by simp) (by simp)]
  congr 2
  congr 1
  rw [rowsOf, List.map_map]
  apply List.map_congr_left; intro i _
  simp only [Function.comp_def]
  congr 1
  rw [colItersOf, Vec.range_eq, List.map_map, List.map_map]
  apply List.map_congr_left; intro j _
  simp only [Function.comp_def]
  rw [drain_inner t b hn j]
  simp only [liftRes_ok, pure_bind]
  rw [row_zip_col]

/-- **C90** (matrix products, right operand by value): entries in row-major order, products from left to right. -/
theorem C90_mul (t : Target) (a : Mat T l n) (b : Mat T n c) (hl : l < t.W) (hn : n < t.W) (hc : c < t.W) :
    Mat.toLists <$> E.mulVV t a b =
      (List.finRange l).mapM fun i => (List.finRange c).mapM fun j => (do
        let z ← E.zero
        (List.finRange n).foldlM (fun acc k => do
          let x ← E.clone (a.get i k)
          let y ← E.clone (b.get k j)
          let q ← E.mul x y
          E.add acc q) z) := by
  rw [Elem.mulVV, mulWith_eq t _ a b hl hn hc]
  simp only [mulPairs, Elem.foldCC, List.foldlM_map]

/-- **C90** (matrix products, right operand by reference): the elements of the right matrix are not cloned. -/
theorem C90_mul_ref (t : Target) (a : Mat T l n) (b : Mat T n c) (hl : l < t.W) (hn : n < t.W) (hc : c < t.W) :
    Mat.toLists <$> E.mulRR t a b =
      (List.finRange l).mapM fun i => (List.finRange c).mapM fun j => (do
        let z ← E.zero
        (List.finRange n).foldlM (fun acc k => do
          let x ← E.clone (a.get i k)
          let q ← E.mulRef x (b.get k j)
          E.add acc q) z) := by
  rw [Elem.mulRR, mulWith_eq t _ a b hl hn hc]
  simp only [mulPairs, Elem.foldCR, List.foldlM_map]

/-- **C90** (matrix times vector): the element of the vector is cloned before that of the matrix. -/
theorem C90_mul_vec (t : Target) (a : Mat T r c) (v : Vec T c) (hr : r < t.W) :
    Vec.toList <$> E.mulVec t a v =
      (List.finRange r).mapM fun i => (do
        let z ← E.zero
        (List.finRange c).foldlM (fun acc k => do
          let y ← E.clone (v.get k)
          let x ← E.clone (a.get i k)
          let q ← E.mul x y
          E.add acc q) z) := by
  rw [Elem.mulVec, drain_rowsRef t a hr]
  simp only [liftRes_ok, pure_bind]
  rw [rowsOf, List.map_map, Vec.collect_finRange_toList]
  simp only [Function.comp_def, Elem.foldVec, Vec.zip_eq, List.foldlM_map, Vec.get_ofFn]

/-- **C90** (matrix times reference to a vector): nothing is cloned. -/
theorem C90_mul_vec_ref (t : Target) (a : Mat T r c) (v : Vec T c) :
    Vec.toList <$> E.mulVecRef t a v =
      (List.finRange r).mapM fun i => (do
        let z ← E.zero
        (List.finRange c).foldlM (fun acc k => do
          let q ← E.mulRef (a.get i k) (v.get k)
          E.add acc q) z) := by
  rw [Elem.mulVecRef, Vec.toList_eq a.rows, List.map_map, Vec.collect_finRange_toList]
  simp only [Function.comp_def, Elem.foldVecRef, Vec.zip_eq, List.foldlM_map]
  rfl

/-- **C90** (division by a scalar). -/
theorem C90_div_scalar (t : Target) (a : Mat T r c) (s : T) :
    Mat.toLists <$> E.divScalar t a s =
      (List.finRange r).mapM fun i => (do
        let s ← E.clone s
        (List.finRange c).mapM fun j => do
          let s ← E.clone s
          E.div (a.get i j) s) := by
  have h1 := Vec.collect_toList t r (a.rows.toList.map fun row => do
    let s ← E.clone s
    Vec.collect t c (row.toList.map fun e => do
      let s ← E.clone s
      E.div e s)) (by simp [Vec.length_eq])
  rw [Elem.divScalar]
  simp only [bind_pure_comp, Functor.map_map, Mat.toLists]
  have h2 := congrArg (fun q => List.map Vec.toList <$> q) h1
  simp only [Functor.map_map] at h2
  rw [h2, mapM_map', map_mapM, Vec.toList_eq, List.mapM_map]
  apply mapM_congr
  intro i _
  simp only [map_bind]
  refine bind_congr fun s => ?_
  rw [Vec.collect_toList _ _ _ (by simp [Vec.length_eq]), mapM_map', Vec.toList_eq, List.mapM_map]
  rfl

/-- **C90** (identity matrix): a zero or a one per entry, in row-major order. -/
theorem C90_identity (t : Target) (n : Nat) :
    Mat.toLists <$> E.identity t n =
      (List.range n).mapM fun i => (List.range n).mapM fun j => if i = j then E.one else E.zero := by
  rw [Elem.identity, Mat.generate]
  unfold Vec.generate
  rw [Mat.collect_toLists t n n (List.range n) (fun _ => List.range n) _ (by simp) (by simp)]

/-- **C90** (2x2 determinant). -/
theorem C90_det2 (t : Target) (a : Mat T 2 2) :
    E.determinant t 1 a = (do
      let x ← E.clone (a.get 0 0)
      let y ← E.clone (a.get 1 1)
      let p ← E.mul x y
      let x ← E.clone (a.get 1 0)
      let y ← E.clone (a.get 0 1)
      let q ← E.mul x y
      E.sub p q) := by
  have h : ∀ i j : Fin 2, E.idx t a i j = E.clone (a.get i j) := by
    intro i j
    simp only [Elem.idx, Mat.idxStatic_ok t a i.isLt j.isLt, liftRes_ok, pure_bind, Fin.eta]
  rw [Elem.determinant, Elem.det2, show E.idx t a 0 0 = _ from h 0 0, show E.idx t a 1 1 = _ from h 1 1,
    show E.idx t a 1 0 = _ from h 1 0, show E.idx t a 0 1 = _ from h 0 1]

/-- **C90** (3x3 determinant): the six products in the order of the source, each from the top row down. -/
theorem C90_det3 (t : Target) (a : Mat T 3 3) :
    E.determinant t 2 a = (do
      let term : Fin 3 → Fin 3 → Fin 3 → m T := fun i j k => do
        let x ← E.clone (a.get 0 i)
        let y ← E.clone (a.get 1 j)
        let p ← E.mul x y
        let z ← E.clone (a.get 2 k)
        E.mul p z
      let p1 ← term 0 1 2
      let p2 ← term 1 2 0
      let s ← E.add p1 p2
      let p3 ← term 2 0 1
      let s ← E.add s p3
      let p4 ← term 2 1 0
      let s ← E.sub s p4
      let p5 ← term 1 0 2
      let s ← E.sub s p5
      let p6 ← term 0 2 1
      E.sub s p6) := by
  have h : ∀ i j : Fin 3, E.idx t a i j = E.clone (a.get i j) := by
    intro i j
    simp only [Elem.idx, Mat.idxStatic_ok t a i.isLt j.isLt, liftRes_ok, pure_bind, Fin.eta]
  have ht : ∀ i j k : Fin 3, E.det3Term t a i j k = (do
      let x ← E.clone (a.get 0 i)
      let y ← E.clone (a.get 1 j)
      let p ← E.mul x y
      let z ← E.clone (a.get 2 k)
      E.mul p z) := by
    intro i j k
    rw [Elem.det3Term, show E.idx t a 0 i = _ from h 0 i, show E.idx t a 1 j = _ from h 1 j, show E.idx t a 2 k = _ from h 2 k]
  rw [Elem.determinant, Elem.det3, show E.det3Term t a 0 1 2 = _ from ht 0 1 2, show E.det3Term t a 1 2 0 = _ from ht 1 2 0,
    show E.det3Term t a 2 0 1 = _ from ht 2 0 1, show E.det3Term t a 2 1 0 = _ from ht 2 1 0,
    show E.det3Term t a 1 0 2 = _ from ht 1 0 2, show E.det3Term t a 0 2 1 = _ from ht 0 2 1]

/-- **C90** (minors): the entries of the smaller matrix are cloned in row-major order, those of the deleted row and column never. -/
theorem C90_minor (t : Target) (a : Mat T (n + 1) (n + 1)) (i j : Fin (n + 1)) (hn : n + 1 < t.W) :
    Mat.toLists <$> E.minor t a i j =
      (List.finRange n).mapM fun p => (List.finRange n).mapM fun q : Fin n => E.clone (a.get (i.succAbove p) (j.succAbove q)) := by
  rw [Elem.minor, drain_rowsRef t a hn]
  simp only [liftRes_ok, pure_bind]
  rw [← Mat.collect_toLists t n n (List.finRange n) (fun _ => List.finRange n) _ (by simp) (by simp)]
  congr 2
  congr 1
  rw [rowsOf, zipIdx_filter, List.map_map]
  apply List.map_congr_left; intro p _
  simp only [Function.comp_def]
  congr 1
  rw [Vec.toList_ofFn, zipIdx_filter, List.map_map]
  rfl

/-- **C90** (cofactor from 4x4): the minor is cloned, the sign computed, the determinant taken and the two multiplied. -/
theorem C90_cofactor (t : Target) (k : Nat) (a : Mat T (k + 4) (k + 4)) (i j : Fin (k + 4)) (hW : 2 * k + 7 < t.W) :
    E.cofactor t (k + 2) a (i, j) = (do
      let arr ← E.minor t a i j
      let sgn ← (if (i.val + j.val) % 2 = 0 then E.one else do
        let o ← E.one
        E.neg o)
      let d ← E.determinant t (k + 2) arr
      E.mul sgn d) := by
  have hu : uadd t i j = .ok (i.val + j.val) := by
    have := i.isLt; have := j.isLt
    simp only [uadd]; rw [if_pos (by omega)]
  have hi := i.isLt
  have hj := j.isLt
  rw [Elem.cofactor, Elem.cofGen, if_pos ⟨hi, hj⟩]
  simp only [Elem.cofSign, hu, liftRes_ok, pure_bind]

/-! ### The hypotheses can be met -/

/-- Elements whose every call is counted, of size 2x3 times 3x4: any size below 2^64 will do. -/
example (E : Elem (StM (List Nat)) Int) (a : Mat Int 2 3) (b : Mat Int 3 4) :
    Mat.toLists <$> E.mulVV ⟨true, true, 2 ^ 64⟩ a b =
      (List.finRange 2).mapM fun i => (List.finRange 4).mapM fun j => (do
        let z ← E.zero
        (List.finRange 3).foldlM (fun acc k => do
          let x ← E.clone (a.get i k)
          let y ← E.clone (b.get k j)
          let q ← E.mul x y
          E.add acc q) z) :=
  C90_mul E _ a b (by decide) (by decide) (by decide)

example (E : Elem (StM (List Nat)) Int) (a : Mat Int 4 4) :
    Mat.toLists <$> E.minor ⟨true, true, 2 ^ 64⟩ a (1 : Fin 4) (2 : Fin 4) =
      (List.finRange 3).mapM fun p => (List.finRange 3).mapM fun q : Fin 3 =>
        E.clone (a.get ((1 : Fin 4).succAbove p) ((2 : Fin 4).succAbove q)) :=
  C90_minor E _ a 1 2 (by decide)

end Rowcol
