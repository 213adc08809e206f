import Verif.Model.Det
import Verif.Model.Display
import Verif.Model.Examples
import Verif.Model.Iter
import Verif.Model.Mem
import Verif.Model.TypeLevel
import Verif.MachInt
import Verif.Complex
import Verif.Props.FloatBits
import Verif.Approx

/-! # The crate's own tests, run in the model

Every `#[test]` and every documented example of the crate, transcribed call by call and evaluated by the kernel on the
definitions of `Verif/Model`.  These are tests of the model and prove no property: a model that failed one of the crate's own
tests would be the wrong model.  Integers are `i32`/`u32`/`u64` with overflow checks on, fractions `Ratio`, floating point
numbers the bits of `f32`/`f64`; the target has 64 bits and debug assertions. -/

namespace Rowcol
namespace Conformance

deriving instance DecidableEq for Vec, Mat, Except

/-- The machine of the tests: a debug build for 64 bits. -/
def t : Target := ⟨true, true, 2 ^ 64⟩

/-- `i32`. -/
abbrev I32 : Ops (BitVec 32) := Ops.signed true 32
/-- An `i32`. -/
def i (z : Int) : BitVec 32 := BitVec.ofInt 32 z
/-- `vector![..]` of `i32`. -/
def vi (l : List Int) : Vec (BitVec 32) l.length := ⟨l.map i, by simp⟩
/-- `Matrix::<T, U_r, U_c>::new`. -/
def mk {T : Type} (r c : Nat) (l : List (List T)) (h : l.length = r := by decide) (h' : ∀ x ∈ l, x.length = c := by decide) :
    Res (Mat T r c) :=
  Mat.new t ⟨l.attach.map fun x => ⟨x.1, h' x.1 x.2⟩, by simp [h]⟩
/-- `Matrix::<i32, U_r, U_c>::new`. -/
def mi (r c : Nat) (l : List (List Int)) (h : l.length = r := by decide) (h' : ∀ x ∈ l, x.length = c := by decide) :
    Res (Mat (BitVec 32) r c) :=
  mk r c (l.map (·.map i)) (by simp [h]) (by simpa using fun a ha => h' a ha)
/-- `Ord for i32`. -/
def cmpI (a b : BitVec 32) : Ordering := compare a.toInt b.toInt
/-- `i32::abs`. -/
def absI (a : BitVec 32) : BitVec 32 := if a.toInt < 0 then -a else a
/-- `assert!`. -/
def check (b : Bool) : Res Unit := if b then pure () else .error .panic
/-- `x op= y`, as a statement. -/
def stmt {α : Type} (x : Res Unit × α) : Res α := x.1.map fun _ => x.2

/-! ## src/vector.rs -/

/-- The documentation of `Vector` (vector.rs:25-32). -/
example : (vi [1, 2, 3, 4, 5]).intoInner = [1, 2, 3, 4, 5].map i := by decide +kernel

/-- `into_chunks` (vector.rs:80-87). -/
example : (OwnIt.chunkRun t 2 [.next, .next, .next] (OwnIt.intoIter (vi [1, 2, 3, 4]))).1 =
    [.item (some (vi [1, 2])), .item (some (vi [3, 4])), .item none] := by decide +kernel

/-- `test_vector_arith` (vector.rs:475-500). -/
def testVectorArith : Res Unit := do
  let a := vi [1, 2, 3]
  let b := vi [4, 5, 6]
  let ab := vi [5, 7, 9]
  let amb := vi [-3, -3, -3]
  check ((← Vec.opVV t I32.add a b) = ab)
  check ((← Vec.opRV t I32.add a b) = ab)
  check ((← Vec.opVR t I32.add a b) = ab)
  check ((← Vec.opRR t I32.add a b) = ab)
  check ((← Vec.opVV t I32.sub a b) = amb)
  check ((← Vec.opRV t I32.sub a b) = amb)
  check ((← Vec.opVR t I32.sub a b) = amb)
  check ((← Vec.opRR t I32.sub a b) = amb)
  check ((← a.mulScalar t I32.mul (i 2)) = vi [2, 4, 6])
  check ((← b.divScalar t I32.div (i 2)) = vi [2, 2, 3])
  let a ← stmt (a.mulAssign I32.mul (i 4))
  check (a = vi [4, 8, 12])
  let a ← stmt (a.divAssign I32.div (i 2))
  check (a = vi [2, 4, 6])
  let a ← stmt (a.subAssign I32.sub (vi [1, 1, 1]))
  check (a = vi [1, 3, 5])
  let a ← stmt (a.addAssign I32.add (vi [1, 2, 3]))
  check (a = vi [2, 5, 8])

example : testVectorArith = .ok () := by decide +kernel

/-- `test_dot` (vector.rs:515-520). -/
example : (vi [1, 2, 3]).dot I32 (vi [4, 5, 6]) = .ok (i 32) := by decide +kernel

/-- `test_cross` (vector.rs:541-546). -/
example : (vi [1, 2, 3]).cross t I32 (vi [4, 5, 6]) = .ok (vi [-3, 6, -3]) := by decide +kernel

/-- `test_sum` (vector.rs:584-588). -/
example : (vi [1, 2]).sum I32 = .ok (i 3) := by decide +kernel

/-- `test_minmax` (vector.rs:656-663) and the documentation of `max_by` (vector.rs:629-634). -/
def testMinMax : Res Unit := do
  let v := vi [1, 2, 3]
  let far : BitVec 32 → BitVec 32 → Res Ordering := fun a b => do
    pure (cmpI (absI (← I32.sub a (i 5))) (absI (← I32.sub b (i 5))))
  check ((← v.max cmpI) = i 3)
  check ((← v.min cmpI) = i 1)
  check ((← v.maxBy far) = i 1)
  check ((← v.minBy far) = i 3)
  let v := vi [-1, 2, -3]
  check ((← v.max cmpI) = i 2)
  check ((← v.maxBy fun a b => pure (cmpI (absI a) (absI b))) = i (-3))

example : testMinMax = .ok () := by decide +kernel

/-- `test_clamp` (vector.rs:683-689). -/
def testClamp : Res Unit := do
  let v := vi [1, 5, 8]
  check ((← v.clamped t cmpI (i 4) (i 6)) = vi [4, 5, 6])
  check (v.clamp cmpI (i 3) (i 4) = vi [3, 4, 4])

example : testClamp = .ok () := by decide +kernel

/-- `test_vec_intoiter` (vector.rs:813-818); the reversed iterator calls `next_back`. -/
example : (OwnIt.runDrop t (fun _ => false) [.nth 1] (OwnIt.intoIter (vi [1, 2, 3]))).1 = [.item (some (i 2))] := by decide +kernel
example : (OwnIt.runDrop t (fun _ => false) [.nextBack, .nextBack, .nextBack, .nextBack] (OwnIt.intoIter (vi [1, 2, 3]))).1 =
    [.item (some (i 3)), .item (some (i 2)), .item (some (i 1)), .item none] := by decide +kernel

/-- `test_vector_chunks` (vector.rs:888-903). -/
example : (OwnIt.chunkRun t 2 [.next, .next, .len] (OwnIt.intoIter (vi [1, 2, 3, 4, 5, 6]))).1 =
    [.item (some (vi [1, 2])), .item (some (vi [3, 4])), .size 1] := by decide +kernel
example : (OwnIt.chunkRun t 2 [.nextBack, .nextBack, .nextBack, .nextBack] (OwnIt.intoIter (vi [1, 2, 3, 4, 5, 6]))).1 =
    [.item (some (vi [5, 6])), .item (some (vi [3, 4])), .item (some (vi [1, 2])), .item none] := by decide +kernel

/-- `test_array` (vector.rs:951-960). -/
example : (Vec.default t (8 - 3) (pure (i 0) : Res (BitVec 32))).map Vec.len = .ok 5 := by decide +kernel

/-! ## src/macros.rs and src/util.rs -/

/-- `test_macro` (macros.rs:115-138) and the documentation of the macros (macros.rs:5-12, 55-62). -/
example : (vectorCount ([] : List Nat)).toNat = 0 ∧ (Vec.nil : Vec Nat 0).isEmpty = true ∧
    (vectorCount [1]).toNat = 1 ∧ (vectorCount [1, 2]).toNat = 2 := by decide +kernel
example : ((matrixCountRow [[1], [2]]).toNat, (matrixCountCol [[1], [2]]).toNat) = (2, 1) ∧
    ((matrixCountRow [[1, 2]]).toNat, (matrixCountCol [[1, 2]]).toNat) = (1, 2) ∧
    ((matrixCountRow ([] : List (List Nat))).toNat, (matrixCountCol ([] : List (List Nat))).toNat) = (0, 0) ∧
    ((matrixCountRow ([[], []] : List (List Nat))).toNat, (matrixCountCol ([[], []] : List (List Nat))).toNat) = (2, 0) := by
  decide +kernel
example : Vec.opVV t I32.add (vi [1, 2, 3, 4]) (vi [4, 3, 2, 1]) = .ok (vi [5, 5, 5, 5]) := by decide +kernel
example : (do (← mi 2 2 [[1, 2], [3, 4]]).mulScalar t I32.mul (i 2)) = mi 2 2 [[2, 4], [6, 8]] := by decide +kernel

/-- `test_typenum_min` (util.rs:29-37). -/
example : (tmin (.ofNat 3) (.ofNat 5)).toNat = 3 ∧ (tmin (.ofNat 6) (.ofNat 5)).toNat = 5 ∧
    (tmin (.ofNat 4) (.ofNat 4)).toNat = 4 := by decide +kernel

/-! ## src/matrix/arith.rs -/

/-- `test_mul_assign_mat` (arith.rs:268-273). -/
def testMulAssign : Res Unit := do
  let m ← mi 2 2 [[1, 2], [3, 4]]
  let m ← stmt (m.mulAssign t I32 (← mi 2 2 [[5, 6], [7, 8]]))
  check (m = (← mi 2 2 [[19, 22], [43, 50]]))

example : testMulAssign = .ok () := by decide +kernel

/-- `test_matrix_arith` (arith.rs:363-414). -/
def testMatrixArith : Res Unit := do
  let m1 ← Mat.default t 2 2 (pure (i 0))
  let m1 ← m1.indexSet (1, 1) (i 4)
  let m1 ← m1.indexSet (0, 0) (i 1)
  let m2 ← mi 2 2 [[0, 0], [0, 1]]
  check ((← m2.index (1, 1)) = i 1)
  let m3 ← Mat.opVV t I32.add m1 m2
  check (m3 = (← mi 2 2 [[1, 0], [0, 5]]))
  check ((← m3.index (0, 0)) = i 1)
  check ((← m3.index (1, 1)) = i 5)
  check ((← m3.neg t I32.neg) = (← mi 2 2 [[-1, 0], [0, -5]]))
  check ((← Mat.opRV t I32.add m1 m2) = (← mi 2 2 [[1, 0], [0, 5]]))
  check ((← Mat.opVR t I32.add m1 m2) = (← mi 2 2 [[1, 0], [0, 5]]))
  check ((← Mat.opRR t I32.add m1 m2) = (← mi 2 2 [[1, 0], [0, 5]]))
  let m4 ← Mat.opVV t I32.sub m1 m2
  check (m4 = (← mi 2 2 [[1, 0], [0, 3]]))
  check ((← m4.index (0, 0)) = i 1)
  check ((← m4.index (1, 1)) = i 3)
  check ((← Mat.opRV t I32.sub m1 m2) = (← mi 2 2 [[1, 0], [0, 3]]))
  check ((← Mat.opVR t I32.sub m1 m2) = (← mi 2 2 [[1, 0], [0, 3]]))
  check ((← Mat.opRR t I32.sub m1 m2) = (← mi 2 2 [[1, 0], [0, 3]]))
  let one ← Mat.identity t I32 2
  check (m1 = (← m1.mulVV t I32 one))
  check ((← m1.mulVV t I32 (← numPow (Mat.one t I32 2) (Mat.mulVV t I32) one 20)) = m1)
  let m5 ← mi 2 1 [[1], [3]]
  check ((← m5.index (1, 0)) = i 3)
  check ((← (← Mat.opVV t I32.sub (← Mat.opVV t I32.add m5 m5) m5).index (1, 0)) = i 3)
  let m218 ← mi 2 1 [[2], [18]]
  check ((← (← m4.mulVV t I32 m5).mulScalar t I32.mul (i 2)) = m218)
  check ((← (← m4.mulRV t I32 m5).mulScalar t I32.mul (i 2)) = m218)
  check ((← (← m4.mulRR t I32 m5).mulScalar t I32.mul (i 2)) = m218)
  check ((← (← (← m4.mulVR t I32 m5).mulScalar t I32.mul (i 2)).divScalar t I32.div (i 2)) = (← mi 2 1 [[1], [9]]))
  check ((← m5.mulVecRef t I32 (vi [2])) = vi [2, 6])
  let m ← stmt (m4.mulAssignScalar I32.mul (i 2))
  let m ← m.mulScalar t I32.mul (i 2)
  let m ← stmt (m.divAssignScalar I32.div (i 2))
  let m ← m.divScalar t I32.div (i 2)
  check (m = m4)
  let mb ← mk 2 2 [[(1 : Int), 2], [3, 4]]
  check ((← mb.mulVV t Ops.int mb) = (← mk 2 2 [[7, 10], [15, 22]]))

example : testMatrixArith = .ok () := by decide +kernel

/-! ## src/matrix/iter.rs -/

/-- `test_matrix_rows_cols_iter` (iter.rs:479-543).  A reversed iterator calls `next_back`, its `count` is std's. -/
def testRowsCols : Res Unit := do
  let m ← Mat.default t 2 3 (pure (i 0))
  let m ← m.indexSet (0, 0) (i 1)
  let m ← m.indexSet (1, 1) (i 2)
  let m ← m.indexSet (1, 2) (i 3)
  let m ← m.indexSet (0, 2) (i 4)
  check (m.dim = (2, 3))
  check (m.nrows = 2)
  check (m.ncols = 3)
  let a := m.rows
  let r0 := vi [1, 0, 4]
  let r1 := vi [0, 2, 3]
  let s := RowsIter.new a
  check ((← RowsIter.len t a s) = 2)
  let q := Spec.run (RowsIter.machine t a) s [.next, .next, .next]
  check (q.1 = [.ok (some r0), .ok (some r1), .ok none])
  check ((← RowsIter.count t a q.2) = 0)
  let q := Spec.run (RowsIter.machine t a) s [.nextBack, .nextBack, .nextBack, .nextBack]
  check (q.1 = [.ok (some r1), .ok (some r0), .ok none, .ok none])
  let s := RowsIterRef.new a
  check ((← RowsIterRef.len t a s) = 2)
  let q := Spec.run (RowsIterRef.machine t a) s [.next, .next, .next]
  check (q.1 = [.ok (some r0), .ok (some r1), .ok none])
  check ((← RowsIterRef.count t a q.2) = 0)
  let c0 := vi [1, 0]
  let c1 := vi [0, 2]
  let c2 := vi [4, 3]
  let s := ColsIter.new a
  check ((← ColsIter.len t a s) = 3)
  let q := Spec.run (ColsIter.machine t a) s [.next, .next, .next, .next]
  check (q.1 = [.ok (some c0), .ok (some c1), .ok (some c2), .ok none])
  check ((← ColsIter.count t a q.2) = 0)
  let q := Spec.run (ColsIter.machine t a) s [.nextBack, .nextBack, .nextBack, .nextBack, .nextBack]
  check (q.1 = [.ok (some c2), .ok (some c1), .ok (some c0), .ok none, .ok none])
  let s := ColsIterRef.new a
  check ((← ColsIterRef.len t a s) = 3)
  let q := Spec.run (ColsIterRef.machine t a) s [.next, .next, .next, .next]
  let inner := q.1.map fun o => o.bind fun
    | none => .ok ([], [])
    | some z => let w := Spec.run (ColsIterRefInner.machine t a) z [.next, .next, .next]; .ok (w.1, [w.2])
  check (inner.map (·.map (·.1)) = [.ok [.ok (some (i 1)), .ok (some (i 0)), .ok none],
    .ok [.ok (some (i 0)), .ok (some (i 2)), .ok none], .ok [.ok (some (i 4)), .ok (some (i 3)), .ok none], .ok []])
  check ((← ColsIterRef.count t a q.2) = 0)

example : testRowsCols = .ok () := by decide +kernel

/-! ## src/matrix/mod.rs -/

/-- `test_transposed` (mod.rs:229-236). -/
def testTransposed : Res Unit := do
  let mat ← mi 2 2 [[1, 2], [3, 4]]
  check ((← mat.transposed t) = (← mi 2 2 [[1, 3], [2, 4]]))
  check ((← stmt (mat.transpose t)) = (← mi 2 2 [[1, 3], [2, 4]]))

example : testTransposed = .ok () := by decide +kernel

/-- `Debug`/`Display for i32`. -/
def showI (a : BitVec 32) : String := toString a.toInt

/-- `test_debug_matrix` (mod.rs:322-326). -/
example : (do (← mi 2 2 [[1, 2], [3, 4]]).debug t showI) = .ok "Matrix[[1, 2], [3, 4]]" := by decide +kernel

/-- `Display for Matrix<i32, U2, U2>`, as the elements of a matrix of matrices; `str_len` is `str::len` (without the feature
`unicode_width`) or the width. -/
def showM (cw : Char → Nat) (m : Mat (BitVec 32) 2 2) : List Char :=
  match m.display t strLines cw (fun x => (showI x).toList) with
  | .ok s => s
  | .error _ => []

/-- The two matrices of `test_display`. -/
def testDisplay (cw : Char → Nat) : Res Unit := do
  let m ← mi 2 2 [[111, 2], [3, 4]]
  check ((← m.display t strLines cw (fun x => (showI x).toList)) = "⎡111 2⎤\n⎣ 3  4⎦".toList)
  let m2 ← mi 2 2 [[1, 2], [3, 4]]
  let mm ← mk 3 2 [[m, m2], [(← m2.transposed t), m], [m2, (← m.transposed t)]]
    (by simp) (by simp)
  check ((← mm.display t strLines cw (showM cw)) =
    "⎡⎡111 2⎤  ⎡1 2⎤ ⎤\n⎢⎣ 3  4⎦  ⎣3 4⎦ ⎥\n⎢ ⎡1 3⎤  ⎡111 2⎤⎥\n⎢ ⎣2 4⎦  ⎣ 3  4⎦⎥\n⎢ ⎡1 2⎤  ⎡111 3⎤⎥\n⎣ ⎣3 4⎦  ⎣ 2  4⎦⎦".toList)

/-- `test_display` (mod.rs:408-426), with the feature `unicode_width` (each of the characters has width 1) and without. -/
example : testDisplay (fun _ => 1) = .ok () := by decide +kernel
example : testDisplay Char.utf8Size = .ok () := by decide +kernel

/-- `test_bounded` (mod.rs:654-658); `u32`. -/
example : Mat.minValue t 2 2 (0 : BitVec 32) = mk 2 2 [[0, 0], [0, 0]] := by decide +kernel

/-- `test_conjugate` (mod.rs:694-700). -/
def testConjugate : Res Unit := do
  let m : Mat (Mat.Cpx (BitVec 32)) 2 2 ← mk 2 2 [[⟨i 1, i 1⟩, ⟨i 1, i (-1)⟩], [⟨i (-2), i 1⟩, ⟨i 1, i 1⟩]]
  let s ← Mat.opVV t (Ops.complex I32).add (← m.conjugate t I32.neg) m
  check (← s.all fun _ a => pure (a.im == 0))

example : testConjugate = .ok () := by decide +kernel

/-- `test_sum` (mod.rs:714-718). -/
example : (do (← mi 2 2 [[1, 2], [3, 4]]).sum I32) = .ok (i 10) := by decide +kernel

/-- `test_minmax` (mod.rs:789-796) and the documentation of `max_by` (mod.rs:757-762). -/
def testMatMinMax : Res Unit := do
  let v ← mi 2 2 [[1, 2], [3, 4]]
  let far : BitVec 32 → BitVec 32 → Res Ordering := fun a b => do
    pure (cmpI (absI (← I32.sub a (i 5))) (absI (← I32.sub b (i 5))))
  check ((← v.max cmpI) = i 4)
  check ((← v.min cmpI) = i 1)
  check ((← v.maxBy far) = i 1)
  check ((← v.minBy far) = i 4)
  let v ← mi 2 2 [[-1, 2], [3, -4]]
  check ((← v.max cmpI) = i 3)
  check ((← v.maxBy fun a b => pure (cmpI (absI a) (absI b))) = i (-4))

example : testMatMinMax = .ok () := by decide +kernel

/-- `test_clamp` (mod.rs:821-827). -/
def testMatClamp : Res Unit := do
  let v ← mi 2 2 [[1, 5], [8, 2]]
  check ((← v.clamped t cmpI (i 4) (i 6)) = (← mi 2 2 [[4, 5], [6, 4]]))
  check (v.clamp cmpI (i 3) (i 4) = (← mi 2 2 [[3, 4], [4, 3]]))

example : testMatClamp = .ok () := by decide +kernel

/-! ## src/matrix/ops.rs, exact arithmetic -/

/-- `test_det_cof_impl` (ops.rs:209-238), the part with `i32`. -/
def testDetCof : Res Unit := do
  let m ← mi 2 2 [[1, 2], [3, 4]]
  check ((← m.cofactor t I32 0 (0, 0)) = i 4)
  check ((← m.cofactor t I32 0 (0, 1)) = i (-3))
  check ((← m.determinant t I32 1) = i (-2))
  let m ← mi 3 3 [[1, 2, 3], [4, 5, 6], [7, 8, 9]]
  check ((← m.determinant t I32 2) = i 0)
  check ((← m.cofactor t I32 1 (1, 1)) = i (-12))
  check ((← m.cofactor t I32 1 (0, 1)) = i 6)

example : testDetCof = .ok () := by decide +kernel

/-- `test_hard_coded_inverse` (ops.rs:324-339); `Ratio<BigInt>`, then `Ratio<i32>`. -/
def testInverse23 : Res Unit := do
  let m ← mk 2 2 [[(1 : ℚ), 5], [2, 4]]
  let some n ← m.inverse t (Ops.exact ℚ) 1 | .error .panic
  check ((← n.mulScalar t (Ops.exact ℚ).mul 6) = (← mk 2 2 [[-4, 5], [2, -1]]))
  let m ← mk 3 3 [[(1 : ℚ), 5, 3], [2, 4, 1], [2, 2, 2]]
  let some n ← m.inverse t (Ops.ratio 32) 2 | .error .panic
  check ((← n.mulScalar t (Ops.ratio 32).mul 16) = (← mk 3 3 [[-6, 4, 7], [2, 4, -5], [4, -8, 6]]))

example : testInverse23 = .ok () := by decide +kernel

/-- `test_inverse` (ops.rs:394-411); `Ratio<i32>`. -/
def testInverse4 : Res Unit := do
  let m ← mk 4 4 [[(1 : ℚ), 5, 3, 1], [2, 4, 1, 2], [2, 2, 2, 1], [1, 5, 1, 1]]
  let some n ← m.inverse t (Ops.ratio 32) 3 | .error .panic
  check ((← n.mulScalar t (Ops.ratio 32).mul 12) = (← mk 4 4 [[-9, -6, 12, 9], [-1, -2, 0, 5], [6, 0, 0, -6], [8, 16, -12, -16]]))

example : testInverse4 = .ok () := by decide +kernel

/-! ## src/lib.rs -/

/-- The documentation of the crate (lib.rs:9-29): `u64`. -/
example : fibDoc t (Ops.unsigned true 64) 0 = .ok 0 ∧ fibDoc t (Ops.unsigned true 64) 10 = .ok 55 ∧
    fibDoc t (Ops.unsigned true 64) 50 = .ok 12586269025 := by decide +kernel

/-! ## Floating point: `f32` and `f64` bit by bit -/

/-- `f32`. -/
def F32 : Ops (BitVec 32) := Ops.floatBits .f32 8
/-- The `f32` nearest to a fraction: a literal. -/
def f (q : ℚ) : BitVec 32 := FloatFormat.encode .f32 8 (Sf.round false q)
/-- `f32: PartialEq`. -/
def eqF (a b : BitVec 32) : Bool := FloatBits.eqBits .f32 8 a b
/-- `powi(2)`: one multiplication. -/
def powiF (a : BitVec 32) (_ : Int) : BitVec 32 :=
  FloatFormat.encode .f32 8 ((FloatFormat.decode .f32 8 a).mul (FloatFormat.decode .f32 8 a))
/-- `f32::sqrt`. -/
def sqrtF (a : BitVec 32) : BitVec 32 := FloatBits.sqrtBits .f32 8 a
/-- `assert_relative_eq!` with the default tolerances of the crate `approx`. -/
def closeF (a b : BitVec 32) : Bool := Approx.relativeEq (.bits .f32 8) a b (f (Approx.epsilon .f32)) (f (Approx.epsilon .f32))
/-- `Matrix::<f32, U_r, U_c>::new`. -/
def mf (r c : Nat) (l : List (List ℚ)) (h : l.length = r := by decide) (h' : ∀ x ∈ l, x.length = c := by decide) :
    Res (Mat (BitVec 32) r c) :=
  mk r c (l.map (·.map f)) (by simp [h]) (by simpa using fun a ha => h' a ha)

/-- `test_norm` (vector.rs:564-571). -/
def testNorm : Res Unit := do
  let v : Vec (BitVec 32) 2 := ⟨[f 3, f 4], rfl⟩
  check (closeF (← v.norm F32 sqrtF powiF) (f 5))
  let n ← v.normalized t F32 sqrtF powiF
  check (closeF (← n.index 0) (f (6 / 10)))
  check (closeF (← n.index 1) (f (8 / 10)))

example : testNorm = .ok () := by decide +kernel

/-- `test_macro` (macros.rs:115-138), the part with `f32`. -/
example : (do pure ((← mf 2 2 [[1, 2], [3, 4]]).eq eqF (← mf 2 2 [[1, 2], [3, 4]]))) = .ok true := by decide +kernel

/-- `test_zero` (mod.rs:628-635), and the documentation of `diag` and `identity` (mod.rs:105-113, 211-216). -/
def testZero : Res Unit := do
  let m ← Mat.zero t 3 3 F32.zero
  check (m.isZero F32.isZero)
  let m ← m.indexSet (0, 0) (f 1)
  check (!m.isZero F32.isZero)
  let d ← (Mat.diag (r := 3) (c := 3) t F32.zero ⟨[f 1, f 2, f 3], rfl⟩).1
  check (d.eq eqF (← mf 3 3 [[1, 0, 0], [0, 2, 0], [0, 0, 3]]))
  check ((← Mat.identity t F32 3).eq eqF (← Mat.generate t 3 3 fun p => pure (if p.1 = p.2 then f 1 else f 0)))

example : testZero = .ok () := by decide +kernel

/-- `test_det_cof_impl` (ops.rs:209-238), the part with `f32`. -/
def testDetFloat : Res Unit := do
  let m ← mf 4 4 [[1, 2, 3, 4], [5, 6, 7, 8], [9, 10, 11, 12], [13, 14, 15, 16]]
  check (closeF (← m.determinant t F32 3) (f 0))
  let m ← mf 6 6 [[1, 2, 3, 4, 5, 6], [7, 8, 9, 10, 11, 12], [13, 14, 15, 16, 17, 18], [19, 20, 21, 22, 23, 24],
    [25, 26, 27, 28, 29, 30], [31, 32, 33, 34, 35, 36]]
  check (closeF (← m.determinant t F32 5) (f 0))
  let m ← mf 6 6 [[1, 1, 1, 1, 1, 63], [7, 8, 9, 10, 11, 12], [13, 14, 1, 18, 17, 18], [19, 80, 81, 22, 23, 20],
    [25, 26, 27, 28, 29, 30], [31, 32, 34, 34, 35, 44]]
  check (closeF (← m.determinant t F32 5) (f (-535680)))

example : testDetFloat = .ok () := by decide +kernel

/-- Of the second of these matrices, the true determinant is 0, and the computed one is not, so `assert_eq!` would have failed. -/
example : (do (← mf 6 6 [[1, 2, 3, 4, 5, 6], [7, 8, 9, 10, 11, 12], [13, 14, 15, 16, 17, 18], [19, 20, 21, 22, 23, 24],
    [25, 26, 27, 28, 29, 30], [31, 32, 33, 34, 35, 36]]).determinant t F32 5) = .ok 0xafd7ffe8#32 := by decide +kernel

/-- `f64`. -/
def F64 : Ops (BitVec 64) := Ops.floatBits .f64 11
/-- The `f64` nearest to a fraction. -/
def g (q : ℚ) : BitVec 64 := FloatFormat.encode .f64 11 (Sf.round false q)
/-- `f64: PartialEq`. -/
def eqG (a b : BitVec 64) : Bool := FloatBits.eqBits .f64 11 a b
/-- `Matrix::<f64, U_r, U_c>::new`. -/
def mg (r c : Nat) (l : List (List ℚ)) (h : l.length = r := by decide) (h' : ∀ x ∈ l, x.length = c := by decide) :
    Res (Mat (BitVec 64) r c) :=
  mk r c (l.map (·.map g)) (by simp [h]) (by simpa using fun a ha => h' a ha)

/-- The documentation of `Matrix` (mod.rs:33-69), of `new` (mod.rs:89-92) and of `dim` (mod.rs:134-137). -/
def testMatrixDoc : Res Unit := do
  let m ← mg 2 2 [[1, 2], [3, 4]]
  check (eqG (← (← m.transposed t).determinant t F64 1) (g (-2)))
  check (eqG (← (← m.mulScalar t F64.mul (g 2)).determinant t F64 1) (g (-8)))
  let some n ← m.inverse t F64 1 | .error .panic
  check ((← m.mulVV t F64 n).eq eqG (← Mat.identity t F64 2))
  let m ← stmt (m.addAssign F64.add (← m.mulVV t F64 m))
  let m ← stmt (m.divAssignScalar F64.div (g 2))
  let m ← stmt (m.mulAssign t F64 (← mg 2 2 [[1, 2], [3, 4]]))
  check (m.eq eqG (← mg 2 2 [[22, 32], [48, 70]]))
  let m ← mg 2 2 [[1, 2], [3, 4]]
  check (eqG (← m.index (0, 0)) (g 1))
  let m ← m.indexSet (0, 0) (← F64.add (← m.index (0, 0)) (g 1))
  check (m.eq eqG (← mg 2 2 [[2, 2], [3, 4]]))
  check (eqG (← m.getUnchecked t (1, 1)) (g 4))
  check (matStaticIndex (.ofNat 2) (.ofNat 2) (.ofNat 1, .ofNat 1) = some (1, 1))
  check (matStaticIndex (.ofNat 2) (.ofNat 2) (.ofNat 2, .ofNat 2) = none)
  check (m.dim = (2, 2))
  check ((← Mat.identity t F32 3).dim = (3, 3))

example : testMatrixDoc = .ok () := by decide +kernel

end Conformance
end Rowcol
