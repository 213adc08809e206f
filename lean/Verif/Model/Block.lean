import Verif.Model.Mat
import Verif.Lemmas.OfFn

/-! Matrices as elements of matrices: `Matrix<Matrix<T, N, N>, Row, Col>`.

The crate's operators are generic in the element type, and `Matrix<T, N, N>` itself has the operators they ask for (`Zero`, `One`,
`Clone`, `Add`, `Sub`, `Mul`, `Neg`).  Here the element operations of such a matrix are the operations of Model/Mat.lean. -/

namespace Rowcol
variable {T : Type}

/-- The operations of `Matrix<T, N, N>` as an element type.  `zero`: src/matrix/mod.rs:619-621; `one`: mod.rs:667-669, 217-221;
`+`, `-`: src/matrix/arith.rs:10-83; `*`: arith.rs:173-250; unary `-`: arith.rs:115-126; `is_zero`: mod.rs:623-625.  `zero` and `one`
are written down as the matrices that `generate` returns (C06); this is checked by `Ops.block_zero`, `Ops.block_one`.  A matrix cannot
be divided by a matrix: no operation that uses `/` compiles with this element type, and `div` is a placeholder. -/
def Ops.block (t : Target) (O : Ops T) (m : Nat) : Ops (Mat T m m) where
  zero := Mat.ofFn fun _ _ => O.zero
  one := Mat.ofFn fun i j => if i = j then O.one else O.zero
  add := Mat.opVV t O.add
  sub := Mat.opVV t O.sub
  mul := Mat.mulVV t O
  neg := Mat.neg t O.neg
  div _ _ := .error .panic
  isZero := Mat.isZero O.isZero

end Rowcol
