import Verif.Model.Mat

/-
Model of the type-level side of the crate: typenum numerals, trait bounds of the statically checked
index impls, impl selection for `Determinant`/`Cofactor`/`Inverse`, `Min`, the macros and the prelude.
-/

namespace Rowcol

/-- typenum's unsigned numerals: `UTerm` and `UInt<U, B>` (least significant bit outermost).  [typenum 1.x; used in the bounds of src/vector.rs:256-311 and src/matrix/mod.rs:449-610.] -/
inductive TNum where
  | uterm
  | uint (u : TNum) (b : Bool)
  deriving DecidableEq, Repr

namespace TNum

/-- `Unsigned::to_usize` of typenum.  [typenum; used as `N::to_usize()` throughout, e.g. src/vector.rs:45.] -/
def toNat : TNum → Nat
  | uterm => 0
  | uint u b => 2 * u.toNat + b.toNat

/-- typenum's numerals have no leading zero bits (`UInt<UTerm, B0>` is not produced by its constants and
operators, and only canonical numerals implement `ArrayLen`, vector.rs:912-944). -/
def Canonical : TNum → Prop
  | uterm => True
  | uint uterm b => b = true
  | uint u _ => u.Canonical

/-- `U1 + X` as computed by typenum's `Add` impls (successor with carry).  [typenum; used in the bounds of src/matrix/ops.rs.] -/
def succ : TNum → TNum
  | uterm => uint uterm true
  | uint u false => uint u true
  | uint u true => uint u.succ false

/-- `U0`, `U1`, ... of `typenum::consts`. -/
def ofNat : Nat → TNum
  | 0 => uterm
  | n + 1 => (ofNat n).succ

/-- typenum's `PrivateCmp`: compare bit by bit from the least significant end, remembering the verdict of
the last differing bit; a numeral that runs out first is smaller.  [typenum; behind src/util.rs:5-27.] -/
def cmpAux : TNum → TNum → Ordering → Ordering
  | uterm, uterm, o => o
  | uterm, uint _ _, _ => .lt
  | uint _ _, uterm, _ => .gt
  | uint u a, uint v b, o => cmpAux u v (if a = b then o else if a then .gt else .lt)

/-- `typenum::Compare<A, B>`.  [typenum; behind src/util.rs:5-27 and the `Cmp` bounds of src/vector.rs:256-265.] -/
def compare (a b : TNum) : Ordering := cmpAux a b .eq

/-- `N: ArrayLen<T>` (vector.rs:912-944): the constants `U0` to `U32`. -/
def ArrayLen (n : TNum) : Prop := ∃ k, k ≤ 32 ∧ n = ofNat k

end TNum

open TNum

/-! ### Statically checked indexing -/

/-- The impls of `Index<..> for Vector` with a type-level index whose bounds are met, and the run-time index
each passes to `get_unchecked`: `Index<UInt<IU, IB>>` (vector.rs:256-272) requires
`Compare<UInt<IU, IB>, N> = Less`; `Index<U0>` (vector.rs:274-285) has no bound relating `U0` and `N`.
(`IndexMut`: vector.rs:287-312, same bounds and index.) -/
def vecStaticIndex (n : TNum) : TNum → Option Nat
  | uterm => some 0
  | uint u b => if TNum.compare (uint u b) n = .lt then some (uint u b).toNat else none

/-- The four impls of `Index<(..)> for Matrix` with type-level indices (mod.rs:448-471, 495-511, 527-548,
569-590; `IndexMut`: 473-493, 513-525, 550-567, 592-609): every component is compared with its bound. -/
def matStaticIndex (row col : TNum) : TNum × TNum → Option (Nat × Nat)
  | (uint u b, uint v d) =>
    if TNum.compare (uint u b) row = .lt ∧ TNum.compare (uint v d) col = .lt
    then some ((uint u b).toNat, (uint v d).toNat) else none
  | (uterm, uterm) =>
    if TNum.compare uterm row = .lt ∧ TNum.compare uterm col = .lt then some (0, 0) else none
  | (uint u b, uterm) =>
    if TNum.compare (uint u b) row = .lt ∧ TNum.compare uterm col = .lt
    then some ((uint u b).toNat, 0) else none
  | (uterm, uint v d) =>
    if TNum.compare uterm row = .lt ∧ TNum.compare (uint v d) col = .lt
    then some (0, (uint v d).toNat) else none

/-! ### impl selection -/

/-- Which impl of a size-specialised trait.  [The impl headers of src/matrix/ops.rs.] -/
inductive SizeImpl where
  | u1 | u2 | u3 | big
  deriving DecidableEq, Repr

/-- The header patterns: `U1`, `U2`, `U3` and `UInt<UInt<UInt<U, Ba>, Bb>, Bc>`. -/
def SizeImpl.matches : SizeImpl → TNum → Prop
  | .u1, n => n = uint uterm true
  | .u2, n => n = uint (uint uterm true) false
  | .u3, n => n = uint (uint uterm true) true
  | .big, n => ∃ u a b d, n = uint (uint (uint u a) b) d

mutual
/-- `Matrix<T, N, N>: Determinant` through the given impl (ops.rs:31-32, 40-43, 53-56, 72-85): the header
matches and the size-dependent where-clauses hold (`ArrayLen`, and `Cofactor` of the same size for the
general impl).  Bounds on the element type are not modelled. -/
inductive HasDet : TNum → SizeImpl → Prop
  | u1 (n) : SizeImpl.u1.matches n → HasDet n .u1
  | u2 (n) : SizeImpl.u2.matches n → HasDet n .u2
  | u3 (n) : SizeImpl.u3.matches n → HasDet n .u3
  | big (n) (i) : SizeImpl.big.matches n → n.ArrayLen → HasCof n i → HasDet n .big
/-- `Matrix<T, N, N>: Cofactor` (ops.rs:132, 144-147, 166-183): the general impl needs `Determinant` for
`Diff<N, U1>`; `d` is that numeral. -/
inductive HasCof : TNum → SizeImpl → Prop
  | u2 (n) : SizeImpl.u2.matches n → HasCof n .u2
  | u3 (n) : SizeImpl.u3.matches n → HasCof n .u3
  | big (n d) (i) : SizeImpl.big.matches n → n.ArrayLen → d.ArrayLen → d.succ = n → HasDet d i → HasCof n .big
end

/-- `Matrix<T, N, N>: Inverse` (ops.rs:253, 266-270, 286-290, 340-351). -/
inductive HasInv : TNum → SizeImpl → Prop
  | u1 (n) : SizeImpl.u1.matches n → HasInv n .u1
  | u2 (n) (i) : SizeImpl.u2.matches n → HasDet n i → HasInv n .u2
  | u3 (n) (i) : SizeImpl.u3.matches n → HasDet n i → HasInv n .u3
  | big (n) : SizeImpl.big.matches n → n.ArrayLen → HasInv n .big

/-- The impl block with `max`, `min`, `max_by`, `min_by` is for `Vector<T, UInt<U, B>>` (vector.rs:590-595,
616-621) and `Matrix<T, UInt<U, B>, UInt<U, B>>` (mod.rs:718-724, 744-750). -/
def HasMax (n : TNum) : Prop := ∃ u b, n = uint u b

/-! ### Min -/

/-- `Min<A, B>` (util.rs:5-28). -/
def tmin (a b : TNum) : TNum :=
  match TNum.compare a b with
  | .eq => a
  | .gt => b
  | .lt => a

/-! ### Macros -/

/-- `vector!(@count ..)` (macros.rs:34-44) on a list of element expressions. -/
def vectorCount {E : Type} : List E → TNum
  | [] => uterm
  | [_] => uint uterm true
  | _ :: e :: rest => (vectorCount (e :: rest)).succ

/-- `matrix!(@countrow ..)` (macros.rs:85-91) on a list of bracketed rows. -/
def matrixCountRow {E : Type} : List (List E) → TNum
  | [] => uterm
  | [_] => uint uterm true
  | _ :: e :: rest => (matrixCountRow (e :: rest)).succ

/-- `matrix!(@countcol [..])` on one bracketed row (macros.rs:95-103). -/
def matrixCountCol1 {E : Type} : List E → TNum
  | [] => uterm
  | [_] => uint uterm true
  | _ :: e :: rest => (matrixCountCol1 (e :: rest)).succ

/-- `matrix!(@countcol ..)` (macros.rs:93-105): the first row decides. -/
def matrixCountCol {E : Type} : List (List E) → TNum
  | [] => uterm
  | row :: _ => matrixCountCol1 row

/-! ### prelude aliases -/

/-- Element types of src/prelude.rs:8-33. -/
inductive Scalar where
  | f32 | f64
  deriving DecidableEq, Repr

/-- The right-hand side of an alias.  [src/prelude.rs:8-33.] -/
inductive AliasTy where
  | vector (t : Scalar) (n : Nat)
  | matrix (t : Scalar) (r c : Nat)
  deriving DecidableEq, Repr

open AliasTy Scalar in
/-- The alias table (prelude.rs:8-34). -/
def aliases : List (String × AliasTy) :=
  [("Vector1f32", vector f32 1), ("Vector1f64", vector f64 1),
   ("Vector2f32", vector f32 2), ("Vector2f64", vector f64 2),
   ("Vector3f32", vector f32 3), ("Vector3f64", vector f64 3),
   ("Vector4f32", vector f32 4), ("Vector4f64", vector f64 4),
   ("Vector5f32", vector f32 5), ("Vector5f64", vector f64 5),
   ("Vector6f32", vector f32 6), ("Vector6f64", vector f64 6),
   ("Vector7f32", vector f32 7), ("Vector7f64", vector f64 7),
   ("Vector8f32", vector f32 8), ("Vector8f64", vector f64 8),
   ("Vector9f32", vector f32 9), ("Vector9f64", vector f64 9),
   ("Vector10f32", vector f32 10), ("Vector10f64", vector f64 10),
   ("Matrix2f32", matrix f32 2 2), ("Matrix2f64", matrix f32 2 2),
   ("Matrix3f32", matrix f32 3 3), ("Matrix3f64", matrix f64 3 3),
   ("Matrix4f32", matrix f32 4 4), ("Matrix4f64", matrix f64 4 4)]

end Rowcol
