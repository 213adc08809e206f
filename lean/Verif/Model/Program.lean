import Verif.Model.Det
import Verif.Model.Iter
import Mathlib.Logic.Function.Basic

/-! Whole programs that use the crate: a small imperative language whose expressions and statements are the operations of
the crate on scalars, vectors and matrices, with variables, assignment, compound assignment, `if` and `while`.  Its
meaning is given by the functions of the model; it models no single place in the crate but the way clients combine
the public operations.  Values are copied when they are read (clients `clone()`); `T: Clone` is the identity. -/

namespace Rowcol
namespace Prog

/-- Types of client variables: a scalar `T`, `Vector<T, N>`, `Matrix<T, R, C>`.  [src/vector.rs:33, src/matrix/mod.rs:77.] -/
inductive Ty where
  | s
  | v (n : Nat)
  | m (r c : Nat)
  deriving DecidableEq, Repr

/-- Values of a type.  [src/vector.rs:33, src/matrix/mod.rs:77.] -/
abbrev Val (T : Type) : Ty → Type
  | .s => T
  | .v n => Vec T n
  | .m r c => Mat T r c

/-- The client's variables: for every type, variables numbered 0, 1, 2, ...  [Client code.] -/
def Store (T : Type) : Type := ∀ τ : Ty, Nat → Val T τ

/-- Give variable `i` of type `τ` a new value.  [Client code.] -/
def Store.put {T : Type} (σ : Store T) (τ : Ty) (i : Nat) (x : Val T τ) : Store T :=
  Function.update σ τ (Function.update (σ τ) i x)

/-- Are the operands of a binary operator passed by value or by reference?  [The four impls at src/vector.rs:314-379,
src/matrix/arith.rs:9-83.] -/
inductive Form where
  | vv | vr | rv | rr
  deriving DecidableEq, Repr

/-- `+` or `-`.  [src/vector.rs:314-379, src/matrix/arith.rs:9-83.] -/
inductive Bin where
  | add | sub
  deriving DecidableEq, Repr

/-- Expressions.  [The public operations: src/vector.rs:44-47, 216-253, 314-583; src/matrix/mod.rs:115-130, 155-157, 169-178, 197-226,
425-447, 612-680, 702-713, 838-846; src/matrix/arith.rs; src/matrix/ops.rs; src/matrix/iter.rs:56-59, 148-151.] -/
inductive Ex : Ty → Type where
  /-- a variable -/
  | var (τ : Ty) (i : Nat) : Ex τ
  /-- `Zero::zero()` -/
  | zero (τ : Ty) : Ex τ
  /-- `One::one()` of the element type -/
  | one : Ex .s
  /-- `Matrix::identity()` -/
  | ident (n : Nat) : Ex (.m n n)
  /-- `a + b`, `a - b` -/
  | bin {τ : Ty} (o : Bin) (f : Form) (a b : Ex τ) : Ex τ
  /-- `-a` -/
  | neg {τ : Ty} (a : Ex τ) : Ex τ
  /-- `a * s` -/
  | scale {τ : Ty} (a : Ex τ) (s : Ex .s) : Ex τ
  /-- `a / s` -/
  | quot {τ : Ty} (a : Ex τ) (s : Ex .s) : Ex τ
  /-- `v.sum()` -/
  | vsum {n : Nat} (v : Ex (.v n)) : Ex .s
  /-- `m.sum()` -/
  | msum {r c : Nat} (a : Ex (.m r c)) : Ex .s
  /-- `a.dot(b)` -/
  | dot {n : Nat} (a b : Ex (.v n)) : Ex .s
  /-- `a.cross(b)` -/
  | cross (a b : Ex (.v 3)) : Ex (.v 3)
  /-- `v[i]` -/
  | vget {n : Nat} (v : Ex (.v n)) (i : Nat) : Ex .s
  /-- `m[(i, j)]` -/
  | mget {r c : Nat} (a : Ex (.m r c)) (i j : Nat) : Ex .s
  /-- `a * b` -/
  | mul {l n c : Nat} (f : Form) (a : Ex (.m l n)) (b : Ex (.m n c)) : Ex (.m l c)
  /-- `m * v`, `m * &v` -/
  | mulVec {r c : Nat} (byRef : Bool) (a : Ex (.m r c)) (v : Ex (.v c)) : Ex (.v r)
  /-- `m.transposed()` -/
  | transposed {r c : Nat} (a : Ex (.m r c)) : Ex (.m c r)
  /-- `m.pow(k)` -/
  | pow {n : Nat} (a : Ex (.m n n)) (k : Nat) : Ex (.m n n)
  /-- `m.determinant()`, size `k + 1` -/
  | det {k : Nat} (a : Ex (.m (k + 1) (k + 1))) : Ex .s
  /-- `m.cofactor((i, j))`, size `k + 2` -/
  | cof {k : Nat} (a : Ex (.m (k + 2) (k + 2))) (i j : Nat) : Ex .s
  /-- `m.inverse().unwrap()`, size `k + 1` -/
  | inv {k : Nat} (a : Ex (.m (k + 1) (k + 1))) : Ex (.m (k + 1) (k + 1))
  /-- `Vector::generate(|i| e)`; `f i` is the body of the closure for index `i` -/
  | gen {n : Nat} (f : Nat → Ex .s) : Ex (.v n)
  /-- `Matrix::generate(|(i, j)| e)` -/
  | mgen {r c : Nat} (f : Nat × Nat → Ex .s) : Ex (.m r c)
  /-- `m.map(|(i, j), x| e)`; `x` is the scalar variable `k` -/
  | map {r c : Nat} (k : Nat) (f : Nat × Nat → Ex .s) (a : Ex (.m r c)) : Ex (.m r c)
  /-- `Matrix::diag(v.into_inner())` -/
  | diag {r c : Nat} (v : Ex (.v (Nat.min r c))) : Ex (.m r c)
  /-- `m.rows_iter().nth(i).unwrap()` -/
  | row {r c : Nat} (a : Ex (.m r c)) (i : Nat) : Ex (.v c)
  /-- `m.cols_iter().nth(j).unwrap()` -/
  | col {r c : Nat} (a : Ex (.m r c)) (j : Nat) : Ex (.v r)

variable {T : Type}

/-- The element operation behind `+` or `-`.  [src/vector.rs:314-379.] -/
def Bin.fn (O : Ops T) : Bin → T → T → Res T
  | .add => O.add
  | .sub => O.sub

/-- `a + b` / `a - b` on values of a type.  [src/vector.rs:314-379, src/matrix/arith.rs:9-83.] -/
def Val.bin (t : Target) (O : Ops T) (o : Bin) : Form → (τ : Ty) → Val T τ → Val T τ → Res (Val T τ)
  | _, .s, a, b => o.fn O a b
  | .vv, .v _, a, b => Vec.opVV t (o.fn O) a b
  | .vr, .v _, a, b => Vec.opVR t (o.fn O) a b
  | .rv, .v _, a, b => Vec.opRV t (o.fn O) a b
  | .rr, .v _, a, b => Vec.opRR t (o.fn O) a b
  | .vv, .m _ _, a, b => Mat.opVV t (o.fn O) a b
  | .vr, .m _ _, a, b => Mat.opVR t (o.fn O) a b
  | .rv, .m _ _, a, b => Mat.opRV t (o.fn O) a b
  | .rr, .m _ _, a, b => Mat.opRR t (o.fn O) a b

/-- `-a`.  [src/vector.rs:463-472, src/matrix/arith.rs:115-126.] -/
def Val.neg (t : Target) (O : Ops T) : (τ : Ty) → Val T τ → Res (Val T τ)
  | .s, a => O.neg a
  | .v _, a => Vec.neg t O.neg a
  | .m _ _, a => Mat.neg t O.neg a

/-- `a * s`.  [src/vector.rs:407-419, src/matrix/arith.rs:130-141.] -/
def Val.scale (t : Target) (O : Ops T) : (τ : Ty) → Val T τ → T → Res (Val T τ)
  | .s, a, s => O.mul a s
  | .v _, a, s => Vec.mulScalar t O.mul a s
  | .m _ _, a, s => Mat.mulScalar t O.mul a s

/-- `a / s`.  [src/vector.rs:434-446, src/matrix/arith.rs:317-328.] -/
def Val.quot (t : Target) (O : Ops T) : (τ : Ty) → Val T τ → T → Res (Val T τ)
  | .s, a, s => O.div a s
  | .v _, a, s => Vec.divScalar t O.div a s
  | .m _ _, a, s => Mat.divScalar t O.div a s

/-- `Zero::zero()`.  [src/vector.rs:216-226, src/matrix/mod.rs:612-626.] -/
def Val.zero (t : Target) (O : Ops T) : (τ : Ty) → Res (Val T τ)
  | .s => .ok O.zero
  | .v n => Vec.zero t n O.zero
  | .m r c => Mat.zero t r c O.zero

/-- `is_zero()`.  [src/vector.rs:216-226, src/matrix/mod.rs:612-626.] -/
def Val.isZero (O : Ops T) : (τ : Ty) → Val T τ → Bool
  | .s, a => O.isZero a
  | .v _, a => Vec.isZero O.isZero a
  | .m _ _, a => Mat.isZero O.isZero a

/-- `a * b` on matrices, the four forms.  [src/matrix/arith.rs:173-251.] -/
def Form.mul (t : Target) (O : Ops T) {l n c : Nat} : Form → Mat T l n → Mat T n c → Res (Mat T l c)
  | .vv => Mat.mulVV t O
  | .vr => Mat.mulVR t O
  | .rv => Mat.mulRV t O
  | .rr => Mat.mulRR t O

/-- The value of an expression: subexpressions from left to right, then the operation.  [Client code calling the
operations named at the constructors of `Ex`.] -/
def Ex.eval (t : Target) (O : Ops T) : {τ : Ty} → Ex τ → Store T → Res (Val T τ)
  | _, .var τ i, σ => .ok (σ τ i)
  | _, .zero τ, _ => Val.zero t O τ
  | _, .one, _ => .ok O.one
  | _, .ident n, _ => Mat.identity t O n
  | _, @Ex.bin τ o f a b, σ => do let x ← a.eval t O σ; let y ← b.eval t O σ; Val.bin t O o f τ x y
  | _, @Ex.neg τ a, σ => do let x ← a.eval t O σ; Val.neg t O τ x
  | _, @Ex.scale τ a s, σ => do let x ← a.eval t O σ; let y ← s.eval t O σ; Val.scale t O τ x y
  | _, @Ex.quot τ a s, σ => do let x ← a.eval t O σ; let y ← s.eval t O σ; Val.quot t O τ x y
  | _, .vsum v, σ => do let x ← v.eval t O σ; Vec.sum O x
  | _, .msum a, σ => do let x ← a.eval t O σ; Mat.sum O x
  | _, .dot a b, σ => do let x ← a.eval t O σ; let y ← b.eval t O σ; Vec.dot O x y
  | _, .cross a b, σ => do let x ← a.eval t O σ; let y ← b.eval t O σ; Vec.cross t O x y
  | _, .vget v i, σ => do let x ← v.eval t O σ; Vec.index x i
  | _, .mget a i j, σ => do let x ← a.eval t O σ; Mat.index x (i, j)
  | _, .mul f a b, σ => do let x ← a.eval t O σ; let y ← b.eval t O σ; f.mul t O x y
  | _, .mulVec byRef a v, σ => do
    let x ← a.eval t O σ
    let y ← v.eval t O σ
    if byRef then Mat.mulVecRef t O x y else Mat.mulVec t O x y
  | _, .transposed a, σ => do let x ← a.eval t O σ; Mat.transposed t x
  | _, .pow a k, σ => do let x ← a.eval t O σ; Mat.pow t O x k
  | _, @Ex.det k a, σ => do let x ← a.eval t O σ; Mat.determinant t O k x
  | _, @Ex.cof k a i j, σ => do let x ← a.eval t O σ; Mat.cofactor t O k x (i, j)
  | _, @Ex.inv k a, σ => do let x ← a.eval t O σ; let o ← Mat.inverse t O k x; unwrap o
  | _, @Ex.gen n f, σ => Vec.generate t n fun i => (f i).eval t O σ
  | _, @Ex.mgen r c f, σ => Mat.generate t r c fun p => (f p).eval t O σ
  | _, .map k f a, σ => do let x ← a.eval t O σ; Mat.map t (fun p y => (f p).eval t O (σ.put .s k y)) x
  | _, .diag v, σ => do let x ← v.eval t O σ; (Mat.diag t O.zero x).1
  | _, .row a i, σ => do
    let x ← a.eval t O σ
    let o ← RowsIter.nth t x.rows i (RowsIter.new x.rows)
    unwrap o.1
  | _, .col a j, σ => do
    let x ← a.eval t O σ
    let o ← ColsIter.nth t x.rows j (ColsIter.new x.rows)
    unwrap o.1

/-- Statements without control flow.  [The public operations that change their receiver: src/vector.rs:249-253, 381-461;
src/matrix/mod.rs:224-226, 438-447; src/matrix/arith.rs:85-113, 156-169, 253-266, 347-360.] -/
inductive Act where
  /-- `x = e;` -/
  | set {τ : Ty} (i : Nat) (e : Ex τ)
  /-- `x += e;`, `x -= e;` -/
  | upd {τ : Ty} (o : Bin) (i : Nat) (e : Ex τ)
  /-- `x *= s;` with a scalar -/
  | updScale (τ : Ty) (i : Nat) (s : Ex .s)
  /-- `x /= s;` with a scalar -/
  | updQuot (τ : Ty) (i : Nat) (s : Ex .s)
  /-- `m *= e;` with a square matrix -/
  | updMul {n : Nat} (i : Nat) (e : Ex (.m n n))
  /-- `m.transpose();` -/
  | transpose (n i : Nat)
  /-- `v[k] = e;` -/
  | vset (n i k : Nat) (e : Ex .s)
  /-- `m[(k, l)] = e;` -/
  | mset (r c i k l : Nat) (e : Ex .s)

/-- `x += e` / `x -= e` on values of a type.  [src/vector.rs:381-405, src/matrix/arith.rs:85-113.] -/
def Val.upd (O : Ops T) : Bin → (τ : Ty) → Val T τ → Val T τ → Res Unit × Val T τ
  | o, .s, a, b => assign (o.fn O) a b
  | .add, .v _, a, b => Vec.addAssign O.add a b
  | .sub, .v _, a, b => Vec.subAssign O.sub a b
  | .add, .m _ _, a, b => Mat.addAssign O.add a b
  | .sub, .m _ _, a, b => Mat.subAssign O.sub a b

/-- `x *= s`.  [src/vector.rs:421-432, src/matrix/arith.rs:156-169.] -/
def Val.updScale (O : Ops T) : (τ : Ty) → Val T τ → T → Res Unit × Val T τ
  | .s, a, s => assign O.mul a s
  | .v _, a, s => Vec.mulAssign O.mul a s
  | .m _ _, a, s => Mat.mulAssignScalar O.mul a s

/-- `x /= s`.  [src/vector.rs:448-461, src/matrix/arith.rs:347-360.] -/
def Val.updQuot (O : Ops T) : (τ : Ty) → Val T τ → T → Res Unit × Val T τ
  | .s, a, s => assign O.div a s
  | .v _, a, s => Vec.divAssign O.div a s
  | .m _ _, a, s => Mat.divAssignScalar O.div a s

/-- Store the outcome of an operation that changes its receiver; a panic ends the program.  [Client code.] -/
def Store.after (σ : Store T) (τ : Ty) (i : Nat) (x : Res Unit × Val T τ) : Res (Store T) :=
  match x.1 with
  | .ok () => .ok (σ.put τ i x.2)
  | .error e => .error e

/-- Run a statement without control flow.  [Client code calling the operations named at the constructors of `Act`.] -/
def Act.exec (t : Target) (O : Ops T) (σ : Store T) : Act → Res (Store T)
  | @Act.set τ i e => do let x ← e.eval t O σ; pure (σ.put τ i x)
  | @Act.upd τ o i e => do let x ← e.eval t O σ; σ.after τ i (Val.upd O o τ (σ τ i) x)
  | .updScale τ i s => do let x ← s.eval t O σ; σ.after τ i (Val.updScale O τ (σ τ i) x)
  | .updQuot τ i s => do let x ← s.eval t O σ; σ.after τ i (Val.updQuot O τ (σ τ i) x)
  | @Act.updMul n i e => do
    let x ← e.eval t O σ
    σ.after (.m n n) i (Mat.mulAssign t O (σ (.m n n) i) x)
  | .transpose n i => σ.after (.m n n) i (Mat.transpose t (σ (.m n n) i))
  | .vset n i k e => do
    let x ← e.eval t O σ
    let w ← Vec.indexSet (σ (.v n) i) k x
    pure (σ.put (.v n) i w)
  | .mset r c i k l e => do
    let x ← e.eval t O σ
    let w ← Mat.indexSet (σ (.m r c) i) (k, l) x
    pure (σ.put (.m r c) i w)

/-- Programs.  [Client code.] -/
inductive Stmt where
  | skip
  | act (a : Act)
  | seq (p q : Stmt)
  /-- `if e.is_zero() { p } else { q }` -/
  | ite {τ : Ty} (e : Ex τ) (p q : Stmt)
  /-- `while e.is_zero() == b { p }` -/
  | loop {τ : Ty} (b : Bool) (e : Ex τ) (p : Stmt)

/-- `Run t O p σ x`: the program `p`, started with variables `σ`, ends with outcome `x`: the final variables, a panic or an
invalid memory access.  A program that loops forever has no outcome.  [Client code.] -/
inductive Run (t : Target) (O : Ops T) : Stmt → Store T → Res (Store T) → Prop where
  | skip (σ) : Run t O .skip σ (.ok σ)
  | act (a σ) : Run t O (.act a) σ (a.exec t O σ)
  | seq {p q σ σ' x} : Run t O p σ (.ok σ') → Run t O q σ' x → Run t O (.seq p q) σ x
  | seqFault {p q σ f} : Run t O p σ (.error f) → Run t O (.seq p q) σ (.error f)
  | iteZero {τ} {e : Ex τ} {p q σ v x} : e.eval t O σ = .ok v → Val.isZero O τ v = true → Run t O p σ x →
      Run t O (.ite e p q) σ x
  | iteElse {τ} {e : Ex τ} {p q σ v x} : e.eval t O σ = .ok v → Val.isZero O τ v = false → Run t O q σ x →
      Run t O (.ite e p q) σ x
  | iteFault {τ} {e : Ex τ} {p q σ f} : e.eval t O σ = .error f → Run t O (.ite e p q) σ (.error f)
  | loopGo {τ} {b} {e : Ex τ} {p σ v σ' x} : e.eval t O σ = .ok v → Val.isZero O τ v = b → Run t O p σ (.ok σ') →
      Run t O (.loop b e p) σ' x → Run t O (.loop b e p) σ x
  | loopBody {τ} {b} {e : Ex τ} {p σ v f} : e.eval t O σ = .ok v → Val.isZero O τ v = b → Run t O p σ (.error f) →
      Run t O (.loop b e p) σ (.error f)
  | loopEnd {τ} {b} {e : Ex τ} {p σ v} : e.eval t O σ = .ok v → Val.isZero O τ v = !b → Run t O (.loop b e p) σ (.ok σ)
  | loopFault {τ} {b} {e : Ex τ} {p σ f} : e.eval t O σ = .error f → Run t O (.loop b e p) σ (.error f)

end Prog
end Rowcol
