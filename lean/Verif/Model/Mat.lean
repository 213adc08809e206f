import Verif.Model.Iter

/-
Model of `/repo/src/matrix/mod.rs` and `/repo/src/matrix/arith.rs`.
-/

namespace Rowcol

/-- `Matrix<T, Row, Col>` (src/matrix/mod.rs:77-80): a vector of rows. -/
@[ext] structure Mat (T : Type) (r c : Nat) where
  rows : Vec (Vec T c) r

namespace Mat

variable {m : Type → Type} [RustM m] {T U V : Type} {r c : Nat}

/-- Entry `(i, j)`, for stating things about a matrix.  [Specification helper; the field layout is src/matrix/mod.rs:77-80.] -/
def get (a : Mat T r c) (i : Fin r) (j : Fin c) : T := (a.rows.get i).get j

/-- `Matrix::new` (mod.rs:93-99): `Vector::new(rows).into_iter().map(Vector::new).collect()`. -/
def new (t : Target) (rows : Vec (Vec T c) r) : Res (Mat T r c) := do
  let v ← Vec.collect t r (rows.toList.map pure)
  pure ⟨v⟩

/-- `dim`, `rows`, `cols` (mod.rs:139-153). -/
def dim (_ : Mat T r c) : Nat × Nat := (r, c)
/-- `rows()`: src/matrix/mod.rs:145-147. -/
def nrows (_ : Mat T r c) : Nat := r
/-- `cols()`: src/matrix/mod.rs:151-153. -/
def ncols (_ : Mat T r c) : Nat := c

/-- `Matrix::generate` (mod.rs:155-157). -/
def generate (t : Target) (r c : Nat) (f : Nat × Nat → m T) : m (Mat T r c) := do
  let v ← Vec.collect t r ((List.range r).map fun i => Vec.generate t c (fun j => f (i, j)))
  pure ⟨v⟩

/-- The closure passed to `generate` by `diag` (mod.rs:123-129), with the captured owning iterator over
`elems` as state (its remaining items, front first). -/
def diagStep (zero : T) (p : Nat × Nat) : StM (List T) T :=
  if p.1 = p.2 then do
    let st ← MonadState.get
    match st with
    | x :: xs => do
      set xs
      pure x
    | [] => fault .panic
  else pure zero

/-- `Matrix::diag` (mod.rs:115-130); `elems : [T; min(Row, Col)]`.  Returns also the elements left in the
iterator. -/
def diag (t : Target) (zero : T) (elems : Vec T (Nat.min r c)) : Res (Mat T r c) × List T :=
  ((generate t r c (diagStep zero) : StM (List T) (Mat T r c)).run elems.toList)

/-- `Matrix::all` (mod.rs:159-163); `List.allM` stops at the first `false`, like `Iterator::all`. -/
def all (pred : Nat × Nat → T → m Bool) (a : Mat T r c) : m Bool :=
  a.rows.toList.zipIdx.allM fun p => p.1.toList.zipIdx.allM fun q => pred (p.2, q.2) q.1

/-- `Matrix::any` (mod.rs:165-167). -/
def any (pred : Nat × Nat → T → m Bool) (a : Mat T r c) : m Bool :=
  a.rows.toList.zipIdx.anyM fun p => p.1.toList.zipIdx.anyM fun q => pred (p.2, q.2) q.1

/-- `Matrix::map` (mod.rs:169-178). -/
def map (t : Target) (f : Nat × Nat → T → m U) (a : Mat T r c) : m (Mat U r c) := do
  let v ← Vec.collect t r (a.rows.toList.zipIdx.map fun p =>
    Vec.collect t c (p.1.toList.zipIdx.map fun q => f (p.2, q.2) q.1))
  pure ⟨v⟩

/-- `Matrix::get_unchecked` (mod.rs:181-186). -/
def getUnchecked (t : Target) (a : Mat T r c) (p : Nat × Nat) : Res T := do
  debugAssert t (p.1 < r)
  debugAssert t (p.2 < c)
  let row ← a.rows.getUnchecked t p.1
  row.getUnchecked t p.2

/-- `*m.get_unchecked_mut((i, j)) = x` (mod.rs:189-194). -/
def setUnchecked (t : Target) (a : Mat T r c) (p : Nat × Nat) (x : T) : Res (Mat T r c) := do
  debugAssert t (p.1 < r)
  debugAssert t (p.2 < c)
  let row ← a.rows.getUnchecked t p.1
  let row ← row.setUnchecked t p.2 x
  let rows ← a.rows.setUnchecked t p.1 row
  pure ⟨rows⟩

/-- `Index<MatrixIdx>` (mod.rs:433-435): `&self.0[i][j]`. -/
def index (a : Mat T r c) (p : Nat × Nat) : Res T := do
  let row ← a.rows.index p.1
  row.index p.2

/-- `m[(i, j)] = x` through `IndexMut<MatrixIdx>` (mod.rs:444-446). -/
def indexSet (a : Mat T r c) (p : Nat × Nat) (x : T) : Res (Mat T r c) := do
  let row ← a.rows.index p.1
  let row ← row.indexSet p.2 x
  let rows ← a.rows.indexSet p.1 row
  pure ⟨rows⟩

/-- `Matrix::transposed` (mod.rs:197-201): `Matrix(self.cols_iter().collect())`. -/
def transposed (t : Target) (a : Mat T r c) : Res (Mat T c r) := do
  let v ← Vec.fromIter t c (ColsIter.machine t a.rows).toIter (ColsIter.new a.rows)
  pure ⟨v⟩

/-- `Matrix::transpose` (mod.rs:224-226): `*self = self.transposed()`; the value of `self` afterwards. -/
def transpose (t : Target) (a : Mat T r r) : Res Unit × Mat T r r :=
  match a.transposed t with
  | .ok b => (.ok (), b)
  | .error e => (.error e, a)

/-- `Matrix::identity` (mod.rs:217-221). -/
def identity (t : Target) (O : Ops T) (n : Nat) : Res (Mat T n n) :=
  generate t n n (fun p => pure (if p.1 = p.2 then O.one else O.zero))

/-- `num::One::one` (mod.rs:667-669). -/
def one (t : Target) (O : Ops T) (n : Nat) : Res (Mat T n n) := identity t O n

/-- `Default` (mod.rs:258-260): the default vector of default vectors; `d` is `T::default()`. -/
def default (t : Target) (r c : Nat) (d : m T) : m (Mat T r c) := do
  let v ← Vec.default t r (Vec.default t c d)
  pure ⟨v⟩

/-- `Clone` (mod.rs:269-271): `self.0.clone()`, i.e. `Vector::clone` of vectors. -/
def clone (t : Target) (cl : T → m T) (a : Mat T r c) : m (Mat T r c) := do
  let v ← a.rows.clone t (fun row => row.clone t cl)
  pure ⟨v⟩

/-- `PartialEq` (mod.rs:290-292): `self.0 == rhs.0`, i.e. vector equality of vectors. -/
def eq (e : T → T → Bool) (a b : Mat T r c) : Bool := a.rows.eq (fun x y => x.eq e y) b.rows

/-- The row loop of `Debug` (mod.rs:313-316). -/
def debugRows (d : T → String) (last : Nat) : List (Vec T c × Nat) → String
  | [] => ""
  | (row, i) :: rest =>
    debugList d row.toList ++ (if i ≠ last then ", " else "") ++ debugRows d last rest

/-- `Debug` (mod.rs:309-319), non-alternate `{:?}`.  `self.0.len() - 1` is `usize` arithmetic. -/
def debug (t : Target) (d : T → String) (a : Mat T r c) : Res String := do
  let last ← usub t a.rows.len 1
  pure ("Matrix[" ++ debugRows d last a.rows.toList.zipIdx ++ "]")

/-- `num::Zero::zero` (mod.rs:619-621). -/
def zero (t : Target) (r c : Nat) (z : T) : Res (Mat T r c) := generate t r c (fun _ => pure z)

/-- `num::Zero::is_zero` (mod.rs:623-625). -/
def isZero (isz : T → Bool) (a : Mat T r c) : Bool := a.rows.toList.all fun row => row.toList.all isz

/-- `num::Bounded::min_value` (mod.rs:644-646). -/
def minValue (t : Target) (r c : Nat) (lo : T) : Res (Mat T r c) := generate t r c (fun _ => pure lo)

/-- `num::Bounded::max_value` (mod.rs:649-651). -/
def maxValue (t : Target) (r c : Nat) (hi : T) : Res (Mat T r c) := generate t r c (fun _ => pure hi)

/-- `Matrix::sum` (mod.rs:709-711): `self.0.iter().map(Vector::sum).fold(T::zero(), Add::add)`. -/
def sum (O : Ops T) (a : Mat T r c) : Res T :=
  a.rows.toList.foldlM (fun acc row => do
    let s ← row.sum O
    O.add acc s) O.zero

/-- `Matrix::max` (mod.rs:730-733): `self.0.iter().map(Vector::max).max().unwrap()`. -/
def max (cmp : T → T → Ordering) (a : Mat T r r) : Res T := do
  let ms ← a.rows.toList.mapM (fun row => row.max cmp)
  unwrap (stdMax cmp ms)

/-- `Matrix::min` (mod.rs:738-741). -/
def min (cmp : T → T → Ordering) (a : Mat T r r) : Res T := do
  let ms ← a.rows.toList.mapM (fun row => row.min cmp)
  unwrap (stdMin cmp ms)

/-- The body of the inner loop of `max_by` (mod.rs:768-774). -/
def maxByStep (comp : T → T → m Ordering) (st : Option T) (v : T) : m (Option T) :=
  match st with
  | some s => do
    let o ← comp v s
    pure (if o = .gt then some v else some s)
  | none => pure (some v)

/-- `Matrix::max_by` (mod.rs:763-779). -/
def maxBy (comp : T → T → m Ordering) (a : Mat T r r) : m T := do
  let st ← a.rows.toList.foldlM (fun st row => row.toList.foldlM (maxByStep comp) st) none
  unwrap st

/-- `Matrix::min_by` (mod.rs:784-786). -/
def minBy (comp : T → T → m Ordering) (a : Mat T r r) : m T := maxBy (fun x y => comp y x) a

/-- `Matrix::clamped` (mod.rs:805-809). -/
def clamped (t : Target) (cmp : T → T → Ordering) (a : Mat T r c) (lo hi : T) : Res (Mat T r c) := do
  let v ← Vec.collect t r (a.rows.toList.map fun row =>
    Vec.collect t c (row.toList.map fun x => pure (cmpMin cmp hi (cmpMax cmp lo x))))
  pure ⟨v⟩

/-- A loop over `row.iter_mut()` for a row of a matrix.  [src/matrix/mod.rs:814-816, src/matrix/arith.rs:164-166.] -/
def rowMut (body : T → Res Unit × T) (row : Vec T c) : Res Unit × Vec T c :=
  ((forMut body row.toList).1, ⟨(forMut body row.toList).2, by rw [forMut_length, row.length_eq]⟩)

/-- `for row in self.0.iter_mut() { for v in row.iter_mut() { body(v) } }`.  [src/matrix/mod.rs:813-817, src/matrix/arith.rs:163-167.] -/
def forEach (body : T → Res Unit × T) (a : Mat T r c) : Res Unit × Mat T r c :=
  ((forMut (rowMut body) a.rows.toList).1,
   ⟨⟨(forMut (rowMut body) a.rows.toList).2, by rw [forMut_length, a.rows.length_eq]⟩⟩)

/-- `Matrix::clamp` (mod.rs:812-818). -/
def clamp (cmp : T → T → Ordering) (a : Mat T r c) (lo hi : T) : Mat T r c :=
  (forEach (fun x => (.ok (), cmpMin cmp hi (cmpMax cmp lo x))) a).2

/-- `ApproxEq::relative_eq` / `ulps_eq` (mod.rs:891-903): rows are compared with `all`, the row results
are combined with `fold(true, |x, y| x && y)`; `req` is the element comparison with its tolerances. -/
def approxEq (t : Target) (req : T → T → Bool) (a b : Mat T r c) : Res Bool := do
  let ra ← (RowsIterRef.machine t a.rows).toIter.drain (r + 1) (RowsIterRef.new a.rows)
  let rb ← (RowsIterRef.machine t b.rows).toIter.drain (r + 1) (RowsIterRef.new b.rows)
  pure (((ra.zip rb).map fun p => (p.1.toList.zip p.2.toList).all fun q => req q.1 q.2).foldl
    (fun x y => x && y) true)

/-! ### src/matrix/arith.rs -/

/-- `Matrix op Matrix` by value (`impl_matrix_arith!(T T ..)`, arith.rs:10-24): the vector operation on
the vectors of rows, whose element operation is the vector operation on rows. -/
def opVV (t : Target) (f : T → T → m V) (a b : Mat T r c) : m (Mat V r c) := do
  let v ← Vec.opVV t (fun x y => Vec.opVV t f x y) a.rows b.rows
  pure ⟨v⟩

/-- `&Matrix op Matrix` (arith.rs:26-40). -/
def opRV (t : Target) (f : T → T → m V) (a b : Mat T r c) : m (Mat V r c) := do
  let v ← Vec.opRV t (fun x y => Vec.opRV t f x y) a.rows b.rows
  pure ⟨v⟩

/-- `Matrix op &Matrix` (arith.rs:42-56). -/
def opVR (t : Target) (f : T → T → m V) (a b : Mat T r c) : m (Mat V r c) := do
  let v ← Vec.opVR t (fun x y => Vec.opVR t f x y) a.rows b.rows
  pure ⟨v⟩

/-- `&Matrix op &Matrix` (arith.rs:58-73). -/
def opRR (t : Target) (f : T → T → m V) (a b : Mat T r c) : m (Mat V r c) := do
  let v ← Vec.opRR t (fun x y => Vec.opRR t f x y) a.rows b.rows
  pure ⟨v⟩

/-- The inner loop over one pair of rows of the assigning operators (arith.rs:93-95). -/
def rowAssign (f : T → U → Res T) (lrow : Vec T c) (rrow : Vec U c) : Res Unit × Vec T c :=
  ((forMutZip (assign f) lrow.toList rrow.toList).1,
   ⟨(forMutZip (assign f) lrow.toList rrow.toList).2, by rw [forMutZip_length, lrow.length_eq]⟩)

/-- `AddAssign<Matrix>` (arith.rs:91-97). -/
def addAssign (f : T → U → Res T) (a : Mat T r c) (b : Mat U r c) : Res Unit × Mat T r c :=
  ((forMutZip (rowAssign f) a.rows.toList b.rows.toList).1,
   ⟨⟨(forMutZip (rowAssign f) a.rows.toList b.rows.toList).2,
     by rw [forMutZip_length, a.rows.length_eq]⟩⟩)

/-- `SubAssign<Matrix>` (arith.rs:106-112). -/
def subAssign (f : T → U → Res T) (a : Mat T r c) (b : Mat U r c) : Res Unit × Mat T r c :=
  ((forMutZip (rowAssign f) a.rows.toList b.rows.toList).1,
   ⟨⟨(forMutZip (rowAssign f) a.rows.toList b.rows.toList).2,
     by rw [forMutZip_length, a.rows.length_eq]⟩⟩)

/-- `Neg` (arith.rs:123-125): `self.0.into_iter().map(|v| -v).collect()`. -/
def neg (t : Target) (f : T → m V) (a : Mat T r c) : m (Mat V r c) := do
  let v ← Vec.collect t r (a.rows.toList.map fun row => row.neg t f)
  pure ⟨v⟩

/-- `Matrix * T` and `Matrix * &T` (arith.rs:138-140, 151-153): each row times the scalar. -/
def mulScalar (t : Target) (f : T → U → m T) (a : Mat T r c) (s : U) : m (Mat T r c) := do
  let v ← Vec.collect t r (a.rows.toList.map fun row => row.mulScalar t f s)
  pure ⟨v⟩

/-- `Matrix / T` and `Matrix / &T` (arith.rs:325-329, 340-344). -/
def divScalar (t : Target) (f : T → U → m T) (a : Mat T r c) (s : U) : m (Mat T r c) := do
  let v ← Vec.collect t r (a.rows.toList.map fun row => row.divScalar t f s)
  pure ⟨v⟩

/-- `MulAssign<T>` (arith.rs:162-168). -/
def mulAssignScalar (f : T → U → Res T) (a : Mat T r c) (s : U) : Res Unit × Mat T r c :=
  forEach (fun e => assign f e s) a

/-- `DivAssign<T>` (arith.rs:353-359). -/
def divAssignScalar (f : T → U → Res T) (a : Mat T r c) (s : U) : Res Unit × Mat T r c :=
  forEach (fun e => assign f e s) a

variable {l n : Nat}

/-- `Matrix * Matrix` by value (arith.rs:183-190): rows of the left matrix through `rows_iter_ref`,
columns of the right one through `cols_iter_ref`. -/
def mulVV (t : Target) (O : Ops T) (a : Mat T l n) (b : Mat T n c) : Res (Mat T l c) := do
  let lrows ← (RowsIterRef.machine t a.rows).toIter.drain (l + 1) (RowsIterRef.new a.rows)
  let v ← Vec.collect t l (lrows.map fun lrow => do
    let rcols ← (ColsIterRef.machine t b.rows).toIter.drain (c + 1) (ColsIterRef.new b.rows)
    Vec.collect t c (rcols.map fun rcol => do
      let col ← (ColsIterRefInner.machine t b.rows).toIter.drain (n + 1) rcol
      mulFold O (lrow.toList.zip col)))
  pure ⟨v⟩

/-- `Matrix * &Matrix` (arith.rs:203-210). -/
def mulVR (t : Target) (O : Ops T) (a : Mat T l n) (b : Mat T n c) : Res (Mat T l c) := do
  let lrows ← (RowsIterRef.machine t a.rows).toIter.drain (l + 1) (RowsIterRef.new a.rows)
  let v ← Vec.collect t l (lrows.map fun lrow => do
    let rcols ← (ColsIterRef.machine t b.rows).toIter.drain (c + 1) (ColsIterRef.new b.rows)
    Vec.collect t c (rcols.map fun rcol => do
      let col ← (ColsIterRefInner.machine t b.rows).toIter.drain (n + 1) rcol
      mulFold O (lrow.toList.zip col)))
  pure ⟨v⟩

/-- `&Matrix * &Matrix` (arith.rs:223-230). -/
def mulRR (t : Target) (O : Ops T) (a : Mat T l n) (b : Mat T n c) : Res (Mat T l c) := do
  let lrows ← (RowsIterRef.machine t a.rows).toIter.drain (l + 1) (RowsIterRef.new a.rows)
  let v ← Vec.collect t l (lrows.map fun lrow => do
    let rcols ← (ColsIterRef.machine t b.rows).toIter.drain (c + 1) (ColsIterRef.new b.rows)
    Vec.collect t c (rcols.map fun rcol => do
      let col ← (ColsIterRefInner.machine t b.rows).toIter.drain (n + 1) rcol
      mulFold O (lrow.toList.zip col)))
  pure ⟨v⟩

/-- `&Matrix * Matrix` (arith.rs:243-250). -/
def mulRV (t : Target) (O : Ops T) (a : Mat T l n) (b : Mat T n c) : Res (Mat T l c) := do
  let lrows ← (RowsIterRef.machine t a.rows).toIter.drain (l + 1) (RowsIterRef.new a.rows)
  let v ← Vec.collect t l (lrows.map fun lrow => do
    let rcols ← (ColsIterRef.machine t b.rows).toIter.drain (c + 1) (ColsIterRef.new b.rows)
    Vec.collect t c (rcols.map fun rcol => do
      let col ← (ColsIterRefInner.machine t b.rows).toIter.drain (n + 1) rcol
      mulFold O (lrow.toList.zip col)))
  pure ⟨v⟩

/-- `Matrix *= Matrix` (arith.rs:258-265): the product is collected first and then stored, so a panic
leaves `self` unchanged. -/
def mulAssign (t : Target) (O : Ops T) (a b : Mat T n n) : Res Unit × Mat T n n :=
  let prod : Res (Mat T n n) := do
    let lrows ← (RowsIterRef.machine t a.rows).toIter.drain (n + 1) (RowsIterRef.new a.rows)
    let v ← Vec.collect t n (lrows.map fun lrow => do
      let rcols ← (ColsIterRef.machine t b.rows).toIter.drain (n + 1) (ColsIterRef.new b.rows)
      Vec.collect t n (rcols.map fun rcol => do
        let col ← (ColsIterRefInner.machine t b.rows).toIter.drain (n + 1) rcol
        mulFold O (lrow.toList.zip col)))
    pure ⟨v⟩
  match prod with
  | .ok p => (.ok (), p)
  | .error e => (.error e, a)

/-- `Matrix * Vector` (arith.rs:285-293). -/
def mulVec (t : Target) (O : Ops T) (a : Mat T r c) (v : Vec T c) : Res (Vec T r) := do
  let rows ← (RowsIterRef.machine t a.rows).toIter.drain (r + 1) (RowsIterRef.new a.rows)
  Vec.collect t r (rows.map fun row => mulFold O (row.toList.zip v.toList))

/-- `Matrix * &Vector` (arith.rs:304-312): consumes the rows by value. -/
def mulVecRef (t : Target) (O : Ops T) (a : Mat T r c) (v : Vec T c) : Res (Vec T r) :=
  Vec.collect t r (a.rows.toList.map fun row => mulFold O (row.toList.zip v.toList))

end Mat

/-! ### pow -/

/-- First loop of `num::pow::pow` (crate num 0.1, not in /repo): `while exp & 1 == 0 { base = base.clone() *
base; exp >>= 1; }`, for `exp ≠ 0`.  `mul` is `Mul` on the base type. -/
def powStrip {A : Type} (mul : A → A → Res A) (base : A) (exp : Nat) : Res (A × Nat) :=
  if h : exp % 2 = 0 ∧ exp ≠ 0 then do
    let b ← mul base base
    powStrip mul b (exp / 2)
  else pure (base, exp)
termination_by exp
decreasing_by omega

/-- Second loop of `num::pow::pow`: `while exp > 1 { exp >>= 1; base = base.clone() * base;
if exp & 1 == 1 { acc = acc * base.clone(); } }`. -/
def powLoop {A : Type} (mul : A → A → Res A) (acc base : A) (exp : Nat) : Res A :=
  if h : exp > 1 then do
    let b ← mul base base
    let acc ← if exp / 2 % 2 = 1 then mul acc b else pure acc
    powLoop mul acc b (exp / 2)
  else pure acc
termination_by exp
decreasing_by omega

/-- `num::pow::pow(base, exp)` (crate num 0.1; transcribed from its published source, not in /repo). -/
def numPow {A : Type} (one : Res A) (mul : A → A → Res A) (base : A) (exp : Nat) : Res A :=
  if exp = 0 then one
  else do
    let (base, exp) ← powStrip mul base exp
    if exp = 1 then pure base
    else powLoop mul base base exp

namespace Mat
variable {T : Type} {n r c : Nat}

/-- `Matrix::pow` (mod.rs:677-679): `num::pow::pow(self.clone(), exp)`, with `One` and `Mul` of matrices by
value. -/
def pow (t : Target) (O : Ops T) (a : Mat T n n) (exp : Nat) : Res (Mat T n n) := do
  let base ← a.clone t (fun x => (pure x : Res T))
  numPow (Mat.one t O n) (Mat.mulVV t O) base exp

/-- `num::Complex<T>`.  [num 0.1; used at src/matrix/mod.rs:682-692.] -/
structure Cpx (T : Type) where
  re : T
  im : T
  deriving DecidableEq

/-- `Matrix::conjugate` (mod.rs:689-691): `self.clone().map(|_, a| a.conj())`, `conj` being
`Complex::new(self.re, -self.im)`. -/
def conjugate (t : Target) (neg : T → Res T) (a : Mat (Cpx T) r c) : Res (Mat (Cpx T) r c) := do
  let b ← a.clone t (fun x => (pure x : Res (Cpx T)))
  b.map t (fun _ z => do
    let i ← neg z.im
    pure ⟨z.re, i⟩)

end Mat
end Rowcol
