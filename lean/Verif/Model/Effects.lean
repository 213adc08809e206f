import Verif.Model.Det

/-!
The arithmetic of `Vector` and `Matrix` once more, with element operations that are arbitrary programs: every call of
`T::clone`, `T::zero`, `T::one`, `+`, `-`, `*`, `/`, unary `-` and `is_zero` appears, in the order of the source, and may
have effects or panic.  `Verif/Model/Vec.lean`, `Mat.lean` and `Det.lean` are what is left of this when clones are silent
and the operations have no effects other than panics (every theorem of `Verif/Props/Counts.lean`, `DetCost.lean` and
`PowCost.lean` includes this).
-/

namespace Rowcol

/-- The operations of an element type as programs in `m`.  `mulRef` is `T * &T`.  [Trait bounds such as src/vector.rs:503-507,
src/matrix/arith.rs:194-201, src/matrix/ops.rs:72-86.] -/
structure Elem (m : Type → Type) (T : Type) where
  clone : T → m T
  zero : m T
  one : m T
  add : T → T → m T
  sub : T → T → m T
  mul : T → T → m T
  mulRef : T → T → m T
  div : T → T → m T
  neg : T → m T
  isZero : T → m Bool

namespace Elem
variable {m : Type → Type} [RustM m] {T : Type} {l n r c : Nat} (E : Elem m T)

/-- `iter().cloned().zip(iter().cloned()).map(|(a, b)| a * b).fold(T::zero(), Add::add)` (src/vector.rs:510-511,
src/matrix/arith.rs:186-187, 246-247). -/
def foldCC (ps : List (T × T)) : m T := do
  let z ← E.zero
  ps.foldlM (fun acc p => do
    let x ← E.clone p.1
    let y ← E.clone p.2
    let q ← E.mul x y
    E.add acc q) z

/-- The same with `T * &T` and only the left elements cloned (src/matrix/arith.rs:206-207, 226-227). -/
def foldCR (ps : List (T × T)) : m T := do
  let z ← E.zero
  ps.foldlM (fun acc p => do
    let x ← E.clone p.1
    let q ← E.mulRef x p.2
    E.add acc q) z

/-- `row.into_iter().zip(rhs.iter().cloned()).map(|(a, b)| a.clone() * b)..` (src/matrix/arith.rs:288-290): the element of the
vector is cloned first. -/
def foldVec (ps : List (T × T)) : m T := do
  let z ← E.zero
  ps.foldlM (fun acc p => do
    let y ← E.clone p.2
    let x ← E.clone p.1
    let q ← E.mul x y
    E.add acc q) z

/-- `row.into_iter().zip(rhs.iter()).map(|(a, b)| a * b)..` with owned rows (src/matrix/arith.rs:307-309). -/
def foldVecRef (ps : List (T × T)) : m T := do
  let z ← E.zero
  ps.foldlM (fun acc p => do
    let q ← E.mulRef p.1 p.2
    E.add acc q) z

/-- `Vector::dot` (src/vector.rs:509-512). -/
def dot (a b : Vec T n) : m T := E.foldCC (a.toList.zip b.toList)

/-- `Vector::sum` (src/vector.rs:579-581). -/
def vecSum (v : Vec T n) : m T := do
  let z ← E.zero
  v.toList.foldlM (fun acc x => do
    let x ← E.clone x
    E.add acc x) z

/-- `Matrix::sum` (src/matrix/mod.rs:709-711). -/
def matSum (a : Mat T r c) : m T := do
  let z ← E.zero
  a.rows.toList.foldlM (fun acc row => do
    let s ← E.vecSum row
    E.add acc s) z

/-- One component `a[i]*b[j] - a[j]*b[i]` of `cross` (src/vector.rs:527-536). -/
def crossComp (t : Target) (a b : Vec T 3) (i j : Nat) : m T := do
  let x ← E.clone (← liftRes (a.getUnchecked t i))
  let y ← E.clone (← liftRes (b.getUnchecked t j))
  let p ← E.mul x y
  let x ← E.clone (← liftRes (a.getUnchecked t j))
  let y ← E.clone (← liftRes (b.getUnchecked t i))
  let q ← E.mul x y
  E.sub p q

/-- `Vector::cross` (src/vector.rs:526-538). -/
def cross (t : Target) (a b : Vec T 3) : m (Vec T 3) := do
  let x ← E.crossComp t a b 1 2
  let y ← E.crossComp t a b 2 0
  let z ← E.crossComp t a b 0 1
  pure ⟨[x, y, z], rfl⟩

/-- The matrix products (src/matrix/arith.rs:183-190, 203-210, 223-230, 243-250, 258-265), which differ in `fold`. -/
def mulWith (t : Target) (fold : List (T × T) → m T) (a : Mat T l n) (b : Mat T n c) : m (Mat T l c) := do
  let lrows ← liftRes ((RowsIterRef.machine t a.rows).toIter.drain (l + 1) (RowsIterRef.new a.rows))
  let v ← Vec.collect t l (lrows.map fun lrow => do
    let rcols ← liftRes ((ColsIterRef.machine t b.rows).toIter.drain (c + 1) (ColsIterRef.new b.rows))
    Vec.collect t c (rcols.map fun rcol => do
      let col ← liftRes ((ColsIterRefInner.machine t b.rows).toIter.drain (n + 1) rcol)
      fold (lrow.toList.zip col)))
  pure ⟨v⟩

/-- `Matrix * Matrix` and `&Matrix * Matrix` (src/matrix/arith.rs:183-190, 243-250). -/
def mulVV (t : Target) (a : Mat T l n) (b : Mat T n c) : m (Mat T l c) := mulWith t E.foldCC a b

/-- `Matrix * &Matrix` and `&Matrix * &Matrix` (src/matrix/arith.rs:203-210, 223-230). -/
def mulRR (t : Target) (a : Mat T l n) (b : Mat T n c) : m (Mat T l c) := mulWith t E.foldCR a b

/-- `Matrix * Vector` (src/matrix/arith.rs:285-293). -/
def mulVec (t : Target) (a : Mat T r c) (v : Vec T c) : m (Vec T r) := do
  let rows ← liftRes ((RowsIterRef.machine t a.rows).toIter.drain (r + 1) (RowsIterRef.new a.rows))
  Vec.collect t r (rows.map fun row => E.foldVec (row.toList.zip v.toList))

/-- `Matrix * &Vector` (src/matrix/arith.rs:304-312). -/
def mulVecRef (t : Target) (a : Mat T r c) (v : Vec T c) : m (Vec T r) :=
  Vec.collect t r (a.rows.toList.map fun row => E.foldVecRef (row.toList.zip v.toList))

/-- `Matrix / T` (src/matrix/arith.rs:325-329) with `Vector / T` (src/vector.rs:443-445): the divisor is cloned for each row and
again for each element. -/
def divScalar (t : Target) (a : Mat T r c) (s : T) : m (Mat T r c) := do
  let v ← Vec.collect t r (a.rows.toList.map fun row => do
    let s ← E.clone s
    Vec.collect t c (row.toList.map fun e => do
      let s ← E.clone s
      E.div e s))
  pure ⟨v⟩

/-- `Matrix::identity` (src/matrix/mod.rs:217-221). -/
def identity (t : Target) (n : Nat) : m (Mat T n n) :=
  Mat.generate t n n (fun p => if p.1 = p.2 then E.one else E.zero)

/-! ### Determinant and cofactor -/

/-- `idx!(self(Ui, Uj))` (src/matrix/ops.rs:12-16): a statically checked access, cloned. -/
def idx (t : Target) (a : Mat T r c) (i j : Nat) : m T := do
  E.clone (← liftRes (a.idxStatic t i j))

/-- `self[(i, j)].clone()`. -/
def get (a : Mat T r c) (i j : Nat) : m T := do
  E.clone (← liftRes (a.index (i, j)))

/-- `Determinant for Matrix<T, U2, U2>` (src/matrix/ops.rs:46-49). -/
def det2 (t : Target) (a : Mat T 2 2) : m T := do
  let p ← E.mul (← E.idx t a 0 0) (← E.idx t a 1 1)
  let q ← E.mul (← E.idx t a 1 0) (← E.idx t a 0 1)
  E.sub p q

/-- One product of the 3x3 formula (src/matrix/ops.rs:61-66). -/
def det3Term (t : Target) (a : Mat T 3 3) (i j k : Nat) : m T := do
  let p ← E.mul (← E.idx t a 0 i) (← E.idx t a 1 j)
  E.mul p (← E.idx t a 2 k)

/-- `Determinant for Matrix<T, U3, U3>` (src/matrix/ops.rs:60-67). -/
def det3 (t : Target) (a : Mat T 3 3) : m T := do
  let s ← E.add (← E.det3Term t a 0 1 2) (← E.det3Term t a 1 2 0)
  let s ← E.add s (← E.det3Term t a 2 0 1)
  let s ← E.sub s (← E.det3Term t a 2 1 0)
  let s ← E.sub s (← E.det3Term t a 1 0 2)
  E.sub s (← E.det3Term t a 0 2 1)

/-- The `k` loop of the elimination (src/matrix/ops.rs:107-111). -/
def elimRow (mat : Mat T n n) (i j : Nat) (d : T) : m (Mat T n n) :=
  (List.range n).foldlM (fun mat k => do
    let x ← E.get mat j k
    let y ← E.get mat i k
    let d ← E.clone d
    let p ← E.mul y d
    let sub ← E.sub x p
    liftRes (mat.indexSet (j, k) sub)) mat

/-- The `j` loop of the elimination (src/matrix/ops.rs:95-112). -/
def elimCol (i : Nat) : List Nat → Mat T n n → m (Option (Mat T n n))
  | [], mat => pure (some mat)
  | j :: js, mat => do
    if ← E.isZero (← liftRes (mat.index (i, i))) then pure none
    else do
      let x ← E.get mat j i
      let y ← E.get mat i i
      let d ← E.div x y
      let mat ← E.elimRow mat i j d
      elimCol i js mat

/-- The `i` loop of the elimination (src/matrix/ops.rs:94-113). -/
def elimAll : List Nat → Mat T n n → m (Option (Mat T n n))
  | [], mat => pure (some mat)
  | i :: is, mat => do
    match ← E.elimCol i (List.range' (i + 1) (n - (i + 1))) mat with
    | none => pure none
    | some mat => elimAll is mat

/-- `Determinant` for `N > U3` (src/matrix/ops.rs:88-116). -/
def detGen (t : Target) (cof : Nat × Nat → m T) (a : Mat T n n) : m T := do
  let mat ← a.clone t E.clone
  match ← E.elimAll (List.range n) mat with
  | none => do
    let z ← E.zero
    (List.range n).foldlM (fun acc i => do
      let x ← E.get a i 0
      let y ← cof (i, 0)
      let p ← E.mul x y
      E.add acc p) z
  | some mat => do
    let o ← E.one
    (List.range n).foldlM (fun acc i => do
      let x ← E.get mat i i
      E.mul acc x) o

/-- `if (i + j) % 2 == 0 { T::one() } else { -T::one() }` (src/matrix/ops.rs:138, 154, 199). -/
def cofSign (t : Target) (i j : Nat) : m T := do
  let s ← liftRes (uadd t i j)
  if s % 2 = 0 then E.one else do
    let o ← E.one
    E.neg o

/-- `Cofactor for Matrix<T, U2, U2>` (src/matrix/ops.rs:137-141). -/
def cof2 (t : Target) (a : Mat T 2 2) (p : Nat × Nat) : m T := do
  let sgn ← E.cofSign t p.1 p.2
  let i ← liftRes (usub t 1 p.1)
  let j ← liftRes (usub t 1 p.2)
  let x ← E.get a i j
  E.mul sgn x

/-- The minor (src/matrix/ops.rs:156-159, 191-197): its elements are cloned one by one. -/
def minor (t : Target) (a : Mat T (n + 1) (n + 1)) (i j : Nat) : m (Mat T n n) := do
  let rows ← liftRes ((RowsIterRef.machine t a.rows).toIter.drain (n + 2) (RowsIterRef.new a.rows))
  let v ← Vec.collect t n ((rows.zipIdx.filter fun p => p.2 ≠ i).map fun p =>
    Vec.collect t n ((p.1.toList.zipIdx.filter fun q => q.2 ≠ j).map fun q => E.clone q.1))
  pure ⟨v⟩

/-- `Cofactor for Matrix<T, U3, U3>` (src/matrix/ops.rs:151-162): the sign comes first. -/
def cof3 (t : Target) (a : Mat T 3 3) (p : Nat × Nat) : m T := do
  if p.1 < 3 ∧ p.2 < 3 then do
    let sgn ← E.cofSign t p.1 p.2
    let arr ← E.minor t a p.1 p.2
    let d ← E.det2 t arr
    E.mul sgn d
  else fault .panic

/-- `Cofactor` for `N > U3` (src/matrix/ops.rs:187-206): the minor comes first. -/
def cofGen (t : Target) (det : Mat T n n → m T) (a : Mat T (n + 1) (n + 1)) (p : Nat × Nat) : m T := do
  if p.1 < n + 1 ∧ p.2 < n + 1 then do
    let arr ← E.minor t a p.1 p.2
    let sgn ← E.cofSign t p.1 p.2
    let d ← det arr
    E.mul sgn d
  else fault .panic

/-- `Determinant::determinant` for size `k + 1` (src/matrix/ops.rs:31-117). -/
def determinant (t : Target) : (k : Nat) → Mat T (k + 1) (k + 1) → m T
  | 0, a => E.idx t a 0 0
  | 1, a => E.det2 t a
  | 2, a => E.det3 t a
  | k + 3, a => E.detGen t (E.cofGen t (determinant t (k + 2)) a) a

/-- `Cofactor::cofactor` for size `k + 2` (src/matrix/ops.rs:132-207). -/
def cofactor (t : Target) : (k : Nat) → Mat T (k + 2) (k + 2) → Nat × Nat → m T
  | 0, a, p => E.cof2 t a p
  | 1, a, p => E.cof3 t a p
  | k + 2, a, p => E.cofGen t (E.determinant t (k + 2)) a p

/-! ### Inverse -/

/-- `Inverse for Matrix<T, U1, U1>` (src/matrix/ops.rs:257-264). -/
def inv1 (t : Target) (a : Mat T 1 1) : m (Option (Mat T 1 1)) := do
  let d ← E.idx t a 0 0
  if ← E.isZero d then pure none
  else do
    let o ← E.one
    let x ← E.div o d
    let b ← liftRes (Mat.new t ⟨[⟨[x], rfl⟩], rfl⟩)
    pure (some b)

/-- `Inverse for Matrix<T, U2, U2>` (src/matrix/ops.rs:275-283). -/
def inv2 (t : Target) (a : Mat T 2 2) : m (Option (Mat T 2 2)) := do
  let det ← E.det2 t a
  if ← E.isZero det then pure none
  else do
    let x00 ← E.idx t a 1 1
    let x01 ← E.neg (← E.idx t a 0 1)
    let x10 ← E.neg (← E.idx t a 1 0)
    let x11 ← E.idx t a 0 0
    let b ← liftRes (Mat.new t ⟨[⟨[x00, x01], rfl⟩, ⟨[x10, x11], rfl⟩], rfl⟩)
    let b ← E.divScalar t b det
    pure (some b)

/-- One entry of the `ms!` macro (src/matrix/ops.rs:300-308). -/
def ms (t : Target) (a : Mat T 3 3) (p q u v : Nat × Nat) : m T := do
  let x ← E.mul (← E.idx t a p.1 p.2) (← E.idx t a q.1 q.2)
  let y ← E.mul (← E.idx t a u.1 u.2) (← E.idx t a v.1 v.2)
  E.sub x y

/-- `Inverse for Matrix<T, U3, U3>` (src/matrix/ops.rs:294-321). -/
def inv3 (t : Target) (a : Mat T 3 3) : m (Option (Mat T 3 3)) := do
  let det ← E.det3 t a
  if ← E.isZero det then pure none
  else do
    let x00 ← E.ms t a (1,1) (2,2) (1,2) (2,1)
    let x01 ← E.ms t a (0,2) (2,1) (0,1) (2,2)
    let x02 ← E.ms t a (0,1) (1,2) (0,2) (1,1)
    let x10 ← E.ms t a (1,2) (2,0) (1,0) (2,2)
    let x11 ← E.ms t a (0,0) (2,2) (0,2) (2,0)
    let x12 ← E.ms t a (0,2) (1,0) (0,0) (1,2)
    let x20 ← E.ms t a (1,0) (2,1) (1,1) (2,0)
    let x21 ← E.ms t a (0,1) (2,0) (0,0) (2,1)
    let x22 ← E.ms t a (0,0) (1,1) (0,1) (1,0)
    let b ← liftRes (Mat.new t ⟨[⟨[x00, x01, x02], rfl⟩, ⟨[x10, x11, x12], rfl⟩, ⟨[x20, x21, x22], rfl⟩], rfl⟩)
    let b ← E.divScalar t b det
    pure (some b)

/-- The first inner loop of the Gauss-Jordan step (src/matrix/ops.rs:370-373). -/
def gjScale (i : Nat) (rcp : T) (s : Mat T n n × Mat T n n) : m (Mat T n n × Mat T n n) :=
  (List.range n).foldlM (fun s j => do
    let x ← E.get s.1 i j
    let q ← E.clone rcp
    let x ← E.mul x q
    let mat ← liftRes (s.1.indexSet (i, j) x)
    let y ← E.get s.2 i j
    let q ← E.clone rcp
    let y ← E.mul y q
    let inv ← liftRes (s.2.indexSet (i, j) y)
    pure (mat, inv)) s

/-- The `k` loop of the Gauss-Jordan step (src/matrix/ops.rs:379-386). -/
def gjRow (i j : Nat) (a : T) (s : Mat T n n × Mat T n n) : m (Mat T n n × Mat T n n) :=
  (List.range n).foldlM (fun s k => do
    let x ← E.get s.1 j k
    let y ← E.get s.1 i k
    let q ← E.clone a
    let p ← E.mul y q
    let x ← E.sub x p
    let mat ← liftRes (s.1.indexSet (j, k) x)
    let x ← E.get s.2 j k
    let y ← E.get s.2 i k
    let q ← E.clone a
    let p ← E.mul y q
    let x ← E.sub x p
    let inv ← liftRes (s.2.indexSet (j, k) x)
    pure (mat, inv)) s

/-- The second inner loop of the Gauss-Jordan step (src/matrix/ops.rs:375-387). -/
def gjClear (i : Nat) (s : Mat T n n × Mat T n n) : m (Mat T n n × Mat T n n) :=
  (List.range n).foldlM (fun s j => do
    if i = j then pure s
    else do
      let a ← E.get s.1 j i
      E.gjRow i j a s) s

/-- The `i` loop (src/matrix/ops.rs:361-388). -/
def gjLoop : List Nat → Mat T n n × Mat T n n → m (Option (Mat T n n × Mat T n n))
  | [], s => pure (some s)
  | i :: is, s => do
    let d ← E.get s.1 i i
    if ← E.isZero d then pure none
    else do
      let o ← E.one
      let rcp ← E.div o d
      let s ← E.gjScale i rcp s
      let s ← E.gjClear i s
      gjLoop is s

/-- `Inverse` for `N > U3` (src/matrix/ops.rs:355-391). -/
def invGen (t : Target) (a : Mat T n n) : m (Option (Mat T n n)) := do
  let mat ← a.clone t E.clone
  let inv ← E.identity t n
  match ← E.gjLoop (List.range n) (mat, inv) with
  | none => pure none
  | some s => pure (some s.2)

/-- `Inverse::inverse` for size `k + 1` (src/matrix/ops.rs:253-392). -/
def inverse (t : Target) : (k : Nat) → Mat T (k + 1) (k + 1) → m (Option (Mat T (k + 1) (k + 1)))
  | 0, a => E.inv1 t a
  | 1, a => E.inv2 t a
  | 2, a => E.inv3 t a
  | _ + 3, a => E.invGen t a

/-! ### pow -/

/-- First loop of `num::pow::pow` (crate num 0.1, not in /repo): `while exp & 1 == 0 { base = base.clone() * base; exp >>= 1; }`. -/
def powStrip (t : Target) (base : Mat T n n) (exp : Nat) : m (Mat T n n × Nat) :=
  if h : exp % 2 = 0 ∧ exp ≠ 0 then do
    let b ← base.clone t E.clone
    let b ← E.mulVV t b base
    powStrip t b (exp / 2)
  else pure (base, exp)
termination_by exp
decreasing_by omega

/-- Second loop of `num::pow::pow`: `while exp > 1 { exp >>= 1; base = base.clone() * base; if exp & 1 == 1 { acc = acc *
base.clone(); } }`. -/
def powLoop (t : Target) (acc base : Mat T n n) (exp : Nat) : m (Mat T n n) :=
  if h : exp > 1 then do
    let b ← base.clone t E.clone
    let b ← E.mulVV t b base
    let acc ← if exp / 2 % 2 = 1 then do
        let q ← b.clone t E.clone
        E.mulVV t acc q
      else pure acc
    powLoop t acc b (exp / 2)
  else pure acc
termination_by exp
decreasing_by omega

/-- `Matrix::pow` (src/matrix/mod.rs:677-679): `num::pow::pow(self.clone(), exp)`. -/
def pow (t : Target) (a : Mat T n n) (exp : Nat) : m (Mat T n n) := do
  let base ← a.clone t E.clone
  if exp = 0 then E.identity t n
  else do
    let (base, exp) ← E.powStrip t base exp
    if exp = 1 then pure base
    else do
      let acc ← base.clone t E.clone
      E.powLoop t acc base exp

end Elem
end Rowcol
