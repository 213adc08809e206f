import Verif.Model.Mat

/-
Model of `/repo/src/matrix/ops.rs`: `Determinant`, `Cofactor`, `Inverse`.
-/

namespace Rowcol
namespace Mat

variable {T : Type} {r c n : Nat}

/-- Statically checked indexing `m[(Ui::new(), Uj::new())]` (mod.rs:465-470, 506-510, 542-547, 584-589):
`self.0.get_unchecked(i).get_unchecked(j)` with `Vector::get_unchecked`. -/
def idxStatic (t : Target) (a : Mat T r c) (i j : Nat) : Res T := do
  let row ← a.rows.getUnchecked t i
  row.getUnchecked t j

/-! ### Determinant -/

/-- `Determinant for Matrix<T, U1, U1>` (ops.rs:35-37). -/
def det1 (t : Target) (a : Mat T 1 1) : Res T := a.idxStatic t 0 0

/-- `Determinant for Matrix<T, U2, U2>` (ops.rs:47-50). -/
def det2 (t : Target) (O : Ops T) (a : Mat T 2 2) : Res T := do
  let p ← O.mul (← a.idxStatic t 0 0) (← a.idxStatic t 1 1)
  let q ← O.mul (← a.idxStatic t 1 0) (← a.idxStatic t 0 1)
  O.sub p q

/-- One product `m[(0,i)] * m[(1,j)] * m[(2,k)]` of the 3x3 formula (ops.rs:61-66). -/
def det3Term (t : Target) (O : Ops T) (a : Mat T 3 3) (i j k : Nat) : Res T := do
  let p ← O.mul (← a.idxStatic t 0 i) (← a.idxStatic t 1 j)
  O.mul p (← a.idxStatic t 2 k)

/-- `Determinant for Matrix<T, U3, U3>` (ops.rs:60-67). -/
def det3 (t : Target) (O : Ops T) (a : Mat T 3 3) : Res T := do
  let s ← O.add (← a.det3Term t O 0 1 2) (← a.det3Term t O 1 2 0)
  let s ← O.add s (← a.det3Term t O 2 0 1)
  let s ← O.sub s (← a.det3Term t O 2 1 0)
  let s ← O.sub s (← a.det3Term t O 1 0 2)
  O.sub s (← a.det3Term t O 0 2 1)

/-- The `k` loop of the elimination (ops.rs:107-111): row `j` minus `d` times row `i`. -/
def elimRow (O : Ops T) (mat : Mat T n n) (i j : Nat) (d : T) : Res (Mat T n n) :=
  (List.range n).foldlM (fun mat k => do
    let sub ← O.sub (← mat.index (j, k)) (← O.mul (← mat.index (i, k)) d)
    mat.indexSet (j, k) sub) mat

/-- The `j` loop of the elimination (ops.rs:95-112) over the given rows; `none` is the early return to
the cofactor expansion (ops.rs:96-103). -/
def elimCol (O : Ops T) (i : Nat) : List Nat → Mat T n n → Res (Option (Mat T n n))
  | [], mat => pure (some mat)
  | j :: js, mat => do
    if O.isZero (← mat.index (i, i)) then pure none
    else do
      let d ← O.div (← mat.index (j, i)) (← mat.index (i, i))
      let mat ← elimRow O mat i j d
      elimCol O i js mat

/-- The `i` loop of the elimination (ops.rs:94-113); the inner range is `(i+1)..n`. -/
def elimAll (O : Ops T) : List Nat → Mat T n n → Res (Option (Mat T n n))
  | [], mat => pure (some mat)
  | i :: is, mat => do
    match ← elimCol O i (List.range' (i + 1) (n - (i + 1))) mat with
    | none => pure none
    | some mat => elimAll O is mat

/-- `Determinant` for `N > U3` (ops.rs:88-116); `cof` is `self.cofactor`. -/
def detGen (t : Target) (O : Ops T) (cof : Nat × Nat → Res T) (a : Mat T n n) : Res T := do
  let mat ← a.clone t (fun x => (pure x : Res T))
  match ← elimAll O (List.range n) mat with
  | none =>
    (List.range n).foldlM (fun acc i => do
      let p ← O.mul (← a.index (i, 0)) (← cof (i, 0))
      O.add acc p) O.zero
  | some mat =>
    (List.range n).foldlM (fun acc i => do
      let x ← mat.index (i, i)
      O.mul acc x) O.one

/-! ### Cofactor -/

/-- `if (i + j) % 2 == 0 { T::one() } else { -T::one() }` (ops.rs:138, 154, 199). -/
def cofSign (t : Target) (O : Ops T) (i j : Nat) : Res T := do
  let s ← uadd t i j
  if s % 2 = 0 then pure O.one else O.neg O.one

/-- `Cofactor for Matrix<T, U2, U2>` (ops.rs:137-141). -/
def cof2 (t : Target) (O : Ops T) (a : Mat T 2 2) (p : Nat × Nat) : Res T := do
  let sgn ← cofSign t O p.1 p.2
  let i ← usub t 1 p.1
  let j ← usub t 1 p.2
  let x ← a.index (i, j)
  O.mul sgn x

/-- The minor built by `rows_iter_ref().enumerate().filter(|&(ii, _)| ii != i).map(..).collect()`
(ops.rs:156-159, 191-197). -/
def minor (t : Target) (a : Mat T (n + 1) (n + 1)) (i j : Nat) : Res (Mat T n n) := do
  let rows ← (RowsIterRef.machine t a.rows).toIter.drain (n + 2) (RowsIterRef.new a.rows)
  let v ← Vec.collect t n ((rows.zipIdx.filter fun p => p.2 ≠ i).map fun p =>
    Vec.collect t n ((p.1.toList.zipIdx.filter fun q => q.2 ≠ j).map fun q => (pure q.1 : Res T)))
  pure ⟨v⟩

/-- `Cofactor for Matrix<T, U3, U3>` (ops.rs:151-162). -/
def cof3 (t : Target) (O : Ops T) (a : Mat T 3 3) (p : Nat × Nat) : Res T := do
  if p.1 < 3 ∧ p.2 < 3 then do
    let sgn ← cofSign t O p.1 p.2
    let arr ← a.minor t p.1 p.2
    let d ← arr.det2 t O
    O.mul sgn d
  else .error .panic

/-- `Cofactor` for `N > U3` (ops.rs:187-206); `det` is `Determinant` of size `N - 1`. -/
def cofGen (t : Target) (O : Ops T) (det : Mat T n n → Res T) (a : Mat T (n + 1) (n + 1))
    (p : Nat × Nat) : Res T := do
  if p.1 < n + 1 ∧ p.2 < n + 1 then do
    let arr ← a.minor t p.1 p.2
    let sgn ← cofSign t O p.1 p.2
    let d ← det arr
    O.mul sgn d
  else .error .panic

/-- `Determinant::determinant` for size `k + 1`: the impl selected for that size (ops.rs:31-117). -/
def determinant (t : Target) (O : Ops T) : (k : Nat) → Mat T (k + 1) (k + 1) → Res T
  | 0, a => det1 t a
  | 1, a => det2 t O a
  | 2, a => det3 t O a
  | k + 3, a => detGen t O (cofGen t O (determinant t O (k + 2)) a) a

/-- `Cofactor::cofactor` for size `k + 2`: the impl selected for that size (ops.rs:132-207). -/
def cofactor (t : Target) (O : Ops T) : (k : Nat) → Mat T (k + 2) (k + 2) → Nat × Nat → Res T
  | 0, a, p => cof2 t O a p
  | 1, a, p => cof3 t O a p
  | k + 2, a, p => cofGen t O (determinant t O (k + 2)) a p

/-! ### Inverse -/

/-- `Inverse for Matrix<T, U1, U1>` (ops.rs:257-264). -/
def inv1 (t : Target) (O : Ops T) (a : Mat T 1 1) : Res (Option (Mat T 1 1)) := do
  let d ← a.idxStatic t 0 0
  if O.isZero d then pure none
  else do
    let x ← O.div O.one d
    let b ← Mat.new t ⟨[⟨[x], rfl⟩], rfl⟩
    pure (some b)

/-- `Inverse for Matrix<T, U2, U2>` (ops.rs:275-283). -/
def inv2 (t : Target) (O : Ops T) (a : Mat T 2 2) : Res (Option (Mat T 2 2)) := do
  let det ← a.det2 t O
  if O.isZero det then pure none
  else do
    let x00 ← a.idxStatic t 1 1
    let x01 ← O.neg (← a.idxStatic t 0 1)
    let x10 ← O.neg (← a.idxStatic t 1 0)
    let x11 ← a.idxStatic t 0 0
    let b ← Mat.new t ⟨[⟨[x00, x01], rfl⟩, ⟨[x10, x11], rfl⟩], rfl⟩
    let b ← b.divScalar t O.div det
    pure (some b)

/-- One entry `(i1,j1)*(i2,j2)-(i3,j3)*(i4,j4)` of the `ms!` macro (ops.rs:300-308). -/
def ms (t : Target) (O : Ops T) (a : Mat T 3 3) (p q u v : Nat × Nat) : Res T := do
  let x ← O.mul (← a.idxStatic t p.1 p.2) (← a.idxStatic t q.1 q.2)
  let y ← O.mul (← a.idxStatic t u.1 u.2) (← a.idxStatic t v.1 v.2)
  O.sub x y

/-- `Inverse for Matrix<T, U3, U3>` (ops.rs:294-321). -/
def inv3 (t : Target) (O : Ops T) (a : Mat T 3 3) : Res (Option (Mat T 3 3)) := do
  let det ← a.det3 t O
  if O.isZero det then pure none
  else do
    let x00 ← a.ms t O (1,1) (2,2) (1,2) (2,1)
    let x01 ← a.ms t O (0,2) (2,1) (0,1) (2,2)
    let x02 ← a.ms t O (0,1) (1,2) (0,2) (1,1)
    let x10 ← a.ms t O (1,2) (2,0) (1,0) (2,2)
    let x11 ← a.ms t O (0,0) (2,2) (0,2) (2,0)
    let x12 ← a.ms t O (0,2) (1,0) (0,0) (1,2)
    let x20 ← a.ms t O (1,0) (2,1) (1,1) (2,0)
    let x21 ← a.ms t O (0,1) (2,0) (0,0) (2,1)
    let x22 ← a.ms t O (0,0) (1,1) (0,1) (1,0)
    let b ← Mat.new t ⟨[⟨[x00, x01, x02], rfl⟩, ⟨[x10, x11, x12], rfl⟩, ⟨[x20, x21, x22], rfl⟩], rfl⟩
    let b ← b.divScalar t O.div det
    pure (some b)

/-- The first inner loop of the Gauss-Jordan step (ops.rs:370-373): scale row `i` of both matrices. -/
def gjScale (O : Ops T) (i : Nat) (rcp : T) (s : Mat T n n × Mat T n n) : Res (Mat T n n × Mat T n n) :=
  (List.range n).foldlM (fun s j => do
    let x ← O.mul (← s.1.index (i, j)) rcp
    let mat ← s.1.indexSet (i, j) x
    let y ← O.mul (← s.2.index (i, j)) rcp
    let inv ← s.2.indexSet (i, j) y
    pure (mat, inv)) s

/-- The `k` loop of the Gauss-Jordan step (ops.rs:379-386). -/
def gjRow (O : Ops T) (i j : Nat) (a : T) (s : Mat T n n × Mat T n n) : Res (Mat T n n × Mat T n n) :=
  (List.range n).foldlM (fun s k => do
    let x ← O.sub (← s.1.index (j, k)) (← O.mul (← s.1.index (i, k)) a)
    let mat ← s.1.indexSet (j, k) x
    let y ← O.sub (← s.2.index (j, k)) (← O.mul (← s.2.index (i, k)) a)
    let inv ← s.2.indexSet (j, k) y
    pure (mat, inv)) s

/-- The second inner loop of the Gauss-Jordan step (ops.rs:375-387): clear column `i` in every other row. -/
def gjClear (O : Ops T) (i : Nat) (s : Mat T n n × Mat T n n) : Res (Mat T n n × Mat T n n) :=
  (List.range n).foldlM (fun s j => do
    if i = j then pure s
    else do
      let a ← s.1.index (j, i)
      gjRow O i j a s) s

/-- The `i` loop (ops.rs:361-388); `none` is the early `return None` at a zero pivot. -/
def gjLoop (O : Ops T) : List Nat → Mat T n n × Mat T n n → Res (Option (Mat T n n × Mat T n n))
  | [], s => pure (some s)
  | i :: is, s => do
    let d ← s.1.index (i, i)
    if O.isZero d then pure none
    else do
      let rcp ← O.div O.one d
      let s ← gjScale O i rcp s
      let s ← gjClear O i s
      gjLoop O is s

/-- `Inverse` for `N > U3` (ops.rs:355-391). -/
def invGen (t : Target) (O : Ops T) (a : Mat T n n) : Res (Option (Mat T n n)) := do
  let mat ← a.clone t (fun x => (pure x : Res T))
  let inv ← Mat.identity t O n
  match ← gjLoop O (List.range n) (mat, inv) with
  | none => pure none
  | some s => pure (some s.2)

/-- `Inverse::inverse` for size `k + 1`: the impl selected for that size (ops.rs:253-392). -/
def inverse (t : Target) (O : Ops T) : (k : Nat) → Mat T (k + 1) (k + 1) → Res (Option (Mat T (k + 1) (k + 1)))
  | 0, a => inv1 t O a
  | 1, a => inv2 t O a
  | 2, a => inv3 t O a
  | _ + 3, a => invGen t O a

end Mat
end Rowcol
