import Verif.Model.Mat

/-!
Equality, `is_zero`, approximate equality, `max`, `min`, `clamped` and `clamp` once more, with element comparisons and clones
that are arbitrary programs: every call appears, in the order of the source, and may have effects or panic.
`Verif/Model/Vec.lean` and `Mat.lean` are what is left of this when the comparisons have no effects and clones are silent
(`C94_pure` in `Verif/Props/Compare.lean`).

`gt a b` is the question std asks to order two elements, "is `a` greater than `b`?"; depending on the version of std it is
spelled `a.cmp(b) == Greater`, `!(a <= b)` or `b < a`.
-/

namespace Rowcol

/-- Slice equality of std: the lengths are compared, then the elements one after the other until two differ.
Simplification: `!=` of the elements is taken to be the negation of `==`, which is its default.  [Called at src/vector.rs:205.] -/
def sliceEqM {m : Type → Type} [RustM m] {T U : Type} (e : T → U → m Bool) : List T → List U → m Bool
  | [], [] => pure true
  | x :: xs, y :: ys => do
    if ← e x y then sliceEqM e xs ys else pure false
  | _, _ => pure false

/-- `Iterator::all` of std.  [Called at src/vector.rs:224, src/matrix/mod.rs:624, 894, 901.] -/
def stdAllM {m : Type → Type} [RustM m] {T : Type} (p : T → m Bool) : List T → m Bool
  | [] => pure true
  | x :: xs => do
    if ← p x then stdAllM p xs else pure false

/-- `Iterator::max` of std over items that are computed one by one; the later item is kept on ties.
[Called at src/vector.rs:603, src/matrix/mod.rs:732.] -/
def stdMaxM {m : Type → Type} [RustM m] {T : Type} (gt : T → T → m Bool) : List (m T) → m (Option T)
  | [] => pure none
  | x :: xs => do
    let x ← x
    let w ← xs.foldlM (fun acc y => do
      let y ← y
      if ← gt acc y then pure acc else pure y) x
    pure (some w)

/-- `Iterator::min` of std over items that are computed one by one; the earlier item is kept on ties.
[Called at src/vector.rs:612, src/matrix/mod.rs:740.] -/
def stdMinM {m : Type → Type} [RustM m] {T : Type} (gt : T → T → m Bool) : List (m T) → m (Option T)
  | [] => pure none
  | x :: xs => do
    let x ← x
    let w ← xs.foldlM (fun acc y => do
      let y ← y
      if ← gt acc y then pure y else pure acc) x
    pure (some w)

/-- `cmp::min(&max, cmp::max(&min, v)).clone()` (src/vector.rs:672, 678, src/matrix/mod.rs:807, 815). -/
def clampElemM {m : Type → Type} [RustM m] {T : Type} (gt : T → T → m Bool) (cl : T → m T) (lo hi x : T) : m T := do
  let y ← (do if ← gt lo x then pure lo else pure x)
  let z ← (do if ← gt hi y then pure y else pure hi)
  cl z

/-- A `for` loop over `iter_mut()` whose body has effects: what a panic leaves in the slice, and the state afterwards.
[src/vector.rs:677-679, src/matrix/mod.rs:813-817.] -/
def forMutM {S T : Type} (body : T → S → (Res Unit × T) × S) : List T → S → (Res Unit × List T) × S
  | [], s => ((.ok (), []), s)
  | x :: xs, s =>
    match body x s with
    | ((.ok (), y), s) => let r := forMutM body xs s; ((r.1.1, y :: r.1.2), r.2)
    | ((.error f, y), s) => ((.error f, y :: xs), s)

/-- `*v = e(v)`: `*v` keeps its value if `e` panics.  [src/vector.rs:678, src/matrix/mod.rs:815.] -/
def assignM {S T : Type} (e : T → StM S T) (x : T) (s : S) : (Res Unit × T) × S :=
  match (e x).run s with
  | (.ok y, s) => ((.ok (), y), s)
  | (.error f, s) => ((.error f, x), s)

theorem forMutM_length {S T : Type} (body : T → S → (Res Unit × T) × S) (l : List T) (s : S) :
    (forMutM body l s).1.2.length = l.length := by
  induction l generalizing s with
  | nil => rfl
  | cons x xs ih =>
    rw [forMutM]
    split
    · simp [ih]
    · simp

namespace Vec
variable {m : Type → Type} [RustM m] {T U : Type} {n : Nat}

/-- `PartialEq` (src/vector.rs:204-206): `self.as_slice() == other.as_slice()`. -/
def eqM (e : T → U → m Bool) (a : Vec T n) (b : Vec U n) : m Bool := sliceEqM e a.toList b.toList

/-- `num::Zero::is_zero` (src/vector.rs:223-225). -/
def isZeroM (isz : T → m Bool) (v : Vec T n) : m Bool := stdAllM isz v.toList

/-- `Vector::max` (src/vector.rs:601-604): the items are references, the chosen one is cloned. -/
def maxM (gt : T → T → m Bool) (cl : T → m T) (v : Vec T n) : m T := do
  match ← stdMaxM gt (v.toList.map pure) with
  | some x => cl x
  | none => fault .panic

/-- `Vector::min` (src/vector.rs:610-613). -/
def minM (gt : T → T → m Bool) (cl : T → m T) (v : Vec T n) : m T := do
  match ← stdMinM gt (v.toList.map pure) with
  | some x => cl x
  | none => fault .panic

/-- `Vector::clamped` (src/vector.rs:671-673). -/
def clampedM (t : Target) (gt : T → T → m Bool) (cl : T → m T) (v : Vec T n) (lo hi : T) : m (Vec T n) :=
  collect t n (v.toList.map (clampElemM gt cl lo hi))

/-- `Vector::clamp` (src/vector.rs:676-680). -/
def clampM {S : Type} (gt : T → T → StM S Bool) (cl : T → StM S T) (v : Vec T n) (lo hi : T) (s : S) :
    (Res Unit × Vec T n) × S :=
  let r := forMutM (assignM (clampElemM gt cl lo hi)) v.toList s
  ((r.1.1, ⟨r.1.2, by rw [forMutM_length, v.length_eq]⟩), r.2)

end Vec

namespace Mat
variable {m : Type → Type} [RustM m] {T E : Type} {r c : Nat}

/-- `PartialEq` (src/matrix/mod.rs:290-292): `self.0 == rhs.0`, i.e. vector equality of vectors. -/
def eqM (e : T → T → m Bool) (a b : Mat T r c) : m Bool := a.rows.eqM (fun x y => x.eqM e y) b.rows

/-- `num::Zero::is_zero` (src/matrix/mod.rs:623-625). -/
def isZeroM (isz : T → m Bool) (a : Mat T r c) : m Bool := stdAllM (fun row => stdAllM isz row.toList) a.rows.toList

/-- The body shared by `relative_eq` and `ulps_eq` (src/matrix/mod.rs:892-895, 899-902). -/
def approxEqM (t : Target) (req : T → T → m Bool) (a b : Mat T r c) : m Bool := do
  let ra ← liftRes ((RowsIterRef.machine t a.rows).toIter.drain (r + 1) (RowsIterRef.new a.rows))
  let rb ← liftRes ((RowsIterRef.machine t b.rows).toIter.drain (r + 1) (RowsIterRef.new b.rows))
  (ra.zip rb).foldlM (fun x p => do
    let y ← stdAllM (fun q => req q.1 q.2) (p.1.toList.zip p.2.toList)
    pure (x && y)) true

/-- `ApproxEq::relative_eq` (src/matrix/mod.rs:891-896); `clE` clones a tolerance. -/
def relativeEqM (t : Target) (clE : E → m E) (req : T → T → E → E → m Bool) (a b : Mat T r c) (eps rel : E) : m Bool :=
  approxEqM t (fun x y => do
    let e ← clE eps
    let f ← clE rel
    req x y e f) a b

/-- `ApproxEq::ulps_eq` (src/matrix/mod.rs:898-903). -/
def ulpsEqM (t : Target) (clE : E → m E) (ueq : T → T → E → Nat → m Bool) (a b : Mat T r c) (eps : E) (ulps : Nat) : m Bool :=
  approxEqM t (fun x y => do
    let e ← clE eps
    ueq x y e ulps) a b

/-- `Matrix::max` (src/matrix/mod.rs:730-733): `self.0.iter().map(Vector::max).max().unwrap()`. -/
def maxM (gt : T → T → m Bool) (cl : T → m T) (a : Mat T r r) : m T := do
  unwrap (← stdMaxM gt (a.rows.toList.map fun row => row.maxM gt cl))

/-- `Matrix::min` (src/matrix/mod.rs:738-741). -/
def minM (gt : T → T → m Bool) (cl : T → m T) (a : Mat T r r) : m T := do
  unwrap (← stdMinM gt (a.rows.toList.map fun row => row.minM gt cl))

/-- `Matrix::clamped` (src/matrix/mod.rs:805-809). -/
def clampedM (t : Target) (gt : T → T → m Bool) (cl : T → m T) (a : Mat T r c) (lo hi : T) : m (Mat T r c) := do
  let v ← Vec.collect t r (a.rows.toList.map fun row => Vec.collect t c (row.toList.map (clampElemM gt cl lo hi)))
  pure ⟨v⟩

/-- The inner loop of `clamp` (src/matrix/mod.rs:814-816). -/
def clampRowM {S : Type} (gt : T → T → StM S Bool) (cl : T → StM S T) (lo hi : T) (row : Vec T c) (s : S) :
    (Res Unit × Vec T c) × S :=
  let r := forMutM (assignM (clampElemM gt cl lo hi)) row.toList s
  ((r.1.1, ⟨r.1.2, by rw [forMutM_length, row.length_eq]⟩), r.2)

/-- `Matrix::clamp` (src/matrix/mod.rs:812-818). -/
def clampM {S : Type} (gt : T → T → StM S Bool) (cl : T → StM S T) (a : Mat T r c) (lo hi : T) (s : S) :
    (Res Unit × Mat T r c) × S :=
  let q := forMutM (clampRowM gt cl lo hi) a.rows.toList s
  ((q.1.1, ⟨⟨q.1.2, by rw [forMutM_length, a.rows.length_eq]⟩⟩), q.2)

end Mat
end Rowcol
