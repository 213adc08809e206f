import Verif.Model.Mem

/-
Memory-level model of the operations that consume vectors and matrices element by element, with an element
operation that may have effects of its own (any state `L`) and may panic anywhere: `map`, negation, scalar
operations, `+`/`-` with one or two operands taken by value, and the right operands of `+=`/`-=`.
Destructors are assumed not to panic here (for those see `OwnIt.run`).
-/

namespace Rowcol

/-- Work on the left / right component of a pair of states.  [Bookkeeping of the model for the closures of src/vector.rs:324, 417, 444, 470.] -/
def onLeft {S L α : Type} (x : StM S α) : StM (S × L) α :=
  ExceptT.mk fun s => match x.run s.1 with | (r, a) => (r, (a, s.2))

/-- Bookkeeping of the model for the closures of src/vector.rs:324, 417, 444, 470. -/
def onRight {S L α : Type} (x : StM L α) : StM (S × L) α :=
  ExceptT.mk fun s => match x.run s.2 with | (r, b) => (r, (s.1, b))

namespace OwnIt
variable {T U V L : Type} {n r c : Nat}

/-- The loop of `from_iter` (vector.rs:701-717) fed by `v.into_iter().enumerate().map(f)`: `k` more items, the next index
is `i`.  Each item is moved into `f`; the results are in a `NoDrop` array (leaked on unwinding), here the returned list. -/
def feed (t : Target) (f : Nat → T → StM L V) : (i k : Nat) → StM (OwnIt T × L) (List V)
  | _, 0 => pure []
  | i, k + 1 => do
    match ← onLeft (nextOp t) with
    | none => fault .panic
    | some x => do
      let z ← onRight (f i x)
      let zs ← feed t f (i + 1) k
      pure (z :: zs)

/-- `debug_assert_eq!(it.count(), 0)` (vector.rs:719-721) for such an iterator: `next()` once more.  (If that gave an item
the assertion would fail in the end; the theorems show it does not.) -/
def countZero (t : Target) : StM (OwnIt T × L) Unit :=
  if t.debugAssertions then do
    match ← onLeft (nextOp t) with
    | none => pure ()
    | some _ => fault .panic
  else pure ()

/-- `v.into_iter().enumerate().map(|(i, x)| f(i, x)).collect()`: how it ended, the state of `f`, and the owning iterator
after it was dropped (which happens on return and on unwinding).  Transcribes `Mul`/`Div`/`Neg` of vectors
(vector.rs:416-418, 443-445, 469-471), and `Vector op &Vector`, `&Vector op Vector` (vector.rs:337-339, 351-353) where `f`
looks up the borrowed operand's element. -/
def consume (t : Target) (f : Nat → T → StM L V) (v : Vec T n) (l : L) : Res (List V) × L × OwnIt T :=
  match (do
    let zs ← feed t f 0 n
    countZero t
    pure zs : StM (OwnIt T × L) (List V)).run (intoIter v, l) with
  | (res, (it, l')) => (res, l', ((dropOp fun _ => false).run it).2)

/-- Elements destroyed by the crate, and invalid accesses.  [The log of src/vector.rs:750-756 (Drop) and of the `NoDrop` reads at 761-775.] -/
structure DropLog (T : Type) where
  drops : List T
  viols : List Viol

/-- One row consumed inside an operation on a matrix.  [src/matrix/mod.rs:176, src/matrix/arith.rs:124, 139, 152: the inner `into_iter()..collect()`.] -/
def consumeRow (t : Target) (f : Nat × Nat → T → StM L V) (i : Nat) (row : Vec T c) : StM (L × DropLog T) (List V) :=
  ExceptT.mk fun s =>
    match consume t (fun j x => f (i, j) x) row s.1 with
    | (res, l, it) => (res, (l, ⟨s.2.drops ++ it.mem.drops, s.2.viols ++ it.mem.viols⟩))

/-- `Matrix::map` (src/matrix/mod.rs:169-178): `self.0.into_iter().enumerate().map(|(i, row)|
row.into_iter().enumerate().map(|(j, a)| f((i, j), a)).collect()).collect()`; also `Neg`, `Mul`, `Div` by a scalar
(src/matrix/arith.rs:123-125, 138-140, 151-153, 325-329, 340-344), and `Matrix op &Matrix`, `&Matrix op Matrix`
(arith.rs:36-38, 52-54), where rows are consumed by the corresponding vector operation.  Dropping a row drops its
elements in order. -/
def consumeMat (t : Target) (f : Nat × Nat → T → StM L V) (a : Mat T r c) (l : L) : Res (List (List V)) × L × DropLog T :=
  match consume t (consumeRow t f) a.rows (l, ⟨[], []⟩) with
  | (res, (l', log), it) =>
    (res, l', ⟨log.drops ++ (it.mem.drops.map Vec.toList).flatten, log.viols ++ it.mem.viols⟩)

/-! ### Two operands by value -/

/-- The loop of `from_iter` fed by `a.into_iter().zip(b).map(f)`.  [src/vector.rs:324 with the loop of 701-717.] -/
def feed2 (t : Target) (f : T → U → StM L V) : Nat → StM ((OwnIt T × OwnIt U) × L) (List V)
  | 0 => pure []
  | k + 1 => do
    match ← onLeft (onLeft (nextOp t)) with
    | none => fault .panic
    | some x =>
      match ← onLeft (onRight (nextOp t)) with
      | none => fault .panic
      | some y => do
        let z ← onRight (f x y)
        let zs ← feed2 t f k
        pure (z :: zs)

/-- The trailing `debug_assert_eq!(it.count(), 0)`: `Zip::next` asks the left iterator, which is exhausted. -/
def countZero2 (t : Target) : StM ((OwnIt T × OwnIt U) × L) Unit :=
  if t.debugAssertions then do
    match ← onLeft (onLeft (nextOp t)) with
    | none => pure ()
    | some _ => fault .panic
  else pure ()

/-- `Vector op Vector` by value (vector.rs:323-325) with an effectful element operation. -/
def consume2 (t : Target) (f : T → U → StM L V) (a : Vec T n) (b : Vec U n) (l : L) :
    Res (List V) × L × OwnIt T × OwnIt U :=
  match (do
    let zs ← feed2 t f n
    countZero2 t
    pure zs : StM ((OwnIt T × OwnIt U) × L) (List V)).run ((intoIter a, intoIter b), l) with
  | (res, ((ia, ib), l')) => (res, l', ((dropOp fun _ => false).run ia).2, ((dropOp fun _ => false).run ib).2)

/-- One pair of rows in `Matrix op Matrix`.  [src/matrix/arith.rs:20-24 through src/vector.rs:324.] -/
def consumeRow2 (t : Target) (f : T → U → StM L V) (x : Vec T c) (y : Vec U c) : StM (L × DropLog T × DropLog U) (List V) :=
  ExceptT.mk fun s =>
    match consume2 t f x y s.1 with
    | (res, l, ix, iy) =>
      (res, (l, ⟨s.2.1.drops ++ ix.mem.drops, s.2.1.viols ++ ix.mem.viols⟩,
        ⟨s.2.2.drops ++ iy.mem.drops, s.2.2.viols ++ iy.mem.viols⟩))

/-- `Matrix op Matrix` by value (arith.rs:20-22). -/
def consumeMat2 (t : Target) (f : T → U → StM L V) (a : Mat T r c) (b : Mat U r c) (l : L) :
    Res (List (List V)) × L × DropLog T × DropLog U :=
  match consume2 t (consumeRow2 t f) a.rows b.rows (l, ⟨[], []⟩, ⟨[], []⟩) with
  | (res, (l', la, lb), ia, ib) =>
    (res, l', ⟨la.drops ++ (ia.mem.drops.map Vec.toList).flatten, la.viols ++ ia.mem.viols⟩,
      ⟨lb.drops ++ (ib.mem.drops.map Vec.toList).flatten, lb.viols ++ ib.mem.viols⟩)

/-! ### Assigning operators -/

/-- `for (a, b) in xs.iter_mut().zip(rhs) { body(a, b) }` where `rhs` is an owning iterator: how the loop ended, what is
left in `xs`, and the states of `rhs` and of the body.  `body a b` may modify `*a` and then panic.  [src/vector.rs:388-390, 401-403.] -/
def forZipOwn (t : Target) (body : T → U → L → Res Unit × T × L) : List T → OwnIt U × L → Res Unit × List T × OwnIt U × L
  | [], s => (.ok (), [], s)
  | a :: as, s =>
    match (nextOp t).run s.1 with
    | (.error e, it) => (.error e, a :: as, it, s.2)
    | (.ok none, it) => (.ok (), a :: as, it, s.2)
    | (.ok (some b), it) =>
      match body a b s.2 with
      | (.error e, a', l) => (.error e, a' :: as, it, l)
      | (.ok (), a', l) =>
        match forZipOwn t body as (it, l) with
        | (res, as', s') => (res, a' :: as', s')

theorem forZipOwn_length (t : Target) (body : T → U → L → Res Unit × T × L) (as : List T) (s : OwnIt U × L) :
    (forZipOwn t body as s).2.1.length = as.length := by
  induction as generalizing s with
  | nil => rfl
  | cons a as ih =>
    rw [forZipOwn]
    split
    · rfl
    · rfl
    · split
      · rfl
      · simp [ih]

/-- `a += b`, `a -= b` for vectors (vector.rs:387-391, 400-404), `b` taken by value: how it ended, what is left in `a`, the
state of the element operation, and the iterator over `b` after it was dropped. -/
def assignOwn (t : Target) (body : T → U → L → Res Unit × T × L) (a : Vec T n) (b : Vec U n) (l : L) :
    Res Unit × Vec T n × L × OwnIt U :=
  ((forZipOwn t body a.toList (intoIter b, l)).1,
   ⟨(forZipOwn t body a.toList (intoIter b, l)).2.1, by rw [forZipOwn_length, a.length_eq]⟩,
   (forZipOwn t body a.toList (intoIter b, l)).2.2.2,
   ((dropOp fun _ => false).run (forZipOwn t body a.toList (intoIter b, l)).2.2.1).2)

/-- The inner loop of `a += b`, `a -= b` for matrices (src/matrix/arith.rs:93-95, 108-110). -/
def assignRow (t : Target) (body : T → U → L → Res Unit × T × L) (x : Vec T c) (y : Vec U c) (s : L × DropLog U) :
    Res Unit × Vec T c × (L × DropLog U) :=
  match assignOwn t body x y s.1 with
  | (res, x', l, it) => (res, x', (l, ⟨s.2.drops ++ it.mem.drops, s.2.viols ++ it.mem.viols⟩))

/-- `a += b`, `a -= b` for matrices (arith.rs:91-97, 106-112): the same loop over the rows. -/
def assignOwnMat (t : Target) (body : T → U → L → Res Unit × T × L) (a : Mat T r c) (b : Mat U r c) (l : L) :
    Res Unit × Mat T r c × L × DropLog U :=
  match assignOwn t (assignRow t body) a.rows b.rows (l, ⟨[], []⟩) with
  | (res, rows, (l', log), it) =>
    (res, ⟨rows⟩, l', ⟨log.drops ++ (it.mem.drops.map Vec.toList).flatten, log.viols ++ it.mem.viols⟩)

end OwnIt
end Rowcol
