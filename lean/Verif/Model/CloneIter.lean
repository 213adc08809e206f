import Verif.Model.Mat

/-!
The two iterators that clone what they yield, `RowsIter` and `ColsIter`, once more, with `T::clone` an arbitrary program: it may
have effects and may panic.  The state of a method is the pair of the cursors and the state the clones act on; a panic leaves both
as they are at that moment (what a `catch_unwind` around the call finds).
-/

namespace Rowcol

/-- A program that does not touch the iterator, run from inside one of its methods.  [The calls of `clone` at
src/matrix/iter.rs:31, 84, 124, 179.] -/
def StM.outside {S α : Type} (x : StM S α) : StM (Cur × S) α :=
  ExceptT.mk fun p => ((x.run p.2).1, (p.1, (x.run p.2).2))

/-- The cursors (`self.1` and `self.2`).  [src/matrix/iter.rs:4, 94.] -/
def cursors {S : Type} : StM (Cur × S) Cur := do
  let p ← get
  pure p.1

/-- `self.1 = f`.  [src/matrix/iter.rs:32, 57, 122, 149.] -/
def setFront {S : Type} (f : Nat) : StM (Cur × S) Unit := modify fun p => ({ p.1 with front := f }, p.2)

/-- `self.2 = b`.  [src/matrix/iter.rs:85, 177.] -/
def setBack {S : Type} (b : Nat) : StM (Cur × S) Unit := modify fun p => ({ p.1 with back := b }, p.2)

/-- The methods of a cloning iterator that move it, and `last`.  [src/matrix/iter.rs:19-91, 109-184.] -/
structure CloneMachine (S α : Type) where
  next : StM (Cur × S) (Option α)
  nextBack : StM (Cur × S) (Option α)
  nth : Nat → StM (Cur × S) (Option α)
  last : StM (Cur × S) (Option α)

variable {S T : Type} {r c : Nat}

namespace RowsIter

/-- iter.rs:28-37: the row is cloned before the cursor moves. -/
def nextE (t : Target) (cl : T → StM S T) (mat : Vec (Vec T c) r) : StM (Cur × S) (Option (Vec T c)) := do
  let s ← cursors
  if s.front < s.back then
    let row ← liftRes (mat.index s.front)
    let ret ← StM.outside (row.clone t cl)
    let f ← liftRes (uadd t s.front 1)
    setFront f
    pure (some ret)
  else pure none

/-- iter.rs:81-90 -/
def nextBackE (t : Target) (cl : T → StM S T) (mat : Vec (Vec T c) r) : StM (Cur × S) (Option (Vec T c)) := do
  let s ← cursors
  if s.front < s.back then
    let k ← liftRes (usub t s.back 1)
    let row ← liftRes (mat.index k)
    let ret ← StM.outside (row.clone t cl)
    let b ← liftRes (usub t s.back 1)
    setBack b
    pure (some ret)
  else pure none

/-- iter.rs:56-59 -/
def nthE (t : Target) (cl : T → StM S T) (mat : Vec (Vec T c) r) (n : Nat) : StM (Cur × S) (Option (Vec T c)) := do
  let s ← cursors
  let f ← liftRes (uadd t s.front n)
  setFront f
  nextE t cl mat

/-- src/matrix/iter.rs:19-91; `last` is `next_back` (iter.rs:51-53). -/
def cloning (t : Target) (cl : T → StM S T) (mat : Vec (Vec T c) r) : CloneMachine S (Vec T c) :=
  ⟨nextE t cl mat, nextBackE t cl mat, nthE t cl mat, nextBackE t cl mat⟩

end RowsIter

namespace ColsIter

/-- `self.0.iter().map(|row| unsafe { row.as_slice().get_unchecked(s).clone() }).collect()` (iter.rs:124, 179). -/
def columnE (t : Target) (cl : T → StM S T) (mat : Vec (Vec T c) r) (s : Nat) : StM S (Vec T r) :=
  Vec.collect t r (mat.toList.map fun row => do
    let x ← liftRes (match row.toList[s]? with
      | some x => .ok x
      | none => .error .ub)
    cl x)

/-- iter.rs:118-129: the cursor moves before the column is cloned. -/
def nextE (t : Target) (cl : T → StM S T) (mat : Vec (Vec T c) r) : StM (Cur × S) (Option (Vec T r)) := do
  let s ← cursors
  liftRes (debugAssert t (s.back ≤ c))
  if s.front < s.back then
    let f ← liftRes (uadd t s.front 1)
    setFront f
    let v ← StM.outside (columnE t cl mat s.front)
    pure (some v)
  else pure none

/-- iter.rs:174-183 -/
def nextBackE (t : Target) (cl : T → StM S T) (mat : Vec (Vec T c) r) : StM (Cur × S) (Option (Vec T r)) := do
  let s ← cursors
  if s.front < s.back then
    let b ← liftRes (usub t s.back 1)
    setBack b
    let k ← liftRes (usub t s.back 1)
    let v ← StM.outside (columnE t cl mat k)
    pure (some v)
  else pure none

/-- iter.rs:148-151 -/
def nthE (t : Target) (cl : T → StM S T) (mat : Vec (Vec T c) r) (n : Nat) : StM (Cur × S) (Option (Vec T r)) := do
  let s ← cursors
  let f ← liftRes (uadd t s.front n)
  setFront f
  nextE t cl mat

/-- src/matrix/iter.rs:109-184; `last` is `next_back` (iter.rs:143-145). -/
def cloning (t : Target) (cl : T → StM S T) (mat : Vec (Vec T c) r) : CloneMachine S (Vec T r) :=
  ⟨nextE t cl mat, nextBackE t cl mat, nthE t cl mat, nextBackE t cl mat⟩

/-- `ColsIter` as the source of `collect()`: `count` clones nothing (iter.rs:138-140).  [As used at src/matrix/mod.rs:200.] -/
def source (t : Target) (cl : T → StM S T) (mat : Vec (Vec T c) r) : Iter (StM S) (Vec T r) Cur where
  next := fun s => ExceptT.mk fun x =>
    match (nextE t cl mat).run (s, x) with
    | (.ok o, (s', x')) => (.ok (o, s'), x')
    | (.error f, (_, x')) => (.error f, x')
  count := fun s => liftRes (count t mat s)

end ColsIter

namespace Mat

/-- `Matrix::transposed` (src/matrix/mod.rs:197-201): `Matrix(self.cols_iter().collect())`. -/
def transposedE (t : Target) (cl : T → StM S T) (a : Mat T r c) : StM S (Mat T c r) := do
  let v ← Vec.fromIter t c (ColsIter.source t cl a.rows) (ColsIter.new a.rows)
  pure ⟨v⟩

/-- `Matrix::transpose` (src/matrix/mod.rs:224-226): `*self = self.transposed()`; the outcome, `self` afterwards and the state. -/
def transposeE (t : Target) (cl : T → StM S T) (a : Mat T r r) (s : S) : (Res Unit × Mat T r r) × S :=
  match (a.transposedE t cl).run s with
  | (.ok b, s') => ((.ok (), b), s')
  | (.error f, s') => ((.error f, a), s')

end Mat
end Rowcol
