import Verif.Model.Vec

/-
Model of `/repo/src/matrix/iter.rs`: the five borrowing iterators.  Each method is a function from the
iterator's cursors to a result and the new cursors.  When a method faults, the cursors are left as they
were (in the source every possible panic happens before a cursor is written: the overflow check of
`+=` precedes the store).  Borrowed items are modelled by the values they point to; `clone` is the identity.
-/

namespace Rowcol

/-- The iterator interface the crate implements: `Iterator`, `DoubleEndedIterator`, `ExactSizeIterator`.  [The trait impls of src/matrix/iter.rs:19-96 (RowsIter), 109-187, 210-286, 308-382, 407-477.] -/
structure Machine (α σ : Type) where
  next : σ → Res (Option α × σ)
  nextBack : σ → Res (Option α × σ)
  nth : Nat → σ → Res (Option α × σ)
  len : σ → Res Nat
  sizeHint : σ → Res (Nat × Option Nat)
  count : σ → Res Nat
  last : σ → Res (Option α)

/-- The part of a machine that `collect` uses.  [As used by `collect()` at src/matrix/mod.rs:200.] -/
def Machine.toIter {α σ : Type} (M : Machine α σ) : Iter Res α σ := ⟨M.next, M.count⟩

/-- The two cursors of `RowsIter`/`ColsIter` (fields `.1`, `.2`, iter.rs:4, 94), `RowsIterRef`
(iter.rs:192-193) and `ColsIterRef` (iter.rs:290-291). -/
structure Cur where
  front : Nat
  back : Nat
  deriving DecidableEq, Repr

variable {T : Type} {r c : Nat}

/-! ### RowsIter -/
namespace RowsIter

/-- iter.rs:14-16 -/
def new (_ : Vec (Vec T c) r) : Cur := ⟨0, r⟩

/-- iter.rs:28-37; `self.0.as_ref()[s]` is checked slice indexing. -/
def next (t : Target) (mat : Vec (Vec T c) r) (s : Cur) : Res (Option (Vec T c) × Cur) := do
  if s.front < s.back then
    let ret ← mat.index s.front
    let f ← uadd t s.front 1
    pure (some ret, { s with front := f })
  else pure (none, s)

/-- iter.rs:81-90 -/
def nextBack (t : Target) (mat : Vec (Vec T c) r) (s : Cur) : Res (Option (Vec T c) × Cur) := do
  if s.front < s.back then
    let k ← usub t s.back 1
    let ret ← mat.index k
    let b ← usub t s.back 1
    pure (some ret, { s with back := b })
  else pure (none, s)

/-- iter.rs:40-43 -/
def sizeHint (t : Target) (_ : Vec (Vec T c) r) (s : Cur) : Res (Nat × Option Nat) := do
  let k ← usub t r s.front
  pure (k, some k)

/-- iter.rs:46-48 -/
def count (t : Target) (_ : Vec (Vec T c) r) (s : Cur) : Res Nat := usub t r s.front

/-- iter.rs:51-53 -/
def last (t : Target) (mat : Vec (Vec T c) r) (s : Cur) : Res (Option (Vec T c)) := do
  let p ← nextBack t mat s
  pure p.1

/-- iter.rs:56-59 -/
def nth (t : Target) (mat : Vec (Vec T c) r) (n : Nat) (s : Cur) : Res (Option (Vec T c) × Cur) := do
  let f ← uadd t s.front n
  next t mat { s with front := f }

/-- iter.rs:70-72 -/
def len (t : Target) (_ : Vec (Vec T c) r) (s : Cur) : Res Nat := usub t r s.front

/-- src/matrix/iter.rs:6-96 (RowsIter): the methods above as one interface. -/
def machine (t : Target) (mat : Vec (Vec T c) r) : Machine (Vec T c) Cur :=
  ⟨next t mat, nextBack t mat, nth t mat, len t mat, sizeHint t mat, count t mat, last t mat⟩

end RowsIter

/-! ### ColsIter -/
namespace ColsIter

/-- iter.rs:104-106 -/
def new (_ : Vec (Vec T c) r) : Cur := ⟨0, c⟩

/-- `self.0.iter().map(|row| unsafe { row.as_slice().get_unchecked(s).clone() }).collect()`
(iter.rs:124, 179): the slice's `get_unchecked` has no debug assertion. -/
def column (t : Target) (mat : Vec (Vec T c) r) (s : Nat) : Res (Vec T r) :=
  Vec.collect t r (mat.toList.map fun row =>
    match row.toList[s]? with
    | some x => .ok x
    | none => .error .ub)

/-- iter.rs:118-129 -/
def next (t : Target) (mat : Vec (Vec T c) r) (s : Cur) : Res (Option (Vec T r) × Cur) := do
  debugAssert t (s.back ≤ c)
  if s.front < s.back then
    let f ← uadd t s.front 1
    let v ← column t mat s.front
    pure (some v, { s with front := f })
  else pure (none, s)

/-- iter.rs:174-183 -/
def nextBack (t : Target) (mat : Vec (Vec T c) r) (s : Cur) : Res (Option (Vec T r) × Cur) := do
  if s.front < s.back then
    let b ← usub t s.back 1
    let k ← usub t s.back 1
    let v ← column t mat k
    pure (some v, { s with back := b })
  else pure (none, s)

/-- iter.rs:132-135 -/
def sizeHint (t : Target) (_ : Vec (Vec T c) r) (s : Cur) : Res (Nat × Option Nat) := do
  let k ← usub t c s.front
  pure (k, some k)

/-- iter.rs:138-140 -/
def count (t : Target) (_ : Vec (Vec T c) r) (s : Cur) : Res Nat := usub t c s.front

/-- iter.rs:143-145 -/
def last (t : Target) (mat : Vec (Vec T c) r) (s : Cur) : Res (Option (Vec T r)) := do
  let p ← nextBack t mat s
  pure p.1

/-- iter.rs:148-151 -/
def nth (t : Target) (mat : Vec (Vec T c) r) (n : Nat) (s : Cur) : Res (Option (Vec T r) × Cur) := do
  let f ← uadd t s.front n
  next t mat { s with front := f }

/-- iter.rs:162-164 -/
def len (t : Target) (_ : Vec (Vec T c) r) (s : Cur) : Res Nat := usub t c s.front

/-- src/matrix/iter.rs:98-187 (ColsIter): the methods above as one interface. -/
def machine (t : Target) (mat : Vec (Vec T c) r) : Machine (Vec T r) Cur :=
  ⟨next t mat, nextBack t mat, nth t mat, len t mat, sizeHint t mat, count t mat, last t mat⟩

end ColsIter

/-! ### RowsIterRef -/
namespace RowsIterRef

/-- iter.rs:201-207 -/
def new (_ : Vec (Vec T c) r) : Cur := ⟨0, r⟩

/-- iter.rs:217-230; `self.mat.get_unchecked(i)` is `Vector::get_unchecked`. -/
def next (t : Target) (mat : Vec (Vec T c) r) (s : Cur) : Res (Option (Vec T c) × Cur) := do
  debugAssert t (s.back ≤ r)
  if s.front < s.back then
    let f ← uadd t s.front 1
    let row ← mat.getUnchecked t s.front
    pure (some row, { s with front := f })
  else pure (none, s)

/-- iter.rs:271-281 -/
def nextBack (t : Target) (mat : Vec (Vec T c) r) (s : Cur) : Res (Option (Vec T c) × Cur) := do
  debugAssert t (s.back ≤ r)
  if s.front < s.back then
    let b ← usub t s.back 1
    let row ← mat.getUnchecked t b
    pure (some row, { s with back := b })
  else pure (none, s)

/-- iter.rs:261-263 -/
def len (t : Target) (_ : Vec (Vec T c) r) (s : Cur) : Res Nat := usub t s.back s.front

/-- iter.rs:233-236 -/
def sizeHint (t : Target) (mat : Vec (Vec T c) r) (s : Cur) : Res (Nat × Option Nat) := do
  let k ← len t mat s
  pure (k, some k)

/-- iter.rs:239-241 -/
def count (t : Target) (mat : Vec (Vec T c) r) (s : Cur) : Res Nat := len t mat s

/-- iter.rs:244-246 -/
def last (t : Target) (mat : Vec (Vec T c) r) (s : Cur) : Res (Option (Vec T c)) := do
  let p ← nextBack t mat s
  pure p.1

/-- iter.rs:249-252 -/
def nth (t : Target) (mat : Vec (Vec T c) r) (n : Nat) (s : Cur) : Res (Option (Vec T c) × Cur) := do
  let f ← uadd t s.front n
  next t mat { s with front := f }

/-- src/matrix/iter.rs:189-286 (RowsIterRef): the methods above as one interface. -/
def machine (t : Target) (mat : Vec (Vec T c) r) : Machine (Vec T c) Cur :=
  ⟨next t mat, nextBack t mat, nth t mat, len t mat, sizeHint t mat, count t mat, last t mat⟩

end RowsIterRef

/-! ### ColsIterRefInner -/

/-- State of `ColsIterRefInner` (iter.rs:380-389) without the matrix reference. -/
structure InnerCur where
  col : Nat
  front : Nat
  back : Nat
  deriving DecidableEq, Repr

namespace ColsIterRefInner

/-- iter.rs:396-404 -/
def new (t : Target) (_ : Vec (Vec T c) r) (col : Nat) : Res InnerCur := do
  debugAssert t (col < c)
  pure ⟨col, 0, r⟩

/-- iter.rs:415-425 -/
def next (t : Target) (mat : Vec (Vec T c) r) (s : InnerCur) : Res (Option T × InnerCur) := do
  if s.front < s.back then
    let f ← uadd t s.front 1
    let row ← mat.getUnchecked t s.front
    let x ← row.getUnchecked t s.col
    pure (some x, { s with front := f })
  else pure (none, s)

/-- iter.rs:467-476 -/
def nextBack (t : Target) (mat : Vec (Vec T c) r) (s : InnerCur) : Res (Option T × InnerCur) := do
  if s.front < s.back then
    let b ← usub t s.back 1
    let row ← mat.getUnchecked t b
    let x ← row.getUnchecked t s.col
    pure (some x, { s with back := b })
  else pure (none, s)

/-- iter.rs:456-458 -/
def len (t : Target) (_ : Vec (Vec T c) r) (s : InnerCur) : Res Nat := usub t s.back s.front

/-- iter.rs:428-431 -/
def sizeHint (t : Target) (mat : Vec (Vec T c) r) (s : InnerCur) : Res (Nat × Option Nat) := do
  let k ← len t mat s
  pure (k, some k)

/-- iter.rs:434-436 -/
def count (t : Target) (mat : Vec (Vec T c) r) (s : InnerCur) : Res Nat := len t mat s

/-- iter.rs:439-441 -/
def last (t : Target) (mat : Vec (Vec T c) r) (s : InnerCur) : Res (Option T) := do
  let p ← nextBack t mat s
  pure p.1

/-- iter.rs:444-447 -/
def nth (t : Target) (mat : Vec (Vec T c) r) (n : Nat) (s : InnerCur) : Res (Option T × InnerCur) := do
  let f ← uadd t s.front n
  next t mat { s with front := f }

/-- src/matrix/iter.rs:384-477 (ColsIterRefInner): the methods above as one interface. -/
def machine (t : Target) (mat : Vec (Vec T c) r) : Machine T InnerCur :=
  ⟨next t mat, nextBack t mat, nth t mat, len t mat, sizeHint t mat, count t mat, last t mat⟩

end ColsIterRefInner

/-! ### ColsIterRef -/
namespace ColsIterRef

/-- iter.rs:299-305 -/
def new (_ : Vec (Vec T c) r) : Cur := ⟨0, c⟩

/-- iter.rs:315-326; the item is a fresh `ColsIterRefInner`. -/
def next (t : Target) (mat : Vec (Vec T c) r) (s : Cur) : Res (Option InnerCur × Cur) := do
  debugAssert t (s.back ≤ c)
  if s.front < s.back then
    let f ← uadd t s.front 1
    let it ← ColsIterRefInner.new t mat s.front
    pure (some it, { s with front := f })
  else pure (none, s)

/-- iter.rs:367-376 -/
def nextBack (t : Target) (mat : Vec (Vec T c) r) (s : Cur) : Res (Option InnerCur × Cur) := do
  debugAssert t (s.back ≤ c)
  if s.front < s.back then
    let b ← usub t s.back 1
    let it ← ColsIterRefInner.new t mat b
    pure (some it, { s with back := b })
  else pure (none, s)

/-- iter.rs:357-359 -/
def len (t : Target) (_ : Vec (Vec T c) r) (s : Cur) : Res Nat := usub t s.back s.front

/-- iter.rs:329-332 -/
def sizeHint (t : Target) (mat : Vec (Vec T c) r) (s : Cur) : Res (Nat × Option Nat) := do
  let k ← len t mat s
  pure (k, some k)

/-- iter.rs:335-337 -/
def count (t : Target) (mat : Vec (Vec T c) r) (s : Cur) : Res Nat := len t mat s

/-- iter.rs:340-342 -/
def last (t : Target) (mat : Vec (Vec T c) r) (s : Cur) : Res (Option InnerCur) := do
  let p ← nextBack t mat s
  pure p.1

/-- iter.rs:345-348 -/
def nth (t : Target) (mat : Vec (Vec T c) r) (n : Nat) (s : Cur) : Res (Option InnerCur × Cur) := do
  let f ← uadd t s.front n
  next t mat { s with front := f }

/-- src/matrix/iter.rs:288-382 (ColsIterRef): the methods above as one interface. -/
def machine (t : Target) (mat : Vec (Vec T c) r) : Machine InnerCur Cur :=
  ⟨next t mat, nextBack t mat, nth t mat, len t mat, sizeHint t mat, count t mat, last t mat⟩

end ColsIterRef

end Rowcol
