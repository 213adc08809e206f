import Verif.Model.Mat

/-
Memory-level model of the owning iterator `IntoIter`, of `from_iter` and of `Chunks`
(`/repo/src/vector.rs` lines 691-886): explicit array slots, destructor calls, invalid accesses and
unwinding.
-/

namespace Rowcol

/-- One slot of a `NoDrop<[T; N]>` or `mem::uninitialized::<[T; N]>()` array.  `gone x`: the value was moved
out by `ptr::read` or dropped in place; its bits are still there.  [src/vector.rs:699, 745.] -/
inductive Slot (T : Type) where
  | uninit
  | live (x : T)
  | gone (x : T)
  deriving DecidableEq

/-- Invalid memory operations: outside the array, second read of a moved-out value, second drop, or use of
uninitialised memory.  [The unsafe operations concerned: src/vector.rs:699-712, 751-755, 766-771, 790, 803-808.] -/
inductive Viol where
  | oob (i : Nat)
  | readGone (i : Nat)
  | dropGone (i : Nat)
  | readUninit (i : Nat)
  | dropUninit (i : Nat)
  deriving DecidableEq, Repr

/-- The array together with the log of destructor calls and of invalid operations.  [src/vector.rs:744-748 (the array part).] -/
structure Mem (T : Type) where
  slots : List (Slot T)
  drops : List T
  viols : List Viol
  deriving DecidableEq

namespace Mem
variable {T : Type}

/-- `ptr::read(arr.get_unchecked(i))` (vector.rs:769, 805).  Reading a moved-out slot is recorded as a
violation but still produces the stale bits (for `Copy` types that is all that happens). -/
def read (i : Nat) : StM (Mem T) T := do
  let s ← get
  match s.slots[i]? with
  | none => do
    set { s with viols := s.viols ++ [Viol.oob i] }
    fault .ub
  | some .uninit => do
    set { s with viols := s.viols ++ [Viol.readUninit i] }
    fault .ub
  | some (.live x) => do
    set { s with slots := s.slots.set i (.gone x) }
    pure x
  | some (.gone x) => do
    set { s with viols := s.viols ++ [Viol.readGone i] }
    pure x

/-- `ptr::drop_in_place(arr.get_unchecked_mut(i))` (vector.rs:707, 753, 789).  `boom x` says that the
destructor of `x` panics. -/
def dropInPlace (boom : T → Bool) (i : Nat) : StM (Mem T) Unit := do
  let s ← get
  match s.slots[i]? with
  | none => do
    set { s with viols := s.viols ++ [Viol.oob i] }
    fault .ub
  | some .uninit => do
    set { s with viols := s.viols ++ [Viol.dropUninit i] }
    fault .ub
  | some (.live x) => do
    set { s with slots := s.slots.set i (.gone x), drops := s.drops ++ [x] }
    if boom x then fault .panic else pure ()
  | some (.gone x) => do
    set { s with drops := s.drops ++ [x], viols := s.viols ++ [Viol.dropGone i] }
    if boom x then fault .panic else pure ()

/-- `ptr::write(arr.get_unchecked_mut(i), item)` (vector.rs:715): the old content is not dropped. -/
def write (i : Nat) (x : T) : StM (Mem T) Unit := do
  let s ← get
  if i < s.slots.length then set { s with slots := s.slots.set i (.live x) }
  else do
    set { s with viols := s.viols ++ [Viol.oob i] }
    fault .ub

/-- `for i in lo..lo+k { drop_in_place(i) }`  [src/vector.rs:752-754.] -/
def dropRange (boom : T → Bool) : (lo k : Nat) → StM (Mem T) Unit
  | _, 0 => pure ()
  | lo, k + 1 => do
    dropInPlace boom lo
    dropRange boom (lo + 1) k

end Mem

/-- State of `IntoIter<T, N>` (vector.rs:744-748). -/
structure OwnIt (T : Type) where
  mem : Mem T
  next : Nat
  back : Nat
  deriving DecidableEq

namespace OwnIt
variable {T : Type}

/-- Run a memory operation on the iterator's array.  [Bookkeeping of the model; `self.arr` of src/vector.rs:745.] -/
def onMem {α : Type} (x : StM (Mem T) α) : StM (OwnIt T) α :=
  ExceptT.mk fun s =>
    match x.run s.mem with
    | (r, mem) => (r, { s with mem := mem })

/-- `Vector::into_iter` (vector.rs:735-741). -/
def intoIter {n : Nat} (v : Vec T n) : OwnIt T :=
  { mem := { slots := v.toList.map .live, drops := [], viols := [] }, next := 0, back := n }

/-- `Iterator::next` (vector.rs:761-774). -/
def nextOp (t : Target) : StM (OwnIt T) (Option T) := do
  let s ← get
  liftRes (debugAssert t (s.back ≤ s.mem.slots.length))
  if s.next < s.back then do
    let i := s.next
    let nx ← liftRes (uadd t s.next 1)
    set { s with next := nx }
    let x ← onMem (Mem.read i)
    pure (some x)
  else pure none

/-- `Iterator::nth` (vector.rs:787-794); `a..b` is empty when `b < a`. -/
def nthOp (t : Target) (boom : T → Bool) (k : Nat) : StM (OwnIt T) (Option T) := do
  let s ← get
  let e ← liftRes (uadd t s.next k)
  onMem (Mem.dropRange boom s.next (e - s.next))
  let s ← get
  let nx ← liftRes (uadd t s.next k)
  set { s with next := nx }
  nextOp t

/-- `DoubleEndedIterator::next_back` (vector.rs:798-810). -/
def nextBackOp (t : Target) : StM (OwnIt T) (Option T) := do
  let s ← get
  liftRes (debugAssert t (s.back ≤ s.mem.slots.length))
  if s.back > 0 then do
    let b ← liftRes (usub t s.back 1)
    set { s with back := b }
    let x ← onMem (Mem.read b)
    pure (some x)
  else pure none

/-- `ExactSizeIterator::len` (vector.rs:822-824). -/
def lenOp (t : Target) : StM (OwnIt T) Nat := do
  let s ← get
  liftRes (usub t s.back s.next)

/-- `size_hint` (vector.rs:777-780). -/
def sizeHintOp (t : Target) : StM (OwnIt T) (Nat × Option Nat) := do
  let k ← lenOp t
  pure (k, some k)

/-- `count` (vector.rs:783-785). -/
def countOp (t : Target) : StM (OwnIt T) Nat := lenOp t

/-- `Drop::drop` (vector.rs:751-755): drops `next..back`.  If a destructor panics the loop stops and the
rest is leaked (`NoDrop`). -/
def dropOp (boom : T → Bool) : StM (OwnIt T) Unit := do
  let s ← get
  onMem (Mem.dropRange boom s.next (s.back - s.next))

end OwnIt

/-- The calls a client can make on an owning iterator.  [src/vector.rs:758-826.] -/
inductive OwnCall where
  | next
  | nextBack
  | nth (k : Nat)
  | len
  deriving DecidableEq, Repr

/-- What a call produced.  [Results of the calls of src/vector.rs:758-826.] -/
inductive Out (α : Type) where
  | item (o : Option α)
  | size (k : Nat)
  | fault (e : Fault)
  deriving DecidableEq

namespace OwnIt
variable {T : Type}

/-- Perform one call.  [Dispatch to the methods of src/vector.rs:758-826.] -/
def call (t : Target) (boom : T → Bool) : OwnCall → StM (OwnIt T) (Out T)
  | .next => Out.item <$> nextOp t
  | .nextBack => Out.item <$> nextBackOp t
  | .nth k => Out.item <$> nthOp t boom k
  | .len => Out.size <$> lenOp t

/-- A client's whole use of an owning iterator: a sequence of calls (panics are caught and the client
goes on with the iterator; after an invalid access that is undefined behaviour nothing more is
modelled).  Returns the outcomes and the final state.  [Histories over src/vector.rs:758-826.] -/
def run (t : Target) (boom : T → Bool) : List OwnCall → OwnIt T → List (Out T) × OwnIt T
  | [], s => ([], s)
  | c :: cs, s =>
    match (call t boom c).run s with
    | (.ok o, s') => (o :: (run t boom cs s').1, (run t boom cs s').2)
    | (.error .panic, s') => (.fault .panic :: (run t boom cs s').1, (run t boom cs s').2)
    | (.error .ub, s') => ([.fault .ub], s')

/-- The calls, then the iterator is dropped.  [src/vector.rs:758-826, then `drop` 750-756.] -/
def runDrop (t : Target) (boom : T → Bool) (cs : List OwnCall) (s : OwnIt T) : List (Out T) × OwnIt T :=
  ((run t boom cs s).1, ((dropOp boom).run (run t boom cs s).2).2)

end OwnIt

/-! ### `from_iter` -/

/-- One `next()` of the source iterator of `from_iter`: an item, or a panic of the user's code.  [The argument of src/vector.rs:692-694.] -/
inductive SrcStep (T : Type) where
  | item (x : T)
  | panic
  deriving DecidableEq

namespace Mem
variable {T : Type}

/-- Drop glue of a local `[T; N]` run by unwinding: every slot in order.  (A second panic would abort the
process; the remaining drops are then not performed.)  [The local array of src/vector.rs:699 when 701-717 unwinds.] -/
def unwindArray (boom : T → Bool) (n : Nat) : StM (Mem T) Unit := dropRange boom 0 n

/-- The `None` branch of `from_iter` (vector.rs:704-713): `arr.into_inner()` makes `arr` a plain `[T; N]`
local, the `i` received elements are dropped in place, the array is forgotten, and it panics.  If a
destructor panics before `mem::forget`, unwinding drops the whole local array. -/
def shortExit (boom : T → Bool) (n i : Nat) : StM (Mem T) (List (Slot T)) :=
  ExceptT.mk fun s =>
    match (dropRange boom 0 i).run s with
    | (.ok (), s') => (.error .panic, s')
    | (.error .panic, s') => (.error .panic, ((unwindArray boom n).run s').2)
    | (.error .ub, s') => (.error .ub, s')

/-- `it.count()` of the source (std's provided method): runs it to its end, dropping every item it still yields.  [Called at src/vector.rs:719.] -/
def countSrc (boom : T → Bool) : List (SrcStep T) → StM (Mem T) Nat
  | [] => pure 0
  | .panic :: _ => fault .panic
  | .item x :: src => do
    let s ← get
    set { s with drops := s.drops ++ [x] }
    if boom x then fault .panic
    else do
      let c ← countSrc boom src
      pure (c + 1)

/-- The loop of `from_iter` (vector.rs:701-723), at index `i` with `k` items still to fetch.  A panic of the
source unwinds past a `NoDrop` array: nothing is dropped.  At the end `debug_assert_eq!(it.count(), 0)`
(lines 719-721) runs the source to its end; on success the array is moved out.  (Without debug assertions surplus
items stay in the source.) -/
def fillMem (t : Target) (boom : T → Bool) (n : Nat) : (i k : Nat) → List (SrcStep T) →
    StM (Mem T) (List (Slot T))
  | _, 0, src => do
    if t.debugAssertions then do
      let c ← countSrc boom src
      if c ≠ 0 then fault .panic
      else do
        let s ← get
        pure s.slots
    else do
      let s ← get
      pure s.slots
  | i, _ + 1, [] => shortExit boom n i
  | _, _ + 1, .panic :: _ => fault .panic
  | i, k + 1, .item x :: src => do
    write i x
    fillMem t boom n (i + 1) k src

/-- `from_iter` (vector.rs:692-727) on a fresh uninitialised array.  Returns how it ended (on success the
contents of the new vector's array) and the memory log. -/
def fromIterMem (t : Target) (boom : T → Bool) (n : Nat) (src : List (SrcStep T)) :
    Res (List (Slot T)) × Mem T :=
  (fillMem t boom n 0 n src).run { slots := List.replicate n .uninit, drops := [], viols := [] }

end Mem

/-! ### Consuming operations: `self.into_iter().zip(other).map(f).collect()` -/

namespace OwnIt
variable {T U V : Type}

/-- Work on the first / second of two owning iterators.  [Bookkeeping of the model for src/vector.rs:324.] -/
def onFst {α : Type} (x : StM (OwnIt T) α) : StM (OwnIt T × OwnIt U) α :=
  ExceptT.mk fun s => match x.run s.1 with | (r, a) => (r, (a, s.2))

/-- Bookkeeping of the model for src/vector.rs:324. -/
def onSnd {α : Type} (x : StM (OwnIt U) α) : StM (OwnIt T × OwnIt U) α :=
  ExceptT.mk fun s => match x.run s.2 with | (r, b) => (r, (s.1, b))

/-- `Zip::next` of std: `a.next()`, then `b.next()` if that gave an item; then the mapped closure takes
ownership of both items and may panic.  [The source built at src/vector.rs:324.] -/
def zipNext (t : Target) (f : T → U → Res V) : StM (OwnIt T × OwnIt U) (Option V) := do
  match ← onFst (nextOp t) with
  | none => pure none
  | some x =>
    match ← onSnd (nextOp t) with
    | none => pure none
    | some y => do
      let z ← liftRes (f x y)
      pure (some z)

/-- The filling loop of `from_iter` fed by `zip(..).map(f)`; results already stored are in a `NoDrop` array
(leaked on unwinding).  [src/vector.rs:701-717 fed by 324.] -/
def zipFill (t : Target) (f : T → U → Res V) : Nat → StM (OwnIt T × OwnIt U) (List V)
  | 0 => pure []
  | k + 1 => do
    match ← zipNext t f with
    | none => fault .panic
    | some z => do
      let zs ← zipFill t f k
      pure (z :: zs)

/-- A whole by-value binary operation `a op b` on vectors of length `n` (vector.rs:323-325): the loop, then -
whether it returned or panicked - both owning iterators are dropped (destructors assumed not to panic).
(The trailing `debug_assert_eq!(it.count(), 0)` asks the exhausted iterators once more and is omitted.) -/
def zipOp {n : Nat} (t : Target) (f : T → U → Res V) (a : Vec T n) (b : Vec U n) :
    Res (List V) × (OwnIt T × OwnIt U) :=
  match (zipFill t f n).run (intoIter a, intoIter b) with
  | (r, (sa, sb)) => (r, (((dropOp fun _ => false).run sa).2, ((dropOp fun _ => false).run sb).2))

/-- The filling loop of `from_iter` fed by `self.into_iter().map(f)` (vector.rs:417, 444, 470). -/
def mapFill (t : Target) (f : T → Res V) : Nat → StM (OwnIt T) (List V)
  | 0 => pure []
  | k + 1 => do
    match ← nextOp t with
    | none => fault .panic
    | some x => do
      let z ← liftRes (f x)
      let zs ← mapFill t f k
      pure (z :: zs)

/-- A whole by-value unary operation (`v * s`, `v / s`, `-v`): loop, then drop of the iterator.  [src/vector.rs:416-418, 443-445, 469-471.] -/
def mapOp {n : Nat} (t : Target) (f : T → Res V) (a : Vec T n) : Res (List V) × OwnIt T :=
  match (mapFill t f n).run (intoIter a) with
  | (r, s) => (r, ((dropOp fun _ => false).run s).2)

/-! ### Chunks -/

/-- `(&mut self.it).take(k)` over a given `next`: at most `k` calls (std's `Take`); `count` is the provided
method.  [src/vector.rs:853.] -/
def takeIter (nx : StM (OwnIt T) (Option T)) : Iter (StM (OwnIt T)) T Nat where
  next
    | 0 => pure (none, 0)
    | k + 1 => do
      let o ← nx
      pure (o, k)
  count k := do
    let rec go : Nat → StM (OwnIt T) Nat
      | 0 => pure 0
      | k + 1 => do
        match ← nx with
        | none => pure 0
        | some _ => do
          let c ← go k
          pure (c + 1)
    go k

/-- `Chunks::next` (vector.rs:849-855). -/
def chunkNext (t : Target) (I : Nat) : StM (OwnIt T) (Option (Vec T I)) := do
  let l ← lenOp t
  if l = 0 then pure none
  else do
    let v ← Vec.fromIter t I (takeIter (nextOp t)) I
    pure (some v)

/-- `it.rev()` of an owning iterator: `next` is `next_back`; `count` is std's provided method (here at most `fuel`
calls, one more than there are elements).  [src/vector.rs:874-875.] -/
def revIter (t : Target) (fuel : Nat) : Iter (StM (OwnIt T)) T Unit where
  next _ := do
    let o ← nextBackOp t
    pure (o, ())
  count _ := do
    let rec go : Nat → StM (OwnIt T) Nat
      | 0 => pure 0
      | k + 1 => do
        match ← nextBackOp t with
        | none => pure 0
        | some _ => do
          let c ← go k
          pure (c + 1)
    go fuel

/-- `v.into_iter().rev().collect()` (vector.rs:874-875), with the final state of the consumed iterator. -/
def revCollect {I : Nat} (t : Target) (v : Vec T I) : Res (Vec T I) × OwnIt T :=
  (Vec.fromIter t I (revIter t (I + 1)) ()).run (intoIter v)

/-- `Chunks::next_back` (vector.rs:870-877): collects `I` elements from the back, then collects that vector
reversed. -/
def chunkNextBack (t : Target) (I : Nat) : StM (OwnIt T) (Option (Vec T I)) := do
  let l ← lenOp t
  if l = 0 then pure none
  else do
    let v ← Vec.fromIter t I (takeIter (nextBackOp t)) I
    let w ← liftRes (revCollect t v).1
    pure (some w)

/-- `Chunks::size_hint` (vector.rs:858-861), also the provided `ExactSizeIterator::len`. -/
def chunkLen (t : Target) (I : Nat) : StM (OwnIt T) Nat := do
  let l ← lenOp t
  if I = 0 then fault .panic else pure (l / I)

end OwnIt

/-- The calls a client can make on `Chunks`.  [src/vector.rs:841-886.] -/
inductive ChunkCall where
  | next
  | nextBack
  | len
  deriving DecidableEq, Repr

namespace OwnIt
variable {T : Type}

/-- Perform one call on a chunk iterator.  [src/vector.rs:841-886.] -/
def chunkCall (t : Target) (I : Nat) : ChunkCall → StM (OwnIt T) (Out (Vec T I))
  | .next => Out.item <$> chunkNext t I
  | .nextBack => Out.item <$> chunkNextBack t I
  | .len => Out.size <$> chunkLen t I

/-- A client's use of `v.into_chunks::<I>()` (vector.rs:89-95), panics caught as in `run`. -/
def chunkRun (t : Target) (I : Nat) : List ChunkCall → OwnIt T → List (Out (Vec T I)) × OwnIt T
  | [], s => ([], s)
  | c :: cs, s =>
    match (chunkCall t I c).run s with
    | (.ok o, s') => (o :: (chunkRun t I cs s').1, (chunkRun t I cs s').2)
    | (.error .panic, s') => (.fault .panic :: (chunkRun t I cs s').1, (chunkRun t I cs s').2)
    | (.error .ub, s') => ([.fault .ub], s')

/-- `Chunks` as the source of `collect`: its `count` is std's provided method, `next()` until `None` (here at
most once per remaining element).  [As used at src/matrix/mod.rs:247.] -/
def chunkIter (t : Target) (I fuel : Nat) : Iter (StM (OwnIt T)) (Vec T I) Unit where
  next _ := do
    let o ← chunkNext t I
    pure (o, ())
  count _ := do
    let rec go : Nat → StM (OwnIt T) Nat
      | 0 => pure 0
      | k + 1 => do
        match ← chunkNext t I with
        | none => pure 0
        | some _ => do
          let c ← go k
          pure (c + 1)
    go fuel

end OwnIt

/-- `From<Vector<T, Prod<Row, Col>>> for Matrix<T, Row, Col>` (src/matrix/mod.rs:246-248):
`Matrix(v.into_chunks::<Col>().collect())`. -/
def Mat.fromVector {T : Type} {r c : Nat} (t : Target) (v : Vec T (r * c)) : Res (Mat T r c) × OwnIt T :=
  ((do
    let rows ← Vec.fromIter t r (OwnIt.chunkIter t c (r * c + 1)) ()
    pure ⟨rows⟩ : StM (OwnIt T) (Mat T r c)).run (OwnIt.intoIter v))

end Rowcol
