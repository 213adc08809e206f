import Verif.Model.Rust

/-
Model of `/repo/src/vector.rs` (value level; the memory level is in `Verif.Model.Mem`).
-/

namespace Rowcol

/-- `Vector<T, N>` (src/vector.rs:33): wraps an array `[T; N]`; here a list of length `n`. -/
@[ext] structure Vec (T : Type) (n : Nat) where
  toList : List T
  length_eq : toList.length = n

namespace Vec

variable {m : Type → Type} [RustM m] {T U V : Type} {n : Nat}

/-- Element `i` of the vector, for stating things about it (`as_slice()[i]`, src/vector.rs:56). -/
def get (v : Vec T n) (i : Fin n) : T := v.toList[i.val]'(by rw [v.length_eq]; exact i.isLt)

/-- `Vector::new([])`, src/vector.rs:39-41. -/
def nil : Vec T 0 := ⟨[], rfl⟩

/-- `Vector::new` (src/vector.rs:39-41) of an array `[T; N]`. -/
def new (xs : List T) (h : xs.length = n) : Vec T n := ⟨xs, h⟩

/-- `Vector::into_inner` (src/vector.rs:50-52) and `Deref`/`DerefMut` (src/vector.rs:159-178): the array. -/
def intoInner (v : Vec T n) : List T := v.toList

/-- `Vector::as_slice`, `iter`, `AsRef` (src/vector.rs:56-58, 68-70, 180-187): the slice of all elements. -/
def asSlice (v : Vec T n) : List T := v.intoInner

/-- `Vector::as_slice_mut`, `iter_mut`, `AsMut` (src/vector.rs:62-64, 74-76, 189-196): what a caller that may overwrite
the elements of the slice, but not change its length, leaves in the vector. -/
def asSliceMut (v : Vec T n) (body : List T → List T) (h : (body v.asSlice).length = v.asSlice.length) : Vec T n :=
  ⟨body v.asSlice, h.trans v.length_eq⟩

/-- Model helper: an array literal, src/vector.rs:39-41. -/
def cons (x : T) (v : Vec T n) : Vec T (n + 1) := ⟨x :: v.toList, by simp [v.length_eq]⟩

/-- `Vector::len` (src/vector.rs:110-112). -/
def len (_ : Vec T n) : Nat := n

/-- `Vector::is_empty` (src/vector.rs:115-117). -/
def isEmpty (_ : Vec T n) : Bool := n == 0

/-! ### FromIterator -/

/-- The filling loop of `from_iter` (src/vector.rs:701-716): request `n` items, panic if the iterator ends
early.  (The drops of the early exit are in the memory model, `Verif.Model.Mem`.) -/
def fill {σ : Type} (it : Iter m T σ) : (n : Nat) → σ → m (Vec T n × σ)
  | 0, s => pure (nil, s)
  | n + 1, s => do
    let (o, s) ← it.next s
    match o with
    | none => fault .panic
    | some x => do
      let (v, s) ← fill it n s
      pure (cons x v, s)

/-- `FromIterator::from_iter` (src/vector.rs:692-727): fill, then
`debug_assert_eq!(it.count(), 0)` (lines 719-721). -/
def fromIter {σ : Type} (t : Target) (n : Nat) (it : Iter m T σ) (s : σ) : m (Vec T n) := do
  let (v, s) ← fill it n s
  if t.debugAssertions then do
    let c ← it.count s
    if c ≠ 0 then fault .panic else pure v
  else pure v

/-- `.collect()` of an iterator made of standard adaptors.  [src/vector.rs:692-727.] -/
def collect (t : Target) (n : Nat) (l : List (m T)) : m (Vec T n) :=
  fromIter t n Iter.ofList l

/-- `Vector::generate` (src/vector.rs:44-46): `(0..N).map(f).collect()`. -/
def generate (t : Target) (n : Nat) (f : Nat → m T) : m (Vec T n) :=
  collect t n ((List.range n).map f)

/-- `Clone` (src/vector.rs:135-137): `self.iter().cloned().collect()`; `cl` is `T::clone`. -/
def clone (t : Target) (cl : T → m T) (v : Vec T n) : m (Vec T n) :=
  collect t n (v.toList.map cl)

/-- `Default` (src/vector.rs:154-156); `d` is `T::default()`. -/
def default (t : Target) (n : Nat) (d : m T) : m (Vec T n) :=
  generate t n (fun _ => d)

/-! ### Indexing -/

/-- `Index<usize>` (src/vector.rs:244-246): slice indexing, panics out of range. -/
def index (v : Vec T n) (i : Nat) : Res T :=
  match v.toList[i]? with
  | some x => .ok x
  | none => .error .panic

/-- `get_unchecked` (src/vector.rs:98-101): debug assertion, then an unchecked access. -/
def getUnchecked (t : Target) (v : Vec T n) (i : Nat) : Res T := do
  debugAssert t (i < v.len)
  match v.toList[i]? with
  | some x => .ok x
  | none => .error .ub

/-- `v[i] = x` through `IndexMut<usize>` (src/vector.rs:251-253); on a panic `v` is unchanged. -/
def indexSet (v : Vec T n) (i : Nat) (x : T) : Res (Vec T n) :=
  if i < v.toList.length then .ok ⟨v.toList.set i x, by simp [v.length_eq]⟩ else .error .panic

/-- `*v.get_unchecked_mut(i) = x` (src/vector.rs:104-107). -/
def setUnchecked (t : Target) (v : Vec T n) (i : Nat) (x : T) : Res (Vec T n) := do
  debugAssert t (i < v.len)
  if i < v.toList.length then .ok ⟨v.toList.set i x, by simp [v.length_eq]⟩ else .error .ub

/-! ### Elementwise arithmetic -/

/-- `Vector + Vector` etc. by value (`impl_vector_arith!(T T: ..)`, src/vector.rs:315-327);
`f` is the element operation. -/
def opVV (t : Target) (f : T → U → m V) (a : Vec T n) (b : Vec U n) : m (Vec V n) :=
  collect t n ((a.toList.zip b.toList).map fun p => f p.1 p.2)

/-- `Vector + &Vector` (src/vector.rs:329-341); `f` is the element operation `T op &U`. -/
def opVR (t : Target) (f : T → U → m V) (a : Vec T n) (b : Vec U n) : m (Vec V n) :=
  collect t n ((a.toList.zip b.toList).map fun p => f p.1 p.2)

/-- `&Vector + Vector` (src/vector.rs:343-355); `f` is the element operation `&T op U`. -/
def opRV (t : Target) (f : T → U → m V) (a : Vec T n) (b : Vec U n) : m (Vec V n) :=
  collect t n ((a.toList.zip b.toList).map fun p => f p.1 p.2)

/-- `&Vector + &Vector` (src/vector.rs:357-369); `f` is the element operation `&T op &U`. -/
def opRR (t : Target) (f : T → U → m V) (a : Vec T n) (b : Vec U n) : m (Vec V n) :=
  collect t n ((a.toList.zip b.toList).map fun p => f p.1 p.2)

/-- `Vector * scalar` (src/vector.rs:416-418): `self.into_iter().map(|e| e * rhs.clone()).collect()`. -/
def mulScalar (t : Target) (f : T → U → m V) (a : Vec T n) (s : U) : m (Vec V n) :=
  collect t n (a.toList.map fun e => f e s)

/-- `Vector / scalar` (src/vector.rs:443-445). -/
def divScalar (t : Target) (f : T → U → m V) (a : Vec T n) (s : U) : m (Vec V n) :=
  collect t n (a.toList.map fun e => f e s)

/-- `-Vector` (src/vector.rs:469-471). -/
def neg (t : Target) (f : T → m V) (a : Vec T n) : m (Vec V n) :=
  collect t n (a.toList.map f)

end Vec

/-! ### In-place loops

A loop over `iter_mut()` whose body may panic: the result is how the loop ended together with the
contents left behind (visible after `catch_unwind`). -/

/-- `for a in xs.iter_mut() { body(a) }`.  [src/vector.rs:428-430, 456-458, 677-679.] -/
def forMut {T : Type} (body : T → Res Unit × T) : List T → Res Unit × List T
  | [] => (.ok (), [])
  | a :: as =>
    match body a with
    | (.ok (), a') => ((forMut body as).1, a' :: (forMut body as).2)
    | (.error e, a') => (.error e, a' :: as)

/-- `for (a, b) in xs.iter_mut().zip(ys) { body(a, b) }`.  [src/vector.rs:388-390, 401-403.] -/
def forMutZip {T U : Type} (body : T → U → Res Unit × T) : List T → List U → Res Unit × List T
  | a :: as, b :: bs =>
    match body a b with
    | (.ok (), a') => ((forMutZip body as bs).1, a' :: (forMutZip body as bs).2)
    | (.error e, a') => (.error e, a' :: as)
  | as, _ => (.ok (), as)

theorem forMut_length {T : Type} (body : T → Res Unit × T) (l : List T) :
    (forMut body l).2.length = l.length := by
  induction l with
  | nil => rfl
  | cons a as ih => simp only [forMut]; split <;> simp [ih]

theorem forMutZip_length {T U : Type} (body : T → U → Res Unit × T) (l : List T) (r : List U) :
    (forMutZip body l r).2.length = l.length := by
  induction l generalizing r with
  | nil => cases r <;> rfl
  | cons a as ih =>
    cases r with
    | nil => rfl
    | cons b bs => simp only [forMutZip]; split <;> simp [ih]

/-- The statement `*a op= b` for an assigning element operation `f` (`T: AddAssign<U>` ...): on a panic
`*a` is taken to be unchanged.  [src/vector.rs:389, 402, 429, 457.] -/
def assign {T U : Type} (f : T → U → Res T) (a : T) (b : U) : Res Unit × T :=
  match f a b with
  | .ok a' => (.ok (), a')
  | .error e => (.error e, a)

namespace Vec
variable {T U V : Type} {n : Nat}

/-- `AddAssign` (src/vector.rs:387-391); `f` is `T: AddAssign<U>`. -/
def addAssign (f : T → U → Res T) (a : Vec T n) (b : Vec U n) : Res Unit × Vec T n :=
  ((forMutZip (assign f) a.toList b.toList).1,
   ⟨(forMutZip (assign f) a.toList b.toList).2, by rw [forMutZip_length, a.length_eq]⟩)

/-- `SubAssign` (src/vector.rs:400-404). -/
def subAssign (f : T → U → Res T) (a : Vec T n) (b : Vec U n) : Res Unit × Vec T n :=
  ((forMutZip (assign f) a.toList b.toList).1,
   ⟨(forMutZip (assign f) a.toList b.toList).2, by rw [forMutZip_length, a.length_eq]⟩)

/-- `MulAssign` (src/vector.rs:427-431). -/
def mulAssign (f : T → U → Res T) (a : Vec T n) (s : U) : Res Unit × Vec T n :=
  ((forMut (fun e => assign f e s) a.toList).1,
   ⟨(forMut (fun e => assign f e s) a.toList).2, by rw [forMut_length, a.length_eq]⟩)

/-- `DivAssign` (src/vector.rs:455-459). -/
def divAssign (f : T → U → Res T) (a : Vec T n) (s : U) : Res Unit × Vec T n :=
  ((forMut (fun e => assign f e s) a.toList).1,
   ⟨(forMut (fun e => assign f e s) a.toList).2, by rw [forMut_length, a.length_eq]⟩)

/-! ### dot, cross, norm, sum -/

end Vec

/-- `.map(|(a, b)| a * b).fold(T::zero(), Add::add)`, as in `dot` (src/vector.rs:510-511) and the matrix
products (src/matrix/arith.rs:187, 207, 227, 247, 262, 290, 309): left to right, each product is
computed just before it is added. -/
def mulFold {T : Type} (O : Ops T) (l : List (T × T)) : Res T :=
  l.foldlM (fun acc p => do
    let q ← O.mul p.1 p.2
    O.add acc q) O.zero

namespace Vec
variable {T U V : Type} {n : Nat}

/-- `Vector::dot` (src/vector.rs:509-512). -/
def dot (O : Ops T) (a b : Vec T n) : Res T :=
  mulFold O (a.toList.zip b.toList)

/-- `Vector::cross` (src/vector.rs:526-538), with the statically checked accesses `self[U0::new()]`
etc. performed by `get_unchecked` (src/vector.rs:267-271, 280-284).  Operands are evaluated left to
right as in the source. -/
def cross (t : Target) (O : Ops T) (a b : Vec T 3) : Res (Vec T 3) := do
  let x1 ← O.mul (← a.getUnchecked t 1) (← b.getUnchecked t 2)
  let x2 ← O.mul (← a.getUnchecked t 2) (← b.getUnchecked t 1)
  let x ← O.sub x1 x2
  let y1 ← O.mul (← a.getUnchecked t 2) (← b.getUnchecked t 0)
  let y2 ← O.mul (← a.getUnchecked t 0) (← b.getUnchecked t 2)
  let y ← O.sub y1 y2
  let z1 ← O.mul (← a.getUnchecked t 0) (← b.getUnchecked t 1)
  let z2 ← O.mul (← a.getUnchecked t 1) (← b.getUnchecked t 0)
  let z ← O.sub z1 z2
  pure ⟨[x, y, z], rfl⟩

/-- `Vector::norm` (src/vector.rs:553-556); `sqrt` and `powi` are the `Float` methods. -/
def norm (O : Ops T) (sqrt : T → T) (powi : T → Int → T) (v : Vec T n) : Res T := do
  let prod ← (v.toList.map fun x => powi x 2).foldlM O.add O.zero
  pure (sqrt prod)

/-- `Vector::normalized` (src/vector.rs:559-561): `self.clone() / self.norm()`. -/
def normalized (t : Target) (O : Ops T) (sqrt : T → T) (powi : T → Int → T) (v : Vec T n) :
    Res (Vec T n) := do
  let c ← v.clone t (fun x => (pure x : Res T))
  let d ← v.norm O sqrt powi
  c.divScalar t O.div d

/-- `Vector::sum` (src/vector.rs:579-581): `fold(T::zero(), Add::add)`. -/
def sum (O : Ops T) (v : Vec T n) : Res T :=
  v.toList.foldlM O.add O.zero

end Vec

/-! ### max, min, clamp -/

/-- `Iterator::max` of std (not part of the crate): keeps the later element on ties.  [Called at src/vector.rs:603.] -/
def stdMax {T : Type} (cmp : T → T → Ordering) : List T → Option T
  | [] => none
  | x :: xs => some (xs.foldl (fun acc y => if cmp acc y ≠ .gt then y else acc) x)

/-- `Iterator::min` of std (not part of the crate): keeps the earlier element on ties.  [Called at src/vector.rs:612.] -/
def stdMin {T : Type} (cmp : T → T → Ordering) : List T → Option T
  | [] => none
  | x :: xs => some (xs.foldl (fun acc y => if cmp acc y = .gt then y else acc) x)

/-- `cmp::max(a, b)` of std: `b` unless `a > b`.  [Called at src/vector.rs:672, 678.] -/
def cmpMax {T : Type} (cmp : T → T → Ordering) (a b : T) : T := if cmp a b = .gt then a else b

/-- `cmp::min(a, b)` of std: `a` unless `a > b`.  [Called at src/vector.rs:672, 678.] -/
def cmpMin {T : Type} (cmp : T → T → Ordering) (a b : T) : T := if cmp a b = .gt then b else a

/-- `Option::unwrap`.  [Called at src/vector.rs:603, 612.] -/
def unwrap {m : Type → Type} [RustM m] {T : Type} : Option T → m T
  | some x => pure x
  | none => fault .panic

namespace Vec
variable {m : Type → Type} [RustM m] {T U V : Type} {n : Nat}

/-- `Vector::max` (src/vector.rs:601-604). -/
def max (cmp : T → T → Ordering) (v : Vec T n) : Res T := unwrap (stdMax cmp v.toList)

/-- `Vector::min` (src/vector.rs:610-613). -/
def min (cmp : T → T → Ordering) (v : Vec T n) : Res T := unwrap (stdMin cmp v.toList)

/-- The loop of `max_by` (src/vector.rs:639-643). -/
def maxByLoop (comp : T → T → m Ordering) : T → List T → m T
  | st, [] => pure st
  | st, v :: it => do
    let o ← comp v st
    maxByLoop comp (if o = .gt then v else st) it

/-- `Vector::max_by` (src/vector.rs:635-646). -/
def maxBy (comp : T → T → m Ordering) (v : Vec T n) : m T :=
  match v.toList with
  | [] => fault .panic
  | st :: it => maxByLoop comp st it

/-- `Vector::min_by` (src/vector.rs:651-653): `self.max_by(|a, b| comp(b, a))`. -/
def minBy (comp : T → T → m Ordering) (v : Vec T n) : m T :=
  maxBy (fun a b => comp b a) v

/-- `Vector::clamped` (src/vector.rs:671-673). -/
def clamped (t : Target) (cmp : T → T → Ordering) (v : Vec T n) (lo hi : T) : Res (Vec T n) :=
  collect t n (v.toList.map fun x => pure (cmpMin cmp hi (cmpMax cmp lo x)))

/-- `Vector::clamp` (src/vector.rs:676-680). -/
def clamp (cmp : T → T → Ordering) (v : Vec T n) (lo hi : T) : Vec T n :=
  ⟨(forMut (fun x => (.ok (), cmpMin cmp hi (cmpMax cmp lo x))) v.toList).2,
   by rw [forMut_length, v.length_eq]⟩

/-! ### Equality, zero, bounds, Debug -/

end Vec

/-- Slice equality of std: equal lengths and all elements equal (`eq` is `T: PartialEq<U>`).  [Called at src/vector.rs:205.] -/
def sliceEq {T U : Type} (eq : T → U → Bool) : List T → List U → Bool
  | [], [] => true
  | a :: as, b :: bs => eq a b && sliceEq eq as bs
  | _, _ => false

namespace Vec
variable {m : Type → Type} [RustM m] {T U V : Type} {n : Nat}

/-- `PartialEq` (src/vector.rs:204-206): `self.as_slice() == other.as_slice()`. -/
def eq (e : T → U → Bool) (a : Vec T n) (b : Vec U n) : Bool := sliceEq e a.toList b.toList

/-- `num::Zero::zero` (src/vector.rs:218-220). -/
def zero (t : Target) (n : Nat) (z : T) : Res (Vec T n) := generate t n (fun _ => pure z)

/-- `num::Zero::is_zero` (src/vector.rs:223-225). -/
def isZero (isz : T → Bool) (v : Vec T n) : Bool := v.toList.all isz

/-- `num::Bounded::min_value` (src/vector.rs:230-232). -/
def minValue (t : Target) (n : Nat) (lo : T) : Res (Vec T n) := generate t n (fun _ => pure lo)

/-- `num::Bounded::max_value` (src/vector.rs:235-237). -/
def maxValue (t : Target) (n : Nat) (hi : T) : Res (Vec T n) := generate t n (fun _ => pure hi)

end Vec

/-- std's `f.debug_list().entries(..).finish()` in non-alternate mode (also slice `Debug`):
`[e0, e1, ...]`; `d` renders one element. -/
def debugList {T : Type} (d : T → String) (l : List T) : String :=
  "[" ++ String.intercalate ", " (l.map d) ++ "]"

namespace Vec
variable {T : Type} {n : Nat}

/-- `Debug` (src/vector.rs:123-126), non-alternate `{:?}`. -/
def debug (d : T → String) (v : Vec T n) : String := "Vector" ++ debugList d v.toList

end Vec
end Rowcol
