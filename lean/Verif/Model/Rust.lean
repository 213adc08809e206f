/-
Basic vocabulary of the model: faults, build modes, `usize` arithmetic, the class of monads in which
user closures and element operations may run, and iterators.
-/

namespace Rowcol

/-- How a Rust computation can fail to return.
`panic` is an unwinding panic; `ub` marks an unchecked memory access outside its array
(`get_unchecked`, `get_unchecked_mut`, `ptr::read`, `ptr::drop_in_place`), i.e. undefined behaviour.  [Semantics of Rust; unchecked accesses occur at src/vector.rs:98-107, 267-311, 701-775 and in src/matrix/iter.rs, mod.rs.] -/
inductive Fault where
  | panic
  | ub
  deriving DecidableEq, Repr

/-- A build of the crate: are `debug_assert!`s compiled in, are integer overflows checked, and what is
`usize::MAX + 1`.  A default debug build has both flags set, a default release build none. -/
structure Target where
  debugAssertions : Bool
  overflowChecks : Bool
  W : Nat
  deriving DecidableEq, Repr

/-- Pure Rust computations: a value, a panic or an invalid access.  [Semantics of Rust, not of one place in the crate.] -/
abbrev Res := Except Fault

/-- The monads in which closures (`FnMut`) and element operations (`T: Add`, `T: Clone`, ...) run:
lawful monads with faults, where a fault ends the computation.  The closure's captured state, its
panics and any other effect live in `m`.  [Closure parameters: src/vector.rs:44, 635, 651; src/matrix/mod.rs:155-169, 763, 784.] -/
class RustM (m : Type → Type) extends Monad m, LawfulMonad m where
  fault : {α : Type} → Fault → m α
  fault_bind : ∀ {α β : Type} (e : Fault) (f : α → m β), (fault e : m α) >>= f = fault e

export RustM (fault)

instance : RustM (Except Fault) where
  fault e := .error e
  fault_bind _ _ := rfl

/-- Closures with captured state `s`; the state survives a panic (what `catch_unwind` would observe).  [`FnMut` parameters as at src/vector.rs:44.] -/
abbrev StM (s : Type) := ExceptT Fault (StateM s)

instance (s : Type) : RustM (StM s) where
  fault e := ExceptT.mk (pure (.error e))
  fault_bind _ _ := rfl

/-- Run a pure computation inside `m`.  [Bookkeeping of the model.] -/
def liftRes {m : Type → Type} [RustM m] {α : Type} : Res α → m α
  | .ok a => pure a
  | .error e => fault e

/-- `usize` addition: panics on overflow when overflow checks are on, wraps otherwise.  [Semantics of Rust; used e.g. at src/vector.rs:766, src/matrix/iter.rs:32.] -/
def uadd (t : Target) (a b : Nat) : Res Nat :=
  if a + b < t.W then .ok (a + b)
  else if t.overflowChecks then .error .panic
  else .ok ((a + b) % t.W)

/-- `usize` subtraction: panics on underflow when overflow checks are on, wraps otherwise.  [Semantics of Rust; used e.g. at src/vector.rs:823, src/matrix/iter.rs:71.] -/
def usub (t : Target) (a b : Nat) : Res Nat :=
  if b ≤ a then .ok (a - b)
  else if t.overflowChecks then .error .panic
  else .ok (a + t.W - b)

/-- `debug_assert!(c)`.  [Used e.g. at src/vector.rs:99, 105, 719, 762, 799.] -/
def debugAssert (t : Target) (c : Bool) : Res Unit :=
  if t.debugAssertions && !c then .error .panic else .ok ()

/-- An iterator as used by `collect`: a state, `next`, and `count` (which a type may override;
`from_iter` calls it inside a debug assertion).  [The parameter of src/vector.rs:692-694.] -/
structure Iter (m : Type → Type) (α σ : Type) where
  next : σ → m (Option α × σ)
  count : σ → m Nat

/-- Iterators built from slices, ranges and vectors with the standard adaptors (`map`, `zip`,
`enumerate`, `filter`, `cloned`): the list of computations that successive `next()` calls run.
`count` is std's provided method: it runs `next()` to the end.  [The sources at src/vector.rs:45, 136, 366, 672 and similar.] -/
def Iter.ofList {m : Type → Type} [RustM m] {α : Type} : Iter m α (List (m α)) where
  next
    | [] => pure (none, [])
    | a :: as => do
      let x ← a
      pure (some x, as)
  count l := do
    let xs ← l.mapM id
    pure xs.length

/-- Call `next()` until it returns `None`, at most `fuel` times (used where the source drives one of the
crate's own iterators through standard adaptors).  Running out of fuel is reported as a panic; the
theorems show it does not happen.  [Used for `count()` at src/vector.rs:719.] -/
def Iter.drain {m : Type → Type} [RustM m] {α σ : Type} (it : Iter m α σ) : Nat → σ → m (List α)
  | 0, _ => fault .panic
  | fuel + 1, s => do
    let (o, s) ← it.next s
    match o with
    | none => pure []
    | some x => do
      let xs ← it.drain fuel s
      pure (x :: xs)

/-- The arithmetic of an element type as the crate sees it through `num` and `std::ops` traits.  Each
operation may panic (integer overflow, division by zero).  `Clone` is the identity.  [Bounds such as src/vector.rs:503-507, src/matrix/ops.rs:10-20.] -/
structure Ops (T : Type) where
  zero : T
  one : T
  add : T → T → Res T
  sub : T → T → Res T
  mul : T → T → Res T
  div : T → T → Res T
  neg : T → Res T
  isZero : T → Bool

end Rowcol
