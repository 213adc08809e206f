import Verif.Model.Consume

/-
Programs that own elements.  Elements are identities (numbers, in the order of their creation) with destructors; the
program's variables own single elements, vectors, matrices, owning iterators and chunk iterators, and its statements are
calls of the crate's operations that take, keep and hand out ownership: collecting, `map`, negation, `+`, `+=` by value,
element assignment, `into_iter` with `next`/`next_back`/`nth`, `into_chunks`, `Matrix::from`, moves and the end of a
scope.  Every call can panic in the client's code (closures, sources, element operators); panics are caught after each
statement and the program goes on.  Destructors do not panic here.
-/

namespace Rowcol
namespace Owner

/-- What a variable holds.  [`Vector`: src/vector.rs:29-33; `Matrix`: src/matrix/mod.rs:27-33; `IntoIter`: src/vector.rs:744-748;
`Chunks`: src/vector.rs:829-835.] -/
inductive Obj where
  | none
  | elem (x : Nat)
  | vec (n : Nat) (v : Vec Nat n)
  | mat (r c : Nat) (a : Mat Nat r c)
  | iter (s : OwnIt Nat)
  | chunks (I : Nat) (s : OwnIt Nat)

/-- The elements created so far are `0, 1, .., fresh - 1`; those destroyed, in order; invalid accesses.  [The bookkeeping of
the model; the events are those of src/vector.rs:691-826.] -/
structure World where
  fresh : Nat
  dropped : List Nat
  viols : List Viol
  deriving DecidableEq

/-- The state of a program with `k` variables.  [Bookkeeping of the model.] -/
structure State (k : Nat) where
  vars : Fin k → Obj
  world : World

/-- What an element operation called by `map`, `-v`, `v * s`, `v + &w`, .. does with the element it is given: return it;
destroy it and return a new one; destroy it and panic.  [The closures of src/vector.rs:337, 351, 417, 444, 470, src/matrix/mod.rs:172-176.] -/
inductive Beh where
  | keep
  | replace
  | panic
  deriving DecidableEq

/-- The same for an operation given two elements.  [`f(l, r)` of src/vector.rs:324.] -/
inductive Beh2 where
  | left
  | right
  | replace
  | panic
  deriving DecidableEq

/-- The same for `*a += b`: `a` is kept; replaced by `b`; replaced by a new element; kept, then panic; replaced, then
panic.  [src/vector.rs:389, 402; src/matrix/arith.rs:94, 109.] -/
inductive BehA where
  | keep
  | swap
  | replace
  | panicKeep
  | panicReplace
  deriving DecidableEq

/-- A new element.  [Client code.] -/
def create : StM World Nat := do
  let w ← get
  set { w with fresh := w.fresh + 1 }
  pure w.fresh

/-- An element is destroyed.  [Client code; drop glue.] -/
def destroy (x : Nat) : StM World Unit := do
  let w ← get
  set { w with dropped := w.dropped ++ [x] }

/-- Run a unary element operation.  [Client code called at src/vector.rs:337, 351, 417, 444, 470, src/matrix/mod.rs:172-176.] -/
def Beh.act : Beh → Nat → StM World Nat
  | .keep, x => pure x
  | .replace, x => do
    destroy x
    create
  | .panic, x => do
    destroy x
    fault .panic

/-- Run a binary element operation.  [Client code called at src/vector.rs:324.] -/
def Beh2.act : Beh2 → Nat → Nat → StM World Nat
  | .left, x, y => do
    destroy y
    pure x
  | .right, x, y => do
    destroy x
    pure y
  | .replace, x, y => do
    destroy x
    destroy y
    create
  | .panic, x, y => do
    destroy y
    destroy x
    fault .panic

/-- Run an assigning element operation.  [Client code called at src/vector.rs:389, 402; src/matrix/arith.rs:94, 109.] -/
def BehA.act : BehA → Nat → Nat → World → Res Unit × Nat × World
  | .keep, a, b, w => (.ok (), a, { w with dropped := w.dropped ++ [b] })
  | .swap, a, b, w => (.ok (), b, { w with dropped := w.dropped ++ [a] })
  | .replace, a, b, w => (.ok (), w.fresh, { w with fresh := w.fresh + 1, dropped := w.dropped ++ [a, b] })
  | .panicKeep, a, b, w => (.error .panic, a, { w with dropped := w.dropped ++ [b] })
  | .panicReplace, a, b, w => (.error .panic, w.fresh, { w with fresh := w.fresh + 1, dropped := w.dropped ++ [a, b] })

/-- The statements. -/
inductive Stmt (k : Nat) where
  /-- `x = T::new()` -/
  | new (x : Fin k)
  /-- `x = source.collect::<Vector<T, n>>()`: each `next()` of the source creates an element (`true`) or panics (`false`);
  at its end it returns `None`.  Also `generate`, `clone`, `&v + &w` (src/vector.rs:366), `transposed`, ..: all operations
  that only create. -/
  | collect (x : Fin k) (n : Nat) (src : List Bool)
  /-- `drop(x)` -/
  | drop (x : Fin k)
  /-- `y = x` -/
  | move (x y : Fin k)
  /-- `y = x.map(f)`, `y = -x`, `y = x * s`, `y = x + &z`, .. -/
  | map (x y : Fin k) (f : Nat × Nat → Beh)
  /-- `z = x + y`, ..; what the element operation does is chosen by its left operand -/
  | zip (x y z : Fin k) (f : Nat → Beh2)
  /-- `x += y`, ..; what the element operation does is chosen by its right operand -/
  | assign (x y : Fin k) (f : Nat → BehA)
  /-- `x[i] = y` -/
  | write (x : Fin k) (i : Nat) (y : Fin k)
  /-- `x = x.into_iter()` -/
  | intoIter (x : Fin k)
  /-- `x = x.into_chunks::<I>()` -/
  | intoChunks (x : Fin k) (I : Nat)
  /-- `y = x.next()` (nothing if that is `None`) -/
  | next (x y : Fin k)
  /-- `y = x.next_back()` -/
  | nextBack (x y : Fin k)
  /-- `y = x.nth(i)` -/
  | nth (x y : Fin k) (i : Nat)
  /-- `y = x.collect::<Vector<T, n>>()` for an owning iterator, perhaps partly used -/
  | gather (x y : Fin k) (n : Nat)
  /-- `x = Matrix::<T, r, c>::from(x)` -/
  | toMat (x : Fin k) (r c : Nat)

/-! ### Semantics -/

/-- Destroy the content of a variable: the elements in order for arrays (drop glue), `Drop for IntoIter` for the iterators
(src/vector.rs:750-756; `Chunks` contains one, 829-835). -/
def Obj.dropLog : Obj → List Nat × List Viol
  | .none => ([], [])
  | .elem x => ([x], [])
  | .vec _ v => (v.toList, [])
  | .mat _ _ a => ((a.rows.toList.map Vec.toList).flatten, [])
  | .iter s => let r := ((OwnIt.dropOp fun _ => false).run s).2; (r.mem.drops, r.mem.viols)
  | .chunks _ s => let r := ((OwnIt.dropOp fun _ => false).run s).2; (r.mem.drops, r.mem.viols)

/-- Add to the log.  [Bookkeeping.] -/
def World.log (w : World) (d : List Nat) (v : List Viol) : World :=
  { w with dropped := w.dropped ++ d, viols := w.viols ++ v }

variable {k : Nat}

/-- `x = value`: the old content of `x` is destroyed.  [Rust assignment.] -/
def State.put (σ : State k) (x : Fin k) (o : Obj) : State k where
  vars := fun i => if i = x then o else σ.vars i
  world := σ.world.log (σ.vars x).dropLog.1 (σ.vars x).dropLog.2

/-- Store without destroying, because the old content was moved out.  [Rust moves.] -/
def State.store (σ : State k) (x : Fin k) (o : Obj) : State k where
  vars := fun i => if i = x then o else σ.vars i
  world := σ.world

/-- The iterator with an empty log, and the log.  [Bookkeeping.] -/
def flush (s : OwnIt Nat) : OwnIt Nat := { s with mem := { s.mem with drops := [], viols := [] } }

/-- A vector from the elements of a finished array.  [src/vector.rs:723-726.] -/
def vecOf (n : Nat) (l : List Nat) : Obj := if h : l.length = n then .vec n ⟨l, h⟩ else .none

/-- A matrix from finished rows.  [src/vector.rs:723-726, for rows.] -/
def matOf (r c : Nat) (l : List (List Nat)) : Obj :=
  if h : l.length = r ∧ ∀ row ∈ l, row.length = c then
    .mat r c ⟨⟨l.attach.map fun p => ⟨p.1, h.2 p.1 p.2⟩, by simp [h.1]⟩⟩
  else .none

/-- The elements in a finished array.  [src/vector.rs:723.] -/
def slotElems (l : List (Slot Nat)) : List Nat := l.filterMap fun | .live x => some x | _ => Option.none

/-- The source of `collect` as a list of steps; the elements it creates are numbered from `i`.  [Client code.] -/
def steps : Nat → List Bool → List (SrcStep Nat)
  | _, [] => []
  | _, false :: src => .panic :: steps 0 src
  | i, true :: src => .item i :: steps (i + 1) src

/-- How many elements the source was asked for: without debug assertions at most `n`, with them all up to its first panic
(src/vector.rs:701-721). -/
def asked (t : Target) (n : Nat) (src : List Bool) : Nat :=
  let a := (src.takeWhile id).length
  if t.debugAssertions then a else min n a

/-- The loop of `from_iter` fed by an owning iterator: the items, and whether there were enough.  [src/vector.rs:701-717 with 761-774.] -/
def pull {T : Type} (t : Target) : Nat → StM (OwnIt T) (List T × Bool)
  | 0 => pure ([], true)
  | n + 1 => do
    match ← OwnIt.nextOp t with
    | none => pure ([], false)
    | some x => do
      let r ← pull t n
      pure (x :: r.1, r.2)

/-- `from_iter` fed by an owning iterator, taken by value (src/vector.rs:692-726): if there are too few items those received are
destroyed and it panics; with debug assertions it panics on surplus items (`count`, 783-785, asks `len`), leaking the array;
in every case the iterator is destroyed.  Returns the result, what was destroyed in `from_iter`, and the iterator. -/
def collectOwn {T : Type} (t : Target) (n : Nat) (s : OwnIt T) : Res (List T) × List T × OwnIt T :=
  match (pull t n).run s with
  | (.error e, s') => (.error e, [], ((OwnIt.dropOp fun _ => false).run s').2)
  | (.ok (xs, false), s') => (.error .panic, xs, ((OwnIt.dropOp fun _ => false).run s').2)
  | (.ok (xs, true), s') =>
    if t.debugAssertions then
      match (OwnIt.lenOp t).run s' with
      | (.error e, s'') => (.error e, [], ((OwnIt.dropOp fun _ => false).run s'').2)
      | (.ok c, s'') =>
        (if c = 0 then .ok xs else .error .panic, [], ((OwnIt.dropOp fun _ => false).run s'').2)
    else (.ok xs, [], ((OwnIt.dropOp fun _ => false).run s').2)

/-- The order in which what is left of two matrices with `c` columns is destroyed when an element operation panics: what is
left of the current rows (the inner `from_iter` unwinds first), then the remaining rows.  [src/vector.rs:323-325 called by itself.] -/
def interleave (c : Nat) (a b : List Nat) : List Nat :=
  a.take (a.length % c) ++ b.take (b.length % c) ++ (a.drop (a.length % c) ++ b.drop (b.length % c))

/-- Store what a call on an iterator handed out.  [`let y = x.next();`] -/
def handOut (σ : State k) (x y : Fin k) (mk : OwnIt Nat → Obj) (out : Option Obj) (s : OwnIt Nat) : State k :=
  let σ1 : State k := { σ.store x (mk (flush s)) with world := σ.world.log s.mem.drops s.mem.viols }
  σ1.put y (out.getD .none)

/-- Execute one statement: how it ended, and the new state.  Statements that do not type-check (wrong kind or length, or the
same variable used twice) do nothing. -/
def exec (t : Target) : Stmt k → State k → Res Unit × State k
  | .new x, σ =>
    (.ok (), { σ with world := { σ.world with fresh := σ.world.fresh + 1 } }.put x (.elem σ.world.fresh))
  | .collect x n src, σ =>
    -- src/vector.rs:692-727
    let w := { σ.world with fresh := σ.world.fresh + asked t n src }
    match Mem.fromIterMem t (fun _ => false) n (steps σ.world.fresh src) with
    | (.ok slots, m) => (.ok (), { σ with world := w.log m.drops m.viols }.put x (vecOf n (slotElems slots)))
    | (.error e, m) => (.error e, { σ with world := w.log m.drops m.viols })
  | .drop x, σ => (.ok (), σ.put x .none)
  | .move x y, σ => if x = y then (.ok (), σ) else (.ok (), (σ.store x .none).put y (σ.vars x))
  | .map x y f, σ =>
    match σ.vars x with
    | .vec n v =>
      -- src/vector.rs:337-339, 351-353, 416-418, 443-445, 469-471
      match OwnIt.consume t (fun i e => (f (i, 0)).act e) v σ.world with
      | (res, w, it) =>
        let σ1 : State k := { σ.store x .none with world := w.log it.mem.drops it.mem.viols }
        match res with
        | .ok zs => (.ok (), σ1.put y (vecOf n zs))
        | .error e => (.error e, σ1)
    | .mat r c a =>
      -- src/matrix/mod.rs:169-178, src/matrix/arith.rs:36-38, 52-54, 123-125, 138-140, 151-153
      match OwnIt.consumeMat t (fun p e => (f p).act e) a σ.world with
      | (res, w, l) =>
        let σ1 : State k := { σ.store x .none with world := w.log l.drops l.viols }
        match res with
        | .ok zs => (.ok (), σ1.put y (matOf r c zs))
        | .error e => (.error e, σ1)
    | _ => (.ok (), σ)
  | .zip x y z f, σ =>
    if x = y then (.ok (), σ) else
    match σ.vars x, σ.vars y with
    | .vec n v, .vec n' v' =>
      -- src/vector.rs:323-325
      if h : n' = n then
        match OwnIt.consume2 t (fun e e' => (f e).act e e') v (h ▸ v') σ.world with
        | (res, w, ia, ib) =>
          let σ1 : State k := { (σ.store x .none).store y .none with
            world := (w.log ia.mem.drops ia.mem.viols).log ib.mem.drops ib.mem.viols }
          match res with
          | .ok zs => (.ok (), σ1.put z (vecOf n zs))
          | .error e => (.error e, σ1)
      else (.ok (), σ)
    | .mat r c a, .mat r' c' a' =>
      -- src/matrix/arith.rs:20-22
      if h : r' = r ∧ c' = c then
        match OwnIt.consumeMat2 t (fun e e' => (f e).act e e') a (h.1 ▸ h.2 ▸ a') σ.world with
        | (res, w, la, lb) =>
          let σ1 : State k := { (σ.store x .none).store y .none with
            world := (w.log (interleave c la.drops lb.drops) la.viols).log [] lb.viols }
          match res with
          | .ok zs => (.ok (), σ1.put z (matOf r c zs))
          | .error e => (.error e, σ1)
      else (.ok (), σ)
    | _, _ => (.ok (), σ)
  | .assign x y f, σ =>
    if x = y then (.ok (), σ) else
    match σ.vars x, σ.vars y with
    | .vec n v, .vec n' v' =>
      -- src/vector.rs:387-391, 400-404
      if h : n' = n then
        match OwnIt.assignOwn t (fun e e' => (f e').act e e') v (h ▸ v') σ.world with
        | (res, v1, w, ib) =>
          (res, { ((σ.store x (.vec n v1)).store y .none) with world := w.log ib.mem.drops ib.mem.viols })
      else (.ok (), σ)
    | .mat r c a, .mat r' c' a' =>
      -- src/matrix/arith.rs:91-97, 106-112
      if h : r' = r ∧ c' = c then
        match OwnIt.assignOwnMat t (fun e e' => (f e').act e e') a (h.1 ▸ h.2 ▸ a') σ.world with
        | (res, a1, w, lb) =>
          (res, { ((σ.store x (.mat r c a1)).store y .none) with world := w.log lb.drops lb.viols })
      else (.ok (), σ)
    | _, _ => (.ok (), σ)
  | .write x i y, σ =>
    match σ.vars x, σ.vars y with
    | .vec n v, .elem e =>
      -- src/vector.rs:251-253: the old element is destroyed; if the index is bad, the new one
      match v.indexSet i e with
      | .ok v' => (.ok (), { ((σ.store x (.vec n v')).store y .none) with
          world := σ.world.log (v.toList[i]?).toList [] })
      | .error f => (.error f, { σ.store y .none with world := σ.world.log [e] [] })
    | _, _ => (.ok (), σ)
  | .intoIter x, σ =>
    match σ.vars x with
    | .vec _ v => (.ok (), σ.store x (.iter (OwnIt.intoIter v)))  -- src/vector.rs:735-741
    | _ => (.ok (), σ)
  | .intoChunks x I, σ =>
    match σ.vars x with
    | .vec n v =>
      -- src/vector.rs:89-95: the length must be a multiple of `I`
      if 0 < I ∧ n % I = 0 then (.ok (), σ.store x (.chunks I (OwnIt.intoIter v))) else (.ok (), σ)
    | _ => (.ok (), σ)
  | .next x y, σ =>
    if x = y then (.ok (), σ) else
    match σ.vars x with
    | .iter s =>
      -- src/vector.rs:761-774
      match (OwnIt.nextOp t).run s with
      | (.ok o, s') => (.ok (), handOut σ x y .iter (o.map .elem) s')
      | (.error e, s') => (.error e, { σ.store x (.iter (flush s')) with world := σ.world.log s'.mem.drops s'.mem.viols })
    | .chunks I s =>
      -- src/vector.rs:849-855
      match (OwnIt.chunkNext t I).run s with
      | (.ok o, s') => (.ok (), handOut σ x y (.chunks I) (o.map (.vec I)) s')
      | (.error e, s') => (.error e, { σ.store x (.chunks I (flush s')) with world := σ.world.log s'.mem.drops s'.mem.viols })
    | _ => (.ok (), σ)
  | .nextBack x y, σ =>
    if x = y then (.ok (), σ) else
    match σ.vars x with
    | .iter s =>
      -- src/vector.rs:798-810
      match (OwnIt.nextBackOp t).run s with
      | (.ok o, s') => (.ok (), handOut σ x y .iter (o.map .elem) s')
      | (.error e, s') => (.error e, { σ.store x (.iter (flush s')) with world := σ.world.log s'.mem.drops s'.mem.viols })
    | .chunks I s =>
      -- src/vector.rs:870-877
      match (OwnIt.chunkNextBack t I).run s with
      | (.ok o, s') => (.ok (), handOut σ x y (.chunks I) (o.map (.vec I)) s')
      | (.error e, s') => (.error e, { σ.store x (.chunks I (flush s')) with world := σ.world.log s'.mem.drops s'.mem.viols })
    | _ => (.ok (), σ)
  | .nth x y i, σ =>
    if x = y then (.ok (), σ) else
    match σ.vars x with
    | .iter s =>
      -- src/vector.rs:787-794
      match (OwnIt.nthOp t (fun _ => false) i).run s with
      | (.ok o, s') => (.ok (), handOut σ x y .iter (o.map .elem) s')
      | (.error e, s') => (.error e, { σ.store x (.iter (flush s')) with world := σ.world.log s'.mem.drops s'.mem.viols })
    | _ => (.ok (), σ)
  | .gather x y n, σ =>
    if x = y then (.ok (), σ) else
    match σ.vars x with
    | .iter s =>
      match collectOwn t n s with
      | (res, d, s') =>
        let σ1 : State k := { σ.store x .none with world := (σ.world.log d []).log s'.mem.drops s'.mem.viols }
        match res with
        | .ok xs => (.ok (), σ1.put y (vecOf n xs))
        | .error e => (.error e, σ1)
    | _ => (.ok (), σ)
  | .toMat x r c, σ =>
    match σ.vars x with
    | .vec n v =>
      -- src/matrix/mod.rs:246-248; the chunk iterator is destroyed at the end
      if h : n = r * c ∧ 0 < c then
        match Mat.fromVector t (h.1 ▸ v : Vec Nat (r * c)) with
        | (res, s) =>
          let s' := ((OwnIt.dropOp fun _ => false).run s).2
          let w := σ.world.log s'.mem.drops s'.mem.viols
          match res with
          | .ok a => (.ok (), { σ.store x (.mat r c a) with world := w })
          | .error e => (.error e, { σ.store x .none with world := w })
      else (.ok (), σ)
    | _ => (.ok (), σ)

/-- A program: its statements in order; a panic ends its statement and is caught.  Returns how each statement ended.  After
undefined behaviour nothing more is modelled. -/
def run (t : Target) : List (Stmt k) → State k → List (Res Unit) × State k
  | [], σ => ([], σ)
  | p :: ps, σ =>
    match exec t p σ with
    | (.error .ub, σ') => ([.error .ub], σ')
    | (r, σ') => (r :: (run t ps σ').1, (run t ps σ').2)

/-- The start: nothing exists. -/
def init : State k := ⟨fun _ => .none, ⟨0, [], []⟩⟩

/-- The end of the scope: the variables are destroyed one after the other.  [Rust drops locals.] -/
def endScope (σ : State k) : State k := (List.finRange k).foldl (fun σ x => σ.put x .none) σ

end Owner
end Rowcol
