import Verif.Model.Ownership

/-
The programs of Model/Ownership.lean when destructors may panic.  `boom e` says that the destructor of element `e` panics.
Rust's rules, which the code relies on: a panic in a destructor unwinds like any other panic; the drop glue of an array goes
on with the elements that are left; assignment stores the new value even if destroying the old one panics; a panic in a
destructor that runs because of unwinding aborts the process, and then nothing more is destroyed.  `Drop for IntoIter` is a
loop of the crate (src/vector.rs:751-755): a panic ends it, and the elements that are left are leaked.
-/

namespace Rowcol
namespace Owner

/-- How a statement ended.  After `abort` and `ub` the program does not go on.  [Rust.] -/
inductive End where
  | ok
  | panic
  | abort
  | ub
  deriving DecidableEq

/-- How a result of the crate's code ends its statement when nothing is left to destroy.  [Bookkeeping.] -/
def Fault.toEnd : Fault → End
  | .panic => .panic
  | .ub => .ub

variable (boom : Nat → Bool)

/-- What is destroyed when unwinding destroys `l`: all up to and including the first element whose destructor panics (then the
process is aborted).  [Rust.] -/
def through : List Nat → List Nat
  | [] => []
  | x :: l => if boom x then [x] else x :: through l

/-- Drop glue of an array outside unwinding: the elements in order; after a first panic the rest while unwinding.  [Rust.] -/
def arrayDrop : List Nat → End × List Nat
  | [] => (.ok, [])
  | x :: l =>
    if boom x then (if l.any boom then .abort else .panic, x :: through boom l)
    else ((arrayDrop l).1, x :: (arrayDrop l).2)

/-- The result of a loop that destroys elements.  [Bookkeeping.] -/
def endOf : Res Unit → End
  | .ok () => .ok
  | .error e => Fault.toEnd e

/-- Destroy the content of a variable outside unwinding: arrays by drop glue; iterators by `Drop for IntoIter`
(src/vector.rs:750-756; `Chunks` contains one, 829-835). -/
def Obj.destroyed : Obj → End × List Nat × List Viol
  | .none => (.ok, [], [])
  | .elem x => (if boom x then .panic else .ok, [x], [])
  | .vec _ v => ((arrayDrop boom v.toList).1, (arrayDrop boom v.toList).2, [])
  | .mat _ _ a => ((arrayDrop boom (a.rows.toList.map Vec.toList).flatten).1,
      (arrayDrop boom (a.rows.toList.map Vec.toList).flatten).2, [])
  | .iter s => let r := (OwnIt.dropOp boom).run s; (endOf r.1, r.2.mem.drops, r.2.mem.viols)
  | .chunks _ s => let r := (OwnIt.dropOp boom).run s; (endOf r.1, r.2.mem.drops, r.2.mem.viols)

/-! ### Element operations -/

/-- What element operations work on: the world, and whether the process was aborted (a destructor panicked while
unwinding).  [Bookkeeping.] -/
abbrev EWorld := World × Bool

/-- Elements are destroyed, and perhaps the process is aborted.  [Client code.] -/
def EWorld.drop (s : EWorld) (d : List Nat) (ab : Bool) : EWorld := ({ s.1 with dropped := s.1.dropped ++ d }, ab)

/-- Run a unary element operation.  `replace`: the element is destroyed (if that panics, the panic leaves the operation), then a new one is
created.  `panic`: the element is destroyed by unwinding.
[Client code called at src/vector.rs:337, 351, 417, 444, 470, src/matrix/mod.rs:172-176.] -/
def Beh.actU : Beh → Nat → StM EWorld Nat
  | .keep, x => pure x
  | .replace, x => ExceptT.mk fun s =>
    if boom x then (.error .panic, s.drop [x] false)
    else (.ok s.1.fresh, ({ s.1 with dropped := s.1.dropped ++ [x], fresh := s.1.fresh + 1 }, s.2))
  | .panic, x => ExceptT.mk fun s => (.error .panic, s.drop [x] (boom x))

/-- Run a binary element operation.  `left`: destroys the right operand; if that panics, unwinding destroys the left one.
`replace`: destroys both, first the left one, and creates a new one.  `panic`: unwinding destroys both, first the right one.
[Client code called at src/vector.rs:324.] -/
def Beh2.actU : Beh2 → Nat → Nat → StM EWorld Nat
  | .left, x, y => ExceptT.mk fun s =>
    if boom y then (.error .panic, s.drop [y, x] (boom x)) else (.ok x, s.drop [y] s.2)
  | .right, x, y => ExceptT.mk fun s =>
    if boom x then (.error .panic, s.drop [x, y] (boom y)) else (.ok y, s.drop [x] s.2)
  | .replace, x, y => ExceptT.mk fun s =>
    if boom x then (.error .panic, s.drop [x, y] (boom y))
    else if boom y then (.error .panic, s.drop [x, y] false)
    else (.ok s.1.fresh, ({ s.1 with dropped := s.1.dropped ++ [x, y], fresh := s.1.fresh + 1 }, s.2))
  | .panic, x, y => ExceptT.mk fun s => (.error .panic, s.drop (through boom [y, x]) (boom y || boom x))

/-- Run an assigning element operation.  `keep`: destroys `b`.  `swap`: `*a = b`.  `replace`: `*a = T::new(); drop(b)`.
`panicKeep`, `panicReplace`: the same two, with a panic before `b` is destroyed.
[Client code called at src/vector.rs:389, 402; src/matrix/arith.rs:94, 109.] -/
def BehA.actU : BehA → Nat → Nat → EWorld → Res Unit × Nat × EWorld
  | .keep, a, b, s => (if boom b then .error .panic else .ok (), a, s.drop [b] s.2)
  | .swap, a, b, s => (if boom a then .error .panic else .ok (), b, s.drop [a] s.2)
  | .replace, a, b, s =>
    (if boom a || boom b then .error .panic else .ok (), s.1.fresh,
      ({ s.1 with fresh := s.1.fresh + 1, dropped := s.1.dropped ++ [a, b] }, boom a && boom b))
  | .panicKeep, a, b, s => (.error .panic, a, s.drop [b] (boom b))
  | .panicReplace, a, b, s =>
    (.error .panic, s.1.fresh, ({ s.1 with fresh := s.1.fresh + 1, dropped := s.1.dropped ++ [a, b] }, boom b))

/-! ### Statements -/

variable {k : Nat}

/-- `x = value`: the old content is destroyed; the value is stored in any case.  [Rust assignment.] -/
def State.putU (σ : State k) (x : Fin k) (o : Obj) : End × State k :=
  ((σ.vars x).destroyed boom |>.1,
    { vars := fun i => if i = x then o else σ.vars i
      world := σ.world.log ((σ.vars x).destroyed boom).2.1 ((σ.vars x).destroyed boom).2.2 })

/-- A panic leaves a call of the crate that still holds the elements `d`, which unwinding destroys in this order; `viols`: invalid
accesses on the way.  If the process was already aborted nothing is destroyed.  [Rust.] -/
def unwound (s : EWorld) (e : Fault) (d : List Nat) (viols : List Viol) : End × World :=
  match e with
  | .ub => (.ub, s.1.log d viols)
  | .panic =>
    if s.2 then (.abort, s.1)
    else (if d.any boom then .abort else .panic, s.1.log (through boom d) viols)

/-- How many elements the source of `collect` was asked for when destructors may panic: with debug assertions `count` destroys the
surplus, up to the first panic (src/vector.rs:701-721; std's `count`). -/
def askedU (t : Target) (fresh n : Nat) (src : List Bool) : Nat :=
  let a := (src.takeWhile id).length
  if t.debugAssertions ∧ n ≤ a then n + (through boom (List.range' (fresh + n) (a - n))).length else min n a

/-- `from_iter` fed by an owning iterator, taken by value (src/vector.rs:692-726).  Too few items: those received are destroyed
(`Mem.shortExit`), and it panics.  With debug assertions `count` (783-785) takes the iterator by value and destroys what is left of it;
surplus items, or a panic of a destructor, leave `from_iter` as a panic and leak the array.  Without debug assertions
the iterator is destroyed when `from_iter` returns; if that panics the result is leaked (compilers since 2023 destroy it).
Returns how it ended, the items, what was destroyed, and invalid accesses. -/
def collectOwnU (t : Target) (n : Nat) (s : OwnIt Nat) : End × List Nat × List Nat × List Viol :=
  match (pull t n).run s with
  | (.error e, s') =>
    let r := (OwnIt.dropOp boom).run s'
    (Fault.toEnd e, [], r.2.mem.drops, r.2.mem.viols)
  | (.ok (xs, false), s') =>
    let m := (Mem.fromIterMem t boom n (xs.map .item)).2
    let r := (OwnIt.dropOp boom).run s'
    (if m.viols = [] then .panic else .ub, [], m.drops ++ r.2.mem.drops, m.viols ++ r.2.mem.viols)
  | (.ok (xs, true), s') =>
    if t.debugAssertions then
      match (OwnIt.lenOp t).run s' with
      | (.error e, s'') =>
        let r := (OwnIt.dropOp boom).run s''
        (Fault.toEnd e, [], r.2.mem.drops, r.2.mem.viols)
      | (.ok c, s'') =>
        let r := (OwnIt.dropOp boom).run s''
        match r.1 with
        | .error e => (Fault.toEnd e, [], r.2.mem.drops, r.2.mem.viols)
        | .ok () => (if c = 0 then .ok else .panic, xs, r.2.mem.drops, r.2.mem.viols)
    else
      let r := (OwnIt.dropOp boom).run s'
      (endOf r.1, xs, r.2.mem.drops, r.2.mem.viols)

/-- Store what a call on an iterator handed out.  [`let y = x.next();`] -/
def handOutU (σ : State k) (x y : Fin k) (mk : OwnIt Nat → Obj) (out : Option Obj) (s : OwnIt Nat) : End × State k :=
  let σ1 : State k := { σ.store x (mk (flush s)) with world := σ.world.log s.mem.drops s.mem.viols }
  σ1.putU boom y (out.getD .none)

/-- Execute one statement: how it ended, and the new state.  Statements that do not type-check do nothing. -/
def execU (t : Target) : Stmt k → State k → End × State k
  | .new x, σ => { σ with world := { σ.world with fresh := σ.world.fresh + 1 } }.putU boom x (.elem σ.world.fresh)
  | .collect x n src, σ =>
    -- src/vector.rs:692-727
    let w := { σ.world with fresh := σ.world.fresh + askedU boom t σ.world.fresh n src }
    match Mem.fromIterMem t boom n (steps σ.world.fresh src) with
    | (.ok slots, m) => { σ with world := w.log m.drops m.viols }.putU boom x (vecOf n (slotElems slots))
    | (.error .panic, m) => (if m.viols = [] then .panic else .ub, { σ with world := w.log m.drops m.viols })
    | (.error .ub, m) => (.ub, { σ with world := w.log m.drops m.viols })
  | .drop x, σ => σ.putU boom x .none
  | .move x y, σ => if x = y then (.ok, σ) else (σ.store x .none).putU boom y (σ.vars x)
  | .map x y f, σ =>
    match σ.vars x with
    | .vec n v =>
      -- src/vector.rs:337-339, 351-353, 416-418, 443-445, 469-471
      match OwnIt.consume t (fun i e => (f (i, 0)).actU boom e) v (σ.world, false) with
      | (.ok zs, s, it) => { σ.store x .none with world := s.1.log it.mem.drops it.mem.viols }.putU boom y (vecOf n zs)
      | (.error e, s, it) =>
        ((unwound boom s e it.mem.drops it.mem.viols).1,
          { σ.store x .none with world := (unwound boom s e it.mem.drops it.mem.viols).2 })
    | .mat r c a =>
      -- src/matrix/mod.rs:169-178, src/matrix/arith.rs:36-38, 52-54, 123-125, 138-140, 151-153
      match OwnIt.consumeMat t (fun p e => (f p).actU boom e) a (σ.world, false) with
      | (.ok zs, s, l) => { σ.store x .none with world := s.1.log l.drops l.viols }.putU boom y (matOf r c zs)
      | (.error e, s, l) =>
        ((unwound boom s e l.drops l.viols).1, { σ.store x .none with world := (unwound boom s e l.drops l.viols).2 })
    | _ => (.ok, σ)
  | .zip x y z f, σ =>
    if x = y then (.ok, σ) else
    match σ.vars x, σ.vars y with
    | .vec n v, .vec n' v' =>
      -- src/vector.rs:323-325
      if h : n' = n then
        match OwnIt.consume2 t (fun e e' => (f e).actU boom e e') v (h ▸ v') (σ.world, false) with
        | (.ok zs, s, ia, ib) =>
          { (σ.store x .none).store y .none with
            world := s.1.log (ia.mem.drops ++ ib.mem.drops) (ia.mem.viols ++ ib.mem.viols) }.putU boom z (vecOf n zs)
        | (.error e, s, ia, ib) =>
          let u := unwound boom s e (ia.mem.drops ++ ib.mem.drops) (ia.mem.viols ++ ib.mem.viols)
          (u.1, { (σ.store x .none).store y .none with world := u.2 })
      else (.ok, σ)
    | .mat r c a, .mat r' c' a' =>
      -- src/matrix/arith.rs:20-22
      if h : r' = r ∧ c' = c then
        match OwnIt.consumeMat2 t (fun e e' => (f e).actU boom e e') a (h.1 ▸ h.2 ▸ a') (σ.world, false) with
        | (.ok zs, s, la, lb) =>
          { (σ.store x .none).store y .none with
            world := s.1.log (interleave c la.drops lb.drops) (la.viols ++ lb.viols) }.putU boom z (matOf r c zs)
        | (.error e, s, la, lb) =>
          let u := unwound boom s e (interleave c la.drops lb.drops) (la.viols ++ lb.viols)
          (u.1, { (σ.store x .none).store y .none with world := u.2 })
      else (.ok, σ)
    | _, _ => (.ok, σ)
  | .assign x y f, σ =>
    if x = y then (.ok, σ) else
    match σ.vars x, σ.vars y with
    | .vec n v, .vec n' v' =>
      -- src/vector.rs:387-391, 400-404
      if h : n' = n then
        match OwnIt.assignOwn t (fun e e' => (f e').actU boom e e') v (h ▸ v') (σ.world, false) with
        | (.ok (), v1, s, ib) =>
          (.ok, { (σ.store x (.vec n v1)).store y .none with world := s.1.log ib.mem.drops ib.mem.viols })
        | (.error e, v1, s, ib) =>
          let u := unwound boom s e ib.mem.drops ib.mem.viols
          (u.1, { (σ.store x (.vec n v1)).store y .none with world := u.2 })
      else (.ok, σ)
    | .mat r c a, .mat r' c' a' =>
      -- src/matrix/arith.rs:91-97, 106-112
      if h : r' = r ∧ c' = c then
        match OwnIt.assignOwnMat t (fun e e' => (f e').actU boom e e') a (h.1 ▸ h.2 ▸ a') (σ.world, false) with
        | (.ok (), a1, s, lb) =>
          (.ok, { (σ.store x (.mat r c a1)).store y .none with world := s.1.log lb.drops lb.viols })
        | (.error e, a1, s, lb) =>
          let u := unwound boom s e lb.drops lb.viols
          (u.1, { (σ.store x (.mat r c a1)).store y .none with world := u.2 })
      else (.ok, σ)
    | _, _ => (.ok, σ)
  | .write x i y, σ =>
    match σ.vars x, σ.vars y with
    | .vec n v, .elem e =>
      -- src/vector.rs:251-253: the old element is destroyed; if the index is bad, unwinding destroys the new one
      match v.indexSet i e with
      | .ok v' =>
        (if (v.toList[i]?).toList.any boom then .panic else .ok,
          { (σ.store x (.vec n v')).store y .none with world := σ.world.log (v.toList[i]?).toList [] })
      | .error f => ((unwound boom (σ.world, false) f [e] []).1,
          { σ.store y .none with world := (unwound boom (σ.world, false) f [e] []).2 })
    | _, _ => (.ok, σ)
  | .intoIter x, σ =>
    match σ.vars x with
    | .vec _ v => (.ok, σ.store x (.iter (OwnIt.intoIter v)))  -- src/vector.rs:735-741
    | _ => (.ok, σ)
  | .intoChunks x I, σ =>
    match σ.vars x with
    | .vec n v =>
      -- src/vector.rs:89-95
      if 0 < I ∧ n % I = 0 then (.ok, σ.store x (.chunks I (OwnIt.intoIter v))) else (.ok, σ)
    | _ => (.ok, σ)
  | .next x y, σ =>
    if x = y then (.ok, σ) else
    match σ.vars x with
    | .iter s =>
      -- src/vector.rs:761-774
      match (OwnIt.nextOp t).run s with
      | (.ok o, s') => handOutU boom σ x y .iter (o.map .elem) s'
      | (.error e, s') =>
        (Fault.toEnd e, { σ.store x (.iter (flush s')) with world := σ.world.log s'.mem.drops s'.mem.viols })
    | .chunks I s =>
      -- src/vector.rs:849-855
      match (OwnIt.chunkNext t I).run s with
      | (.ok o, s') => handOutU boom σ x y (.chunks I) (o.map (.vec I)) s'
      | (.error e, s') =>
        (Fault.toEnd e, { σ.store x (.chunks I (flush s')) with world := σ.world.log s'.mem.drops s'.mem.viols })
    | _ => (.ok, σ)
  | .nextBack x y, σ =>
    if x = y then (.ok, σ) else
    match σ.vars x with
    | .iter s =>
      -- src/vector.rs:798-810
      match (OwnIt.nextBackOp t).run s with
      | (.ok o, s') => handOutU boom σ x y .iter (o.map .elem) s'
      | (.error e, s') =>
        (Fault.toEnd e, { σ.store x (.iter (flush s')) with world := σ.world.log s'.mem.drops s'.mem.viols })
    | .chunks I s =>
      -- src/vector.rs:870-877
      match (OwnIt.chunkNextBack t I).run s with
      | (.ok o, s') => handOutU boom σ x y (.chunks I) (o.map (.vec I)) s'
      | (.error e, s') =>
        (Fault.toEnd e, { σ.store x (.chunks I (flush s')) with world := σ.world.log s'.mem.drops s'.mem.viols })
    | _ => (.ok, σ)
  | .nth x y i, σ =>
    if x = y then (.ok, σ) else
    match σ.vars x with
    | .iter s =>
      -- src/vector.rs:787-794
      match (OwnIt.nthOp t boom i).run s with
      | (.ok o, s') => handOutU boom σ x y .iter (o.map .elem) s'
      | (.error e, s') =>
        (Fault.toEnd e, { σ.store x (.iter (flush s')) with world := σ.world.log s'.mem.drops s'.mem.viols })
    | _ => (.ok, σ)
  | .gather x y n, σ =>
    if x = y then (.ok, σ) else
    match σ.vars x with
    | .iter s =>
      let c := collectOwnU boom t n s
      let σ1 : State k := { σ.store x .none with world := σ.world.log c.2.2.1 c.2.2.2 }
      match c.1 with
      | .ok => σ1.putU boom y (vecOf n c.2.1)
      | e => (e, σ1)
    | _ => (.ok, σ)
  | .toMat x r c, σ =>
    match σ.vars x with
    | .vec n v =>
      -- src/matrix/mod.rs:246-248; the chunk iterator is destroyed at the end
      if h : n = r * c ∧ 0 < c then
        match Mat.fromVector t (h.1 ▸ v : Vec Nat (r * c)) with
        | (res, s) =>
          let d := (OwnIt.dropOp boom).run s
          let w := σ.world.log d.2.mem.drops d.2.mem.viols
          match res, d.1 with
          | .ok a, .ok () => (.ok, { σ.store x (.mat r c a) with world := w })
          | .ok _, .error e => (Fault.toEnd e, { σ.store x .none with world := w })
          | .error e, _ => (Fault.toEnd e, { σ.store x .none with world := w })
      else (.ok, σ)
    | _ => (.ok, σ)

/-- A program: its statements in order; a panic ends its statement and is caught; an abort ends the program.  Returns how each
executed statement ended.  After undefined behaviour nothing more is modelled. -/
def runU (t : Target) : List (Stmt k) → State k → List End × State k
  | [], σ => ([], σ)
  | p :: ps, σ =>
    match (execU boom t p σ).1 with
    | .ub => ([.ub], (execU boom t p σ).2)
    | .abort => ([.abort], (execU boom t p σ).2)
    | r => (r :: (runU t ps (execU boom t p σ).2).1, (runU t ps (execU boom t p σ).2).2)

/-- Unwinding destroys the content of a variable; a panic of a destructor aborts.  [Rust; the elements in the order of `Obj.dropLog`.] -/
def State.wipe (σ : State k) (x : Fin k) : End × State k :=
  (if (σ.vars x).dropLog.1.any boom then .abort else .panic,
    { vars := fun i => if i = x then .none else σ.vars i
      world := σ.world.log (through boom (σ.vars x).dropLog.1) (σ.vars x).dropLog.2 })

/-- The end of the scope: the variables are destroyed one after the other; after a panic the others are destroyed by
unwinding.  The outcome so far is the first argument.  [Rust drops locals.] -/
def leaveU : End → List (Fin k) → State k → End × State k
  | r, [], σ => (r, σ)
  | .ok, x :: xs, σ => leaveU (σ.putU boom x .none).1 xs (σ.putU boom x .none).2
  | .panic, x :: xs, σ => leaveU (σ.wipe boom x).1 xs (σ.wipe boom x).2
  | r, _ :: _, σ => (r, σ)

/-- The end of the scope.  [Rust drops locals.] -/
def endScopeU (σ : State k) : End × State k := leaveU boom .ok (List.finRange k) σ

end Owner
end Rowcol
