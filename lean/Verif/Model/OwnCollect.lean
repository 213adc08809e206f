import Verif.Model.Ownership

/-
`it.rev().collect()` for an owning iterator that may have been used before: `from_iter` (`/repo/src/vector.rs` lines 691-727) fed
by std's `Rev`, which asks `next_back` (lines 797-811).  The forward case is `Owner.collectOwn`.
-/

namespace Rowcol.Owner

variable {T : Type}

/-- The loop of `from_iter` (src/vector.rs:701-717) fed by `it.rev()`: the items, and whether there were enough. -/
def pullBack (t : Target) : Nat → StM (OwnIt T) (List T × Bool)
  | 0 => pure ([], true)
  | n + 1 => do
    match ← OwnIt.nextBackOp t with
    | none => pure ([], false)
    | some x => do
      let r ← pullBack t n
      pure (x :: r.1, r.2)

/-- `it.rev().count()`, std's provided method: asks `next_back` until `None`, destroying each item; returns the items destroyed
(at most `fuel` of them).  [Called at src/vector.rs:719.] -/
def countBack (t : Target) : Nat → StM (OwnIt T) (List T)
  | 0 => pure []
  | k + 1 => do
    match ← OwnIt.nextBackOp t with
    | none => pure []
    | some x => do
      let ys ← countBack t k
      pure (x :: ys)

/-- `it.rev().collect::<Vector<T, n>>()` (src/vector.rs:692-726): as `collectOwn`, but from the back.  Returns the result, what
was destroyed in `from_iter` (items received too few of, or items counted), and the iterator after its own destructor. -/
def collectRev (t : Target) (n : Nat) (s : OwnIt T) : Res (List T) × List T × OwnIt T :=
  match (pullBack t n).run s with
  | (.error e, s') => (.error e, [], ((OwnIt.dropOp fun _ => false).run s').2)
  | (.ok (xs, false), s') => (.error .panic, xs, ((OwnIt.dropOp fun _ => false).run s').2)
  | (.ok (xs, true), s') =>
    if t.debugAssertions then
      match (countBack t (s'.mem.slots.length + 1)).run s' with
      | (.error e, s'') => (.error e, [], ((OwnIt.dropOp fun _ => false).run s'').2)
      | (.ok ys, s'') =>
        (if ys = [] then .ok xs else .error .panic, ys, ((OwnIt.dropOp fun _ => false).run s'').2)
    else (.ok xs, [], ((OwnIt.dropOp fun _ => false).run s').2)

end Rowcol.Owner
