import Verif.Model.Mat

/-! Small specifications used in the statements of the property theorems. -/

namespace Rowcol

/-- The entries of a matrix, row by row. -/
def Mat.toLists {T : Type} {r c : Nat} (a : Mat T r c) : List (List T) := a.rows.toList.map Vec.toList

namespace Spec

/-- `Yields it s xs s'`: starting in state `s`, successive `next()` calls return `Some x` for the items `xs`
in order and leave the iterator in state `s'`. -/
inductive Yields {α σ : Type} (it : Iter Res α σ) : σ → List α → σ → Prop
  | nil (s) : Yields it s [] s
  | cons {s x s' xs s''} : it.next s = .ok (some x, s') → Yields it s' xs s'' → Yields it s (x :: xs) s''

/-- `Calls f s is xs s'`: calling the closure `f` on the arguments `is` in order, starting with captured
state `s`, returns the values `xs` and leaves state `s'`. -/
inductive Calls {ι α S : Type} (f : ι → StM S α) : S → List ι → List α → S → Prop
  | nil (s) : Calls f s [] [] s
  | cons {s i x s' is xs s''} : (f i).run s = (.ok x, s') → Calls f s' is xs s'' →
      Calls f s (i :: is) (x :: xs) s''

/-- The index pairs of an `r × c` matrix in row-major order. -/
def rowMajor (r c : Nat) : List (Nat × Nat) :=
  (List.range r).flatMap fun i => (List.range c).map fun j => (i, j)

/-! ### Histories of iterator calls -/

/-- The calls that move a double-ended iterator. -/
inductive Move where
  | next
  | nextBack
  | nth (n : Nat)
  deriving DecidableEq, Repr

/-- A double-ended queue: what each call returns and what is left. -/
def dequeStep {α : Type} (q : List α) : Move → Option α × List α
  | .next => (q.head?, q.tail)
  | .nextBack => (q.getLast?, q.dropLast)
  | .nth n => ((q.drop n).head?, q.drop (n + 1))

/-- A history of calls on a double-ended queue. -/
def dequeRun {α : Type} (q : List α) : List Move → List (Option α) × List α
  | [] => ([], q)
  | c :: h => ((dequeStep q c).1 :: (dequeRun (dequeStep q c).2 h).1, (dequeRun (dequeStep q c).2 h).2)

/-- The items skipped by the `nth` calls of a history. -/
def skips : List Move → Nat
  | [] => 0
  | .nth n :: h => n + skips h
  | _ :: h => skips h

/-- No `nth(n)` of the history asks to skip more items than are left. -/
def InRange {α : Type} (q : List α) : List Move → Prop
  | [] => True
  | c :: h => (∀ n, c = .nth n → n ≤ q.length) ∧ InRange (dequeStep q c).2 h

/-- The number of items a history takes from the back. -/
def backTaken {α : Type} (q : List α) : List Move → Nat
  | [] => 0
  | .nextBack :: h => (if q = [] then 0 else 1) + backTaken q.dropLast h
  | c :: h => backTaken (dequeStep q c).2 h

/-- One call on one of the crate's iterators.  If the call panics the iterator keeps its state (the panic may
be caught and the iterator used again). -/
def step {α σ : Type} (M : Machine α σ) (s : σ) (c : Move) : Res (Option α) × σ :=
  match (match c with
    | .next => M.next s
    | .nextBack => M.nextBack s
    | .nth n => M.nth n s) with
  | .ok (o, s') => (.ok o, s')
  | .error e => (.error e, s)

/-- A history of calls on one of the crate's iterators: what each call returned, and the final state. -/
def run {α σ : Type} (M : Machine α σ) (s : σ) : List Move → List (Res (Option α)) × σ
  | [] => ([], s)
  | c :: h => ((step M s c).1 :: (run M (step M s c).2 h).1, (run M (step M s c).2 h).2)

/-- The results of a history agree with a double-ended queue, except that an `nth` asking for more items than are
left may panic, which takes nothing from the queue. -/
inductive Agree {α : Type} : List α → List Move → List (Res (Option α)) → Prop
  | nil (q) : Agree q [] []
  | ok {q c h os} : Agree (dequeStep q c).2 h os → Agree q (c :: h) (.ok (dequeStep q c).1 :: os)
  | panic {q n h os} : q.length < n → Agree q h os → Agree q (.nth n :: h) (.error .panic :: os)

/-- From state `s` the iterator behaves as a double-ended queue of `items`, for every history whose skips do not
overflow `usize`. -/
def IsDeque {α σ : Type} (t : Target) (M : Machine α σ) (s : σ) (items : List α) : Prop :=
  ∀ h : List Move, items.length + skips h < t.W → (run M s h).1 = (dequeRun items h).1.map .ok

end Spec
end Rowcol
