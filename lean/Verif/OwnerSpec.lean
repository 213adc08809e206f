import Verif.Model.Ownership

/-! # What programs that own elements do, in terms of lists

The specification for C108.  Nothing here knows about slots, indices into arrays, or reads and writes of memory: a variable
holds a list of elements, a queue of elements, or nothing.  The programs (`Stmt`) and the behaviours of the element
operations (`Beh`, `Beh2`, `BehA`) are those of `Verif/Model/Ownership.lean`. -/

namespace Rowcol
namespace Owner
namespace Spec

/-- What a variable holds, as its user sees it: nothing; an element; a vector; an `r` × `c` matrix, row by row; an owning
iterator from whose front `taken` elements have gone and which still has the elements `l`; a chunk iterator. -/
inductive Shown where
  | none
  | elem (x : Nat)
  | vec (l : List Nat)
  | mat (r c : Nat) (l : List Nat)
  | queue (taken : Nat) (l : List Nat)
  | chunks (I : Nat) (l : List Nat)
  deriving DecidableEq

/-- The elements in it. -/
def Shown.elems : Shown → List Nat
  | .none => []
  | .elem x => [x]
  | .vec l => l
  | .mat _ _ l => l
  | .queue _ l => l
  | .chunks _ l => l

variable {k : Nat}

/-- What all variables hold, the number of elements created so far, and the elements destroyed so far, in order. -/
@[ext] structure Table (k : Nat) where
  vars : Fin k → Shown
  fresh : Nat
  gone : List Nat

/-- Change what a variable holds. -/
def Table.set (s : Table k) (x : Fin k) (o : Shown) : Table k := { s with vars := fun i => if i = x then o else s.vars i }

/-- Elements are destroyed. -/
def Table.destroy (s : Table k) (l : List Nat) : Table k := { s with gone := s.gone ++ l }

/-- Elements are created. -/
def Table.create (s : Table k) (n : Nat) : Table k := { s with fresh := s.fresh + n }

/-- Assignment: what the variable held is destroyed. -/
def Table.assign (s : Table k) (x : Fin k) (o : Shown) : Table k := (s.destroy (s.vars x).elems).set x o

/-- Element operations: the result (nothing if it panics), the elements destroyed, and the next free number. -/
def unary : Beh → Nat → Nat → Option Nat × List Nat × Nat
  | .keep, x, f => (some x, [], f)
  | .replace, x, f => (some f, [x], f + 1)
  | .panic, x, f => (none, [x], f)

/-- The same for two operands. -/
def binary : Beh2 → Nat → Nat → Nat → Option Nat × List Nat × Nat
  | .left, x, y, f => (some x, [y], f)
  | .right, x, y, f => (some y, [x], f)
  | .replace, x, y, f => (some f, [x, y], f + 1)
  | .panic, x, y, f => (none, [y, x], f)

/-- Assigning operations: whether it returned, what the left place holds then, the elements destroyed, the next free number. -/
def assigning : BehA → Nat → Nat → Nat → Bool × Nat × List Nat × Nat
  | .keep, a, b, f => (true, a, [b], f)
  | .swap, a, b, f => (true, b, [a], f)
  | .replace, a, b, f => (true, f, [a, b], f + 1)
  | .panicKeep, a, b, f => (false, a, [b], f)
  | .panicReplace, a, b, f => (false, f, [a, b], f + 1)

/-- Give the items to an operation one after the other until it panics: the results (if it never does), the elements it
destroyed, the next free number, and the items it was not given. -/
def each {X : Type} (op : X → Nat → Option Nat × List Nat × Nat) : List X → Nat → Option (List Nat) × List Nat × Nat × List X
  | [], f => (some [], [], f, [])
  | x :: xs, f =>
    match op x f with
    | (none, d, f') => (none, d, f', xs)
    | (some z, d, f') =>
      match each op xs f' with
      | (r, d', f'', rest) => (r.map (z :: ·), d ++ d', f'', rest)

/-- The same for an assigning operation on pairs: whether it never panicked, what the left places hold in the end, the
elements it destroyed, the next free number, and the right elements it was not given. -/
def eachAssign (op : Nat → Nat → Nat → Bool × Nat × List Nat × Nat) :
    List (Nat × Nat) → Nat → Bool × List Nat × List Nat × Nat × List Nat
  | [], f => (true, [], [], f, [])
  | (a, b) :: ps, f =>
    match op a b f with
    | (false, a', d, f') => (false, a' :: ps.map Prod.fst, d, f', ps.map Prod.snd)
    | (true, a', d, f') =>
      match eachAssign op ps f' with
      | (ok, as, d', f'', rest) => (ok, a' :: as, d ++ d', f'', rest)

/-- The order in which two operands' elements are destroyed when the operation has panicked: those of the current row (`m` of
them) of the left and then of the right operand, then the others likewise. -/
def leftOvers (m : Nat) (rest : List (Nat × Nat)) : List Nat :=
  (rest.take m).map Prod.fst ++ (rest.take m).map Prod.snd ++ ((rest.drop m).map Prod.fst ++ (rest.drop m).map Prod.snd)

/-- The end of a consuming operation: store the result, or destroy what is left and report the panic. -/
def finish (s : Table k) (y : Fin k) (mk : List Nat → Shown) (left : List Nat) (d : List Nat) (f : Nat) :
    Option (List Nat) → Bool × Table k
  | some zs => (true, ({ s with fresh := f }.destroy d).assign y (mk zs))
  | none => (false, ({ s with fresh := f }.destroy d).destroy left)

/-- One statement: whether it completed (otherwise it panicked), and what holds afterwards. -/
def perform (t : Target) : Stmt k → Table k → Bool × Table k
  | .new x, s => (true, (s.create 1).assign x (.elem s.fresh))
  | .collect x n src, s =>
    let a := (src.takeWhile id).length  -- what the source gives before it ends or panics
    let items := List.range' s.fresh a
    if n ≤ a ∧ (t.debugAssertions = false ∨ (a = n ∧ src.length = a)) then
      (true, (s.create n).assign x (.vec (items.take n)))
    else if n ≤ a then (false, (s.create a).destroy (items.drop n))  -- surplus is noticed; the array is lost
    else if src.length = a then (false, (s.create a).destroy items)  -- too few
    else (false, s.create a)  -- the source panicked; what was collected is lost
  | .drop x, s => (true, s.assign x .none)
  | .move x y, s => (true, if x = y then s else (s.set x .none).assign y (s.vars x))
  | .map x y f, s =>
    match s.vars x with
    | .vec l =>
      match each (fun p => unary (f (p.2, 0)) p.1) l.zipIdx s.fresh with
      | (r, d, fr, rest) => finish (s.set x .none) y .vec (rest.map Prod.fst) d fr r
    | .mat rw c l =>
      match each (fun p => unary (f (p.2 / c, p.2 % c)) p.1) l.zipIdx s.fresh with
      | (r, d, fr, rest) => finish (s.set x .none) y (.mat rw c) (rest.map Prod.fst) d fr r
    | _ => (true, s)
  | .zip x y z f, s =>
    if x = y then (true, s) else
    match s.vars x, s.vars y with
    | .vec l, .vec l' =>
      if l.length = l'.length then
        match each (fun p => binary (f p.1) p.1 p.2) (l.zip l') s.fresh with
        | (r, d, fr, rest) => finish ((s.set x .none).set y .none) z .vec (leftOvers rest.length rest) d fr r
      else (true, s)
    | .mat rw c l, .mat rw' c' l' =>
      if rw' = rw ∧ c' = c then
        match each (fun p => binary (f p.1) p.1 p.2) (l.zip l') s.fresh with
        | (r, d, fr, rest) => finish ((s.set x .none).set y .none) z (.mat rw c) (leftOvers (rest.length % c) rest) d fr r
      else (true, s)
    | _, _ => (true, s)
  | .assign x y f, s =>
    if x = y then (true, s) else
    match s.vars x, s.vars y with
    | .vec l, .vec l' =>
      if l.length = l'.length then
        match eachAssign (fun a b => assigning (f b) a b) (l.zip l') s.fresh with
        | (ok, as, d, fr, rest) => (ok, { ((s.set x (.vec as)).set y .none) with fresh := fr }.destroy (d ++ rest))
      else (true, s)
    | .mat rw c l, .mat rw' c' l' =>
      if rw' = rw ∧ c' = c then
        match eachAssign (fun a b => assigning (f b) a b) (l.zip l') s.fresh with
        | (ok, as, d, fr, rest) => (ok, { ((s.set x (.mat rw c as)).set y .none) with fresh := fr }.destroy (d ++ rest))
      else (true, s)
    | _, _ => (true, s)
  | .write x i y, s =>
    match s.vars x, s.vars y with
    | .vec l, .elem e =>
      if h : i < l.length then (true, ((s.set x (.vec (l.set i e))).set y .none).destroy [l[i]])
      else (false, (s.set y .none).destroy [e])
    | _, _ => (true, s)
  | .intoIter x, s =>
    match s.vars x with
    | .vec l => (true, s.set x (.queue 0 l))
    | _ => (true, s)
  | .intoChunks x I, s =>
    match s.vars x with
    | .vec l => (true, if 0 < I ∧ l.length % I = 0 then s.set x (.chunks I l) else s)
    | _ => (true, s)
  | .next x y, s =>
    if x = y then (true, s) else
    match s.vars x with
    | .queue n [] => (true, (s.set x (.queue n [])).assign y .none)
    | .queue n (a :: l) => (true, (s.set x (.queue (n + 1) l)).assign y (.elem a))
    | .chunks I l =>
      (true, if l = [] then s.assign y .none else (s.set x (.chunks I (l.drop I))).assign y (.vec (l.take I)))
    | _ => (true, s)
  | .nextBack x y, s =>
    if x = y then (true, s) else
    match s.vars x with
    | .queue n l =>
      (true, match l.getLast? with
        | none => s.assign y .none
        | some a => (s.set x (.queue n l.dropLast)).assign y (.elem a))
    | .chunks I l =>
      (true, if l = [] then s.assign y .none
        else (s.set x (.chunks I (l.take (l.length - I)))).assign y (.vec (l.drop (l.length - I))))
    | _ => (true, s)
  | .nth x y i, s =>
    if x = y then (true, s) else
    match s.vars x with
    | .queue n l =>
      if l.length < i then (false, s)
      else
        match l.drop i with
        | [] => (true, ((s.destroy l).set x (.queue (n + i) [])).assign y .none)
        | a :: l' => (true, ((s.destroy (l.take i)).set x (.queue (n + i + 1) l')).assign y (.elem a))
    | _ => (true, s)
  | .gather x y n, s =>
    if x = y then (true, s) else
    match s.vars x with
    | .queue _ l =>
      if l.length = n ∨ (n < l.length ∧ t.debugAssertions = false) then
        (true, ((s.set x .none).destroy (l.drop n)).assign y (.vec (l.take n)))
      else if n < l.length then (false, (s.set x .none).destroy (l.drop n))
      else (false, (s.set x .none).destroy l)
    | _ => (true, s)
  | .toMat x r c, s =>
    match s.vars x with
    | .vec l => (true, if l.length = r * c ∧ 0 < c then s.set x (.mat r c l) else s)
    | _ => (true, s)

/-- The statements for which the library gives no guarantee (C77): `next_back` on an exhausted owning iterator whose front was
used, and `nth(i)` past its end (unless an overflow check stops it).  Lengths are machine numbers. -/
def Allowed (t : Target) (s : Table k) : Stmt k → Prop
  | .collect _ n _ => n < t.W
  | .gather _ _ n => n < t.W
  | .toMat _ r c => r < t.W ∧ c < t.W
  | .nextBack x y => x ≠ y → ∀ n, s.vars x = .queue n [] → n = 0
  | .nth x y i => x ≠ y → ∀ n l, s.vars x = .queue n l → i ≤ l.length ∨ (t.overflowChecks = true ∧ t.W ≤ n + i)
  | _ => True

/-- A whole program: which statements completed, and what holds in the end. -/
def play (t : Target) : List (Stmt k) → Table k → List Bool × Table k
  | [], s => ([], s)
  | p :: ps, s => ((perform t p s).1 :: (play t ps (perform t p s).2).1, (play t ps (perform t p s).2).2)

/-- Every statement is allowed when it is reached. -/
def AllAllowed (t : Target) : List (Stmt k) → Table k → Prop
  | [], _ => True
  | p :: ps, s => Allowed t s p ∧ AllAllowed t ps (perform t p s).2

/-- The start. -/
def start : Table k := ⟨fun _ => .none, 0, []⟩

end Spec
end Owner
end Rowcol
