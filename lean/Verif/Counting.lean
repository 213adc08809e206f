import Verif.Model.Effects
import Mathlib.Algebra.Order.Pi
import Mathlib.Algebra.Order.Group.Nat

/-! Counting the calls of element operations: the specification used by `Verif/Props/Effects.lean`. -/

namespace Rowcol

/-- The operations of an element type that are counted. -/
inductive Op where
  | clone | zero | one | add | sub | mul | div | neg | isZero
  deriving DecidableEq, Repr


set_option linter.constructorNameAsVariable false in
/-- So many calls of each operation. -/
def calls (clone zero one add sub mul div neg isZero : Nat := 0) : Op → Nat
  | .clone => clone
  | .zero => zero
  | .one => one
  | .add => add
  | .sub => sub
  | .mul => mul
  | .div => div
  | .neg => neg
  | .isZero => isZero

/-- Count one call. -/
def tick (k : Op) : StM (Op → Nat) Unit := modify fun s j => if j = k then s j + 1 else s j

/-- The element type with operations `O` whose every call is counted, also when it panics; `T * &T` counts as `*`. -/
def Elem.counting {T : Type} (O : Ops T) : Elem (StM (Op → Nat)) T where
  clone x := do tick .clone; pure x
  zero := do tick .zero; pure O.zero
  one := do tick .one; pure O.one
  add x y := do tick .add; liftRes (O.add x y)
  sub x y := do tick .sub; liftRes (O.sub x y)
  mul x y := do tick .mul; liftRes (O.mul x y)
  mulRef x y := do tick .mul; liftRes (O.mul x y)
  div x y := do tick .div; liftRes (O.div x y)
  neg x := do tick .neg; liftRes (O.neg x)
  isZero x := do tick .isZero; pure (O.isZero x)

/-- `CountsIf P x y c`: with counted operations, the program `x` ends exactly as `y` does; it makes at most the calls `c`, and
exactly these if it returns a value that satisfies `P`. -/
def CountsIf {α : Type} (P : α → Prop) (x : StM (Op → Nat) α) (y : Res α) (c : Op → Nat) : Prop :=
  ∃ d : Op → Nat, (∀ s, x.run s = (y, s + d)) ∧ d ≤ c ∧ ∀ v, y = .ok v → P v → d = c

/-- Exactly the calls `c` if it returns, at most these if it panics. -/
abbrev Counts {α : Type} (x : StM (Op → Nat) α) (y : Res α) (c : Op → Nat) : Prop := CountsIf (fun _ => True) x y c

/-- At most the calls `c`. -/
abbrev CountsLe {α : Type} (x : StM (Op → Nat) α) (y : Res α) (c : Op → Nat) : Prop := CountsIf (fun _ => False) x y c

end Rowcol
