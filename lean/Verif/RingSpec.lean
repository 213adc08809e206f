import Verif.PolySpec
import Mathlib.Data.ZMod.Basic

/-! Commutative rings in which not every number has a reciprocal: dual numbers, integers modulo `m` (C117). -/

namespace Rowcol

/-- Division returns a number that gives back the dividend if multiplied by the divisor, or panics. -/
def Ops.ExactDiv {T : Type} [CommRing T] (O : Ops T) : Prop := ∀ a b, O.div a b = .error .panic ∨ ∃ q, O.div a b = .ok q ∧ q * b = a

/-- The same, and division by numbers without a reciprocal panics. -/
def Ops.UnitDiv {T : Type} [CommRing T] (O : Ops T) : Prop :=
  ∀ a b, O.div a b = .error .panic ∨ ∃ q, O.div a b = .ok q ∧ q * b = a ∧ IsUnit b

/-- Exact arithmetic modulo `m`; division by numbers without a reciprocal modulo `m` panics. -/
def Ops.zmod (m : Nat) : Ops (ZMod m) where
  zero := 0
  one := 1
  add x y := .ok (x + y)
  sub x y := .ok (x - y)
  mul x y := .ok (x * y)
  div x y := if y.val.Coprime m then .ok (x * y⁻¹) else .error .panic
  neg x := .ok (-x)
  isZero x := decide (x = 0)

namespace Prog
variable {K L : Type} {τ : Ty}

/-- Multiplication by the reciprocal (zero if there is none). -/
noncomputable def ringDiv [CommRing K] (a b : K) : K := a * Ring.inverse b

/-- Values of this type contain at least one number. -/
def Ty.NonEmpty : Ty → Prop
  | .s => True
  | .v n => 0 < n
  | .m r c => 0 < r ∧ 0 < c

/-- All indices are in range, all divisors have reciprocals (the divisor of a value without entries excepted), and so have the
determinants of all inverted matrices and, from size 4 on, all their leading principal minors. -/
def Ex.Defined [CommRing K] : {τ : Ty} → Ex τ → Env K → Prop
  | _, .var _ _, _ => True
  | _, .zero _, _ => True
  | _, .one, _ => True
  | _, .ident _, _ => True
  | _, .bin _ _ a b, ρ => a.Defined ρ ∧ b.Defined ρ
  | _, .neg a, ρ => a.Defined ρ
  | _, .scale a s, ρ => a.Defined ρ ∧ s.Defined ρ
  | τ, .quot a s, ρ => a.Defined ρ ∧ s.Defined ρ ∧ (τ.NonEmpty → IsUnit (show K from s.den ringDiv ρ))
  | _, .vsum v, ρ => v.Defined ρ
  | _, .msum a, ρ => a.Defined ρ
  | _, .dot a b, ρ => a.Defined ρ ∧ b.Defined ρ
  | _, .cross a b, ρ => a.Defined ρ ∧ b.Defined ρ
  | _, @Ex.vget n v i, ρ => v.Defined ρ ∧ i < n
  | _, @Ex.mget r c a i j, ρ => a.Defined ρ ∧ i < r ∧ j < c
  | _, .mul _ a b, ρ => a.Defined ρ ∧ b.Defined ρ
  | _, .mulVec _ a v, ρ => a.Defined ρ ∧ v.Defined ρ
  | _, .transposed a, ρ => a.Defined ρ
  | _, .pow a _, ρ => a.Defined ρ
  | _, .det a, ρ => a.Defined ρ
  | _, @Ex.cof k a i j, ρ => a.Defined ρ ∧ i < k + 2 ∧ j < k + 2
  | _, @Ex.inv k a, ρ => a.Defined ρ ∧ IsUnit (Matrix.det (a.den ringDiv ρ)) ∧
    (3 ≤ k → ∀ l, ∀ hl : l ≤ k + 1, IsUnit (Matrix.submatrix (a.den ringDiv ρ) (Fin.castLE hl) (Fin.castLE hl)).det)
  | _, @Ex.gen n f, ρ => ∀ i < n, (f i).Defined ρ
  | _, @Ex.mgen r c f, ρ => ∀ i < r, ∀ j < c, (f (i, j)).Defined ρ
  | _, @Ex.map r c k f a, ρ =>
    a.Defined ρ ∧ ∀ (i : Fin r) (j : Fin c), (f (i.val, j.val)).Defined (ρ.put .s k (a.den ringDiv ρ i j))
  | _, .diag v, ρ => v.Defined ρ
  | _, @Ex.row r _ a i, ρ => a.Defined ρ ∧ i < r
  | _, @Ex.col _ c a j, ρ => a.Defined ρ ∧ j < c

/-- The same for a statement. -/
def Act.Defined [CommRing K] : Act → Env K → Prop
  | .set _ e, ρ => e.Defined ρ
  | .upd _ _ e, ρ => e.Defined ρ
  | .updScale _ _ s, ρ => s.Defined ρ
  | .updQuot τ _ s, ρ => s.Defined ρ ∧ (τ.NonEmpty → IsUnit (show K from s.den ringDiv ρ))
  | .updMul _ e, ρ => e.Defined ρ
  | .transpose _ _, _ => True
  | .vset n _ k e, ρ => e.Defined ρ ∧ k < n
  | .mset r c _ k l e, ρ => e.Defined ρ ∧ k < r ∧ l < c

/-- The same for a program without `if` and `while`. -/
def Stmt.Defined [CommRing K] : Stmt → Env K → Prop
  | .act a, ρ => a.Defined ρ
  | .seq p q, ρ => p.Defined ρ ∧ q.Defined (p.den ringDiv ρ)
  | _, _ => True

/-- The numbers in two values are related pairwise. -/
def Den.Rel (R : K → L → Prop) : (τ : Ty) → Den K τ → Den L τ → Prop
  | .s, a, b => R a b
  | .v _, a, b => ∀ i, R (a i) (b i)
  | .m _ _, a, b => ∀ i j, R (a i j) (b i j)

/-- The fraction `x`, with a denominator prime to `m`, is `z` modulo `m`. -/
def Reduces (m : Nat) (x : ℚ) (z : ZMod m) : Prop := x.den.Coprime m ∧ (x.num : ZMod m) = z * (x.den : ZMod m)

end Prog
end Rowcol
