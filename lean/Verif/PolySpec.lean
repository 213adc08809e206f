import Verif.ProgSpec
import Mathlib.Algebra.MvPolynomial.CommRing
import Mathlib.Algebra.MvPolynomial.Eval
import Mathlib.Algebra.DualNumber
import Mathlib.Analysis.Calculus.Deriv.Mul

/-! Expressions and programs as polynomials in the numbers they start from (C116): places, formulas, degrees, dual numbers. -/

namespace Rowcol
namespace Prog
open MvPolynomial
variable {T K L : Type} {τ : Ty}

/-- A number in the client's variables: variable `name` of type `ty`, row `row`, column `col` (row 0 and column 0 for a scalar, column 0
for a vector). -/
structure Place where
  ty : Ty
  name : Nat
  row : Nat
  col : Nat
  deriving DecidableEq

/-- The variables with the given numbers in them. -/
def Store.ofPlaces (g : Place → T) : Store T
  | .s, i => g ⟨.s, i, 0, 0⟩
  | .v n, i => Vec.ofFn fun k => g ⟨.v n, i, k, 0⟩
  | .m r c, i => Mat.ofFn fun k l => g ⟨.m r c, i, k, l⟩

/-- The same in linear algebra. -/
def Env.ofPlaces (g : Place → K) : Env K
  | .s, i => g ⟨.s, i, 0, 0⟩
  | .v n, i => fun k => g ⟨.v n, i, k, 0⟩
  | .m r c, i => fun k l => g ⟨.m r c, i, k, l⟩

/-- Apply a function to every number. -/
def Den.map (f : K → L) : (τ : Ty) → Den K τ → Den L τ
  | .s, a => f a
  | .v _, a => fun i => f (a i)
  | .m _ _, a => fun i j => f (a i j)

/-- All numbers have a property. -/
def Den.All (P : K → Prop) : (τ : Ty) → Den K τ → Prop
  | .s, a => P a
  | .v _, a => ∀ i, P (a i)
  | .m _ _, a => ∀ i j, P (a i j)

/-- This step is neither `/` nor `inverse` (`determinant` and `cofactor` of all sizes are allowed). -/
def Ex.NoQuotStep : (τ : Ty) → Ex τ → Prop
  | _, .quot _ _ => False
  | _, .inv _ => False
  | _, _ => True

/-- The expression contains neither `/` nor `inverse`. -/
abbrev Ex.NoQuot (e : Ex τ) : Prop := e.Every Ex.NoQuotStep

/-- The formula of an expression: its value if all numbers in all variables are indeterminates. -/
noncomputable def Ex.formula (e : Ex τ) : Den (MvPolynomial Place ℤ) τ := e.den (fun a _ => a) (Env.ofPlaces X)

/-- Put numbers in for the indeterminates of a formula. -/
noncomputable def Den.subst [CommRing K] (g : Place → K) (τ : Ty) (P : Den (MvPolynomial Place ℤ) τ) : Den K τ :=
  Den.map (eval₂ (Int.castRingHom K) g) τ P

/-- The degree of an expression if variable `i` of type `τ` has degree `δ τ i`: degrees add under `*`, `+` takes the larger one, and so on. -/
def Ex.deg : {τ : Ty} → Ex τ → (Ty → Nat → Nat) → Nat
  | _, .var τ i, δ => δ τ i
  | _, .zero _, _ => 0
  | _, .one, _ => 0
  | _, .ident _, _ => 0
  | _, .bin _ _ a b, δ => max (a.deg δ) (b.deg δ)
  | _, .neg a, δ => a.deg δ
  | _, .scale a s, δ => a.deg δ + s.deg δ
  | _, .quot a _, δ => a.deg δ
  | _, .vsum v, δ => v.deg δ
  | _, .msum a, δ => a.deg δ
  | _, .dot a b, δ => a.deg δ + b.deg δ
  | _, .cross a b, δ => a.deg δ + b.deg δ
  | _, .vget v _, δ => v.deg δ
  | _, .mget a _ _, δ => a.deg δ
  | _, .mul _ a b, δ => a.deg δ + b.deg δ
  | _, .mulVec _ a v, δ => a.deg δ + v.deg δ
  | _, .transposed a, δ => a.deg δ
  | _, .pow a k, δ => k * a.deg δ
  | _, @Ex.det k a, δ => (k + 1) * a.deg δ
  | _, @Ex.cof k a _ _, δ => (k + 1) * a.deg δ
  | _, .inv a, δ => a.deg δ
  | _, @Ex.gen n f, δ => Finset.sup (Finset.range n) fun i => (f i).deg δ
  | _, @Ex.mgen r c f, δ => Finset.sup (Finset.range r ×ˢ Finset.range c) fun p => (f p).deg δ
  | _, @Ex.map r c k f a, δ => Finset.sup (Finset.range r ×ˢ Finset.range c) fun p =>
    (f p).deg (Function.update δ .s (Function.update (δ .s) k (a.deg δ)))
  | _, .diag v, δ => v.deg δ
  | _, .row a _, δ => a.deg δ
  | _, .col a _, δ => a.deg δ

/-- The degree of an expression in the numbers it starts from. -/
def Ex.degree (e : Ex τ) : Nat := e.deg fun _ _ => 1

/-- The program has no `if` and no `while`. -/
def Stmt.Straight : Stmt → Prop
  | .skip => True
  | .act _ => True
  | .seq p q => p.Straight ∧ q.Straight
  | .ite _ _ _ => False
  | .loop _ _ _ => False

/-- The effect of a program without `if` and `while` in linear algebra. -/
noncomputable def Stmt.den [CommRing K] (dv : K → K → K) : Stmt → Env K → Env K
  | .act a, ρ => a.den dv ρ
  | .seq p q, ρ => q.den dv (p.den dv ρ)
  | _, ρ => ρ

/-- The formulas of the final values of all variables, for a program without `if` and `while`. -/
noncomputable def Stmt.formula (p : Stmt) : Env (MvPolynomial Place ℤ) := p.den (fun a _ => a) (Env.ofPlaces X)

/-- The statement contains neither `/` nor `inverse`. -/
def Act.NoQuot : Act → Prop
  | .set _ e => e.NoQuot
  | .upd _ _ e => e.NoQuot
  | .updScale _ _ s => s.NoQuot
  | .updQuot _ _ _ => False
  | .updMul _ e => e.NoQuot
  | .transpose _ _ => True
  | .vset _ _ _ e => e.NoQuot
  | .mset _ _ _ _ _ e => e.NoQuot

/-- The program contains neither `/` nor `inverse`. -/
abbrev Stmt.NoQuot (p : Stmt) : Prop := p.Every Act.NoQuot fun _ e => e.NoQuot

/-- The dual numbers in `d` consist of the numbers in `F 0` and the derivatives of the numbers in `F` at 0. -/
def IsDeriv (τ : Ty) (F : ℝ → Den ℝ τ) (d : Den (DualNumber ℝ) τ) : Prop :=
  Den.map TrivSqZeroExt.fst τ d = F 0 ∧
  match τ, F, d with
  | .s, F, d => HasDerivAt F d.snd 0
  | .v _, F, d => ∀ i, HasDerivAt (fun s => F s i) (d i).snd 0
  | .m _ _, F, d => ∀ i j, HasDerivAt (fun s => F s i j) (d i j).snd 0

end Prog

/-- The operations of dual numbers `a + b ε` with `ε² = 0`, as used for automatic differentiation, over an exact field. -/
def Ops.dual (K : Type) [Field K] [DecidableEq K] : Ops (DualNumber K) where
  zero := (0, 0)
  one := (1, 0)
  add x y := .ok (x.1 + y.1, x.2 + y.2)
  sub x y := .ok (x.1 - y.1, x.2 - y.2)
  mul x y := .ok (x.1 * y.1, x.1 * y.2 + x.2 * y.1)
  div x y := if y.1 = 0 then .error .panic else .ok (x.1 / y.1, (x.2 * y.1 - x.1 * y.2) / (y.1 * y.1))
  neg x := .ok (-x.1, -x.2)
  isZero x := decide (x.1 = 0 ∧ x.2 = 0)

end Rowcol
