import Verif.Model.Program
import Verif.Props.Ratio

/-! Whole programs: which programs the theorems are about, and what a program means in linear algebra. -/

namespace Rowcol
namespace Prog
variable {T K : Type} {τ : Ty}

/-- A predicate holds for an expression and all its subexpressions. -/
def Ex.Every (P : ∀ τ, Ex τ → Prop) : {τ : Ty} → Ex τ → Prop
  | _, .var τ i => P _ (.var τ i)
  | _, .zero τ => P _ (.zero τ)
  | _, .one => P _ .one
  | _, .ident n => P _ (.ident n)
  | _, .bin o f a b => P _ (.bin o f a b) ∧ a.Every P ∧ b.Every P
  | _, .neg a => P _ (.neg a) ∧ a.Every P
  | _, .scale a s => P _ (.scale a s) ∧ a.Every P ∧ s.Every P
  | _, .quot a s => P _ (.quot a s) ∧ a.Every P ∧ s.Every P
  | _, .vsum v => P _ (.vsum v) ∧ v.Every P
  | _, .msum a => P _ (.msum a) ∧ a.Every P
  | _, .dot a b => P _ (.dot a b) ∧ a.Every P ∧ b.Every P
  | _, .cross a b => P _ (.cross a b) ∧ a.Every P ∧ b.Every P
  | _, .vget v i => P _ (.vget v i) ∧ v.Every P
  | _, .mget a i j => P _ (.mget a i j) ∧ a.Every P
  | _, .mul f a b => P _ (.mul f a b) ∧ a.Every P ∧ b.Every P
  | _, .mulVec r a v => P _ (.mulVec r a v) ∧ a.Every P ∧ v.Every P
  | _, .transposed a => P _ (.transposed a) ∧ a.Every P
  | _, .pow a k => P _ (.pow a k) ∧ a.Every P
  | _, .det a => P _ (.det a) ∧ a.Every P
  | _, .cof a i j => P _ (.cof a i j) ∧ a.Every P
  | _, .inv a => P _ (.inv a) ∧ a.Every P
  | _, @Ex.gen n f => P _ (@Ex.gen n f) ∧ ∀ i < n, (f i).Every P
  | _, @Ex.mgen r c f => P _ (@Ex.mgen r c f) ∧ ∀ i < r, ∀ j < c, (f (i, j)).Every P
  | _, @Ex.map r c k f a => P _ (.map k f a) ∧ a.Every P ∧ ∀ i < r, ∀ j < c, (f (i, j)).Every P
  | _, @Ex.diag r c v => P _ (@Ex.diag r c v) ∧ v.Every P
  | _, .row a i => P _ (.row a i) ∧ a.Every P
  | _, .col a j => P _ (.col a j) ∧ a.Every P

/-- Twice the number of rows and twice the number of columns fit `usize`. -/
def Ty.Small (W : Nat) : Ty → Prop
  | .s => True
  | .v n => 2 * n < W
  | .m r c => 2 * r < W ∧ 2 * c < W

/-- This step's result type is small and the indices of `cofactor` and `nth` are values of `usize`. -/
def Ex.SmallStep (W : Nat) : (τ : Ty) → Ex τ → Prop
  | _, .cof _ i j => i < W ∧ j < W
  | _, @Ex.row _ c _ i => (Ty.v c).Small W ∧ i < W
  | _, @Ex.col r _ _ j => (Ty.v r).Small W ∧ j < W
  | τ, _ => τ.Small W

/-- This step does not divide: no `/`, no `inverse`, `determinant` up to size 3, `cofactor` up to size 4. -/
def Ex.DivFreeStep : (τ : Ty) → Ex τ → Prop
  | _, .quot _ _ => False
  | _, .inv _ => False
  | _, @Ex.det k _ => k ≤ 2
  | _, @Ex.cof k _ _ _ => k ≤ 2
  | _, _ => True

/-- The indices of this step are in range. -/
def Ex.InRangeStep : (τ : Ty) → Ex τ → Prop
  | _, @Ex.vget n _ i => i < n
  | _, @Ex.mget r c _ i j => i < r ∧ j < c
  | _, @Ex.cof k _ i j => i < k + 2 ∧ j < k + 2
  | _, @Ex.row r _ _ i => i < r
  | _, @Ex.col _ c _ j => j < c
  | _, _ => True

/-- All sizes in the expression are less than half of `usize` (in the crate they are at most 32). -/
abbrev Ex.Small (W : Nat) (e : Ex τ) : Prop := e.Every (Ex.SmallStep W)
/-- The expression does not divide. -/
abbrev Ex.DivFree (e : Ex τ) : Prop := e.Every Ex.DivFreeStep
/-- All indices in the expression are in range. -/
abbrev Ex.InRange (e : Ex τ) : Prop := e.Every Ex.InRangeStep

/-- All expressions and variables of a statement are small. -/
def Act.Small (W : Nat) : Act → Prop
  | @Act.set τ _ e => τ.Small W ∧ e.Small W
  | @Act.upd τ _ _ e => τ.Small W ∧ e.Small W
  | .updScale τ _ s => τ.Small W ∧ s.Small W
  | .updQuot τ _ s => τ.Small W ∧ s.Small W
  | @Act.updMul n _ e => 2 * n < W ∧ e.Small W
  | .transpose n _ => 2 * n < W
  | .vset n _ _ e => 2 * n < W ∧ e.Small W
  | .mset r c _ _ _ e => 2 * r < W ∧ 2 * c < W ∧ e.Small W

/-- The statement does not divide. -/
def Act.DivFree : Act → Prop
  | .set _ e => e.DivFree
  | .upd _ _ e => e.DivFree
  | .updScale _ _ s => s.DivFree
  | .updQuot _ _ _ => False
  | .updMul _ e => e.DivFree
  | .transpose _ _ => True
  | .vset _ _ _ e => e.DivFree
  | .mset _ _ _ _ _ e => e.DivFree

/-- All indices in the statement are in range. -/
def Act.InRange : Act → Prop
  | .set _ e => e.InRange
  | .upd _ _ e => e.InRange
  | .updScale _ _ s => s.InRange
  | .updQuot _ _ s => s.InRange
  | .updMul _ e => e.InRange
  | .transpose _ _ => True
  | .vset n _ k e => k < n ∧ e.InRange
  | .mset r c _ k l e => k < r ∧ l < c ∧ e.InRange

/-- A condition on every statement without control flow, and on every test, of a program. -/
def Stmt.Every (P : Act → Prop) (Q : ∀ τ, Ex τ → Prop) : Stmt → Prop
  | .skip => True
  | .act a => P a
  | .seq p q => p.Every P Q ∧ q.Every P Q
  | .ite e p q => Q _ e ∧ p.Every P Q ∧ q.Every P Q
  | .loop _ e p => Q _ e ∧ p.Every P Q

/-- All sizes in the program are less than half of `usize`. -/
abbrev Stmt.Small (W : Nat) (p : Stmt) : Prop := p.Every (Act.Small W) fun _ e => e.Small W
/-- The program does not divide. -/
abbrev Stmt.DivFree (p : Stmt) : Prop := p.Every Act.DivFree fun _ e => e.DivFree
/-- All indices in the program are in range. -/
abbrev Stmt.InRange (p : Stmt) : Prop := p.Every Act.InRange fun _ e => e.InRange

/-! ## What a program means in linear algebra -/

/-- Mathematical values: numbers, coordinate vectors, matrices. -/
abbrev Den (K : Type) : Ty → Type
  | .s => K
  | .v n => Fin n → K
  | .m r c => Matrix (Fin r) (Fin c) K

instance [CommRing K] : (τ : Ty) → AddCommGroup (Den K τ)
  | .s => inferInstanceAs (AddCommGroup K)
  | .v n => inferInstanceAs (AddCommGroup (Fin n → K))
  | .m r c => inferInstanceAs (AddCommGroup (Matrix (Fin r) (Fin c) K))

instance [CommRing K] : (τ : Ty) → Module K (Den K τ)
  | .s => inferInstanceAs (Module K K)
  | .v n => inferInstanceAs (Module K (Fin n → K))
  | .m r c => inferInstanceAs (Module K (Matrix (Fin r) (Fin c) K))

/-- Divide every coordinate, with `dv` for the division of numbers. -/
def Den.quot (dv : K → K → K) : (τ : Ty) → Den K τ → K → Den K τ
  | .s, a, s => dv a s
  | .v _, a, s => fun i => dv (a i) s
  | .m _ _, a, s => fun i j => dv (a i j) s

/-- Values of all variables. -/
def Env (K : Type) : Type := ∀ τ : Ty, Nat → Den K τ

/-- Give variable `i` of type `τ` a new value. -/
def Env.put (ρ : Env K) (τ : Ty) (i : Nat) (x : Den K τ) : Env K := Function.update ρ τ (Function.update (ρ τ) i x)

open Matrix in
/-- The value of an expression in linear algebra. -/
noncomputable def Ex.den [CommRing K] (dv : K → K → K) : {τ : Ty} → Ex τ → Env K → Den K τ
  | _, .var τ i, ρ => ρ τ i
  | _, .zero _, _ => 0
  | _, .one, _ => (1 : K)
  | _, .ident n, _ => (1 : Matrix (Fin n) (Fin n) K)
  | _, .bin .add _ a b, ρ => a.den dv ρ + b.den dv ρ
  | _, .bin .sub _ a b, ρ => a.den dv ρ - b.den dv ρ
  | _, .neg a, ρ => -a.den dv ρ
  | _, .scale a s, ρ => (show K from s.den dv ρ) • a.den dv ρ
  | _, @Ex.quot τ a s, ρ => Den.quot dv τ (a.den dv ρ) (s.den dv ρ)
  | _, @Ex.vsum _ v, ρ => ∑ i, v.den dv ρ i
  | _, @Ex.msum _ _ a, ρ => ∑ i, ∑ j, a.den dv ρ i j
  | _, @Ex.dot _ a b, ρ => a.den dv ρ ⬝ᵥ b.den dv ρ
  | _, .cross a b, ρ => crossProduct (a.den dv ρ) (b.den dv ρ)
  | _, @Ex.vget n v i, ρ => if h : i < n then v.den dv ρ ⟨i, h⟩ else (0 : K)
  | _, @Ex.mget r c a i j, ρ => if h : i < r ∧ j < c then a.den dv ρ ⟨i, h.1⟩ ⟨j, h.2⟩ else (0 : K)
  | _, @Ex.mul l n c _ a b, ρ =>
    (show Matrix (Fin l) (Fin n) K from a.den dv ρ) * (show Matrix (Fin n) (Fin c) K from b.den dv ρ)
  | _, .mulVec _ a v, ρ => Matrix.mulVec (a.den dv ρ) (v.den dv ρ)
  | _, .transposed a, ρ => Matrix.transpose (a.den dv ρ)
  | _, @Ex.pow n a k, ρ => (show Matrix (Fin n) (Fin n) K from a.den dv ρ) ^ k
  | _, .det a, ρ => Matrix.det (a.den dv ρ)
  | _, @Ex.cof k a i j, ρ => if h : i < k + 2 ∧ j < k + 2 then
      (-1 : K) ^ (i + j) * (Matrix.submatrix (a.den dv ρ) (Fin.succAbove ⟨i, h.1⟩) (Fin.succAbove ⟨j, h.2⟩)).det else (0 : K)
  | _, @Ex.inv k a, ρ => (show Matrix (Fin (k + 1)) (Fin (k + 1)) K from a.den dv ρ)⁻¹
  | _, @Ex.gen n f, ρ => fun i : Fin n => (f i).den dv ρ
  | _, @Ex.mgen r c f, ρ => fun (i : Fin r) (j : Fin c) => (f (i.val, j.val)).den dv ρ
  | _, @Ex.map r c k f a, ρ => fun (i : Fin r) (j : Fin c) => (f (i.val, j.val)).den dv (ρ.put .s k (a.den dv ρ i j))
  | _, @Ex.diag r c v, ρ => fun (i : Fin r) (j : Fin c) =>
    if h : i.val = j.val then v.den dv ρ ⟨i, Nat.lt_min.2 ⟨i.isLt, h ▸ j.isLt⟩⟩ else (0 : K)
  | _, @Ex.row r _ a i, ρ => if h : i < r then a.den dv ρ ⟨i, h⟩ else 0
  | _, @Ex.col r c a j, ρ => if h : j < c then fun i : Fin r => a.den dv ρ i ⟨j, h⟩ else 0

/-- The effect of a statement in linear algebra. -/
noncomputable def Act.den [CommRing K] (dv : K → K → K) (ρ : Env K) : Act → Env K
  | @Act.set τ i e => ρ.put τ i (e.den dv ρ)
  | @Act.upd τ .add i e => ρ.put τ i (ρ τ i + e.den dv ρ)
  | @Act.upd τ .sub i e => ρ.put τ i (ρ τ i - e.den dv ρ)
  | .updScale τ i s => ρ.put τ i ((show K from s.den dv ρ) • ρ τ i)
  | .updQuot τ i s => ρ.put τ i (Den.quot dv τ (ρ τ i) (s.den dv ρ))
  | @Act.updMul n i e => ρ.put (.m n n) i
      ((show Matrix (Fin n) (Fin n) K from ρ (.m n n) i) * (show Matrix (Fin n) (Fin n) K from e.den dv ρ))
  | .transpose n i => ρ.put (.m n n) i (Matrix.transpose (ρ (.m n n) i))
  | .vset n i k e => ρ.put (.v n) i fun j => if j.val = k then e.den dv ρ else ρ (.v n) i j
  | .mset r c i k l e => ρ.put (.m r c) i fun a b => if a.val = k ∧ b.val = l then e.den dv ρ else ρ (.m r c) i a b

/-- `Means dv p ρ ρ'`: computing with exact numbers, the program takes the variables from `ρ` to `ρ'`. -/
inductive Means [CommRing K] (dv : K → K → K) : Stmt → Env K → Env K → Prop where
  | skip (ρ : Env K) : Means dv .skip ρ ρ
  | act (a : Act) (ρ : Env K) : Means dv (.act a) ρ (a.den dv ρ)
  | seq {p q ρ ρ' ρ''} : Means dv p ρ ρ' → Means dv q ρ' ρ'' → Means dv (.seq p q) ρ ρ''
  | iteZero {τ : Ty} {e : Ex τ} {p q ρ ρ'} : e.den dv ρ = 0 → Means dv p ρ ρ' → Means dv (.ite e p q) ρ ρ'
  | iteElse {τ : Ty} {e : Ex τ} {p q ρ ρ'} : e.den dv ρ ≠ 0 → Means dv q ρ ρ' → Means dv (.ite e p q) ρ ρ'
  | loopGo {τ : Ty} {b : Bool} {e : Ex τ} {p ρ ρ' ρ''} : (e.den dv ρ = 0 ↔ b = true) → Means dv p ρ ρ' →
      Means dv (.loop b e p) ρ' ρ'' → Means dv (.loop b e p) ρ ρ''
  | loopEnd {τ : Ty} {b : Bool} {e : Ex τ} {p ρ} : ¬ (e.den dv ρ = 0 ↔ b = true) → Means dv (.loop b e p) ρ ρ

/-- The numbers in a value. -/
def Val.den (φ : T → K) : (τ : Ty) → Val T τ → Den K τ
  | .s, a => φ a
  | .v _, a => Vec.vals φ a
  | .m _ _, a => Mat.vals φ a

/-- The numbers in the variables. -/
def Store.den (φ : T → K) (σ : Store T) : Env K := fun τ i => Val.den φ τ (σ τ i)

end Prog
end Rowcol
