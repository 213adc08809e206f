import Verif.ProgSpec

/-! Rewriting programs (C114): when do two expressions, statements or programs say the same thing in linear algebra? -/

namespace Rowcol
namespace Prog
variable {τ : Ty}

/-- Two expressions have the same value over all commutative rings, for all values of the variables. -/
def Ex.Same (e₁ e₂ : Ex τ) : Prop := ∀ (K : Type) [CommRing K] (dv : K → K → K) (ρ : Env K), e₁.den dv ρ = e₂.den dv ρ

/-- Two statements without control flow have the same effect over all commutative rings. -/
def Act.Same (a b : Act) : Prop := ∀ (K : Type) [CommRing K] (dv : K → K → K) (ρ : Env K), a.den dv ρ = b.den dv ρ

/-- Two expressions have the same value over all fields, with division of numbers (`a / 0 = 0`, but then the program panics). -/
def Ex.SameField (e₁ e₂ : Ex τ) : Prop := ∀ (K : Type) [Field K] (ρ : Env K), e₁.den (· / ·) ρ = e₂.den (· / ·) ρ

/-- Two statements without control flow have the same effect over all fields. -/
def Act.SameField (a b : Act) : Prop := ∀ (K : Type) [Field K] (ρ : Env K), a.den (· / ·) ρ = b.den (· / ·) ρ

/-- Rewriting programs: replace expressions (by `E`) and statements (by `A`) anywhere, remove `skip`, regroup sequences, move what
follows an `if` into its branches, unroll a loop once; any number of times, in both directions. -/
inductive Stmt.SameBy (E : ∀ {τ : Ty}, Ex τ → Ex τ → Prop) (A : Act → Act → Prop) : Stmt → Stmt → Prop where
  | refl (p) : SameBy E A p p
  | symm {p q} : SameBy E A p q → SameBy E A q p
  | trans {p q r} : SameBy E A p q → SameBy E A q r → SameBy E A p r
  | act {a b : Act} : A a b → SameBy E A (.act a) (.act b)
  | seq {p p' q q'} : SameBy E A p p' → SameBy E A q q' → SameBy E A (.seq p q) (.seq p' q')
  | ite {τ : Ty} {e e' : Ex τ} {p p' q q'} : E e e' → SameBy E A p p' → SameBy E A q q' →
      SameBy E A (.ite e p q) (.ite e' p' q')
  | loop {τ : Ty} {e e' : Ex τ} (b) {p p'} : E e e' → SameBy E A p p' → SameBy E A (.loop b e p) (.loop b e' p')
  | skipLeft (p) : SameBy E A (.seq .skip p) p
  | skipRight (p) : SameBy E A (.seq p .skip) p
  | assoc (p q r) : SameBy E A (.seq (.seq p q) r) (.seq p (.seq q r))
  | iteSeq {τ : Ty} (e : Ex τ) (p q r) : SameBy E A (.seq (.ite e p q) r) (.ite e (.seq p r) (.seq q r))
  | iteSame {τ : Ty} (e : Ex τ) (p) : SameBy E A (.ite e p p) p
  | unroll {τ : Ty} (e : Ex τ) (p) : SameBy E A (.loop true e p) (.ite e (.seq p (.loop true e p)) .skip)
  | unrollNot {τ : Ty} (e : Ex τ) (p) : SameBy E A (.loop false e p) (.ite e .skip (.seq p (.loop false e p)))

/-- Rewriting by what holds over all commutative rings. -/
abbrev Stmt.Same : Stmt → Stmt → Prop := Stmt.SameBy Ex.Same Act.Same
/-- Rewriting by what holds over all fields. -/
abbrev Stmt.SameField : Stmt → Stmt → Prop := Stmt.SameBy Ex.SameField Act.SameField

end Prog
end Rowcol
