import Verif.ProgSpec

/-! The variables of client programs (C118): which variables a program reads and writes, naming a subexpression, and rewriting that
changes no result of any element type. -/

namespace Rowcol
namespace Prog
variable {T : Type} {τ : Ty}

/-- A variable: its type and its number. -/
abbrev Var := Ty × Nat

/-- The value of the expression may depend on variable `x`. -/
def Ex.Reads (x : Var) : {τ : Ty} → Ex τ → Prop
  | _, .var τ i => x = (τ, i)
  | _, .zero _ => False
  | _, .one => False
  | _, .ident _ => False
  | _, .bin _ _ a b => a.Reads x ∨ b.Reads x
  | _, .neg a => a.Reads x
  | _, .scale a s => a.Reads x ∨ s.Reads x
  | _, .quot a s => a.Reads x ∨ s.Reads x
  | _, .vsum v => v.Reads x
  | _, .msum a => a.Reads x
  | _, .dot a b => a.Reads x ∨ b.Reads x
  | _, .cross a b => a.Reads x ∨ b.Reads x
  | _, .vget v _ => v.Reads x
  | _, .mget a _ _ => a.Reads x
  | _, .mul _ a b => a.Reads x ∨ b.Reads x
  | _, .mulVec _ a v => a.Reads x ∨ v.Reads x
  | _, .transposed a => a.Reads x
  | _, .pow a _ => a.Reads x
  | _, .det a => a.Reads x
  | _, .cof a _ _ => a.Reads x
  | _, .inv a => a.Reads x
  | _, @Ex.gen n f => ∃ i < n, (f i).Reads x
  | _, @Ex.mgen r c f => ∃ i < r, ∃ j < c, (f (i, j)).Reads x
  | _, @Ex.map r c k f a => a.Reads x ∨ x ≠ (.s, k) ∧ ∃ i < r, ∃ j < c, (f (i, j)).Reads x
  | _, .diag v => v.Reads x
  | _, .row a _ => a.Reads x
  | _, .col a _ => a.Reads x

/-- The variable the statement writes to. -/
def Act.target : Act → Var
  | @Act.set τ i _ => (τ, i)
  | @Act.upd τ _ i _ => (τ, i)
  | .updScale τ i _ => (τ, i)
  | .updQuot τ i _ => (τ, i)
  | @Act.updMul n i _ => (.m n n, i)
  | .transpose n i => (.m n n, i)
  | .vset n i _ _ => (.v n, i)
  | .mset r c i _ _ _ => (.m r c, i)

/-- The statement overwrites its target without looking at it. -/
def Act.Overwrites : Act → Prop
  | .set _ _ => True
  | _ => False

/-- What the statement does may depend on variable `x`. -/
def Act.Reads (x : Var) : Act → Prop
  | .set _ e => e.Reads x
  | @Act.upd τ _ i e => x = (τ, i) ∨ e.Reads x
  | .updScale τ i s => x = (τ, i) ∨ s.Reads x
  | .updQuot τ i s => x = (τ, i) ∨ s.Reads x
  | @Act.updMul n i e => x = (.m n n, i) ∨ e.Reads x
  | .transpose n i => x = (.m n n, i)
  | .vset n i _ e => x = (.v n, i) ∨ e.Reads x
  | .mset r c i _ _ e => x = (.m r c, i) ∨ e.Reads x

/-- The program may write to `x`. -/
def Stmt.Writes (x : Var) : Stmt → Prop
  | .skip => False
  | .act a => x = a.target
  | .seq p q => p.Writes x ∨ q.Writes x
  | .ite _ p q => p.Writes x ∨ q.Writes x
  | .loop _ _ p => p.Writes x

/-- Every run of the program to its end overwrites `x`. -/
def Stmt.Sets (x : Var) : Stmt → Prop
  | .skip => False
  | .act a => x = a.target ∧ a.Overwrites
  | .seq p q => p.Sets x ∨ q.Sets x
  | .ite _ p q => p.Sets x ∧ q.Sets x
  | .loop _ _ _ => False

/-- What the program does may depend on the value of `x` at the start. -/
def Stmt.Reads (x : Var) : Stmt → Prop
  | .skip => False
  | .act a => a.Reads x
  | .seq p q => p.Reads x ∨ ¬ p.Sets x ∧ q.Reads x
  | .ite e p q => e.Reads x ∨ p.Reads x ∨ q.Reads x
  | .loop _ e p => e.Reads x ∨ p.Reads x

/-- The same values in the variables in `A`. -/
def Store.Agree (A : Var → Prop) (σ ρ : Store T) : Prop := ∀ τ i, A (τ, i) → σ τ i = ρ τ i

/-- The same failure, or the same values in the variables in `A`. -/
def AgreeOut (A : Var → Prop) : Res (Store T) → Res (Store T) → Prop
  | .ok σ, .ok ρ => σ.Agree A ρ
  | .error e, .error f => e = f
  | _, _ => False

/-- Write `d` in place of variable `i` of type `τ'`. -/
def Ex.subst {τ' : Ty} (i : Nat) (d : Ex τ') : {τ : Ty} → Ex τ → Ex τ
  | _, .var τ j => if h : τ' = τ ∧ i = j then h.1 ▸ d else .var τ j
  | _, .zero τ => .zero τ
  | _, .one => .one
  | _, .ident n => .ident n
  | _, .bin o f a b => .bin o f (Ex.subst i d a) (Ex.subst i d b)
  | _, .neg a => .neg (Ex.subst i d a)
  | _, .scale a s => .scale (Ex.subst i d a) (Ex.subst i d s)
  | _, .quot a s => .quot (Ex.subst i d a) (Ex.subst i d s)
  | _, .vsum v => .vsum (Ex.subst i d v)
  | _, .msum a => .msum (Ex.subst i d a)
  | _, .dot a b => .dot (Ex.subst i d a) (Ex.subst i d b)
  | _, .cross a b => .cross (Ex.subst i d a) (Ex.subst i d b)
  | _, .vget v k => .vget (Ex.subst i d v) k
  | _, .mget a k l => .mget (Ex.subst i d a) k l
  | _, .mul f a b => .mul f (Ex.subst i d a) (Ex.subst i d b)
  | _, .mulVec f a v => .mulVec f (Ex.subst i d a) (Ex.subst i d v)
  | _, .transposed a => .transposed (Ex.subst i d a)
  | _, .pow a k => .pow (Ex.subst i d a) k
  | _, .det a => .det (Ex.subst i d a)
  | _, .cof a k l => .cof (Ex.subst i d a) k l
  | _, .inv a => .inv (Ex.subst i d a)
  | _, .gen f => .gen fun k => Ex.subst i d (f k)
  | _, .mgen f => .mgen fun p => Ex.subst i d (f p)
  | _, .map k f a => .map k (fun p => if (τ', i) = (Ty.s, k) then f p else Ex.subst i d (f p)) (Ex.subst i d a)
  | _, .diag v => .diag (Ex.subst i d v)
  | _, .row a k => .row (Ex.subst i d a) k
  | _, .col a k => .col (Ex.subst i d a) k

/-- This step does not bind a variable that `d` reads. -/
def Ex.NoCaptureStep {τ' : Ty} (d : Ex τ') : (τ : Ty) → Ex τ → Prop
  | _, .map k _ _ => ¬ d.Reads (.s, k)
  | _, _ => True

/-- No closure in the expression binds a variable that `d` reads. -/
abbrev Ex.NoCapture {τ' : Ty} (e : Ex τ) (d : Ex τ') : Prop := e.Every (Ex.NoCaptureStep d)

/-- Write `d` in place of variable `i` of type `τ'` in the expressions of a statement. -/
def Act.subst {τ' : Ty} (i : Nat) (d : Ex τ') : Act → Act
  | .set j e => .set j (Ex.subst i d e)
  | .upd o j e => .upd o j (Ex.subst i d e)
  | .updScale τ j s => .updScale τ j (Ex.subst i d s)
  | .updQuot τ j s => .updQuot τ j (Ex.subst i d s)
  | .updMul j e => .updMul j (Ex.subst i d e)
  | .transpose n j => .transpose n j
  | .vset n j k e => .vset n j k (Ex.subst i d e)
  | .mset r c j k l e => .mset r c j k l (Ex.subst i d e)

/-- Write `d` in place of variable `i` of type `τ'` in a program. -/
def Stmt.subst {τ' : Ty} (i : Nat) (d : Ex τ') : Stmt → Stmt
  | .skip => .skip
  | .act a => .act (a.subst i d)
  | .seq p q => .seq (p.subst i d) (q.subst i d)
  | .ite e p q => .ite (Ex.subst i d e) (p.subst i d) (q.subst i d)
  | .loop b e p => .loop b (Ex.subst i d e) (p.subst i d)

/-- No closure in the statement binds a variable that `d` reads. -/
def Act.NoCapture {τ' : Ty} (d : Ex τ') : Act → Prop
  | .set _ e => e.NoCapture d
  | .upd _ _ e => e.NoCapture d
  | .updScale _ _ s => s.NoCapture d
  | .updQuot _ _ s => s.NoCapture d
  | .updMul _ e => e.NoCapture d
  | .transpose _ _ => True
  | .vset _ _ _ e => e.NoCapture d
  | .mset _ _ _ _ _ e => e.NoCapture d

/-- No closure in the program binds a variable that `d` reads. -/
abbrev Stmt.NoCapture {τ' : Ty} (d : Ex τ') (p : Stmt) : Prop := p.Every (Act.NoCapture d) fun _ e => e.NoCapture d

/-- Give the variables other numbers: variable `i` of type `τ` becomes `ρ τ i`. -/
def Ex.rename (ρ : Ty → Nat → Nat) : {τ : Ty} → Ex τ → Ex τ
  | _, .var τ j => .var τ (ρ τ j)
  | _, .zero τ => .zero τ
  | _, .one => .one
  | _, .ident n => .ident n
  | _, .bin o f a b => .bin o f (Ex.rename ρ a) (Ex.rename ρ b)
  | _, .neg a => .neg (Ex.rename ρ a)
  | _, .scale a s => .scale (Ex.rename ρ a) (Ex.rename ρ s)
  | _, .quot a s => .quot (Ex.rename ρ a) (Ex.rename ρ s)
  | _, .vsum v => .vsum (Ex.rename ρ v)
  | _, .msum a => .msum (Ex.rename ρ a)
  | _, .dot a b => .dot (Ex.rename ρ a) (Ex.rename ρ b)
  | _, .cross a b => .cross (Ex.rename ρ a) (Ex.rename ρ b)
  | _, .vget v k => .vget (Ex.rename ρ v) k
  | _, .mget a k l => .mget (Ex.rename ρ a) k l
  | _, .mul f a b => .mul f (Ex.rename ρ a) (Ex.rename ρ b)
  | _, .mulVec f a v => .mulVec f (Ex.rename ρ a) (Ex.rename ρ v)
  | _, .transposed a => .transposed (Ex.rename ρ a)
  | _, .pow a k => .pow (Ex.rename ρ a) k
  | _, .det a => .det (Ex.rename ρ a)
  | _, .cof a k l => .cof (Ex.rename ρ a) k l
  | _, .inv a => .inv (Ex.rename ρ a)
  | _, .gen f => .gen fun k => Ex.rename ρ (f k)
  | _, .mgen f => .mgen fun p => Ex.rename ρ (f p)
  | _, .map k f a => .map (ρ .s k) (fun p => Ex.rename ρ (f p)) (Ex.rename ρ a)
  | _, .diag v => .diag (Ex.rename ρ v)
  | _, .row a k => .row (Ex.rename ρ a) k
  | _, .col a k => .col (Ex.rename ρ a) k

/-- The statement with other numbers for the variables. -/
def Act.rename (ρ : Ty → Nat → Nat) : Act → Act
  | @Act.set τ j e => .set (ρ τ j) (Ex.rename ρ e)
  | @Act.upd τ o j e => .upd o (ρ τ j) (Ex.rename ρ e)
  | .updScale τ j s => .updScale τ (ρ τ j) (Ex.rename ρ s)
  | .updQuot τ j s => .updQuot τ (ρ τ j) (Ex.rename ρ s)
  | @Act.updMul n j e => .updMul (ρ (.m n n) j) (Ex.rename ρ e)
  | .transpose n j => .transpose n (ρ (.m n n) j)
  | .vset n j k e => .vset n (ρ (.v n) j) k (Ex.rename ρ e)
  | .mset r c j k l e => .mset r c (ρ (.m r c) j) k l (Ex.rename ρ e)

/-- The program with other numbers for the variables. -/
def Stmt.rename (ρ : Ty → Nat → Nat) : Stmt → Stmt
  | .skip => .skip
  | .act a => .act (a.rename ρ)
  | .seq p q => .seq (p.rename ρ) (q.rename ρ)
  | .ite e p q => .ite (Ex.rename ρ e) (p.rename ρ) (q.rename ρ)
  | .loop b e p => .loop b (Ex.rename ρ e) (p.rename ρ)

/-- The values of the renamed variables. -/
def Store.via (ρ : Ty → Nat → Nat) (σ : Store T) : Store T := fun τ i => σ τ (ρ τ i)

/-- Two expressions give the same result, value or failure, for every element type and all values of the variables. -/
def Ex.Alike (t : Target) (e₁ e₂ : Ex τ) : Prop := ∀ (T : Type) (O : Ops T) (σ : Store T), e₁.eval t O σ = e₂.eval t O σ

/-- Two statements give the same result, for every element type and all values of the variables. -/
def Act.Alike (t : Target) (a b : Act) : Prop := ∀ (T : Type) (O : Ops T) (σ : Store T), a.exec t O σ = b.exec t O σ

/-- Rewriting programs with such expressions and statements; removing `skip`, regrouping sequences, moving what follows an `if` into
its branches, unrolling a loop once; any number of times, in both directions. -/
inductive Stmt.Alike (t : Target) : Stmt → Stmt → Prop where
  | refl (p) : Alike t p p
  | symm {p q} : Alike t p q → Alike t q p
  | trans {p q r} : Alike t p q → Alike t q r → Alike t p r
  | act {a b : Act} : a.Alike t b → Alike t (.act a) (.act b)
  | seq {p p' q q'} : Alike t p p' → Alike t q q' → Alike t (.seq p q) (.seq p' q')
  | ite {τ : Ty} {e e' : Ex τ} {p p' q q'} : e.Alike t e' → Alike t p p' → Alike t q q' → Alike t (.ite e p q) (.ite e' p' q')
  | loop {τ : Ty} {e e' : Ex τ} (b) {p p'} : e.Alike t e' → Alike t p p' → Alike t (.loop b e p) (.loop b e' p')
  | skipLeft (p) : Alike t (.seq .skip p) p
  | skipRight (p) : Alike t (.seq p .skip) p
  | assoc (p q r) : Alike t (.seq (.seq p q) r) (.seq p (.seq q r))
  | iteSeq {τ : Ty} (e : Ex τ) (p q r) : Alike t (.seq (.ite e p q) r) (.ite e (.seq p r) (.seq q r))
  | unroll {τ : Ty} (e : Ex τ) (p) : Alike t (.loop true e p) (.ite e (.seq p (.loop true e p)) .skip)
  | unrollNot {τ : Ty} (e : Ex τ) (p) : Alike t (.loop false e p) (.ite e .skip (.seq p (.loop false e p)))

end Prog
end Rowcol
