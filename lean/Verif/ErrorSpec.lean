import Verif.ProgSpec
import Verif.SoftFloat

/-! Numbers with an uncertainty, `mid ± err`, and how the uncertainty grows when floating point numbers are added, subtracted,
multiplied and divided.  This is the textbook propagation of errors, with rational numbers; it can be computed. -/

namespace Rowcol

/-- `mid ± err`. -/
structure Unc where
  mid : ℚ
  err : ℚ
  deriving DecidableEq, Repr

namespace FloatFormat
variable (f : FloatFormat)

/-- The unit roundoff (`2⁻⁵³` for `f64`). -/
def uQ : ℚ := pow2 (-f.prec)
/-- Half of the smallest positive number (`2⁻¹⁰⁷⁵` for `f64`). -/
def etaQ : ℚ := pow2 (f.emin - 1)

end FloatFormat

namespace Unc

/-- The number is known to be zero. -/
def IsZero (k : Unc) : Prop := k.mid = 0 ∧ k.err = 0

/-- The number is known not to be zero. -/
def NonZero (k : Unc) : Prop := k.mid ≠ 0 ∧ k.err < |k.mid|

instance (k : Unc) : Decidable k.IsZero := inferInstanceAs (Decidable (_ ∧ _))
instance (k : Unc) : Decidable k.NonZero := inferInstanceAs (Decidable (_ ∧ _))

/-- A floating point operation has the exact result `x` for the middles; its operands make it uncertain by `d`.  Its rounded
result is uncertain by `d + u (|x| + d) + e`, where `e` accounts for underflow; but whole numbers of at most `prec` binary
digits are not rounded.  No answer (a panic) if the result may overflow. -/
def round (f : FloatFormat) (x d e : ℚ) : Res Unc :=
  if d = 0 ∧ x.den = 1 ∧ |x| ≤ (2 ^ f.prec : ℕ) then .ok ⟨x, 0⟩
  else
    let err := d + f.uQ * (|x| + d) + e
    if |x| + err ≤ f.maxQ then .ok ⟨x, err⟩ else .error .panic

end Unc

/-- The propagation of uncertainty.  Only a number that is known not to be zero can be divided by. -/
def Ops.unc (f : FloatFormat) : Ops Unc where
  zero := ⟨0, 0⟩
  one := ⟨1, 0⟩
  add a b := Unc.round f (a.mid + b.mid) (a.err + b.err) 0
  sub a b := Unc.round f (a.mid - b.mid) (a.err + b.err) 0
  mul a b := Unc.round f (a.mid * b.mid) (|a.mid| * b.err + |b.mid| * a.err + a.err * b.err) f.etaQ
  div a b := if b.NonZero then
      Unc.round f (a.mid / b.mid) ((a.err + |a.mid / b.mid| * b.err) / (|b.mid| - b.err)) f.etaQ
    else .error .panic
  neg a := .ok ⟨-a.mid, a.err⟩
  isZero a := a.IsZero

/-- A rational number rounded to a floating point number (`1.0 / 3.0`, or a decimal fraction in the source) is known up to this
much. -/
def Unc.input (f : FloatFormat) (x : ℚ) : Unc := ⟨x, f.uQ * |x| + f.etaQ⟩

/-- The floating point number is finite and lies within `mid ± err`. -/
def Unc.Covers {f : FloatFormat} (k : Unc) (x : Fl f) : Prop := x.IsFinite ∧ |x.val - (k.mid : ℝ)| ≤ (k.err : ℝ)

namespace Prog
variable {f : FloatFormat}

/-- The positions of the entries of a value. -/
abbrev Ty.Pos : Ty → Type
  | .s => Unit
  | .v n => Fin n
  | .m r c => Fin r × Fin c

/-- The entry at a position. -/
def Val.entry {T : Type} : (τ : Ty) → Val T τ → τ.Pos → T
  | .s, x, _ => x
  | .v _, x, i => Vec.get x i
  | .m _ _, x, p => Mat.get x p.1 p.2

/-- The entry at a position. -/
def Den.entry {K : Type} : (τ : Ty) → Den K τ → τ.Pos → K
  | .s, x, _ => x
  | .v _, x, i => x i
  | .m _ _, x, p => x p.1 p.2

/-- Every number in the value lies within its uncertainty. -/
def Val.Covers : (τ : Ty) → Val Unc τ → Val (Fl f) τ → Prop
  | .s, k, x => Unc.Covers k x
  | .v _, k, x => ∀ i, (k.get i).Covers (x.get i)
  | .m _ _, k, x => ∀ i j, (k.get i j).Covers (x.get i j)

/-- Every variable lies within its uncertainty. -/
def Store.Covers (σ : Store Unc) (ρ : Store (Fl f)) : Prop := ∀ τ i, Val.Covers τ (σ τ i) (ρ τ i)

/-- The real numbers in the value lie within the uncertainty. -/
def Val.Near : (τ : Ty) → Val Unc τ → Den ℝ τ → Prop
  | .s, k, y => |y - (Unc.mid k : ℝ)| ≤ (Unc.err k : ℝ)
  | .v _, k, y => ∀ i, |y i - ((k.get i).mid : ℝ)| ≤ ((k.get i).err : ℝ)
  | .m _ _, k, y => ∀ i j, |y i j - ((k.get i j).mid : ℝ)| ≤ ((k.get i j).err : ℝ)

/-- Values of the same type within given distances of each other, entry by entry. -/
def Val.Within : (τ : Ty) → Val (Fl f) τ → Val (Fl f) τ → Val Unc τ → Val Unc τ → Prop
  | .s, x, y, k, l => |Fl.val x - Fl.val y| ≤ (Unc.err k + Unc.err l : ℚ)
  | .v _, x, y, k, l => ∀ i, |(x.get i).val - (y.get i).val| ≤ ((k.get i).err + (l.get i).err : ℚ)
  | .m _ _, x, y, k, l => ∀ i j, |(x.get i j).val - (y.get i j).val| ≤ ((k.get i j).err + (l.get i j).err : ℚ)

/-- Every entry of the value is known to be zero. -/
def Val.SureZero (τ : Ty) (k : Val Unc τ) : Prop := ∀ q, (Val.entry τ k q).IsZero
/-- Some entry of the value is known not to be zero. -/
def Val.SureNonZero (τ : Ty) (k : Val Unc τ) : Prop := ∃ q, (Val.entry τ k q).NonZero

/-- Runs of a program with uncertain numbers that end well: every test `is_zero` has a sure answer. -/
inductive SureRun (t : Target) (f : FloatFormat) : Stmt → Store Unc → Store Unc → Prop where
  | skip (σ) : SureRun t f .skip σ σ
  | act {a : Act} {σ σ'} : a.exec t (Ops.unc f) σ = .ok σ' → SureRun t f (.act a) σ σ'
  | seq {p q σ σ' σ''} : SureRun t f p σ σ' → SureRun t f q σ' σ'' → SureRun t f (.seq p q) σ σ''
  | iteZero {τ : Ty} {e : Ex τ} {p q σ k σ'} : e.eval t (Ops.unc f) σ = .ok k → Val.SureZero τ k → SureRun t f p σ σ' →
      SureRun t f (.ite e p q) σ σ'
  | iteElse {τ : Ty} {e : Ex τ} {p q σ k σ'} : e.eval t (Ops.unc f) σ = .ok k → Val.SureNonZero τ k → SureRun t f q σ σ' →
      SureRun t f (.ite e p q) σ σ'
  | loopGo {τ : Ty} {b : Bool} {e : Ex τ} {p σ k σ' σ''} : e.eval t (Ops.unc f) σ = .ok k →
      (if b then Val.SureZero τ k else Val.SureNonZero τ k) → SureRun t f p σ σ' → SureRun t f (.loop b e p) σ' σ'' →
      SureRun t f (.loop b e p) σ σ''
  | loopEnd {τ : Ty} {b : Bool} {e : Ex τ} {p σ k} : e.eval t (Ops.unc f) σ = .ok k →
      (if b then Val.SureNonZero τ k else Val.SureZero τ k) → SureRun t f (.loop b e p) σ σ

instance : (τ : Ty) → Fintype τ.Pos
  | .s => inferInstanceAs (Fintype Unit)
  | .v n => inferInstanceAs (Fintype (Fin n))
  | .m r c => inferInstanceAs (Fintype (Fin r × Fin c))

instance (τ : Ty) (k : Val Unc τ) : Decidable (Val.SureZero τ k) := Fintype.decidableForallFintype
instance (τ : Ty) (k : Val Unc τ) : Decidable (Val.SureNonZero τ k) := Fintype.decidableExistsFintype

/-- Compute the uncertainties at the end of a program, with at most `n` rounds of every loop; no answer if some test is not
sure. -/
def Stmt.sure (t : Target) (f : FloatFormat) (n : Nat) : Stmt → Store Unc → Option (Store Unc)
  | .skip, σ => some σ
  | .act a, σ => (a.exec t (Ops.unc f) σ).toOption
  | .seq p q, σ => (p.sure t f n σ).bind (q.sure t f n)
  | .ite (τ := τ) e p q, σ => (e.eval t (Ops.unc f) σ).toOption.bind fun k =>
      if Val.SureZero τ k then p.sure t f n σ else if Val.SureNonZero τ k then q.sure t f n σ else none
  | .loop (τ := τ) b e p, σ => go τ b e (p.sure t f n) n σ
where
  /-- At most `n` rounds of a loop. -/
  go (τ : Ty) (b : Bool) (e : Ex τ) (body : Store Unc → Option (Store Unc)) : Nat → Store Unc → Option (Store Unc)
    | 0, _ => none
    | n + 1, σ => (e.eval t (Ops.unc f) σ).toOption.bind fun k =>
        if (if b then Val.SureZero τ k else Val.SureNonZero τ k) then (body σ).bind (go τ b e body n)
        else if (if b then Val.SureNonZero τ k else Val.SureZero τ k) then some σ
        else none

end Prog
end Rowcol
