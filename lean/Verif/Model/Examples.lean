import Verif.Model.Mat

/-! The documented program of the crate root (src/lib.rs:13-22) and the example program (examples/fib.rs). -/

namespace Rowcol
variable {T : Type}

/-- `vector![1, 0]` (src/lib.rs:15, examples/fib.rs:7). -/
def fibVec (O : Ops T) : Vec T 2 := ⟨[O.one, O.zero], rfl⟩

/-- `matrix![[1, 1], [1, 0]]` (src/lib.rs:18, examples/fib.rs:8); the macro expands to `Matrix::new`. -/
def fibMat (t : Target) (O : Ops T) : Res (Mat T 2 2) :=
  Mat.new t ⟨[⟨[O.one, O.one], rfl⟩, ⟨[O.one, O.zero], rfl⟩], rfl⟩

/-- `fn fib(n)` of the crate documentation (src/lib.rs:13-22): `(a.pow(n) * f)[1]`. -/
def fibDoc (t : Target) (O : Ops T) (n : Nat) : Res T := do
  let a ← fibMat t O
  let p ← a.pow t O n
  let v ← p.mulVec t O (fibVec O)
  v.index 1

/-- The loop of examples/fib.rs:13-16, for `k` iterations: the printed values. -/
def fibLoop (t : Target) (O : Ops T) (a : Mat T 2 2) : Nat → Mat T 2 2 → Res (List T)
  | 0, _ => pure []
  | k + 1, p => do
    let v ← p.mulVec t O (fibVec O)
    let x ← v.index 1
    match p.mulAssign t O a with
    | (.ok (), p') => do
      let rest ← fibLoop t O a k p'
      pure (x :: rest)
    | (.error e, _) => .error e

/-- `main` of examples/fib.rs:6-17 with `k` instead of 50 iterations. -/
def fibExample (t : Target) (O : Ops T) (k : Nat) : Res (List T) := do
  let a ← fibMat t O
  let p ← Mat.identity t O 2
  fibLoop t O a k p

end Rowcol
