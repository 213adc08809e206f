import Verif.Model.Mat
import Verif.Model.DisplayIO

/-
`Debug for Vector` (`/repo/src/vector.rs` lines 120-127) and `Debug for Matrix` (`/repo/src/matrix/mod.rs` lines 303-320)
again, now with entries whose own `Debug` may write several pieces, have effects, fail and panic, and with a destination
whose writes may have effects and fail.  `L` is the state of everything outside the function (destination included), `true`
stands for `Ok(())`, `false` for `Err`.
-/

namespace Rowcol

variable {T L : Type}

/-- The loop of std's `DebugList::entry` (non-alternate): `", "` before every entry but the first, then the entry; nothing is
written or formatted after the first `Err`.  `rest` is what follows.  [Used by src/vector.rs:125 and src/matrix/mod.rs:314.] -/
def debugEntriesIO (fmt : T → StM L Bool) (out : List Char → StM L Bool) : Bool → List T → StM L Bool → StM L Bool
  | _, [], rest => rest
  | hasFields, x :: xs, rest =>
    let entry : StM L Bool := do
      if ← fmt x then debugEntriesIO fmt out true xs rest else pure false
    if hasFields then tryWrite out [',', ' '] entry else entry

/-- std's `f.debug_list().entries(l).finish()` without the `#` flag, also `<[T] as Debug>::fmt`; `fmt` is `T`'s `Debug`.
[Used by src/vector.rs:125 and src/matrix/mod.rs:314.] -/
def debugListIO (fmt : T → StM L Bool) (out : List Char → StM L Bool) (l : List T) : StM L Bool :=
  tryWrite out ['['] (debugEntriesIO fmt out false l (out [']']))

/-- `Debug for Vector` (src/vector.rs:123-126); `list` is `f.debug_list().entries(..).finish()`, for whatever flags `f`
carries. -/
def Vec.debugIO {n : Nat} (list : List T → StM L Bool) (out : List Char → StM L Bool) (v : Vec T n) : StM L Bool :=
  tryWrite out "Vector".toList (list v.toList)

namespace Mat
variable {r c : Nat}

/-- The row loop (src/matrix/mod.rs:313-316), then `write!(fmt, "]")` (line 318); `list` is `<[T] as Debug>::fmt`. -/
def debugRowsIO (list : List T → StM L Bool) (out : List Char → StM L Bool) (last : Nat) :
    List (Vec T c × Nat) → StM L Bool
  | [] => out [']']
  | p :: ps => do
    if ← list p.1.toList then
      if p.2 ≠ last then tryWrite out [',', ' '] (debugRowsIO list out last ps) else debugRowsIO list out last ps
    else pure false

/-- `Debug for Matrix` (src/matrix/mod.rs:309-319).  `self.0.len() - 1` is `usize` arithmetic, after the first write. -/
def debugIO (t : Target) (list : List T → StM L Bool) (out : List Char → StM L Bool) (a : Mat T r c) : StM L Bool :=
  tryWrite out "Matrix[".toList do
    let last ← liftRes (usub t a.rows.len 1)
    debugRowsIO list out last a.rows.toList.zipIdx

end Mat
end Rowcol
