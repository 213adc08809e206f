import Verif.Model.Display
import Verif.Model.Consume

/-
`Display for Matrix` (`/repo/src/matrix/mod.rs` lines 328-405) again, now with entries whose own `Display` may have effects
and panic, and with a destination whose writes may have effects and fail.  `L` is the state of everything outside the
function (destination included).
-/

namespace Rowcol

/-- `try!(f.write_str(s))` (and `write_char`) followed by `rest`: a failing write ends the function with `Err`.
`true` is `Ok(())`.  [src/matrix/mod.rs:372-380, 386, 394-401.] -/
def tryWrite {L : Type} (out : List Char → StM L Bool) (s : List Char) (rest : StM L Bool) : StM L Bool := do
  if ← out s then rest else pure false

/-- `for _ in 0..k { try!(f.write_char(' ')); }` (mod.rs:383, 390). -/
def writeBlanks {L : Type} (out : List Char → StM L Bool) : Nat → StM L Bool → StM L Bool
  | 0, rest => rest
  | k + 1, rest => tryWrite out [' '] (writeBlanks out k rest)

namespace Mat
variable {T L : Type} {r c : Nat}

/-- The closure that renders entry `(i, j)` and updates `ws[j]` and `hs[i]` (mod.rs:353-363).  `render` is `format!("{}", x)`. -/
def renderStepIO (lines : List Char → List (List Char)) (cw : Char → Nat) (render : T → StM L (List Char))
    (a : Mat T r c) (i j : Nat) : StM (L × Sizes r c) (List Char × Nat) := do
  let x ← liftRes (a.index (i, j))
  let s ← onLeft (render x)
  onRight do
    let len := (stdMax compare ((lines s).map (strLen cw))).getD 0
    let st ← MonadState.get
    let ws ← liftRes (bump (Sizes.ws st) j len)
    set (Sizes.mk ws (Sizes.hs st))
    let lin := (lines s).length
    let st ← MonadState.get
    let hs ← liftRes (bump (Sizes.hs st) i lin)
    set (Sizes.mk (Sizes.ws st) hs)
    pure (s, len)

/-- `ss` (mod.rs:351-364). -/
def renderAllIO (t : Target) (lines : List Char → List (List Char)) (cw : Char → Nat)
    (render : T → StM L (List Char)) (a : Mat T r c) : StM (L × Sizes r c) (Vec (Vec (List Char × Nat) c) r) :=
  Vec.collect t r ((List.range r).map fun i =>
    Vec.collect t c ((List.range c).map fun j => renderStepIO lines cw render a i j))

/-- The loop over the entries of a row in one text line (mod.rs:380-391), then `rest`. -/
def cellsIO (t : Target) (lines : List Char → List (List Char)) (cw : Char → Nat) (out : List Char → StM L Bool)
    (ws : Vec Nat c) (n : Nat) : List ((List Char × Nat) × Nat) → StM L Bool → StM L Bool
  | [], rest => rest
  | p :: ps, rest => do
    let w ← liftRes (ws.index p.2)
    let d ← liftRes (usub t w p.1.2)
    let leftpad := d / 2
    writeBlanks out leftpad do
      let line := ((lines p.1.1)[n]?).getD []
      tryWrite out line do
        let x ← liftRes (usub t w (strLen cw line))
        let x ← liftRes (usub t x leftpad)
        let lastCol ← liftRes (usub t c 1)
        let rightpad ← liftRes (uadd t x (if p.2 ≠ lastCol then 1 else 0))
        writeBlanks out rightpad (cellsIO t lines cw out ws n ps rest)

/-- The loop over the text lines of one row (mod.rs:369-402), then `rest`. -/
def linesIO (t : Target) (lines : List Char → List (List Char)) (cw : Char → Nat) (out : List Char → StM L Bool)
    (st : Sizes r c) (row : Vec (List Char × Nat) c) (i h : Nat) : List Nat → StM L Bool → StM L Bool
  | [], rest => rest
  | n :: ns, rest => do
    let o ← liftRes (openBracket t r i n h)
    tryWrite out o (cellsIO t lines cw out st.ws n row.toList.zipIdx do
      let cl ← liftRes (closeBracket t r i n h)
      tryWrite out cl (linesIO t lines cw out st row i h ns rest))

/-- The loop over the rows (mod.rs:366-403), then `Ok(())`. -/
def rowsIO (t : Target) (lines : List Char → List (List Char)) (cw : Char → Nat) (out : List Char → StM L Bool)
    (st : Sizes r c) : List (Vec (List Char × Nat) c × Nat) → StM L Bool
  | [] => pure true
  | p :: ps => do
    let h ← liftRes (st.hs.index p.2)
    linesIO t lines cw out st p.1 p.2 h (List.range h) (rowsIO t lines cw out st ps)

/-- `Display::fmt` (mod.rs:337-404). -/
def displayIO (t : Target) (lines : List Char → List (List Char)) (cw : Char → Nat)
    (render : T → StM L (List Char)) (out : List Char → StM L Bool) (a : Mat T r c) : StM L Bool := do
  let ws ← liftRes (Vec.default t c (pure 0 : Res Nat))
  let hs ← liftRes (Vec.default t r (pure 0 : Res Nat))
  ExceptT.mk fun l => match (renderAllIO t lines cw render a).run (l, ⟨ws, hs⟩) with
    | (.error e, (l', _)) => (.error e, l')
    | (.ok ss, (l', st)) => (rowsIO t lines cw out st ss.toList.zipIdx).run l'

end Mat
end Rowcol
