import Verif.Model.Mat

/-
Model of `Display for Matrix` (`/repo/src/matrix/mod.rs` lines 328-405).  Text is a list of characters.
-/

namespace Rowcol

/-- `str::split_terminator('\n')` of std: pieces between line feeds, without a last empty piece.  [Used by `str::lines` at src/matrix/mod.rs:356, 359 and 385.] -/
def splitTerm : List Char → List (List Char)
  | [] => []
  | c :: cs =>
    if c = '\n' then [] :: splitTerm cs
    else match splitTerm cs with
      | [] => [[c]]
      | l :: ls => (c :: l) :: ls

/-- Remove one trailing carriage return.  [Part of `str::lines` (std), used at src/matrix/mod.rs:356, 359 and 385.] -/
def stripCR (l : List Char) : List Char := if l.getLast? = some '\r' then l.dropLast else l

/-- `str::lines` of std (as of 2016: `split_terminator('\n')`, then one trailing `'\r'` is stripped).  The
display model below takes the splitting function as a parameter. -/
def strLines (s : List Char) : List (List Char) := (splitTerm s).map stripCR

/-- `str_len` (mod.rs:339-347): the sum of the widths of the characters; `cw` is the display width of a
character (`unicode_width`) or its number of UTF-8 bytes (without that feature). -/
def strLen (cw : Char → Nat) (s : List Char) : Nat := (s.map cw).sum

namespace Mat
variable {T : Type} {r c : Nat}

/-- Widths and heights found so far: the local variables `ws` and `hs` (mod.rs:349-350). -/
structure Sizes (r c : Nat) where
  ws : Vec Nat c
  hs : Vec Nat r

/-- `if v[j] < k { v[j] = k; }` (mod.rs:359, 362). -/
def bump {n : Nat} (v : Vec Nat n) (j k : Nat) : Res (Vec Nat n) := do
  let x ← v.index j
  if x < k then v.indexSet j k else pure v

/-- The closure that renders entry `(i, j)` and updates `ws[j]` and `hs[i]` (mod.rs:355-364). -/
def renderStep (lines : List Char → List (List Char)) (cw : Char → Nat) (render : T → List Char)
    (a : Mat T r c) (i j : Nat) : StM (Sizes r c) (List Char × Nat) := do
  let x ← liftRes (a.index (i, j))
  let s := render x
  let len := (stdMax compare ((lines s).map (strLen cw))).getD 0
  let st ← MonadState.get
  let ws ← liftRes (bump (Sizes.ws st) j len)
  set (Sizes.mk ws (Sizes.hs st))
  let lin := (lines s).length
  let st ← MonadState.get
  let hs ← liftRes (bump (Sizes.hs st) i lin)
  set (Sizes.mk (Sizes.ws st) hs)
  pure (s, len)

/-- `ss` (mod.rs:352-366). -/
def renderAll (t : Target) (lines : List Char → List (List Char)) (cw : Char → Nat)
    (render : T → List Char) (a : Mat T r c) : StM (Sizes r c) (Vec (Vec (List Char × Nat) c) r) :=
  Vec.collect t r ((List.range r).map fun i =>
    Vec.collect t c ((List.range c).map fun j => renderStep lines cw render a i j))

/-- The opening bracket (mod.rs:373-380).  The conditions are evaluated left to right, so the
subtractions only happen where the first test failed. -/
def openBracket (t : Target) (r i n h : Nat) : Res (List Char) := do
  if i = 0 ∧ n = 0 then pure ['⎡']
  else do
    let lastRow ← usub t r 1
    if i = lastRow then do
      let lastLine ← usub t h 1
      if n = lastLine then pure ['⎣'] else pure ['⎢']
    else pure ['⎢']

/-- The closing bracket with its line end (mod.rs:395-402). -/
def closeBracket (t : Target) (r i n h : Nat) : Res (List Char) := do
  if i = 0 ∧ n = 0 then pure ['⎤', '\n']
  else do
    let lastRow ← usub t r 1
    if i = lastRow then do
      let lastLine ← usub t h 1
      if n = lastLine then pure ['⎦'] else pure ['⎥', '\n']
    else pure ['⎥', '\n']

/-- One entry's share of a text line (mod.rs:382-393): left padding, line `n` of the entry, right padding. -/
def cellText (t : Target) (lines : List Char → List (List Char)) (cw : Char → Nat) (ws : Vec Nat c)
    (n : Nat) (p : (List Char × Nat) × Nat) : Res (List Char) := do
  let w ← ws.index p.2
  let d ← usub t w p.1.2
  let leftpad := d / 2
  let line := ((lines p.1.1)[n]?).getD []
  let x ← usub t w (strLen cw line)
  let x ← usub t x leftpad
  let lastCol ← usub t c 1
  let rightpad ← uadd t x (if p.2 ≠ lastCol then 1 else 0)
  pure (List.replicate leftpad ' ' ++ line ++ List.replicate rightpad ' ')

/-- One text line (mod.rs:372-402). -/
def lineText (t : Target) (lines : List Char → List (List Char)) (cw : Char → Nat) (st : Sizes r c)
    (row : Vec (List Char × Nat) c) (i h n : Nat) : Res (List Char) := do
  let o ← openBracket t r i n h
  let cells ← row.toList.zipIdx.mapM (cellText t lines cw st.ws n)
  let cl ← closeBracket t r i n h
  pure (o ++ cells.flatten ++ cl)

/-- The text of one matrix row (mod.rs:371-403). -/
def rowText (t : Target) (lines : List Char → List (List Char)) (cw : Char → Nat) (st : Sizes r c)
    (p : Vec (List Char × Nat) c × Nat) : Res (List Char) := do
  let h ← st.hs.index p.2
  let ls ← (List.range h).mapM (lineText t lines cw st p.1 p.2 h)
  pure ls.flatten

/-- `Display::fmt` (mod.rs:337-404), when writing to the formatter succeeds. -/
def display (t : Target) (lines : List Char → List (List Char)) (cw : Char → Nat)
    (render : T → List Char) (a : Mat T r c) : Res (List Char) := do
  let ws ← Vec.default t c (pure 0 : Res Nat)
  let hs ← Vec.default t r (pure 0 : Res Nat)
  match (renderAll t lines cw render a).run ⟨ws, hs⟩ with
  | (.error e, _) => .error e
  | (.ok ss, st) => do
    let rows ← ss.toList.zipIdx.mapM (rowText t lines cw st)
    pure rows.flatten

end Mat
end Rowcol
