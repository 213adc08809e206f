import Verif.Model.Mat
import Verif.Model.DisplayIO

/-
The alternate form `{:#?}` of `Debug for Vector` (`/repo/src/vector.rs` lines 120-127) and `Debug for Matrix`
(`/repo/src/matrix/mod.rs` lines 303-320).  A `fmt` function is a `Doc`: a program that writes pieces of text to whatever
destination its `Formatter` wraps, sees whether each write succeeded, and ends with `Ok`, `Err` or a panic.  The standard
library's `DebugList` wraps the destination in a `PadAdapter` for every entry, so a `Doc` is transformed into another.
Simplification: an entry's `Debug` has no effect but its writes (C97 has entries with effects, and all flags for the parts
that are the crate's own).
-/

namespace Rowcol

/-- A `fmt` function: ends with `Ok(())` (`true`) or `Err` (`false`), panics, or writes a piece and goes on, knowing whether
the write succeeded.  [The signature `fn fmt(&self, &mut Formatter) -> fmt::Result` of src/vector.rs:123 and
src/matrix/mod.rs:309.] -/
inductive Doc : Type
  | done (ok : Bool) : Doc
  | panic (e : Fault) : Doc
  | write (s : List Char) (next : Bool → Doc) : Doc

namespace Doc

/-- `try!(f.write_str(s))` followed by `rest`.  [src/vector.rs:124, src/matrix/mod.rs:310, 315.] -/
def say (s : List Char) (rest : Doc) : Doc := .write s fun ok => if ok then rest else .done false

/-- `try!(x.fmt(f))` followed by `rest`.  [src/matrix/mod.rs:314; std's `DebugList::entry`.] -/
def andThen : Doc → Doc → Doc
  | .done true, rest => rest
  | .done false, _ => .done false
  | .panic e, _ => .panic e
  | .write s next, rest => .write s fun ok => andThen (next ok) rest

/-- A result of `usize` arithmetic inside a `fmt` function: a panic passes through. [src/matrix/mod.rs:312.] -/
def lift {α : Type} (x : Res α) (rest : α → Doc) : Doc :=
  match x with
  | .ok a => rest a
  | .error e => .panic e

/-- Running a `fmt` function on the destination `out`. -/
def run {L : Type} (out : List Char → StM L Bool) : Doc → StM L Bool
  | .done ok => pure ok
  | .panic e => liftRes (.error e)
  | .write s next => do
    let ok ← out s
    run out (next ok)

end Doc

/-- `s.split_inclusive('\n')` (std): pieces that end with a newline, and what follows the last newline unless it is empty. -/
def splitInclusive : List Char → List (List Char)
  | [] => []
  | ch :: s =>
    if ch = '\n' then [ch] :: splitInclusive s
    else
      match splitInclusive s with
      | [] => [[ch]]
      | l :: ls => (ch :: l) :: ls

/-- The loop of std's `PadAdapter::write_str`: four blanks before a piece that starts a line; the first failing write ends it.
`nl` is `on_newline`. -/
def padPieces (k : Bool → Bool → Doc) : Bool → List (List Char) → Doc
  | nl, [] => k nl true
  | nl, l :: ls =>
    let rest : Doc :=
      .write l fun ok => if ok then padPieces k (l.getLast? == some '\n') ls else k (l.getLast? == some '\n') false
    if nl then .write "    ".toList fun ok => if ok then rest else k nl false else rest

/-- A `fmt` function run on a `PadAdapter` (std) around the destination; `nl` is `on_newline`.  `k` is what follows, on the same
adapter. -/
def pad (k : Bool → Bool → Doc) : Bool → Doc → Doc
  | nl, .done ok => k nl ok
  | _, .panic e => .panic e
  | nl, .write s next => padPieces (fun nl ok => pad k nl (next ok)) nl (splitInclusive s)

/-- Entries of std's `DebugList::entry` with the `#` flag, then `rest`.  With `trailing` as in current versions: a newline before
the first entry, and every entry followed by `",\n"`, on a `PadAdapter` that starts on a new line.  Without, as in versions
before 1.36: every entry is preceded by `",\n"` (the first by `"\n"`), on a `PadAdapter` that does not start on a new line. -/
def debugEntriesAlt {T : Type} (trailing : Bool) (fmt : T → Doc) : Bool → List T → Doc → Doc
  | hasFields, [], rest => if trailing then rest else .say (if hasFields then "\n".toList else []) rest
  | hasFields, x :: xs, rest =>
    let next := debugEntriesAlt trailing fmt true xs rest
    if trailing then
      let entry := pad (fun _ ok => if ok then next else .done false) true ((fmt x).andThen (.say ",\n".toList (.done true)))
      if hasFields then entry else .say "\n".toList entry
    else
      pad (fun _ ok => if ok then next else .done false) false
        (.say (if hasFields then ",\n".toList else "\n".toList) (fmt x))

/-- std's `f.debug_list().entries(l).finish()` with the `#` flag, also `<[T] as Debug>::fmt`; `fmt` is `T`'s `Debug` with the
same flags.  [Used by src/vector.rs:125 and src/matrix/mod.rs:314.] -/
def debugListAlt {T : Type} (trailing : Bool) (fmt : T → Doc) (l : List T) : Doc :=
  .say "[".toList (debugEntriesAlt trailing fmt false l (.say "]".toList (.done true)))

/-- `Debug for Vector` (src/vector.rs:123-126) with the `#` flag. -/
def Vec.debugAlt {T : Type} {n : Nat} (trailing : Bool) (fmt : T → Doc) (v : Vec T n) : Doc :=
  .say "Vector".toList (debugListAlt trailing fmt v.toList)

namespace Mat
variable {T : Type} {r c : Nat}

/-- The row loop (src/matrix/mod.rs:313-316), then `write!(fmt, "]")` (line 318). -/
def debugRowsAlt (trailing : Bool) (fmt : T → Doc) (last : Nat) : List (Vec T c × Nat) → Doc
  | [] => .say "]".toList (.done true)
  | p :: ps =>
    (debugListAlt trailing fmt p.1.toList).andThen
      (if p.2 ≠ last then .say ", ".toList (debugRowsAlt trailing fmt last ps) else debugRowsAlt trailing fmt last ps)

/-- `Debug for Matrix` (src/matrix/mod.rs:309-319) with the `#` flag. -/
def debugAlt (t : Target) (trailing : Bool) (fmt : T → Doc) (a : Mat T r c) : Doc :=
  .say "Matrix[".toList <|
    .lift (usub t a.rows.len 1) fun last => debugRowsAlt trailing fmt last a.rows.toList.zipIdx

end Mat
end Rowcol
