import Verif.Props.Misc
import Verif.Props.DisplayIO
import Verif.Model.DebugIO

/-! # C97: `Debug` with effectful entries and failing destinations -/

namespace Rowcol
open Spec

variable {T L : Type} {r c n : Nat}

namespace Spec

/-- Run the actions in order; stop at the first that reports a failure (`false`), and report it. -/
def runAll : List (StM L Bool) → StM L Bool
  | [] => pure true
  | p :: ps => do
    let ok ← p
    if ok then runAll ps else pure false

end Spec

/-- `runAll` with a continuation. -/
def runThen : List (StM L Bool) → StM L Bool → StM L Bool
  | [], rest => rest
  | p :: ps, rest => do
    let ok ← p
    if ok then runThen ps rest else pure false

theorem runThen_append (ps qs : List (StM L Bool)) (rest : StM L Bool) :
    runThen (ps ++ qs) rest = runThen ps (runThen qs rest) := by
  induction ps with
  | nil => rfl
  | cons p ps ih => rw [List.cons_append, runThen, ih, runThen]

theorem runThen_pure (ps : List (StM L Bool)) : runThen ps (pure true) = runAll ps := by
  induction ps with
  | nil => rfl
  | cons p ps ih => rw [runThen, ih]; rfl

theorem runAll_append (ps qs : List (StM L Bool)) : runAll (ps ++ qs) = runThen ps (runAll qs) := by
  rw [← runThen_pure, runThen_append, runThen_pure]

theorem runAll_single (p : StM L Bool) : runAll [p] = p := by
  have e : (fun ok : Bool => (if ok then runAll [] else pure false : StM L Bool)) = pure := by
    funext ok; cases ok <;> rfl
  change (p >>= fun ok => if ok then runAll [] else pure false) = p
  rw [e]; exact bind_pure p

theorem runThen_bind (ps : List (StM L Bool)) (rest : StM L Bool) :
    (do let ok ← runAll ps; if ok then rest else pure false) = runThen ps rest := by
  induction ps with
  | nil => exact pure_bind true _
  | cons p ps ih =>
    rw [runAll, runThen, ← ih, bind_assoc]
    congr 1
    funext ok
    cases ok
    · exact pure_bind false _
    · rfl

theorem runAll_eq_runThen (ps : List (StM L Bool)) (p : StM L Bool) : runThen ps p = runAll (ps ++ [p]) := by
  rw [runAll_append, runAll_single]

theorem runAll_map_out (out : List Char → StM L Bool) (ps : List (List Char)) : runAll (ps.map out) = writeAll out ps := by
  induction ps with
  | nil => rfl
  | cons p ps ih => rw [List.map_cons, runAll, ih, writeAll]

theorem debugEntriesIO_true (fmt : T → StM L Bool) (out : List Char → StM L Bool) (l : List T) (rest : StM L Bool) :
    debugEntriesIO fmt out true l rest = runThen (l.flatMap fun x => [out ", ".toList, fmt x]) rest := by
  induction l with
  | nil => rfl
  | cons x xs ih => rw [debugEntriesIO, ih]; rfl

theorem intersperse_cons_flatMap {α : Type} (s x : α) (l : List α) :
    (x :: l).intersperse s = x :: l.flatMap fun y => [s, y] := by
  induction l generalizing x with
  | nil => rfl
  | cons y ys ih => rw [List.intersperse_cons_cons, ih]; rfl

theorem debugListIO_eq (fmt : T → StM L Bool) (out : List Char → StM L Bool) (l : List T) :
    debugListIO fmt out l =
      runAll (out ['['] :: ((l.map fmt).intersperse (out ", ".toList) ++ [out [']']])) := by
  rw [runAll, ← runAll_eq_runThen]
  cases l with
  | nil => rfl
  | cons x xs =>
    rw [List.map_cons, intersperse_cons_flatMap, debugListIO, debugEntriesIO, runThen, debugEntriesIO_true, List.flatMap_map]
    rfl

theorem debugRowsIO_eq (list : List T → StM L Bool) (out : List Char → StM L Bool) (x : Vec T c) (l : List (Vec T c)) (k : Nat) :
    Mat.debugRowsIO list out (k + l.length) ((x :: l).zipIdx k) =
      runThen (((x :: l).map fun v => list v.toList).intersperse (out ", ".toList)) (out [']']) := by
  induction l generalizing x k with
  | nil =>
    rw [List.zipIdx_cons, Mat.debugRowsIO]
    rw [if_neg (by simp)]
    rfl
  | cons y ys ih =>
    rw [List.zipIdx_cons, Mat.debugRowsIO, if_pos (by simp)]
    rw [show k + (y :: ys).length = (k + 1) + ys.length by simp; omega, ih]
    rfl

/-! ## The sequence of actions -/

/-- C97: formatting a vector writes `Vector`, then formats its entries as a list; the second only if the first succeeded. -/
theorem C97_vec (list : List T → StM L Bool) (out : List Char → StM L Bool) (v : Vec T n) :
    v.debugIO list out = runAll [out "Vector".toList, list ((List.finRange n).map v.get)] := by
  rw [← Vec.toList_eq, runAll, runAll_single]; rfl

/-- C97: formatting a matrix with at least one row writes `Matrix[`, then formats the rows in order as lists with `", "`
between them, then writes `]`; everything only if all before it succeeded, and the result is `Ok` if all succeeded.  For every
way `list` to format a list, thus for all flags. -/
theorem C97_mat (t : Target) (list : List T → StM L Bool) (out : List Char → StM L Bool) (a : Mat T (r + 1) c) :
    a.debugIO t list out =
      runAll (out "Matrix[".toList ::
        (((List.finRange (r + 1)).map fun i => list ((List.finRange c).map (a.get i))).intersperse (out ", ".toList) ++
          [out "]".toList])) := by
  have hl := a.rows.length_eq
  obtain ⟨x, l, hx⟩ : ∃ x l, a.rows.toList = x :: l := by
    cases h : a.rows.toList with
    | nil => rw [h] at hl; simp at hl
    | cons x l => exact ⟨x, l, rfl⟩
  have hlen : l.length = r := by rw [hx] at hl; simpa using hl
  have hu : usub t (Vec.len a.rows) 1 = .ok r := by simp [usub, Vec.len]
  have e := debugRowsIO_eq list out x l 0
  rw [Nat.zero_add, hlen] at e
  have hrows : ((List.finRange (r + 1)).map fun i => list ((List.finRange c).map (a.get i))) =
      (x :: l).map fun v => list v.toList := by
    rw [← hx, Vec.toList_eq a.rows, List.map_map]
    apply List.map_congr_left; intro i _
    simp only [Function.comp]
    rw [Vec.toList_eq (a.rows.get i)]; rfl
  rw [Mat.debugIO, hu, liftRes_ok_bind, hx, e, hrows, runAll, ← runAll_eq_runThen]
  rfl

/-- C97: a matrix without rows: `Matrix[` is written first, and if that succeeded the function panics in a build with overflow
checks, and writes `]` in others. -/
theorem C97_mat_empty (t : Target) (list : List T → StM L Bool) (out : List Char → StM L Bool) (a : Mat T 0 c) :
    a.debugIO t list out =
      runAll [out "Matrix[".toList, if t.overflowChecks then throw .panic else out "]".toList] := by
  have h : a.rows.toList = [] := List.length_eq_zero_iff.1 a.rows.length_eq
  rw [Mat.debugIO, runAll, runAll_single]
  rw [h]
  have e : (do let last ← liftRes (usub t a.rows.len 1); Mat.debugRowsIO list out last ([] : List (Vec T c)).zipIdx : StM L Bool) =
      if t.overflowChecks then throw .panic else out "]".toList := by
    cases ht : t.overflowChecks
    · have hu : usub t (Vec.len a.rows) 1 = .ok (0 + t.W - 1) := by simp [usub, Vec.len, ht]
      rw [hu, liftRes_ok_bind]; rfl
    · have hu : usub t (Vec.len a.rows) 1 = .error .panic := by simp [usub, Vec.len, ht]
      rw [hu]; rfl
  rw [e]; rfl

/-- C97 for `{:?}` of a vector, down to the entries. -/
theorem C97_vec_entries (fmt : T → StM L Bool) (out : List Char → StM L Bool) (v : Vec T n) :
    v.debugIO (debugListIO fmt out) out =
      runAll (out "Vector".toList :: out "[".toList ::
        (((List.finRange n).map fun i => fmt (v.get i)).intersperse (out ", ".toList) ++ [out "]".toList])) := by
  rw [C97_vec, runAll, runAll_single, debugListIO_eq, List.map_map]; rfl

/-- The actions of formatting a list with `{:?}`: `[`, the entries with `", "` between them, `]`. -/
def Spec.listActions (out : List Char → StM L Bool) (entries : List (StM L Bool)) : List (StM L Bool) :=
  out "[".toList :: (entries.intersperse (out ", ".toList) ++ [out "]".toList])

theorem runThen_intersperse (s : StM L Bool) (Ls : List (List (StM L Bool))) (rest : StM L Bool) :
    runThen ((Ls.map runAll).intersperse s) rest = runThen (Ls.intersperse [s]).flatten rest := by
  cases Ls with
  | nil => rfl
  | cons x xs =>
    rw [List.map_cons, intersperse_cons_flatMap, intersperse_cons_flatMap, runThen, runThen_bind, List.flatten_cons, runThen_append]
    congr 1
    induction xs with
    | nil => rfl
    | cons y ys ih =>
      rw [List.map_cons, List.flatMap_cons, List.flatMap_cons, List.cons_append, List.cons_append, List.nil_append, runThen, runThen,
        runThen_bind, ih]
      simp only [List.cons_append, List.nil_append, List.flatten_cons, runThen, runThen_append]

/-- C97 for `{:?}` of a matrix with at least one row, down to the entries: the sequence of all writes and entry formattings. -/
theorem C97_mat_entries (t : Target) (fmt : T → StM L Bool) (out : List Char → StM L Bool) (a : Mat T (r + 1) c) :
    a.debugIO t (debugListIO fmt out) out =
      runAll (out "Matrix[".toList ::
        ((((List.finRange (r + 1)).map fun i => listActions out ((List.finRange c).map fun j => fmt (a.get i j))).intersperse
          [out ", ".toList]).flatten ++ [out "]".toList])) := by
  rw [C97_mat, runAll, ← runAll_eq_runThen, runAll, ← runAll_eq_runThen]
  congr 1
  funext ok
  congr 1
  rw [← runThen_intersperse, List.map_map]
  congr 2
  apply List.map_congr_left; intro i _
  rw [debugListIO_eq, List.map_map]; rfl

/-! ## Failing destinations -/

/-- The pieces written for `{:?}` of a list whose entries write the given pieces. -/
def Spec.listPieces (entries : List (List (List Char))) : List (List Char) :=
  "[".toList :: ((entries.intersperse [", ".toList]).flatten ++ ["]".toList])

/-- The pieces written for `{:?}` of a matrix whose entries write the given pieces. -/
def Spec.matrixPieces (rows : List (List (List (List Char)))) : List (List Char) :=
  "Matrix[".toList :: (((rows.map listPieces).intersperse [", ".toList]).flatten ++ ["]".toList])

theorem runThen_pieces (out : List Char → StM L Bool) (es : List (List (List Char))) (rest : StM L Bool) :
    runThen ((es.map (writeAll out)).intersperse (out ", ".toList)) rest =
      runThen ((es.intersperse [", ".toList]).flatten.map out) rest := by
  have e1 : es.map (writeAll out) = (es.map (List.map out)).map runAll := by
    rw [List.map_map]; apply List.map_congr_left; intro x _; simp [runAll_map_out]
  rw [e1, runThen_intersperse]
  congr 1
  cases es with
  | nil => rfl
  | cons x xs =>
    rw [List.map_cons, intersperse_cons_flatMap, intersperse_cons_flatMap]
    simp [List.flatMap_map, List.map_flatten, List.map_flatMap]

/-- C97: if the entry `x` writes the pieces `ps x`, `{:?}` of a vector writes the pieces of all of it in order, up to the first
failure. -/
theorem C97_vec_writes (ps : T → List (List Char)) (out : List Char → StM L Bool) (v : Vec T n) :
    v.debugIO (debugListIO (fun x => writeAll out (ps x)) out) out =
      writeAll out ("Vector".toList :: listPieces ((List.finRange n).map fun i => ps (v.get i))) := by
  rw [C97_vec_entries, ← runAll_map_out, List.map_cons, runAll, runAll, listPieces, List.map_cons, runAll, runAll, List.map_append,
    ← runAll_eq_runThen, List.map_cons, List.map_nil, ← runAll_eq_runThen, ← runThen_pieces, List.map_map]
  rfl

theorem listIO_pieces (ps : T → List (List Char)) (out : List Char → StM L Bool) (l : List T) :
    debugListIO (fun x => writeAll out (ps x)) out l = writeAll out (listPieces (l.map ps)) := by
  rw [debugListIO_eq, ← runAll_map_out, listPieces, List.map_cons, runAll, runAll, List.map_append,
    ← runAll_eq_runThen, List.map_cons, List.map_nil, ← runAll_eq_runThen, ← runThen_pieces, List.map_map]
  rfl

/-- C97: the same for a matrix with at least one row. -/
theorem C97_mat_writes (t : Target) (ps : T → List (List Char)) (out : List Char → StM L Bool) (a : Mat T (r + 1) c) :
    a.debugIO t (debugListIO (fun x => writeAll out (ps x)) out) out =
      writeAll out (matrixPieces ((List.finRange (r + 1)).map fun i => (List.finRange c).map fun j => ps (a.get i j))) := by
  rw [C97_mat, ← runAll_map_out, matrixPieces, List.map_map, List.map_cons, runAll, runAll, List.map_append,
    ← runAll_eq_runThen, List.map_cons, List.map_nil, ← runAll_eq_runThen, ← runThen_pieces, List.map_map]
  have e : (fun i => debugListIO (fun x => writeAll out (ps x)) out ((List.finRange c).map (a.get i))) =
      writeAll out ∘ fun i => listPieces ((List.finRange c).map fun j => ps (a.get i j)) := by
    funext i; rw [listIO_pieces, List.map_map]; rfl
  rw [e]; rfl

/-- C97: on a destination that accepts exactly `k` writes, the accepted text is that of the first `k` pieces, and the result is
`Ok` exactly if there are at most `k` pieces. -/
theorem C97_limited (t : Target) (ps : T → List (List Char)) (v : Vec T n) (a : Mat T (r + 1) c) (k : Nat) (acc : List Char)
    (vp mp : List (List Char)) (hv : vp = "Vector".toList :: listPieces ((List.finRange n).map fun i => ps (v.get i)))
    (hm : mp = matrixPieces ((List.finRange (r + 1)).map fun i => (List.finRange c).map fun j => ps (a.get i j))) :
    (v.debugIO (debugListIO (fun x => writeAll limited (ps x)) limited) limited).run (acc, k) =
      (.ok (decide (vp.length ≤ k)), (acc ++ (vp.take k).flatten, k - vp.length)) ∧
    (a.debugIO t (debugListIO (fun x => writeAll limited (ps x)) limited) limited).run (acc, k) =
      (.ok (decide (mp.length ≤ k)), (acc ++ (mp.take k).flatten, k - mp.length)) := by
  rw [C97_vec_writes, C97_mat_writes, limited_run, limited_run, hv, hm]
  exact ⟨rfl, rfl⟩

/-! ## The text -/

theorem listPieces_text (es : List (List (List Char))) :
    (listPieces es).flatten = (listText (es.map fun e => String.ofList e.flatten)).toList := by
  cases es with
  | nil => rfl
  | cons x xs =>
    rw [listPieces, intersperse_cons_flatMap]
    have : ∀ xs : List (List (List Char)), (String.join (xs.map ((fun x => ", " ++ x) ∘ fun e => String.ofList e.flatten))).toList =
        (xs.flatMap fun y => [[", ".toList], y]).flatten.flatten := by
      intro xs
      induction xs with
      | nil => rfl
      | cons y ys ih => simp [ih]
    simp [listText, this]

/-- C97: the pieces together are the text of C34: `Vector[e0, e1, ...]` and `Matrix[[..], [..], ...]`, where the text of an
entry is what the entry writes. -/
theorem C97_text (t : Target) (ps : T → List (List Char)) (v : Vec T n) (a : Mat T (r + 1) c) :
    String.ofList ("Vector".toList :: listPieces ((List.finRange n).map fun i => ps (v.get i))).flatten =
      v.debug (fun x => String.ofList (ps x).flatten) ∧
    .ok (String.ofList (matrixPieces ((List.finRange (r + 1)).map fun i =>
      (List.finRange c).map fun j => ps (a.get i j))).flatten) = a.debug t (fun x => String.ofList (ps x).flatten) := by
  constructor
  · rw [C34_vec_debug, List.flatten_cons, listPieces_text, List.map_map]
    apply String.toList_injective
    simp [Function.comp_def]
  · rw [C34_mat_debug_partial]
    congr 1
    have e := listPieces_text (((List.finRange (r + 1)).map fun i =>
      (List.finRange c).map fun j => ps (a.get i j)).map listPieces)
    apply String.toList_injective
    rw [String.toList_ofList, String.toList_append]
    have h : (matrixPieces ((List.finRange (r + 1)).map fun i => (List.finRange c).map fun j => ps (a.get i j))).flatten =
        "Matrix".toList ++ (listPieces (((List.finRange (r + 1)).map fun i =>
          (List.finRange c).map fun j => ps (a.get i j)).map listPieces)).flatten := by
      rw [matrixPieces, listPieces]; simp
    rw [h, e, List.map_map, List.map_map]
    congr 4
    funext i
    simp only [Function.comp, listPieces_text, String.ofList_toList, List.map_map]
    rfl

/-- `Matrix[[1, 2], [3, 4]]`, for entries that write themselves in one piece, comes in 13 pieces; here the destination accepts 8. -/
example : ((⟨⟨[⟨[1, 2], rfl⟩, ⟨[3, 4], rfl⟩], rfl⟩⟩ : Mat Nat 2 2).debugIO ⟨true, true, 2 ^ 64⟩
    (debugListIO (fun x => writeAll limited [(toString x).toList]) limited) limited).run ([], 8) =
    (.ok false, ("Matrix[[1, 2], [".toList, 0)) := by
  have h := (C97_limited ⟨true, true, 2 ^ 64⟩ (fun x : Nat => [(toString x).toList]) ⟨[], rfl⟩
    (⟨⟨[⟨[1, 2], rfl⟩, ⟨[3, 4], rfl⟩], rfl⟩⟩ : Mat Nat 2 2) 8 [] _ _ rfl rfl).2
  refine h.trans (congrArg₂ Prod.mk (congrArg Except.ok (by decide +kernel)) (by decide +kernel))

/-- A matrix without rows in a checked build: a destination that refuses the first write gives `Err`, any other a panic. -/
example : ((⟨⟨[], rfl⟩⟩ : Mat Nat 0 2).debugIO ⟨true, true, 2 ^ 64⟩ (debugListIO (fun _ => pure true) limited) limited).run ([], 0) =
      (.ok false, ([], 0)) ∧
    ((⟨⟨[], rfl⟩⟩ : Mat Nat 0 2).debugIO ⟨true, true, 2 ^ 64⟩ (debugListIO (fun _ => pure true) limited) limited).run ([], 5) =
      (.error .panic, ("Matrix[".toList, 4)) := by
  rw [C97_mat_empty]; exact ⟨rfl, rfl⟩

/-- The second entry panics, after the first has been written; nothing of the third. -/
example : ((⟨[1, 2, 3], rfl⟩ : Vec Nat 3).debugIO
      (debugListIO (fun x => if x = 2 then throw .panic else limited (toString x).toList) limited) limited).run ([], 9) =
    (.error .panic, ("Vector[1, ".toList, 5)) := by rfl

/-- A vector of vectors: the `Debug` of the entries is that of vectors. -/
example : ((⟨[⟨[1], rfl⟩, ⟨[2], rfl⟩], rfl⟩ : Vec (Vec Nat 1) 2).debugIO
      (debugListIO (fun v => v.debugIO (debugListIO (fun x => limited (toString x).toList) limited) limited) limited) limited).run
      ([], 20) = (.ok true, ("Vector[Vector[1], Vector[2]]".toList, 8)) := by rfl

end Rowcol
