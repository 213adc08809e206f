import Verif.Props.Misc
import Verif.Props.DisplayIO
import Verif.Model.DebugAlt

/-! # C109: the alternate form `{:#?}` of `Debug` -/

namespace Rowcol
open Spec

variable {T L : Type} {r c n : Nat}

namespace Spec

/-- How a formatting function ends. -/
inductive Ending
  | ok
  | err
  | panics (e : Fault)
  deriving DecidableEq

/-- The writes of a formatting function to a destination that accepts everything, and how it ends. -/
def pieces : Doc → List (List Char) × Ending
  | .done true => ([], .ok)
  | .done false => ([], .err)
  | .panic e => ([], .panics e)
  | .write s next => (s :: (pieces (next true)).1, (pieces (next true)).2)

/-- The text a formatting function produces, and how it ends. -/
def heard (d : Doc) : List Char × Ending := ((pieces d).1.flatten, (pieces d).2)

/-- A formatting function that returns `Err` when a write has failed, and writes nothing more. -/
def Honest : Doc → Prop
  | .done _ => True
  | .panic _ => True
  | .write _ next => next false = .done false ∧ Honest (next true)

/-- Four blanks before every character that starts a line; `fresh` says whether the first one does. -/
def indent : Bool → List Char → List Char
  | _, [] => []
  | fresh, ch :: s => (if fresh then "    ".toList else []) ++ ch :: indent (ch == '\n') s

/-- The text of a list with the `#` flag.  `trailing`: the version of the standard library that puts a comma after the last
entry too. -/
def prettyText (trailing : Bool) (texts : List (List Char)) : List Char :=
  if texts = [] then "[]".toList
  else if trailing then
    "[\n".toList ++ (texts.flatMap fun e => indent true (e ++ ",\n".toList)) ++ "]".toList
  else
    "[\n".toList ++ [',', '\n'].intercalate (texts.map (indent true)) ++ "\n]".toList

/-- Run `finish` when all of `ps` have been written; `Err` at the first failure. -/
def ending : Ending → StM L Bool
  | .ok => pure true
  | .err => pure false
  | .panics e => liftRes (.error e)

end Spec

/-! ## `heard` of the parts -/

/-- `b` after `a`, if `a` ends with `Ok`. -/
def both (a b : List Char × Ending) : List Char × Ending :=
  match a.2 with
  | .ok => (a.1 ++ b.1, b.2)
  | _ => a

theorem heard_say (s : List Char) (d : Doc) : heard (.say s d) = (s ++ (heard d).1, (heard d).2) := rfl

theorem heard_write (s : List Char) (f : Bool → Doc) :
    heard (.write s f) = (s ++ (heard (f true)).1, (heard (f true)).2) := rfl

theorem heard_andThen (d rest : Doc) : heard (d.andThen rest) = both (heard d) (heard rest) := by
  induction d with
  | done ok => cases ok <;> rfl
  | panic e => rfl
  | write s next ih =>
    rw [Doc.andThen, heard_write, heard_write, ih]
    unfold both
    cases h : (heard (next true)).2 <;> simp [h]

/-- A piece of `split_inclusive`. -/
def Piece (l : List Char) : Prop := l ≠ [] ∧ '\n' ∉ l.dropLast

theorem splitInclusive_flatten (s : List Char) : (splitInclusive s).flatten = s := by
  induction s with
  | nil => rfl
  | cons ch s ih =>
    rw [splitInclusive]
    split
    · simp [ih]
    · split
      · rename_i h; rw [h] at ih; simpa using ih
      · rename_i l ls h; rw [h] at ih; simpa using ih

theorem splitInclusive_pieces (s : List Char) : ∀ l ∈ splitInclusive s, Piece l := by
  induction s with
  | nil => intro l h; cases h
  | cons ch s ih =>
    rw [splitInclusive]
    split
    · intro l h
      rcases List.mem_cons.1 h with h | h
      · subst h; exact ⟨by simp, by simp⟩
      · exact ih l h
    · rename_i hc
      split
      · intro l h
        rcases List.mem_cons.1 h with h | h
        · subst h; exact ⟨by simp, by simp⟩
        · cases h
      · rename_i l' ls h
        intro l hl
        rw [h] at ih
        rcases List.mem_cons.1 hl with hl | hl
        · subst hl
          have := ih l' (List.mem_cons_self ..)
          refine ⟨by simp, ?_⟩
          rw [List.dropLast_cons_of_ne_nil this.1]
          simp only [List.mem_cons, not_or]
          exact ⟨fun e => hc e.symm, this.2⟩
        · exact ih l (List.mem_cons_of_mem _ hl)

theorem indent_false_piece (l s : List Char) (h : Piece l) :
    indent false (l ++ s) = l ++ indent (l.getLast? == some '\n') s := by
  obtain ⟨hne, hnl⟩ := h
  induction l with
  | nil => exact absurd rfl hne
  | cons ch l ih =>
    cases l with
    | nil => simp [indent]; 
    | cons d l =>
      rw [List.dropLast_cons_of_ne_nil (by simp)] at hnl
      simp only [List.mem_cons, not_or] at hnl
      have hc : (ch == '\n') = false := by simpa using fun e => hnl.1 e.symm
      have := ih (by simp) hnl.2
      rw [List.cons_append, indent, hc, this]
      simp

theorem indent_piece (nl : Bool) (l s : List Char) (h : Piece l) :
    indent nl (l ++ s) = (if nl then "    ".toList else []) ++ l ++ indent (l.getLast? == some '\n') s := by
  rw [List.append_assoc, ← indent_false_piece l s h]
  obtain ⟨hne, _⟩ := h
  cases l with
  | nil => exact absurd rfl hne
  | cons ch l => simp [indent]

theorem heard_padPieces (k : Bool → Bool → Doc) (ls : List (List Char)) (h : ∀ l ∈ ls, Piece l) (nl : Bool) :
    ∃ nl', ∀ s, indent nl (ls.flatten ++ s) = indent nl ls.flatten ++ indent nl' s ∧
      heard (padPieces k nl ls) = (indent nl ls.flatten ++ (heard (k nl' true)).1, (heard (k nl' true)).2) := by
  induction ls generalizing nl with
  | nil => exact ⟨nl, fun s => ⟨by simp [indent], by simp [indent, padPieces]⟩⟩
  | cons l ls ih =>
    obtain ⟨nl', h'⟩ := ih (fun l hl => h l (List.mem_cons_of_mem _ hl)) (l.getLast? == some '\n')
    refine ⟨nl', fun s => ?_⟩
    have hl := h l (List.mem_cons_self ..)
    have e1 := (h' s).1
    have e2 := (h' s).2
    rw [List.flatten_cons, List.append_assoc, indent_piece nl l _ hl, indent_piece nl l _ hl, e1]
    refine ⟨by simp, ?_⟩
    cases nl
    · rw [padPieces]
      simp only [Bool.false_eq_true, if_false]
      rw [heard_write]
      simp only [if_true]
      rw [e2]; simp
    · rw [padPieces]
      simp only [if_true]
      rw [heard_write]
      simp only [if_true]
      rw [heard_write]
      simp only [if_true]
      rw [e2]; simp

theorem heard_pad (next : Doc) (d : Doc) (nl : Bool) :
    heard (pad (fun _ ok => if ok then next else .done false) nl d) =
      both (indent nl (heard d).1, (heard d).2) (heard next) := by
  induction d generalizing nl with
  | done ok => cases ok <;> simp [pad, both, heard, pieces, indent]
  | panic e => simp [pad, both, heard, pieces, indent]
  | write s f ih =>
    rw [pad]
    obtain ⟨nl', h⟩ := heard_padPieces (fun nl ok => pad (fun _ ok => if ok then next else .done false) nl (f ok))
      (splitInclusive s) (splitInclusive_pieces s) nl
    obtain ⟨h1, h2⟩ := h (heard (f true)).1
    rw [splitInclusive_flatten] at h1 h2
    rw [h2, heard_write, h1, ih true nl']
    unfold both
    cases h : (heard (f true)).2 <;> simp

/-! ## Lists -/

/-- The text of one entry with everything the list adds to it. -/
def entryText (trailing hasFields : Bool) (h : List Char × Ending) : List Char × Ending :=
  if trailing then
    both ((if hasFields then [] else ['\n']), .ok)
      (indent true (if h.2 = .ok then h.1 ++ [',', '\n'] else h.1), h.2)
  else
    ((if hasFields then [',', '\n'] else ['\n']) ++ indent true h.1, h.2)

theorem heard_entry (trailing : Bool) (fmt : T → Doc) (hasFields : Bool) (x : T) (xs : List T) (rest : Doc) :
    heard (debugEntriesAlt trailing fmt hasFields (x :: xs) rest) =
      both (entryText trailing hasFields (heard (fmt x))) (heard (debugEntriesAlt trailing fmt true xs rest)) := by
  rw [debugEntriesAlt]
  cases trailing
  · simp only [Bool.false_eq_true, if_false]
    rw [heard_pad, heard_say]
    simp only [entryText, Bool.false_eq_true, if_false]
    cases hasFields <;> simp [indent]
  · simp only [if_true]
    have e : heard (pad (fun _ ok => if ok then debugEntriesAlt true fmt true xs rest else .done false) true
        ((fmt x).andThen (.say ",\n".toList (.done true)))) =
        both (indent true (if (heard (fmt x)).2 = .ok then (heard (fmt x)).1 ++ [',', '\n'] else (heard (fmt x)).1),
          (heard (fmt x)).2) (heard (debugEntriesAlt true fmt true xs rest)) := by
      rw [heard_pad, heard_andThen, heard_say]
      have : heard (.done true) = ([], .ok) := rfl
      rw [this]
      congr 1
      unfold both
      cases h : (heard (fmt x)).2 <;> simp [h]
    cases hasFields
    · simp only [Bool.false_eq_true, if_false]
      rw [heard_say, e, entryText]
      unfold both
      cases h : (heard (fmt x)).2 <;> simp
    · simp only [if_true]
      rw [e, entryText]
      rfl

/-- What follows the entries. -/
def closeText (trailing hasFields : Bool) : List Char := if trailing ∨ ¬ hasFields then [] else ['\n']

theorem heard_close (trailing : Bool) (fmt : T → Doc) (hasFields : Bool) (rest : Doc) :
    heard (debugEntriesAlt trailing fmt hasFields [] rest) =
      (closeText trailing hasFields ++ (heard rest).1, (heard rest).2) := by
  rw [debugEntriesAlt]
  cases trailing <;> cases hasFields <;> simp [closeText, heard_say]

/-- The text of an entry that is followed by others. -/
def entryOk (trailing hasFields : Bool) (e : List Char) : List Char :=
  if trailing then (if hasFields then [] else ['\n']) ++ indent true (e ++ [',', '\n'])
  else (if hasFields then [',', '\n'] else ['\n']) ++ indent true e

theorem entryText_ok (trailing hasFields : Bool) (h : List Char × Ending) (hok : h.2 = .ok) :
    entryText trailing hasFields h = (entryOk trailing hasFields h.1, .ok) := by
  unfold entryText entryOk both
  cases trailing <;> simp [hok]

theorem both_ok (a : List Char) (b : List Char × Ending) : both (a, .ok) b = (a ++ b.1, b.2) := rfl

theorem heard_entries_true (trailing : Bool) (fmt : T → Doc) (l : List T) (rest : Doc) (h : ∀ x ∈ l, (heard (fmt x)).2 = .ok) :
    heard (debugEntriesAlt trailing fmt true l rest) =
      ((l.flatMap fun x => entryOk trailing true (heard (fmt x)).1) ++ closeText trailing true ++ (heard rest).1,
        (heard rest).2) := by
  induction l with
  | nil => rw [heard_close]; rfl
  | cons x l ih =>
    rw [heard_entry, entryText_ok _ _ _ (h x (List.mem_cons_self ..)), ih fun y hy => h y (List.mem_cons_of_mem _ hy), both_ok]
    simp

theorem intercalate_cons_flatMap {α : Type} (s x : List α) (l : List (List α)) :
    s.intercalate (x :: l) = x ++ l.flatMap fun y => s ++ y := by
  induction l generalizing x with
  | nil => simp [List.intercalate]
  | cons y ys ih =>
    have := ih y
    simp only [List.intercalate] at this ⊢
    rw [List.intersperse_cons_cons, List.flatten_cons, List.flatten_cons, this]
    simp

theorem heard_list (trailing : Bool) (fmt : T → Doc) (l : List T) (h : ∀ x ∈ l, (heard (fmt x)).2 = .ok) :
    heard (debugListAlt trailing fmt l) = (prettyText trailing (l.map fun x => (heard (fmt x)).1), .ok) := by
  have hd : heard (.say "]".toList (.done true)) = ([']'], .ok) := rfl
  rw [debugListAlt, heard_say]
  cases l with
  | nil => rw [heard_close, hd]; cases trailing <;> rfl
  | cons x l =>
    rw [heard_entry, entryText_ok _ _ _ (h x (List.mem_cons_self ..)),
      heard_entries_true _ _ _ _ fun y hy => h y (List.mem_cons_of_mem _ hy), both_ok, hd]
    cases trailing
    · rw [prettyText, if_neg (by simp), if_neg (by simp), List.map_cons, List.map_cons, intercalate_cons_flatMap,
        List.flatMap_map, List.flatMap_map]
      simp [entryOk, closeText]
    · rw [prettyText, if_neg (by simp), if_pos rfl, List.map_cons, List.flatMap_cons, List.flatMap_map]
      simp [entryOk, closeText]

/-! ## The texts -/

/-- C109: `{:#?}` of a vector whose entries' own `{:#?}` succeed: `Vector`, then the entries' texts as an indented list. -/
theorem C109_vec (trailing : Bool) (fmt : T → Doc) (v : Vec T n) (h : ∀ i, (heard (fmt (v.get i))).2 = .ok) :
    heard (v.debugAlt trailing fmt) =
      ("Vector".toList ++ prettyText trailing ((List.finRange n).map fun i => (heard (fmt (v.get i))).1), .ok) := by
  rw [Vec.debugAlt, heard_say, heard_list, Vec.toList_eq, List.map_map]
  · rfl
  · intro x hx
    rw [Vec.toList_eq] at hx
    obtain ⟨i, -, rfl⟩ := List.mem_map.1 hx
    exact h i

theorem heard_rows (trailing : Bool) (fmt : T → Doc) (x : Vec T c) (l : List (Vec T c)) (k : Nat)
    (h : ∀ v ∈ x :: l, ∀ y ∈ v.toList, (heard (fmt y)).2 = .ok) :
    heard (Mat.debugRowsAlt trailing fmt (k + l.length) ((x :: l).zipIdx k)) =
      ([',', ' '].intercalate ((x :: l).map fun v => prettyText trailing (v.toList.map fun y => (heard (fmt y)).1)) ++ [']'],
        .ok) := by
  induction l generalizing x k with
  | nil =>
    rw [List.zipIdx_cons, Mat.debugRowsAlt, if_neg (by simp), heard_andThen, heard_list _ _ _ (h x (List.mem_cons_self ..)),
      both_ok]
    have hd : heard (Mat.debugRowsAlt (c := c) trailing fmt (k + ([] : List (Vec T c)).length) []) = ([']'], .ok) := rfl
    rw [List.zipIdx_nil, hd]; simp
  | cons y ys ih =>
    rw [List.zipIdx_cons, Mat.debugRowsAlt, if_pos (by simp), heard_andThen, heard_list _ _ _ (h x (List.mem_cons_self ..)),
      both_ok, heard_say]
    rw [show k + (y :: ys).length = (k + 1) + ys.length by simp; omega,
      ih y (k + 1) fun v hv => h v (List.mem_cons_of_mem _ hv)]
    rw [List.map_cons, List.map_cons, intercalate_cons_flatMap, intercalate_cons_flatMap, List.map_cons]
    simp

theorem Mat.rows_cons (a : Mat T (r + 1) c) : ∃ x l, a.rows.toList = x :: l ∧ l.length = r := by
  have hl := a.rows.length_eq
  cases h : a.rows.toList with
  | nil => rw [h] at hl; simp at hl
  | cons x l => rw [h] at hl; exact ⟨x, l, rfl, by simpa using hl⟩

/-- C109: `{:#?}` of a matrix with at least one row, all entries' own `{:#?}` succeeding: `Matrix[`, the rows as indented lists
with `", "` between them, `]`; the rows themselves are not indented. -/
theorem C109_mat (t : Target) (trailing : Bool) (fmt : T → Doc) (a : Mat T (r + 1) c)
    (h : ∀ i j, (heard (fmt (a.get i j))).2 = .ok) :
    heard (a.debugAlt t trailing fmt) =
      ("Matrix[".toList ++ ", ".toList.intercalate ((List.finRange (r + 1)).map fun i =>
          prettyText trailing ((List.finRange c).map fun j => (heard (fmt (a.get i j))).1)) ++ "]".toList, .ok) := by
  obtain ⟨x, l, hx, hl⟩ := a.rows_cons
  have hu : usub t (Vec.len a.rows) 1 = .ok r := by simp [usub, Vec.len]
  have e := heard_rows trailing fmt x l 0 (by
    intro v hv y hy
    rw [← hx, Vec.toList_eq] at hv
    obtain ⟨i, -, rfl⟩ := List.mem_map.1 hv
    rw [Vec.toList_eq] at hy
    obtain ⟨j, -, rfl⟩ := List.mem_map.1 hy
    exact h i j)
  rw [Nat.zero_add, hl, ← hx] at e
  rw [Mat.debugAlt, hu, Doc.lift, heard_say, e, Vec.toList_eq a.rows, List.map_map]
  have hr : ((List.finRange (r + 1)).map ((fun v : Vec T c => prettyText trailing (v.toList.map fun y => (heard (fmt y)).1)) ∘
      a.rows.get)) = (List.finRange (r + 1)).map fun i =>
          prettyText trailing ((List.finRange c).map fun j => (heard (fmt (a.get i j))).1) := by
    apply List.map_congr_left; intro i _
    simp only [Function.comp]
    rw [Vec.toList_eq (a.rows.get i), List.map_map]; rfl
  rw [hr]
  simp

/-- C109: a matrix without rows: `Matrix[`, then a panic in a build with overflow checks, and `]` in others. -/
theorem C109_mat_empty (t : Target) (trailing : Bool) (fmt : T → Doc) (a : Mat T 0 c) :
    heard (a.debugAlt t trailing fmt) =
      if t.overflowChecks then ("Matrix[".toList, .panics .panic) else ("Matrix[]".toList, .ok) := by
  have h : a.rows.toList = [] := List.length_eq_zero_iff.1 a.rows.length_eq
  rw [Mat.debugAlt, h]
  cases ht : t.overflowChecks
  · have hu : usub t (Vec.len a.rows) 1 = .ok (0 + t.W - 1) := by simp [usub, Vec.len, ht]
    rw [hu]; rfl
  · have hu : usub t (Vec.len a.rows) 1 = .error .panic := by simp [usub, Vec.len, ht]
    rw [hu]; rfl

/-! ## An entry that fails -/

theorem both_fail (a b : List Char × Ending) (h : a.2 ≠ .ok) : both a b = a := by
  unfold both; split
  · exact absurd (by assumption) h
  · rfl

theorem entryText_snd (trailing hasFields : Bool) (h : List Char × Ending) : (entryText trailing hasFields h).2 = h.2 := by
  cases trailing <;> rfl

theorem heard_entries_fail (trailing : Bool) (fmt : T → Doc) (pre : List T) (x : T) (post : List T) (rest : Doc)
    (h : ∀ y ∈ pre, (heard (fmt y)).2 = .ok) (hx : (heard (fmt x)).2 ≠ .ok) :
    heard (debugEntriesAlt trailing fmt true (pre ++ x :: post) rest) =
      ((pre.flatMap fun y => entryOk trailing true (heard (fmt y)).1) ++ (entryText trailing true (heard (fmt x))).1,
        (heard (fmt x)).2) := by
  induction pre with
  | nil =>
    rw [List.nil_append, heard_entry, both_fail _ _ (by rw [entryText_snd]; exact hx)]
    rw [← entryText_snd trailing true]; rfl
  | cons y pre ih =>
    rw [List.cons_append, heard_entry, entryText_ok _ _ _ (h y (List.mem_cons_self ..)), both_ok,
      ih fun z hz => h z (List.mem_cons_of_mem _ hz)]
    simp

theorem heard_list_fail (trailing : Bool) (fmt : T → Doc) (pre : List T) (x : T) (post : List T)
    (h : ∀ y ∈ pre, (heard (fmt y)).2 = .ok) (hx : (heard (fmt x)).2 ≠ .ok) :
    heard (debugListAlt trailing fmt (pre ++ x :: post)) =
      ("[\n".toList ++ (pre.flatMap fun y =>
          if trailing then indent true ((heard (fmt y)).1 ++ ",\n".toList) else indent true (heard (fmt y)).1 ++ ",\n".toList) ++
        indent true (heard (fmt x)).1, (heard (fmt x)).2) := by
  rw [debugListAlt, heard_say]
  cases pre with
  | nil =>
    rw [List.nil_append, heard_entry, both_fail _ _ (by rw [entryText_snd]; exact hx)]
    cases trailing <;> simp [entryText, hx, both]
  | cons y pre =>
    rw [List.cons_append, heard_entry, entryText_ok _ _ _ (h y (List.mem_cons_self ..)), both_ok,
      heard_entries_fail _ _ _ _ _ _ (fun z hz => h z (List.mem_cons_of_mem _ hz)) hx]
    cases trailing
    · simp only [entryText, entryOk, hx]
      simp only [Bool.false_eq_true, if_false, if_true]
      rw [List.flatMap_cons]
      have e : ∀ l : List T, ∀ b : List Char, (l.flatMap fun z => [',', '\n'] ++ indent true (heard (fmt z)).1) ++ (',' :: '\n' :: b) =
          ',' :: '\n' :: ((l.flatMap fun z => indent true (heard (fmt z)).1 ++ [',', '\n']) ++ b) := by
        intro l b
        induction l with
        | nil => rfl
        | cons z l ih => rw [List.flatMap_cons, List.flatMap_cons, List.append_assoc, ih]; simp
      have := e pre (indent true (heard (fmt x)).1)
      simp only [List.append_assoc] at this ⊢
      simp only [List.cons_append, List.nil_append] at this ⊢
      rw [this]
      simp
    · simp only [entryText, entryOk, hx]
      simp [both]

/-- C109: if an entry's own formatting fails or panics, the text is what precedes that entry and the indented text it produced,
and the vector's formatting ends the same way; later entries are not formatted. -/
theorem C109_vec_fails (trailing : Bool) (fmt : T → Doc) (v : Vec T n) (pre : List T) (x : T) (post : List T)
    (hv : v.toList = pre ++ x :: post) (h : ∀ y ∈ pre, (heard (fmt y)).2 = .ok) (hx : (heard (fmt x)).2 ≠ .ok) :
    heard (v.debugAlt trailing fmt) =
      ("Vector[\n".toList ++ (pre.flatMap fun y =>
          if trailing then indent true ((heard (fmt y)).1 ++ ",\n".toList) else indent true (heard (fmt y)).1 ++ ",\n".toList) ++
        indent true (heard (fmt x)).1, (heard (fmt x)).2) := by
  rw [Vec.debugAlt, heard_say, hv, heard_list_fail trailing fmt pre x post h hx]
  simp

/-! ## Destinations that fail -/

theorem honest_say (s : List Char) (d : Doc) (h : Honest d) : Honest (.say s d) := ⟨rfl, h⟩

theorem honest_andThen (d e : Doc) (hd : Honest d) (he : Honest e) : Honest (d.andThen e) := by
  induction d with
  | done ok => cases ok; exacts [trivial, he]
  | panic e => trivial
  | write s next ih =>
    refine ⟨?_, ih true hd.2⟩
    change (next false).andThen e = _
    rw [hd.1]; rfl

theorem honest_padPieces (k : Bool → Bool → Doc) (hf : ∀ nl, k nl false = .done false) (ht : ∀ nl, Honest (k nl true))
    (nl : Bool) (ls : List (List Char)) : Honest (padPieces k nl ls) := by
  induction ls generalizing nl with
  | nil => exact ht nl
  | cons l ls ih =>
    have hr : ∀ nl, Honest (.write l fun ok => if ok then padPieces k nl ls else k nl false) := fun nl =>
      ⟨by simpa using hf nl, by simpa using ih nl⟩
    rw [padPieces]
    cases nl
    · exact hr _
    · exact ⟨by simpa using hf true, by simpa using hr _⟩

theorem honest_pad (k : Bool → Bool → Doc) (hf : ∀ nl, k nl false = .done false) (ht : ∀ nl, Honest (k nl true))
    (d : Doc) (hd : Honest d) (nl : Bool) : Honest (pad k nl d) := by
  induction d generalizing nl with
  | done ok =>
    cases ok
    · rw [pad, hf]; trivial
    · rw [pad]; exact ht nl
  | panic e => trivial
  | write s next ih =>
    rw [pad]
    exact honest_padPieces _ (fun nl => by rw [hd.1, pad, hf]) (fun nl => ih true hd.2 nl) _ _

theorem honest_entries (trailing : Bool) (fmt : T → Doc) (h : ∀ x, Honest (fmt x)) (hasFields : Bool) (l : List T) (rest : Doc)
    (hr : Honest rest) : Honest (debugEntriesAlt trailing fmt hasFields l rest) := by
  induction l generalizing hasFields with
  | nil =>
    rw [debugEntriesAlt]
    split
    · exact hr
    · exact honest_say _ _ hr
  | cons x l ih =>
    rw [debugEntriesAlt]
    split
    · have hp := honest_pad (fun _ ok => if ok then debugEntriesAlt trailing fmt true l rest else .done false)
        (fun _ => rfl) (fun _ => ih true) _ (honest_andThen _ _ (h x) (honest_say ",\n".toList (.done true) trivial)) true
      cases hasFields
      · exact honest_say _ _ hp
      · exact hp
    · exact honest_pad (fun _ ok => if ok then debugEntriesAlt trailing fmt true l rest else .done false)
        (fun _ => rfl) (fun _ => ih true) _ (honest_say _ _ (h x)) _

theorem honest_list (trailing : Bool) (fmt : T → Doc) (h : ∀ x, Honest (fmt x)) (l : List T) :
    Honest (debugListAlt trailing fmt l) :=
  honest_say _ _ (honest_entries trailing fmt h false l _ (honest_say _ _ trivial))

/-- C109: if the entries' own formatting stops at the first failing write, so does that of the vector and of the matrix, for
any nesting. -/
theorem C109_honest (t : Target) (trailing : Bool) (fmt : T → Doc) (h : ∀ x, Honest (fmt x)) :
    (∀ v : Vec T n, Honest (v.debugAlt trailing fmt)) ∧ ∀ a : Mat T r c, Honest (a.debugAlt t trailing fmt) := by
  refine ⟨fun v => honest_say _ _ (honest_list trailing fmt h _), fun a => honest_say _ _ ?_⟩
  have hr : ∀ last (l : List (Vec T c × Nat)), Honest (Mat.debugRowsAlt trailing fmt last l) := by
    intro last l
    induction l with
    | nil => exact honest_say _ _ trivial
    | cons p ps ih =>
      rw [Mat.debugRowsAlt]
      refine honest_andThen _ _ (honest_list trailing fmt h _) ?_
      split
      · exact honest_say _ _ ih
      · exact ih
  cases usub t a.rows.len 1 with
  | ok last => exact hr _ _
  | error e => trivial

/-- C109: on any destination, a formatting function that stops at the first failing write performs its writes in order up to
the first one that fails, and then returns `Err`; if all succeed it ends as on a destination that accepts everything. -/
theorem C109_destination (out : List Char → StM L Bool) (d : Doc) (h : Honest d) :
    d.run out = (do
      let ok ← writeAll out (pieces d).1
      if ok then ending (pieces d).2 else pure false) := by
  induction d with
  | done ok => cases ok <;> rfl
  | panic e => rfl
  | write s next ih =>
    rw [Doc.run]
    have := ih true h.2
    simp only [pieces, writeAll]
    rw [bind_assoc]
    congr 1
    funext ok
    cases ok
    · rw [h.1]; rfl
    · simp only [if_true]; rw [this]

/-! ## The text determines the entries -/

theorem newline_unique (a b s t : List Char) (ha : '\n' ∉ a) (hb : '\n' ∉ b) (h : a ++ '\n' :: s = b ++ '\n' :: t) :
    a = b ∧ s = t := by
  induction a generalizing b with
  | nil =>
    cases b with
    | nil => simpa using h
    | cons y b => simp at h; exact absurd h.1 (by rintro rfl; simp at hb)
  | cons x a ih =>
    cases b with
    | nil => simp at h; exact absurd h.1 (by rintro rfl; simp at ha)
    | cons y b =>
      simp only [List.cons_append, List.cons.injEq] at h
      simp only [List.mem_cons, not_or] at ha hb
      obtain ⟨e, f⟩ := ih b ha.2 hb.2 h.2
      exact ⟨by rw [h.1, e], f⟩

theorem indent_line (e : List Char) (h : '\n' ∉ e) : indent true e = if e = [] then [] else "    ".toList ++ e := by
  cases e with
  | nil => rfl
  | cons x e =>
    simp only [List.mem_cons, not_or] at h
    have hx : (x == '\n') = false := by simpa using fun e => h.1 e.symm
    have : ∀ e : List Char, '\n' ∉ e → indent false e = e := by
      intro e he
      induction e with
      | nil => rfl
      | cons y e ih =>
        simp only [List.mem_cons, not_or] at he
        have hy : (y == '\n') = false := by simpa using fun e => he.1 e.symm
        rw [indent, hy, ih he.2]; simp
    rw [indent, hx, this e h.2]; simp

theorem indent_entry (e : List Char) (h : '\n' ∉ e) (s : List Char) :
    indent true (e ++ ",\n".toList) ++ s = ("    ".toList ++ e ++ [',']) ++ '\n' :: s := by
  have hp : Piece (e ++ [',', '\n']) := by
    refine ⟨by simp, ?_⟩
    rw [show e ++ [',', '\n'] = (e ++ [',']) ++ ['\n'] by simp, List.dropLast_concat]
    simp [h]
  have := indent_piece true _ [] hp
  simp only [List.append_nil] at this
  change indent true (e ++ [',', '\n']) ++ s = _
  rw [this]; simp [indent]

theorem indent_injective (e f : List Char) (he : '\n' ∉ e) (hf : '\n' ∉ f) (h : indent true e = indent true f) : e = f := by
  rw [indent_line e he, indent_line f hf] at h
  split at h <;> split at h
  · simp_all
  · simp at h
  · simp at h
  · simpa using h

theorem indent_newline (e : List Char) (h : '\n' ∉ e) : '\n' ∉ indent true e := by
  rw [indent_line e h]; split <;> simp [h]

theorem trailing_injective (ls ms : List (List Char)) (hlen : ls.length = ms.length)
    (hl : ∀ e ∈ ls, '\n' ∉ e) (hm : ∀ e ∈ ms, '\n' ∉ e) (s t : List Char)
    (h : (ls.flatMap fun e => indent true (e ++ ",\n".toList)) ++ s = (ms.flatMap fun e => indent true (e ++ ",\n".toList)) ++ t) :
    ls = ms ∧ s = t := by
  induction ls generalizing ms with
  | nil =>
    cases ms with
    | nil => exact ⟨rfl, by simpa using h⟩
    | cons f ms => simp at hlen
  | cons e ls ih =>
    cases ms with
    | nil => simp at hlen
    | cons f ms =>
      have he := hl e (List.mem_cons_self ..)
      have hf := hm f (List.mem_cons_self ..)
      rw [List.flatMap_cons, List.flatMap_cons, List.append_assoc, List.append_assoc, indent_entry e he, indent_entry f hf] at h
      obtain ⟨h1, h2⟩ := newline_unique _ _ _ _ (by simp [he]) (by simp [hf]) h
      have h3 : e = f := by simpa using h1
      obtain ⟨h4, h5⟩ := ih ms (by simpa using hlen) (fun e he => hl e (List.mem_cons_of_mem _ he))
        (fun e he => hm e (List.mem_cons_of_mem _ he)) h2
      exact ⟨by rw [h3, h4], h5⟩

theorem between_injective (e f : List Char) (ls ms : List (List Char)) (hlen : ls.length = ms.length)
    (hl : ∀ x ∈ e :: ls, '\n' ∉ x) (hm : ∀ x ∈ f :: ms, '\n' ∉ x) (s t : List Char)
    (h : indent true e ++ ((ls.flatMap fun x => [',', '\n'] ++ indent true x) ++ '\n' :: s) =
      indent true f ++ ((ms.flatMap fun x => [',', '\n'] ++ indent true x) ++ '\n' :: t)) :
    e :: ls = f :: ms ∧ s = t := by
  have he := hl e (List.mem_cons_self ..)
  have hf := hm f (List.mem_cons_self ..)
  induction ls generalizing e f ms with
  | nil =>
    cases ms with
    | nil =>
      obtain ⟨h1, h2⟩ := newline_unique _ _ _ _ (indent_newline e he) (indent_newline f hf) (by simpa using h)
      exact ⟨by rw [indent_injective e f he hf h1], h2⟩
    | cons f ms => simp at hlen
  | cons e' ls ih =>
    cases ms with
    | nil => simp at hlen
    | cons f' ms =>
      obtain ⟨h1, h2⟩ := newline_unique (indent true e ++ [',']) (indent true f ++ [',']) _ _
        (by simp [indent_newline e he]) (by simp [indent_newline f hf]) (by
          rw [List.flatMap_cons, List.flatMap_cons] at h
          simpa using h)
      have h3 : e = f := indent_injective e f he hf (by simpa using h1)
      obtain ⟨h4, h5⟩ := ih e' f' ms (by simpa using hlen) (fun x hx => hl x (List.mem_cons_of_mem _ hx))
        (fun x hx => hm x (List.mem_cons_of_mem _ hx)) (by simpa using h2) (hl e' (by simp)) (hm f' (by simp))
      exact ⟨by rw [h3, h4], h5⟩

theorem prettyText_injective (trailing : Bool) (ls ms : List (List Char)) (hlen : ls.length = ms.length)
    (hl : ∀ e ∈ ls, '\n' ∉ e) (hm : ∀ e ∈ ms, '\n' ∉ e) (s t : List Char)
    (h : prettyText trailing ls ++ s = prettyText trailing ms ++ t) : ls = ms ∧ s = t := by
  cases ls with
  | nil =>
    cases ms with
    | nil => exact ⟨rfl, by simpa using h⟩
    | cons f ms => simp at hlen
  | cons e ls =>
    cases ms with
    | nil => simp at hlen
    | cons f ms =>
      cases trailing
      · simp only [prettyText, reduceCtorEq, Bool.false_eq_true, if_false, List.map_cons, intercalate_cons_flatMap,
          List.flatMap_map] at h
        obtain ⟨h1, h2⟩ := between_injective e f ls ms (by simpa using hlen) hl hm (']' :: s) (']' :: t) (by simpa using h)
        exact ⟨h1, by simpa using h2⟩
      · simp only [prettyText, reduceCtorEq, if_true, if_false] at h
        obtain ⟨h1, h2⟩ := trailing_injective (e :: ls) (f :: ms) hlen hl hm (']' :: s) (']' :: t) (by simpa using h)
        exact ⟨h1, by simpa using h2⟩

/-- C109: two vectors of one length with the same `{:#?}` text, where no entry's text has a line break, have the same entry
texts. -/
theorem C109_faithful_vec (trailing : Bool) (fmt : T → Doc) (v w : Vec T n)
    (hv : ∀ i, (heard (fmt (v.get i))).2 = .ok ∧ '\n' ∉ (heard (fmt (v.get i))).1)
    (hw : ∀ i, (heard (fmt (w.get i))).2 = .ok ∧ '\n' ∉ (heard (fmt (w.get i))).1)
    (h : (heard (v.debugAlt trailing fmt)).1 = (heard (w.debugAlt trailing fmt)).1) (i : Fin n) :
    (heard (fmt (v.get i))).1 = (heard (fmt (w.get i))).1 := by
  rw [C109_vec trailing fmt v fun i => (hv i).1, C109_vec trailing fmt w fun i => (hw i).1] at h
  have h' := List.append_cancel_left (congrArg id h)
  have := (prettyText_injective trailing _ _ (by simp) (by simpa using fun i => (hv i).2) (by simpa using fun i => (hw i).2)
    [] [] (congrArg (· ++ []) h')).1
  exact List.map_inj_left.1 this i (List.mem_finRange i)

theorem rows_injective {ι : Type} (trailing : Bool) (k : Nat) (A B : ι → List (List Char)) (hA : ∀ i, (A i).length = k)
    (hB : ∀ i, (B i).length = k) (hA' : ∀ i, ∀ e ∈ A i, '\n' ∉ e) (hB' : ∀ i, ∀ e ∈ B i, '\n' ∉ e) (i : ι) (is : List ι)
    (s t : List Char)
    (h : [',', ' '].intercalate ((i :: is).map fun i => prettyText trailing (A i)) ++ s =
      [',', ' '].intercalate ((i :: is).map fun i => prettyText trailing (B i)) ++ t) :
    ∀ x ∈ i :: is, A x = B x := by
  rw [List.map_cons, List.map_cons, intercalate_cons_flatMap, intercalate_cons_flatMap, List.append_assoc, List.append_assoc] at h
  obtain ⟨h1, h2⟩ := prettyText_injective trailing _ _ (by rw [hA, hB]) (hA' i) (hB' i) _ _ h
  intro x hx
  rcases List.mem_cons.1 hx with rfl | hx
  · exact h1
  · clear h h1
    induction is with
    | nil => cases hx
    | cons y is ih =>
      rw [List.map_cons, List.map_cons, List.flatMap_cons, List.flatMap_cons] at h2
      simp only [List.append_assoc, List.append_cancel_left_eq] at h2
      obtain ⟨h3, h4⟩ := prettyText_injective trailing _ _ (by rw [hA, hB]) (hA' y) (hB' y) _ _ h2
      rcases List.mem_cons.1 hx with rfl | hx
      · exact h3
      · exact ih h4 (List.mem_cons_of_mem _ hx) hx

/-- C109: the same for two matrices of one shape. -/
theorem C109_faithful_mat (t : Target) (trailing : Bool) (fmt : T → Doc) (a b : Mat T (r + 1) c)
    (ha : ∀ i j, (heard (fmt (a.get i j))).2 = .ok ∧ '\n' ∉ (heard (fmt (a.get i j))).1)
    (hb : ∀ i j, (heard (fmt (b.get i j))).2 = .ok ∧ '\n' ∉ (heard (fmt (b.get i j))).1)
    (h : (heard (a.debugAlt t trailing fmt)).1 = (heard (b.debugAlt t trailing fmt)).1) (i : Fin (r + 1)) (j : Fin c) :
    (heard (fmt (a.get i j))).1 = (heard (fmt (b.get i j))).1 := by
  rw [C109_mat t trailing fmt a fun i j => (ha i j).1, C109_mat t trailing fmt b fun i j => (hb i j).1] at h
  have h' := List.append_cancel_left ((List.append_assoc ..).symm.trans (h.trans (List.append_assoc ..)))
  rw [List.finRange_succ] at h'
  have := rows_injective trailing c (fun i => (List.finRange c).map fun j => (heard (fmt (a.get i j))).1)
    (fun i => (List.finRange c).map fun j => (heard (fmt (b.get i j))).1) (by simp) (by simp)
    (fun i => by simpa using fun j => (ha i j).2) (fun i => by simpa using fun j => (hb i j).2) _ _ _ _ h' i
    (by rw [← List.finRange_succ]; exact List.mem_finRange i)
  exact List.map_inj_left.1 this j (List.mem_finRange j)

/-! ## Concrete cases -/

/-- An entry that writes its decimal digits in one write. -/
def digits (k : Nat) : Doc := .say (Nat.repr k).toList (.done true)

theorem C109_sample :
    (heard ((Vec.ofFn ![1, 22] : Vec Nat 2).debugAlt true digits)).1 = "Vector[\n    1,\n    22,\n]".toList ∧
    (heard ((Vec.ofFn ![1, 22] : Vec Nat 2).debugAlt false digits)).1 = "Vector[\n    1,\n    22\n]".toList ∧
    (heard ((Vec.ofFn ![] : Vec Nat 0).debugAlt true digits)).1 = "Vector[]".toList ∧
    (heard ((Vec.ofFn ![Vec.ofFn ![1, 2], Vec.ofFn ![3, 4]] : Vec (Vec Nat 2) 2).debugAlt true fun v => v.debugAlt true digits)).1 =
      ("Vector[\n    Vector[\n        1,\n        2,\n    ],\n    Vector[\n        3,\n        4,\n    ],\n]").toList ∧
    (heard ((⟨Vec.ofFn ![Vec.ofFn ![1, 2], Vec.ofFn ![3, 4]]⟩ : Mat Nat 2 2).debugAlt ⟨true, true, 2 ^ 64⟩ true digits)).1 =
      "Matrix[[\n    1,\n    2,\n], [\n    3,\n    4,\n]]".toList ∧
    (heard ((Vec.ofFn ![Doc.say "a\n".toList (.say "b".toList (.done true)), .say "c".toList (.panic .panic), .done true] :
      Vec Doc 3).debugAlt true id)) = ("Vector[\n    a\n    b,\n    c".toList, .panics .panic) := by
  decide +kernel

/-- The hypotheses of the theorems above are met by entries that write digits. -/
theorem C109_digits (k : Nat) : heard (digits k) = ((Nat.repr k).toList, .ok) ∧ Honest (digits k) ∧ '\n' ∉ (heard (digits k)).1 := by
  refine ⟨by simp [digits, heard, pieces, Doc.say], ⟨rfl, trivial⟩, ?_⟩
  have : (heard (digits k)).1 = Nat.toDigits 10 k := by simp [digits, heard, pieces, Doc.say, Nat.repr]
  rw [this]
  intro h
  have := Nat.isDigit_of_mem_toDigits (by omega) (by omega) h
  revert this; decide

end Rowcol
