import Verif.Lemmas.Display
import Verif.Lemmas.Cursor

/-! # C64, C65: `Display for Matrix`

`lines` is `str::lines`, `cw` the width of a character as measured by `str_len`, `render` the `Display` of an entry.
Nothing is assumed about the three, except where stated. -/

namespace Rowcol
open Spec

variable {T : Type} {r c : Nat}

namespace Spec
variable (lines : List Char → List (List Char)) (cw : Char → Nat) (render : T → List Char) (a : Mat T r c)

/-- Width of column `j`: that of the widest line of any of its entries. -/
def columnWidth (j : Fin c) : Nat :=
  greatest ((List.finRange r).map fun i => greatest ((lines (render (a.get i j))).map (strLen cw)))

/-- Height of row `i`: the greatest number of lines of any of its entries. -/
def rowHeight (i : Fin r) : Nat := greatest ((List.finRange c).map fun j => (lines (render (a.get i j))).length)

/-- Line `n` of entry `(i, j)`, empty if it has fewer lines. -/
def entryLine (i : Fin r) (j : Fin c) (n : Nat) : List Char := ((lines (render (a.get i j)))[n]?).getD []

/-- The blanks before entry `(i, j)` (which centre its widest line). -/
def leftPad (i : Fin r) (j : Fin c) : Nat :=
  (columnWidth lines cw render a j - greatest ((lines (render (a.get i j))).map (strLen cw))) / 2

/-- The text of entry `(i, j)` in line `n` of its row, padded to its column's width. -/
def cell (i : Fin r) (j : Fin c) (n : Nat) : List Char :=
  List.replicate (leftPad lines cw render a i j) ' ' ++ entryLine lines render a i j n ++
  List.replicate (columnWidth lines cw render a j - strLen cw (entryLine lines render a i j n) -
    leftPad lines cw render a i j) ' '

/-- A blank between columns. -/
def gap (j : Fin c) : List Char := if j.val + 1 < c then [' '] else []

/-- What stands between the brackets in line `n` of row `i`. -/
def lineInterior (i : Fin r) (n : Nat) : List Char :=
  ((List.finRange c).map fun j => cell lines cw render a i j n ++ gap j).flatten

/-- The brackets of line `n` of row `i` (of height `h`), `r` rows. -/
def brackets (r h i n : Nat) : Char × Char :=
  if i = 0 ∧ n = 0 then ('⎡', '⎤') else if i + 1 = r ∧ n + 1 = h then ('⎣', '⎦') else ('⎢', '⎥')

/-- Line `n` of row `i`, without line end. -/
def displayLine (i : Fin r) (n : Nat) : List Char :=
  (brackets r (rowHeight lines render a i) i n).1 :: (lineInterior lines cw render a i n ++
    [(brackets r (rowHeight lines render a i) i n).2])

/-- All lines of the displayed matrix. -/
def displayLines : List (List Char) :=
  (List.finRange r).flatMap fun i => (List.range (rowHeight lines render a i)).map fun n => displayLine lines cw render a i n

/-- The line end: none after the closing bracket `⎦`. -/
def lineEnd (ch : Char) : List Char := if ch = '⎦' then [] else ['\n']

end Spec

section
variable (t : Target) (lines : List Char → List (List Char)) (cw : Char → Nat) (render : T → List Char) (a : Mat T r c)

theorem strLen_append (x y : List Char) : strLen cw (x ++ y) = strLen cw x + strLen cw y := by simp [strLen]

theorem strLen_replicate (k : Nat) (ch : Char) : strLen cw (List.replicate k ch) = k * cw ch := by simp [strLen]

theorem entryLine_le (i : Fin r) (j : Fin c) (n : Nat) :
    strLen cw (entryLine lines render a i j n) ≤ greatest ((lines (render (a.get i j))).map (strLen cw)) := by
  unfold entryLine
  cases h : (lines (render (a.get i j)))[n]? with
  | none => simp [strLen]
  | some l =>
    apply le_greatest
    rw [Option.getD_some]
    exact List.mem_map_of_mem (List.mem_of_getElem? h)

theorem entryW_le (i : Fin r) (j : Fin c) :
    greatest ((lines (render (a.get i j))).map (strLen cw)) ≤ columnWidth lines cw render a j :=
  le_greatest (List.mem_map.2 ⟨i, List.mem_finRange i, rfl⟩)

theorem cellText_eq (hW : ∀ j, columnWidth lines cw render a j + 1 < t.W) (i : Fin r) (j : Fin c) (n : Nat) :
    Mat.cellText t lines cw (Vec.ofFn (columnWidth lines cw render a)) n
        ((render (a.get i j), Mat.entryW lines cw render a i j), j.val) =
      .ok (cell lines cw render a i j n ++ gap j) := by
  have hj := j.isLt
  have h1 := entryW_le lines cw render a i j
  have h2 := entryLine_le lines cw render a i j n
  have h3 := hW j
  unfold Mat.cellText
  rw [Vec.index_ok _ j.isLt]
  simp only [res_ok_bind, Fin.eta, Vec.get_ofFn, Mat.entryW]
  rw [usub_ok t h1]
  simp only [res_ok_bind]
  change (do
    let x ← usub t (columnWidth lines cw render a j) (strLen cw (entryLine lines render a i j n))
    _ : Res (List Char)) = _
  rw [usub_ok t (by omega)]
  simp only [res_ok_bind]
  rw [usub_ok t (by omega)]
  simp only [res_ok_bind]
  rw [usub_ok t (by omega)]
  simp only [res_ok_bind]
  rw [uadd_ok t (by split <;> omega)]
  simp only [res_ok_bind]
  change Except.ok _ = Except.ok _
  congr 1
  unfold cell gap leftPad
  rw [← List.replicate_append_replicate]
  simp only [List.append_assoc]
  congr 3
  · by_cases hl : j.val + 1 < c
    · rw [if_pos hl, if_pos (by omega)]; rfl
    · rw [if_neg hl, if_neg (by omega)]; rfl

theorem openBracket_eq (i : Fin r) (n h : Nat) (hn : n < h) :
    Mat.openBracket t r i n h = .ok [(brackets r h i n).1] := by
  have hi := i.isLt
  unfold Mat.openBracket brackets
  by_cases h0 : i.val = 0 ∧ n = 0
  · rw [if_pos h0, if_pos h0]; rfl
  · rw [if_neg h0, if_neg h0, usub_ok t (by omega)]
    simp only [res_ok_bind]
    by_cases h1 : i.val = r - 1
    · rw [if_pos h1, usub_ok t (by omega)]
      simp only [res_ok_bind]
      by_cases h2 : n = h - 1
      · rw [if_pos h2, if_pos ⟨by omega, by omega⟩]; rfl
      · rw [if_neg h2, if_neg (by omega)]; rfl
    · rw [if_neg h1, if_neg (by omega)]; rfl

theorem closeBracket_eq (i : Fin r) (n h : Nat) (hn : n < h) :
    Mat.closeBracket t r i n h = .ok ((brackets r h i n).2 :: lineEnd (brackets r h i n).2) := by
  have hi := i.isLt
  unfold Mat.closeBracket brackets
  by_cases h0 : i.val = 0 ∧ n = 0
  · rw [if_pos h0, if_pos h0]; rfl
  · rw [if_neg h0, if_neg h0, usub_ok t (by omega)]
    simp only [res_ok_bind]
    by_cases h1 : i.val = r - 1
    · rw [if_pos h1, usub_ok t (by omega)]
      simp only [res_ok_bind]
      by_cases h2 : n = h - 1
      · rw [if_pos h2, if_pos ⟨by omega, by omega⟩]; rfl
      · rw [if_neg h2, if_neg (by omega)]; rfl
    · rw [if_neg h1, if_neg (by omega)]; rfl

/-- C64/C65: displaying a matrix never panics (in any build), and the text is exactly the lines `displayLine i n` for
every row `i` and `n < rowHeight i`, in order, each followed by a line feed except one ending in `⎦`.  (The hypothesis
only says that a padded column's width fits in `usize`.) -/
theorem C64_display (hW : ∀ j, columnWidth lines cw render a j + 1 < t.W) :
    Mat.display t lines cw render a =
      .ok ((List.finRange r).flatMap fun i => (List.range (rowHeight lines render a i)).flatMap fun n =>
        displayLine lines cw render a i n ++ lineEnd (brackets r (rowHeight lines render a i) i n).2) := by
  have hd : ∀ k, Vec.default t k (pure 0 : Res Nat) = .ok (Vec.ofFn fun _ => 0) := by
    intro k
    unfold Vec.default Vec.generate
    rw [Vec.range_eq, List.map_map]
    exact Vec.collect_finRange_ok t _ _ (fun _ => rfl)
  unfold Mat.display
  rw [hd, hd]
  simp only [res_ok_bind]
  change (match (Mat.renderAll t lines cw render a).run (Mat.sz (fun _ => 0) (fun _ => 0)) with
    | (.error e, _) => _
    | (.ok ss, st) => _) = _
  rw [Mat.renderAll_run]
  simp only
  rw [Vec.zipIdx_eq]
  have hrow : ∀ i : Fin r, Mat.rowText t lines cw (Mat.sz (Mat.colW lines cw render a) (Mat.rowH lines render a))
      ((Vec.ofFn fun i => Vec.ofFn fun j => (render (a.get i j), Mat.entryW lines cw render a i j)).get i, i.val) =
      .ok ((List.range (rowHeight lines render a i)).flatMap fun n =>
        displayLine lines cw render a i n ++ lineEnd (brackets r (rowHeight lines render a i) i n).2) := by
    intro i
    unfold Mat.rowText
    simp only [Mat.sz, Vec.get_ofFn]
    rw [Vec.index_ok _ i.isLt]
    simp only [res_ok_bind, Fin.eta, Vec.get_ofFn]
    change (do
      let ls ← (List.range (rowHeight lines render a i)).mapM _
      _ : Res (List Char)) = _
    rw [mapM_ok _ _ (fun n => displayLine lines cw render a i n ++ lineEnd (brackets r (rowHeight lines render a i) i n).2)]
    · rfl
    · intro n hn
      rw [List.mem_range] at hn
      unfold Mat.lineText
      rw [show Mat.rowH lines render a i = rowHeight lines render a i from rfl, openBracket_eq t i n _ hn]
      simp only [res_ok_bind]
      rw [Vec.zipIdx_eq]
      have hc : ((List.finRange c).map fun j => ((Vec.ofFn fun j => (render (a.get i j), Mat.entryW lines cw render a i j)).get j, j.val)).mapM
          (Mat.cellText t lines cw (Vec.ofFn (Mat.colW lines cw render a)) n) =
          .ok ((List.finRange c).map fun j => cell lines cw render a i j n ++ gap j) := by
        have : ∀ l : List (Fin c), (l.map fun j => ((Vec.ofFn fun j => (render (a.get i j), Mat.entryW lines cw render a i j)).get j, j.val)).mapM
            (Mat.cellText t lines cw (Vec.ofFn (Mat.colW lines cw render a)) n) =
            .ok (l.map fun j => cell lines cw render a i j n ++ gap j) := by
          intro l
          induction l with
          | nil => rfl
          | cons j l ih =>
            rw [List.map_cons, List.mapM_cons, ih, Vec.get_ofFn]
            have := cellText_eq t lines cw render a hW i j n
            change Mat.cellText t lines cw (Vec.ofFn (Mat.colW lines cw render a)) n _ = _ at this
            rw [this]; rfl
        exact this _
      rw [hc]
      simp only [res_ok_bind]
      rw [closeBracket_eq t i n _ hn]
      simp only [res_ok_bind]
      change Except.ok _ = Except.ok _
      congr 1
      simp [displayLine, lineInterior]
  have : ∀ l : List (Fin r), (l.map fun i =>
      ((Vec.ofFn fun i => Vec.ofFn fun j => (render (a.get i j), Mat.entryW lines cw render a i j)).get i, i.val)).mapM
      (Mat.rowText t lines cw (Mat.sz (Mat.colW lines cw render a) (Mat.rowH lines render a))) =
      .ok (l.map fun i => (List.range (rowHeight lines render a i)).flatMap fun n =>
        displayLine lines cw render a i n ++ lineEnd (brackets r (rowHeight lines render a i) i n).2) := by
    intro l
    induction l with
    | nil => rfl
    | cons i l ih => rw [List.map_cons, List.mapM_cons, ih, hrow]; rfl
  rw [this]
  simp only [res_ok_bind]
  rfl

/-- Every cell is exactly as wide as its column. -/
theorem cell_width (hs : cw ' ' = 1) (i : Fin r) (j : Fin c) (n : Nat) :
    strLen cw (cell lines cw render a i j n) = columnWidth lines cw render a j := by
  have h1 := entryW_le lines cw render a i j
  have h2 := entryLine_le lines cw render a i j n
  unfold cell leftPad
  rw [strLen_append, strLen_append, strLen_replicate, strLen_replicate, hs]
  omega

/-- C64: every line is a bracket, an interior of width `Σ columnWidth + (c - 1)`, and a bracket: all lines are equally
wide (given that a blank is one wide). -/
theorem C64_rectangular (hs : cw ' ' = 1) (i : Fin r) (n : Nat) :
    strLen cw (lineInterior lines cw render a i n) = (∑ j, columnWidth lines cw render a j) + (c - 1) ∧
    (cw '⎡' = 1 → cw '⎤' = 1 → cw '⎣' = 1 → cw '⎦' = 1 → cw '⎢' = 1 → cw '⎥' = 1 →
      strLen cw (displayLine lines cw render a i n) = 2 + (∑ j, columnWidth lines cw render a j) + (c - 1)) := by
  have key : strLen cw (lineInterior lines cw render a i n) = (∑ j, columnWidth lines cw render a j) + (c - 1) := by
    have h1 : strLen cw (lineInterior lines cw render a i n) =
        ((List.finRange c).map fun j => columnWidth lines cw render a j + (if j.val + 1 < c then 1 else 0)).sum := by
      unfold lineInterior
      have : ∀ l : List (List Char), strLen cw l.flatten = (l.map (strLen cw)).sum := by
        intro l
        induction l with
        | nil => rfl
        | cons x l ih => rw [List.flatten_cons, strLen_append, ih]; rfl
      rw [this, List.map_map]
      congr 1
      apply List.map_congr_left
      intro j _
      simp only [Function.comp]
      rw [strLen_append, cell_width lines cw render a hs]
      congr 1
      unfold gap
      split
      · simp [strLen, hs]
      · rfl
    have h2 : ((List.finRange c).map fun j : Fin c => columnWidth lines cw render a j + (if j.val + 1 < c then 1 else 0)).sum =
        ∑ j : Fin c, (columnWidth lines cw render a j + (if j.val + 1 < c then 1 else 0)) := by
      rw [← List.sum_ofFn, List.ofFn_eq_map]
    have h3 : ∑ j : Fin c, (if j.val + 1 < c then 1 else 0) = c - 1 := by
      cases c with
      | zero => rfl
      | succ c =>
        rw [Fin.sum_univ_castSucc]
        simp
    rw [h1, h2, Finset.sum_add_distrib, h3]
  refine ⟨key, fun b1 b2 b3 b4 b5 b6 => ?_⟩
  have hb : cw (brackets r (rowHeight lines render a i) i n).1 = 1 ∧ cw (brackets r (rowHeight lines render a i) i n).2 = 1 := by
    unfold brackets
    split
    · exact ⟨b1, b2⟩
    · split
      · exact ⟨b3, b4⟩
      · exact ⟨b5, b6⟩
  unfold displayLine
  rw [show ∀ (ch : Char) (l : List Char), ch :: l = [ch] ++ l from fun _ _ => rfl, strLen_append, strLen_append, key]
  simp only [strLen, List.map_cons, List.map_nil, List.sum_cons, List.sum_nil, hb.1, hb.2]
  omega

/-! ## C65 -/

theorem splitTerm_line (l : List Char) (h : '\n' ∉ l) (rest : List Char) :
    splitTerm (l ++ '\n' :: rest) = l :: splitTerm rest := by
  induction l with
  | nil => simp [splitTerm]
  | cons ch l ih =>
    rw [List.mem_cons, not_or] at h
    rw [List.cons_append, splitTerm, if_neg (Ne.symm h.1), ih h.2]

theorem splitTerm_last (l : List Char) (h : '\n' ∉ l) (hl : l ≠ []) : splitTerm l = [l] := by
  induction l with
  | nil => exact absurd rfl hl
  | cons ch l ih =>
    rw [List.mem_cons, not_or] at h
    rw [splitTerm, if_neg (Ne.symm h.1)]
    cases l with
    | nil => rfl
    | cons ch' l => rw [ih h.2 (by simp)]

theorem splitTerm_no_newline (s : List Char) : ∀ l ∈ splitTerm s, '\n' ∉ l := by
  induction s with
  | nil => simp [splitTerm]
  | cons ch s ih =>
    rw [splitTerm]
    by_cases h : ch = '\n'
    · rw [if_pos h]; simpa using ih
    · rw [if_neg h]
      cases hs : splitTerm s with
      | nil => simp [Ne.symm h]
      | cons l ls =>
        rw [hs] at ih
        simp only [List.mem_cons, forall_eq_or_imp, not_or] at ih ⊢
        exact ⟨⟨Ne.symm h, ih.1⟩, ih.2⟩

/-- `str::lines` never yields a line feed inside a line. -/
theorem strLines_no_newline (s : List Char) : ∀ l ∈ strLines s, '\n' ∉ l := by
  intro l hl
  unfold strLines at hl
  obtain ⟨l', h1, rfl⟩ := List.mem_map.1 hl
  unfold stripCR
  split
  · exact fun h => splitTerm_no_newline s l' h1 (List.mem_of_mem_dropLast h)
  · exact splitTerm_no_newline s l' h1

theorem displayLine_no_newline (hl : ∀ s, ∀ l ∈ lines s, '\n' ∉ l) (i : Fin r) (n : Nat) :
    '\n' ∉ displayLine lines cw render a i n := by
  have hb : ∀ (r h i n : Nat), (brackets r h i n).1 ≠ '\n' ∧ (brackets r h i n).2 ≠ '\n' := by
    intro r h i n
    unfold brackets
    split
    · decide
    · split <;> decide
  have hc : ∀ j, '\n' ∉ cell lines cw render a i j n ++ gap j := by
    intro j h
    unfold cell gap entryLine at h
    simp only [List.mem_append, List.mem_replicate] at h
    rcases h with ((h | h) | h) | h
    · exact absurd h.2 (by decide)
    · cases he : (lines (render (a.get i j)))[n]? with
      | none => rw [he] at h; simp at h
      | some l =>
        rw [he] at h
        exact hl _ l (List.mem_of_getElem? he) (by simpa using h)
    · exact absurd h.2 (by decide)
    · split at h
      · simp at h
      · simp at h
  unfold displayLine lineInterior
  simp only [List.mem_cons, List.mem_append, List.mem_flatten, List.mem_map, List.mem_finRange, true_and, not_or]
  refine ⟨Ne.symm (hb _ _ _ _).1, ?_, Ne.symm (hb _ _ _ _).2, by simp⟩
  rintro ⟨l, ⟨j, rfl⟩, h⟩
  exact hc j h

/-- Lines of which only the last may lack its line feed. -/
theorem splitTerm_lines (ls : List (List Char × Bool)) (h : ∀ p ∈ ls, '\n' ∉ p.1 ∧ p.1 ≠ [])
    (hlast : ∀ p ∈ ls.dropLast, p.2 = true) :
    splitTerm (ls.flatMap fun p => p.1 ++ if p.2 then ['\n'] else []) = ls.map Prod.fst := by
  induction ls with
  | nil => rfl
  | cons p ls ih =>
    obtain ⟨l, b⟩ := p
    have h0 := h (l, b) (by simp)
    rw [List.flatMap_cons, List.map_cons]
    cases ls with
    | nil =>
      cases b with
      | true => simpa [splitTerm] using splitTerm_line l h0.1 []
      | false => simpa using splitTerm_last l h0.1 h0.2
    | cons q ls =>
      have hb : b = true := hlast (l, b) (by simp)
      subst hb
      have ih' := ih (fun p hp => h p (by simp [hp])) (fun p hp => hlast p (by
        rw [List.dropLast_cons_of_ne_nil (by simp)]
        exact List.mem_cons_of_mem _ hp))
      rw [← ih']
      simp only [if_true, List.append_assoc]
      exact splitTerm_line l h0.1 _

/-- C65: the displayed text, split into lines, is exactly `displayLines`: for every row `i` in order as many lines as
the highest of its entries has, each being `displayLine i n`.  (`lines` need only yield newline-free lines, as
`str::lines` does.) -/
theorem C65_lines (hW : ∀ j, columnWidth lines cw render a j + 1 < t.W) (hl : ∀ s, ∀ l ∈ lines s, '\n' ∉ l) :
    ∃ text, Mat.display t lines cw render a = .ok text ∧ splitTerm text = displayLines lines cw render a := by
  refine ⟨_, C64_display t lines cw render a hW, ?_⟩
  let ls : List (List Char × Bool) := (List.finRange r).flatMap fun i => (List.range (rowHeight lines render a i)).map fun n =>
    (displayLine lines cw render a i n, decide ((brackets r (rowHeight lines render a i) i n).2 ≠ '⎦'))
  have e1 : ((List.finRange r).flatMap fun i => (List.range (rowHeight lines render a i)).flatMap fun n =>
        displayLine lines cw render a i n ++ lineEnd (brackets r (rowHeight lines render a i) i n).2) =
      ls.flatMap fun p => p.1 ++ if p.2 then ['\n'] else [] := by
    simp only [ls]
    rw [List.flatMap_assoc]
    congr 1
    funext i
    rw [List.flatMap_map]
    congr 1
    funext n
    unfold lineEnd
    by_cases h : (brackets r (rowHeight lines render a i) i n).2 = '⎦' <;> simp [h]
  have e2 : ls.map Prod.fst = displayLines lines cw render a := by
    simp only [ls, displayLines, List.map_flatMap, List.map_map]
    rfl
  rw [e1, splitTerm_lines, e2]
  · intro p hp
    simp only [ls, List.mem_flatMap, List.mem_map] at hp
    obtain ⟨i, _, n, _, rfl⟩ := hp
    exact ⟨displayLine_no_newline lines cw render a hl i n, by simp [displayLine]⟩
  · cases r with
    | zero => intro p hp; simp [ls] at hp
    | succ r =>
      intro p hp
      simp only [ls] at hp
      rw [List.finRange_succ_last, List.flatMap_append, List.flatMap_singleton] at hp
      have hne : ∀ (i n : Nat) (h : Nat), ¬ (i + 1 = r + 1 ∧ n + 1 = h) → (brackets (r + 1) h i n).2 ≠ '⎦' := by
        intro i n h hn
        unfold brackets
        split
        · decide
        · decide
      have hfirst : p ∈ ((List.finRange r).map Fin.castSucc).flatMap (fun i => (List.range (rowHeight lines render a i)).map fun n =>
            (displayLine lines cw render a i n, decide ((brackets (r + 1) (rowHeight lines render a i) i n).2 ≠ '⎦'))) → p.2 = true := by
        intro hp
        simp only [List.mem_flatMap, List.mem_map, List.mem_finRange, true_and] at hp
        obtain ⟨_, ⟨i, rfl⟩, n, _, rfl⟩ := hp
        simp only [decide_eq_true_eq]
        apply hne
        have := i.isLt
        simp; omega
      cases hh : rowHeight lines render a (Fin.last r) with
      | zero =>
        rw [hh, List.range_zero, List.map_nil, List.append_nil] at hp
        exact hfirst (List.mem_of_mem_dropLast hp)
      | succ h =>
        rw [hh, List.range_succ, List.map_append, List.map_singleton, ← List.append_assoc, List.dropLast_concat] at hp
        rcases List.mem_append.1 hp with hp | hp
        · exact hfirst hp
        · obtain ⟨n, hn, rfl⟩ := List.mem_map.1 hp
          rw [List.mem_range] at hn
          simp only [decide_eq_true_eq]
          apply hne
          omega

/-- C65: row `i` takes as many lines as its highest entry, and no fewer: some entry has that many (unless the height
is 0). -/
theorem C65_height (i : Fin r) :
    (∀ j, (lines (render (a.get i j))).length ≤ rowHeight lines render a i) ∧
    (rowHeight lines render a i = 0 ∨ ∃ j, (lines (render (a.get i j))).length = rowHeight lines render a i) := by
  refine ⟨fun j => le_greatest (List.mem_map.2 ⟨j, List.mem_finRange j, rfl⟩), ?_⟩
  rcases greatest_mem ((List.finRange c).map fun j => (lines (render (a.get i j))).length) with h | h
  · exact .inl h
  · obtain ⟨j, _, hj⟩ := List.mem_map.1 h
    exact .inr ⟨j, hj⟩

/-- C65: line `n` of entry `(i, j)` stands in line `n` of row `i`, after the opening bracket, the columns before it (each
followed by a blank) and its left padding. -/
theorem C65_place (hs : cw ' ' = 1) (i : Fin r) (j : Fin c) (n : Nat) (l : List Char)
    (h : (lines (render (a.get i j)))[n]? = some l) :
    n < rowHeight lines render a i ∧
    ∃ ch pre post, displayLine lines cw render a i n =
        ch :: (pre ++ List.replicate (leftPad lines cw render a i j) ' ' ++ l ++ post) ∧
      strLen cw pre = ∑ k : Fin j.val, (columnWidth lines cw render a ⟨k, by omega⟩ + 1) := by
  constructor
  · have h1 := (C65_height lines render a i).1 j
    have := (List.getElem?_eq_some_iff.1 h).1
    omega
  · have hsplit : ∃ suf, List.finRange c = (List.finRange j.val).map (Fin.castLE (by omega)) ++ j :: suf := by
      refine ⟨(List.finRange c).drop (j.val + 1), ?_⟩
      have h1 : (List.finRange c).take j.val = (List.finRange j.val).map (Fin.castLE (by omega)) := by
        apply List.ext_getElem
        · simp
        · intro k h1 h2; ext; simp
      rw [← h1]
      conv_lhs => rw [← List.take_append_drop j.val (List.finRange c)]
      rw [List.drop_eq_getElem_cons (by simp)]
      simp
    obtain ⟨suf, hsuf⟩ := hsplit
    have hl : entryLine lines render a i j n = l := by simp [entryLine, h]
    refine ⟨(brackets r (rowHeight lines render a i) i n).1,
      ((List.finRange j.val).map fun k => cell lines cw render a i (Fin.castLE (by omega) k) n ++ gap (Fin.castLE (by omega : j.val ≤ c) k)).flatten,
      List.replicate (columnWidth lines cw render a j - strLen cw l - leftPad lines cw render a i j) ' ' ++ (gap j ++
        ((suf.map fun j => cell lines cw render a i j n ++ gap j).flatten ++
          [(brackets r (rowHeight lines render a i) i n).2])), ?_, ?_⟩
    · unfold displayLine lineInterior
      rw [hsuf]
      simp only [List.map_append, List.map_map, List.map_cons, List.flatten_append, List.flatten_cons, List.append_assoc]
      congr 2
      unfold cell
      rw [hl]
      simp only [List.append_assoc]
    · have : ∀ l : List (List Char), strLen cw l.flatten = (l.map (strLen cw)).sum := by
        intro l
        induction l with
        | nil => rfl
        | cons x l ih => rw [List.flatten_cons, strLen_append, ih]; rfl
      rw [this, List.map_map, ← List.sum_ofFn, List.ofFn_eq_map]
      congr 1
      apply List.map_congr_left
      intro k _
      simp only [Function.comp]
      rw [strLen_append, cell_width lines cw render a hs]
      congr 1
      unfold gap
      have := k.isLt
      have := j.isLt
      rw [if_pos (by simp; omega)]
      simp [strLen, hs]

end

/-- C65: what counts as a line of an entry: what stands before a line feed or before a carriage return and a line feed (of which
neither belongs to the line), and the rest, if there is any; a carriage return at its end does not belong to it either. -/
theorem C65_str_lines (ls : List (List Char × Bool)) (last : List Char)
    (h : ∀ p ∈ ls, '\n' ∉ p.1 ∧ (p.2 = false → p.1.getLast? ≠ some '\r')) (hl : '\n' ∉ last) :
    let text := ls.flatMap fun p => p.1 ++ if p.2 then ['\r', '\n'] else ['\n']
    strLines text = ls.map Prod.fst ∧
    (last ≠ [] → last.getLast? ≠ some '\r' → strLines (text ++ last) = ls.map Prod.fst ++ [last]) ∧
    strLines (text ++ (last ++ ['\r'])) = ls.map Prod.fst ++ [last] := by
  have key : ∀ rest, strLines ((ls.flatMap fun p => p.1 ++ if p.2 then ['\r', '\n'] else ['\n']) ++ rest) =
      ls.map Prod.fst ++ strLines rest := by
    intro rest
    induction ls with
    | nil => rfl
    | cons p ls ih =>
      obtain ⟨l, b⟩ := p
      have ih := ih fun p hp => h p (by simp [hp])
      have h0 := h (l, b) (by simp)
      unfold strLines at ih ⊢
      simp only [List.flatMap_cons, List.map_cons, List.append_assoc, List.cons_append]
      cases b with
      | true =>
        simp only [if_true, List.cons_append, List.nil_append]
        rw [show l ++ '\r' :: '\n' :: ((ls.flatMap fun p => p.1 ++ if p.2 then ['\r', '\n'] else ['\n']) ++ rest) =
          (l ++ ['\r']) ++ '\n' :: ((ls.flatMap fun p => p.1 ++ if p.2 then ['\r', '\n'] else ['\n']) ++ rest) by simp,
          splitTerm_line _ (by simpa using h0.1), List.map_cons, ih]
        simp [stripCR]
      | false =>
        simp only [Bool.false_eq_true, if_false, List.cons_append, List.nil_append]
        rw [splitTerm_line _ h0.1, List.map_cons, ih, stripCR, if_neg (h0.2 rfl)]
  refine ⟨?_, fun h1 h2 => ?_, ?_⟩
  · simpa [strLines, splitTerm] using key []
  · rw [key, strLines, splitTerm_last _ hl h1, List.map_singleton, stripCR, if_neg h2]
  · rw [key, strLines, splitTerm_last _ (by simpa using hl) (by simp), List.map_singleton, stripCR]
    simp

/-! ### Concrete cases -/

example : strLines "ab\r\n\rc\n\nd\r".toList = ["ab".toList, "\rc".toList, [], "d".toList] := by decide

/-- A 2×2 matrix with a two-line entry, displayed with `str::lines` and one column per character. -/
def demo : Mat (List Char) 2 2 := ⟨⟨[⟨["1\n22".toList, "x".toList], rfl⟩, ⟨["3".toList, "yyy".toList], rfl⟩], rfl⟩⟩

example : columnWidth strLines (fun _ => 1) id demo 0 = 2 ∧ columnWidth strLines (fun _ => 1) id demo 1 = 3 ∧
    rowHeight strLines id demo 0 = 2 ∧ rowHeight strLines id demo 1 = 1 := by decide

example : ∃ text, Mat.display ⟨true, true, 2 ^ 64⟩ strLines (fun _ => 1) id demo = .ok text ∧
    splitTerm text = ["⎡1   x ⎤".toList, "⎢22    ⎥".toList, "⎣3  yyy⎦".toList] := by
  obtain ⟨text, h1, h2⟩ := C65_lines ⟨true, true, 2 ^ 64⟩ strLines (fun _ => 1) id demo (by decide)
    strLines_no_newline
  exact ⟨text, h1, h2.trans (by decide)⟩

end Rowcol
