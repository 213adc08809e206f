import Verif.Lemmas.Cursor

/-! # C59-C63, C69: the five borrowing iterators

`rows_iter`, `cols_iter`, `rows_iter_ref`, `cols_iter_ref` and the element iterator of one column
(`ColsIterRefInner`). -/

namespace Rowcol
open Spec

variable {T : Type} {r c : Nat}

/-- The rows of a matrix, top to bottom. -/
def rowsOf (a : Mat T r c) : List (Vec T c) := (List.finRange r).map fun i => Vec.ofFn fun j => a.get i j

/-- The columns of a matrix, left to right. -/
def colsOf (a : Mat T r c) : List (Vec T r) := (List.finRange c).map fun j => Vec.ofFn fun i => a.get i j

/-- The entries of column `j`, top to bottom. -/
def colOf (a : Mat T r c) (j : Fin c) : List T := (List.finRange r).map fun i => a.get i j

/-- `cols_iter_ref` yields element iterators; these are the ones for columns `0, 1, ..` in their initial state. -/
def colItersOf (_ : Mat T r c) : List InnerCur := (List.range c).map fun j => ⟨j, 0, r⟩

theorem rowsOf_eq (a : Mat T r c) : a.rows.toList = rowsOf a := by
  rw [Vec.toList_eq, rowsOf]
  apply List.map_congr_left; intro i _
  exact (Vec.ofFn_get _).symm

theorem colsOf_eq (a : Mat T r c) : (List.finRange c).map (colVec a.rows) = colsOf a := by
  apply List.map_congr_left; intro j _
  apply Vec.ext_get; intro i
  simp [colVec, colList, Vec.get, Mat.get, Vec.ofFn]

theorem colOf_eq (a : Mat T r c) (j : Fin c) : colList a.rows j = colOf a j := by
  rw [colList, Vec.toList_eq, List.map_map]; rfl

@[simp] theorem rowsOf_length (a : Mat T r c) : (rowsOf a).length = r := by simp [rowsOf]
@[simp] theorem colsOf_length (a : Mat T r c) : (colsOf a).length = c := by simp [colsOf]
@[simp] theorem colOf_length (a : Mat T r c) (j : Fin c) : (colOf a j).length = r := by simp [colOf]
@[simp] theorem colItersOf_length (a : Mat T r c) : (colItersOf a).length = c := by simp [colItersOf]

section
variable (t : Target) (a : Mat T r c)

theorem rowsIter_cursor (hr : r < t.W) : IsCursor t (rowsOf a) id (RowsIter.machine t a.rows) := by
  rw [← rowsOf_eq]; exact RowsIter.isCursor t a.rows hr
theorem colsIter_cursor (hc : c < t.W) : IsCursor t (colsOf a) id (ColsIter.machine t a.rows) := by
  rw [← colsOf_eq]; exact ColsIter.isCursor t a.rows hc
theorem rowsIterRef_cursor (hr : r < t.W) : IsCursor t (rowsOf a) id (RowsIterRef.machine t a.rows) := by
  rw [← rowsOf_eq]; exact RowsIterRef.isCursor t a.rows hr
theorem colsIterRef_cursor (hc : c < t.W) : IsCursor t (colItersOf a) id (ColsIterRef.machine t a.rows) :=
  ColsIterRef.isCursor t a.rows hc
theorem inner_cursor (hr : r < t.W) (j : Fin c) :
    IsCursor t (colOf a j) (fun s => ⟨j, s.front, s.back⟩) (ColsIterRefInner.machine t a.rows) := by
  rw [← colOf_eq]; exact ColsIterRefInner.isCursor t a.rows hr j
end

theorem left_all {α : Type} (all : List α) (n : Nat) (h : all.length = n) :
    IsCursor.left all ⟨0, n⟩ = all := by simp [IsCursor.left, ← h]

theorem deque_of_cursor {α σ : Type} {t : Target} {all : List α} {emb : Cur → σ} {M : Machine α σ}
    (hM : IsCursor t all emb M) {n : Nat} (hn : all.length = n) : IsDeque t M (emb ⟨0, n⟩) all := by
  intro h hW
  obtain ⟨s', h1, -⟩ := hM.run_eq h ⟨0, n⟩ (by simp [hn]) all.length (by simp) hW
  rw [h1, left_all all n hn]

/-! ## C59 -/

/-- C59: each of the five iterators behaves as a double-ended queue of the rows, columns, or entries of the column,
for every history of `next`/`next_back`/`nth` whose skips do not overflow `usize`, in every build. -/
theorem C59_deque (t : Target) (a : Mat T r c) (hr : r < t.W) (hc : c < t.W) :
    IsDeque t (RowsIter.machine t a.rows) (RowsIter.new a.rows) (rowsOf a) ∧
    IsDeque t (ColsIter.machine t a.rows) (ColsIter.new a.rows) (colsOf a) ∧
    IsDeque t (RowsIterRef.machine t a.rows) (RowsIterRef.new a.rows) (rowsOf a) ∧
    IsDeque t (ColsIterRef.machine t a.rows) (ColsIterRef.new a.rows) (colItersOf a) ∧
    ∀ j : Fin c, ∃ s, ColsIterRefInner.new t a.rows j = .ok s ∧ (colItersOf a)[j]? = some s ∧
      IsDeque t (ColsIterRefInner.machine t a.rows) s (colOf a j) := by
  refine ⟨?_, ?_, ?_, ?_, fun j => ⟨⟨j, 0, r⟩, ?_, ?_, ?_⟩⟩
  · exact deque_of_cursor (rowsIter_cursor t a hr) (by simp)
  · exact deque_of_cursor (colsIter_cursor t a hc) (by simp)
  · exact deque_of_cursor (rowsIterRef_cursor t a hr) (by simp)
  · exact deque_of_cursor (colsIterRef_cursor t a hc) (by simp)
  · simp [ColsIterRefInner.new]
  · simp [colItersOf]
  · exact deque_of_cursor (inner_cursor t a hr j) (by simp)

/-- C59 in builds with overflow checks, for every history without exception: every call either behaves as the queue
does, or is an `nth` past the end that panics and takes nothing. -/
theorem C59_checked (t : Target) (ht : t.overflowChecks = true) (a : Mat T r c) (hr : r < t.W) (hc : c < t.W)
    (h : List Move) :
    Agree (rowsOf a) h (run (RowsIter.machine t a.rows) (RowsIter.new a.rows) h).1 ∧
    Agree (colsOf a) h (run (ColsIter.machine t a.rows) (ColsIter.new a.rows) h).1 ∧
    Agree (rowsOf a) h (run (RowsIterRef.machine t a.rows) (RowsIterRef.new a.rows) h).1 ∧
    Agree (colItersOf a) h (run (ColsIterRef.machine t a.rows) (ColsIterRef.new a.rows) h).1 ∧
    ∀ j : Fin c, Agree (colOf a j) h (run (ColsIterRefInner.machine t a.rows) ⟨j, 0, r⟩ h).1 := by
  refine ⟨?_, ?_, ?_, ?_, fun j => ?_⟩
  · have := (rowsIter_cursor t a hr).run_agree ht (by simpa) h ⟨0, r⟩ (by simp) (by simp; omega)
    rwa [left_all _ _ (rowsOf_length a)] at this
  · have := (colsIter_cursor t a hc).run_agree ht (by simpa) h ⟨0, c⟩ (by simp) (by simp; omega)
    rwa [left_all _ _ (colsOf_length a)] at this
  · have := (rowsIterRef_cursor t a hr).run_agree ht (by simpa) h ⟨0, r⟩ (by simp) (by simp; omega)
    rwa [left_all _ _ (rowsOf_length a)] at this
  · have := (colsIterRef_cursor t a hc).run_agree ht (by simpa) h ⟨0, c⟩ (by simp) (by simp; omega)
    rwa [left_all _ _ (colItersOf_length a)] at this
  · have := (inner_cursor t a hr j).run_agree ht (by simpa) h ⟨0, r⟩ (by simp) (by simp; omega)
    rwa [left_all _ _ (colOf_length a j)] at this

/-- A 3×2 matrix used in the examples. -/
def m32 : Mat Nat 3 2 := ⟨⟨[⟨[1, 2], rfl⟩, ⟨[3, 4], rfl⟩, ⟨[5, 6], rfl⟩], rfl⟩⟩
/-- Default debug and release builds on a 64-bit machine. -/
def debug64 : Target := ⟨true, true, 2 ^ 64⟩
def release64 : Target := ⟨false, false, 2 ^ 64⟩

example : (run (ColsIter.machine debug64 m32.rows) (ColsIter.new m32.rows) [.nextBack, .nth 0, .next]).1 =
    [.ok (some ⟨[2, 4, 6], rfl⟩), .ok (some ⟨[1, 3, 5], rfl⟩), .ok none] := rfl
example : 3 < debug64.W ∧ 2 < debug64.W ∧ (rowsOf m32).length + skips [.nextBack, .nth 0, .next] < debug64.W := by
  decide

/-! ## C60 -/

/-- A call history on an iterator, including the observers at the end, performs no invalid access; without overflow
checks it does not panic either. -/
def Safe {α σ : Type} (t : Target) (M : Machine α σ) (s : σ) : Prop :=
  ∀ h : List Move,
    (∀ o ∈ (run M s h).1, o ≠ .error .ub ∧ (t.overflowChecks = false → ∃ x, o = .ok x)) ∧
    M.len (run M s h).2 ≠ .error .ub ∧ M.sizeHint (run M s h).2 ≠ .error .ub ∧
    M.count (run M s h).2 ≠ .error .ub ∧ ∃ x, M.last (run M s h).2 = .ok x

theorem usub_safe (t : Target) (x y : Nat) : usub t x y ≠ .error .ub := by
  unfold usub; (repeat' split) <;> simp

theorem safe_of_cursor {α σ : Type} {t : Target} {all : List α} {emb : Cur → σ} {M : Machine α σ}
    (hM : IsCursor t all emb M)
    (hlen : ∀ s : Cur, M.len (emb s) ≠ .error .ub ∧ M.sizeHint (emb s) ≠ .error .ub ∧ M.count (emb s) ≠ .error .ub)
    (s : Cur) (hs : s.back ≤ all.length) : Safe t M (emb s) := by
  intro h
  have key : ∀ s : Cur, s.back ≤ all.length →
      ∀ o ∈ (run M (emb s) h).1, o ≠ .error .ub ∧ (t.overflowChecks = false → ∃ x, o = .ok x) := by
    induction h with
    | nil => simp [run]
    | cons c h ih =>
      intro s hs
      obtain ⟨s', h1, h2, h3, h4⟩ := hM.step_safe c s hs
      simp only [run, List.mem_cons, h1]
      rintro o (rfl | ho)
      · refine ⟨h3, fun ht => ?_⟩
        cases hq : (step M (emb s) c).1 with
        | ok x => exact ⟨x, rfl⟩
        | error e =>
          cases e with
          | ub => exact absurd hq h3
          | panic => have := (h4 hq).1; simp [ht] at this
      · exact ih s' h2 o ho
  obtain ⟨s', h1, h2, -⟩ := hM.run_safe h s hs
  refine ⟨key s hs, ?_⟩
  rw [h1]
  refine ⟨(hlen s').1, (hlen s').2.1, (hlen s').2.2, ?_⟩
  rw [hM.last]
  by_cases hlt : s'.front < s'.back
  · rw [hM.back_some s' hlt h2]; exact ⟨_, rfl⟩
  · rw [hM.back_none s' (by omega) h2]; exact ⟨_, rfl⟩

theorem hint_safe (x : Res Nat) (h : x ≠ .error .ub) :
    (do let k ← x; pure (k, some k) : Res (Nat × Option Nat)) ≠ .error .ub := by
  cases x <;> simp_all

/-- C60: no history of calls on the five iterators, in any build, with any (even overflowing) skips, performs an
out-of-bounds access; in builds without overflow checks no moving call panics at all. -/
theorem C60_safe (t : Target) (a : Mat T r c) (hr : r < t.W) (hc : c < t.W) :
    Safe t (RowsIter.machine t a.rows) (RowsIter.new a.rows) ∧
    Safe t (ColsIter.machine t a.rows) (ColsIter.new a.rows) ∧
    Safe t (RowsIterRef.machine t a.rows) (RowsIterRef.new a.rows) ∧
    Safe t (ColsIterRef.machine t a.rows) (ColsIterRef.new a.rows) ∧
    ∀ j : Fin c, Safe t (ColsIterRefInner.machine t a.rows) ⟨j, 0, r⟩ := by
  refine ⟨?_, ?_, ?_, ?_, fun j => ?_⟩
  · exact safe_of_cursor (rowsIter_cursor t a hr)
      (fun s => ⟨usub_safe _ _ _, hint_safe _ (usub_safe _ _ _), usub_safe _ _ _⟩) ⟨0, r⟩ (by simp)
  · exact safe_of_cursor (colsIter_cursor t a hc)
      (fun s => ⟨usub_safe _ _ _, hint_safe _ (usub_safe _ _ _), usub_safe _ _ _⟩) ⟨0, c⟩ (by simp)
  · exact safe_of_cursor (rowsIterRef_cursor t a hr)
      (fun s => ⟨usub_safe _ _ _, hint_safe _ (usub_safe _ _ _), usub_safe _ _ _⟩) ⟨0, r⟩ (by simp)
  · exact safe_of_cursor (colsIterRef_cursor t a hc)
      (fun s => ⟨usub_safe _ _ _, hint_safe _ (usub_safe _ _ _), usub_safe _ _ _⟩) ⟨0, c⟩ (by simp)
  · exact safe_of_cursor (inner_cursor t a hr j)
      (fun s => ⟨usub_safe _ _ _, hint_safe _ (usub_safe _ _ _), usub_safe _ _ _⟩) ⟨0, r⟩ (by simp)

/-- The overflowing skip really happens: the release build wraps around and returns row 0 a second time. -/
example : (run (RowsIterRef.machine release64 m32.rows) (RowsIterRef.new m32.rows) [.next, .nth (2 ^ 64 - 1)]).1 =
    [.ok (some ⟨[1, 2], rfl⟩), .ok (some ⟨[1, 2], rfl⟩)] := rfl

/-! ## C61 -/

/-- After every history that does not skip past the end, all three size observers report `k`. -/
def ReportsLen {α σ : Type} (M : Machine α σ) (s : σ) (k : Nat) : Prop :=
  M.len s = .ok k ∧ M.sizeHint s = .ok (k, some k) ∧ M.count s = .ok k

theorem len_of_cursor {α σ : Type} {t : Target} {all : List α} {emb : Cur → σ} {M : Machine α σ}
    (hM : IsCursor t all emb M) (hsz : all.length < t.W)
    (hlen : ∀ s : Cur, s.front ≤ s.back → ReportsLen M (emb s) (s.back - s.front))
    {n : Nat} (hn : all.length = n) (h : List Move) (hin : InRange all h) :
    ReportsLen M (run M (emb ⟨0, n⟩) h).2 (dequeRun all h).2.length := by
  have h0 := left_all all n hn
  obtain ⟨s', h1, h2, h3, h4, h5⟩ := hM.run_inRange hsz h ⟨0, n⟩ (by simp [hn]) (by simp) (by rwa [h0])
  rw [h0] at h2
  rw [h1, h2, IsCursor.left_length s' h3]
  exact hlen s' h4

theorem len_of_cursor_back {α σ : Type} {t : Target} {all : List α} {emb : Cur → σ} {M : Machine α σ}
    (hM : IsCursor t all emb M) (hsz : all.length < t.W) {n : Nat} (hn : all.length = n)
    (hlen : ∀ s : Cur, s.front ≤ n → ReportsLen M (emb s) (n - s.front))
    (h : List Move) (hin : InRange all h) :
    ReportsLen M (run M (emb ⟨0, n⟩) h).2 ((dequeRun all h).2.length + backTaken all h) := by
  have h0 := left_all all n hn
  obtain ⟨s', h1, h2, h3, h4, h5⟩ := hM.run_inRange hsz h ⟨0, n⟩ (by simp [hn]) (by simp) (by rwa [h0])
  rw [h0] at h2 h5
  simp only at h5
  rw [h1, h2, IsCursor.left_length s' h3, show s'.back - s'.front + backTaken all h = n - s'.front by omega]
  exact hlen s' (by omega)

/-- C61 for the iterators yielding references: `len()`, `size_hint()` and `count()` are the number of items left
after every history of calls, as long as no `nth` skips past the end.
Missing from the full claim: histories with an `nth` past the end (see `C62_len_after_overshoot`), and the two
iterators of `C61_cloning_iters`. -/
theorem C61_ref_iters_partial (t : Target) (a : Mat T r c) (hr : r < t.W) (hc : c < t.W) (h : List Move) :
    (InRange (rowsOf a) h →
      ReportsLen (RowsIterRef.machine t a.rows) (run (RowsIterRef.machine t a.rows) (RowsIterRef.new a.rows) h).2
        (dequeRun (rowsOf a) h).2.length) ∧
    (InRange (colItersOf a) h →
      ReportsLen (ColsIterRef.machine t a.rows) (run (ColsIterRef.machine t a.rows) (ColsIterRef.new a.rows) h).2
        (dequeRun (colItersOf a) h).2.length) ∧
    ∀ j : Fin c, InRange (colOf a j) h →
      ReportsLen (ColsIterRefInner.machine t a.rows) (run (ColsIterRefInner.machine t a.rows) ⟨j, 0, r⟩ h).2
        (dequeRun (colOf a j) h).2.length := by
  refine ⟨?_, ?_, fun j => ?_⟩
  · exact len_of_cursor (rowsIterRef_cursor t a hr) (by simpa)
      (fun s hs => by simp [ReportsLen, RowsIterRef.machine, RowsIterRef.len, RowsIterRef.sizeHint, RowsIterRef.count,
        usub_ok t hs]) (by simp) h
  · exact len_of_cursor (colsIterRef_cursor t a hc) (by simpa)
      (fun s hs => by simp [ReportsLen, ColsIterRef.machine, ColsIterRef.len, ColsIterRef.sizeHint, ColsIterRef.count,
        usub_ok t hs]) (by simp) h
  · exact len_of_cursor (inner_cursor t a hr j) (by simpa)
      (fun s hs => by simp [ReportsLen, ColsIterRefInner.machine, ColsIterRefInner.len, ColsIterRefInner.sizeHint,
        ColsIterRefInner.count, usub_ok t hs]) (by simp) h

/-- C61 for the cloning iterators `rows_iter` and `cols_iter`: `len()`, `size_hint()` and `count()` report the items
left **plus** the items already taken from the back.  So they are right exactly when nothing was taken from the back. -/
theorem C61_cloning_iters (t : Target) (a : Mat T r c) (hr : r < t.W) (hc : c < t.W) (h : List Move) :
    (InRange (rowsOf a) h →
      ReportsLen (RowsIter.machine t a.rows) (run (RowsIter.machine t a.rows) (RowsIter.new a.rows) h).2
        ((dequeRun (rowsOf a) h).2.length + backTaken (rowsOf a) h)) ∧
    (InRange (colsOf a) h →
      ReportsLen (ColsIter.machine t a.rows) (run (ColsIter.machine t a.rows) (ColsIter.new a.rows) h).2
        ((dequeRun (colsOf a) h).2.length + backTaken (colsOf a) h)) := by
  refine ⟨?_, ?_⟩
  · exact len_of_cursor_back (rowsIter_cursor t a hr) (by simpa) (by simp)
      (fun s hs => by simp [ReportsLen, RowsIter.machine, RowsIter.len, RowsIter.sizeHint, RowsIter.count,
        usub_ok t hs]) h
  · exact len_of_cursor_back (colsIter_cursor t a hc) (by simpa) (by simp)
      (fun s hs => by simp [ReportsLen, ColsIter.machine, ColsIter.len, ColsIter.sizeHint, ColsIter.count,
        usub_ok t hs]) h

/-- C61 is false of the code: for every matrix with at least one row, in every build, after one `next_back()` on
`rows_iter()` the reported length is one too many; likewise for columns. -/
theorem C61_false (t : Target) (a : Mat T (r + 1) (c + 1)) (hr : r + 1 < t.W) (hc : c + 1 < t.W) :
    (dequeRun (rowsOf a) [.nextBack]).2.length = r ∧
    (RowsIter.machine t a.rows).len (run (RowsIter.machine t a.rows) (RowsIter.new a.rows) [.nextBack]).2 =
      .ok (r + 1) ∧
    (dequeRun (colsOf a) [.nextBack]).2.length = c ∧
    (ColsIter.machine t a.rows).len (run (ColsIter.machine t a.rows) (ColsIter.new a.rows) [.nextBack]).2 =
      .ok (c + 1) := by
  have h1 : rowsOf a ≠ [] := by intro h; have := congrArg List.length h; simp at this
  have h2 : colsOf a ≠ [] := by intro h; have := congrArg List.length h; simp at this
  have k := C61_cloning_iters t a hr hc [.nextBack]
  have k1 := (k.1 (by simp [InRange])).1
  have k2 := (k.2 (by simp [InRange])).1
  simp only [dequeRun, dequeStep, backTaken, h1, h2, if_false, List.length_dropLast, rowsOf_length, colsOf_length] at *
  exact ⟨by simp, k1, by simp, k2⟩

example : InRange (rowsOf m32) [.next, .nextBack, .nth 1, .next] ∧
    (dequeRun (rowsOf m32) [.next, .nextBack]).2.length = 1 ∧ backTaken (rowsOf m32) [.next, .nextBack] = 1 := by
  simp [InRange, dequeRun, dequeStep, backTaken, rowsOf, List.finRange]

/-! ## C62 -/

theorem deque_nil_run {α : Type} (h : List Move) : (dequeRun ([] : List α) h).1 = h.map fun _ => none := by
  induction h with
  | nil => rfl
  | cons c h ih => cases c <;> simp [dequeRun, dequeStep, ih]

theorem deque_append {α : Type} (q : List α) (h h' : List Move) :
    (dequeRun q (h ++ h')).1 = (dequeRun q h).1 ++ (dequeRun (dequeRun q h).2 h').1 := by
  induction h generalizing q with
  | nil => rfl
  | cons c h ih => simp [dequeRun, ih]

theorem deque_length {α : Type} (q : List α) (h : List Move) : (dequeRun q h).1.length = h.length := by
  induction h generalizing q with
  | nil => rfl
  | cons c h ih => simp [dequeRun, ih]

/-- After an `nth` at or past the end all later results are `None`, in an iterator that behaves as a queue. -/
def ExhaustedByNth {α σ : Type} (t : Target) (M : Machine α σ) (s : σ) (items : List α) : Prop :=
  ∀ (h h' : List Move) (n : Nat), items.length + skips (h ++ .nth n :: h') < t.W →
    (dequeRun items h).2.length ≤ n →
    (run M s (h ++ .nth n :: h')).1.drop h.length = List.replicate (h'.length + 1) (.ok none)

theorem exhausted_of_deque {α σ : Type} {t : Target} {M : Machine α σ} {s : σ} {items : List α}
    (hd : IsDeque t M s items) : ExhaustedByNth t M s items := by
  intro h h' n hW hn
  rw [hd _ hW, deque_append, List.map_append, List.drop_append_of_le_length (by simp [deque_length]),
    List.drop_of_length_le (by simp [deque_length])]
  have h1 : (dequeRun items h).2.drop n = [] := List.drop_of_length_le hn
  have h2 : (dequeRun items h).2.drop (n + 1) = [] := List.drop_of_length_le (by omega)
  refine List.eq_replicate_iff.2 ⟨?_, ?_⟩
  · simp [dequeRun, dequeStep, h2, deque_nil_run]
  · simp [dequeRun, dequeStep, h1, h2, deque_nil_run]

/-- C62, the part that holds: after `nth(n)` with `n` at least the number of items left (and no `usize` overflow),
that call and all later calls return `None`.
Missing from the full claim: `len()`, which `C62_len_after_overshoot` shows to be wrong, and overflowing skips,
which `C62_false_wrap` shows to revive the iterator. -/
theorem C62_exhausted_partial (t : Target) (a : Mat T r c) (hr : r < t.W) (hc : c < t.W) :
    ExhaustedByNth t (RowsIter.machine t a.rows) (RowsIter.new a.rows) (rowsOf a) ∧
    ExhaustedByNth t (ColsIter.machine t a.rows) (ColsIter.new a.rows) (colsOf a) ∧
    ExhaustedByNth t (RowsIterRef.machine t a.rows) (RowsIterRef.new a.rows) (rowsOf a) ∧
    ExhaustedByNth t (ColsIterRef.machine t a.rows) (ColsIterRef.new a.rows) (colItersOf a) ∧
    ∀ j : Fin c, ExhaustedByNth t (ColsIterRefInner.machine t a.rows) ⟨j, 0, r⟩ (colOf a j) :=
  ⟨exhausted_of_deque (C59_deque t a hr hc).1, exhausted_of_deque (C59_deque t a hr hc).2.1,
   exhausted_of_deque (C59_deque t a hr hc).2.2.1, exhausted_of_deque (C59_deque t a hr hc).2.2.2.1,
   fun j => exhausted_of_deque (deque_of_cursor (inner_cursor t a hr j) (by simp))⟩

theorem usub_over (t : Target) {x y : Nat} (h : x < y) :
    usub t x y = if t.overflowChecks then .error .panic else .ok (x + t.W - y) := by
  rw [usub, if_neg (by omega)]

/-- What a subtraction that went below zero reports. -/
def underflow (t : Target) (x y : Nat) : Res Nat :=
  if t.overflowChecks then .error .panic else .ok (x + t.W - y)

theorem nth_over {α σ : Type} {t : Target} {all : List α} {emb : Cur → σ} {M : Machine α σ}
    (hM : IsCursor t all emb M) {n k : Nat} (hn : all.length = n) (hk : n < k) (hW : k < t.W) :
    (run M (emb ⟨0, n⟩) [.nth k]).2 = emb ⟨k, n⟩ := by
  have : M.nth k (emb ⟨0, n⟩) = .ok (none, emb ⟨k, n⟩) := by
    rw [hM.nth, uadd_ok t (by simpa using hW)]
    simp only [res_ok_bind, Nat.zero_add]
    exact hM.next_none ⟨k, n⟩ (by simp; omega) (by simp [hn])
  simp [run, step, this]

/-- C62 is false of the code, for every shape and every build: after `nth(k)` with `k` greater than the number of
items, `len()` panics when overflow checks are on and otherwise returns the huge value `items + 2^w - k`, not 0. -/
theorem C62_len_after_overshoot (t : Target) (a : Mat T r c) (k : Nat) (hk : k < t.W) (hr : r < k) (hc : c < k) :
    (RowsIter.machine t a.rows).len (run (RowsIter.machine t a.rows) (RowsIter.new a.rows) [.nth k]).2 =
      underflow t r k ∧
    (ColsIter.machine t a.rows).len (run (ColsIter.machine t a.rows) (ColsIter.new a.rows) [.nth k]).2 =
      underflow t c k ∧
    (RowsIterRef.machine t a.rows).len (run (RowsIterRef.machine t a.rows) (RowsIterRef.new a.rows) [.nth k]).2 =
      underflow t r k ∧
    (ColsIterRef.machine t a.rows).len (run (ColsIterRef.machine t a.rows) (ColsIterRef.new a.rows) [.nth k]).2 =
      underflow t c k ∧
    (∀ j : Fin c, (ColsIterRefInner.machine t a.rows).len
      (run (ColsIterRefInner.machine t a.rows) ⟨j, 0, r⟩ [.nth k]).2 = underflow t r k) ∧
    underflow t r k ≠ .ok 0 ∧ underflow t c k ≠ .ok 0 := by
  have n1 := nth_over (rowsIter_cursor t a (by omega)) (rowsOf_length a) hr hk
  have n2 := nth_over (colsIter_cursor t a (by omega)) (colsOf_length a) hc hk
  have n3 := nth_over (rowsIterRef_cursor t a (by omega)) (rowsOf_length a) hr hk
  have n4 := nth_over (colsIterRef_cursor t a (by omega)) (colItersOf_length a) hc hk
  have u : ∀ x, x < k → underflow t x k ≠ .ok 0 := by
    intro x hx; unfold underflow; split <;> simp; omega
  refine ⟨?_, ?_, ?_, ?_, fun j => ?_, u r hr, u c hc⟩
  · rw [show RowsIter.new a.rows = id ⟨0, r⟩ from rfl, n1]; exact usub_over t hr
  · rw [show ColsIter.new a.rows = id ⟨0, c⟩ from rfl, n2]; exact usub_over t hc
  · rw [show RowsIterRef.new a.rows = id ⟨0, r⟩ from rfl, n3]; exact usub_over t hr
  · rw [show ColsIterRef.new a.rows = id ⟨0, c⟩ from rfl, n4]; exact usub_over t hc
  · have n5 := nth_over (inner_cursor t a (by omega) j) (colOf_length a j) hr hk
    simp only at n5
    rw [n5]; exact usub_over t hr

/-- C62 is false of the code also for the items: without overflow checks, on every matrix with at least one row,
`next()` and then `nth(usize::MAX)` return the first row twice. -/
theorem C62_false_wrap (t : Target) (ht : t.overflowChecks = false) (a : Mat T (r + 1) c) (hr : r + 1 < t.W) :
    (run (RowsIterRef.machine t a.rows) (RowsIterRef.new a.rows) [.next, .nth (t.W - 1)]).1 =
      [.ok (some (a.rows.get 0)), .ok (some (a.rows.get 0))] ∧
    (dequeRun (rowsOf a) [.next, .nth (t.W - 1)]).1 = [some (a.rows.get 0), none] := by
  have hM := RowsIterRef.isCursor t a.rows hr
  have h1 := hM.next_some ⟨0, r + 1⟩ (by simp) (by simp [a.rows.length_eq])
  have h2 := hM.nth (t.W - 1) ⟨1, r + 1⟩
  have h3 : uadd t 1 (t.W - 1) = .ok 0 := by
    rw [uadd, if_neg (by omega), ht, show 1 + (t.W - 1) = t.W by omega]; simp
  simp only [h3, res_ok_bind] at h2
  rw [h1] at h2
  refine ⟨?_, ?_⟩
  · simp only [run, step, RowsIterRef.new]
    simp only [id] at h1 h2
    rw [h1]; simp only [Nat.zero_add]; rw [h2]; rfl
  · have : rowsOf a = a.rows.get 0 :: (List.finRange r).map fun i => Vec.ofFn fun j => a.get i.succ j := by
      simp only [rowsOf, List.finRange_succ, List.map_cons, List.map_map]
      congr 1
      exact Vec.ofFn_get _
    simp [dequeRun, dequeStep, this]
    omega

example : (RowsIterRef.machine debug64 m32.rows).len
    (run (RowsIterRef.machine debug64 m32.rows) (RowsIterRef.new m32.rows) [.nth 4]).2 = .error .panic := rfl

/-! ## C63 -/

/-- After every history `last()` returns the last item left. -/
def LastIsLast {α σ : Type} (t : Target) (M : Machine α σ) (s : σ) (items : List α) : Prop :=
  ∀ h : List Move, items.length + skips h < t.W → M.last (run M s h).2 = .ok (dequeRun items h).2.getLast?

theorem last_of_cursor {α σ : Type} {t : Target} {all : List α} {emb : Cur → σ} {M : Machine α σ}
    (hM : IsCursor t all emb M) {n : Nat} (hn : all.length = n) : LastIsLast t M (emb ⟨0, n⟩) all := by
  intro h hW
  obtain ⟨s', h1, h2, h3, -⟩ := hM.run_eq h ⟨0, n⟩ (by simp [hn]) all.length (by simp) hW
  rw [left_all all n hn] at h2
  rw [h1, h2, hM.last]
  by_cases hlt : s'.front < s'.back
  · rw [hM.back_some s' hlt h3, IsCursor.left_snoc s' hlt h3]; simp
  · rw [hM.back_none s' (by omega) h3, IsCursor.left_nil s' (by omega)]; simp

/-- C63: after every history of calls (whose skips do not overflow `usize`) `last()` returns the final remaining item,
or `None` when there is none. -/
theorem C63_last (t : Target) (a : Mat T r c) (hr : r < t.W) (hc : c < t.W) :
    LastIsLast t (RowsIter.machine t a.rows) (RowsIter.new a.rows) (rowsOf a) ∧
    LastIsLast t (ColsIter.machine t a.rows) (ColsIter.new a.rows) (colsOf a) ∧
    LastIsLast t (RowsIterRef.machine t a.rows) (RowsIterRef.new a.rows) (rowsOf a) ∧
    LastIsLast t (ColsIterRef.machine t a.rows) (ColsIterRef.new a.rows) (colItersOf a) ∧
    ∀ j : Fin c, LastIsLast t (ColsIterRefInner.machine t a.rows) ⟨j, 0, r⟩ (colOf a j) :=
  ⟨last_of_cursor (rowsIter_cursor t a hr) (by simp), last_of_cursor (colsIter_cursor t a hc) (by simp),
   last_of_cursor (rowsIterRef_cursor t a hr) (by simp), last_of_cursor (colsIterRef_cursor t a hc) (by simp),
   fun j => last_of_cursor (inner_cursor t a hr j) (by simp)⟩

example : (ColsIterRefInner.machine release64 m32.rows).last
    (run (ColsIterRefInner.machine release64 m32.rows) ⟨1, 0, 3⟩ [.next, .nextBack]).2 = .ok (some 4) := rfl

/-! ## C69 -/

theorem collect_of_cursor {α σ : Type} {t : Target} {all : List α} {emb : Cur → σ} {M : Machine α σ}
    (hM : IsCursor t all emb M) (hsz : all.length < t.W)
    (hcount : ∀ s : Cur, s.front = s.back → M.count (emb s) = .ok 0)
    {n : Nat} (hn : all.length = n) (h : List Move) (hin : InRange all h) :
    Vec.fromIter t (dequeRun all h).2.length M.toIter (run M (emb ⟨0, n⟩) h).2 = .ok ⟨(dequeRun all h).2, rfl⟩ := by
  have h0 := left_all all n hn
  obtain ⟨s', h1, h2, h3, h4, h5⟩ := hM.run_inRange hsz h ⟨0, n⟩ (by simp [hn]) (by simp) (by rwa [h0])
  rw [h0] at h2
  have hl := IsCursor.left_length (all := all) s' h3
  generalize (dequeRun all h).2 = q at h2 ⊢
  subst h2
  rw [h1]
  have hf := hM.fill_eq (IsCursor.left all s').length s' h3 h4 (by omega) rfl
  have hc : M.toIter.count (emb { s' with front := s'.back }) = .ok 0 := hcount _ rfl
  simp only [Vec.fromIter, hf, res_ok_bind]
  split <;> simp [hc]

theorem collect_of_cursor_back {α σ : Type} {t : Target} {all : List α} {emb : Cur → σ} {M : Machine α σ}
    (hM : IsCursor t all emb M) (hsz : all.length < t.W)
    {n : Nat} (hn : all.length = n)
    (hcount : ∀ s : Cur, s.front ≤ n → M.count (emb s) = .ok (n - s.front))
    (h : List Move) (hin : InRange all h) :
    Vec.fromIter t (dequeRun all h).2.length M.toIter (run M (emb ⟨0, n⟩) h).2 =
      if t.debugAssertions = true ∧ backTaken all h ≠ 0 then .error .panic else .ok ⟨(dequeRun all h).2, rfl⟩ := by
  have h0 := left_all all n hn
  obtain ⟨s', h1, h2, h3, h4, h5⟩ := hM.run_inRange hsz h ⟨0, n⟩ (by simp [hn]) (by simp) (by rwa [h0])
  rw [h0] at h2 h5
  simp only at h5
  have hl := IsCursor.left_length (all := all) s' h3
  generalize (dequeRun all h).2 = q at h2 ⊢
  subst h2
  rw [h1]
  have hf := hM.fill_eq (IsCursor.left all s').length s' h3 h4 (by omega) rfl
  have hc : M.toIter.count (emb { s' with front := s'.back }) = .ok (n - s'.back) := hcount _ (by simp; omega)
  have : n - s'.back = backTaken all h := by omega
  simp only [Vec.fromIter, hf, res_ok_bind, hc, this]
  by_cases ht : t.debugAssertions = true <;> by_cases hb : backTaken all h = 0 <;> simp [ht, hb]

/-- C69 for the iterators yielding references: collecting what is left after any history (no skip past the end) into
a vector of that length succeeds in every build.
Missing from the full claim: an `nth` past the end before collecting (`C69_false_overshoot`), and the cloning
iterators (`C69_cloning_iters`). -/
theorem C69_ref_iters_partial (t : Target) (a : Mat T r c) (hr : r < t.W) (hc : c < t.W) (h : List Move) :
    (InRange (rowsOf a) h →
      Vec.fromIter t (dequeRun (rowsOf a) h).2.length (RowsIterRef.machine t a.rows).toIter
        (run (RowsIterRef.machine t a.rows) (RowsIterRef.new a.rows) h).2 = .ok ⟨(dequeRun (rowsOf a) h).2, rfl⟩) ∧
    (InRange (colItersOf a) h →
      Vec.fromIter t (dequeRun (colItersOf a) h).2.length (ColsIterRef.machine t a.rows).toIter
        (run (ColsIterRef.machine t a.rows) (ColsIterRef.new a.rows) h).2 =
          .ok ⟨(dequeRun (colItersOf a) h).2, rfl⟩) ∧
    ∀ j : Fin c, InRange (colOf a j) h →
      Vec.fromIter t (dequeRun (colOf a j) h).2.length (ColsIterRefInner.machine t a.rows).toIter
        (run (ColsIterRefInner.machine t a.rows) ⟨j, 0, r⟩ h).2 = .ok ⟨(dequeRun (colOf a j) h).2, rfl⟩ := by
  refine ⟨?_, ?_, fun j => ?_⟩
  · exact collect_of_cursor (rowsIterRef_cursor t a hr) (by simpa)
      (fun s hs => by simp [RowsIterRef.machine, RowsIterRef.count, RowsIterRef.len, hs, usub]) (by simp) h
  · exact collect_of_cursor (colsIterRef_cursor t a hc) (by simpa)
      (fun s hs => by simp [ColsIterRef.machine, ColsIterRef.count, ColsIterRef.len, hs, usub]) (by simp) h
  · exact collect_of_cursor (inner_cursor t a hr j) (by simpa)
      (fun s hs => by simp [ColsIterRefInner.machine, ColsIterRefInner.count, ColsIterRefInner.len, hs, usub])
      (by simp) h

/-- C69 for the cloning iterators: collecting what is left panics exactly when debug assertions are on and something
was taken from the back before. -/
theorem C69_cloning_iters (t : Target) (a : Mat T r c) (hr : r < t.W) (hc : c < t.W) (h : List Move) :
    (InRange (rowsOf a) h →
      Vec.fromIter t (dequeRun (rowsOf a) h).2.length (RowsIter.machine t a.rows).toIter
        (run (RowsIter.machine t a.rows) (RowsIter.new a.rows) h).2 =
      if t.debugAssertions = true ∧ backTaken (rowsOf a) h ≠ 0 then .error .panic
      else .ok ⟨(dequeRun (rowsOf a) h).2, rfl⟩) ∧
    (InRange (colsOf a) h →
      Vec.fromIter t (dequeRun (colsOf a) h).2.length (ColsIter.machine t a.rows).toIter
        (run (ColsIter.machine t a.rows) (ColsIter.new a.rows) h).2 =
      if t.debugAssertions = true ∧ backTaken (colsOf a) h ≠ 0 then .error .panic
      else .ok ⟨(dequeRun (colsOf a) h).2, rfl⟩) := by
  refine ⟨?_, ?_⟩
  · exact collect_of_cursor_back (rowsIter_cursor t a hr) (by simpa) (by simp)
      (fun s hs => by simp [RowsIter.machine, RowsIter.count, usub_ok t hs]) h
  · exact collect_of_cursor_back (colsIter_cursor t a hc) (by simpa) (by simp)
      (fun s hs => by simp [ColsIter.machine, ColsIter.count, usub_ok t hs]) h

/-- C69 is false of the code: in a debug build, for every matrix with at least one row, taking one row from the back of
`rows_iter()` and collecting the remaining ones panics although their number is right. -/
theorem C69_false (t : Target) (ht : t.debugAssertions = true) (a : Mat T (r + 1) c) (hr : r + 1 < t.W) (hc : c < t.W) :
    (dequeRun (rowsOf a) [.nextBack]).2.length = r ∧
    Vec.fromIter t r (RowsIter.machine t a.rows).toIter
      (run (RowsIter.machine t a.rows) (RowsIter.new a.rows) [.nextBack]).2 = .error .panic := by
  have h1 : rowsOf a ≠ [] := by intro h; have := congrArg List.length h; simp at this
  have hl : (dequeRun (rowsOf a) [.nextBack]).2.length = r := by simp [dequeRun, dequeStep]
  refine ⟨hl, ?_⟩
  have := (C69_cloning_iters t a hr hc [.nextBack]).1 (by simp [InRange])
  rw [if_pos ⟨ht, by simp [backTaken, h1]⟩] at this
  have aux : ∀ n (hn : n = r), Vec.fromIter t n (RowsIter.machine t a.rows).toIter
      (run (RowsIter.machine t a.rows) (RowsIter.new a.rows) [.nextBack]).2 = .error .panic →
      Vec.fromIter t r (RowsIter.machine t a.rows).toIter
      (run (RowsIter.machine t a.rows) (RowsIter.new a.rows) [.nextBack]).2 = .error .panic := by
    rintro n rfl h; exact h
  exact aux _ hl this

/-- C69 is false of the code also for `rows_iter_ref`: with debug assertions and overflow checks, after an `nth` past
the end, collecting the (zero) remaining items into an empty vector panics. -/
theorem C69_false_overshoot (t : Target) (ht : t.debugAssertions = true) (ho : t.overflowChecks = true) (a : Mat T r c)
    (k : Nat) (hk : k < t.W) (hr : r < k) :
    (dequeRun (rowsOf a) [.nth k]).2.length = 0 ∧
    Vec.fromIter t 0 (RowsIterRef.machine t a.rows).toIter
      (run (RowsIterRef.machine t a.rows) (RowsIterRef.new a.rows) [.nth k]).2 = .error .panic := by
  refine ⟨by simp [dequeRun, dequeStep]; omega, ?_⟩
  have n3 := nth_over (rowsIterRef_cursor t a (by omega)) (rowsOf_length a) hr hk
  rw [show RowsIterRef.new a.rows = id ⟨0, r⟩ from rfl, n3]
  have : (RowsIterRef.machine t a.rows).toIter.count ⟨k, r⟩ = .error .panic := by
    simp [Machine.toIter, RowsIterRef.machine, RowsIterRef.count, RowsIterRef.len, usub_over t hr, ho]
  simp [Vec.fromIter, Vec.fill, ht, this]

example : Vec.fromIter debug64 2 (RowsIterRef.machine debug64 m32.rows).toIter
    (run (RowsIterRef.machine debug64 m32.rows) (RowsIterRef.new m32.rows) [.nextBack]).2 =
    .ok ⟨[⟨[1, 2], rfl⟩, ⟨[3, 4], rfl⟩], rfl⟩ := rfl
example : Vec.fromIter debug64 2 (RowsIter.machine debug64 m32.rows).toIter
    (run (RowsIter.machine debug64 m32.rows) (RowsIter.new m32.rows) [.nextBack]).2 = .error .panic := rfl

end Rowcol
