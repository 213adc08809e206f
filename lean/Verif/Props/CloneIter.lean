import Verif.Model.CloneIter
import Verif.Props.BorrowIter
import Verif.Props.Collect
import Verif.Props.Compare
import Verif.Lemmas.StM

/-! # C95: iterators that clone, when cloning has effects -/

namespace Rowcol
open Spec

namespace Spec

/-- Handing out the item at the front of a queue by cloning it.  `keep` says whether an item whose clone panics stays in the
queue.  The outcome, what is left of the queue, and the state the clone leaves. -/
def cloneFront {S α : Type} (keep : Bool) (cl : α → StM S α) (q : List α) (s : S) : Res (Option α) × List α × S :=
  match q with
  | [] => (.ok none, [], s)
  | x :: xs =>
    match (cl x).run s with
    | (.ok y, s') => (.ok (some y), xs, s')
    | (.error f, s') => (.error f, if keep then x :: xs else xs, s')

/-- One call on a queue whose items are cloned when they are handed out, from either end. -/
def cloneStep {S α : Type} (keep : Bool) (cl : α → StM S α) (q : List α) (s : S) : Move → Res (Option α) × List α × S
  | .next => cloneFront keep cl q s
  | .nextBack =>
    let p := cloneFront keep cl q.reverse s
    (p.1, p.2.1.reverse, p.2.2)
  | .nth n => cloneFront keep cl (q.drop n) s

/-- A history of calls: what each returned, and the state in the end. -/
def cloneRun {S α : Type} (keep : Bool) (cl : α → StM S α) (q : List α) (s : S) : List Move → List (Res (Option α)) × S
  | [] => ([], s)
  | c :: h =>
    let p := cloneStep keep cl q s c
    (p.1 :: (cloneRun keep cl p.2.1 p.2.2 h).1, (cloneRun keep cl p.2.1 p.2.2 h).2)

/-- One call on one of the crate's cloning iterators. -/
def stepE {S α : Type} (M : CloneMachine S α) : Move → StM (Cur × S) (Option α)
  | .next => M.next
  | .nextBack => M.nextBack
  | .nth n => M.nth n

/-- A history of calls on one of the crate's cloning iterators.  A panic is caught and the iterator used again. -/
def runE {S α : Type} (M : CloneMachine S α) (p : Cur × S) : List Move → List (Res (Option α)) × S
  | [] => ([], p.2)
  | c :: h =>
    let x := (stepE M c).run p
    (x.1 :: (runE M x.2 h).1, (runE M x.2 h).2)

end Spec

variable {S T : Type} {n r c : Nat}

/-- The methods walk the list `all` with two cursors, cloning with `cl`. -/
structure IsCloneCursor {S α : Type} (t : Target) (keep : Bool) (all : List α) (cl : α → StM S α) (M : CloneMachine S α) : Prop where
  next_some : ∀ (s : Cur) (x : S) (h : s.front < s.back) (hb : s.back ≤ all.length),
    M.next.run (s, x) = match (cl (all[s.front]'(by omega))).run x with
      | (.ok y, x') => (.ok (some y), ({ s with front := s.front + 1 }, x'))
      | (.error f, x') => (.error f, (if keep then s else { s with front := s.front + 1 }, x'))
  next_none : ∀ (s : Cur) (x : S), s.back ≤ s.front → s.back ≤ all.length → M.next.run (s, x) = (.ok none, (s, x))
  back_some : ∀ (s : Cur) (x : S) (h : s.front < s.back) (hb : s.back ≤ all.length),
    M.nextBack.run (s, x) = match (cl (all[s.back - 1]'(by omega))).run x with
      | (.ok y, x') => (.ok (some y), ({ s with back := s.back - 1 }, x'))
      | (.error f, x') => (.error f, (if keep then s else { s with back := s.back - 1 }, x'))
  back_none : ∀ (s : Cur) (x : S), s.back ≤ s.front → s.back ≤ all.length → M.nextBack.run (s, x) = (.ok none, (s, x))
  nth : ∀ n (s : Cur) (x : S), s.front + n < t.W → (M.nth n).run (s, x) = M.next.run ({ s with front := s.front + n }, x)

namespace IsCloneCursor
open IsCursor
variable {α : Type} {t : Target} {keep : Bool} {all : List α} {cl : α → StM S α} {M : CloneMachine S α}

theorem next_eq (hM : IsCloneCursor t keep all cl M) (s : Cur) (x : S) (hb : s.back ≤ all.length) :
    ∃ s' : Cur, M.next.run (s, x) = ((cloneFront keep cl (left all s) x).1, (s', (cloneFront keep cl (left all s) x).2.2)) ∧
      (cloneFront keep cl (left all s) x).2.1 = left all s' ∧ s'.back = s.back ∧
      (s'.front = s.front ∨ s'.front = s.front + 1 ∧ s.front < s.back) := by
  by_cases hlt : s.front < s.back
  · rw [hM.next_some s x hlt hb, left_cons s hlt hb, cloneFront]
    rcases (cl (all[s.front]'(by omega))).run x with ⟨f | y, x'⟩
    · cases keep
      · exact ⟨_, rfl, rfl, rfl, .inr ⟨rfl, hlt⟩⟩
      · exact ⟨s, rfl, (left_cons s hlt hb).symm, rfl, .inl rfl⟩
    · exact ⟨_, rfl, rfl, rfl, .inr ⟨rfl, hlt⟩⟩
  · rw [hM.next_none s x (by omega) hb, left_nil s (by omega)]
    exact ⟨s, rfl, (left_nil s (by omega)).symm, rfl, .inl rfl⟩

theorem step_eq (hM : IsCloneCursor t keep all cl M) (m : Move) (s : Cur) (x : S) (hb : s.back ≤ all.length)
    (hW : s.front + skips [m] < t.W) :
    ∃ s' : Cur, (stepE M m).run (s, x) = ((cloneStep keep cl (left all s) x m).1, (s', (cloneStep keep cl (left all s) x m).2.2)) ∧
      (cloneStep keep cl (left all s) x m).2.1 = left all s' ∧ s'.back ≤ all.length ∧
      (s'.front ≤ s.front + skips [m] ∨ s'.front ≤ all.length) := by
  cases m with
  | next =>
    obtain ⟨s', h1, h2, h3, h4⟩ := hM.next_eq s x hb
    exact ⟨s', h1, h2, by omega, by simp [skips]; omega⟩
  | nextBack =>
    by_cases hlt : s.front < s.back
    · rw [stepE, hM.back_some s x hlt hb, left_snoc s hlt hb, cloneStep]
      simp only [List.reverse_append, List.reverse_cons, List.reverse_nil, List.nil_append, List.singleton_append, cloneFront]
      rcases (cl (all[s.back - 1]'(by omega))).run x with ⟨f | y, x'⟩
      · cases keep
        · exact ⟨_, rfl, by simp, by simp; omega, by simp⟩
        · exact ⟨s, rfl, by simp [← left_snoc s hlt hb], by omega, by simp⟩
      · exact ⟨_, rfl, by simp, by simp; omega, by simp⟩
    · rw [stepE, hM.back_none s x (by omega) hb, left_nil s (by omega)]
      exact ⟨s, rfl, (left_nil s (by omega)).symm, hb, by simp⟩
  | nth n =>
    simp only [skips] at hW ⊢
    obtain ⟨s', h1, h2, h3, h4⟩ := hM.next_eq { s with front := s.front + n } x hb
    refine ⟨s', ?_, ?_, by simp at h3; omega, ?_⟩
    · rw [stepE, hM.nth n s x (by omega), h1, cloneStep, left_drop]
    · rw [cloneStep, left_drop, h2]
    · simp at h4; omega

theorem run_eq (hM : IsCloneCursor t keep all cl M) (h : List Move) (s : Cur) (x : S) (hb : s.back ≤ all.length)
    (B : Nat) (hB : s.front ≤ B ∧ all.length ≤ B) (hW : B + skips h < t.W) :
    runE M (s, x) h = cloneRun keep cl (left all s) x h := by
  induction h generalizing s x B with
  | nil => rfl
  | cons m h ih =>
    rw [skips_cons] at hW
    obtain ⟨s1, h1, h2, h3, h4⟩ := hM.step_eq m s x hb (by omega)
    rw [runE, h1]
    dsimp only
    rw [ih s1 _ h3 (B + skips [m]) (by omega) (by omega), cloneRun, h2]

end IsCloneCursor

theorem StM.outside_run {α : Type} (x : StM S α) (s : Cur) (y : S) :
    (StM.outside x).run (s, y) = ((x.run y).1, (s, (x.run y).2)) := rfl

theorem cursors_run (s : Cur) (x : S) : (cursors : StM (Cur × S) Cur).run (s, x) = (.ok s, (s, x)) := rfl

theorem setFront_run (f : Nat) (s : Cur) (x : S) : (setFront f : StM (Cur × S) Unit).run (s, x) = (.ok (), ({ s with front := f }, x)) := rfl

theorem setBack_run (f : Nat) (s : Cur) (x : S) : (setBack f : StM (Cur × S) Unit).run (s, x) = (.ok (), ({ s with back := f }, x)) := rfl

theorem RowsIter.isCloneCursor (t : Target) (cl : T → StM S T) (a : Mat T r c) (hr : r < t.W) :
    IsCloneCursor t true (rowsOf a) (fun v => v.clone t cl) (RowsIter.cloning t cl a.rows) where
  next_some s x h hb := by
    rw [rowsOf_length] at hb
    have hi : a.rows.index s.front = .ok ((rowsOf a)[s.front]'(by simp; omega)) := by
      simp only [← rowsOf_eq, Vec.index]
      rw [List.getElem?_eq_getElem (by rw [a.rows.length_eq]; omega)]
    simp only [RowsIter.cloning, RowsIter.nextE]
    rw [StM.run_bind_ok (cursors_run s x), if_pos h, hi, uadd_ok t (by omega), StM.run_bind_ok (StM.run_liftRes_ok _ _), StM.run_bind,
      StM.outside_run]
    rcases ((rowsOf a)[s.front]'(by simp; omega) |>.clone t cl).run x with ⟨f | y, x'⟩
    · rfl
    · rfl
  next_none s x h _ := by
    simp only [RowsIter.cloning, RowsIter.nextE]
    rw [StM.run_bind_ok (cursors_run s x), if_neg (by omega)]; rfl
  back_some s x h hb := by
    rw [rowsOf_length] at hb
    have hi : a.rows.index (s.back - 1) = .ok ((rowsOf a)[s.back - 1]'(by simp; omega)) := by
      simp only [← rowsOf_eq, Vec.index]
      rw [List.getElem?_eq_getElem (by rw [a.rows.length_eq]; omega)]
    simp only [RowsIter.cloning, RowsIter.nextBackE]
    rw [StM.run_bind_ok (cursors_run s x), if_pos h, usub_ok t (by omega), StM.run_bind_ok (StM.run_liftRes_ok _ _), hi,
      StM.run_bind_ok (StM.run_liftRes_ok _ _), StM.run_bind, StM.outside_run]
    rcases ((rowsOf a)[s.back - 1]'(by simp; omega) |>.clone t cl).run x with ⟨f | y, x'⟩
    · rfl
    · rfl
  back_none s x h _ := by
    simp only [RowsIter.cloning, RowsIter.nextBackE]
    rw [StM.run_bind_ok (cursors_run s x), if_neg (by omega)]; rfl
  nth n s x h := by
    simp only [RowsIter.cloning, RowsIter.nthE]
    rw [StM.run_bind_ok (cursors_run s x), uadd_ok t h, StM.run_bind_ok (StM.run_liftRes_ok _ _), StM.run_bind_ok (setFront_run _ _ _)]

theorem ColsIter.columnE_eq (t : Target) (cl : T → StM S T) (a : Mat T r c) (s : Nat) (h : s < c) :
    ColsIter.columnE t cl a.rows s = ((colsOf a)[s]'(by simpa)).clone t cl := by
  unfold ColsIter.columnE Vec.clone
  congr 1
  have e : (colsOf a)[s]'(by simpa) = Vec.ofFn fun i => a.get i ⟨s, h⟩ := by simp [colsOf]
  rw [e, Vec.toList_eq, List.map_map, Vec.toList_ofFn, List.map_map]
  apply List.map_congr_left
  intro i _
  simp only [Function.comp_apply]
  rw [List.getElem?_eq_getElem (by rw [Vec.length_eq]; exact h)]
  simp only [liftRes_ok, pure_bind]
  rfl

theorem ColsIter.isCloneCursor (t : Target) (cl : T → StM S T) (a : Mat T r c) (hc : c < t.W) :
    IsCloneCursor t false (colsOf a) (fun v => v.clone t cl) (ColsIter.cloning t cl a.rows) where
  next_some s x h hb := by
    rw [colsOf_length] at hb
    have hd : debugAssert t (decide (s.back ≤ c)) = .ok () := by simp [debugAssert, hb]
    simp only [ColsIter.cloning, ColsIter.nextE]
    rw [StM.run_bind_ok (cursors_run s x), hd, StM.run_bind_ok (StM.run_liftRes_ok _ _), if_pos h, uadd_ok t (by omega),
      StM.run_bind_ok (StM.run_liftRes_ok _ _), StM.run_bind_ok (setFront_run _ _ _), ColsIter.columnE_eq t cl a _ (by omega),
      StM.run_bind, StM.outside_run]
    rcases ((colsOf a)[s.front]'(by simp; omega) |>.clone t cl).run x with ⟨f | y, x'⟩
    · rfl
    · rfl
  next_none s x h hb := by
    rw [colsOf_length] at hb
    have hd : debugAssert t (decide (s.back ≤ c)) = .ok () := by simp [debugAssert, hb]
    simp only [ColsIter.cloning, ColsIter.nextE]
    rw [StM.run_bind_ok (cursors_run s x), hd, StM.run_bind_ok (StM.run_liftRes_ok _ _), if_neg (by omega)]; rfl
  back_some s x h hb := by
    rw [colsOf_length] at hb
    simp only [ColsIter.cloning, ColsIter.nextBackE]
    rw [StM.run_bind_ok (cursors_run s x), if_pos h, usub_ok t (by omega), StM.run_bind_ok (StM.run_liftRes_ok _ _),
      StM.run_bind_ok (setBack_run _ _ _), StM.run_bind_ok (StM.run_liftRes_ok _ _), ColsIter.columnE_eq t cl a _ (by omega),
      StM.run_bind, StM.outside_run]
    rcases ((colsOf a)[s.back - 1]'(by simp; omega) |>.clone t cl).run x with ⟨f | y, x'⟩
    · rfl
    · rfl
  back_none s x h _ := by
    simp only [ColsIter.cloning, ColsIter.nextBackE]
    rw [StM.run_bind_ok (cursors_run s x), if_neg (by omega)]; rfl
  nth n s x h := by
    simp only [ColsIter.cloning, ColsIter.nthE]
    rw [StM.run_bind_ok (cursors_run s x), uadd_ok t h, StM.run_bind_ok (StM.run_liftRes_ok _ _), StM.run_bind_ok (setFront_run _ _ _)]

/-- C95: for every history of `next`, `next_back` and `nth(k)` calls, panics caught in between, `rows_iter()` and `cols_iter()` are
queues of the rows and columns whose items are cloned, element by element in order, when they are handed out and not before:
skipped items are not cloned.  If cloning a row panics the row stays in the queue and the next call clones it again; if cloning a
column panics the column is gone. -/
theorem C95_histories (t : Target) (cl : T → StM S T) (a : Mat T r c) (hr : r < t.W) (hc : c < t.W) (s : S) (h : List Move) :
    (r + skips h < t.W → runE (RowsIter.cloning t cl a.rows) (RowsIter.new a.rows, s) h =
      cloneRun true (fun row : Vec T c => row.clone t cl) (rowsOf a) s h) ∧
    (c + skips h < t.W → runE (ColsIter.cloning t cl a.rows) (ColsIter.new a.rows, s) h =
      cloneRun false (fun col : Vec T r => col.clone t cl) (colsOf a) s h) := by
  refine ⟨fun hW => ?_, fun hW => ?_⟩
  · rw [(RowsIter.isCloneCursor t cl a hr).run_eq h _ s (by simp [RowsIter.new]) r (by simp [RowsIter.new]) hW, RowsIter.new,
      left_all _ _ (rowsOf_length a)]
  · rw [(ColsIter.isCloneCursor t cl a hc).run_eq h _ s (by simp [ColsIter.new]) c (by simp [ColsIter.new]) hW, ColsIter.new,
      left_all _ _ (colsOf_length a)]

/-- C95: `last()` clones the last item and no other. -/
theorem C95_last (t : Target) (cl : T → StM S T) (a : Mat T (r + 1) (c + 1)) (hr : r + 1 < t.W) (hc : c + 1 < t.W) (s : S) :
    (∃ p, (RowsIter.cloning t cl a.rows).last.run (RowsIter.new a.rows, s) =
      ((((a.rows.get (Fin.last r)).clone t cl).run s).1.map some, (p, (((a.rows.get (Fin.last r)).clone t cl).run s).2))) ∧
    (∃ p, (ColsIter.cloning t cl a.rows).last.run (ColsIter.new a.rows, s) =
      ((((Vec.ofFn fun i => a.get i (Fin.last c)).clone t cl).run s).1.map some,
        (p, (((Vec.ofFn fun i => a.get i (Fin.last c)).clone t cl).run s).2))) := by
  refine ⟨?_, ?_⟩
  · have h := (RowsIter.isCloneCursor t cl a hr).back_some (RowsIter.new a.rows) s (by simp [RowsIter.new]) (by simp [RowsIter.new])
    have e : (rowsOf a)[r]'(by simp) = a.rows.get (Fin.last r) := by
      simp only [← rowsOf_eq]; rfl
    simp only [RowsIter.new, Nat.add_sub_cancel, e] at h
    change ∃ p, (RowsIter.cloning t cl a.rows).nextBack.run (⟨0, r + 1⟩, s) = _
    rw [h]
    rcases ((a.rows.get (Fin.last r)).clone t cl).run s with ⟨f | y, x'⟩ <;> exact ⟨_, rfl⟩
  · have h := (ColsIter.isCloneCursor t cl a hc).back_some (ColsIter.new a.rows) s (by simp [ColsIter.new]) (by simp [ColsIter.new])
    have e : (colsOf a)[c]'(by simp) = Vec.ofFn fun i => a.get i (Fin.last c) := by
      simp [colsOf]; rfl
    simp only [ColsIter.new, Nat.add_sub_cancel, e] at h
    change ∃ p, (ColsIter.cloning t cl a.rows).nextBack.run (⟨0, c + 1⟩, s) = _
    rw [h]
    rcases ((Vec.ofFn fun i => a.get i (Fin.last c)).clone t cl).run s with ⟨f | y, x'⟩ <;> exact ⟨_, rfl⟩

theorem ColsIter.source_next (t : Target) (cl : T → StM S T) (a : Mat T r c) (hc : c < t.W) (k : Nat) (hk : k < c) :
    (ColsIter.source t cl a.rows).next ⟨k, c⟩ = (do
      let y ← ((colsOf a)[k]'(by simpa)).clone t cl
      pure (some y, (⟨k + 1, c⟩ : Cur))) := by
  have h := fun x => (ColsIter.isCloneCursor t cl a hc).next_some ⟨k, c⟩ x hk (by simp)
  apply ExceptT.ext
  funext x
  refine Eq.trans ?_ (StM.run_bind _ _ x).symm
  change (match (ColsIter.nextE t cl a.rows).run (⟨k, c⟩, x) with
    | (.ok o, (s', x')) => ((.ok (o, s'), x') : Res _ × S)
    | (.error f, (_, x')) => (.error f, x')) = _
  have h := h x
  simp only [ColsIter.cloning] at h
  rw [h]
  rcases ((colsOf a)[k]'(by simpa) |>.clone t cl).run x with ⟨f | y, x'⟩ <;> rfl

theorem ColsIter.fill_source (t : Target) (cl : T → StM S T) (a : Mat T r c) (hc : c < t.W) (n k : Nat) (hn : k + n = c) :
    Vec.fill (ColsIter.source t cl a.rows) n ⟨k, c⟩ = (fun p => (p.1, (⟨c, c⟩ : Cur))) <$>
      Vec.fill Iter.ofList n (((colsOf a).drop k).map fun v => v.clone t cl) := by
  induction n generalizing k with
  | zero => simp only [Vec.fill, map_pure]; rw [show k = c by omega]
  | succ n ih =>
    have hk : k < c := by omega
    rw [List.drop_eq_getElem_cons (by simpa), List.map_cons, Vec.fill, Vec.fill, ColsIter.source_next t cl a hc k hk]
    simp only [Iter.ofList, bind_assoc, pure_bind, map_bind, ih (k + 1) (by omega)]
    refine bind_congr fun y => ?_
    simp only [bind_map_left, map_pure]

theorem ColsIter.fromIter_source (t : Target) (cl : T → StM S T) (a : Mat T r c) (hc : c < t.W) :
    Vec.toList <$> Vec.fromIter t c (ColsIter.source t cl a.rows) (ColsIter.new a.rows) =
      (colsOf a).mapM fun v => v.clone t cl := by
  have h := ColsIter.fill_source t cl a hc c 0 (by omega)
  rw [List.drop_zero] at h
  have hf := Vec.fill_ofList c ((colsOf a).map fun v => v.clone t cl) (by simp)
  have hc0 : (ColsIter.source t cl a.rows).count ⟨c, c⟩ = pure 0 := by
    simp [ColsIter.source, ColsIter.count, usub_ok t (Nat.le_refl c)]
  unfold Vec.fromIter
  rw [ColsIter.new, h]
  simp only [bind_map_left, hc0, pure_bind, ne_eq, not_true_eq_false, if_false, ite_self, bind_pure_comp, Functor.map_map]
  have hf := congrArg (fun q => Prod.fst <$> q) hf
  simp only [Functor.map_map] at hf
  rw [hf, List.take_of_length_le (by simp), mapM_map']
  simp

/-- C95: `transposed()` clones every entry once, in column-major order. -/
theorem C95_transposed (t : Target) (cl : T → StM S T) (a : Mat T r c) (hc : c < t.W) :
    Mat.toLists <$> a.transposedE t cl =
      (List.finRange c).mapM fun j => (List.finRange r).mapM fun i : Fin r => cl (a.get i j) := by
  unfold Mat.transposedE
  have h := congrArg (fun q => List.map Vec.toList <$> q) (ColsIter.fromIter_source t cl a hc)
  simp only [Functor.map_map] at h
  simp only [bind_pure_comp, Functor.map_map, Mat.toLists]
  rw [h, map_mapM, colsOf, List.mapM_map]
  congr 1
  funext j
  rw [Function.comp_apply, Vec.clone, Vec.collect_toList _ _ _ (by simp [Vec.length_eq]), mapM_map', Vec.toList_ofFn, List.mapM_map]
  rfl

theorem mapM_calls {ι α : Type} (f : ι → StM S α) (l : List ι) (s : S) :
    (∀ ys s', (l.mapM f).run s = (.ok ys, s') ↔ Calls f s l ys s') ∧
    (∀ e s', (l.mapM f).run s = (.error e, s') ↔
      ∃ pre x post ys s1, l = pre ++ x :: post ∧ Calls f s pre ys s1 ∧ (f x).run s1 = (.error e, s')) := by
  have key : ∀ s, (∃ ys s', (l.mapM f).run s = (.ok ys, s') ∧ Calls f s l ys s') ∨
      (∃ e s', (l.mapM f).run s = (.error e, s') ∧ ∃ pre x post ys s1, l = pre ++ x :: post ∧ Calls f s pre ys s1 ∧
        (f x).run s1 = (.error e, s')) := by
    induction l with
    | nil => exact fun s => .inl ⟨[], s, rfl, .nil _⟩
    | cons x xs ih =>
      intro s
      rcases e1 : (f x).run s with ⟨e | y, s1⟩
      · exact .inr ⟨e, s1, by rw [List.mapM_cons, StM.run_bind_error e1], [], x, xs, [], s, rfl, .nil _, e1⟩
      · rcases ih s1 with ⟨ys, s', h1, h2⟩ | ⟨e, s', h1, pre, x', post, ys, s2, h3, h4, h5⟩
        · exact .inl ⟨y :: ys, s', by rw [List.mapM_cons, StM.run_bind_ok e1, StM.run_bind_ok h1]; rfl, .cons e1 h2⟩
        · exact .inr ⟨e, s', by rw [List.mapM_cons, StM.run_bind_ok e1, StM.run_bind_error h1], x :: pre, x', post, y :: ys, s2,
            by rw [h3]; rfl, .cons e1 h4, h5⟩
  refine ⟨fun ys s' => ⟨fun h => ?_, fun h => run_mapM_ok f h⟩, fun e s' => ⟨fun h => ?_, ?_⟩⟩
  · rcases key s with ⟨zs, s2, h1, h2⟩ | ⟨e, s2, h1, _⟩
    · rw [h1] at h; cases h; exact h2
    · rw [h1] at h; cases h
  · rcases key s with ⟨zs, s2, h1, h2⟩ | ⟨e, s2, h1, h2⟩
    · rw [h1] at h; cases h
    · rw [h1] at h; cases h; exact h2
  · rintro ⟨pre, x, post, ys, s1, rfl, h1, h2⟩
    exact run_mapM_error f h1 h2

theorem flatten_mapM {m : Type → Type} [RustM m] {ι α : Type} (f : ι → m α) (L : List (List ι)) :
    List.flatten <$> L.mapM (fun l => l.mapM f) = L.flatten.mapM f := by
  induction L with
  | nil => simp
  | cons l L ih =>
    rw [List.flatten_cons, List.mapM_append, ← ih, List.mapM_cons]
    simp

/-- The entries of a matrix, column by column. -/
def colMajor (a : Mat T r c) : List T := (List.finRange c).flatMap fun j => (List.finRange r).map fun i => a.get i j

/-- C95: `transpose()` in place clones the entries in column-major order; if a clone panics, the matrix is as before and nothing is
cloned after that. -/
theorem C95_transpose (t : Target) (cl : T → StM S T) (a : Mat T r r) (hr : r < t.W) (s : S) :
    (∀ b s', a.transposeE t cl s = ((.ok (), b), s') ↔ Calls cl s (colMajor a) b.toLists.flatten s') ∧
    (∀ f b s', a.transposeE t cl s = ((.error f, b), s') ↔ b = a ∧ ∃ before x after done s1, colMajor a = before ++ x :: after ∧
      Calls cl s before done s1 ∧ (cl x).run s1 = (.error f, s')) := by
  have h : (fun b : Mat T r r => b.toLists.flatten) <$> a.transposedE t cl = (colMajor a).mapM cl := by
    have h1 := congrArg (fun q => List.flatten <$> q) (C95_transposed t cl a hr)
    simp only [Functor.map_map] at h1
    rw [h1, colMajor, List.flatMap_def, ← flatten_mapM, List.mapM_map]
    congr 2
    funext j
    rw [Function.comp_apply, List.mapM_map]
    rfl
  have hk := mapM_calls cl (colMajor a) s
  have hrun := congrArg (fun q : StM S (List T) => q.run s) h
  simp only [StM.run_map] at hrun
  rw [← hrun] at hk
  unfold Mat.transposeE
  generalize ExceptT.run (a.transposedE t cl) s = res at hk ⊢
  rcases res with ⟨f | y, x'⟩
  · refine ⟨fun b s' => ⟨fun h => (by cases h), fun h => ?_⟩, fun f' b s' => ⟨fun h => ?_, fun h => ?_⟩⟩
    · cases (hk.1 _ _).2 h
    · cases h
      exact ⟨rfl, (hk.2 _ _).1 rfl⟩
    · obtain ⟨rfl, h⟩ := h
      have := (hk.2 f' s').2 h
      cases this
      rfl
  · refine ⟨fun b s' => ⟨fun h => ?_, fun h => ?_⟩, fun f' b s' => ⟨fun h => (by cases h), fun h => ?_⟩⟩
    · cases h
      exact (hk.1 _ _).1 rfl
    · have := (hk.1 _ _).2 h
      have h1 := Except.ok.inj (Prod.mk.inj this).1
      have h2 := (Prod.mk.inj this).2
      subst h2
      rw [Mat.flatten_injective h1]
    · cases (hk.2 _ _).2 h.2

/-- C95: with clones that cannot be told from copies the iterators are the double-ended queues of C59. -/
theorem C95_silent {α : Type} (keep : Bool) (q : List α) (s : S) (h : List Move) :
    cloneRun keep (fun x => (pure x : StM S α)) q s h = ((dequeRun q h).1.map .ok, s) := by
  induction h generalizing q with
  | nil => rfl
  | cons m h ih =>
    have hs : cloneStep keep (fun x => (pure x : StM S α)) q s m = (.ok (dequeStep q m).1, (dequeStep q m).2, s) := by
      have hf : ∀ q : List α, cloneFront keep (fun x => (pure x : StM S α)) q s = (.ok q.head?, q.tail, s) := by
        intro q; cases q <;> rfl
      cases m with
      | next => exact hf q
      | nextBack => simp only [cloneStep, hf, dequeStep, List.head?_reverse, List.tail_reverse, List.reverse_reverse]
      | nth n => simp only [cloneStep, hf, dequeStep, List.tail_drop]
    rw [cloneRun, hs]
    simp only [ih, dequeRun, List.map_cons]

/-! ### Examples -/

/-- A clone that logs what it copies and fails the first time it sees `3`. -/
def flaky (x : Nat) : StM (List Nat) Nat := do
  let log ← get
  set (log ++ [x])
  if x = 3 ∧ 3 ∉ log then fault .panic else pure x

/-- The second row of `m32` is `[3, 4]`: its first clone panics, the next call delivers it; the row skipped by `nth` is not cloned. -/
example : runE (RowsIter.cloning debug64 flaky m32.rows) (RowsIter.new m32.rows, []) [.nth 1, .next, .nextBack, .nextBack] =
    ([.error .panic, .ok (some ⟨[3, 4], rfl⟩), .ok (some ⟨[5, 6], rfl⟩), .ok none], [3, 3, 4, 5, 6]) := by
  rw [(C95_histories debug64 flaky m32 (by decide) (by decide) [] _).1 (by decide)]; rfl

/-- The first column of `m32` is `[1, 3, 5]`: its clone panics after `1`, and the next call delivers the second column. -/
example : runE (ColsIter.cloning debug64 flaky m32.rows) (ColsIter.new m32.rows, []) [.next, .next, .next] =
    ([.error .panic, .ok (some ⟨[2, 4, 6], rfl⟩), .ok none], [1, 3, 2, 4, 6]) := by
  rw [(C95_histories debug64 flaky m32 (by decide) (by decide) [] _).2 (by decide)]; rfl

end Rowcol
