import Verif.Props.BorrowIter

/-! # C113: the borrowing iterators after any history, in any build

C59-C63 and C69 speak of histories whose skips fit in `usize` (or stay inside the matrix).  Here no history is excluded: what each of the
five iterators answers next is computed from the calls made so far and what they returned, with wrapping skips, panicking skips and skips
past the end. -/

namespace Rowcol
namespace Spec

/-- How many places a call moves the front, judging by what it returned: an item taken from the front is one place, a skip of `nth(n)` is
`n` places, whether or not an item was found; a call that panicked moves nothing. -/
def advance {α : Type} : Move → Res (Option α) → Nat
  | .next, .ok (some _) => 1
  | .nth n, .ok (some _) => n + 1
  | .nth n, .ok none => n
  | _, _ => 0

/-- How many items a call took from the back. -/
def backed {α : Type} : Move → Res (Option α) → Nat
  | .nextBack, .ok (some _) => 1
  | _, _ => 0

/-- The place of the front after the calls `h` returned `os`: `usize` has `W` values. -/
def frontAfter {α : Type} (W : Nat) (h : List Move) (os : List (Res (Option α))) : Nat :=
  ((h.zip os).map fun p => advance p.1 p.2).sum % W

/-- The place of the back, of `n` items. -/
def backAfter {α : Type} (n : Nat) (h : List Move) (os : List (Res (Option α))) : Nat :=
  n - ((h.zip os).map fun p => backed p.1 p.2).sum

/-- The item at place `p`, if it is before place `b`. -/
def itemAt {α : Type} (items : List α) (p b : Nat) : Option α := if p < b then items[p]? else none

/-- `b - p` as `usize`: below zero it panics or wraps around. -/
def difference (t : Target) (b p : Nat) : Res Nat :=
  if p ≤ b then .ok (b - p) else if t.overflowChecks then .error .panic else .ok (b + t.W - p)

/-- What the next call, or an observer, returns when the front is at place `p` and the back at `b`; the size observers count up to
place `e`. -/
structure Answers {α σ : Type} (t : Target) (M : Machine α σ) (s : σ) (items : List α) (p b e : Nat) : Prop where
  next : (step M s .next).1 = .ok (itemAt items p b)
  nextBack : (step M s .nextBack).1 = .ok (if p < b then items[b - 1]? else none)
  nth : ∀ n, (step M s (.nth n)).1 =
    if t.overflowChecks = true ∧ t.W ≤ p + n then .error .panic else .ok (itemAt items ((p + n) % t.W) b)
  last : M.last s = (step M s .nextBack).1
  len : M.len s = difference t e p
  count : M.count s = difference t e p
  sizeHint : M.sizeHint s = (difference t e p).map fun k => (k, some k)

/-- An iterator over `items` whose answers after every history are those above.  If `own` the size observers count up to the back of the
iterator, otherwise up to the end of the matrix. -/
def Explained {α σ : Type} (t : Target) (M : Machine α σ) (s : σ) (items : List α) (own : Bool) : Prop :=
  ∀ h : List Move, Answers t M (run M s h).2 items (frontAfter t.W h (run M s h).1) (backAfter items.length h (run M s h).1)
    (if own then backAfter items.length h (run M s h).1 else items.length)

end Spec

open Spec

variable {T : Type} {r c : Nat}

section cursor
variable {α σ : Type} {t : Target} {all : List α} {emb : Cur → σ} {M : Machine α σ}

theorem step_any (hM : IsCursor t all emb M) (hsz : all.length < t.W) (m : Move) (s : Cur) (hb : s.back ≤ all.length) (hf : s.front < t.W) :
    ∃ s', (step M (emb s) m).2 = emb s' ∧ s'.back ≤ all.length ∧ s'.front < t.W ∧
      s'.front = (s.front + advance m (step M (emb s) m).1) % t.W ∧ s'.back + backed m (step M (emb s) m).1 = s.back := by
  have hnext : ∀ s : Cur, s.back ≤ all.length → s.front < t.W → ∃ s' o, M.next (emb s) = .ok (o, emb s') ∧ s'.back = s.back ∧
      s'.front < t.W ∧ s'.front = s.front + (if o.isSome then 1 else 0) := by
    intro s hb hf
    by_cases hlt : s.front < s.back
    · exact ⟨_, _, hM.next_some s hlt hb, rfl, by simp; omega, by simp⟩
    · exact ⟨_, _, hM.next_none s (by omega) hb, rfl, hf, by simp⟩
  cases m with
  | next =>
    obtain ⟨s', o, h1, h2, h3, h4⟩ := hnext s hb hf
    refine ⟨s', by simp [step, h1], by omega, h3, ?_, by simp [backed, h2]⟩
    rw [Nat.mod_eq_of_lt] <;> cases o <;> simp [step, h1, advance] at h4 ⊢ <;> omega
  | nextBack =>
    by_cases hlt : s.front < s.back
    · have := hM.back_some s hlt hb
      exact ⟨{ s with back := s.back - 1 }, by simp only [step, this], by simp; omega, hf,
        by simp [advance, Nat.mod_eq_of_lt hf], by simp [step, this, backed]; omega⟩
    · have := hM.back_none s (by omega) hb
      exact ⟨s, by simp [step, this], hb, hf, by simp [advance, Nat.mod_eq_of_lt hf], by simp [step, this, backed]⟩
  | nth n =>
    have hn := hM.nth n s
    unfold uadd at hn
    have hadv : ∀ (f : Nat), f < t.W → f = (s.front + n) % t.W →
        M.nth n (emb s) = M.next (emb { s with front := f }) →
        ∃ s', (step M (emb s) (.nth n)).2 = emb s' ∧ s'.back ≤ all.length ∧ s'.front < t.W ∧
          s'.front = (s.front + advance (.nth n) (step M (emb s) (.nth n)).1) % t.W ∧
          s'.back + backed (.nth n) (step M (emb s) (.nth n)).1 = s.back := by
      intro f hf' hfe hq
      obtain ⟨s', o, h1, h2, h3, h4⟩ := hnext { s with front := f } hb hf'
      rw [h1] at hq
      dsimp only at h2 h4
      refine ⟨s', by simp [step, hq], by omega, h3, ?_, by simp [backed, h2]⟩
      cases o with
      | none => simp only [step, hq, advance]; simp at h4; omega
      | some x =>
        simp only [step, hq, advance]
        simp at h4
        rw [← Nat.add_assoc, Nat.add_mod, ← hfe, h4, Nat.add_mod_mod, Nat.mod_eq_of_lt (by omega)]
    by_cases h1 : s.front + n < t.W
    · exact hadv (s.front + n) h1 (Nat.mod_eq_of_lt h1).symm (by simpa [h1] using hn)
    · by_cases h4 : t.overflowChecks = true
      · simp [h1, h4] at hn
        exact ⟨s, by simp [step, hn], hb, hf, by simp [step, hn, advance, Nat.mod_eq_of_lt hf], by simp [backed]⟩
      · exact hadv ((s.front + n) % t.W) (Nat.mod_lt _ (by omega)) rfl (by simpa [h1, h4] using hn)

theorem run_any (hM : IsCursor t all emb M) (hsz : all.length < t.W) (h : List Move) (s : Cur) (hb : s.back ≤ all.length)
    (hf : s.front < t.W) :
    ∃ s', (run M (emb s) h).2 = emb s' ∧ s'.back ≤ all.length ∧ s'.front < t.W ∧
      s'.front = (s.front + ((h.zip (run M (emb s) h).1).map fun p => advance p.1 p.2).sum) % t.W ∧
      s'.back + ((h.zip (run M (emb s) h).1).map fun p => backed p.1 p.2).sum = s.back := by
  induction h generalizing s with
  | nil => exact ⟨s, rfl, hb, hf, by simp [run, Nat.mod_eq_of_lt hf], by simp [run]⟩
  | cons m h ih =>
    obtain ⟨s1, h1, h2, h3, h4, h5⟩ := step_any hM hsz m s hb hf
    obtain ⟨s2, g1, g2, g3, g4, g5⟩ := ih s1 h2 h3
    simp only [run, h1, List.zip_cons_cons, List.map_cons, List.sum_cons]
    refine ⟨s2, g1, g2, g3, ?_, by omega⟩
    rw [g4, h4, Nat.mod_add_mod, Nat.add_assoc]

theorem run_place (hM : IsCursor t all emb M) (hsz : all.length < t.W) {n : Nat} (hn : all.length = n) (h : List Move) :
    (run M (emb ⟨0, n⟩) h).2 = emb ⟨frontAfter t.W h (run M (emb ⟨0, n⟩) h).1, backAfter n h (run M (emb ⟨0, n⟩) h).1⟩ ∧
    frontAfter t.W h (run M (emb ⟨0, n⟩) h).1 < t.W ∧ backAfter n h (run M (emb ⟨0, n⟩) h).1 ≤ n := by
  obtain ⟨⟨f, b⟩, h1, h2, h3, h4, h5⟩ := run_any hM hsz h ⟨0, n⟩ (by simp [hn]) (by simp; omega)
  simp only [Nat.zero_add] at h1 h2 h3 h4 h5
  have e1 : f = frontAfter t.W h (run M (emb ⟨0, n⟩) h).1 := h4
  have e2 : b = backAfter n h (run M (emb ⟨0, n⟩) h).1 := by simp only [backAfter]; omega
  rw [h1, e1, e2]
  exact ⟨rfl, by omega, by omega⟩

theorem answers (hM : IsCursor t all emb M) (s : Cur) (hb : s.back ≤ all.length)
    (e : Nat) (hlen : M.len (emb s) = usub t e s.front) (hcount : M.count (emb s) = usub t e s.front)
    (hhint : M.sizeHint (emb s) = (usub t e s.front).map fun k => (k, some k)) :
    Answers t M (emb s) all s.front s.back e := by
  have hnext : ∀ s : Cur, s.back ≤ all.length → ∃ s', M.next (emb s) = .ok (itemAt all s.front s.back, s') := by
    intro s hb
    by_cases hlt : s.front < s.back
    · exact ⟨_, (hM.next_some s hlt hb).trans (by
        rw [itemAt, if_pos hlt, List.getElem?_eq_getElem (by omega)])⟩
    · exact ⟨_, (hM.next_none s (by omega) hb).trans (by rw [itemAt, if_neg hlt])⟩
  refine ⟨?_, ?_, fun n => ?_, ?_, hlen, hcount, hhint⟩
  · obtain ⟨s', h1⟩ := hnext s hb
    simp [step, h1]
  · by_cases hlt : s.front < s.back
    · simp only [step, hM.back_some s hlt hb, if_pos hlt]
      rw [List.getElem?_eq_getElem (by omega)]
    · simp [step, hM.back_none s (by omega) hb, hlt]
  · have hn := hM.nth n s
    unfold uadd at hn
    by_cases h1 : s.front + n < t.W
    · obtain ⟨s', h2⟩ := hnext { s with front := s.front + n } hb
      simp [h1, h2] at hn
      rw [if_neg (by omega), Nat.mod_eq_of_lt h1]
      simp [step, hn]
    · by_cases h4 : t.overflowChecks = true
      · simp [h1, h4] at hn
        rw [if_pos ⟨h4, by omega⟩]
        simp [step, hn]
      · obtain ⟨s', h2⟩ := hnext { s with front := (s.front + n) % t.W } hb
        simp [h1, h4, h2] at hn
        rw [if_neg (by simp [h4])]
        simp [step, hn]
  · rw [hM.last]
    by_cases hlt : s.front < s.back
    · simp [step, hM.back_some s hlt hb]
    · simp [step, hM.back_none s (by omega) hb]

theorem explained (hM : IsCursor t all emb M) (hsz : all.length < t.W) {n : Nat} (hn : all.length = n) (own : Bool)
    (hlen : ∀ s : Cur, M.len (emb s) = usub t (if own then s.back else n) s.front ∧
      M.count (emb s) = usub t (if own then s.back else n) s.front ∧
      M.sizeHint (emb s) = (usub t (if own then s.back else n) s.front).map fun k => (k, some k)) :
    Explained t M (emb ⟨0, n⟩) all own := by
  intro h
  obtain ⟨h1, h2, h3⟩ := run_place hM hsz hn h
  rw [h1, hn]
  have := answers hM ⟨frontAfter t.W h (run M (emb ⟨0, n⟩) h).1, backAfter n h (run M (emb ⟨0, n⟩) h).1⟩ (by simp; omega) _
    (hlen _).1 (hlen _).2.1 (hlen _).2.2
  cases own <;> simpa using this
end cursor

theorem hint_map (x : Res Nat) : (do let k ← x; pure (k, some k) : Res (Nat × Option Nat)) = x.map fun k => (k, some k) := by
  cases x <;> rfl

/-- C113: after every history of `next`, `next_back` and `nth`, in every build, with any skips: what each of the five iterators returns
next, and what `len()`, `size_hint()`, `count()` and `last()` return, is determined by the calls made and what they returned: the front
is at the place `frontAfter` (modulo the size of `usize`), the back at `backAfter`.  The cloning iterators count up to the end of the
matrix, the others up to their back. -/
theorem C113_any_history (t : Target) (a : Mat T r c) (hr : r < t.W) (hc : c < t.W) :
    Explained t (RowsIter.machine t a.rows) (RowsIter.new a.rows) (rowsOf a) false ∧
    Explained t (ColsIter.machine t a.rows) (ColsIter.new a.rows) (colsOf a) false ∧
    Explained t (RowsIterRef.machine t a.rows) (RowsIterRef.new a.rows) (rowsOf a) true ∧
    Explained t (ColsIterRef.machine t a.rows) (ColsIterRef.new a.rows) (colItersOf a) true ∧
    ∀ j : Fin c, Explained t (ColsIterRefInner.machine t a.rows) ⟨j, 0, r⟩ (colOf a j) true := by
  refine ⟨?_, ?_, ?_, ?_, fun j => ?_⟩
  · exact explained (rowsIter_cursor t a hr) (by simpa) (by simp) false fun s => ⟨rfl, rfl, hint_map _⟩
  · exact explained (colsIter_cursor t a hc) (by simpa) (by simp) false fun s => ⟨rfl, rfl, hint_map _⟩
  · exact explained (rowsIterRef_cursor t a hr) (by simpa) (by simp) true fun s => ⟨rfl, rfl, hint_map _⟩
  · exact explained (colsIterRef_cursor t a hc) (by simpa) (by simp) true fun s => ⟨rfl, rfl, hint_map _⟩
  · exact explained (inner_cursor t a hr j) (by simpa) (by simp) true fun s => ⟨rfl, rfl, hint_map _⟩

/-- C63 without any restriction on the history: after every sequence of calls in every build, with any skips, `last()` returns the final
remaining item, the one before the back place, or `None` when the front has reached the back. -/
theorem C63_any_history (t : Target) (a : Mat T r c) (hr : r < t.W) (hc : c < t.W) (h : List Move) :
    (let o := run (RowsIter.machine t a.rows) (RowsIter.new a.rows) h
     (RowsIter.machine t a.rows).last o.2 =
      .ok (if frontAfter t.W h o.1 < backAfter r h o.1 then (rowsOf a)[backAfter r h o.1 - 1]? else none)) ∧
    (let o := run (ColsIter.machine t a.rows) (ColsIter.new a.rows) h
     (ColsIter.machine t a.rows).last o.2 =
      .ok (if frontAfter t.W h o.1 < backAfter c h o.1 then (colsOf a)[backAfter c h o.1 - 1]? else none)) ∧
    (let o := run (RowsIterRef.machine t a.rows) (RowsIterRef.new a.rows) h
     (RowsIterRef.machine t a.rows).last o.2 =
      .ok (if frontAfter t.W h o.1 < backAfter r h o.1 then (rowsOf a)[backAfter r h o.1 - 1]? else none)) ∧
    (let o := run (ColsIterRef.machine t a.rows) (ColsIterRef.new a.rows) h
     (ColsIterRef.machine t a.rows).last o.2 =
      .ok (if frontAfter t.W h o.1 < backAfter c h o.1 then (colItersOf a)[backAfter c h o.1 - 1]? else none)) ∧
    ∀ j : Fin c, let o := run (ColsIterRefInner.machine t a.rows) ⟨j, 0, r⟩ h
      (ColsIterRefInner.machine t a.rows).last o.2 =
        .ok (if frontAfter t.W h o.1 < backAfter r h o.1 then (colOf a j)[backAfter r h o.1 - 1]? else none) := by
  obtain ⟨h1, h2, h3, h4, h5⟩ := C113_any_history t a hr hc
  refine ⟨?_, ?_, ?_, ?_, fun j => ?_⟩
  · have := h1 h; dsimp only; rw [this.last, this.nextBack, rowsOf_length]
  · have := h2 h; dsimp only; rw [this.last, this.nextBack, colsOf_length]
  · have := h3 h; dsimp only; rw [this.last, this.nextBack, rowsOf_length]
  · have := h4 h; dsimp only; rw [this.last, this.nextBack, colItersOf_length]
  · have := h5 j h; dsimp only; rw [this.last, this.nextBack, colOf_length]

/-- What collecting into a vector of length `N` gives when the front is at `p`, the back at `b`, and the size observers count up to `e`:
too few items left is a panic; in a build with debug assertions so is a `count()` other than 0 afterwards. -/
def Spec.Collected {α : Type} (t : Target) (items : List α) (p b e N : Nat) (res : Res (Vec α N)) : Prop :=
  (b - p < N → res = .error .panic) ∧
  (N ≤ b - p → t.debugAssertions = true → p + N ≠ e → res = .error .panic) ∧
  (N ≤ b - p → (t.debugAssertions = false ∨ p + N = e) → ∃ v, res = .ok v ∧ v.toList = (items.drop p).take N)

section cursor
variable {α σ : Type} {t : Target} {all : List α} {emb : Cur → σ} {M : Machine α σ}

theorem fill_any (hM : IsCursor t all emb M) (n : Nat) (s : Cur) (hb : s.back ≤ all.length) :
    (s.back - s.front < n → Vec.fill M.toIter n (emb s) = .error .panic) ∧
    (n ≤ s.back - s.front → ∃ v, Vec.fill M.toIter n (emb s) = .ok (v, emb { s with front := s.front + n }) ∧
      v.toList = (all.drop s.front).take n) := by
  induction n generalizing s with
  | zero => exact ⟨fun h => by omega, fun _ => ⟨Vec.nil, rfl, by simp [Vec.nil]⟩⟩
  | succ n ih =>
    by_cases hlt : s.front < s.back
    · have h1 : M.toIter.next (emb s) = _ := hM.next_some s hlt hb
      obtain ⟨i1, i2⟩ := ih { s with front := s.front + 1 } hb
      dsimp only at i1 i2
      refine ⟨fun h => ?_, fun h => ?_⟩
      · simp only [Vec.fill, h1, res_ok_bind, i1 (by omega)]; rfl
      · obtain ⟨v, h2, h3⟩ := i2 (by omega)
        refine ⟨Vec.cons (all[s.front]'(by omega)) v, ?_, ?_⟩
        · simp only [Vec.fill, h1, res_ok_bind, h2, res_pure]
          rw [Nat.add_assoc, Nat.add_comm 1 n]
        · rw [Vec.cons_toList, h3, List.drop_eq_getElem_cons (by omega : s.front < all.length), List.take_succ_cons]
    · have h1 : M.toIter.next (emb s) = _ := hM.next_none s (by omega) hb
      refine ⟨fun h => ?_, fun h => by omega⟩
      simp only [Vec.fill, h1, res_ok_bind]; rfl

theorem collected (hM : IsCursor t all emb M) (hsz : all.length < t.W) {n : Nat} (hn : all.length = n) (own : Bool)
    (hcount : ∀ s : Cur, M.count (emb s) = usub t (if own then s.back else n) s.front) (h : List Move) (N : Nat) :
    Collected t all (frontAfter t.W h (run M (emb ⟨0, n⟩) h).1) (backAfter n h (run M (emb ⟨0, n⟩) h).1)
      (if own then backAfter n h (run M (emb ⟨0, n⟩) h).1 else n) N (Vec.fromIter t N M.toIter (run M (emb ⟨0, n⟩) h).2) := by
  obtain ⟨h1, h2, h3⟩ := run_place hM hsz hn h
  rw [h1]
  generalize frontAfter t.W h (run M (emb ⟨0, n⟩) h).1 = f at h2 ⊢
  generalize backAfter n h (run M (emb ⟨0, n⟩) h).1 = b at h3 ⊢
  obtain ⟨f1, f2⟩ := fill_any hM N ⟨f, b⟩ (by simp; omega)
  dsimp only at f1 f2
  have hcnt : M.toIter.count (emb ⟨f + N, b⟩) = usub t (if own then b else n) (f + N) := hcount _
  generalize he : (if own then b else n) = e at hcnt ⊢
  refine ⟨fun hN => ?_, fun hN hd hne => ?_, fun hN hd => ?_⟩
  · simp only [Vec.fromIter, f1 hN]; rfl
  · obtain ⟨v, g1, g2⟩ := f2 hN
    simp only [Vec.fromIter, g1, res_ok_bind, hd, if_true, hcnt, usub]
    by_cases h5 : f + N ≤ e
    · rw [if_pos h5, res_ok_bind, if_pos (by omega)]; rfl
    · rw [if_neg h5]
      by_cases h6 : t.overflowChecks = true
      · rw [if_pos h6]; rfl
      · rw [if_neg h6, res_ok_bind, if_pos (by
          by_cases h7 : N = 0
          · omega
          · have : f + N ≤ b := by omega
            omega)]
        rfl
  · obtain ⟨v, g1, g2⟩ := f2 hN
    refine ⟨v, ?_, g2⟩
    simp only [Vec.fromIter, g1, res_ok_bind, hcnt, usub]
    rcases hd with hd | hd
    · simp [hd]
    · simp [hd]
end cursor

/-- C113: collecting into a vector of any length, after every history in every build. -/
theorem C113_collect (t : Target) (a : Mat T r c) (hr : r < t.W) (hc : c < t.W) (h : List Move) (N : Nat) :
    (let o := run (RowsIter.machine t a.rows) (RowsIter.new a.rows) h
     Collected t (rowsOf a) (frontAfter t.W h o.1) (backAfter r h o.1) r N (Vec.fromIter t N (RowsIter.machine t a.rows).toIter o.2)) ∧
    (let o := run (ColsIter.machine t a.rows) (ColsIter.new a.rows) h
     Collected t (colsOf a) (frontAfter t.W h o.1) (backAfter c h o.1) c N (Vec.fromIter t N (ColsIter.machine t a.rows).toIter o.2)) ∧
    (let o := run (RowsIterRef.machine t a.rows) (RowsIterRef.new a.rows) h
     Collected t (rowsOf a) (frontAfter t.W h o.1) (backAfter r h o.1) (backAfter r h o.1) N
      (Vec.fromIter t N (RowsIterRef.machine t a.rows).toIter o.2)) ∧
    (let o := run (ColsIterRef.machine t a.rows) (ColsIterRef.new a.rows) h
     Collected t (colItersOf a) (frontAfter t.W h o.1) (backAfter c h o.1) (backAfter c h o.1) N
      (Vec.fromIter t N (ColsIterRef.machine t a.rows).toIter o.2)) ∧
    ∀ j : Fin c, let o := run (ColsIterRefInner.machine t a.rows) ⟨j, 0, r⟩ h
      Collected t (colOf a j) (frontAfter t.W h o.1) (backAfter r h o.1) (backAfter r h o.1) N
        (Vec.fromIter t N (ColsIterRefInner.machine t a.rows).toIter o.2) := by
  refine ⟨?_, ?_, ?_, ?_, fun j => ?_⟩
  · exact collected (rowsIter_cursor t a hr) (by simpa) (by simp) false (fun s => rfl) h N
  · exact collected (colsIter_cursor t a hc) (by simpa) (by simp) false (fun s => rfl) h N
  · exact collected (rowsIterRef_cursor t a hr) (by simpa) (by simp) true (fun s => rfl) h N
  · exact collected (colsIterRef_cursor t a hc) (by simpa) (by simp) true (fun s => rfl) h N
  · exact collected (inner_cursor t a hr j) (by simpa) (by simp) true (fun s => rfl) h N

/-- C113: exactly when `len()`, `size_hint()` and `count()` are right, i.e. equal to the number `b - p` (0 if negative) of items that are
left: for an iterator counting up to its own back, unless the front has skipped past the back; for one counting up to the end of the
matrix, only if nothing was taken from the back, or the front is exactly at the end. -/
theorem C113_len_right {α σ : Type} {t : Target} {M : Machine α σ} {s : σ} {items : List α} (own : Bool) (hE : Explained t M s items own)
    (hsz : items.length < t.W) (h : List Move) :
    let p := frontAfter t.W h (run M s h).1
    let b := backAfter items.length h (run M s h).1
    let right := if own then p ≤ b else p ≤ items.length ∧ (b = items.length ∨ p = items.length)
    (M.len (run M s h).2 = .ok (b - p) ↔ right) ∧ (M.count (run M s h).2 = .ok (b - p) ↔ right) ∧
    (M.sizeHint (run M s h).2 = .ok (b - p, some (b - p)) ↔ right) := by
  intro p b right
  have hA := hE h
  have hp : p < t.W := Nat.mod_lt _ (by omega)
  have hb : b ≤ items.length := Nat.sub_le _ _
  have key : difference t (if own then b else items.length) p = .ok (b - p) ↔ right := by
    simp only [difference, right]
    cases own
    · simp only [Bool.false_eq_true, if_false]
      split
      · simp only [Except.ok.injEq]; omega
      · split
        · simp; omega
        · simp only [Except.ok.injEq]; omega
    · simp only [if_true]
      split
      · simp; omega
      · split
        · simp; omega
        · simp only [Except.ok.injEq]; omega
  refine ⟨by rw [hA.len]; exact key, by rw [hA.count]; exact key, ?_⟩
  rw [hA.sizeHint, ← key]
  generalize difference t _ p = q
  cases q <;> simp [Except.map]

/-- C113: without overflow checks no iterator is exhausted for good: whatever was called before, as long as not all items were taken
from the back, some `nth` hands out the first item (again). -/
theorem C113_revived {α σ : Type} {t : Target} (ht : t.overflowChecks = false) {M : Machine α σ} {s : σ} {items : List α} {own : Bool}
    (hE : Explained t M s items own) (h : List Move) (hb : 0 < backAfter items.length h (run M s h).1) (hW : 0 < t.W) :
    ∃ n, n < t.W ∧ ∃ x, items[0]? = some x ∧ (step M (run M s h).2 (.nth n)).1 = .ok (some x) := by
  have hA := hE h
  have hp : frontAfter t.W h (run M s h).1 < t.W := Nat.mod_lt _ hW
  have hl : 0 < items.length := by simp only [backAfter] at hb; omega
  refine ⟨(t.W - frontAfter t.W h (run M s h).1) % t.W, Nat.mod_lt _ hW, items[0], List.getElem?_eq_getElem hl, ?_⟩
  rw [hA.nth, if_neg (by simp [ht]), Nat.add_mod_mod, Nat.add_sub_cancel' (by omega), Nat.mod_self, itemAt, if_pos hb, List.getElem?_eq_getElem hl]

/-- C113: whatever is handed out is one of the items: nothing is made up. -/
theorem C113_items {α σ : Type} {t : Target} {M : Machine α σ} {s : σ} {items : List α} {own : Bool} (hE : Explained t M s items own)
    (h : List Move) (m : Move) (x : α) (hx : (step M (run M s h).2 m).1 = .ok (some x)) : x ∈ items := by
  have hA := hE h
  cases m with
  | next =>
    rw [hA.next, itemAt] at hx
    split at hx
    · exact List.mem_of_getElem? (Except.ok.inj hx)
    · cases hx
  | nextBack =>
    rw [hA.nextBack] at hx
    split at hx
    · exact List.mem_of_getElem? (Except.ok.inj hx)
    · cases hx
  | nth n =>
    rw [hA.nth, itemAt] at hx
    split at hx
    · cases hx
    · split at hx
      · exact List.mem_of_getElem? (Except.ok.inj hx)
      · cases hx

namespace AnyHistory

deriving instance DecidableEq for Except
deriving instance DecidableEq for Vec

/-- A history with a skip past the end and one that wraps around: front at `(1 + 7 + (2^64 - 7) + 1) mod 2^64 = 2`, back at 2. -/
def wild : List Move := [.next, .nextBack, .nth 7, .nth (2 ^ 64 - 7), .next]

example : (run (RowsIterRef.machine release64 m32.rows) (RowsIterRef.new m32.rows) wild).1 =
    [.ok (some ⟨[1, 2], rfl⟩), .ok (some ⟨[5, 6], rfl⟩), .ok none, .ok (some ⟨[3, 4], rfl⟩), .ok none] := by decide +kernel
example : let o := run (RowsIterRef.machine release64 m32.rows) (RowsIterRef.new m32.rows) wild
    frontAfter release64.W wild o.1 = 2 ∧ backAfter 3 wild o.1 = 2 := by decide +kernel
example : (run (RowsIterRef.machine debug64 m32.rows) (RowsIterRef.new m32.rows) wild).1 =
    [.ok (some ⟨[1, 2], rfl⟩), .ok (some ⟨[5, 6], rfl⟩), .ok none, .error .panic, .ok none] := by decide +kernel
example : Explained release64 (RowsIterRef.machine release64 m32.rows) (RowsIterRef.new m32.rows) (rowsOf m32) true :=
  (C113_any_history release64 m32 (by decide) (by decide)).2.2.1

end AnyHistory
end Rowcol
