import Verif.Lemmas.OfFn
import Verif.Lemmas.Index

/-! The five borrowing iterators are cursors over a list of items. -/

namespace Rowcol

/-- `M` walks the list `all` with a front and a back cursor, exactly as the source does; `emb` says where the
cursors are stored. -/
structure IsCursor {α σ : Type} (t : Target) (all : List α) (emb : Cur → σ) (M : Machine α σ) : Prop where
  next_some : ∀ (s : Cur) (h : s.front < s.back) (hb : s.back ≤ all.length),
    M.next (emb s) = .ok (some (all[s.front]'(by omega)), emb { s with front := s.front + 1 })
  next_none : ∀ s : Cur, s.back ≤ s.front → s.back ≤ all.length → M.next (emb s) = .ok (none, emb s)
  back_some : ∀ (s : Cur) (h : s.front < s.back) (hb : s.back ≤ all.length),
    M.nextBack (emb s) = .ok (some (all[s.back - 1]'(by omega)), emb { s with back := s.back - 1 })
  back_none : ∀ s : Cur, s.back ≤ s.front → s.back ≤ all.length → M.nextBack (emb s) = .ok (none, emb s)
  nth : ∀ n (s : Cur), M.nth n (emb s) = (do
    let f ← uadd t s.front n
    M.next (emb { s with front := f }))
  last : ∀ s, M.last s = (do let p ← M.nextBack s; pure p.1)

theorem uadd_ok (t : Target) {a b : Nat} (h : a + b < t.W) : uadd t a b = .ok (a + b) := by simp [uadd, h]

theorem usub_ok (t : Target) {a b : Nat} (h : b ≤ a) : usub t a b = .ok (a - b) := by simp [usub, h]

namespace IsCursor
open Spec
variable {α σ : Type} {t : Target} {all : List α} {emb : Cur → σ} {M : Machine α σ}

/-- What is left between the cursors. -/
def left (all : List α) (s : Cur) : List α := (all.take s.back).drop s.front

theorem left_length (s : Cur) (hb : s.back ≤ all.length) : (left all s).length = s.back - s.front := by
  simp [left]; omega

theorem left_nil (s : Cur) (h : s.back ≤ s.front) : left all s = [] := by
  simp [left]; omega

theorem left_cons (s : Cur) (h : s.front < s.back) (hb : s.back ≤ all.length) :
    left all s = all[s.front]'(by omega) :: left all { s with front := s.front + 1 } := by
  have : s.front < (all.take s.back).length := by simp; omega
  rw [left, List.drop_eq_getElem_cons this]
  simp [left]

theorem left_snoc (s : Cur) (h : s.front < s.back) (hb : s.back ≤ all.length) :
    left all s = left all { s with back := s.back - 1 } ++ [all[s.back - 1]'(by omega)] := by
  have h1 : all.take s.back = all.take (s.back - 1) ++ [all[s.back - 1]'(by omega)] := by
    have : s.back = (s.back - 1) + 1 := by omega
    conv => lhs; rw [this]
    exact List.take_succ_eq_append_getElem (by omega)
  simp only [left]
  rw [h1, List.drop_append_of_le_length (by simp; omega)]

theorem left_drop (s : Cur) (n : Nat) : (left all s).drop n = left all { s with front := s.front + n } := by
  simp [left]

/-- One call, when the front cursor does not overflow. -/
theorem step_eq (h : IsCursor t all emb M) (c : Move) (s : Cur) (hb : s.back ≤ all.length)
    (hW : ∀ n, c = .nth n → s.front + n < t.W) :
    ∃ s', step M (emb s) c = (.ok (dequeStep (left all s) c).1, emb s') ∧
      (dequeStep (left all s) c).2 = left all s' ∧ s'.back ≤ all.length ∧
      (s'.front ≤ s.front + skips [c] ∨ s'.front ≤ s.back) ∧
      ((∀ n, c = .nth n → n ≤ (left all s).length) → s.front ≤ s.back → s'.front ≤ s'.back) ∧
      s'.back + (backTaken (left all s) [c]) = s.back := by
  have hnext : ∀ s : Cur, s.back ≤ all.length → ∃ s', M.next (emb s) = .ok ((left all s).head?, emb s') ∧
      (left all s).tail = left all s' ∧ s'.back = s.back ∧
      (s.front < s.back → s'.front = s.front + 1) ∧ (s.back ≤ s.front → s'.front = s.front) := by
    intro s hb
    by_cases hlt : s.front < s.back
    · refine ⟨{ s with front := s.front + 1 }, h.next_some s hlt hb |>.trans ?_, ?_, rfl, fun _ => rfl, ?_⟩
      · rw [left_cons s hlt hb]; rfl
      · rw [left_cons s hlt hb]; rfl
      · intro h; omega
    · rw [left_nil s (by omega)]
      exact ⟨s, h.next_none s (by omega) hb, by rw [left_nil s (by omega)]; rfl, rfl, by omega, fun _ => rfl⟩
  cases c with
  | next =>
    obtain ⟨s', h1, h2, h3, h4, h5⟩ := hnext s hb
    refine ⟨s', by simp [step, h1, dequeStep], by simpa [dequeStep] using h2, by omega, ?_, ?_, ?_⟩
    · by_cases hlt : s.front < s.back
      · rw [h4 hlt]; omega
      · rw [h5 (by omega)]; omega
    · intro _ hle
      by_cases hlt : s.front < s.back
      · rw [h4 hlt]; omega
      · rw [h5 (by omega)]; omega
    · simp [backTaken, h3]
  | nextBack =>
    by_cases hlt : s.front < s.back
    · refine ⟨{ s with back := s.back - 1 }, ?_, ?_, by simp; omega, by simp,
        by simp; omega, ?_⟩
      · simp [step, h.back_some s hlt hb, dequeStep, left_snoc s hlt hb]
      · simp [dequeStep, left_snoc s hlt hb]
      · have : left all s ≠ [] := by rw [left_snoc s hlt hb]; simp
        simp [backTaken, this]; omega
    · refine ⟨s, ?_, ?_, hb, by simp, by simp, ?_⟩
      · simp [step, h.back_none s (by omega) hb, dequeStep, left_nil s (by omega)]
      · simp [dequeStep, left_nil s (by omega)]
      · simp [backTaken, left_nil s (by omega)]
  | nth n =>
    obtain ⟨s', h1, h2, h3, h4, h5⟩ := hnext { s with front := s.front + n } hb
    have hn : M.nth n (emb s) = .ok ((left all { s with front := s.front + n }).head?, emb s') := by
      rw [h.nth, uadd_ok t (hW n rfl)]; simpa using h1
    simp only at h3 h4 h5
    refine ⟨s', ?_, ?_, by omega, ?_, ?_, ?_⟩
    · simp [step, hn, dequeStep, ← left_drop]
    · simp only [dequeStep]; rw [← h2, ← left_drop, List.tail_drop]
    · simp only [skips]
      by_cases hlt : s.front + n < s.back
      · rw [h4 hlt]; omega
      · rw [h5 (by omega)]; omega
    · intro hq hle
      have hq := hq n rfl
      rw [left_length s hb] at hq
      by_cases hlt : s.front + n < s.back
      · rw [h4 hlt]; omega
      · rw [h5 (by omega)]; omega
    · simp [backTaken, h3]

theorem backTaken_cons (q : List α) (c : Move) (h : List Move) :
    backTaken q (c :: h) = backTaken q [c] + backTaken (dequeStep q c).2 h := by
  cases c <;> simp [backTaken, dequeStep]

theorem skips_cons (c : Move) (h : List Move) : skips (c :: h) = skips [c] + skips h := by
  cases c <;> simp [skips]

/-- Histories whose skips cannot overflow `usize`. -/
theorem run_eq (hM : IsCursor t all emb M) (h : List Move) (s : Cur) (hb : s.back ≤ all.length)
    (B : Nat) (hB : s.front ≤ B ∧ all.length ≤ B) (hW : B + skips h < t.W) :
    ∃ s', run M (emb s) h = ((dequeRun (left all s) h).1.map .ok, emb s') ∧
      (dequeRun (left all s) h).2 = left all s' ∧ s'.back ≤ all.length ∧
      (InRange (left all s) h → s.front ≤ s.back → s'.front ≤ s'.back) ∧
      s'.back + backTaken (left all s) h = s.back := by
  induction h generalizing s B with
  | nil => exact ⟨s, by simp [run, dequeRun], by simp [dequeRun], hb, by simp, by simp [backTaken]⟩
  | cons c h ih =>
    rw [skips_cons] at hW
    obtain ⟨s1, h1, h2, h3, h4, h5, h6⟩ := hM.step_eq c s hb (by
      rintro n rfl; simp [skips] at hW; omega)
    obtain ⟨s2, g1, g2, g3, g4, g5⟩ := ih s1 h3 (B + skips [c]) (by omega) (by omega)
    refine ⟨s2, ?_, ?_, g3, ?_, ?_⟩
    · simp [run, dequeRun, h1, h2, g1]
    · simp [dequeRun, h2, g2]
    · rintro ⟨hin, hrest⟩ hle
      rw [h2] at hrest
      exact g4 hrest (h5 hin hle)
    · rw [backTaken_cons, h2]; omega

/-- Histories that never skip past the end. -/
theorem run_inRange (hM : IsCursor t all emb M) (hsz : all.length < t.W) (h : List Move) (s : Cur)
    (hb : s.back ≤ all.length) (hle : s.front ≤ s.back) (hin : InRange (left all s) h) :
    ∃ s', run M (emb s) h = ((dequeRun (left all s) h).1.map .ok, emb s') ∧
      (dequeRun (left all s) h).2 = left all s' ∧ s'.back ≤ all.length ∧ s'.front ≤ s'.back ∧
      s'.back + backTaken (left all s) h = s.back := by
  induction h generalizing s with
  | nil => exact ⟨s, by simp [run, dequeRun], by simp [dequeRun], hb, hle, by simp [backTaken]⟩
  | cons c h ih =>
    obtain ⟨hin1, hin2⟩ := hin
    obtain ⟨s1, h1, h2, h3, -, h5, h6⟩ := hM.step_eq c s hb (by
      rintro n rfl
      have := hin1 n rfl
      rw [left_length s hb] at this
      omega)
    rw [h2] at hin2
    obtain ⟨s2, g1, g2, g3, g4, g5⟩ := ih s1 h3 (h5 hin1 hle) hin2
    refine ⟨s2, ?_, ?_, g3, g4, ?_⟩
    · simp [run, dequeRun, h1, h2, g1]
    · simp [dequeRun, h2, g2]
    · rw [backTaken_cons, h2]; omega

/-- With overflow checks: any history whatsoever. -/
theorem run_agree (hM : IsCursor t all emb M) (ht : t.overflowChecks = true) (hsz : all.length < t.W)
    (h : List Move) (s : Cur) (hb : s.back ≤ all.length) (hf : s.front < t.W) :
    Agree (left all s) h (run M (emb s) h).1 := by
  induction h generalizing s with
  | nil => exact .nil _
  | cons c h ih =>
    by_cases hp : ∃ n, c = .nth n ∧ t.W ≤ s.front + n
    · obtain ⟨n, rfl, hn⟩ := hp
      have h1 : M.nth n (emb s) = .error .panic := by
        rw [hM.nth, uadd, if_neg (by omega), if_pos ht]; rfl
      have h2 : step M (emb s) (.nth n) = (.error .panic, emb s) := by simp [step, h1]
      simp only [run, h2]
      refine .panic ?_ (ih s hb hf)
      rw [left_length s hb]; omega
    · obtain ⟨s1, h1, h2, h3, h4, -, -⟩ := hM.step_eq c s hb (by
        rintro n rfl
        exact Nat.lt_of_not_le fun h => hp ⟨n, rfl, h⟩)
      simp only [run, h1]
      refine .ok ?_
      rw [h2]
      refine ih s1 h3 ?_
      cases c with
      | nth n =>
        have := Nat.lt_of_not_le fun h => hp ⟨n, rfl, h⟩
        simp [skips] at h4; omega
      | _ => simp [skips] at h4; omega

/-- Every call of every history leaves the back cursor in range and returns an item, `None` or panics: it never
performs an invalid access. -/
theorem step_safe (hM : IsCursor t all emb M) (c : Move) (s : Cur) (hb : s.back ≤ all.length) :
    ∃ s', (step M (emb s) c).2 = emb s' ∧ s'.back ≤ all.length ∧ (step M (emb s) c).1 ≠ .error .ub ∧
      ((step M (emb s) c).1 = .error .panic →
        t.overflowChecks = true ∧ ∃ n, c = .nth n ∧ t.W ≤ s.front + n ∧ s' = s) := by
  have hnext : ∀ s : Cur, s.back ≤ all.length → ∃ s' o, M.next (emb s) = .ok (o, emb s') ∧ s'.back ≤ all.length := by
    intro s hb
    by_cases hlt : s.front < s.back
    · exact ⟨_, _, h_some hM s hlt hb, hb⟩
    · exact ⟨_, _, hM.next_none s (by omega) hb, hb⟩
  cases c with
  | next =>
    obtain ⟨s', o, h1, h2⟩ := hnext s hb
    exact ⟨s', by simp [step, h1], h2, by simp [step, h1], by simp [step, h1]⟩
  | nextBack =>
    by_cases hlt : s.front < s.back
    · have := hM.back_some s hlt hb
      exact ⟨{ s with back := s.back - 1 }, by simp only [step, this], by simp; omega, by simp [step, this],
        by simp [step, this]⟩
    · have := hM.back_none s (by omega) hb
      exact ⟨s, by simp [step, this], hb, by simp [step, this], by simp [step, this]⟩
  | nth n =>
    have hn := hM.nth n s
    unfold uadd at hn
    by_cases h1 : s.front + n < t.W
    · obtain ⟨s', o, h2, h3⟩ := hnext { s with front := s.front + n } hb
      simp [h1, h2] at hn
      exact ⟨s', by simp [step, hn], h3, by simp [step, hn], by simp [step, hn]⟩
    · by_cases h4 : t.overflowChecks = true
      · simp [h1, h4] at hn
        exact ⟨s, by simp [step, hn], hb, by simp [step, hn], fun _ => ⟨h4, n, rfl, by omega, rfl⟩⟩
      · obtain ⟨s', o, h2, h3⟩ := hnext { s with front := (s.front + n) % t.W } hb
        simp [h1, h4, h2] at hn
        exact ⟨s', by simp [step, hn], h3, by simp [step, hn], by simp [step, hn]⟩
where
  h_some (hM : IsCursor t all emb M) (s : Cur) (hlt : s.front < s.back) (hb : s.back ≤ all.length) :=
    hM.next_some s hlt hb

theorem run_safe (hM : IsCursor t all emb M) (h : List Move) (s : Cur) (hb : s.back ≤ all.length) :
    ∃ s', (run M (emb s) h).2 = emb s' ∧ s'.back ≤ all.length ∧ ∀ o ∈ (run M (emb s) h).1, o ≠ .error .ub := by
  induction h generalizing s with
  | nil => exact ⟨s, rfl, hb, by simp [run]⟩
  | cons c h ih =>
    obtain ⟨s1, h1, h2, h3, -⟩ := hM.step_safe c s hb
    obtain ⟨s2, g1, g2, g3⟩ := ih s1 h2
    refine ⟨s2, by simp [run, h1, g1], g2, ?_⟩
    simp only [run, List.mem_cons, h1]
    rintro o (rfl | ho)
    · exact h3
    · exact g3 o ho

/-- Running `next` to the end. -/
theorem drain_eq (hM : IsCursor t all emb M) (s : Cur) (fuel : Nat) (hb : s.back ≤ all.length)
    (hf : s.back - s.front < fuel) : M.toIter.drain fuel (emb s) = .ok (left all s) := by
  induction fuel generalizing s with
  | zero => omega
  | succ fuel ih =>
    by_cases hlt : s.front < s.back
    · have h1 : M.toIter.next (emb s) = _ := hM.next_some s hlt hb
      have h2 := ih { s with front := s.front + 1 } hb (by simp; omega)
      simp only [Iter.drain, h1, res_ok_bind, h2, res_pure]
      rw [← left_cons s hlt hb]
    · have h1 : M.toIter.next (emb s) = _ := hM.next_none s (by omega) hb
      simp only [Iter.drain, h1, res_ok_bind, res_pure, left_nil s (by omega : s.back ≤ s.front)]

theorem fill_eq (hM : IsCursor t all emb M) (n : Nat) (s : Cur) (hb : s.back ≤ all.length)
    (hle : s.front ≤ s.back) (hn : n = s.back - s.front) (hl : (left all s).length = n) :
    Vec.fill M.toIter n (emb s) = .ok (⟨left all s, hl⟩, emb { s with front := s.back }) := by
  induction n generalizing s with
  | zero =>
    have : s.front = s.back := by omega
    have h2 : left all s = [] := left_nil s (by omega)
    simp only [Vec.fill, Vec.nil, h2, res_pure]
    rw [← this]
    obtain ⟨f, b⟩ := s
    simp at this; subst this; rfl
  | succ n ih =>
    have hlt : s.front < s.back := by omega
    have h1 : M.toIter.next (emb s) = _ := hM.next_some s hlt hb
    have hl' : (left all { s with front := s.front + 1 }).length = n := by
      rw [left_length (all := all) { s with front := s.front + 1 } hb]; simp; omega
    have h2 := ih { s with front := s.front + 1 } hb (by simp; omega) (by simp; omega) hl'
    simp only [Vec.fill, h1, res_ok_bind, h2, res_pure]
    congr 2
    apply Vec.ext
    simp only [Vec.cons_toList]
    exact (left_cons s hlt hb).symm

end IsCursor

/-! ### The five iterators -/

variable {T : Type} {r c : Nat}

/-- Column `j` of the rows. -/
def colList (mat : Vec (Vec T c) r) (j : Fin c) : List T := mat.toList.map fun row => row.get j

def colVec (mat : Vec (Vec T c) r) (j : Fin c) : Vec T r := ⟨colList mat j, by simp [colList, mat.length_eq]⟩

theorem ColsIter.column_ok (t : Target) (mat : Vec (Vec T c) r) {s : Nat} (h : s < c) :
    ColsIter.column t mat s = .ok (colVec mat ⟨s, h⟩) := by
  unfold column
  rw [Vec.collect_map_ok t r mat.toList _ (fun row => row.get ⟨s, h⟩) mat.length_eq]
  · rfl
  · intro x _; simp [Vec.getElem_toList x s h]

theorem RowsIter.isCursor (t : Target) (mat : Vec (Vec T c) r) (hr : r < t.W) :
    IsCursor t mat.toList id (RowsIter.machine t mat) where
  next_some s h hb := by
    rw [mat.length_eq] at hb
    simp [machine, next, h, Vec.index_ok mat (show s.front < r by omega), uadd_ok t (show s.front + 1 < t.W by omega),
      Vec.get]
  next_none s h hb := by simp [machine, next, Nat.not_lt.2 h]
  back_some s h hb := by
    rw [mat.length_eq] at hb
    simp [machine, nextBack, h, Vec.index_ok mat (show s.back - 1 < r by omega), usub_ok t (show 1 ≤ s.back by omega),
      Vec.get]
  back_none s h hb := by simp [machine, nextBack, Nat.not_lt.2 h]
  nth n s := rfl
  last s := rfl

theorem ColsIter.isCursor (t : Target) (mat : Vec (Vec T c) r) (hc : c < t.W) :
    IsCursor t ((List.finRange c).map (colVec mat)) id (ColsIter.machine t mat) where
  next_some s h hb := by
    simp at hb
    simp [machine, next, h, hb, ColsIter.column_ok t mat (show s.front < c by omega),
      uadd_ok t (show s.front + 1 < t.W by omega)]
  next_none s h hb := by simp at hb; simp [machine, next, Nat.not_lt.2 h, hb]
  back_some s h hb := by
    simp at hb
    simp [machine, nextBack, h, ColsIter.column_ok t mat (show s.back - 1 < c by omega),
      usub_ok t (show 1 ≤ s.back by omega)]
  back_none s h hb := by simp [machine, nextBack, Nat.not_lt.2 h]
  nth n s := rfl
  last s := rfl

theorem RowsIterRef.isCursor (t : Target) (mat : Vec (Vec T c) r) (hr : r < t.W) :
    IsCursor t mat.toList id (RowsIterRef.machine t mat) where
  next_some s h hb := by
    rw [mat.length_eq] at hb
    simp [machine, next, h, hb, Vec.getUnchecked_ok t mat (show s.front < r by omega),
      uadd_ok t (show s.front + 1 < t.W by omega), Vec.get]
  next_none s h hb := by rw [mat.length_eq] at hb; simp [machine, next, Nat.not_lt.2 h, hb]
  back_some s h hb := by
    rw [mat.length_eq] at hb
    simp [machine, nextBack, h, hb, Vec.getUnchecked_ok t mat (show s.back - 1 < r by omega),
      usub_ok t (show 1 ≤ s.back by omega), Vec.get]
  back_none s h hb := by rw [mat.length_eq] at hb; simp [machine, nextBack, Nat.not_lt.2 h, hb]
  nth n s := rfl
  last s := rfl

theorem ColsIterRefInner.isCursor (t : Target) (mat : Vec (Vec T c) r) (hr : r < t.W) (j : Fin c) :
    IsCursor t (colList mat j) (fun s => ⟨j, s.front, s.back⟩) (ColsIterRefInner.machine t mat) where
  next_some s h hb := by
    simp only [colList, List.length_map, mat.length_eq] at hb
    simp [machine, next, h, Vec.getUnchecked_ok t mat (show s.front < r by omega), Vec.getUnchecked_ok t _ j.isLt,
      uadd_ok t (show s.front + 1 < t.W by omega), Vec.get, colList]
  next_none s h hb := by simp [machine, next, Nat.not_lt.2 h]
  back_some s h hb := by
    simp only [colList, List.length_map, mat.length_eq] at hb
    simp [machine, nextBack, h, Vec.getUnchecked_ok t mat (show s.back - 1 < r by omega), Vec.getUnchecked_ok t _ j.isLt,
      usub_ok t (show 1 ≤ s.back by omega), Vec.get, colList]
  back_none s h hb := by simp [machine, nextBack, Nat.not_lt.2 h]
  nth n s := rfl
  last s := rfl

theorem ColsIterRef.isCursor (t : Target) (mat : Vec (Vec T c) r) (hc : c < t.W) :
    IsCursor t ((List.range c).map fun j => (⟨j, 0, r⟩ : InnerCur)) id (ColsIterRef.machine t mat) where
  next_some s h hb := by
    simp at hb
    simp [machine, next, h, hb, ColsIterRefInner.new, show s.front < c by omega, 
      uadd_ok t (show s.front + 1 < t.W by omega)]
  next_none s h hb := by simp at hb; simp [machine, next, Nat.not_lt.2 h, hb]
  back_some s h hb := by
    simp at hb
    simp [machine, nextBack, h, hb, ColsIterRefInner.new, show s.back - 1 < c by omega,
      usub_ok t (show 1 ≤ s.back by omega)]
  back_none s h hb := by simp at hb; simp [machine, nextBack, Nat.not_lt.2 h, hb]
  nth n s := rfl
  last s := rfl

end Rowcol
