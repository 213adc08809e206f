import Verif.Lemmas.Index

/-! # C13, C14, C15, C35: indexing and construction -/

namespace Rowcol
variable {T : Type} {n r c : Nat}

/-- C13: `v[i]` is the `i`-th element when `i < n` and panics otherwise. -/
theorem C13_vec_index (v : Vec T n) (i : Nat) :
    v.index i = if h : i < n then .ok (v.get ⟨i, h⟩) else .error .panic := by
  split
  · exact Vec.index_ok v ‹_›
  · exact Vec.index_panic v (Nat.not_lt.1 ‹_›)

example : (⟨[1, 2, 3], rfl⟩ : Vec Nat 3).index 2 = .ok 3 ∧
    (⟨[1, 2, 3], rfl⟩ : Vec Nat 3).index 3 = .error .panic := ⟨rfl, rfl⟩

/-- C14: `m[(i, j)]` is row `i`, column `j` when in range, panics otherwise, never an invalid access. -/
theorem C14_mat_index (a : Mat T r c) (i j : Nat) :
    a.index (i, j) = if h : i < r ∧ j < c then .ok (a.get ⟨i, h.1⟩ ⟨j, h.2⟩) else .error .panic := by
  split
  · rename_i h; exact Mat.index_ok a h.1 h.2
  · rename_i h; exact Mat.index_panic a (by omega)

example : (⟨⟨[⟨[1, 2], rfl⟩, ⟨[3, 4], rfl⟩], rfl⟩⟩ : Mat Nat 2 2).index (1, 0) = .ok 3 := rfl

/-- C15 for vectors, in range: after `v[i] = x`, reading `k` gives `x` for `k = i` and the old element otherwise. -/
theorem C15_vec_set (v : Vec T n) (i : Nat) (hi : i < n) (x : T) :
    ∃ w : Vec T n, v.indexSet i x = .ok w ∧ w.index i = .ok x ∧ ∀ k, k ≠ i → w.index k = v.index k := by
  refine ⟨v.put i x, Vec.indexSet_ok v hi x, ?_, ?_⟩
  · rw [Vec.index_ok _ hi, Vec.get_put]; simp
  · intro k hk
    by_cases h : k < n
    · rw [Vec.index_ok _ h, Vec.index_ok _ h, Vec.get_put]; simp [hk]
    · rw [Vec.index_panic _ (Nat.not_lt.1 h), Vec.index_panic _ (Nat.not_lt.1 h)]

/-- C15 for vectors, out of range: the assignment panics (the model has no new value: `v` stays). -/
theorem C15_vec_set_panic (v : Vec T n) (i : Nat) (hi : n ≤ i) (x : T) : v.indexSet i x = .error .panic :=
  Vec.indexSet_panic v hi x

/-- C15 for matrices, in range. -/
theorem C15_mat_set (a : Mat T r c) (i j : Nat) (hi : i < r) (hj : j < c) (x : T) :
    ∃ b : Mat T r c, a.indexSet (i, j) x = .ok b ∧ b.index (i, j) = .ok x ∧
      ∀ p, p ≠ (i, j) → b.index p = a.index p := by
  refine ⟨a.put i j x, Mat.indexSet_ok a hi hj x, ?_, ?_⟩
  · rw [Mat.index_ok _ hi hj, Mat.get_put _ hi]; simp
  · rintro ⟨k, l⟩ hp
    rw [C14_mat_index, C14_mat_index]
    split
    · rw [Mat.get_put _ hi]
      have : ¬ (k = i ∧ l = j) := fun h => hp (by rw [h.1, h.2])
      simp [this]
    · rfl

/-- C15 for matrices, out of range. -/
theorem C15_mat_set_panic (a : Mat T r c) (i j : Nat) (h : r ≤ i ∨ c ≤ j) (x : T) :
    a.indexSet (i, j) x = .error .panic :=
  Mat.indexSet_panic a h x

example : (⟨⟨[⟨[1, 2], rfl⟩, ⟨[3, 4], rfl⟩], rfl⟩⟩ : Mat Nat 2 2).indexSet (1, 0) 9 =
    .ok ⟨⟨[⟨[1, 2], rfl⟩, ⟨[9, 4], rfl⟩], rfl⟩⟩ := rfl

/-! ## Unchecked access -/

/-- C13: the unsafe `v.get_unchecked(i)` agrees with `v[i]` in range, in every build; out of range it panics with debug assertions and
is an invalid access without them. -/
theorem C13_get_unchecked (t : Target) (v : Vec T n) (i : Nat) :
    (i < n → v.getUnchecked t i = v.index i) ∧
    (n ≤ i → v.getUnchecked t i = .error (if t.debugAssertions then .panic else .ub)) := by
  refine ⟨fun h => by rw [Vec.getUnchecked_ok t v h, Vec.index_ok v h], fun h => ?_⟩
  have h1 : ¬ i < n := by omega
  have h2 : v.toList[i]? = none := by simp [v.length_eq, h]
  unfold Vec.getUnchecked debugAssert
  rw [h2]
  cases t.debugAssertions <;> simp [Vec.len, h1] <;> rfl

/-- C14: the unsafe `m.get_unchecked((i, j))` likewise. -/
theorem C14_get_unchecked (t : Target) (a : Mat T r c) (i j : Nat) :
    (i < r ∧ j < c → a.getUnchecked t (i, j) = a.index (i, j)) ∧
    (¬ (i < r ∧ j < c) → a.getUnchecked t (i, j) = .error (if t.debugAssertions then .panic else .ub)) := by
  refine ⟨fun h => by rw [Mat.getUnchecked_ok t a h.1 h.2, Mat.index_ok a h.1 h.2], fun h => ?_⟩
  unfold Mat.getUnchecked
  by_cases hi : i < r
  · have hj : c ≤ j := by omega
    rw [Vec.getUnchecked_ok t _ hi]
    have := (C13_get_unchecked t (a.rows.get ⟨i, hi⟩) j).2 hj
    unfold debugAssert
    cases ht : t.debugAssertions <;> simp [hi, Nat.not_lt.2 hj]
    · rw [ht] at this; exact this
  · have := (C13_get_unchecked t a.rows i).2 (by omega)
    rw [this]
    unfold debugAssert
    cases ht : t.debugAssertions <;> by_cases hj : j < c <;> simp [hi, hj] <;> rfl

/-- C15: writing through the unsafe `get_unchecked_mut` is the indexed assignment in range; out of range it panics with debug assertions
and is an invalid access without them. -/
theorem C15_set_unchecked (t : Target) (v : Vec T n) (a : Mat T r c) (i j : Nat) (x : T) :
    (i < n → v.setUnchecked t i x = v.indexSet i x) ∧
    (n ≤ i → v.setUnchecked t i x = .error (if t.debugAssertions then .panic else .ub)) ∧
    (i < r ∧ j < c → a.setUnchecked t (i, j) x = a.indexSet (i, j) x) ∧
    (¬ (i < r ∧ j < c) → a.setUnchecked t (i, j) x = .error (if t.debugAssertions then .panic else .ub)) := by
  have hv : ∀ {n : Nat} (v : Vec T n) (i : Nat), n ≤ i →
      v.setUnchecked t i x = .error (if t.debugAssertions then .panic else .ub) := by
    intro n v i h
    have h1 : ¬ i < n := by omega
    unfold Vec.setUnchecked debugAssert
    rw [v.length_eq]
    cases t.debugAssertions <;> simp [Vec.len, h1] <;> rfl
  refine ⟨fun h => by rw [Vec.setUnchecked_ok t v h, Vec.indexSet_ok v h], hv v i,
    fun h => by rw [Mat.setUnchecked_ok t a h.1 h.2, Mat.indexSet_ok a h.1 h.2], fun h => ?_⟩
  unfold Mat.setUnchecked
  by_cases hi : i < r
  · have hj : c ≤ j := by omega
    rw [Vec.getUnchecked_ok t _ hi]
    have := hv (a.rows.get ⟨i, hi⟩) j hj
    unfold debugAssert
    cases ht : t.debugAssertions <;> simp [hi, Nat.not_lt.2 hj]
    · rw [ht] at this; rw [this]; rfl
  · have := (C13_get_unchecked t a.rows i).2 (by omega)
    rw [this]
    unfold debugAssert
    cases ht : t.debugAssertions <;> by_cases hj : j < c <;> simp [hi, hj] <;> rfl

example : (⟨[1, 2, 3], rfl⟩ : Vec Nat 3).getUnchecked ⟨true, true, 2 ^ 64⟩ 3 = .error .panic ∧
    (⟨[1, 2, 3], rfl⟩ : Vec Nat 3).getUnchecked ⟨false, true, 2 ^ 64⟩ 3 = .error .ub ∧
    (⟨[1, 2, 3], rfl⟩ : Vec Nat 3).setUnchecked ⟨false, true, 2 ^ 64⟩ 1 9 = .ok ⟨[1, 9, 3], rfl⟩ := ⟨rfl, rfl, rfl⟩

/-- C35: `Matrix::new` succeeds and entry `(i, j)` is the `j`-th entry of the `i`-th given row; the reported
dimensions are `(r, c)`. -/
theorem C35_new (t : Target) (rows : Vec (Vec T c) r) :
    ∃ a : Mat T r c, Mat.new t rows = .ok a ∧ (∀ i j, a.get i j = (rows.get i).get j) ∧
      a.dim = (r, c) ∧ a.nrows = r ∧ a.ncols = c := by
  refine ⟨⟨rows⟩, ?_, fun _ _ => rfl, rfl, rfl, rfl⟩
  unfold Mat.new
  rw [Vec.collect_pure t r rows.toList rows.length_eq]
  rfl

example : Mat.new ⟨true, true, 2 ^ 64⟩ (⟨[⟨[1, 2, 3], rfl⟩, ⟨[4, 5, 6], rfl⟩], rfl⟩ : Vec (Vec Nat 3) 2) =
    .ok ⟨⟨[⟨[1, 2, 3], rfl⟩, ⟨[4, 5, 6], rfl⟩], rfl⟩⟩ := rfl

/-- C35, vectors: `Vector::new(xs)` holds the array: `into_inner` gives it back, `as_slice` shows it, `v[i]` is `xs[i]`; `len` is
its length, and `is_empty` holds exactly if there is no index that can be read.  Writing through `as_slice_mut` is seen by all
of them. -/
theorem C35_vector {n : Nat} (xs : List T) (h : xs.length = n) (body : List T → List T) (hb : (body xs).length = xs.length) :
    (Vec.new xs h).intoInner = xs ∧ (Vec.new xs h).asSlice = xs ∧ (Vec.new xs h).len = xs.length ∧
    ((Vec.new xs h).isEmpty = true ↔ ∀ i, (Vec.new xs h).index i = .error .panic) ∧
    (∀ i x, (Vec.new xs h).index i = .ok x ↔ xs[i]? = some x) ∧
    (∀ v : Vec T n, ∃ h', Vec.new v.intoInner h' = v) ∧
    (Vec.new xs h).asSliceMut body hb = Vec.new (body xs) (hb.trans h) := by
  have hi : ∀ i x, (Vec.new xs h).index i = .ok x ↔ xs[i]? = some x := by
    intro i x
    unfold Vec.index Vec.new
    cases xs[i]? <;> simp
  refine ⟨rfl, rfl, h.symm, ?_, hi, fun v => ⟨v.length_eq, rfl⟩, rfl⟩
  subst h
  constructor
  · intro h0 i
    have h0 : xs.length = 0 := by simpa [Vec.isEmpty] using h0
    cases List.eq_nil_of_length_eq_zero h0
    rfl
  · intro h0
    cases xs with
    | nil => rfl
    | cons x xs => cases h0 0

example : (Vec.new [4, 5, 6] rfl : Vec Nat 3).index 2 = .ok 6 ∧ (Vec.new [4, 5, 6] rfl : Vec Nat 3).isEmpty = false ∧
    ((Vec.new [4, 5, 6] rfl : Vec Nat 3).asSliceMut List.reverse rfl).index 0 = .ok 6 := ⟨rfl, rfl, rfl⟩

end Rowcol
