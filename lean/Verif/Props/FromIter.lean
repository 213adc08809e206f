import Verif.Lemmas.Mem
import Mathlib.Data.List.Basic

/-! # C01-C05, memory level: what `from_iter` does with the array and the destructors at every crash point

`fromIterMem t boom n src` collects the source `src` (items, possibly a panic of the user's `next()`) into an
uninitialised array of `n` slots.  `drops` logs destructor calls in order, `viols` every invalid access, `slots` is the
array at the end. -/

namespace Rowcol

variable {T : Type}

/-- `k` initialised slots `xs`, the rest uninitialised. -/
def filled (n : Nat) (xs : List T) : List (Slot T) := xs.map .live ++ List.replicate (n - xs.length) .uninit

theorem fillMem_items (t : Target) (boom : T → Bool) (n : Nat) (xs ys : List T) (k : Nat) (rest : List (SrcStep T))
    (D : List T) (V : List Viol) (h : xs.length ≤ k) :
    (Mem.fillMem t boom n ys.length k (xs.map .item ++ rest)).run ⟨ys.map .live ++ List.replicate k .uninit, D, V⟩ =
      (Mem.fillMem t boom n (ys.length + xs.length) (k - xs.length) rest).run
        ⟨(ys ++ xs).map .live ++ List.replicate (k - xs.length) .uninit, D, V⟩ := by
  induction xs generalizing ys k with
  | nil => simp
  | cons x xs ih =>
    obtain ⟨k, rfl⟩ : ∃ j, k = j + 1 := ⟨k - 1, by simp at h; omega⟩
    rw [List.map_cons, List.cons_append, Mem.fillMem]
    have hw : (Mem.write ys.length x).run ⟨ys.map .live ++ List.replicate (k + 1) .uninit, D, V⟩ =
        (.ok (), ⟨(ys ++ [x]).map .live ++ List.replicate k .uninit, D, V⟩) := by
      unfold Mem.write
      rw [StM.run_bind_ok (StM.run_get _)]
      simp only
      rw [if_pos (by simp), StM.run_set]
      congr 2
      simp [List.replicate_succ]
    rw [StM.run_bind_ok hw]
    have := ih (ys ++ [x]) k (by simpa using h)
    simp only [List.length_append, List.length_cons, List.length_nil, Nat.zero_add, List.append_assoc,
      List.singleton_append] at this
    rw [this]
    simp only [List.length_cons, Nat.add_sub_add_right]
    rw [show ys.length + 1 + xs.length = ys.length + (xs.length + 1) by omega]

theorem fromIterMem_items (t : Target) (boom : T → Bool) (n : Nat) (xs : List T) (rest : List (SrcStep T))
    (h : xs.length ≤ n) :
    Mem.fromIterMem t boom n (xs.map .item ++ rest) =
      (Mem.fillMem t boom n xs.length (n - xs.length) rest).run ⟨filled n xs, [], []⟩ := by
  have := fillMem_items t boom n xs [] n rest [] [] h
  simpa [Mem.fromIterMem, filled] using this

theorem countSrc_items (boom : T → Bool) (xs : List T) (s : Mem T) (hb : ∀ x ∈ xs, boom x = false) :
    (Mem.countSrc boom (xs.map .item)).run s = (.ok xs.length, { s with drops := s.drops ++ xs }) := by
  induction xs generalizing s with
  | nil => simp [Mem.countSrc]
  | cons x xs ih =>
    rw [List.map_cons, Mem.countSrc, StM.run_bind_ok (StM.run_get _), StM.run_bind_ok (StM.run_set _ _),
      if_neg (by simp [hb x]), StM.run_bind_ok (ih _ (fun y hy => hb y (by simp [hy])))]
    simp

theorem countSrc_panic (boom : T → Bool) (xs : List T) (rest : List (SrcStep T)) (s : Mem T)
    (hb : ∀ x ∈ xs, boom x = false) :
    (Mem.countSrc boom (xs.map .item ++ .panic :: rest)).run s = (.error .panic, { s with drops := s.drops ++ xs }) := by
  induction xs generalizing s with
  | nil => simp [Mem.countSrc]
  | cons x xs ih =>
    rw [List.map_cons, List.cons_append, Mem.countSrc, StM.run_bind_ok (StM.run_get _), StM.run_bind_ok (StM.run_set _ _),
      if_neg (by simp [hb x]), StM.run_bind_error (ih _ (fun y hy => hb y (by simp [hy])))]
    simp

/-- An array whose first elements `F` were dropped, `q` live, then anything. -/
def part (F q : List T) (R : List (Slot T)) (D : List T) (V : List Viol) : Mem T :=
  ⟨F.map .gone ++ (q.map .live ++ R), D, V⟩

theorem dropInPlace_part (boom : T → Bool) (F q : List T) (R : List (Slot T)) (D : List T) (V : List Viol) (x : T) :
    (Mem.dropInPlace boom F.length).run (part F (x :: q) R D V) =
      (if boom x then .error .panic else .ok (), part (F ++ [x]) q R (D ++ [x]) V) := by
  unfold Mem.dropInPlace
  have h1 : (part F (x :: q) R D V).slots[F.length]? = some (.live x) := by simp [part]
  rw [StM.run_bind_ok (StM.run_get _), h1]
  simp only
  rw [StM.run_bind_ok (StM.run_set _ _)]
  have h2 : (part F (x :: q) R D V).slots.set F.length (.gone x) = (part (F ++ [x]) q R D V).slots := by simp [part]
  rw [h2]
  split <;> rfl

theorem dropRange_part (boom : T → Bool) (q F : List T) (R : List (Slot T)) (D : List T) (V : List Viol)
    (h : ∀ x ∈ q, boom x = false) :
    (Mem.dropRange boom F.length q.length).run (part F q R D V) = (.ok (), part (F ++ q) [] R (D ++ q) V) := by
  induction q generalizing F D with
  | nil => simp [Mem.dropRange]
  | cons x q ih =>
    have h1 := dropInPlace_part boom F q R D V x
    rw [if_neg (by simp [h x])] at h1
    rw [List.length_cons, Mem.dropRange, StM.run_bind_ok h1]
    have := ih (F ++ [x]) (D ++ [x]) (fun y hy => h y (by simp [hy]))
    simpa using this

theorem dropRange_part_panic (boom : T → Bool) (p q F : List T) (x : T) (R : List (Slot T)) (D : List T) (V : List Viol)
    (h : ∀ x ∈ p, boom x = false) (hx : boom x = true) (k : Nat) (hk : p.length < k) :
    (Mem.dropRange boom F.length k).run (part F (p ++ x :: q) R D V) =
      (.error .panic, part (F ++ p ++ [x]) q R (D ++ p ++ [x]) V) := by
  induction p generalizing F D k with
  | nil =>
    obtain ⟨k, rfl⟩ : ∃ j, k = j + 1 := ⟨k - 1, by simp at hk; omega⟩
    have h1 := dropInPlace_part boom F q R D V x
    rw [if_pos hx] at h1
    rw [Mem.dropRange, List.nil_append, StM.run_bind_error h1]; simp
  | cons y p ih =>
    obtain ⟨k, rfl⟩ : ∃ j, k = j + 1 := ⟨k - 1, by omega⟩
    have h1 := dropInPlace_part boom F (p ++ x :: q) R D V y
    rw [if_neg (by simp [h y])] at h1
    rw [Mem.dropRange, List.cons_append, StM.run_bind_ok h1]
    have := ih (F ++ [y]) (D ++ [y]) (fun z hz => h z (by simp [hz])) k (by simpa using hk)
    simpa using this

/-! ## C01, C03 -/

/-- C01, memory level: exactly `n` items end up, in order, in the `n` slots; nothing is dropped; no invalid access. -/
theorem C01_memory (t : Target) (boom : T → Bool) (xs : List T) :
    Mem.fromIterMem t boom xs.length (xs.map .item) = (.ok (xs.map .live), ⟨xs.map .live, [], []⟩) := by
  have := fromIterMem_items t boom xs.length xs [] (Nat.le_refl _)
  rw [List.append_nil] at this
  rw [this, Nat.sub_self, Mem.fillMem]
  cases t.debugAssertions
  · simp only [Bool.false_eq_true, if_false]; rw [StM.run_bind_ok (StM.run_get _)]; simp [filled]
  · simp only [if_true, Mem.countSrc]
    rw [StM.run_bind_ok (StM.run_pure _ _), if_neg (by simp), StM.run_bind_ok (StM.run_get _)]; simp [filled]

/-- C03, memory level, debug assertions on: the surplus items are dropped once each, the first `n` are leaked. -/
theorem C03_memory_debug (t : Target) (ht : t.debugAssertions = true) (boom : T → Bool) (xs ys : List T) (hy : ys ≠ [])
    (hb : ∀ y ∈ ys, boom y = false) :
    Mem.fromIterMem t boom xs.length ((xs ++ ys).map .item) = (.error .panic, ⟨xs.map .live, ys, []⟩) := by
  rw [List.map_append, fromIterMem_items t boom xs.length xs _ (Nat.le_refl _), Nat.sub_self, Mem.fillMem, if_pos ht,
    StM.run_bind_ok (countSrc_items boom ys _ hb), if_pos (by simpa using hy)]
  simp [filled]

/-- C03, memory level, debug assertions off: the surplus stays in the source. -/
theorem C03_memory_release (t : Target) (ht : t.debugAssertions = false) (boom : T → Bool) (xs : List T)
    (rest : List (SrcStep T)) :
    Mem.fromIterMem t boom xs.length (xs.map .item ++ rest) = (.ok (xs.map .live), ⟨xs.map .live, [], []⟩) := by
  rw [fromIterMem_items t boom xs.length xs _ (Nat.le_refl _), Nat.sub_self, Mem.fillMem, if_neg (by simp [ht]),
    StM.run_bind_ok (StM.run_get _)]
  simp [filled]

/-! ## C02 -/

/-- C02: with `k < n` items it panics in every build; exactly the received items are dropped, each once, in order; no
uninitialised slot is touched (the remaining slots are still uninitialised, `viols` is empty). -/
theorem C02_drops (t : Target) (boom : T → Bool) (n : Nat) (xs : List T) (h : xs.length < n)
    (hb : ∀ x ∈ xs, boom x = false) :
    Mem.fromIterMem t boom n (xs.map .item) =
      (.error .panic, ⟨xs.map .gone ++ List.replicate (n - xs.length) .uninit, xs, []⟩) := by
  have := fromIterMem_items t boom n xs [] (by omega)
  rw [List.append_nil] at this
  rw [this]
  obtain ⟨k, hk⟩ : ∃ k, n - xs.length = k + 1 := ⟨n - xs.length - 1, by omega⟩
  have hd := dropRange_part boom xs [] (List.replicate (n - xs.length) .uninit) [] [] hb
  rw [hk, Mem.fillMem]
  unfold Mem.shortExit
  have e : (⟨filled n xs, [], []⟩ : Mem T) = part [] xs (List.replicate (n - xs.length) .uninit) [] [] := by
    simp [part, filled]
  rw [e]
  simp only [List.length_nil] at hd
  change (match (Mem.dropRange boom 0 xs.length).run _ with | (.ok (), s') => _ | (.error .panic, s') => _ | (.error .ub, s') => _) = _
  rw [hd]
  simp [part, hk]

example : Mem.fromIterMem ⟨true, true, 2 ^ 64⟩ (fun _ => false) 4 [.item 1, .item 2] =
    (.error .panic, ⟨[.gone 1, .gone 2, .uninit, .uninit], [1, 2], []⟩) := by decide

/-! ## C04 -/

/-- C04: the source panics after `k < n` items: the panic propagates, nothing is dropped, no invalid access; the `k`
received elements stay in their slots (leaked), the rest was never written. -/
theorem C04_source_panics (t : Target) (boom : T → Bool) (n : Nat) (xs : List T) (rest : List (SrcStep T))
    (h : xs.length < n) :
    Mem.fromIterMem t boom n (xs.map .item ++ .panic :: rest) =
      (.error .panic, ⟨xs.map .live ++ List.replicate (n - xs.length) .uninit, [], []⟩) := by
  rw [fromIterMem_items t boom n xs _ (by omega)]
  obtain ⟨k, hk⟩ : ∃ k, n - xs.length = k + 1 := ⟨n - xs.length - 1, by omega⟩
  rw [hk, Mem.fillMem, StM.run_fault]
  simp [filled, hk]

/-- C04, the last crash point: the source panics while `debug_assert!` counts what is left. -/
theorem C04_count_panics (t : Target) (ht : t.debugAssertions = true) (boom : T → Bool) (xs ys : List T)
    (hb : ∀ y ∈ ys, boom y = false) (rest : List (SrcStep T)) :
    Mem.fromIterMem t boom xs.length (xs.map .item ++ (ys.map .item ++ .panic :: rest)) =
      (.error .panic, ⟨xs.map .live, ys, []⟩) := by
  rw [fromIterMem_items t boom xs.length xs _ (Nat.le_refl _), Nat.sub_self, Mem.fillMem, if_pos ht,
    StM.run_bind_error (countSrc_panic boom ys rest _ hb)]
  simp [filled]

/-- C04 as a statement about every source: if no destructor panics then, wherever the source ends or panics, no invalid
access happens, and what is dropped is a list of distinct items of the source (each at most once, in order). -/
theorem C04_safe (t : Target) (boom : T → Bool) (hb : ∀ x, boom x = false) (n : Nat) (src : List (SrcStep T)) :
    (Mem.fromIterMem t boom n src).2.viols = [] ∧
    (Mem.fromIterMem t boom n src).2.drops.Sublist (src.filterMap fun | .item x => some x | .panic => none) := by
  have split : ∀ src : List (SrcStep T), ∃ xs : List T, src = xs.map .item ∨ ∃ rest, src = xs.map .item ++ .panic :: rest := by
    intro src
    induction src with
    | nil => exact ⟨[], .inl rfl⟩
    | cons a src ih =>
      cases a with
      | panic => exact ⟨[], .inr ⟨src, rfl⟩⟩
      | item x =>
        obtain ⟨xs, h | ⟨rest, h⟩⟩ := ih
        · exact ⟨x :: xs, .inl (by rw [h]; rfl)⟩
        · exact ⟨x :: xs, .inr ⟨rest, by rw [h]; rfl⟩⟩
  have fm : ∀ xs : List T, (xs.map SrcStep.item).filterMap (fun | .item x => some x | .panic => none) = xs := by
    intro xs; rw [List.filterMap_map]; simp
  obtain ⟨xs, rfl | ⟨rest, rfl⟩⟩ := split src
  · rw [fm]
    rcases Nat.lt_trichotomy xs.length n with h | h | h
    · rw [C02_drops t boom n xs h (fun x _ => hb x)]
      exact ⟨rfl, List.Sublist.refl _⟩
    · subst h; rw [C01_memory]; exact ⟨rfl, by simp⟩
    · obtain ⟨ys, zs, rfl, rfl⟩ : ∃ ys zs, xs = ys ++ zs ∧ ys.length = n :=
        ⟨xs.take n, xs.drop n, (List.take_append_drop _ _).symm, by simp; omega⟩
      cases ht : t.debugAssertions
      · rw [List.map_append, C03_memory_release t ht]; exact ⟨rfl, by simp⟩
      · rw [C03_memory_debug t ht boom ys zs (by rintro rfl; simp at h) (fun y _ => hb y)]
        exact ⟨rfl, by simp⟩
  · rw [List.filterMap_append, fm]
    by_cases h : xs.length < n
    · rw [C04_source_panics t boom n xs rest h]; exact ⟨rfl, by simp⟩
    · obtain ⟨ys, zs, rfl, rfl⟩ : ∃ ys zs, xs = ys ++ zs ∧ ys.length = n :=
        ⟨xs.take n, xs.drop n, (List.take_append_drop _ _).symm, by simp; omega⟩
      rw [List.map_append, List.append_assoc]
      cases ht : t.debugAssertions
      · rw [C03_memory_release t ht]; exact ⟨rfl, by simp⟩
      · rw [C04_count_panics t ht boom ys zs (fun y _ => hb y)]
        refine ⟨rfl, ?_⟩
        simp only [List.append_assoc]
        exact (List.sublist_append_left _ _).trans (List.sublist_append_right _ _)

example : Mem.fromIterMem ⟨false, false, 2 ^ 64⟩ (fun _ => true) 4 [.item 1, .item 2, .panic, .item 3] =
    (.error .panic, ⟨[.live 1, .live 2, .uninit, .uninit], [], []⟩) := by decide

/-! ## C05 -/

/-- With too few items, one of which has a panicking destructor: unwinding drops the array again, starting with a slot
that was already dropped. -/
theorem short_boom (t : Target) (boom : T → Bool) (n : Nat) (p q : List T) (x : T) (h : (p ++ x :: q).length < n)
    (hp : ∀ y ∈ p, boom y = false) (hx : boom x = true) :
    (Mem.fromIterMem t boom n ((p ++ x :: q).map .item)).1 = .error .panic ∧
    [Viol.dropGone 0] <+: (Mem.fromIterMem t boom n ((p ++ x :: q).map .item)).2.viols ∧
    p ++ [x] ++ [(p ++ [x]).head (by simp)] <+: (Mem.fromIterMem t boom n ((p ++ x :: q).map .item)).2.drops := by
  have := fromIterMem_items t boom n (p ++ x :: q) [] (by omega)
  rw [List.append_nil] at this
  rw [this]
  obtain ⟨k, hk⟩ : ∃ k, n - (p ++ x :: q).length = k + 1 := ⟨n - (p ++ x :: q).length - 1, by omega⟩
  have hd := dropRange_part_panic boom p q [] x (List.replicate (n - (p ++ x :: q).length) .uninit) [] [] hp hx
    (p ++ x :: q).length (by simp)
  have e : (⟨filled n (p ++ x :: q), [], []⟩ : Mem T) =
      part [] (p ++ x :: q) (List.replicate (n - (p ++ x :: q).length) .uninit) [] [] := by
    simp [part, filled]
  have run : (Mem.fillMem t boom n (p ++ x :: q).length (n - (p ++ x :: q).length) []).run ⟨filled n (p ++ x :: q), [], []⟩ =
      (.error .panic, ((Mem.unwindArray boom n).run
        (part (p ++ [x]) q (List.replicate (n - (p ++ x :: q).length) .uninit) (p ++ [x]) [])).2) := by
    rw [e]
    conv_lhs => rw [hk, Mem.fillMem]
    unfold Mem.shortExit
    simp only [List.length_nil, List.nil_append] at hd
    change (match (Mem.dropRange boom 0 (p ++ x :: q).length).run _ with | (.ok (), s') => _ | (.error .panic, s') => _ | (.error .ub, s') => _) = _
    rw [← hk, hd]
  rw [run]
  refine ⟨rfl, ?_⟩
  obtain ⟨m, hm⟩ : ∃ m, n = m + 1 := ⟨n - 1, by omega⟩
  obtain ⟨a, F, hF⟩ : ∃ a F, p ++ [x] = a :: F := by cases p <;> simp
  simp only [hF, List.head_cons]
  unfold Mem.unwindArray
  generalize hR : List.replicate (n - (p ++ x :: q).length) (Slot.uninit (T := T)) = R
  rw [hm, Mem.dropRange]
  have hs : (Mem.dropInPlace boom 0).run (part (a :: F) q R (a :: F) []) =
      (if boom a then .error .panic else .ok (), part (a :: F) q R (a :: F ++ [a]) [Viol.dropGone 0]) := by
    unfold Mem.dropInPlace
    have h1 : (part (a :: F) q R (a :: F) []).slots[0]? = some (.gone a) := by simp [part]
    rw [StM.run_bind_ok (StM.run_get _), h1]
    simp only
    rw [StM.run_bind_ok (StM.run_set _ _)]
    split <;> rfl
  cases hba : boom a
  · rw [hba, if_neg (by simp)] at hs
    rw [StM.run_bind_ok hs]
    exact ⟨mono_dropRange boom (0 + 1) m (part (a :: F) q R (a :: F ++ [a]) [Viol.dropGone 0]),
      monoD_dropRange boom (0 + 1) m (part (a :: F) q R (a :: F ++ [a]) [Viol.dropGone 0])⟩
  · rw [hba, if_pos rfl] at hs
    rw [StM.run_bind_error hs]
    exact ⟨List.prefix_refl _, List.prefix_refl _⟩

/-- C05, exact: collecting too few items is free of invalid drops exactly when no received item's destructor panics. -/
theorem C05_safe_iff (t : Target) (boom : T → Bool) (n : Nat) (xs : List T) (h : xs.length < n) :
    (Mem.fromIterMem t boom n (xs.map .item)).2.viols = [] ↔ ∀ x ∈ xs, boom x = false := by
  constructor
  · intro hv
    rcases firstBoom boom xs with hb | ⟨p, x, q, rfl, hp, hx⟩
    · exact hb
    · have := (short_boom t boom n p q x h hp hx).2.1
      rw [hv] at this
      exact absurd (List.prefix_nil.1 this) (by simp)
  · intro hb
    rw [C02_drops t boom n xs h hb]

/-- C05, the part that holds: no panicking destructor.  Missing: a received item's destructor panics, where the claim
is false for every shape (`C05_safe_iff`, `C05_false`). -/
theorem C05_partial (t : Target) (boom : T → Bool) (n : Nat) (xs : List T) (h : xs.length < n)
    (hb : ∀ x ∈ xs, boom x = false) :
    (Mem.fromIterMem t boom n (xs.map .item)).2.viols = [] ∧ (Mem.fromIterMem t boom n (xs.map .item)).2.drops = xs := by
  rw [C02_drops t boom n xs h hb]; exact ⟨rfl, rfl⟩

/-- C05 does not hold: whenever fewer than `n` items arrive and one of them has a panicking destructor, the first item
is dropped a second time. -/
theorem C05_false (t : Target) (boom : T → Bool) (n : Nat) (a : T) (xs : List T) (h : (a :: xs).length < n)
    (hb : ∃ x ∈ a :: xs, boom x = true) :
    Viol.dropGone 0 ∈ (Mem.fromIterMem t boom n ((a :: xs).map .item)).2.viols ∧
    [a, a].Sublist (Mem.fromIterMem t boom n ((a :: xs).map .item)).2.drops := by
  rcases firstBoom boom (a :: xs) with hn | ⟨p, x, q, he, hp, hx⟩
  · obtain ⟨x, hx, h1⟩ := hb
    rw [hn x hx] at h1; simp at h1
  · have := short_boom t boom n p q x (by rw [← he]; exact h) hp hx
    rw [← he] at this
    refine ⟨this.2.1.subset (by simp), List.Sublist.trans ?_ this.2.2.sublist⟩
    have ha : (p ++ [x]).head (by simp) = a := by
      cases p with
      | nil => simp at he ⊢; exact he.1.symm
      | cons y p => simp at he ⊢; exact he.1.symm
    have h1 : [a].Sublist (p ++ [x]) := List.singleton_sublist.2 (ha ▸ List.head_mem _)
    rw [ha]
    exact h1.append (List.Sublist.refl [a])

/-- A later element's destructor panics: also an uninitialised slot is dropped. -/
example : (Mem.fromIterMem ⟨true, true, 2 ^ 64⟩ (fun x => x == 2) 3 [.item 1, .item 2]).2.viols = [.dropGone 0, .dropGone 1] := by
  decide

end Rowcol
