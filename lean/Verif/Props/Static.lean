import Verif.Lemmas.Index
import Verif.Model.TypeLevel

/-! # C16, C17, C58, C67, C68, C71: the type-level side -/

namespace Rowcol
open TNum

/-! ## typenum numerals -/

namespace TNum

theorem canonical_uint {u : TNum} {b : Bool} :
    (uint u b).Canonical ↔ u.Canonical ∧ (u = uterm → b = true) := by
  cases u <;> simp [Canonical]

theorem toNat_pos_of_canonical : ∀ {u : TNum}, u.Canonical → u ≠ uterm → 0 < u.toNat
  | uterm, _, h => absurd rfl h
  | uint u b, hc, _ => by
    rw [canonical_uint] at hc
    by_cases hu : u = uterm
    · subst hu; simp [hc.2 rfl, toNat]
    · have := toNat_pos_of_canonical hc.1 hu
      simp only [toNat]; omega

theorem cmpAux_eq : ∀ (a b : TNum) (o : Ordering), a.Canonical → b.Canonical →
    cmpAux a b o = (Ord.compare a.toNat b.toNat).then o
  | uterm, uterm, o, _, _ => by simp [cmpAux, toNat]
  | uterm, uint u b, o, _, hb => by
    have := toNat_pos_of_canonical hb (by simp)
    rw [cmpAux, Nat.compare_eq_lt.2 (by simpa [toNat] using this)]; rfl
  | uint u b, uterm, o, ha, _ => by
    have := toNat_pos_of_canonical ha (by simp)
    rw [cmpAux, Nat.compare_eq_gt.2 (by simpa [toNat] using this)]; rfl
  | uint u a, uint v b, o, ha, hb => by
    rw [cmpAux, cmpAux_eq u v _ (canonical_uint.1 ha).1 (canonical_uint.1 hb).1]
    rcases Nat.lt_trichotomy u.toNat v.toNat with h | h | h
    · rw [Nat.compare_eq_lt.2 h, Nat.compare_eq_lt.2 (by simp only [toNat]; cases a <;> cases b <;> simp <;> omega)]
      rfl
    · rw [h, toNat, toNat, h]
      cases a <;> cases b <;> simp [Ordering.then]
      · rw [Nat.compare_eq_lt.2 (by omega)]
      · rw [Nat.compare_eq_gt.2 (by omega)]
    · rw [Nat.compare_eq_gt.2 h, Nat.compare_eq_gt.2 (by simp only [toNat]; cases a <;> cases b <;> simp <;> omega)]
      rfl

/-- typenum's comparison decides the order of the numbers denoted. -/
theorem compare_eq (a b : TNum) (ha : a.Canonical) (hb : b.Canonical) :
    TNum.compare a b = Ord.compare a.toNat b.toNat := by
  rw [TNum.compare, cmpAux_eq a b _ ha hb]
  cases Ord.compare a.toNat b.toNat <;> rfl

theorem compare_lt (a b : TNum) (ha : a.Canonical) (hb : b.Canonical) :
    TNum.compare a b = .lt ↔ a.toNat < b.toNat := by rw [compare_eq a b ha hb, Nat.compare_eq_lt]

theorem succ_canonical : ∀ {n : TNum}, n.Canonical → n.succ.Canonical
  | uterm, _ => by simp [succ, Canonical]
  | uint u false, h => by
    rw [canonical_uint] at h
    simp only [succ]; rw [canonical_uint]; exact ⟨h.1, fun _ => rfl⟩
  | uint u true, h => by
    rw [canonical_uint] at h
    simp only [succ]; rw [canonical_uint]
    refine ⟨succ_canonical h.1, ?_⟩
    cases u with
    | uterm => simp [succ]
    | uint u b => cases b <;> simp [succ]

theorem toNat_succ : ∀ (n : TNum), n.succ.toNat = n.toNat + 1
  | uterm => by simp [succ, toNat]
  | uint u false => by simp [succ, toNat]
  | uint u true => by simp [succ, toNat, toNat_succ u]; omega

theorem ofNat_canonical (k : Nat) : (ofNat k).Canonical := by
  induction k with
  | zero => trivial
  | succ k ih => exact succ_canonical ih

theorem toNat_ofNat (k : Nat) : (ofNat k).toNat = k := by
  induction k with
  | zero => rfl
  | succ k ih => rw [ofNat, toNat_succ, ih]

theorem toNat_inj : ∀ {a b : TNum}, a.Canonical → b.Canonical → a.toNat = b.toNat → a = b
  | uterm, uterm, _, _, _ => rfl
  | uterm, uint v b, _, hb, h => by
    have := toNat_pos_of_canonical hb (by simp)
    rw [← h] at this; exact absurd this (by simp [toNat])
  | uint u a, uterm, ha, _, h => by
    have := toNat_pos_of_canonical ha (by simp)
    rw [h] at this; exact absurd this (by simp [toNat])
  | uint u a, uint v b, ha, hb, h => by
    simp only [toNat] at h
    have hab : a = b := by cases a <;> cases b <;> simp at h ⊢ <;> omega
    subst hab
    have : u.toNat = v.toNat := by omega
    rw [toNat_inj (canonical_uint.1 ha).1 (canonical_uint.1 hb).1 this]

theorem eq_ofNat {n : TNum} (h : n.Canonical) : n = ofNat n.toNat :=
  toNat_inj h (ofNat_canonical _) (by rw [toNat_ofNat])

end TNum

/-! ## C16 -/

variable {T : Type}

/-- C16, the part that holds: every type-level index accepted by the bounds, other than `U0` on an empty vector,
reads the element that run-time indexing reads, in every build. -/
theorem C16_static_index_partial (t : Target) (N I : TNum) (hN : N.Canonical) (hI : I.Canonical)
    (v : Vec T N.toNat) (hne : N ≠ uterm) (i : Nat) (h : vecStaticIndex N I = some i) :
    i = I.toNat ∧ ∃ x, v.getUnchecked t i = .ok x ∧ v.index I.toNat = .ok x := by
  have key : i = I.toNat ∧ I.toNat < N.toNat := by
    cases I with
    | uterm =>
      simp [vecStaticIndex] at h
      exact ⟨by simp [toNat, h], by simpa [toNat] using toNat_pos_of_canonical hN hne⟩
    | uint u b =>
      simp only [vecStaticIndex] at h
      split at h
      · rename_i hc
        simp at h
        exact ⟨h.symm, (compare_lt _ _ hI hN).1 hc⟩
      · simp at h
  obtain ⟨rfl, hlt⟩ := key
  exact ⟨rfl, _, Vec.getUnchecked_ok t v hlt, Vec.index_ok v hlt⟩

/-- C16: conversely every in-range type-level index is accepted. -/
theorem C16_static_index_complete (N I : TNum) (hN : N.Canonical) (hI : I.Canonical) (h : I.toNat < N.toNat) :
    vecStaticIndex N I = some I.toNat := by
  cases I with
  | uterm => rfl
  | uint u b => simp only [vecStaticIndex]; rw [if_pos ((compare_lt _ _ hI hN).2 h)]

/-- C16 is false as stated: `v[U0::new()]` type-checks on the empty vector and, without debug assertions, is an
unchecked access outside the array (with them it panics). -/
theorem C16_false : vecStaticIndex uterm uterm = some 0 ∧
    ∀ (t : Target) (v : Vec T 0), v.getUnchecked t 0 = .error (if t.debugAssertions then .panic else .ub) := by
  refine ⟨rfl, fun t v => ?_⟩
  have : v.toList = [] := List.length_eq_zero_iff.1 v.length_eq
  cases ht : t.debugAssertions <;> simp [Vec.getUnchecked, Vec.len, debugAssert, ht, this]

example : vecStaticIndex (ofNat 5) (ofNat 3) = some 3 ∧ vecStaticIndex (ofNat 3) (ofNat 3) = none := by decide

/-! ## C17 -/

/-- C17: every pair of type-level indices accepted by the bounds accesses the entry that run-time indexing reads. -/
theorem C17_mat_static_index (t : Target) (R C I J : TNum) (hR : R.Canonical) (hC : C.Canonical)
    (hI : I.Canonical) (hJ : J.Canonical) (a : Mat T R.toNat C.toNat) (p : Nat × Nat)
    (h : matStaticIndex R C (I, J) = some p) :
    p = (I.toNat, J.toNat) ∧ ∃ x, a.idxStatic t p.1 p.2 = .ok x ∧ a.index (I.toNat, J.toNat) = .ok x := by
  have key : p = (I.toNat, J.toNat) ∧ I.toNat < R.toNat ∧ J.toNat < C.toNat := by
    cases I <;> cases J <;> simp only [matStaticIndex] at h <;> split at h <;> simp at h <;> rename_i hc <;>
      refine ⟨?_, (compare_lt _ _ hI hR).1 hc.1, (compare_lt _ _ hJ hC).1 hc.2⟩ <;> rw [← h] <;> rfl
  obtain ⟨rfl, hi, hj⟩ := key
  exact ⟨rfl, _, Mat.idxStatic_ok t a hi hj, Mat.index_ok a hi hj⟩

/-- C17: exactly the in-range pairs are accepted (all four `U0`/`UInt` combinations). -/
theorem C17_mat_static_index_iff (R C I J : TNum) (hR : R.Canonical) (hC : C.Canonical)
    (hI : I.Canonical) (hJ : J.Canonical) :
    matStaticIndex R C (I, J) =
      if I.toNat < R.toNat ∧ J.toNat < C.toNat then some (I.toNat, J.toNat) else none := by
  cases I <;> cases J <;> simp only [matStaticIndex, compare_lt _ _ hI hR, compare_lt _ _ hJ hC] <;> rfl

/-- C17, mutable form: `*m.get_unchecked_mut(..) = x` at accepted type-level indices writes that entry. -/
theorem C17_mat_static_index_mut (t : Target) (R C I J : TNum) (hR : R.Canonical) (hC : C.Canonical)
    (hI : I.Canonical) (hJ : J.Canonical) (a : Mat T R.toNat C.toNat) (p : Nat × Nat) (x : T)
    (h : matStaticIndex R C (I, J) = some p) :
    ∃ b, (do let row ← a.rows.getUnchecked t p.1
             let row ← row.setUnchecked t p.2 x
             let rows ← a.rows.setUnchecked t p.1 row
             pure (⟨rows⟩ : Mat T R.toNat C.toNat) : Res _) = .ok b ∧ a.indexSet (I.toNat, J.toNat) x = .ok b := by
  obtain ⟨rfl, _, _, h2⟩ := C17_mat_static_index t R C I J hR hC hI hJ a p h
  have hlt : I.toNat < R.toNat ∧ J.toNat < C.toNat := by
    apply Classical.byContradiction
    intro hn
    rw [Mat.index_panic a (by omega)] at h2
    cases h2
  refine ⟨a.put I.toNat J.toNat x, ?_, Mat.indexSet_ok a hlt.1 hlt.2 x⟩
  simp [Vec.getUnchecked_ok _ _ hlt.1, Vec.setUnchecked_ok _ _ hlt.1, Vec.setUnchecked_ok _ _ hlt.2,
    Mat.put_eq a hlt.1]

example : matStaticIndex (ofNat 2) (ofNat 3) (ofNat 1, ofNat 2) = some (1, 2) ∧
    matStaticIndex (ofNat 2) (ofNat 3) (ofNat 0, ofNat 0) = some (0, 0) ∧
    matStaticIndex (ofNat 0) (ofNat 3) (ofNat 0, ofNat 0) = none := by decide

/-! ## C58 -/

theorem matches_u1 {n : TNum} (h : n.Canonical) : SizeImpl.u1.matches n ↔ n.toNat = 1 :=
  ⟨fun e => by rw [show n = _ from e]; rfl, fun e => toNat_inj h (by simp [Canonical]) (by rw [e]; rfl)⟩

theorem matches_u2 {n : TNum} (h : n.Canonical) : SizeImpl.u2.matches n ↔ n.toNat = 2 :=
  ⟨fun e => by rw [show n = _ from e]; rfl, fun e => toNat_inj h (by simp [Canonical]) (by rw [e]; rfl)⟩

theorem matches_u3 {n : TNum} (h : n.Canonical) : SizeImpl.u3.matches n ↔ n.toNat = 3 :=
  ⟨fun e => by rw [show n = _ from e]; rfl, fun e => toNat_inj h (by simp [Canonical]) (by rw [e]; rfl)⟩

theorem matches_big {n : TNum} (h : n.Canonical) : SizeImpl.big.matches n ↔ 4 ≤ n.toNat := by
  constructor
  · rintro ⟨u, a, b, d, rfl⟩
    rw [canonical_uint, canonical_uint] at h
    have := toNat_pos_of_canonical h.1.1 (by simp)
    simp only [toNat] at this ⊢; omega
  · intro h4
    match n with
    | uterm => simp [toNat] at h4
    | uint uterm b => cases b <;> simp [toNat] at h4
    | uint (uint uterm a) b => cases a <;> cases b <;> simp [toNat] at h4
    | uint (uint (uint u a) b) d => exact ⟨u, a, b, d, rfl⟩

/-- The impl the documentation names for size `n`. -/
def expectedImpl (n : Nat) : SizeImpl := if n = 1 then .u1 else if n = 2 then .u2 else if n = 3 then .u3 else .big

theorem ArrayLen_iff {n : TNum} (h : n.Canonical) : n.ArrayLen ↔ n.toNat ≤ 32 := by
  constructor
  · rintro ⟨k, hk, rfl⟩; rw [toNat_ofNat]; exact hk
  · intro hk; exact ⟨n.toNat, hk, eq_ofNat h⟩

theorem hasDetCof (k : Nat) (hk : k ≤ 32) :
    (1 ≤ k → HasDet (ofNat k) (expectedImpl k)) ∧ (2 ≤ k → HasCof (ofNat k) (expectedImpl k)) := by
  induction k with
  | zero => omega
  | succ k ih =>
    have hc := ofNat_canonical (k + 1)
    have hn := toNat_ofNat (k + 1)
    have hcof : 2 ≤ k + 1 → HasCof (ofNat (k + 1)) (expectedImpl (k + 1)) := by
      intro h2
      rcases Nat.lt_or_ge (k + 1) 4 with h4 | h4
      · have : k + 1 = 2 ∨ k + 1 = 3 := by omega
        rcases this with h | h
        · rw [show expectedImpl (k + 1) = .u2 by simp [expectedImpl, h]]
          exact .u2 _ ((matches_u2 hc).2 (by omega))
        · rw [show expectedImpl (k + 1) = .u3 by simp [expectedImpl, h]]
          exact .u3 _ ((matches_u3 hc).2 (by omega))
      · rw [show expectedImpl (k + 1) = .big by unfold expectedImpl; split <;> (try split) <;> (try split) <;> simp_all]
        exact .big _ (ofNat k) _ ((matches_big hc).2 (by omega)) ⟨k + 1, hk, rfl⟩ ⟨k, by omega, rfl⟩ rfl
          ((ih (by omega)).1 (by omega))
    refine ⟨fun h1 => ?_, hcof⟩
    rcases Nat.lt_or_ge (k + 1) 4 with h4 | h4
    · have : k + 1 = 1 ∨ k + 1 = 2 ∨ k + 1 = 3 := by omega
      rcases this with h | h | h
      · rw [show expectedImpl (k + 1) = .u1 by simp [expectedImpl, h]]
        exact .u1 _ ((matches_u1 hc).2 (by omega))
      · rw [show expectedImpl (k + 1) = .u2 by simp [expectedImpl, h]]
        exact .u2 _ ((matches_u2 hc).2 (by omega))
      · rw [show expectedImpl (k + 1) = .u3 by simp [expectedImpl, h]]
        exact .u3 _ ((matches_u3 hc).2 (by omega))
    · rw [show expectedImpl (k + 1) = .big by unfold expectedImpl; split <;> (try split) <;> (try split) <;> simp_all]
      exact .big _ _ ((matches_big hc).2 (by omega)) ⟨k + 1, hk, rfl⟩ (hcof (by omega))

theorem matches_expected {n : TNum} (h : n.Canonical) {i : SizeImpl} (hm : i.matches n) :
    1 ≤ n.toNat ∧ i = expectedImpl n.toNat := by
  cases i
  · rw [matches_u1 h] at hm; simp [hm, expectedImpl]
  · rw [matches_u2 h] at hm; simp [hm, expectedImpl]
  · rw [matches_u3 h] at hm; simp [hm, expectedImpl]
  · rw [matches_big h] at hm
    refine ⟨by omega, ?_⟩
    unfold expectedImpl
    rw [if_neg (by omega), if_neg (by omega), if_neg (by omega)]

/-- C58, `Determinant`: for every size the crate supports (`ArrayLen`, 0..=32) the impls that apply are exactly:
none for size 0, otherwise the one the documentation names. -/
theorem C58_determinant (n : TNum) (hn : n.ArrayLen) (i : SizeImpl) :
    HasDet n i ↔ 1 ≤ n.toNat ∧ i = expectedImpl n.toNat := by
  obtain ⟨k, hk, rfl⟩ := hn
  have hc := ofNat_canonical k
  constructor
  · intro h
    cases h with
    | u1 _ h => exact matches_expected hc h
    | u2 _ h => exact matches_expected hc h
    | u3 _ h => exact matches_expected hc h
    | big _ _ h _ _ => exact matches_expected hc h
  · rintro ⟨h1, rfl⟩
    rw [toNat_ofNat] at *
    exact (hasDetCof k hk).1 h1

/-- C58, `Cofactor`: sizes 2..=32 have exactly one impl, sizes 0 and 1 none. -/
theorem C58_cofactor (n : TNum) (hn : n.ArrayLen) (i : SizeImpl) :
    HasCof n i ↔ 2 ≤ n.toNat ∧ i = expectedImpl n.toNat := by
  obtain ⟨k, hk, rfl⟩ := hn
  have hc := ofNat_canonical k
  constructor
  · intro h
    cases h with
    | u2 _ h => exact ⟨by have := (matches_u2 hc).1 h; omega, (matches_expected hc h).2⟩
    | u3 _ h => exact ⟨by rw [(matches_u3 hc).1 h]; omega, (matches_expected hc h).2⟩
    | big _ _ _ h _ _ _ _ => exact ⟨by have := (matches_big hc).1 h; omega, (matches_expected hc h).2⟩
  · rintro ⟨h1, rfl⟩
    rw [toNat_ofNat] at *
    exact (hasDetCof k hk).2 h1

/-- C58, `Inverse`: sizes 1..=32 have exactly one impl, size 0 none. -/
theorem C58_inverse (n : TNum) (hn : n.ArrayLen) (i : SizeImpl) :
    HasInv n i ↔ 1 ≤ n.toNat ∧ i = expectedImpl n.toNat := by
  have hn' := hn
  obtain ⟨k, hk, rfl⟩ := hn
  have hc := ofNat_canonical k
  constructor
  · intro h
    cases h with
    | u1 h => exact matches_expected hc h
    | u2 _ h _ => exact matches_expected hc h
    | u3 _ h _ => exact matches_expected hc h
    | big h _ => exact matches_expected hc h
  · rintro ⟨h1, rfl⟩
    have hd := (C58_determinant _ hn' (expectedImpl (ofNat k).toNat)).2 ⟨h1, rfl⟩
    rcases Nat.lt_or_ge (ofNat k).toNat 4 with h4 | h4
    · have : (ofNat k).toNat = 1 ∨ (ofNat k).toNat = 2 ∨ (ofNat k).toNat = 3 := by omega
      rcases this with h | h | h
      · rw [show expectedImpl (ofNat k).toNat = .u1 by simp [expectedImpl, h]]
        exact .u1 _ ((matches_u1 hc).2 h)
      · rw [show expectedImpl (ofNat k).toNat = .u2 by simp [expectedImpl, h]]
        exact .u2 _ _ ((matches_u2 hc).2 h) hd
      · rw [show expectedImpl (ofNat k).toNat = .u3 by simp [expectedImpl, h]]
        exact .u3 _ _ ((matches_u3 hc).2 h) hd
    · rw [show expectedImpl (ofNat k).toNat = .big by
        unfold expectedImpl; rw [if_neg (by omega), if_neg (by omega), if_neg (by omega)]]
      exact .big _ ((matches_big hc).2 h4) hn'

/-- C58, header patterns alone, with no bound on the size: every canonical numeral matches exactly one of the
four headers, except zero, which matches none. -/
theorem C58_headers (n : TNum) (hn : n.Canonical) :
    (n.toNat = 0 ∧ ∀ i : SizeImpl, ¬ i.matches n) ∨
    (1 ≤ n.toNat ∧ ∀ i : SizeImpl, i.matches n ↔ i = expectedImpl n.toNat) := by
  rcases Nat.eq_zero_or_pos n.toNat with h | h
  · exact .inl ⟨h, fun i hi => by have := (matches_expected hn hi).1; omega⟩
  · refine .inr ⟨h, fun i => ⟨fun hi => (matches_expected hn hi).2, ?_⟩⟩
    rintro rfl
    rcases Nat.lt_or_ge n.toNat 4 with h4 | h4
    · have : n.toNat = 1 ∨ n.toNat = 2 ∨ n.toNat = 3 := by omega
      rcases this with h | h | h
      · simpa [expectedImpl, h] using (matches_u1 hn).2 h
      · simpa [expectedImpl, h] using (matches_u2 hn).2 h
      · simpa [expectedImpl, h] using (matches_u3 hn).2 h
    · rw [show expectedImpl n.toNat = .big by
        unfold expectedImpl; rw [if_neg (by omega), if_neg (by omega), if_neg (by omega)]]
      exact (matches_big hn).2 h4

/-- C58: `max`, `min`, `max_by`, `min_by` exist exactly for non-empty sizes. -/
theorem C58_max_exists (n : TNum) (hn : n.Canonical) : HasMax n ↔ 1 ≤ n.toNat := by
  cases n with
  | uterm => simp [HasMax, toNat]
  | uint u b =>
    have := toNat_pos_of_canonical hn (by simp)
    simp [HasMax]; omega

example : (ofNat 7).ArrayLen := ⟨7, by omega, rfl⟩

/-! ## C67 -/

theorem toNat_u1 : (uint uterm true).toNat = 1 := rfl

/-- C67: `vector![e1, .., ek]` has type-level length `k`. -/
theorem C67_vector_macro {E : Type} (es : List E) :
    (vectorCount es).toNat = es.length ∧ (vectorCount es).Canonical := by
  fun_induction vectorCount es with
  | case1 => exact ⟨rfl, trivial⟩
  | case2 e => exact ⟨rfl, rfl⟩
  | case3 e e' rest ih => exact ⟨by rw [toNat_succ, ih.1]; rfl, succ_canonical ih.2⟩

theorem matrixCountCol1_eq {E : Type} (es : List E) :
    (matrixCountCol1 es).toNat = es.length ∧ (matrixCountCol1 es).Canonical := by
  fun_induction matrixCountCol1 es with
  | case1 => exact ⟨rfl, trivial⟩
  | case2 e => exact ⟨rfl, rfl⟩
  | case3 e e' rest ih => exact ⟨by rw [toNat_succ, ih.1]; rfl, succ_canonical ih.2⟩

/-- C67: `matrix!` counts the rows. -/
theorem C67_matrix_rows {E : Type} (rows : List (List E)) :
    (matrixCountRow rows).toNat = rows.length ∧ (matrixCountRow rows).Canonical := by
  fun_induction matrixCountRow rows with
  | case1 => exact ⟨rfl, trivial⟩
  | case2 e => exact ⟨rfl, rfl⟩
  | case3 e e' rest ih => exact ⟨by rw [toNat_succ, ih.1]; rfl, succ_canonical ih.2⟩

/-- C67: with `r > 0` rows of `c` entries each, `matrix!` counts `c` columns; with no rows, 0. -/
theorem C67_matrix_cols {E : Type} (c : Nat) (rows : List (List E)) (h : ∀ row ∈ rows, row.length = c) :
    (matrixCountCol rows).toNat = (if rows = [] then 0 else c) ∧ (matrixCountCol rows).Canonical := by
  cases rows with
  | nil => exact ⟨rfl, trivial⟩
  | cons row rest =>
    refine ⟨?_, (matrixCountCol1_eq row).2⟩
    simp only [matrixCountCol, (matrixCountCol1_eq row).1]
    simpa using h row (by simp)

example : (∀ row ∈ [[1, 2, 3], [4, 5, 6]], row.length = 3) ∧
    (matrixCountCol [[1, 2, 3], [4, 5, 6]], matrixCountRow [[1, 2, 3], [4, 5, 6]]) = (ofNat 3, ofNat 2) := by decide

/-! ## C68 -/

/-- The name an alias for this type should have. -/
def AliasTy.properName : AliasTy → String
  | .vector .f32 n => s!"Vector{n}f32"
  | .vector .f64 n => s!"Vector{n}f64"
  | .matrix .f32 n _ => s!"Matrix{n}f32"
  | .matrix .f64 n _ => s!"Matrix{n}f64"

/-- Matrix aliases are for square matrices. -/
def AliasTy.square : AliasTy → Bool
  | .vector _ _ => true
  | .matrix _ r c => r == c

/-- C68, the part that holds: every alias other than `Matrix2f64` denotes what its name says (the table is
finite, this is the whole of it). -/
theorem C68_aliases_partial :
    ∀ p ∈ aliases, p.1 ≠ "Matrix2f64" → p.2.properName = p.1 ∧ p.2.square = true := by decide +kernel

/-- C68 is false as stated: `Matrix2f64` is a matrix of `f32`. -/
theorem C68_false : ("Matrix2f64", AliasTy.matrix .f32 2 2) ∈ aliases ∧
    (AliasTy.matrix .f32 2 2).properName ≠ "Matrix2f64" := by decide +kernel

example : ("Matrix3f64", AliasTy.matrix .f64 3 3) ∈ aliases := by decide

/-! ## C71 -/

/-- C71: the length `Min<Row, Col>` that `Matrix::diag` asks for is the minimum of the two dimensions. -/
theorem C71_min (a b : TNum) (ha : a.Canonical) (hb : b.Canonical) :
    (tmin a b).toNat = Nat.min a.toNat b.toNat ∧ (tmin a b).Canonical := by
  unfold tmin
  rw [compare_eq a b ha hb]
  rcases Nat.lt_trichotomy a.toNat b.toNat with h | h | h
  · rw [Nat.compare_eq_lt.2 h]; exact ⟨(Nat.min_eq_left (Nat.le_of_lt h)).symm, ha⟩
  · rw [Nat.compare_eq_eq.2 h]; exact ⟨(Nat.min_eq_left (Nat.le_of_eq h)).symm, ha⟩
  · rw [Nat.compare_eq_gt.2 h]; exact ⟨(Nat.min_eq_right (Nat.le_of_lt h)).symm, hb⟩

example : tmin (ofNat 6) (ofNat 5) = ofNat 5 := by decide

end Rowcol
