import Verif.Lemmas.MapM
import Verif.Model.Det

/-! Helper lemmas about indexing. -/

namespace Rowcol

@[simp] theorem debugAssert_true (t : Target) : debugAssert t true = .ok () := by simp [debugAssert]

namespace Vec
variable {T : Type} {n : Nat}

theorem index_ok (v : Vec T n) {i : Nat} (h : i < n) : v.index i = .ok (v.get ⟨i, h⟩) := by
  simp [index, getElem_toList v i h]

theorem index_panic (v : Vec T n) {i : Nat} (h : n ≤ i) : v.index i = .error .panic := by
  have : v.toList[i]? = none := by simp [v.length_eq, h]
  simp [index, this]

theorem getUnchecked_ok (t : Target) (v : Vec T n) {i : Nat} (h : i < n) :
    v.getUnchecked t i = .ok (v.get ⟨i, h⟩) := by
  simp [getUnchecked, len, h, getElem_toList v i h]

/-- The vector with element `i` replaced. -/
def put (v : Vec T n) (i : Nat) (x : T) : Vec T n := ⟨v.toList.set i x, by simp [v.length_eq]⟩

theorem get_put (v : Vec T n) (i : Nat) (x : T) (k : Fin n) :
    (v.put i x).get k = if k.val = i then x else v.get k := by
  simp only [get, put, List.getElem_set]
  by_cases h : i = k.val
  · simp [h]
  · simp [h, Ne.symm h]

theorem indexSet_ok (v : Vec T n) {i : Nat} (h : i < n) (x : T) : v.indexSet i x = .ok (v.put i x) := by
  simp [indexSet, v.length_eq, h, put]

theorem indexSet_panic (v : Vec T n) {i : Nat} (h : n ≤ i) (x : T) : v.indexSet i x = .error .panic := by
  simp [indexSet, v.length_eq, Nat.not_lt.2 h]

theorem setUnchecked_ok (t : Target) (v : Vec T n) {i : Nat} (h : i < n) (x : T) :
    v.setUnchecked t i x = .ok (v.put i x) := by
  simp [setUnchecked, len, v.length_eq, h, put]

end Vec

namespace Mat
variable {T : Type} {r c : Nat}

theorem index_ok (a : Mat T r c) {i j : Nat} (hi : i < r) (hj : j < c) :
    a.index (i, j) = .ok (a.get ⟨i, hi⟩ ⟨j, hj⟩) := by
  simp [index, Vec.index_ok _ hi, Vec.index_ok _ hj, get]

theorem index_panic (a : Mat T r c) {i j : Nat} (h : r ≤ i ∨ c ≤ j) : a.index (i, j) = .error .panic := by
  by_cases hi : i < r
  · simp [index, Vec.index_ok _ hi, Vec.index_panic _ (h.resolve_left (by omega))]
  · simp [index, Vec.index_panic _ (Nat.not_lt.1 hi)]

theorem idxStatic_ok (t : Target) (a : Mat T r c) {i j : Nat} (hi : i < r) (hj : j < c) :
    a.idxStatic t i j = .ok (a.get ⟨i, hi⟩ ⟨j, hj⟩) := by
  simp [idxStatic, Vec.getUnchecked_ok _ _ hi, Vec.getUnchecked_ok _ _ hj, get]

theorem getUnchecked_ok (t : Target) (a : Mat T r c) {i j : Nat} (hi : i < r) (hj : j < c) :
    a.getUnchecked t (i, j) = .ok (a.get ⟨i, hi⟩ ⟨j, hj⟩) := by
  simp [getUnchecked, hi, hj, Vec.getUnchecked_ok _ _ hi, Vec.getUnchecked_ok _ _ hj, get]

/-- The matrix with entry `(i, j)` replaced. -/
def put (a : Mat T r c) (i j : Nat) (x : T) : Mat T r c :=
  match a.rows.toList[i]? with
  | some row => ⟨a.rows.put i (row.put j x)⟩
  | none => a

theorem put_eq (a : Mat T r c) {i : Nat} (hi : i < r) (j : Nat) (x : T) :
    a.put i j x = ⟨a.rows.put i ((a.rows.get ⟨i, hi⟩).put j x)⟩ := by
  simp [put, Vec.getElem_toList _ _ hi]

theorem get_put (a : Mat T r c) {i j : Nat} (hi : i < r) (x : T) (k : Fin r) (l : Fin c) :
    (a.put i j x).get k l = if k.val = i ∧ l.val = j then x else a.get k l := by
  rw [put_eq a hi]
  simp only [get, Vec.get_put]
  by_cases hk : k.val = i
  · subst hk; simp [Vec.get_put]
  · simp [hk]

theorem indexSet_ok (a : Mat T r c) {i j : Nat} (hi : i < r) (hj : j < c) (x : T) :
    a.indexSet (i, j) x = .ok (a.put i j x) := by
  simp [indexSet, Vec.index_ok _ hi, Vec.indexSet_ok _ hj, Vec.indexSet_ok _ hi, put_eq a hi]

theorem indexSet_panic (a : Mat T r c) {i j : Nat} (h : r ≤ i ∨ c ≤ j) (x : T) :
    a.indexSet (i, j) x = .error .panic := by
  by_cases hi : i < r
  · simp [indexSet, Vec.index_ok _ hi, Vec.indexSet_panic _ (h.resolve_left (by omega))]
  · simp [indexSet, Vec.index_panic _ (Nat.not_lt.1 hi)]

theorem setUnchecked_ok (t : Target) (a : Mat T r c) {i j : Nat} (hi : i < r) (hj : j < c) (x : T) :
    a.setUnchecked t (i, j) x = .ok (a.put i j x) := by
  simp [setUnchecked, hi, hj, Vec.getUnchecked_ok _ _ hi, Vec.setUnchecked_ok _ _ hi, Vec.setUnchecked_ok _ _ hj,
    put_eq a hi]

end Mat
end Rowcol
