import Verif.Props.Products
import Verif.Model.Det
import Mathlib.LinearAlgebra.Matrix.Determinant.Basic
import Mathlib.LinearAlgebra.Matrix.Adjugate
import Mathlib.LinearAlgebra.Matrix.Block
import Mathlib.LinearAlgebra.Matrix.NonsingularInverse

/-! The loops of `ops.rs` as matrix operations. -/

namespace Rowcol

variable {T : Type} {n : Nat}

/-- A `for k in 0..n` loop whose states are known. -/
theorem foldlM_range {S : Type} (f : S → Nat → Res S) (st : Nat → S) (n : Nat)
    (h : ∀ k < n, f (st k) k = .ok (st (k + 1))) : (List.range n).foldlM f (st 0) = .ok (st n) := by
  induction n with
  | zero => rfl
  | succ n ih =>
    rw [List.range_succ, List.foldlM_append, ih fun k hk => h k (by omega), res_ok_bind, List.foldlM_cons,
      h n (by omega)]
    rfl

theorem index_ofMatrix (M : Matrix (Fin n) (Fin n) T) {i j : Nat} (hi : i < n) (hj : j < n) :
    (Mat.ofMatrix M).index (i, j) = .ok (M ⟨i, hi⟩ ⟨j, hj⟩) := by
  rw [Mat.index_ok _ hi hj, Mat.get_ofMatrix]

theorem indexSet_ofMatrix (M : Matrix (Fin n) (Fin n) T) {i j : Nat} (hi : i < n) (hj : j < n) (x : T) :
    (Mat.ofMatrix M).indexSet (i, j) x = .ok (Mat.ofMatrix fun a b => if a.val = i ∧ b.val = j then x else M a b) := by
  rw [Mat.indexSet_ok _ hi hj]
  congr 1
  apply Mat.ext_get; intro a b
  rw [Mat.get_put _ hi, Mat.get_ofMatrix]
  exact (Mat.get_ofMatrix (fun a b => if a.val = i ∧ b.val = j then x else M a b) a b).symm

/-- A loop over one row computing `g` of the old entry: the matrix after the first `k` columns. -/
def rowState (M : Matrix (Fin n) (Fin n) T) (j : Fin n) (g : Fin n → T) (k : Nat) : Matrix (Fin n) (Fin n) T :=
  fun a b => if a = j ∧ b.val < k then g b else M a b

theorem rowState_zero (M : Matrix (Fin n) (Fin n) T) (j : Fin n) (g : Fin n → T) : rowState M j g 0 = M := by
  funext a b; simp [rowState]

theorem rowState_end (M : Matrix (Fin n) (Fin n) T) (j : Fin n) (g : Fin n → T) : rowState M j g n = M.updateRow j g := by
  funext a b
  simp only [rowState, b.isLt, and_true, Matrix.updateRow_apply]

theorem rowState_set (M : Matrix (Fin n) (Fin n) T) (j : Fin n) (g : Fin n → T) (k : Fin n) :
    (Mat.ofMatrix (rowState M j g k)).indexSet (j, k) (g k) = .ok (Mat.ofMatrix (rowState M j g (k + 1))) := by
  rw [indexSet_ofMatrix _ j.isLt k.isLt]
  congr 2
  funext a b
  simp only [rowState]
  by_cases ha : a = j
  · by_cases hb : b = k
    · subst ha; subst hb; simp
    · have h1 : b.val ≠ k.val := fun h => hb (Fin.ext h)
      have h2 : (b.val < k.val ↔ b.val < k.val + 1) := by omega
      simp only [ha, h1, and_false, if_false, true_and, h2]
  · have h1 : a.val ≠ j.val := fun h => ha (Fin.ext h)
    simp [ha, h1]

theorem rowState_get_self (M : Matrix (Fin n) (Fin n) T) (j : Fin n) (g : Fin n → T) (k : Fin n) :
    (Mat.ofMatrix (rowState M j g k)).index (j, k) = .ok (M j k) := by
  rw [index_ofMatrix _ j.isLt k.isLt]; simp [rowState]

theorem rowState_get_ne (M : Matrix (Fin n) (Fin n) T) (i j : Fin n) (h : i ≠ j) (g : Fin n → T) (k b : Fin n) :
    (Mat.ofMatrix (rowState M j g k)).index (i, b) = .ok (M i b) := by
  rw [index_ofMatrix _ i.isLt b.isLt]; simp [rowState, h]

section ring
variable [CommRing T] {O : Ops T} (hO : O.IsRing)
include hO

/-- The elimination's `k` loop adds a multiple of one row to another. -/
theorem elimRow_eq (M : Matrix (Fin n) (Fin n) T) (i j : Fin n) (hij : i ≠ j) (d : T) :
    Mat.elimRow O (Mat.ofMatrix M) i j d = .ok (Mat.ofMatrix (M.updateRow j (M j + (-d) • M i))) := by
  have := foldlM_range (fun mat k => do
    let sub ← O.sub (← mat.index (j.val, k)) (← O.mul (← mat.index (i.val, k)) d)
    mat.indexSet (j.val, k) sub) (fun k => Mat.ofMatrix (rowState M j (M j + (-d) • M i) k)) n (by
      intro k hk
      rw [rowState_get_self M j _ ⟨k, hk⟩, rowState_get_ne M i j hij _ ⟨k, hk⟩ ⟨k, hk⟩]
      simp only [res_ok_bind, hO.mul, hO.sub]
      have e : M j ⟨k, hk⟩ - M i ⟨k, hk⟩ * d = (M j + (-d) • M i) ⟨k, hk⟩ := by
        simp [Pi.add_apply, Pi.smul_apply, sub_eq_add_neg, mul_comm]
      rw [e]
      exact rowState_set M j _ ⟨k, hk⟩)
  simp only [rowState_zero, rowState_end] at this
  exact this

/-- The product of the diagonal. -/
theorem diagProd_eq (M : Matrix (Fin n) (Fin n) T) :
    (List.range n).foldlM (fun acc i => do
      let x ← (Mat.ofMatrix M).index (i, i)
      O.mul acc x) O.one = .ok (∏ i, M i i) := by
  have key : ∀ (l : List (Fin n)) (x : T), (l.map Fin.val).foldlM (fun acc i => do
      let x ← (Mat.ofMatrix M).index (i, i)
      O.mul acc x) x = .ok (x * (l.map fun i => M i i).prod) := by
    intro l
    induction l with
    | nil => intro x; simp
    | cons a as ih =>
      intro x
      rw [List.map_cons, List.foldlM_cons, index_ofMatrix M a.isLt a.isLt]
      rw [res_ok_bind, Fin.eta, hO.mul, res_ok_bind, ih]; simp [mul_assoc]
  rw [Vec.range_eq, key, hO.one, one_mul, Fin.prod_univ_def]

end ring

section field
variable [Field T] {O : Ops T} (hO : O.IsField)
include hO

/-- What one column of the elimination achieves. -/
theorem elimCol_spec (i : Fin n) (js : List Nat) (M : Matrix (Fin n) (Fin n) T) (hjs : ∀ j ∈ js, i.val < j ∧ j < n)
    (hnd : js.Nodup) :
    Mat.elimCol O i js (Mat.ofMatrix M) = .ok none ∨
    ∃ M', Mat.elimCol O i js (Mat.ofMatrix M) = .ok (some (Mat.ofMatrix M')) ∧ M'.det = M.det ∧
      ((∀ a b : Fin n, b < i → b < a → M a b = 0) → ∀ a b : Fin n, b < i → b < a → M' a b = 0) ∧
      (∀ a : Fin n, a.val ∉ js → M' a = M a) ∧ (∀ a : Fin n, a.val ∈ js → M' a i = 0) := by
  induction js generalizing M with
  | nil => exact Or.inr ⟨M, rfl, rfl, fun h => h, fun _ _ => rfl, fun a h => by simp at h⟩
  | cons j js ih =>
    obtain ⟨hj1, hj2⟩ := hjs j (by simp)
    let j' : Fin n := ⟨j, hj2⟩
    have hij : i ≠ j' := fun h => by have := congrArg Fin.val h; simp only [j'] at this; omega
    unfold Mat.elimCol
    rw [index_ofMatrix M i.isLt i.isLt, index_ofMatrix M hj2 i.isLt]
    simp only [res_ok_bind, Fin.eta]
    by_cases hz : O.isZero (M i i) = true
    · left; simp [hz]
    · have hp : M i i ≠ 0 := fun h => hz ((hO.isZero _).2 h)
      simp only [hz, if_false, hO.div _ _ hp, res_ok_bind, Bool.false_eq_true]
      have hrow := elimRow_eq hO.toIsRing M i j' hij (M j' i / M i i)
      rw [show (j'.val) = j from rfl] at hrow
      rw [hrow]
      simp only [res_ok_bind]
      set M1 := M.updateRow j' (M j' + -(M j' i / M i i) • M i) with hM1
      have hdet : M1.det = M.det := by
        rw [hM1]; exact Matrix.det_updateRow_add_smul_self M (Ne.symm hij) _
      rcases ih M1 (fun x hx => hjs x (by simp [hx])) (List.nodup_cons.1 hnd).2 with h | ⟨M', h1, h2, h3, h4, h5⟩
      · left; exact h
      · right
        refine ⟨M', h1, h2.trans hdet, ?_, ?_, ?_⟩
        · intro hM
          apply h3
          intro a b hb hba
          rw [hM1, Matrix.updateRow_apply]
          split
          · rename_i ha
            subst ha
            simp only [Pi.add_apply, Pi.smul_apply, smul_eq_mul, hM _ b hb hba, hM i b hb hb, mul_zero, add_zero]
          · exact hM a b hb hba
        · intro a ha
          rw [List.mem_cons, not_or] at ha
          rw [h4 a ha.2, hM1]
          have : a ≠ j' := fun h => ha.1 (by rw [h])
          exact Matrix.updateRow_ne this
        · intro a ha
          by_cases haj : a.val ∈ js
          · exact h5 a haj
          · have : a = j' := Fin.ext ((List.mem_cons.1 ha).resolve_right haj)
            rw [h4 a haj, hM1, this, Matrix.updateRow_self]
            simp only [Pi.add_apply, Pi.smul_apply, smul_eq_mul]
            field_simp; ring

/-- The complete elimination: either it gives up or it produces an upper triangular matrix of the same determinant. -/
theorem elimAll_spec (d : Nat) (i : Nat) (hd : i + d = n) (M : Matrix (Fin n) (Fin n) T)
    (hM : ∀ a b : Fin n, b.val < i → b < a → M a b = 0) :
    Mat.elimAll O (List.range' i d) (Mat.ofMatrix M) = .ok none ∨
    ∃ M', Mat.elimAll O (List.range' i d) (Mat.ofMatrix M) = .ok (some (Mat.ofMatrix M')) ∧ M'.det = M.det ∧
      ∀ a b : Fin n, b < a → M' a b = 0 := by
  induction d generalizing i M with
  | zero => exact Or.inr ⟨M, rfl, rfl, fun a b hab => hM a b (by have := b.isLt; omega) hab⟩
  | succ d ih =>
    have hi : i < n := by omega
    rw [List.range'_succ, Mat.elimAll]
    rcases elimCol_spec hO ⟨i, hi⟩ (List.range' (i + 1) (n - (i + 1))) M
      (fun j hj => by rw [List.mem_range'_1] at hj; exact ⟨by simp only; omega, by omega⟩)
      List.nodup_range' with h | ⟨M', h1, h2, h3, h4, h5⟩
    · left; simp only at h; rw [h]; rfl
    · simp only at h1; rw [h1]
      simp only [res_ok_bind]
      rcases ih (i + 1) (by omega) M' (by
        intro a b hb hba
        by_cases hbi : b.val = i
        · have hb' : b = ⟨i, hi⟩ := Fin.ext hbi
          have hba' : b.val < a.val := hba
          rw [hb']
          exact h5 a (by rw [List.mem_range'_1]; have := a.isLt; omega)
        · exact h3 (fun a b hb hba => hM a b hb hba) a b (show b.val < i by omega) hba) with h | ⟨M'', e1, e2, e3⟩
      · left; exact h
      · right; exact ⟨M'', e1, e2.trans h2, e3⟩

end field

/-! ### Minors and the Laplace expansion -/

theorem finRange_filter_ne (i : Fin (n + 1)) :
    (List.finRange (n + 1)).filter (fun a => a ≠ i) = (List.finRange n).map i.succAbove := by
  have h1 : ((List.finRange (n + 1)).filter (fun a => decide (a ≠ i))).Pairwise (· < ·) :=
    (List.pairwise_lt_finRange (n + 1)).filter _
  have h2 : ((List.finRange n).map i.succAbove).Pairwise (· < ·) :=
    List.Pairwise.map _ (fun a b hab => (Fin.strictMono_succAbove i) hab) (List.pairwise_lt_finRange n)
  refine List.Perm.eq_of_pairwise (fun a b _ _ hab hba => absurd (lt_trans hab hba) (lt_irrefl _)) h1 h2 ?_
  rw [List.perm_ext_iff_of_nodup (h1.imp fun h => ne_of_lt h) (h2.imp fun h => ne_of_lt h)]
  intro a
  simp only [List.mem_filter, List.mem_finRange, true_and, List.mem_map, decide_eq_true_eq]
  exact (Fin.exists_succAbove_eq_iff).symm

theorem zipIdx_filter {α : Type} (f : Fin (n + 1) → α) (i : Fin (n + 1)) :
    (((List.finRange (n + 1)).map f).zipIdx.filter fun p => p.2 ≠ i.val) =
      (List.finRange n).map fun k => (f (i.succAbove k), (i.succAbove k).val) := by
  have e : ((List.finRange (n + 1)).map f).zipIdx = (List.finRange (n + 1)).map fun k => (f k, k.val) := by
    apply List.ext_getElem (by simp)
    intro k h1 h2
    simp
  rw [e, List.filter_map]
  have : ((fun p : α × Nat => decide (p.2 ≠ i.val)) ∘ fun k : Fin (n + 1) => (f k, k.val)) = fun a => decide (a ≠ i) := by
    funext a; simp [Fin.ext_iff]
  rw [this, finRange_filter_ne, List.map_map]; rfl

/-- The minor collected by `cofactor` is the submatrix without row `i` and column `j`. -/
theorem minor_eq (t : Target) (a : Mat T (n + 1) (n + 1)) (i j : Fin (n + 1)) (hn : n + 1 < t.W) :
    a.minor t i j = .ok (Mat.ofMatrix (a.toMatrix.submatrix i.succAbove j.succAbove)) := by
  unfold Mat.minor
  rw [drain_rowsRef t a hn]
  simp only [res_ok_bind]
  rw [rowsOf, zipIdx_filter, List.map_map]
  have hrow : ∀ k : Fin n, ((fun p : Vec T (n + 1) × Nat =>
      Vec.collect t n ((p.1.toList.zipIdx.filter fun q => q.2 ≠ j.val).map fun q => (pure q.1 : Res T))) ∘ fun k : Fin n =>
        ((Vec.ofFn fun b => a.get (i.succAbove k) b), (i.succAbove k).val)) k =
      .ok (Vec.ofFn fun b => a.get (i.succAbove k) (j.succAbove b)) := by
    intro k
    simp only [Function.comp]
    rw [Vec.toList_ofFn, zipIdx_filter, List.map_map]
    exact Vec.collect_finRange_ok t _ _ (fun b => rfl)
  rw [Vec.collect_finRange_ok t _ (fun k => Vec.ofFn fun b => a.get (i.succAbove k) (j.succAbove b)) hrow]
  rfl

theorem cofSign_eq [Ring T] {O : Ops T} (hO : O.IsRing) (t : Target) (i j : Nat) (h : i + j < t.W) :
    Mat.cofSign t O i j = .ok ((-1) ^ (i + j)) := by
  unfold Mat.cofSign
  rw [uadd, if_pos h, res_ok_bind]
  split
  · rename_i h'; rw [Even.neg_one_pow (Nat.even_iff.2 h'), hO.one]; rfl
  · rename_i h'; rw [Odd.neg_one_pow (Nat.odd_iff.2 (by omega)), hO.neg, hO.one]

end Rowcol
