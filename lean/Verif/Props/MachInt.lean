import Verif.Lemmas.Sim
import Verif.Props.Inv
import Verif.MachInt

/-! # C72: checked machine integers as element types -/

namespace Rowcol

variable {n r c l w : Nat}

theorem toInt_ofInt_fit (hw : 0 < w) {z : Int} (h : -2 ^ (w - 1) ≤ z ∧ z < 2 ^ (w - 1)) : (BitVec.ofInt w z).toInt = z := by
  obtain ⟨k, rfl⟩ : ∃ k, w = k + 1 := ⟨w - 1, by omega⟩
  rw [BitVec.toInt_ofInt]
  simp only [Nat.add_sub_cancel] at h
  apply Int.bmod_eq_of_le
  · have : ((2 ^ (k + 1) : Nat) : Int) / 2 = 2 ^ k := by push_cast; rw [pow_succ]; omega
    omega
  · have : (((2 ^ (k + 1) : Nat) : Int) + 1) / 2 = 2 ^ k := by push_cast; rw [pow_succ]; omega
    omega

theorem toNat_ofInt_fit {z : Int} (h : 0 ≤ z ∧ z < 2 ^ w) : ((BitVec.ofInt w z).toNat : Int) = z := by
  rw [BitVec.toNat_ofInt]
  push_cast
  rw [Int.emod_eq_of_lt h.1 h.2]
  exact Int.toNat_of_nonneg h.1

theorem fitS_exact (hw : 0 < w) (z : Int) : ExactOrPanic BitVec.toInt (fitS true w z) (.ok z) := by
  unfold fitS
  split
  · exact .panic _
  · rename_i h; exact .ok' (toInt_ofInt_fit hw (by simpa using h))

theorem fitU_exact (z : Int) : ExactOrPanic uval (fitU true w z) (.ok z) := by
  unfold fitU
  split
  · exact .panic _
  · rename_i h; exact .ok' (toNat_ofInt_fit (by simpa using h))

theorem signed_divHom (hw : 1 < w) : (Ops.signed true w).DivHom Ops.int BitVec.toInt where
  zero := by simp [Ops.signed, Ops.int]
  one := by
    have : (1#w).toInt = 1 := by
      rw [BitVec.toInt_one hw]
    exact this
  add a b := fitS_exact (by omega) _
  sub a b := fitS_exact (by omega) _
  mul a b := fitS_exact (by omega) _
  neg a := fitS_exact (by omega) _
  isZero a := by
    simp only [Ops.signed, Ops.int]
    by_cases h : a = 0#w
    · simp [h]
    · have : a.toInt ≠ 0 := fun h' => h (BitVec.eq_of_toInt_eq (by simpa using h'))
      simp [h, this]
  div a b hb := by
    have hb' : b ≠ 0#w := by simpa [Ops.signed] using hb
    have : b.toInt ≠ 0 := fun h' => hb' (BitVec.eq_of_toInt_eq (by simpa using h'))
    simp only [Ops.signed, Ops.int, if_neg hb', if_neg this]
    exact fitS_exact (by omega) _

theorem unsigned_divHom (hw : 0 < w) : (Ops.unsigned true w).DivHom Ops.int uval where
  zero := by simp [Ops.unsigned, Ops.int, uval]
  one := by
    have h2 : 1 < 2 ^ w := Nat.one_lt_two_pow (by omega)
    simp [Ops.unsigned, Ops.int, uval, Nat.mod_eq_of_lt h2]
  add a b := fitU_exact _
  sub a b := fitU_exact _
  mul a b := fitU_exact _
  neg a := fitU_exact _
  isZero a := by
    simp only [Ops.unsigned, Ops.int, uval]
    by_cases h : a = 0#w
    · simp [h]
    · have : a.toNat ≠ 0 := fun h' => h (BitVec.eq_of_toNat_eq (by simpa using h'))
      simp [h, this]
  div a b hb := by
    have hb' : b ≠ 0#w := by simpa [Ops.unsigned] using hb
    have : b.toNat ≠ 0 := fun h' => hb' (BitVec.eq_of_toNat_eq (by simpa using h'))
    have h3 : uval b ≠ 0 := by simpa [uval] using this
    simp only [Ops.unsigned, Ops.int, if_neg hb', if_neg h3]
    have := fitU_exact (w := w) ((a.toNat / b.toNat : Nat) : Int)
    rwa [show ((a.toNat / b.toNat : Nat) : Int) = (uval a).tdiv (uval b) by
      rw [uval, uval, Int.natCast_div]; exact (Int.tdiv_eq_ediv_of_nonneg (by omega)).symm] at this

/-! ## C72 -/

/-- C72: the checked integer types: every element operation of `iW` and `uW` in a build with overflow checks returns the
exact value or panics. -/
theorem C72_types :
    (∀ w, 1 < w → (Ops.signed true w).DivHom Ops.int BitVec.toInt) ∧
    (∀ w, 0 < w → (Ops.unsigned true w).DivHom Ops.int uval) :=
  ⟨fun _ h => signed_divHom h, fun _ h => unsigned_divHom h⟩

theorem ExactOrPanic.post {α β γ : Type} {φ : α → β} {x : Res α} {b : β} (h : ExactOrPanic φ x (.ok b)) (g : β → γ) :
    ExactOrPanic (fun a => g (φ a)) x (.ok (g b)) := by
  rcases h with h | ⟨a, h1, h2⟩
  · exact .inl h
  · cases h2; exact .inr ⟨a, h1, rfl⟩

/-- The numeric values of a vector's elements. -/
def Vec.vals {T V : Type} (φ : T → V) (v : Vec T n) : Fin n → V := fun i => φ (v.get i)

/-- The numeric values of a matrix's entries. -/
def Mat.vals {T V : Type} (φ : T → V) (a : Mat T r c) : Matrix (Fin r) (Fin c) V := fun i j => φ (a.get i j)

theorem vecVals {T V : Type} {φ : T → V} {x : Res (Vec T n)} {y : Vec V n} (h : ExactOrPanic (Vec.mapV φ) x (.ok y)) :
    ExactOrPanic (Vec.vals φ) x (.ok y.get) := by
  have := h.post Vec.get
  rwa [show (fun a : Vec T n => (Vec.mapV φ a).get) = Vec.vals φ by funext a i; simp [Vec.vals]] at this

theorem matVals {T V : Type} {φ : T → V} {x : Res (Mat T r c)} {y : Mat V r c} (h : ExactOrPanic (Mat.mapV φ) x (.ok y)) :
    ExactOrPanic (Mat.vals φ) x (.ok y.toMatrix) := by
  have := h.post Mat.toMatrix
  rwa [show (fun a : Mat T r c => (Mat.mapV φ a).toMatrix) = Mat.vals φ by funext a i j; simp [Mat.vals]] at this

theorem mapV_toMatrix {T V : Type} (φ : T → V) (a : Mat T r c) : (a.mapV φ).toMatrix = a.vals φ := by
  ext i j; simp [Mat.vals]

section Checked
variable {T : Type} {O : Ops T} {φ : T → Int} (H : O.Hom Ops.int φ) (t : Target)
include H

/-- C72, vectors of checked integers: `+`, `-`, scalar `*`, negation, `sum`, `dot` return the exact value or panic. -/
theorem C72_vec (a b : Vec T n) (s : T) :
    (∀ op ∈ vecForms t O.add, ExactOrPanic (Vec.vals φ) (op a b) (.ok fun i => φ (a.get i) + φ (b.get i))) ∧
    (∀ op ∈ vecForms t O.sub, ExactOrPanic (Vec.vals φ) (op a b) (.ok fun i => φ (a.get i) - φ (b.get i))) ∧
    ExactOrPanic (Vec.vals φ) (a.mulScalar t O.mul s) (.ok fun i => φ (a.get i) * φ s) ∧
    ExactOrPanic (Vec.vals φ) (a.neg t O.neg) (.ok fun i => -φ (a.get i)) ∧
    ExactOrPanic φ (a.sum O) (.ok (∑ i, φ (a.get i))) ∧
    ExactOrPanic φ (a.dot O b) (.ok (∑ i, φ (a.get i) * φ (b.get i))) := by
  have g : ∀ f : Fin n → Int, (Vec.ofFn f).get = f := fun f => funext fun i => Vec.get_ofFn f i
  refine ⟨fun op hop => ?_, fun op hop => ?_, ?_, ?_, ?_, ?_⟩
  · rw [C18_vec_forms_agree t O.add op (Vec.opVV t O.add) hop (by simp [vecForms])]
    have h := sim_vecOp t t H.add a b
    rw [(C18_vec_ok t Ops.int.add (Vec.opVV t Ops.int.add) (by simp [vecForms]) _ _
      (Vec.ofFn fun i => φ (a.get i) + φ (b.get i))).2 (by simp [Ops.int])] at h
    simpa [g] using vecVals h
  · rw [C18_vec_forms_agree t O.sub op (Vec.opVV t O.sub) hop (by simp [vecForms])]
    have h := sim_vecOp t t H.sub a b
    rw [(C18_vec_ok t Ops.int.sub (Vec.opVV t Ops.int.sub) (by simp [vecForms]) _ _
      (Vec.ofFn fun i => φ (a.get i) - φ (b.get i))).2 (by simp [Ops.int])] at h
    simpa [g] using vecVals h
  · have h := sim_vecScalar t t (s := s) (fun x => H.mul x s) a
    rw [(C19_vec_ok t Ops.int.mul Ops.int.neg _ _ (Vec.ofFn fun i => φ (a.get i) * φ s)).1.2 (by simp [Ops.int])] at h
    simpa [g] using vecVals h
  · have h := sim_vecNeg t t H.neg a
    rw [(C19_vec_ok t Ops.int.mul Ops.int.neg _ 0 (Vec.ofFn fun i => -φ (a.get i))).2.2.2 (by simp [Ops.int])] at h
    simpa [g] using vecVals h
  · have h := sim_vecSum H a
    rw [C26_vec_sum Ops.int_isRing.toIsSemiring] at h
    simpa using h
  · have h := sim_dot H a b
    rw [C23_dot Ops.int_isRing.toIsSemiring] at h
    simpa using h

/-- C72, `cross` of checked integers is exact or panics. -/
theorem C72_cross (a b : Vec T 3) :
    ExactOrPanic (Vec.vals φ) (a.cross t O b) (.ok (crossProduct (fun i => φ (a.get i)) (fun i => φ (b.get i)))) := by
  have h := sim_cross H t t a b
  rw [cross_eq Ops.int_isRing] at h
  have := vecVals h
  rwa [show (Vec.ofFn (crossProduct (a.mapV φ).get (b.mapV φ).get)).get =
    crossProduct (fun i => φ (a.get i)) (fun i => φ (b.get i)) by
      funext i; rw [Vec.get_ofFn]
      have e : ∀ v : Vec T 3, (v.mapV φ).get = fun i => φ (v.get i) := fun v => funext fun i => Vec.get_mapV φ v i
      rw [e, e]] at this

/-- C72, matrices of checked integers: `+`, `-`, scalar `*`, negation and `sum` are exact or panic. -/
theorem C72_mat (a b : Mat T r c) (s : T) :
    (∀ op ∈ matForms t O.add, ExactOrPanic (Mat.vals φ) (op a b) (.ok (a.vals φ + b.vals φ))) ∧
    (∀ op ∈ matForms t O.sub, ExactOrPanic (Mat.vals φ) (op a b) (.ok (a.vals φ - b.vals φ))) ∧
    ExactOrPanic (Mat.vals φ) (a.mulScalar t O.mul s) (.ok (φ s • a.vals φ)) ∧
    ExactOrPanic (Mat.vals φ) (a.neg t O.neg) (.ok (-a.vals φ)) ∧
    ExactOrPanic φ (a.sum O) (.ok (∑ i, ∑ j, φ (a.get i j))) := by
  refine ⟨fun op hop => ?_, fun op hop => ?_, ?_, ?_, ?_⟩
  · rw [C18_mat_forms_agree t O.add op (Mat.opVV t O.add) hop (by simp [matForms])]
    have h := sim_matOp t t H.add a b
    rw [(C18_mat_ok t Ops.int.add (Mat.opVV t Ops.int.add) (by simp [matForms]) _ _
      (Mat.ofMatrix (a.vals φ + b.vals φ))).2 (by simp [Ops.int, Mat.vals])] at h
    simpa using matVals h
  · rw [C18_mat_forms_agree t O.sub op (Mat.opVV t O.sub) hop (by simp [matForms])]
    have h := sim_matOp t t H.sub a b
    rw [(C18_mat_ok t Ops.int.sub (Mat.opVV t Ops.int.sub) (by simp [matForms]) _ _
      (Mat.ofMatrix (a.vals φ - b.vals φ))).2 (by simp [Ops.int, Mat.vals])] at h
    simpa using matVals h
  · have h := sim_matScalar t t (s := s) (fun x => H.mul x s) a
    rw [(C19_mat_ok t Ops.int.mul Ops.int.neg _ _ (Mat.ofMatrix (φ s • a.vals φ))
      (Mat.ofMatrix (φ s • a.vals φ))).1.2 (by simp [Ops.int, Mat.vals, mul_comm])] at h
    simpa using matVals h
  · have h := sim_matNeg t t H.neg a
    rw [(C19_mat_ok t Ops.int.mul Ops.int.neg _ 0 (Mat.ofMatrix (-a.vals φ))
      (Mat.ofMatrix (-a.vals φ))).2.2.2 (by simp [Ops.int, Mat.vals])] at h
    simpa using matVals h
  · have h := sim_matSum H a
    rw [C26_mat_sum Ops.int_isRing.toIsSemiring] at h
    simpa using h

/-- C72, products of checked integers: every form of matrix multiplication, `m * v`, and `pow` are exact or panic. -/
theorem C72_products (a : Mat T l n) (b : Mat T n c) (v : Vec T n) (p : Mat T n n) (k : Nat)
    (hl : l < t.W) (hn : n < t.W) (hc : c < t.W) :
    (∀ op ∈ mulForms t O, ExactOrPanic (Mat.vals φ) (op a b) (.ok (a.vals φ * b.vals φ))) ∧
    ExactOrPanic (Vec.vals φ) (a.mulVec t O v) (.ok ((a.vals φ).mulVec fun i => φ (v.get i))) ∧
    ExactOrPanic (Vec.vals φ) (a.mulVecRef t O v) (.ok ((a.vals φ).mulVec fun i => φ (v.get i))) ∧
    ExactOrPanic (Mat.vals φ) (p.pow t O k) (.ok (p.vals φ ^ k)) := by
  have e : (v.mapV φ).get = fun i => φ (v.get i) := funext fun i => Vec.get_mapV φ v i
  have g : ∀ f : Fin l → Int, (Vec.ofFn f).get = f := fun f => funext fun i => Vec.get_ofFn f i
  refine ⟨fun op hop => ?_, ?_, ?_, ?_⟩
  · rw [C41_forms_agree t O op (Mat.mulVV t O) hop (by simp [mulForms]) a b hl hn hc]
    have h := sim_mul H t t rfl a b hl hn hc
    rw [mulVV_eq Ops.int_isRing.toIsSemiring t _ _ hl hn hc] at h
    simpa [mapV_toMatrix] using matVals h
  · have h := sim_mulVec H t t rfl a v hl
    rw [(mulVec_eq Ops.int_isRing.toIsSemiring t _ _ hl).1] at h
    have := vecVals h
    rwa [g, e, mapV_toMatrix] at this
  · have h := sim_mulVecRef H t t a v
    rw [(mulVec_eq Ops.int_isRing.toIsSemiring t _ _ hl).2] at h
    have := vecVals h
    rwa [g, e, mapV_toMatrix] at this
  · have h := sim_pow H t t rfl p k hn
    rw [pow_eq Ops.int_isRing.toIsSemiring t _ _ hn] at h
    simpa [mapV_toMatrix] using matVals h

/-- C72, `determinant` and `cofactor` of small matrices of checked integers are exact or panic. -/
theorem C72_det_small (k : Nat) (hk : k ≤ 2) (a : Mat T (k + 1) (k + 1)) :
    ExactOrPanic φ (a.determinant t O k) (.ok (a.vals φ).det) := by
  have h := sim_det_small H t t k hk a
  rw [C50_small Ops.int_isRing t k (by omega), mapV_toMatrix] at h
  exact h

theorem C72_cofactor_small (k : Nat) (hk : k ≤ 2) (a : Mat T (k + 2) (k + 2)) (i j : Fin (k + 2)) (ht : 2 * (k + 2) < t.W) :
    ExactOrPanic φ (a.cofactor t O k (i, j))
      (.ok ((-1) ^ (i.val + j.val) * ((a.vals φ).submatrix i.succAbove j.succAbove).det)) := by
  have hi := i.isLt
  have hj := j.isLt
  have h : ExactOrPanic φ (a.cofactor t O k (i, j)) ((a.mapV φ).cofactor t Ops.int k (i, j)) := by
    match k, hk with
    | 0, _ => exact sim_cof_small H t t rfl 0 (by omega) a (i, j) (by omega) ⟨hi, hj⟩ (by simp; omega)
    | 1, _ => exact sim_cof_small H t t rfl 1 (by omega) a (i, j) (by omega) ⟨hi, hj⟩ (by simp; omega)
    | 2, _ => exact sim_cofGen H t t rfl (fun b => sim_det_small H t t 2 (by omega) b) a (i, j) (by omega) (by simp; omega)
  rw [C53_cofactor_ring Ops.int_isRing t k (by omega) _ i j (by omega) (by omega), mapV_toMatrix] at h
  exact h

end Checked

/-! With `i8`: 100 + 27 fits, 100 + 28 does not. -/
example : (⟨[100#8, 27#8], rfl⟩ : Vec (BitVec 8) 2).sum (Ops.signed true 8) = .ok 127#8 := by decide
example : (⟨[100#8, 28#8], rfl⟩ : Vec (BitVec 8) 2).sum (Ops.signed true 8) = .error .panic := by decide
/-! The exact value fits but an intermediate result does not: a panic, never a wrong value. -/
example : (⟨[100#8, 28#8, 255#8], rfl⟩ : Vec (BitVec 8) 3).sum (Ops.signed true 8) = .error .panic := by decide
example : (⟨[100#8, 255#8, 28#8], rfl⟩ : Vec (BitVec 8) 3).sum (Ops.signed true 8) = .ok 127#8 := by decide

end Rowcol
