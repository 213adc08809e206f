import Verif.Props.MachInt
import Mathlib.Data.BitVec

/-! # C73: integers in builds without overflow checks -/

namespace Rowcol

variable {n r c l w : Nat}

/-- `O` is arithmetic on `w`-bit words of numeric value `φ`: every word is the residue of its value modulo `2^w`, and
every `0`, `1`, `+`, `-`, `*` and negation is the residue of the exact result. -/
structure Wrapping (w : Nat) (O : Ops (BitVec w)) (φ : BitVec w → Int) : Prop where
  value : ∀ x, BitVec.ofInt w (φ x) = x
  zero : O.zero = BitVec.ofInt w 0
  one : O.one = BitVec.ofInt w 1
  add : ∀ x y, O.add x y = .ok (BitVec.ofInt w (φ x + φ y))
  sub : ∀ x y, O.sub x y = .ok (BitVec.ofInt w (φ x - φ y))
  mul : ∀ x y, O.mul x y = .ok (BitVec.ofInt w (φ x * φ y))
  neg : ∀ x, O.neg x = .ok (BitVec.ofInt w (-φ x))

theorem ofInt_sub' (x y : Int) : BitVec.ofInt w (x - y) = BitVec.ofInt w x - BitVec.ofInt w y := by
  rw [Int.sub_eq_add_neg, BitVec.ofInt_add, BitVec.ofInt_neg, BitVec.sub_eq_add_neg]

theorem Wrapping.hom {O : Ops (BitVec w)} {φ} (H : Wrapping w O φ) : Ops.int.Hom O (BitVec.ofInt w) where
  zero := H.zero.symm
  one := H.one.symm
  add a b := by
    rw [H.add]; refine .ok' ?_; rw [BitVec.ofInt_add, BitVec.ofInt_add, H.value, H.value]
  sub a b := by
    rw [H.sub]; refine .ok' ?_; rw [ofInt_sub', ofInt_sub', H.value, H.value]
  mul a b := by
    rw [H.mul]; refine .ok' ?_; rw [BitVec.ofInt_mul, BitVec.ofInt_mul, H.value, H.value]
  neg a := by
    rw [H.neg]; refine .ok' ?_; rw [BitVec.ofInt_neg, BitVec.ofInt_neg, H.value]

theorem uval_value (x : BitVec w) : BitVec.ofInt w (uval x) = x := by simp [uval]

/-- C73: the integer types of a build without overflow checks wrap around, and `ofInt w z` has numeric value `z` exactly
when `z` is in range. -/
theorem C73_types :
    (∀ w, Wrapping w (Ops.signed false w) BitVec.toInt) ∧
    (∀ w, Wrapping w (Ops.unsigned false w) uval) ∧
    (∀ w, 0 < w → ∀ z : Int, (BitVec.ofInt w z).toInt = z ↔ -2 ^ (w - 1) ≤ z ∧ z < 2 ^ (w - 1)) ∧
    (∀ w, ∀ z : Int, uval (BitVec.ofInt w z) = z ↔ 0 ≤ z ∧ z < 2 ^ w) ∧
    (∀ w, ∀ z : Int, (2 : Int) ^ w ∣ (BitVec.ofInt w z).toInt - z ∧ (2 : Int) ^ w ∣ uval (BitVec.ofInt w z) - z) := by
  refine ⟨fun w => ⟨fun _ => BitVec.ofInt_toInt, ?_, ?_, ?_, ?_, ?_, ?_⟩, fun w => ⟨uval_value, ?_, ?_, ?_, ?_, ?_, ?_⟩,
    ?_, ?_, ?_⟩
  · simp [Ops.signed]
  · simp [Ops.signed]
  · simp [Ops.signed, fitS]
  · simp [Ops.signed, fitS]
  · simp [Ops.signed, fitS]
  · simp [Ops.signed, fitS]
  · simp [Ops.unsigned]
  · simp [Ops.unsigned]
  · intro x y; simp only [Ops.unsigned, fitU, uval]; simp
  · intro x y; simp only [Ops.unsigned, fitU, uval]; simp
  · intro x y; simp only [Ops.unsigned, fitU, uval]; simp
  · intro x; simp only [Ops.unsigned, fitU, uval]; simp
  · intro w hw z
    refine ⟨fun h => ?_, toInt_ofInt_fit hw⟩
    rw [← h]; exact ⟨BitVec.le_toInt _, BitVec.toInt_lt⟩
  · intro w z
    refine ⟨fun h => ?_, toNat_ofInt_fit⟩
    rw [← h, uval]
    have := (BitVec.ofInt w z).isLt
    constructor
    · omega
    · exact_mod_cast this
  · intro w z
    constructor
    · rw [BitVec.toInt_ofInt, show (2 : Int) ^ w = ((2 ^ w : Nat) : Int) by push_cast; rfl]
      exact Int.dvd_bmod_sub_self
    · rw [uval, BitVec.toNat_ofInt, show (2 : Int) ^ w = ((2 ^ w : Nat) : Int) by push_cast; rfl,
        Int.toNat_of_nonneg (Int.emod_nonneg _ (by positivity))]
      exact Int.dvd_emod_sub_self

theorem ExactOrPanic.of_ok {α β : Type} {ψ : α → β} {a : α} {y : Res β} (h : ExactOrPanic ψ (.ok a) y) : y = .ok (ψ a) := by
  rcases h with h | ⟨b, h1, h2⟩
  · cases h
  · cases h1; exact h2

section Wrapping
variable {O : Ops (BitVec w)} {φ : BitVec w → Int} (H : Wrapping w O φ) (t : Target)
include H

/-- C73: wrapping integers form a commutative ring, so everything stated for rings applies to them. -/
theorem C73_ring : O.IsRing where
  zero := by rw [H.zero]; simp
  one := by rw [H.one]; simp
  add a b := by rw [H.add, BitVec.ofInt_add, H.value, H.value]
  mul a b := by rw [H.mul, BitVec.ofInt_mul, H.value, H.value]
  sub a b := by rw [H.sub, ofInt_sub', H.value, H.value]
  neg a := by rw [H.neg, BitVec.ofInt_neg, H.value]

theorem mapV_value (v : Vec (BitVec w) n) : (v.mapV φ).mapV (BitVec.ofInt w) = v :=
  Vec.ext_get fun i => by simp [H.value]

theorem mat_mapV_value (a : Mat (BitVec w) r c) : (a.mapV φ).mapV (BitVec.ofInt w) = a :=
  Mat.ext_get fun i j => by simp [H.value]

/-- C73, vectors of wrapping integers: every result is the exact one modulo `2^w`; nothing panics. -/
theorem C73_vec (a b : Vec (BitVec w) n) (s : BitVec w) :
    (∀ op ∈ vecForms t O.add, op a b = .ok (Vec.ofFn fun i => BitVec.ofInt w (φ (a.get i) + φ (b.get i)))) ∧
    (∀ op ∈ vecForms t O.sub, op a b = .ok (Vec.ofFn fun i => BitVec.ofInt w (φ (a.get i) - φ (b.get i)))) ∧
    a.mulScalar t O.mul s = .ok (Vec.ofFn fun i => BitVec.ofInt w (φ (a.get i) * φ s)) ∧
    a.neg t O.neg = .ok (Vec.ofFn fun i => BitVec.ofInt w (-φ (a.get i))) ∧
    a.sum O = .ok (BitVec.ofInt w (∑ i, φ (a.get i))) ∧
    a.dot O b = .ok (BitVec.ofInt w (∑ i, φ (a.get i) * φ (b.get i))) := by
  refine ⟨fun op hop => ?_, fun op hop => ?_, ?_, ?_, ?_, ?_⟩
  · exact (C18_vec_ok t O.add op hop a b _).2 fun i => by rw [H.add, Vec.get_ofFn]
  · exact (C18_vec_ok t O.sub op hop a b _).2 fun i => by rw [H.sub, Vec.get_ofFn]
  · exact (C19_vec_ok t O.mul O.neg a s _).1.2 fun i => by rw [H.mul, Vec.get_ofFn]
  · exact (C19_vec_ok t O.mul O.neg a s _).2.2.2 fun i => by rw [H.neg, Vec.get_ofFn]
  · have h := sim_vecSum H.hom (a.mapV φ)
    rw [C26_vec_sum Ops.int_isRing.toIsSemiring, mapV_value H] at h
    simpa using h.of_ok
  · have h := sim_dot H.hom (a.mapV φ) (b.mapV φ)
    rw [C23_dot Ops.int_isRing.toIsSemiring, mapV_value H, mapV_value H] at h
    simpa using h.of_ok

/-- C73, `cross`. -/
theorem C73_cross (a b : Vec (BitVec w) 3) :
    a.cross t O b = .ok (Vec.ofFn fun i =>
      BitVec.ofInt w (crossProduct (fun i => φ (a.get i)) (fun i => φ (b.get i)) i)) := by
  have h := sim_cross H.hom t t (a.mapV φ) (b.mapV φ)
  rw [cross_eq Ops.int_isRing, mapV_value H, mapV_value H] at h
  rw [h.of_ok]
  congr 1
  apply Vec.ext_get; intro i
  have e : ∀ v : Vec (BitVec w) 3, (v.mapV φ).get = fun i => φ (v.get i) := fun v => funext fun i => Vec.get_mapV φ v i
  simp [e]

/-- C73, matrices of wrapping integers. -/
theorem C73_mat (a b : Mat (BitVec w) r c) (s : BitVec w) :
    (∀ op ∈ matForms t O.add, op a b = .ok (Mat.ofMatrix ((a.vals φ + b.vals φ).map (BitVec.ofInt w)))) ∧
    (∀ op ∈ matForms t O.sub, op a b = .ok (Mat.ofMatrix ((a.vals φ - b.vals φ).map (BitVec.ofInt w)))) ∧
    a.mulScalar t O.mul s = .ok (Mat.ofMatrix ((φ s • a.vals φ).map (BitVec.ofInt w))) ∧
    a.neg t O.neg = .ok (Mat.ofMatrix ((-a.vals φ).map (BitVec.ofInt w))) ∧
    a.sum O = .ok (BitVec.ofInt w (∑ i, ∑ j, φ (a.get i j))) := by
  refine ⟨fun op hop => ?_, fun op hop => ?_, ?_, ?_, ?_⟩
  · exact (C18_mat_ok t O.add op hop a b _).2 fun i j => by rw [H.add, Mat.get_ofMatrix]; rfl
  · exact (C18_mat_ok t O.sub op hop a b _).2 fun i j => by rw [H.sub, Mat.get_ofMatrix]; rfl
  · exact (C19_mat_ok t O.mul O.neg a s _ (Mat.ofMatrix ((-a.vals φ).map (BitVec.ofInt w)))).1.2 fun i j => by
      rw [H.mul, Mat.get_ofMatrix, mul_comm]; rfl
  · exact (C19_mat_ok t O.mul O.neg a s (Mat.ofMatrix ((-a.vals φ).map (BitVec.ofInt w))) _).2.2.2 fun i j => by
      rw [H.neg, Mat.get_ofMatrix]; rfl
  · have h := sim_matSum H.hom (a.mapV φ)
    rw [C26_mat_sum Ops.int_isRing.toIsSemiring, mat_mapV_value H] at h
    simpa using h.of_ok

omit H in
theorem mapV_ofMatrix (M : Matrix (Fin r) (Fin c) Int) :
    (Mat.ofMatrix M).mapV (BitVec.ofInt w) = Mat.ofMatrix (M.map (BitVec.ofInt w)) := Mat.ext_get fun i j => by simp

/-- C73, products of wrapping integers: every form of matrix multiplication, `m * v`, and `pow`. -/
theorem C73_products (a : Mat (BitVec w) l n) (b : Mat (BitVec w) n c) (v : Vec (BitVec w) n) (p : Mat (BitVec w) n n) (k : Nat)
    (hl : l < t.W) (hn : n < t.W) (hc : c < t.W) :
    (∀ op ∈ mulForms t O, op a b = .ok (Mat.ofMatrix ((a.vals φ * b.vals φ).map (BitVec.ofInt w)))) ∧
    a.mulVec t O v = .ok (Vec.ofFn fun i => BitVec.ofInt w ((a.vals φ).mulVec (fun i => φ (v.get i)) i)) ∧
    a.mulVecRef t O v = .ok (Vec.ofFn fun i => BitVec.ofInt w ((a.vals φ).mulVec (fun i => φ (v.get i)) i)) ∧
    p.pow t O k = .ok (Mat.ofMatrix ((p.vals φ ^ k).map (BitVec.ofInt w))) := by
  have e : (v.mapV φ).get = fun i => φ (v.get i) := funext fun i => Vec.get_mapV φ v i
  refine ⟨fun op hop => ?_, ?_, ?_, ?_⟩
  · rw [C41_forms_agree t O op (Mat.mulVV t O) hop (by simp [mulForms]) a b hl hn hc]
    have h := sim_mul H.hom t t rfl (a.mapV φ) (b.mapV φ) hl hn hc
    rw [mulVV_eq Ops.int_isRing.toIsSemiring t _ _ hl hn hc, mat_mapV_value H, mat_mapV_value H] at h
    rw [h.of_ok, mapV_ofMatrix, mapV_toMatrix, mapV_toMatrix]
  · have h := sim_mulVec H.hom t t rfl (a.mapV φ) (v.mapV φ) hl
    rw [(mulVec_eq Ops.int_isRing.toIsSemiring t _ _ hl).1, mat_mapV_value H, mapV_value H] at h
    rw [h.of_ok, mapV_toMatrix, e]
    congr 1; apply Vec.ext_get; intro i; simp
  · have h := sim_mulVecRef H.hom t t (a.mapV φ) (v.mapV φ)
    rw [(mulVec_eq Ops.int_isRing.toIsSemiring t _ _ hl).2, mat_mapV_value H, mapV_value H] at h
    rw [h.of_ok, mapV_toMatrix, e]
    congr 1; apply Vec.ext_get; intro i; simp
  · have h := sim_pow H.hom t t rfl (p.mapV φ) k hn
    rw [pow_eq Ops.int_isRing.toIsSemiring t _ _ hn, mat_mapV_value H] at h
    rw [h.of_ok, mapV_ofMatrix, mapV_toMatrix]

/-- C73, `determinant` up to size 3 and `cofactor` up to size 4: the exact value modulo `2^w`. -/
theorem C73_det_small (k : Nat) (hk : k ≤ 2) (a : Mat (BitVec w) (k + 1) (k + 1)) :
    a.determinant t O k = .ok (BitVec.ofInt w (a.vals φ).det) := by
  have h := sim_det_small H.hom t t k hk (a.mapV φ)
  rw [C50_small Ops.int_isRing t k (by omega), mapV_toMatrix, mat_mapV_value H] at h
  exact h.of_ok

theorem C73_cofactor_small (k : Nat) (hk : k ≤ 2) (a : Mat (BitVec w) (k + 2) (k + 2)) (i j : Fin (k + 2))
    (ht : 2 * (k + 2) < t.W) :
    a.cofactor t O k (i, j) =
      .ok (BitVec.ofInt w ((-1) ^ (i.val + j.val) * ((a.vals φ).submatrix i.succAbove j.succAbove).det)) := by
  have hi := i.isLt
  have hj := j.isLt
  have h : ExactOrPanic (BitVec.ofInt w) ((a.mapV φ).cofactor t Ops.int k (i, j))
      (((a.mapV φ).mapV (BitVec.ofInt w)).cofactor t O k (i, j)) := by
    match k, hk with
    | 0, _ => exact sim_cof_small H.hom t t rfl 0 (by omega) _ (i, j) (by omega) ⟨hi, hj⟩ (by simp; omega)
    | 1, _ => exact sim_cof_small H.hom t t rfl 1 (by omega) _ (i, j) (by omega) ⟨hi, hj⟩ (by simp; omega)
    | 2, _ => exact sim_cofGen H.hom t t rfl (fun b => sim_det_small H.hom t t 2 (by omega) b) _ (i, j) (by omega) (by simp; omega)
  rw [C53_cofactor_ring Ops.int_isRing t k (by omega) _ i j (by omega) (by omega), mapV_toMatrix, mat_mapV_value H] at h
  exact h.of_ok

end Wrapping

/-! With `i8` in a release build 100 + 28 is -128; an intermediate overflow does not spoil a result that fits. -/
example : (⟨[100#8, 28#8], rfl⟩ : Vec (BitVec 8) 2).sum (Ops.signed false 8) = .ok (BitVec.ofInt 8 (-128)) := by decide
example : (⟨[100#8, 28#8, 255#8], rfl⟩ : Vec (BitVec 8) 3).sum (Ops.signed false 8) = .ok 127#8 := by decide
example : Wrapping 64 (Ops.unsigned false 64) uval := C73_types.2.1 64

end Rowcol
