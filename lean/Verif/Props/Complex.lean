import Verif.Complex
import Verif.Props.Block
import Verif.Props.InvLaws
import Verif.Props.Ratio

/-! # C47, continued: complex matrices

`Matrix<Complex<T>, _, _>` with the complex arithmetic of `num` (Verif/Complex.lean). -/

namespace Rowcol
open Spec

variable {T : Type} {r c l n : Nat}

theorem conjugate_mapV [CommRing T] {O : Ops T} (hO : O.IsRing) (t : Target) (a : Mat (Mat.Cpx T) r c) :
    a.conjugate t O.neg = .ok (a.mapV conj) := by
  rw [conjugate_eq hO]
  congr 1
  exact Mat.ext_get fun i j => by rw [Mat.get_ofFn, Mat.get_mapV]

/-! ## The number types -/

/-- C47: with `num`'s arithmetic the complex numbers over a commutative ring are a commutative ring, in which `i * i = -1`, and over
an ordered field a field; so every theorem about rings and about fields applies to complex matrices. -/
theorem C47_types :
    (∀ {T : Type} [CommRing T] {O : Ops T}, O.IsRing → (Ops.complex O).IsRing ∧
      (Ops.complex O).mul ⟨O.zero, O.one⟩ ⟨O.zero, O.one⟩ = (Ops.complex O).neg (Ops.complex O).one) ∧
    (∀ {K : Type} [Field K] [LinearOrder K] [IsStrictOrderedRing K] {O : Ops K}, O.IsField → (Ops.complex O).IsField) := by
  refine ⟨fun hO => ⟨Mat.Cpx.isRing hO, ?_⟩, fun hO => Mat.Cpx.isField hO⟩
  simp only [Ops.complex, hO.zero, hO.one, hO.mul, hO.sub, hO.add, hO.neg]
  change Except.ok (_ : Mat.Cpx _) = Except.ok _
  congr 1
  ext <;> simp

section Field
variable {K : Type} [Field K] [LinearOrder K] [IsStrictOrderedRing K] {O : Ops K} (hO : O.IsField) (t : Target)
include hO

/-- Conjugation, and the inclusion of the real numbers, respect all operations. -/
theorem conj_preserves : (Ops.complex O).PreservesDiv (Ops.complex O) conj ∧ O.PreservesDiv (Ops.complex O) (fun x => ⟨x, 0⟩) := by
  have hC := Mat.Cpx.isField hO
  have h1 : ∀ f : Mat.Cpx K →+* Mat.Cpx K, (Ops.complex O).PreservesDiv (Ops.complex O) f := fun f =>
    { toPreserves := C85_types.1 hC.toIsRing hC.toIsRing f
      isZero := fun a => by rw [Bool.eq_iff_iff, hC.isZero, hC.isZero, map_eq_zero]
      div := fun a b h => by
        have hb : b ≠ 0 := fun h0 => by rw [(hC.isZero b).2 h0] at h; exact absurd h (by simp)
        rw [hC.div _ _ hb, hC.div _ _ ((map_ne_zero f).2 hb)]
        exact congrArg Except.ok (map_div₀ f a b).symm }
  have h2 : ∀ f : K →+* Mat.Cpx K, O.PreservesDiv (Ops.complex O) f := fun f =>
    { toPreserves := C85_types.1 hO.toIsRing hC.toIsRing f
      isZero := fun a => by rw [Bool.eq_iff_iff, hC.isZero, hO.isZero, map_eq_zero]
      div := fun a b h => by
        have hb : b ≠ 0 := fun h0 => by rw [(hO.isZero b).2 h0] at h; exact absurd h (by simp)
        rw [hO.div _ _ hb, hC.div _ _ ((map_ne_zero f).2 hb)]
        exact congrArg Except.ok (map_div₀ f a b).symm }
  exact ⟨h1 Mat.Cpx.conjHom, h2 Mat.Cpx.realHom⟩

/-- C47: conjugating a matrix conjugates its determinant and its cofactors; the inverse of the conjugate is the conjugate of the
inverse, and one is `None` exactly when the other is; powers likewise.  At every size. -/
theorem C47_linear_algebra (k e : Nat) (hk : 2 * (k + 2) < t.W) (a b : Mat (Mat.Cpx K) (k + 1) (k + 1))
    (a' b' : Mat (Mat.Cpx K) (k + 2) (k + 2)) (h : a.conjugate t O.neg = .ok b) (h' : a'.conjugate t O.neg = .ok b')
    (i j : Fin (k + 2)) :
    (∃ d, a.determinant t (Ops.complex O) k = .ok d ∧ b.determinant t (Ops.complex O) k = .ok ⟨d.re, -d.im⟩) ∧
    (∃ d, a'.cofactor t (Ops.complex O) k (i, j) = .ok d ∧ b'.cofactor t (Ops.complex O) k (i, j) = .ok ⟨d.re, -d.im⟩) ∧
    (a.inverse t (Ops.complex O) k = .ok none ↔ b.inverse t (Ops.complex O) k = .ok none) ∧
    (∀ x, a.inverse t (Ops.complex O) k = .ok (some x) →
      ∃ y, x.conjugate t O.neg = .ok y ∧ b.inverse t (Ops.complex O) k = .ok (some y)) ∧
    (∃ p q, a.pow t (Ops.complex O) e = .ok p ∧ p.conjugate t O.neg = .ok q ∧ b.pow t (Ops.complex O) e = .ok q) := by
  have hC := Mat.Cpx.isField hO
  have H := (conj_preserves hO).1
  rw [conjugate_mapV hO.toIsRing] at h h'
  obtain rfl := Except.ok.inj h
  obtain rfl := Except.ok.inj h'
  have z : (Ops.complex O).isZero 1 = false := by
    rw [Bool.eq_false_iff]; intro h; exact one_ne_zero ((hC.isZero 1).1 h)
  obtain ⟨hd, _, hi, _⟩ := C85_linear_algebra t H k a a' i j a 1 z hk
  obtain ⟨_, hc, _, _⟩ := C85_linear_algebra t H k a a' i j a 1 z hk
  have hi' := i.isLt
  have hj' := j.isLt
  refine ⟨⟨_, C48_determinant hC t k a (by omega), ?_⟩, ⟨_, C53_cofactor hC t k a' i j (by omega) (by omega), ?_⟩, ?_, fun x hx => ?_, ?_⟩
  · rw [hd, C48_determinant hC t k a (by omega)]; rfl
  · rw [hc, C53_cofactor hC t k a' i j (by omega) (by omega)]; rfl
  · rw [hi]
    obtain ⟨o, ho⟩ := inverse_ok t hC k a
    rw [ho]
    cases o with
    | none => exact ⟨fun _ => rfl, fun _ => rfl⟩
    | some x => exact ⟨fun h => absurd (Except.ok.inj h) (by simp), fun h => by cases h⟩
  · refine ⟨_, conjugate_mapV hO.toIsRing t x, ?_⟩
    rw [hi, hx]; rfl
  · have hp := pow_eq hC.toIsSemiring t a e (by omega : k + 1 < t.W)
    refine ⟨_, _, hp, conjugate_mapV hO.toIsRing t _, ?_⟩
    have := (C85_mat t H.toPreserves a a a a (⟨List.replicate (k + 1) 0, by simp⟩) 0 e (by omega) (by omega) (by omega))
    have h3 : (a.mapV conj).pow t (Ops.complex O) e = (a.pow t (Ops.complex O) e).map (Mat.mapV conj) := by tauto
    rw [h3, hp]; rfl

/-- C47: real matrices may be handled as complex ones: determinant, cofactor, inverse and power are those of the real matrix. -/
theorem C47_real (k e : Nat) (hk : 2 * (k + 2) < t.W) (a : Mat K (k + 1) (k + 1)) (a' : Mat K (k + 2) (k + 2)) (i j : Fin (k + 2)) :
    (a.mapV fun x => (⟨x, 0⟩ : Mat.Cpx K)).determinant t (Ops.complex O) k = (a.determinant t O k).map (fun x => ⟨x, 0⟩) ∧
    (a'.mapV fun x => (⟨x, 0⟩ : Mat.Cpx K)).cofactor t (Ops.complex O) k (i, j) = (a'.cofactor t O k (i, j)).map (fun x => ⟨x, 0⟩) ∧
    (a.mapV fun x => (⟨x, 0⟩ : Mat.Cpx K)).inverse t (Ops.complex O) k =
      (a.inverse t O k).map (Option.map (Mat.mapV fun x => ⟨x, 0⟩)) ∧
    (a.mapV fun x => (⟨x, 0⟩ : Mat.Cpx K)).pow t (Ops.complex O) e = (a.pow t O e).map (Mat.mapV fun x => ⟨x, 0⟩) := by
  have H := (conj_preserves hO).2
  have z : O.isZero 1 = false := by
    rw [Bool.eq_false_iff]; intro h; exact one_ne_zero ((hO.isZero 1).1 h)
  obtain ⟨h1, h2, h3, _⟩ := C85_linear_algebra t H k a a' i j a 1 z hk
  have := (C85_mat t H.toPreserves a a a a (⟨List.replicate (k + 1) 0, by simp⟩) 0 e (by omega) (by omega) (by omega))
  exact ⟨h1, h2, h3, by tauto⟩

end Field

/-! ## The conjugate transpose -/

section Adjoint

/-- The conjugate transpose. -/
def Spec.adj [CommRing T] (a : Mat (Mat.Cpx T) r c) : Mat (Mat.Cpx T) c r := Mat.ofFn fun i j => conj (a.get j i)

theorem adj_eq [CommRing T] {O : Ops T} (hO : O.IsRing) (t : Target) (a : Mat (Mat.Cpx T) r c) (hc : c < t.W) :
    (do let b ← a.conjugate t O.neg; b.transposed t) = .ok (adj a) := by
  rw [conjugate_mapV hO, res_ok_bind, transposed_eq t _ hc]
  congr 1
  exact Mat.ext_get fun i j => by rw [Mat.get_ofMatrix, adj, Mat.get_ofFn]; simp [Mat.toMatrix, Mat.get_mapV]

theorem adj_toMatrix [CommRing T] (a : Mat (Mat.Cpx T) r c) :
    (adj a).toMatrix = (a.toMatrix.map Mat.Cpx.conjHom).transpose := by
  ext1 i j
  simp only [Mat.toMatrix, adj, Mat.get_ofFn]
  rfl

/-- C47: the conjugate transpose (`conjugate` then `transposed`, in either order) of a product is the product of the conjugate
transposes in reverse order; taking it twice changes nothing. -/
theorem C47_adjoint [CommRing T] {O : Ops T} (hO : O.IsRing) (t : Target) (a : Mat (Mat.Cpx T) l n) (b : Mat (Mat.Cpx T) n c)
    (hl : l < t.W) (hn : n < t.W) (hc : c < t.W) :
    (do let x ← a.transposed t; x.conjugate t O.neg) = (do let x ← a.conjugate t O.neg; x.transposed t) ∧
    (do let p ← a.mulVV t (Ops.complex O) b; let q ← p.conjugate t O.neg; q.transposed t) =
      (do
        let x ← a.conjugate t O.neg; let x ← x.transposed t
        let y ← b.conjugate t O.neg; let y ← y.transposed t
        y.mulVV t (Ops.complex O) x) ∧
    (do
      let x ← a.conjugate t O.neg; let x ← x.transposed t
      let y ← x.conjugate t O.neg; y.transposed t) = .ok a := by
  have hC := (Mat.Cpx.isRing hO).toIsSemiring
  refine ⟨?_, ?_, ?_⟩
  · rw [adj_eq hO t a hn, transposed_eq t a hn, res_ok_bind, conjugate_mapV hO]
    congr 1
    exact Mat.ext_get fun i j => by rw [Mat.get_mapV, Mat.get_ofMatrix, adj, Mat.get_ofFn]; rfl
  · rw [mulVV_eq hC t a b hl hn hc, res_ok_bind, adj_eq hO t _ hc]
    have e : (do
        let x ← a.conjugate t O.neg; let x ← x.transposed t
        let y ← b.conjugate t O.neg; let y ← y.transposed t
        y.mulVV t (Ops.complex O) x) = (do
        let x ← (do let x ← a.conjugate t O.neg; x.transposed t)
        let y ← (do let y ← b.conjugate t O.neg; y.transposed t)
        y.mulVV t (Ops.complex O) x) := by simp only [bind_assoc]
    rw [e, adj_eq hO t a hn, adj_eq hO t b hc, res_ok_bind, res_ok_bind, mulVV_eq hC t _ _ hc hn hl]
    congr 1
    apply Mat.toMatrix_injective
    rw [adj_toMatrix, Mat.toMatrix_ofMatrix, Mat.toMatrix_ofMatrix, adj_toMatrix, adj_toMatrix, Matrix.map_mul,
      Matrix.transpose_mul]
  · have e : (do
      let x ← a.conjugate t O.neg; let x ← x.transposed t
      let y ← x.conjugate t O.neg; y.transposed t) = (do
        let x ← (do let x ← a.conjugate t O.neg; x.transposed t)
        (do let y ← x.conjugate t O.neg; y.transposed t)) := by simp only [bind_assoc]
    rw [e, adj_eq hO t a hn, res_ok_bind, adj_eq hO t _ hl]
    congr 1
    exact Mat.ext_get fun i j => by simp [adj, Mat.get_ofFn, conj]

variable {K : Type} [Field K] [LinearOrder K] [IsStrictOrderedRing K] {O : Ops K} (hO : O.IsField) (t : Target)
include hO

/-- C47: a matrix whose conjugate is its transpose (Hermitian) has a real determinant, and its inverse, if found, is Hermitian. -/
theorem C47_hermitian (k : Nat) (hk : 2 * (k + 2) < t.W) (a b : Mat (Mat.Cpx K) (k + 1) (k + 1)) (h1 : a.conjugate t O.neg = .ok b)
    (h2 : a.transposed t = .ok b) :
    (∃ d, a.determinant t (Ops.complex O) k = .ok ⟨d, 0⟩) ∧
    ∀ x, a.inverse t (Ops.complex O) k = .ok (some x) → ∃ y, x.conjugate t O.neg = .ok y ∧ x.transposed t = .ok y := by
  have hC := Mat.Cpx.isField hO
  have hk1 : k + 1 < t.W := by omega
  obtain ⟨⟨d, hd, hd'⟩, _, _, hi, _⟩ := C47_linear_algebra hO t k 0 hk a b
    (Mat.ofFn fun _ _ => 0) _ h1 (conjugate_mapV hO.toIsRing t _) 0 0
  refine ⟨⟨d.re, ?_⟩, fun x hx => ?_⟩
  · rw [C49_transposed hC t k hk1 a b h2, hd] at hd'
    have h0 : d.im = -d.im := congrArg Mat.Cpx.im (Except.ok.inj hd')
    have : d.im = 0 := by linarith
    rw [hd, ← this]
  · obtain ⟨y, hy, hy'⟩ := hi x hx
    obtain ⟨z, hz, hz'⟩ := (C80_transposed hC t k hk1 a b h2).2 x hx
    rw [hy'] at hz'
    obtain rfl := Option.some.inj (Except.ok.inj hz')
    exact ⟨_, hy, hz⟩

/-- C47: the product of the conjugate transpose of a matrix with the matrix: on its diagonal are the sums of the squared magnitudes of
the columns, which are real and not negative, and entry `(j, i)` is the conjugate of entry `(i, j)`. -/
theorem C47_gram (a : Mat (Mat.Cpx K) r c) (hr : r < t.W) (hc : c < t.W) :
    ∃ g : Mat (Mat.Cpx K) c c,
      (do let x ← a.conjugate t O.neg; let x ← x.transposed t; x.mulVV t (Ops.complex O) a) = .ok g ∧
      (∀ i, (g.get i i).re = ∑ k, ((a.get k i).re ^ 2 + (a.get k i).im ^ 2) ∧ 0 ≤ (g.get i i).re ∧ (g.get i i).im = 0) ∧
      ∀ i j, (g.get j i).re = (g.get i j).re ∧ (g.get j i).im = -(g.get i j).im := by
  have hC := (Mat.Cpx.isRing hO.toIsRing).toIsSemiring
  have e : (do let x ← a.conjugate t O.neg; let x ← x.transposed t; x.mulVV t (Ops.complex O) a) =
      (do let x ← (do let x ← a.conjugate t O.neg; x.transposed t); x.mulVV t (Ops.complex O) a) := by simp only [bind_assoc]
  rw [e, adj_eq hO.toIsRing t a hc, res_ok_bind, mulVV_eq hC t _ _ hc hr hc]
  have hg : ∀ i j, (Mat.ofMatrix ((adj a).toMatrix * a.toMatrix)).get i j = ∑ k, conj (a.get k i) * a.get k j := by
    intro i j
    rw [Mat.get_ofMatrix, Matrix.mul_apply]
    simp only [Mat.toMatrix, adj, Mat.get_ofFn]
  refine ⟨_, rfl, fun i => ?_, fun i j => ?_⟩
  · have h1 : (∑ k, conj (a.get k i) * a.get k i).re = ∑ k, ((a.get k i).re ^ 2 + (a.get k i).im ^ 2) := by
      rw [Mat.Cpx.sum_re]
      refine Finset.sum_congr rfl fun k _ => ?_
      rw [Mat.Cpx.mul_re, conj]; ring
    rw [hg]
    refine ⟨h1, ?_, ?_⟩
    · rw [h1]; exact Finset.sum_nonneg fun k _ => by positivity
    · rw [Mat.Cpx.sum_im]
      refine Finset.sum_eq_zero fun k _ => ?_
      rw [Mat.Cpx.mul_im, conj]; ring
  · rw [hg, hg, Mat.Cpx.sum_re, Mat.Cpx.sum_im, Mat.Cpx.sum_re, Mat.Cpx.sum_im, ← Finset.sum_neg_distrib]
    constructor <;> refine Finset.sum_congr rfl fun k _ => ?_
    · rw [Mat.Cpx.mul_re, Mat.Cpx.mul_re, conj, conj]; ring
    · rw [Mat.Cpx.mul_im, Mat.Cpx.mul_im, conj, conj]; ring

/-- C47: a matrix for which the real part of `v* a v` is positive for every `v ≠ 0` (as for positive definite Hermitian matrices) has
its inverse found, at every size. -/
theorem C47_positive_definite (k : Nat) (a : Mat (Mat.Cpx K) (k + 1) (k + 1))
    (hpos : ∀ v : Fin (k + 1) → Mat.Cpx K, v ≠ 0 → 0 < (∑ i, conj (v i) * ∑ j, a.get i j * v j).re) :
    ∃ x, a.inverse t (Ops.complex O) k = .ok (some x) ∧ x.toMatrix * a.toMatrix = 1 := by
  apply found_of_good (Mat.Cpx.isField hO)
  have good : ∀ M : Matrix (Fin (k + 1)) (Fin (k + 1)) (Mat.Cpx K), (∀ l (hl : l ≤ k + 1), (lead M l hl).det ≠ 0) → Good k M := by
    intro M h
    by_cases h3 : k < 3
    · refine (good_small h3 _).2 ?_
      have := h (k + 1) (Nat.le_refl _)
      rwa [lead_full] at this
    · exact .inr ⟨by omega, fun l hl _ => h l hl⟩
  apply good
  intro l hl h0
  obtain ⟨v, hv, hz⟩ := Matrix.exists_mulVec_eq_zero_iff.2 h0
  have hne : (padZ v : Fin (k + 1) → Mat.Cpx K) ≠ 0 := by
    intro h
    apply hv
    funext i
    have := congrFun h (Fin.castLE hl i)
    rwa [padZ, dif_pos (by simp)] at this
  have hp := hpos (padZ v) hne
  have hconj : ∀ i : Fin (k + 1), conj (padZ v i) = padZ (fun i => conj (v i)) i := by
    intro i
    unfold padZ
    split
    · rfl
    · ext <;> simp [conj]
  have : ∑ i, conj (padZ v i) * ∑ j, a.get i j * padZ v j = 0 := by
    simp only [hconj]
    simp only [sum_padZ hl v]
    simp only [mul_comm (padZ _ _)]
    rw [sum_padZ hl _ (fun i => ∑ j, a.get i (Fin.castLE hl j) * v j)]
    apply Finset.sum_eq_zero
    intro i _
    have := congrFun hz i
    rw [show (∑ j, a.get (Fin.castLE hl i) (Fin.castLE hl j) * v j) = 0 from this, zero_mul]
  rw [this] at hp
  exact absurd hp (lt_irrefl _)

/-- C47: if the columns of a matrix are linearly independent, the inverse of the product of its conjugate transpose with it is found,
whatever the size. -/
theorem C47_gram_inverse (k : Nat) (a : Mat (Mat.Cpx K) r (k + 1)) (hr : r < t.W) (hk : k + 1 < t.W)
    (hind : ∀ v : Fin (k + 1) → Mat.Cpx K, (∀ i, ∑ j, a.get i j * v j = 0) → v = 0) :
    ∃ g x, (do let y ← a.conjugate t O.neg; let y ← y.transposed t; y.mulVV t (Ops.complex O) a) = .ok g ∧
      g.inverse t (Ops.complex O) k = .ok (some x) := by
  have hC := (Mat.Cpx.isRing hO.toIsRing).toIsSemiring
  have e : (do let x ← a.conjugate t O.neg; let x ← x.transposed t; x.mulVV t (Ops.complex O) a) =
      (do let x ← (do let x ← a.conjugate t O.neg; x.transposed t); x.mulVV t (Ops.complex O) a) := by simp only [bind_assoc]
  rw [e, adj_eq hO.toIsRing t a hk, res_ok_bind, mulVV_eq hC t _ _ hk hr hk]
  suffices hp : ∀ v : Fin (k + 1) → Mat.Cpx K, v ≠ 0 →
      0 < (∑ i, conj (v i) * ∑ j, (Mat.ofMatrix ((adj a).toMatrix * a.toMatrix)).get i j * v j).re by
    obtain ⟨x, hx, _⟩ := C47_positive_definite hO t k _ hp
    exact ⟨_, x, rfl, hx⟩
  intro v hv
  have hs : ∑ i, conj (v i) * ∑ j, (Mat.ofMatrix ((adj a).toMatrix * a.toMatrix)).get i j * v j =
      ∑ m, conj (∑ i, a.get m i * v i) * ∑ j, a.get m j * v j := by
    have h1 : ∀ i j, (Mat.ofMatrix ((adj a).toMatrix * a.toMatrix)).get i j = ∑ m, conj (a.get m i) * a.get m j := by
      intro i j
      rw [Mat.get_ofMatrix, Matrix.mul_apply]
      simp only [Mat.toMatrix, adj, Mat.get_ofFn]
    have h2 : ∀ m, conj (∑ i, a.get m i * v i) = ∑ i, conj (a.get m i) * conj (v i) := by
      intro m
      change Mat.Cpx.conjHom _ = _
      rw [map_sum]
      exact Finset.sum_congr rfl fun i _ => map_mul Mat.Cpx.conjHom _ _
    simp only [h1, h2, Finset.sum_mul, Finset.mul_sum]
    have h3 : ∀ F : Fin (k + 1) → Fin (k + 1) → Fin r → Mat.Cpx K,
        ∑ x, ∑ y, ∑ m, F x y m = ∑ m, ∑ x, ∑ y, F x y m := by
      intro F
      rw [Finset.sum_comm (s := (Finset.univ : Finset (Fin r)))]
      exact Finset.sum_congr rfl fun x _ => Finset.sum_comm
    rw [h3]
    refine Finset.sum_congr rfl fun m _ => ?_
    rw [Finset.sum_comm]
    exact Finset.sum_congr rfl fun i _ => Finset.sum_congr rfl fun j _ => by ring
  rw [hs, Mat.Cpx.sum_re]
  have hsq : ∀ z : Mat.Cpx K, (conj z * z).re = z.re * z.re + z.im * z.im := by
    intro z; rw [Mat.Cpx.mul_re, conj]; ring
  simp only [hsq]
  obtain ⟨m, hm⟩ : ∃ m, ∑ j, a.get m j * v j ≠ 0 := by
    by_contra h
    push Not at h
    exact hv (hind v h)
  exact Finset.sum_pos' (fun i _ => add_nonneg (mul_self_nonneg _) (mul_self_nonneg _)) ⟨m, Finset.mem_univ _, Mat.Cpx.normSq_pos hm⟩

end Adjoint

/-! ## Complex matrices as real matrices of twice the size -/

/-- The complex number `z` as the real matrix `[[re, -im], [im, re]]`. -/
def Spec.realBlock [CommRing T] (z : Mat.Cpx T) : Mat T 2 2 := Mat.ofFn ![![z.re, -z.im], ![z.im, z.re]]

/-- A complex matrix with every entry replaced by such a `2 x 2` block. -/
def Spec.asReal [CommRing T] {R C : Nat} (hR : R = r * 2) (hC : C = c * 2) (a : Mat (Mat.Cpx T) r c) : Mat T R C :=
  flat hR hC (Mat.ofFn fun i j => realBlock (a.get i j))

section AsReal
variable [CommRing T] {O : Ops T} (hO : O.IsRing) (t : Target)

theorem realBlock_toMatrix (z : Mat.Cpx T) : (realBlock z).toMatrix = !![z.re, -z.im; z.im, z.re] := by
  ext i j
  simp only [realBlock, Mat.toMatrix, Mat.get_ofFn]
  rfl

/-- `realBlock` as a ring homomorphism into matrices. -/
def blockHom : Mat.Cpx T →+* Matrix (Fin 2) (Fin 2) T where
  toFun z := !![z.re, -z.im; z.im, z.re]
  map_zero' := by ext i j; fin_cases i <;> fin_cases j <;> simp
  map_one' := by ext i j; fin_cases i <;> fin_cases j <;> simp
  map_add' z w := by ext i j; fin_cases i <;> fin_cases j <;> simp [add_comm]
  map_mul' z w := by ext i j; fin_cases i <;> fin_cases j <;> simp [Matrix.mul_apply, Fin.sum_univ_two] <;> ring

theorem asReal_toMatrix {R C : Nat} (hR : R = r * 2) (hC : C = c * 2) (a : Mat (Mat.Cpx T) r c) :
    (asReal hR hC a).toMatrix =
      (Matrix.of fun x y => blockHom (a.get x.1 y.1) x.2 y.2 : Matrix (Fin r × Fin 2) (Fin c × Fin 2) T).submatrix
        (flatEquiv hR) (flatEquiv hC) := by
  rw [asReal, flat_toMatrix]
  congr 1
  ext x y
  simp only [pairMatrix, Mat.toMatrix, Mat.get_ofFn, Matrix.of_apply]
  exact congrFun (congrFun (realBlock_toMatrix _) _) _

include hO in
/-- C47: products, powers and conjugate transposes of complex matrices are those of the real matrices of twice the size; the
conjugate transpose becomes the transpose. -/
theorem C47_as_real (a : Mat (Mat.Cpx T) l n) (b : Mat (Mat.Cpx T) n c) (p : Mat (Mat.Cpx T) n n) (e : Nat) {L N C : Nat}
    (hL : L = l * 2) (hN : N = n * 2) (hC : C = c * 2) (wL : L < t.W) (wN : N < t.W) (wC : C < t.W) :
    (∃ w, a.mulVV t (Ops.complex O) b = .ok w ∧ (asReal hL hN a).mulVV t O (asReal hN hC b) = .ok (asReal hL hC w)) ∧
    (∃ w, p.pow t (Ops.complex O) e = .ok w ∧ (asReal hN hN p).pow t O e = .ok (asReal hN hN w)) ∧
    (∃ w, (do let x ← a.conjugate t O.neg; x.transposed t) = .ok w ∧
      (asReal hL hN a).transposed t = .ok (asReal hN hL w)) := by
  have hS := (Mat.Cpx.isRing hO).toIsSemiring
  have wl : l < t.W := by omega
  have wn : n < t.W := by omega
  have wc : c < t.W := by omega
  have mulR : ∀ {l n c : Nat} (A : Matrix (Fin l) (Fin n) (Mat.Cpx T)) (B : Matrix (Fin n) (Fin c) (Mat.Cpx T)) {L N C : Nat}
      (hL : L = l * 2) (hN : N = n * 2) (hC : C = c * 2),
      (asReal hL hC (Mat.ofMatrix (A * B))).toMatrix =
        (asReal hL hN (Mat.ofMatrix A)).toMatrix * (asReal hN hC (Mat.ofMatrix B)).toMatrix := by
    intro l n c A B L N C hL hN hC
    rw [asReal_toMatrix, asReal_toMatrix, asReal_toMatrix, Matrix.submatrix_mul_equiv]
    congr 1
    ext x y
    simp only [Matrix.of_apply, Matrix.mul_apply, Mat.get_ofMatrix, map_sum, map_mul, Matrix.sum_apply]
    rw [Fintype.sum_prod_type]
  refine ⟨⟨_, mulVV_eq hS t a b wl wn wc, ?_⟩, ⟨_, pow_eq hS t p e wn, ?_⟩, ⟨_, adj_eq hO t a wn, ?_⟩⟩
  · rw [mulVV_eq hO.toIsSemiring t _ _ wL wN wC]
    congr 1
    apply Mat.toMatrix_injective
    rw [Mat.toMatrix_ofMatrix, mulR, Mat.ofMatrix_toMatrix, Mat.ofMatrix_toMatrix]
  · rw [pow_eq hO.toIsSemiring t _ e wN]
    congr 1
    apply Mat.toMatrix_injective
    rw [Mat.toMatrix_ofMatrix]
    induction e with
    | zero =>
      rw [pow_zero, pow_zero, asReal_toMatrix]
      ext i j
      have h1 : ∀ x y : Fin n × Fin 2, blockHom ((1 : Matrix (Fin n) (Fin n) (Mat.Cpx T)) x.1 y.1) x.2 y.2 =
          (1 : Matrix (Fin n × Fin 2) (Fin n × Fin 2) T) x y := by
        intro x y
        by_cases h : x.1 = y.1
        · rw [h, Matrix.one_apply_eq, map_one, Matrix.one_apply, Matrix.one_apply]
          simp [Prod.ext_iff, h]
        · rw [Matrix.one_apply_ne h, map_zero, Matrix.one_apply_ne (fun h' => h (by rw [h']))]; rfl
      simp only [Matrix.submatrix_apply, Matrix.of_apply, Mat.get_ofMatrix]
      rw [h1]
      simp only [Matrix.one_apply, (flatEquiv hN).injective.eq_iff]
    | succ e ih => rw [pow_succ, pow_succ, mulR _ _ hN hN hN, ← ih, Mat.ofMatrix_toMatrix]
  · rw [transposed_eq t _ wN]
    congr 1
    apply Mat.toMatrix_injective
    rw [Mat.toMatrix_ofMatrix, asReal_toMatrix, asReal_toMatrix, Matrix.transpose_submatrix]
    congr 1
    ext x y
    simp only [Matrix.transpose_apply, Matrix.of_apply, adj, Mat.get_ofFn]
    obtain ⟨x1, x2⟩ := x
    obtain ⟨y1, y2⟩ := y
    fin_cases x2 <;> fin_cases y2 <;> simp [blockHom, conj]

/-- C47: the determinant of the real matrix is the square of the magnitude of the complex determinant, at every size. -/
theorem C47_as_real_determinant {K : Type} [Field K] [LinearOrder K] [IsStrictOrderedRing K] {O : Ops K} (hO : O.IsField)
    (k : Nat) (a : Mat (Mat.Cpx K) (k + 1) (k + 1)) {N : Nat} (hN : N + 1 = (k + 1) * 2) (wN : N + 1 < t.W) :
    ∃ d, a.determinant t (Ops.complex O) k = .ok d ∧
      (asReal hN hN a).determinant t O N = .ok (d.re ^ 2 + d.im ^ 2) := by
  refine ⟨_, C48_determinant (Mat.Cpx.isField hO) t k a (by omega), ?_⟩
  rw [C48_determinant hO t N _ wN, asReal_toMatrix, Matrix.det_submatrix_equiv_self]
  have h := Matrix.det_det (M := a.toMatrix) (blockHom (T := K))
  have h2 : (Matrix.of fun x y => blockHom (a.get x.1 y.1) x.2 y.2 : Matrix (Fin (k + 1) × Fin 2) (Fin (k + 1) × Fin 2) K) =
      Matrix.comp _ _ _ _ _ (a.toMatrix.map blockHom) := by
    ext x y
    simp [Matrix.comp_apply, Mat.toMatrix]
  rw [h2]
  congr 1
  refine Eq.trans (by rfl) (h.symm.trans ?_)
  rw [Matrix.det_fin_two]
  simp only [blockHom, RingHom.coe_mk, MonoidHom.coe_mk, OneHom.coe_mk, Matrix.of_apply, Matrix.cons_val', Matrix.cons_val_zero,
    Matrix.cons_val_one, Matrix.empty_val', Matrix.cons_val_fin_one]
  ring

end AsReal

/-! ## Complex numbers with parts in a machine type -/

/-- A map of the parts. -/
def Spec.onParts {U : Type} (φ : T → U) (z : Mat.Cpx T) : Mat.Cpx U := ⟨φ z.re, φ z.im⟩

theorem complex_hom {U : Type} {O : Ops T} {O' : Ops U} {φ : T → U} (H : O.Hom O' φ) :
    (Ops.complex O).Hom (Ops.complex O') (onParts φ) where
  zero := by simp [Ops.complex, onParts, H.zero]
  one := by simp [Ops.complex, onParts, H.zero, H.one]
  add a b := (H.add _ _).bind fun _ => (H.add _ _).bind fun _ => .ok' rfl
  sub a b := (H.sub _ _).bind fun _ => (H.sub _ _).bind fun _ => .ok' rfl
  mul a b := (H.mul _ _).bind fun _ => (H.mul _ _).bind fun _ => (H.sub _ _).bind fun _ =>
    (H.mul _ _).bind fun _ => (H.mul _ _).bind fun _ => (H.add _ _).bind fun _ => .ok' rfl
  neg a := (H.neg _).bind fun _ => (H.neg _).bind fun _ => .ok' rfl

theorem sim_conjugate {U : Type} {O : Ops T} {O' : Ops U} {φ : T → U} (H : O.Hom O' φ) (t t' : Target) (a : Mat (Mat.Cpx T) r c) :
    ExactOrPanic (Mat.mapV (onParts φ)) (a.conjugate t O.neg) ((a.mapV (onParts φ)).conjugate t' O'.neg) := by
  unfold Mat.conjugate
  rw [Mat.clone_ok t a, Mat.clone_ok t', res_ok_bind, res_ok_bind, Mat.map, Mat.map, Vec.zipIdx_eq, Vec.zipIdx_eq, List.map_map,
    List.map_map]
  simp only [Function.comp_def, Vec.zipIdx_eq, List.map_map]
  refine Mat.collect_sim t t' _ _ _ fun i j => ?_
  have e : ((a.mapV (onParts φ)).rows.get i).get j = onParts φ ((a.rows.get i).get j) := Mat.get_mapV _ _ _ _
  rw [e]
  exact (H.neg _).bind fun _ => .ok' rfl

/-- C72 for `Complex` of checked machine integers (Gaussian integers): sums, differences, products, powers, `conjugate`, and up to
size 3 the determinant are exact or panic. -/
theorem C72_complex {O : Ops T} {φ : T → Int} (H : O.Hom Ops.int φ) (t : Target) (a a' : Mat (Mat.Cpx T) l n) (b : Mat (Mat.Cpx T) n c)
    (p : Mat (Mat.Cpx T) n n) (e : Nat) (hl : l < t.W) (hn : n < t.W) (hc : c < t.W) (k : Nat) (hk : k ≤ 2)
    (q : Mat (Mat.Cpx T) (k + 1) (k + 1)) :
    (∀ op ∈ matForms t (Ops.complex O).add,
      ExactOrPanic (Mat.vals (onParts φ)) (op a a') (.ok (a.vals (onParts φ) + a'.vals (onParts φ)))) ∧
    (∀ op ∈ matForms t (Ops.complex O).sub,
      ExactOrPanic (Mat.vals (onParts φ)) (op a a') (.ok (a.vals (onParts φ) - a'.vals (onParts φ)))) ∧
    (∀ op ∈ mulForms t (Ops.complex O),
      ExactOrPanic (Mat.vals (onParts φ)) (op a b) (.ok (a.vals (onParts φ) * b.vals (onParts φ)))) ∧
    ExactOrPanic (Mat.vals (onParts φ)) (p.pow t (Ops.complex O) e) (.ok (p.vals (onParts φ) ^ e)) ∧
    ExactOrPanic (Mat.vals (onParts φ)) (a.conjugate t O.neg) (.ok fun i j => ⟨φ (a.get i j).re, -φ (a.get i j).im⟩) ∧
    ExactOrPanic (onParts φ) (q.determinant t (Ops.complex O) k) (.ok (q.vals (onParts φ)).det) := by
  have HC := complex_hom H
  have hR := Mat.Cpx.isRing Ops.int_isRing
  refine ⟨fun op hop => ?_, fun op hop => ?_, fun op hop => ?_, ?_, ?_, ?_⟩
  · rw [C18_mat_forms_agree t (Ops.complex O).add op (Mat.opVV t (Ops.complex O).add) hop (by simp [matForms])]
    have h := sim_matOp t t HC.add a a'
    rw [(C18_mat_ok t (Ops.complex Ops.int).add (Mat.opVV t (Ops.complex Ops.int).add) (by simp [matForms]) _ _
      (Mat.ofMatrix (a.vals (onParts φ) + a'.vals (onParts φ)))).2 (by simp [hR.add, Mat.vals])] at h
    simpa using matVals h
  · rw [C18_mat_forms_agree t (Ops.complex O).sub op (Mat.opVV t (Ops.complex O).sub) hop (by simp [matForms])]
    have h := sim_matOp t t HC.sub a a'
    rw [(C18_mat_ok t (Ops.complex Ops.int).sub (Mat.opVV t (Ops.complex Ops.int).sub) (by simp [matForms]) _ _
      (Mat.ofMatrix (a.vals (onParts φ) - a'.vals (onParts φ)))).2 (by simp [hR.sub, Mat.vals])] at h
    simpa using matVals h
  · rw [C41_forms_agree t (Ops.complex O) op (Mat.mulVV t (Ops.complex O)) hop (by simp [mulForms]) a b hl hn hc]
    have h := sim_mul HC t t rfl a b hl hn hc
    rw [mulVV_eq hR.toIsSemiring t _ _ hl hn hc] at h
    simpa [mapV_toMatrix] using matVals h
  · have h := sim_pow HC t t rfl p e hn
    rw [pow_eq hR.toIsSemiring t _ _ hn] at h
    simpa [mapV_toMatrix] using matVals h
  · have h := sim_conjugate H t t a
    rw [conjugate_mapV Ops.int_isRing] at h
    have := matVals h
    rwa [mapV_toMatrix, show Mat.vals conj (a.mapV (onParts φ)) = fun i j => ⟨φ (a.get i j).re, -φ (a.get i j).im⟩ by
      funext i j; simp [Mat.vals, conj, onParts]] at this
  · have h := sim_det_small HC t t k hk q
    rw [C50_small hR t k (by omega), mapV_toMatrix] at h
    exact h

/-- C75 for `Complex` of fractions: if every operation on the parts is the exact one or panics, the same is true of the complex
numbers; so `determinant`, `cofactor` and `inverse`, at every size, are the exact ones or panic (`C75_determinant`, `C75_cofactor`,
`C75_inverse`). -/
theorem C75_complex {K : Type} [Field K] [LinearOrder K] [IsStrictOrderedRing K] {O : Ops T} {φ : T → K} :
    O.DivHom (Ops.exact K) φ → (Ops.complex O).DivHom (Ops.exact (Mat.Cpx K)) (onParts φ) := by
  intro H
  have hF := Mat.Cpx.isField (Ops.exact_isField K)
  have hE := Ops.exact_isField (Mat.Cpx K)
  have HC := complex_hom H.toHom
  have hz : ∀ a, (Ops.exact (Mat.Cpx K)).isZero (onParts φ a) = (Ops.complex O).isZero a := by
    intro a
    have : (Ops.complex O).isZero a = (Ops.complex (Ops.exact K)).isZero (onParts φ a) := by
      simp only [Ops.complex, onParts, H.isZero]
    rw [this, Bool.eq_iff_iff, hE.isZero, hF.isZero]
  refine {
    zero := HC.zero.trans (hF.zero.trans hE.zero.symm)
    one := HC.one.trans (hF.one.trans hE.one.symm)
    add := fun a b => by rw [hE.add, ← hF.add]; exact HC.add a b
    sub := fun a b => by rw [hE.sub, ← hF.sub]; exact HC.sub a b
    mul := fun a b => by rw [hE.mul, ← hF.mul]; exact HC.mul a b
    neg := fun a => by rw [hE.neg, ← hF.neg]; exact HC.neg a
    isZero := hz
    div := fun a b hb => ?_ }
  have hb0 : onParts φ b ≠ 0 := by
    intro h
    rw [← hz, h, (hE.isZero 0).2 rfl] at hb
    cases hb
  rw [hE.div _ _ hb0, ← hF.div _ _ hb0]
  have hs := (Mat.Cpx.normSq_pos hb0).ne'
  simp only [Ops.complex, onParts]
  rcases H.mul b.re b.re with h | ⟨x, h, hx⟩
  · rw [h]; exact .inl rfl
  rw [h, hx]
  simp only [res_ok_bind]
  rcases H.mul b.im b.im with h | ⟨y, h, hy⟩
  · rw [h]; exact .inl rfl
  rw [h, hy]
  simp only [res_ok_bind]
  rcases H.add x y with h | ⟨s, h, hs'⟩
  · rw [h]; exact .inl rfl
  rw [h, hs']
  have hx' : φ b.re * φ b.re = φ x := Except.ok.inj hx
  have hy' : φ b.im * φ b.im = φ y := Except.ok.inj hy
  have hss : φ x + φ y = φ s := Except.ok.inj hs'
  have hsz : O.isZero s = false := by
    rw [← H.isZero, ← hss, ← hx', ← hy', Bool.eq_false_iff]
    intro h0
    exact hs (((Ops.exact_isField K).isZero _).1 h0)
  rw [res_ok_bind, res_ok_bind]
  refine (H.mul _ _).bind fun _ => ?_
  refine (H.mul _ _).bind fun _ => ?_
  refine (H.add _ _).bind fun _ => ?_
  refine (H.mul _ _).bind fun _ => ?_
  refine (H.mul _ _).bind fun _ => ?_
  refine (H.sub _ _).bind fun _ => ?_
  refine (H.div _ _ hsz).bind fun _ => ?_
  exact (H.div _ _ hsz).bind fun _ => .ok' rfl

/-! ## Concrete cases -/

section Examples

deriving instance DecidableEq for Vec, Mat

/-- The Hermitian matrix `[[1, i], [-i, 3]]`. -/
def exHerm : Mat (Mat.Cpx ℚ) 2 2 := ⟨⟨[⟨[⟨1, 0⟩, ⟨0, 1⟩], rfl⟩, ⟨[⟨0, -1⟩, ⟨3, 0⟩], rfl⟩], rfl⟩⟩

/-- Its conjugate, which is its transpose. -/
def exHermC : Mat (Mat.Cpx ℚ) 2 2 := ⟨⟨[⟨[⟨1, 0⟩, ⟨0, -1⟩], rfl⟩, ⟨[⟨0, 1⟩, ⟨3, 0⟩], rfl⟩], rfl⟩⟩

/-! The hypotheses of `C47_linear_algebra` and `C47_hermitian` are met. -/
example : exHerm.conjugate ⟨true, true, 2 ^ 64⟩ (Ops.exact ℚ).neg = .ok exHermC ∧
    exHerm.transposed ⟨true, true, 2 ^ 64⟩ = .ok exHermC := by decide +kernel
/-! The determinant is `3 - i * (-i) = 2`, and the inverse `[[3/2, -i/2], [i/2, 1/2]]` is Hermitian again. -/
example : exHerm.determinant ⟨true, true, 2 ^ 64⟩ (Ops.complex (Ops.exact ℚ)) 1 = .ok ⟨2, 0⟩ := by decide +kernel
example : exHerm.inverse ⟨true, true, 2 ^ 64⟩ (Ops.complex (Ops.exact ℚ)) 1 =
    .ok (some ⟨⟨[⟨[⟨3/2, 0⟩, ⟨0, -1/2⟩], rfl⟩, ⟨[⟨0, 1/2⟩, ⟨1/2, 0⟩], rfl⟩], rfl⟩⟩) := by decide +kernel
/-! A matrix that is not Hermitian has a determinant that is not real. -/
example : (⟨⟨[⟨[⟨1, 1⟩, ⟨0, 1⟩], rfl⟩, ⟨[⟨0, -1⟩, ⟨3, 0⟩], rfl⟩], rfl⟩⟩ : Mat (Mat.Cpx ℚ) 2 2).determinant ⟨true, true, 2 ^ 64⟩
    (Ops.complex (Ops.exact ℚ)) 1 = .ok ⟨2, 3⟩ := by decide +kernel
/-! `C47_as_real_determinant` for it: the real `4 x 4` matrix has determinant `2^2 + 3^2`. -/
example : (asReal (by decide : 4 = 2 * 2) (by decide : 4 = 2 * 2)
    (⟨⟨[⟨[⟨1, 1⟩, ⟨0, 1⟩], rfl⟩, ⟨[⟨0, -1⟩, ⟨3, 0⟩], rfl⟩], rfl⟩⟩ : Mat (Mat.Cpx ℚ) 2 2)).determinant ⟨true, true, 2 ^ 64⟩
    (Ops.exact ℚ) 3 = .ok 13 := by decide +kernel

/-! `C47_gram_inverse`: the single column `(i, 1)` is linearly independent; its Gram matrix is `[2]`. -/
example (v : Fin 1 → Mat.Cpx ℚ)
    (h : ∀ i, ∑ j, (⟨⟨[⟨[⟨0, 1⟩], rfl⟩, ⟨[⟨1, 0⟩], rfl⟩], rfl⟩⟩ : Mat (Mat.Cpx ℚ) 2 1).get i j * v j = 0) : v = 0 := by
  have h1 := h 1
  rw [Fin.sum_univ_one, show (⟨⟨[⟨[⟨0, 1⟩], rfl⟩, ⟨[⟨1, 0⟩], rfl⟩], rfl⟩⟩ : Mat (Mat.Cpx ℚ) 2 1).get 1 0 = 1 from rfl, one_mul] at h1
  funext i
  rw [Subsingleton.elim i 0, h1]; rfl
example : (⟨⟨[⟨[⟨0, -1⟩, ⟨1, 0⟩], rfl⟩], rfl⟩⟩ : Mat (Mat.Cpx ℚ) 1 2).mulVV ⟨true, true, 2 ^ 64⟩ (Ops.complex (Ops.exact ℚ))
    (⟨⟨[⟨[⟨0, 1⟩], rfl⟩, ⟨[⟨1, 0⟩], rfl⟩], rfl⟩⟩ : Mat (Mat.Cpx ℚ) 2 1) = .ok ⟨⟨[⟨[⟨2, 0⟩], rfl⟩], rfl⟩⟩ := by decide +kernel
/-! Without the conjugation the product of the transpose with the matrix is `0`: conjugating matters. -/
example : (⟨⟨[⟨[⟨0, 1⟩, ⟨1, 0⟩], rfl⟩], rfl⟩⟩ : Mat (Mat.Cpx ℚ) 1 2).mulVV ⟨true, true, 2 ^ 64⟩ (Ops.complex (Ops.exact ℚ))
    (⟨⟨[⟨[⟨0, 1⟩], rfl⟩, ⟨[⟨1, 0⟩], rfl⟩], rfl⟩⟩ : Mat (Mat.Cpx ℚ) 2 1) = .ok ⟨⟨[⟨[⟨0, 0⟩], rfl⟩], rfl⟩⟩ := by decide +kernel

/-! `C47_positive_definite`: the identity matrix. -/
example (v : Fin 2 → Mat.Cpx ℚ) (hv : v ≠ 0) :
    0 < (∑ i, conj (v i) * ∑ j, (⟨⟨[⟨[⟨1, 0⟩, ⟨0, 0⟩], rfl⟩, ⟨[⟨0, 0⟩, ⟨1, 0⟩], rfl⟩], rfl⟩⟩ : Mat (Mat.Cpx ℚ) 2 2).get i j * v j).re := by
  have e : ∀ i j, (⟨⟨[⟨[⟨1, 0⟩, ⟨0, 0⟩], rfl⟩, ⟨[⟨0, 0⟩, ⟨1, 0⟩], rfl⟩], rfl⟩⟩ : Mat (Mat.Cpx ℚ) 2 2).get i j =
      (1 : Matrix (Fin 2) (Fin 2) (Mat.Cpx ℚ)) i j := by
    intro i j; fin_cases i <;> fin_cases j <;> rfl
  have e2 : ∀ i, ∑ j, (1 : Matrix (Fin 2) (Fin 2) (Mat.Cpx ℚ)) i j * v j = v i := fun i => congrFun (Matrix.one_mulVec v) i
  simp only [e, e2]
  obtain ⟨m, hm⟩ : ∃ m, v m ≠ 0 := by
    by_contra h
    push Not at h
    exact hv (funext h)
  rw [Mat.Cpx.sum_re]
  have hsq : ∀ z : Mat.Cpx ℚ, (conj z * z).re = z.re * z.re + z.im * z.im := by
    intro z; rw [Mat.Cpx.mul_re, conj]; ring
  simp only [hsq]
  exact Finset.sum_pos' (fun i _ => add_nonneg (mul_self_nonneg _) (mul_self_nonneg _)) ⟨m, Finset.mem_univ _, Mat.Cpx.normSq_pos hm⟩

/-! `C72_complex` with `Complex<i8>`: `(10 + i)(10 - i) = 101` fits; `(12 + i)(12 - i)` does not, and panics. -/
example : (Ops.complex (Ops.signed true 8)).mul ⟨10#8, 1#8⟩ ⟨10#8, 255#8⟩ = .ok ⟨101#8, 0#8⟩ := by decide
example : (Ops.complex (Ops.signed true 8)).mul ⟨12#8, 1#8⟩ ⟨12#8, 255#8⟩ = .error .panic := by decide
/-! `conjugate` with `Complex<i8>` panics on an imaginary part of `-128`, whose negation does not fit. -/
example : (⟨⟨[⟨[⟨1#8, 128#8⟩], rfl⟩], rfl⟩⟩ : Mat (Mat.Cpx (BitVec 8)) 1 1).conjugate ⟨true, true, 2 ^ 64⟩ (Ops.signed true 8).neg =
    .error .panic := by decide +kernel

/-! `C75_complex` applies to `Complex<Ratio<iW>>` for every `W`. -/
example (w : Nat) : (Ops.complex (Ops.ratio w)).DivHom (Ops.exact (Mat.Cpx ℚ)) (onParts id) := C75_complex (C75_types.1 w)
example : exHerm.determinant ⟨true, true, 2 ^ 64⟩ (Ops.complex (Ops.ratio 8)) 1 = .ok ⟨2, 0⟩ := by decide +kernel

end Examples

end Rowcol
