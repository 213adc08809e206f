import Verif.Props.Index
import Verif.Props.Rounding
import Verif.Props.DivZero
import Verif.Lemmas.ElimFree
import Mathlib.LinearAlgebra.Matrix.Block

/-! # C86: the determinant of size 4 and more in floating point -/

namespace Rowcol

/-! ### Factors close to one -/

/-- A factor that `e` roundings can produce: between `(1-u)^e` and its inverse. -/
def Close (u : ℝ) (e : Nat) (x : ℝ) : Prop := (1 - u) ^ e ≤ x ∧ x ≤ ((1 - u) ^ e)⁻¹

section
variable {u : ℝ}

theorem Close.one (h0 : 0 ≤ u) (h1 : u < 1) (e : Nat) : Close u e 1 := by
  have hp : (1 - u) ^ e ≤ 1 := pow_le_one₀ (by linarith) (by linarith)
  exact ⟨hp, (one_le_inv₀ (pow_pos (by linarith) e)).2 hp⟩

theorem Close.pos (h1 : u < 1) {e : Nat} {x : ℝ} (h : Close u e x) : 0 < x := lt_of_lt_of_le (pow_pos (by linarith) e) h.1

theorem Close.mul (h1 : u < 1) {e f : Nat} {x y : ℝ} (hx : Close u e x) (hy : Close u f y) : Close u (e + f) (x * y) := by
  have p1 : 0 < (1 - u) ^ e := pow_pos (by linarith) e
  have p2 : 0 < (1 - u) ^ f := pow_pos (by linarith) f
  constructor
  · rw [pow_add]; exact mul_le_mul hx.1 hy.1 p2.le (hx.pos h1).le
  · rw [pow_add, mul_inv]; exact mul_le_mul hx.2 hy.2 (hy.pos h1).le (inv_nonneg.2 p1.le)

theorem Close.inv (h1 : u < 1) {e : Nat} {x : ℝ} (hx : Close u e x) : Close u e x⁻¹ := by
  have p1 : 0 < (1 - u) ^ e := pow_pos (by linarith) e
  constructor
  · rw [le_inv_comm₀ p1 (hx.pos h1)]; exact hx.2
  · rw [inv_le_inv₀ (hx.pos h1) p1]; exact hx.1

theorem Close.mono (h0 : 0 ≤ u) (h1 : u < 1) {e f : Nat} (hef : e ≤ f) {x : ℝ} (hx : Close u e x) : Close u f x := by
  obtain ⟨d, rfl⟩ := Nat.exists_eq_add_of_le hef
  have := hx.mul h1 (Close.one h0 h1 d)
  rwa [mul_one] at this

/-- A rounded result is the exact one times such a factor. -/
theorem close_of_round (h0 : 0 ≤ u) (h1 : u < 1) {z w : ℝ} (h : |z - w| ≤ u * |w|) : ∃ θ, Close u 1 θ ∧ z = θ * w := by
  by_cases hw : w = 0
  · subst hw
    refine ⟨1, Close.one h0 h1 1, ?_⟩
    simpa using h
  · have h2 : |z / w - 1| ≤ u := by
      have e : z / w - 1 = (z - w) / w := by rw [sub_div, div_self hw]
      rw [e, abs_div, div_le_iff₀ (abs_pos.2 hw)]; exact h
    rw [abs_le] at h2
    refine ⟨z / w, ⟨by rw [pow_one]; linarith, ?_⟩, by rw [div_mul_cancel₀ _ hw]⟩
    rw [pow_one, le_inv_comm₀ (by linarith) (by linarith), inv_eq_one_div, div_eq_mul_inv, one_mul]
    rw [le_inv_comm₀ (by linarith) (by linarith)]
    have : 1 + u ≤ (1 - u)⁻¹ := by
      rw [inv_eq_one_div, le_div_iff₀ (by linarith)]; nlinarith
    linarith

theorem Close.abs_sub_one (h1 : u < 1) {e : Nat} {x : ℝ} (hx : Close u e x) : |x - 1| ≤ ((1 - u) ^ e)⁻¹ - 1 := by
  have p1 : 0 < (1 - u) ^ e := pow_pos (by linarith) e
  have h2 : 2 ≤ (1 - u) ^ e + ((1 - u) ^ e)⁻¹ := by
    have e1 : (1 - u) ^ e * ((1 - u) ^ e)⁻¹ = 1 := mul_inv_cancel₀ p1.ne'
    nlinarith [sq_nonneg ((1 - u) ^ e - ((1 - u) ^ e)⁻¹), inv_pos.2 p1]
  rw [abs_le]
  constructor
  · linarith [hx.1]
  · linarith [hx.2]

end

section
variable {F : Type} {O : Ops F} {val : F → ℝ} {u : ℝ} (H : O.Rounds val u) (hu : u < 1) {n : Nat}

/-- What is known before stage `i`: every entry of the original matrix is, up to factors close to one, the sum of the
products of multipliers and pivot rows so far and what is left of it. -/
def ElimInv (val : F → ℝ) (u : ℝ) (a : Mat F n n) (i : Nat) (m : Mat F n n) : Prop :=
  ∃ l : Fin n → Fin n → ℝ, ∀ j k : Fin n, ∃ (θ : Fin n → ℝ) (θ' : ℝ), (∀ q, Close u (min i j) (θ q)) ∧
    Close u (min i j) θ' ∧
    val (a.get j k) = ∑ q, θ q * (if q.val < i ∧ q < j ∧ q ≤ k then l j q * val (m.get q k) else 0) +
      θ' * (if k.val < i ∧ k < j then 0 else val (m.get j k))

include H hu

theorem elimInv_zero (a : Mat F n n) : ElimInv val u a 0 a :=
  ⟨fun _ _ => 0, fun j k => ⟨fun _ => 1, 1, fun _ => Close.one H.nonneg hu _, Close.one H.nonneg hu _, by simp⟩⟩

theorem elimInv_step (a : Mat F n n) (i : Fin n) (m m' : Mat F n n) (hm : ElimInv val u a i m)
    (hz : i.val + 1 < n → O.isZero (m.get i i) = false) (hr : ∀ j : Fin n, i < j → RowStep O m m' i j)
    (hs : ∀ b : Fin n, b ≤ i → ∀ k, m'.get b k = m.get b k) : ElimInv val u a (i + 1) m' := by
  have h0 := H.nonneg
  obtain ⟨l, hl⟩ := hm
  have hd : ∀ j : Fin n, ∃ d : ℝ, i < j → (∃ δ, Close u 1 δ ∧ d = δ * (val (m.get j i) / val (m.get i i))) ∧
      ∀ k, ∃ ε ε', Close u 1 ε ∧ Close u 1 ε' ∧ val (m'.get j k) = ε * (val (m.get j k) - ε' * (val (m.get i k) * d)) := by
    intro j
    by_cases hj : i < j
    · obtain ⟨d, hd, hk⟩ := hr j hj
      have hpz : val (m.get i i) ≠ 0 := by
        have h2 := hz (by have := j.isLt; have : i.val < j.val := hj; omega)
        rw [Ne, ← H.isZero]; simp [h2]
      refine ⟨val d, fun _ => ⟨close_of_round h0 hu (H.div hpz hd), fun k => ?_⟩⟩
      obtain ⟨p, hp, hq⟩ := hk k
      obtain ⟨ε', c', e'⟩ := close_of_round h0 hu (H.mul hp)
      obtain ⟨ε, c, e⟩ := close_of_round h0 hu (H.sub hq)
      exact ⟨ε, ε', c, c', by rw [e, e']⟩
    · exact ⟨0, fun h => absurd h hj⟩
  choose d hd using hd
  refine ⟨fun j q => if q = i then d j else l j q, fun j k => ?_⟩
  obtain ⟨θ, θ', hθ, hθ', e⟩ := hl j k
  by_cases hj : i < j
  · have hj' : i.val < j.val := hj
    have mi : min i.val j.val = i.val := by omega
    have mi' : min (i.val + 1) j.val = i.val + 1 := by omega
    rw [mi] at hθ hθ'
    rw [mi']
    obtain ⟨⟨δ, cδ, hδ⟩, hk⟩ := hd j hj
    have hpz : val (m.get i i) ≠ 0 := by
      have h2 := hz (by have := j.isLt; omega)
      rw [Ne, ← H.isZero]; simp [h2]
    rcases lt_trichotomy k i with hki | rfl | hki
    · -- a column that is done
      have hki' : k.val < i.val := hki
      refine ⟨θ, θ', fun q => (hθ q).mono h0 hu (by omega), hθ'.mono h0 hu (by omega), ?_⟩
      rw [e]
      congr 1
      · refine Finset.sum_congr rfl fun q _ => ?_
        congr 1
        by_cases hq : q ≤ k
        · have hq' : q.val ≤ k.val := hq
          have hqi : q ≠ i := fun e => by rw [e] at hq'; omega
          have h1 : q.val < i.val := by omega
          rw [hs q (le_of_lt h1)]
          simp [h1, h1.trans (Nat.lt_succ_self _), hq, hqi]
        · simp [hq]
      · have h1 : k < j := hki.trans hj
        simp [hki', h1, hki'.trans (Nat.lt_succ_self _)]
    · -- the pivot column
      refine ⟨fun q => if q = k then θ' * δ⁻¹ else θ q, 1, fun q => ?_, Close.one h0 hu _, ?_⟩
      · by_cases hq : q = k
        · simp only [hq, if_true]; exact hθ'.mul hu (cδ.inv hu)
        · simp only [hq, if_false]; exact (hθ q).mono h0 hu (by omega)
      · rw [e]
        have hsum : ∑ q, (if q = k then θ' * δ⁻¹ else θ q) *
            (if q.val < k.val + 1 ∧ q < j ∧ q ≤ k then (if q = k then d j else l j q) * val (m'.get q k) else 0) =
            ∑ q, (θ q * (if q.val < k.val ∧ q < j ∧ q ≤ k then l j q * val (m.get q k) else 0) +
              (if q = k then θ' * δ⁻¹ * (d j * val (m.get k k)) else 0)) := by
          refine Finset.sum_congr rfl fun q _ => ?_
          by_cases hq : q = k
          · subst hq; simp [hj, hs q le_rfl]
          · have h2 : q.val ≠ k.val := fun e => hq (Fin.ext e)
            have h1 : (q.val < k.val + 1 ↔ q.val < k.val) := by omega
            simp only [hq, if_false, h1, add_zero]
            by_cases hlt : q.val < k.val
            · rw [hs q (le_of_lt hlt)]
            · simp [hlt]
        rw [hsum, Finset.sum_add_distrib, Finset.sum_ite_eq' Finset.univ k]
        simp only [Finset.mem_univ, if_true, lt_irrefl, false_and, if_false, Nat.lt_succ_self, hj, and_self, mul_zero, add_zero]
        congr 1
        rw [hδ]
        have := (cδ.pos hu).ne'
        field_simp
    · -- a column still to come
      have hki' : i.val < k.val := hki
      obtain ⟨ε, ε', cε, cε', hm'⟩ := hk k
      have hε := (cε.pos hu).ne'
      refine ⟨fun q => if q = i then θ' * ε' else θ q, θ' * ε⁻¹, fun q => ?_, hθ'.mul hu (cε.inv hu), ?_⟩
      · by_cases hq : q = i
        · simp only [hq, if_true]; exact hθ'.mul hu cε'
        · simp only [hq, if_false]; exact (hθ q).mono h0 hu (by omega)
      · rw [e]
        have hsum : ∑ q, (if q = i then θ' * ε' else θ q) *
            (if q.val < i.val + 1 ∧ q < j ∧ q ≤ k then (if q = i then d j else l j q) * val (m'.get q k) else 0) =
            ∑ q, (θ q * (if q.val < i.val ∧ q < j ∧ q ≤ k then l j q * val (m.get q k) else 0) +
              (if q = i then θ' * ε' * (d j * val (m.get i k)) else 0)) := by
          refine Finset.sum_congr rfl fun q _ => ?_
          by_cases hq : q = i
          · subst hq; simp [hj, hs q le_rfl, hki.le]
          · have h2 : q.val ≠ i.val := fun e => hq (Fin.ext e)
            have h1 : (q.val < i.val + 1 ↔ q.val < i.val) := by omega
            simp only [hq, if_false, h1, add_zero]
            by_cases hlt : q.val < i.val
            · rw [hs q (le_of_lt hlt)]
            · simp [hlt]
        rw [hsum, Finset.sum_add_distrib, Finset.sum_ite_eq' Finset.univ i]
        have k1 : ¬ k.val < i.val := by omega
        have k2 : ¬ k.val < i.val + 1 := by omega
        simp only [Finset.mem_univ, if_true, k1, k2, false_and, if_false]
        rw [hm']
        field_simp
        ring
  · -- a row that is done
    have hj' : j.val ≤ i.val := by have : ¬ i.val < j.val := hj; omega
    refine ⟨θ, θ', fun q => (hθ q).mono h0 hu (by omega), hθ'.mono h0 hu (by omega), ?_⟩
    rw [e]
    congr 1
    · refine Finset.sum_congr rfl fun q _ => ?_
      congr 1
      by_cases hq : q < j
      · have hq' : q.val < j.val := hq
        have hqi : q ≠ i := fun e => by rw [e] at hq'; omega
        have h1 : q.val < i.val := by omega
        rw [hs q (le_of_lt h1)]
        simp [h1, h1.trans (Nat.lt_succ_self _), hqi]
      · simp [hq]
    · rw [hs j hj']
      congr 1
      by_cases hk : k < j
      · have hk' : k.val < j.val := hk
        simp [hk, show k.val < i.val by omega, show k.val < i.val + 1 by omega]
      · simp [hk]

end

/-! ## C86 -/

/-- The leading block of size `p` of the values. -/
def Mat.block {F : Type} (val : F → ℝ) {n : Nat} (a : Mat F n n) (p : Nat) (hp : p ≤ n) : Matrix (Fin p) (Fin p) ℝ :=
  fun i j => val (a.get (i.castLE hp) (j.castLE hp))

/-- `L U` is a triangular factorisation, with ones on the diagonal of `L`, of a matrix close to `A`: entry by entry the
difference in row `i` (counted from 0) is at most `(1-u)^(-i) - 1` times `|L| |U|`; in particular the first rows agree.  All
pivots before the last are nonzero, so that `L` and `U` are determined by `L U`. -/
structure NearLU (u : ℝ) {p : Nat} (A L U : Matrix (Fin p) (Fin p) ℝ) : Prop where
  lower : ∀ i j, i < j → L i j = 0
  unit : ∀ i, L i i = 1
  upper : ∀ i j, j < i → U i j = 0
  near : ∀ i j, |A i j - (L * U) i j| ≤ (((1 - u) ^ i.val)⁻¹ - 1) * (L.map abs * U.map abs) i j
  pivots : ∀ i : Fin p, i.val + 1 < p → U i i ≠ 0

theorem NearLU.det {u : ℝ} {p : Nat} {A L U : Matrix (Fin p) (Fin p) ℝ} (h : NearLU u A L U) :
    (L * U).det = ∏ i, U i i := by
  rw [Matrix.det_mul, Matrix.det_of_isLowerTriangular L (fun i j hij => h.lower i j hij),
    Matrix.det_of_isUpperTriangular (M := U) (fun i j hij => h.upper i j hij)]
  simp [h.unit]

section
variable {F : Type} {O : Ops F} {val : F → ℝ} {u : ℝ} (H : O.Rounds val u) (hu : u < 1) {n : Nat}
include H hu

theorem elimInv_lu {a m : Mat F n n} {i : Nat} (h : ElimInv val u a i m)
    (hpv : ∀ q : Fin n, q.val < i → q.val + 1 < n → val (m.get q q) ≠ 0) (p : Nat) (hp : p ≤ n) (hi : p ≤ i + 1) :
    ∃ L U, NearLU u (a.block val p hp) L U ∧ ∀ q, U q q = val (m.get (q.castLE hp) (q.castLE hp)) := by
  have h0 := H.nonneg
  obtain ⟨l, hl⟩ := h
  let L : Matrix (Fin p) (Fin p) ℝ := fun j q => if q = j then 1 else if q < j then l (j.castLE hp) (q.castLE hp) else 0
  let U : Matrix (Fin p) (Fin p) ℝ := fun q k => if q ≤ k then val (m.get (q.castLE hp) (k.castLE hp)) else 0
  refine ⟨L, U, ⟨?_, ?_, ?_, ?_, fun q hq => ?_⟩, fun q => by simp [U]⟩
  · intro i j hij; simp [L, hij.ne', hij.le.not_gt]
  · intro i; simp [L]
  · intro i j hij; simp [U, hij.not_ge]
  · intro j k
    obtain ⟨θ, θ', hθ, hθ', e⟩ := hl (j.castLE hp) (k.castLE hp)
    have hj := j.isLt
    have hjp : min i (j.castLE hp).val ≤ j.val := by simp only [Fin.val_castLE]; omega
    let Θ : Fin p → ℝ := fun q => if q = j then θ' else θ (q.castLE hp)
    have hΘ : ∀ q, |Θ q - 1| ≤ ((1 - u) ^ j.val)⁻¹ - 1 := fun q => by
      by_cases hq : q = j
      · simp only [Θ, hq, if_true]; exact (hθ'.mono h0 hu hjp).abs_sub_one hu
      · simp only [Θ, hq, if_false]; exact ((hθ _).mono h0 hu hjp).abs_sub_one hu
    have e' : a.block val p hp j k = ∑ q, Θ q * (L j q * U q k) := by
      have e1 : ∑ q : Fin n, θ q * (if q.val < i ∧ q < j.castLE hp ∧ q ≤ k.castLE hp then l (j.castLE hp) q * val (m.get q (k.castLE hp)) else 0) =
          ∑ q : Fin p, θ (q.castLE hp) * (if q < j ∧ q ≤ k then l (j.castLE hp) (q.castLE hp) * val (m.get (q.castLE hp) (k.castLE hp)) else 0) := by
        symm
        refine Fintype.sum_of_injective (Fin.castLE hp) (Fin.castLE_injective hp) _ _ ?_ ?_
        · intro q hq
          rw [if_neg, mul_zero]
          rintro ⟨_, h2, _⟩
          refine hq ⟨⟨q.val, ?_⟩, rfl⟩
          have : q.val < j.val := h2
          omega
        · intro q
          congr 1
          have : (q.val < i ∧ q.castLE hp < j.castLE hp ∧ q.castLE hp ≤ k.castLE hp) ↔ (q < j ∧ q ≤ k) := by
            constructor
            · rintro ⟨_, h2, h3⟩; exact ⟨h2, h3⟩
            · rintro ⟨h2, h3⟩
              have : q.val < j.val := h2
              exact ⟨by omega, h2, h3⟩
          simp only [Fin.val_castLE, this]
      have e2 : (if (k.castLE hp).val < i ∧ k.castLE hp < j.castLE hp then 0 else val (m.get (j.castLE hp) (k.castLE hp))) = U j k := by
        simp only [U]
        by_cases hk : j ≤ k
        · have : ¬ k.castLE hp < j.castLE hp := not_lt.2 hk
          simp [hk, this]
        · have h1 : k.val < j.val := not_le.1 hk
          have h2 : k.castLE hp < j.castLE hp := h1
          rw [if_pos ⟨by simp only [Fin.val_castLE]; omega, h2⟩, if_neg hk]
      have e3 : ∑ q, Θ q * (L j q * U q k) =
          ∑ q, (θ (q.castLE hp) * (if q < j ∧ q ≤ k then l (j.castLE hp) (q.castLE hp) * val (m.get (q.castLE hp) (k.castLE hp)) else 0) +
            if q = j then θ' * U j k else 0) := by
        refine Finset.sum_congr rfl fun q _ => ?_
        by_cases hq : q = j
        · subst hq; simp [Θ, L]
        · by_cases hlt : q < j
          · by_cases hk : q ≤ k
            · simp [Θ, L, U, hq, hlt, hk]
            · simp [Θ, L, U, hq, hlt, hk]
          · simp [Θ, L, hq, hlt]
      rw [e3, Finset.sum_add_distrib, Finset.sum_ite_eq' Finset.univ j, ← e1, if_pos (Finset.mem_univ j), ← e2]
      exact e
    rw [e', Matrix.mul_apply, ← Finset.sum_sub_distrib, Matrix.mul_apply, Finset.mul_sum]
    refine (Finset.abs_sum_le_sum_abs _ _).trans (Finset.sum_le_sum fun q _ => ?_)
    have : Θ q * (L j q * U q k) - L j q * U q k = (Θ q - 1) * (L j q * U q k) := by ring
    rw [this, abs_mul, Matrix.map_apply, Matrix.map_apply, abs_mul]
    exact mul_le_mul_of_nonneg_right (hΘ q) (by positivity)
  · simp only [U, le_refl, if_true]
    exact hpv _ (by simp only [Fin.val_castLE]; omega) (by simp only [Fin.val_castLE]; omega)

theorem prod_close (l : List F) {x z : F} (h : l.foldlM O.mul x = .ok z) :
    ∃ θ, Close u l.length θ ∧ val z = θ * (val x * (l.map val).prod) := by
  induction l generalizing x with
  | nil => cases h; exact ⟨1, Close.one H.nonneg hu 0, by simp⟩
  | cons y l ih =>
    rw [List.foldlM_cons, bind_ok_iff] at h
    obtain ⟨p, hp, h⟩ := h
    obtain ⟨θ, c, e⟩ := ih h
    obtain ⟨ε, c', e'⟩ := close_of_round H.nonneg hu (H.mul hp)
    refine ⟨θ * ε, c.mul hu c', ?_⟩
    rw [e, e', List.map_cons, List.prod_cons]; ring

omit H hu in
theorem expansion_free (cof : Nat × Nat → Res F) (a : Mat F (n + 1) (n + 1)) {z : F}
    (h : (List.range (n + 1)).foldlM (fun acc i => do
      let p ← O.mul (← a.index (i, 0)) (← cof (i, 0))
      O.add acc p) O.zero = .ok z) :
    ∃ c : Fin (n + 1) → F, (∀ i : Fin (n + 1), cof (i, 0) = .ok (c i)) ∧
      mulFold O ((List.finRange (n + 1)).map fun i => (a.get i 0, c i)) = .ok z := by
  let c : Fin (n + 1) → F := fun i => match cof (i, 0) with | .ok c => c | .error _ => O.zero
  have key : ∀ (l : List (Fin (n + 1))) (x : F), l.foldlM (fun acc (i : Fin (n + 1)) => do
      let p ← O.mul (← a.index (i.val, 0)) (← cof (i.val, 0))
      O.add acc p) x = .ok z → (∀ i ∈ l, cof (i, 0) = .ok (c i)) ∧
      l.foldlM (fun acc i => do let q ← O.mul (a.get i 0) (c i); O.add acc q) x = .ok z := by
    intro l
    induction l with
    | nil => intro x h; exact ⟨by simp, h⟩
    | cons i l ih =>
      intro x h
      rw [List.foldlM_cons, Mat.index_ok _ i.isLt (Nat.succ_pos n)] at h
      simp only [res_ok_bind] at h
      rw [bind_ok_iff] at h
      obtain ⟨y, hy, h⟩ := h
      rw [bind_ok_iff] at hy
      obtain ⟨ci, hc, hy⟩ := hy
      have hci : c i = ci := by simp only [c, hc]
      obtain ⟨h1, h2⟩ := ih y h
      refine ⟨fun j hj => ?_, ?_⟩
      · rcases List.mem_cons.1 hj with rfl | hj
        · rw [hci]; exact hc
        · exact h1 j hj
      · rw [List.foldlM_cons, hci]
        have : (do let q ← O.mul (a.get i 0) ci; O.add x q) = .ok y := hy
        rw [this]; exact h2
  have hr : List.range (n + 1) = (List.finRange (n + 1)).map fun i => i.val := by simp
  rw [hr, List.foldlM_map] at h
  obtain ⟨h1, h2⟩ := key _ _ h
  refine ⟨c, fun i => h1 i (List.mem_finRange i), ?_⟩
  rw [mulFold, List.foldlM_map]; exact h2

/-- C86: the determinant of size `n = 4, 5, ..` in floating point.  Either the elimination ran through: then the result is,
up to a relative error of `(1-u)^(-n) - 1`, the exact determinant of a matrix `L U` that differs from the given one entry by
entry by at most `(1-u)^(-i) - 1` times `|L| |U|`, `i` the row.  Or some leading block is as close to an exactly singular matrix: then
the result is the expansion along the first column, computed from the computed cofactors with the error of a dot product. -/
theorem C86_determinant (t : Target) (k : Nat) (a : Mat F (k + 4) (k + 4)) {z : F}
    (hz : a.determinant t O (k + 3) = .ok z) :
    (∃ L U, NearLU u (a.block val (k + 4) le_rfl) L U ∧
      |val z - (L * U).det| ≤ (((1 - u) ^ (k + 4))⁻¹ - 1) * |(L * U).det|) ∨
    (∃ (p : Nat) (hp : p < k + 4) (L U : Matrix (Fin p) (Fin p) ℝ), 0 < p ∧ NearLU u (a.block val p hp.le) L U ∧
      (L * U).det = 0 ∧
      ∃ c : Fin (k + 4) → F, (∀ i : Fin (k + 4), a.cofactor t O (k + 2) (i, 0) = .ok (c i)) ∧
        |val z - ∑ i, val (a.get i 0) * val (c i)| ≤
          ((1 + u) ^ (k + 4 + 1) - 1) * ∑ i, |val (a.get i 0)| * |val (c i)|) := by
  rw [Mat.determinant, Mat.detGen, Mat.clone_ok] at hz
  simp only [res_ok_bind] at hz
  rw [bind_ok_iff] at hz
  obtain ⟨o, h1, h2⟩ := hz
  rw [List.range_eq_range'] at h1
  obtain ⟨e1, e2⟩ := elimAll_free
    (fun i m => ElimInv val u a i m ∧ ∀ q : Fin (k + 4), q.val < i → q.val + 1 < k + 4 → val (m.get q q) ≠ 0)
    (fun i m m' hm hz hr hs => ⟨elimInv_step H hu a i m m' hm.1 hz hr hs, fun q hq hq' => by
      rw [hs q (Nat.lt_succ_iff.1 hq)]
      rcases Nat.lt_succ_iff_lt_or_eq.1 hq with h | h
      · exact hm.2 q h hq'
      · obtain rfl : q = i := Fin.ext h
        rw [Ne, ← H.isZero]; simp [hz hq']⟩)
    (k + 4) 0 (by omega) ⟨elimInv_zero H hu a, fun q hq => absurd hq (by omega)⟩ h1
  cases o with
  | some m =>
    left
    obtain ⟨L, U, hLU, hd⟩ := elimInv_lu H hu (e2 m rfl).1 (e2 m rfl).2 (k + 4) le_rfl (by omega)
    refine ⟨L, U, hLU, ?_⟩
    have h3 : ((List.finRange (k + 4)).map fun i => m.get i i).foldlM O.mul O.one = .ok z := by
      have hr : List.range (k + 4) = (List.finRange (k + 4)).map fun i => i.val := by simp
      simp only [hr, List.foldlM_map] at h2
      rw [List.foldlM_map, ← h2]
      congr 1
      funext acc i
      rw [Mat.index_ok _ i.isLt i.isLt]; rfl
    obtain ⟨θ, c, e⟩ := prod_close H hu _ h3
    rw [List.length_map, List.length_finRange] at c
    rw [H.one, one_mul, List.map_map, ← Fin.prod_univ_def] at e
    have e' : val z = θ * (L * U).det := by
      rw [e, hLU.det]
      congr 1
      exact Finset.prod_congr rfl fun i _ => (hd i).symm
    have : θ * (L * U).det - (L * U).det = (θ - 1) * (L * U).det := by ring
    rw [e', this, abs_mul]
    exact mul_le_mul_of_nonneg_right (c.abs_sub_one hu) (abs_nonneg _)
  | none =>
    right
    obtain ⟨i, m, hi, hinv, hzero⟩ := e1 rfl
    obtain ⟨L, U, hLU, hd⟩ := elimInv_lu H hu hinv.1 hinv.2 (i.val + 1) (by omega) le_rfl
    refine ⟨i.val + 1, hi, L, U, by omega, hLU, ?_, ?_⟩
    · rw [hLU.det]
      refine Finset.prod_eq_zero (Finset.mem_univ (Fin.last i.val)) ?_
      rw [hd, ← (H.isZero _).1 hzero]
      rfl
    · obtain ⟨c, hc, hs⟩ := expansion_free _ a h2
      exact ⟨c, hc, mulFold_bound H _ _ hs⟩

end

section
variable {F : Type} {O : Ops F} {val : F → ℝ} {u : ℝ} (H : O.Rounds val u)
include H

theorem quot_err {d x w : F} {e b : ℝ} {k : Nat} (hd : val d ≠ 0) (hx : |e| ≤ b) (ex : |val x - e| ≤ ((1 + u) ^ k - 1) * b)
    (hw : O.div x d = .ok w) : |val d * val w - e| ≤ ((1 + u) ^ (k + 1) - 1) * b := by
  have h := H.div hd hw
  have h0 := H.nonneg
  have hb : 0 ≤ b := (abs_nonneg _).trans hx
  have h1 : |val d * val w - val x| ≤ u * |val x| := by
    have e1 : val d * val w - val x = val d * (val w - val x / val d) := by field_simp
    have e2 : u * |val x| = |val d| * (u * |val x / val d|) := by
      rw [abs_div]; have := abs_pos.2 hd; field_simp
    rw [e1, abs_mul, e2]
    exact mul_le_mul_of_nonneg_left h (abs_nonneg _)
  have h2 : |val x| ≤ (1 + u) ^ k * b := by
    have := abs_add_le (val x - e) e; rw [sub_add_cancel] at this; nlinarith
  have h3 : |val d * val w - e| ≤ |val d * val w - val x| + |val x - e| := by
    have e1 : val d * val w - e = (val d * val w - val x) + (val x - e) := by ring
    rw [e1]; exact abs_add_le _ _
  have h4 := mul_le_mul_of_nonneg_left h2 h0
  rw [pow_succ]
  nlinarith

theorem ms_err (t : Target) (a : Mat F 3 3) (p q r s : Fin 3 × Fin 3) {x : F}
    (hx : a.ms t O (p.1, p.2) (q.1, q.2) (r.1, r.2) (s.1, s.2) = .ok x) :
    |val (a.get p.1 p.2) * val (a.get q.1 q.2) - val (a.get r.1 r.2) * val (a.get s.1 s.2)| ≤
      |val (a.get p.1 p.2)| * |val (a.get q.1 q.2)| + |val (a.get r.1 r.2)| * |val (a.get s.1 s.2)| ∧
    |val x - (val (a.get p.1 p.2) * val (a.get q.1 q.2) - val (a.get r.1 r.2) * val (a.get s.1 s.2))| ≤
      ((1 + u) ^ 2 - 1) * (|val (a.get p.1 p.2)| * |val (a.get q.1 q.2)| + |val (a.get r.1 r.2)| * |val (a.get s.1 s.2)|) := by
  simp only [Mat.ms, Mat.idxStatic_ok t _ (Fin.isLt _) (Fin.isLt _), res_ok_bind] at hx
  rw [bind_ok_iff] at hx
  obtain ⟨y, hy, hx⟩ := hx
  rw [bind_ok_iff] at hx
  obtain ⟨z, hz, hx⟩ := hx
  have h1 := H.tracks.mul (tracks_input (val := val) (u := u) (a.get p.1 p.2)) (tracks_input (a.get q.1 q.2))
  obtain ⟨_, h1, T1⟩ := h1.ok_left hy
  cases h1
  have h2 := H.tracks.mul (tracks_input (val := val) (u := u) (a.get r.1 r.2)) (tracks_input (a.get s.1 s.2))
  obtain ⟨_, h2, T2⟩ := h2.ok_left hz
  cases h2
  obtain ⟨_, h3, T3⟩ := (H.tracks.sub T1 T2).ok_left hx
  cases h3
  exact T3

theorem inv_fin {n : Nat} (t : Target) {E B : Fin n → Fin n → ℝ} {b w : Mat F n n} {d : F} (hd : val d ≠ 0)
    (hw : b.divScalar t O.div d = .ok w)
    (hb : ∀ i j, |E i j| ≤ B i j ∧ |val (b.get i j) - E i j| ≤ ((1 + u) ^ 2 - 1) * B i j) :
    ∀ i j, |val d * val (w.get i j) - E i j| ≤ ((1 + u) ^ 3 - 1) * B i j := by
  intro i j
  exact quot_err H hd (hb i j).1 (hb i j).2 ((C19_mat_ok t O.div (fun x => .ok x) b d w b).2.1.1 hw i j)

omit H in
theorem conv_err {v e b e' b' g : ℝ} (he : e' = e) (hb : b' = b) (h : |e| ≤ b ∧ |v - e| ≤ g * b) :
    |e'| ≤ b' ∧ |v - e'| ≤ g * b' := by subst he; subst hb; exact h

/-- C86: the inverse of sizes 1, 2, 3 in floating point.  With `d` the computed determinant (which is close to the exact
one by C83): `None` is returned exactly if `d` is zero; otherwise every entry `w` of the result satisfies
`|d w - adj| ≤ ((1+u)^3 - 1) * (permanent of the absolute values of the minor)`, where `adj` is the entry of the adjugate. -/
theorem C86_inverse_small (t : Target) (k : Nat) (hk : k < 3) (a : Mat F (k + 1) (k + 1))
    {o : Option (Mat F (k + 1) (k + 1))} (ho : a.inverse t O k = .ok o) :
    ∃ d, a.determinant t O k = .ok d ∧ (o = none ↔ val d = 0) ∧
      ∀ w, o = some w → ∀ i j : Fin (k + 1), |val d * val (w.get i j) -
        (Matrix.of fun i j => val (a.get i j)).adjugate i j| ≤
          ((1 + u) ^ 3 - 1) * ((Matrix.of fun i j => |val (a.get i j)|).submatrix j.succAbove i.succAbove).permanent := by
  have h0 := H.nonneg
  match k, hk with
  | 0, _ =>
    simp only [Mat.inverse, Mat.inv1, Mat.idxStatic_ok t a (show 0 < 1 by omega) (show 0 < 1 by omega), res_ok_bind] at ho
    refine ⟨_, Mat.idxStatic_ok t a (show 0 < 1 by omega) (show 0 < 1 by omega), ?_⟩
    split at ho
    · next hz =>
      cases ho
      exact ⟨⟨fun _ => (H.isZero _).1 hz, fun _ => rfl⟩, fun w e => absurd e (by simp)⟩
    · next hz =>
      have hd : val (a.get ⟨0, by omega⟩ ⟨0, by omega⟩) ≠ 0 := fun h => hz ((H.isZero _).2 h)
      rw [bind_ok_iff] at ho
      obtain ⟨x, hx, ho⟩ := ho
      obtain ⟨b, hb, hg, -⟩ := C35_new t (⟨[⟨[x], rfl⟩], rfl⟩ : Vec (Vec F 1) 1)
      rw [hb, res_ok_bind] at ho
      cases ho
      refine ⟨⟨fun e => by simp at e, fun e => absurd e hd⟩, fun w e i j => ?_⟩
      cases e
      have h1 := quot_err H (k := 2) (e := 1) (b := 1) hd (by simp) (by
        rw [H.one, sub_self, abs_zero, mul_one]; nlinarith) hx
      rw [hg, Matrix.adjugate_fin_one, Matrix.permanent_isEmpty]
      fin_cases i; fin_cases j
      exact h1
  | 1, _ =>
    simp only [Mat.inverse, Mat.inv2] at ho
    rw [bind_ok_iff] at ho
    obtain ⟨d, hd, ho⟩ := ho
    refine ⟨d, hd, ?_⟩
    split at ho
    · next hz =>
      cases ho
      exact ⟨⟨fun _ => (H.isZero _).1 hz, fun _ => rfl⟩, fun w e => absurd e (by simp)⟩
    · next hz =>
      have hd0 : val d ≠ 0 := fun h => hz ((H.isZero _).2 h)
      rw [Mat.idxStatic_ok t a (show 0 < 2 by omega) (show 0 < 2 by omega),
        Mat.idxStatic_ok t a (show 0 < 2 by omega) (show 1 < 2 by omega),
        Mat.idxStatic_ok t a (show 1 < 2 by omega) (show 0 < 2 by omega),
        Mat.idxStatic_ok t a (show 1 < 2 by omega) (show 1 < 2 by omega)] at ho
      simp only [res_ok_bind] at ho
      rw [bind_ok_iff] at ho
      obtain ⟨x, hx, ho⟩ := ho
      rw [bind_ok_iff] at ho
      obtain ⟨y, hy, ho⟩ := ho
      obtain ⟨b, hb, hg, -⟩ := C35_new t (⟨[⟨[a.get ⟨1, by omega⟩ ⟨1, by omega⟩, x], rfl⟩,
        ⟨[y, a.get ⟨0, by omega⟩ ⟨0, by omega⟩], rfl⟩], rfl⟩ : Vec (Vec F 2) 2)
      rw [hb, res_ok_bind, bind_ok_iff] at ho
      obtain ⟨w', hw, ho⟩ := ho
      cases ho
      refine ⟨⟨fun e => by simp at e, fun e => absurd e hd0⟩, fun w e => ?_⟩
      cases e
      refine inv_fin H t hd0 hw fun i j => ?_
      have hxv := H.neg hx
      have hyv := H.neg hy
      have hn : ∀ r : ℝ, 0 ≤ ((1 + u) ^ 2 - 1) * |r| := fun r => mul_nonneg (by nlinarith) (abs_nonneg _)
      rw [hg, Matrix.adjugate_fin_two, Matrix.permanent_unique (n := Fin 1)]
      fin_cases i <;> fin_cases j
      · refine ⟨le_of_eq rfl, ?_⟩
        refine le_trans (le_of_eq ?_) (hn _)
        show |val (a.get 1 1) - val (a.get 1 1)| = 0
        simp
      · refine ⟨le_of_eq (abs_neg _), ?_⟩
        refine le_trans (le_of_eq ?_) (hn _)
        show |val x - -val (a.get 0 1)| = 0
        rw [hxv]; exact abs_eq_zero.2 (sub_self _)
      · refine ⟨le_of_eq (abs_neg _), ?_⟩
        refine le_trans (le_of_eq ?_) (hn _)
        show |val y - -val (a.get 1 0)| = 0
        rw [hyv]; exact abs_eq_zero.2 (sub_self _)
      · refine ⟨le_of_eq rfl, ?_⟩
        refine le_trans (le_of_eq ?_) (hn _)
        show |val (a.get 0 0) - val (a.get 0 0)| = 0
        simp
  | 2, _ =>
    simp only [Mat.inverse, Mat.inv3] at ho
    rw [bind_ok_iff] at ho
    obtain ⟨d, hd, ho⟩ := ho
    refine ⟨d, hd, ?_⟩
    split at ho
    · next hz =>
      cases ho
      exact ⟨⟨fun _ => (H.isZero _).1 hz, fun _ => rfl⟩, fun w e => absurd e (by simp)⟩
    · next hz =>
      have hd0 : val d ≠ 0 := fun h => hz ((H.isZero _).2 h)
      simp only [bind_ok_iff] at ho
      obtain ⟨x1, e1, x2, e2, x3, e3, x4, e4, x5, e5, x6, e6, x7, e7, x8, e8, x9, e9, b, hb, w', hw, ho⟩ := ho
      obtain ⟨b', hb', hg, -⟩ := C35_new t (⟨[⟨[x1, x2, x3], rfl⟩, ⟨[x4, x5, x6], rfl⟩, ⟨[x7, x8, x9], rfl⟩], rfl⟩ :
        Vec (Vec F 3) 3)
      cases hb.symm.trans hb'
      cases ho
      refine ⟨⟨fun e => by simp at e, fun e => absurd e hd0⟩, fun w e => ?_⟩
      cases e
      refine inv_fin H t hd0 hw fun i j => ?_
      have f1 := ms_err H t a (1,1) (2,2) (1,2) (2,1) e1
      have f2 := ms_err H t a (0,2) (2,1) (0,1) (2,2) e2
      have f3 := ms_err H t a (0,1) (1,2) (0,2) (1,1) e3
      have f4 := ms_err H t a (1,2) (2,0) (1,0) (2,2) e4
      have f5 := ms_err H t a (0,0) (2,2) (0,2) (2,0) e5
      have f6 := ms_err H t a (0,2) (1,0) (0,0) (1,2) e6
      have f7 := ms_err H t a (1,0) (2,1) (1,1) (2,0) e7
      have f8 := ms_err H t a (0,1) (2,0) (0,0) (2,1) e8
      have f9 := ms_err H t a (0,0) (1,1) (0,1) (1,0) e9
      rw [hg, Matrix.adjugate_fin_three, permanent_fin_two]
      fin_cases i <;> fin_cases j
      · refine conv_err ?_ ?_ f1 <;> simp
      · refine conv_err ?_ ?_ f2 <;> simp [Fin.succAbove] <;> ring
      · refine conv_err ?_ ?_ f3 <;> simp [Fin.succAbove]
      · refine conv_err ?_ ?_ f4 <;> simp [Fin.succAbove] <;> ring
      · refine conv_err ?_ ?_ f5 <;> simp [Fin.succAbove]
      · refine conv_err ?_ ?_ f6 <;> simp [Fin.succAbove] <;> ring
      · refine conv_err ?_ ?_ f7 <;> simp [Fin.succAbove]
      · refine conv_err ?_ ?_ f8 <;> simp [Fin.succAbove] <;> ring
      · refine conv_err ?_ ?_ f9 <;> simp [Fin.succAbove]

end

/-- C86: the usual form of the bounds: `(1-u)^(-m) - 1 ≤ mu / (1 - mu)`. -/
theorem C86_gamma {u : ℝ} (m : Nat) (hm : m * u < 1) : ((1 - u) ^ m)⁻¹ - 1 ≤ m * u / (1 - m * u) := by
  have h1 : 0 < 1 - m * u := by linarith
  by_cases h0 : m = 0
  · subst h0; simp
  have hu1 : u < 1 := by
    have : (1 : ℝ) ≤ m := by exact_mod_cast Nat.one_le_iff_ne_zero.2 h0
    nlinarith
  have h2 : 1 - m * u ≤ (1 - u) ^ m := by
    have := one_add_mul_le_pow (a := -u) (by linarith) m
    rw [← sub_eq_add_neg] at this; linarith
  have h3 : ((1 - u) ^ m)⁻¹ ≤ (1 - m * u)⁻¹ := inv_anti₀ h1 h2
  have h4 : m * u / (1 - m * u) = (1 - m * u)⁻¹ - 1 := by field_simp; ring
  rw [h4]; linarith

/-- Without rounding a nearby factorisation is a factorisation. -/
theorem NearLU.exact {p : Nat} {A L U : Matrix (Fin p) (Fin p) ℝ} (h : NearLU 0 A L U) : A = L * U := by
  ext i j
  have := h.near i j
  simp only [sub_zero, one_pow, inv_one, sub_self, zero_mul] at this
  exact sub_eq_zero.1 (abs_eq_zero.1 (le_antisymm this (abs_nonneg _)))

theorem Ops.rounded_total (rnd : ℝ → ℝ) : (Ops.rounded rnd).TotalExceptDivZero where
  add _ _ := ⟨_, rfl⟩
  sub _ _ := ⟨_, rfl⟩
  mul _ _ := ⟨_, rfl⟩
  neg _ := ⟨_, rfl⟩
  div x y h := ⟨rnd (x / y), by
    have : ¬ y = 0 := by simpa [Ops.rounded] using h
    simp [Ops.rounded, this]⟩

/-- C86: the bound for round-to-nearest with 53 bits (the precision of `f64`; 24 bits for `f32` is the same with `p = 24`):
the determinant of every square matrix of size 4 and more is computed and is near in the sense of `C86_determinant`. -/
theorem C86_types (t : Target) (p : Nat) (hp : 0 < p) (k : Nat) (hk : k + 4 < t.W) (a : Mat ℝ (k + 4) (k + 4)) :
    ∃ z, a.determinant t (Ops.rounded (roundBin p)) (k + 3) = .ok z ∧
    ((∃ L U, NearLU ((1 / 2) ^ p) (a.block id (k + 4) le_rfl) L U ∧
      |z - (L * U).det| ≤ (((1 - (1 / 2) ^ p) ^ (k + 4))⁻¹ - 1) * |(L * U).det|) ∨
    (∃ (q : Nat) (hq : q < k + 4) (L U : Matrix (Fin q) (Fin q) ℝ), 0 < q ∧
      NearLU ((1 / 2) ^ p) (a.block id q hq.le) L U ∧ (L * U).det = 0)) := by
  obtain ⟨z, hz⟩ := C52_determinant_total (Ops.rounded_total (roundBin p)) t (k + 3) a (by omega)
  have hu : ((1 : ℝ) / 2) ^ p < 1 := pow_lt_one₀ (by norm_num) (by norm_num) (by omega)
  refine ⟨z, hz, ?_⟩
  rcases C86_determinant (Ops.rounded_rounds (by positivity) (roundBin_error p)) hu t k a hz with h | ⟨q, hq, L, U, h1, h2, h3, _⟩
  · exact Or.inl h
  · exact Or.inr ⟨q, hq, L, U, h1, h2, h3⟩

/-- Without rounding, on a matrix with nonzero leading minors, `C86_determinant` says that the determinant is exact. -/
example (t : Target) (k : Nat) (a : Mat ℝ (k + 4) (k + 4)) (hk : k + 4 < t.W)
    (hl : ∀ (p : Nat) (hp : p < k + 4), 0 < p → (a.block id p hp.le).det ≠ 0) :
    a.determinant t (Ops.rounded id) (k + 3) = .ok (a.block id (k + 4) le_rfl).det := by
  obtain ⟨z, hz⟩ := C52_determinant_total (Ops.rounded_total id) t (k + 3) a (by omega)
  rcases C86_determinant (u := 0) (Ops.rounded_rounds le_rfl (fun x => by simp)) (by norm_num) t k a hz with
    ⟨L, U, h1, h2⟩ | ⟨q, hq, L, U, h1, h2, h3, _⟩
  · rw [hz, h1.exact]
    simp only [sub_zero, one_pow, inv_one, sub_self, zero_mul] at h2
    exact congrArg Except.ok (sub_eq_zero.1 (abs_eq_zero.1 (le_antisymm h2 (abs_nonneg _))))
  · exact absurd h3 (h2.exact ▸ hl q hq h1)

/-- `C86_inverse_small` applies to every matrix of size 1, 2, 3 in binary arithmetic. -/
example (t : Target) (k : Nat) (_ : k < 3) (a : Mat ℝ (k + 1) (k + 1)) :
    ∃ o, a.inverse t (Ops.rounded (roundBin 53)) k = .ok o :=
  C52_inverse_total (Ops.rounded_total (roundBin 53)) t k a

end Rowcol
