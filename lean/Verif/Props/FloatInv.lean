import Verif.Props.FloatDet
import Verif.Lemmas.GJFree

/-! # C86: the inverse of size 4 and more in floating point -/

namespace Rowcol

open Matrix

/-- The identity matrix with column number `q` replaced by `v`. -/
def colMatrix {n : Nat} (q : Nat) (v : Fin n → ℝ) : Matrix (Fin n) (Fin n) ℝ :=
  fun i j => if j.val = q then v i else if i = j then 1 else 0

/-- The product of the first `q` of the matrices `F`. -/
def firstProd {n : Nat} (F : Nat → Matrix (Fin n) (Fin n) ℝ) (q : Nat) : Matrix (Fin n) (Fin n) ℝ :=
  ((List.range q).map F).prod

section lin
variable {n : Nat}

theorem firstProd_succ (F : Nat → Matrix (Fin n) (Fin n) ℝ) (q : Nat) : firstProd F (q + 1) = firstProd F q * F q := by
  simp [firstProd, List.range_succ]

theorem firstProd_zero (F : Nat → Matrix (Fin n) (Fin n) ℝ) : firstProd F 0 = 1 := by simp [firstProd]

theorem colMatrix_mulVec (q : Fin n) (v x : Fin n → ℝ) (j : Fin n) :
    (colMatrix q v *ᵥ x) j = if j = q then v q * x q else x j + v j * x q := by
  have e : ∀ c, colMatrix q.val v j c * x c = (if c = q then v j * x q else 0) + if c = j then (if j = q then 0 else x j) else 0 := by
    intro c
    simp only [colMatrix, Fin.val_inj]
    by_cases hc : c = q
    · subst hc
      by_cases hj : j = c
      · subst hj; simp
      · simp [Ne.symm hj]
    · by_cases hj : j = c
      · subst hj; simp [hc]
      · simp [hc, hj, Ne.symm hj]
  simp only [Matrix.mulVec, dotProduct, e, Finset.sum_add_distrib, Finset.sum_ite_eq', Finset.mem_univ, if_true]
  split
  · next h => subst h; simp
  · ring

theorem colMatrix_abs (q : Nat) (v : Fin n → ℝ) : (colMatrix q v).map abs = colMatrix q fun i => |v i| := by
  ext i j
  simp only [colMatrix, Matrix.map_apply]
  split <;> [rfl; split <;> simp]

theorem firstProd_abs_nonneg (F : Nat → Matrix (Fin n) (Fin n) ℝ) (q : Nat) (i j : Fin n) :
    0 ≤ firstProd (fun l => (F l).map abs) q i j := by
  induction q generalizing i j with
  | zero => rw [firstProd_zero, Matrix.one_apply]; split <;> norm_num
  | succ q ih =>
    rw [firstProd_succ, Matrix.mul_apply]
    exact Finset.sum_nonneg fun r _ => mul_nonneg (ih i r) (abs_nonneg _)

theorem firstProd_abs_le (F : Nat → Matrix (Fin n) (Fin n) ℝ) (q : Nat) (i j : Fin n) :
    |firstProd F q i j| ≤ firstProd (fun l => (F l).map abs) q i j := by
  induction q generalizing i j with
  | zero => rw [firstProd_zero, firstProd_zero, Matrix.one_apply]; split <;> simp
  | succ q ih =>
    rw [firstProd_succ, firstProd_succ, Matrix.mul_apply, Matrix.mul_apply]
    refine (Finset.abs_sum_le_sum_abs _ _).trans (Finset.sum_le_sum fun r _ => ?_)
    rw [abs_mul]
    exact mul_le_mul_of_nonneg_right (ih i r) (abs_nonneg _)

/-- Later columns of the product of the first stages are those of the identity. -/
theorem firstProd_later (v : Nat → Fin n → ℝ) (q : Nat) (i j : Fin n) (hj : q ≤ j.val) :
    firstProd (fun l => colMatrix l (v l)) q i j = if i = j then 1 else 0 := by
  induction q with
  | zero => rw [firstProd_zero, Matrix.one_apply]
  | succ q ih =>
    rw [firstProd_succ, Matrix.mul_apply, ← ih (by omega)]
    have e : ∀ r, firstProd (fun l => colMatrix l (v l)) q i r * colMatrix q (v q) r j =
        if r = j then firstProd (fun l => colMatrix l (v l)) q i j else 0 := by
      intro r
      rw [colMatrix, if_neg (by omega)]
      split
      · next h => subst h; simp
      · simp
    simp only [e, Finset.sum_ite_eq', Finset.mem_univ, if_true]

/-- Earlier columns of the product do not change any more. -/
theorem firstProd_earlier (v : Nat → Fin n → ℝ) (q : Nat) (i j : Fin n) (hj : j.val < q) :
    firstProd (fun l => colMatrix l (v l)) q i j = (firstProd (fun l => colMatrix l (v l)) j.val *ᵥ v j.val) i := by
  induction q with
  | zero => omega
  | succ q ih =>
    rw [firstProd_succ]
    rcases Nat.lt_succ_iff_lt_or_eq.1 hj with h | h
    · rw [← ih h, Matrix.mul_apply]
      have e : ∀ r, firstProd (fun l => colMatrix l (v l)) q i r * colMatrix q (v q) r j =
          if r = j then firstProd (fun l => colMatrix l (v l)) q i j else 0 := by
        intro r
        rw [colMatrix, if_neg (by omega)]
        split
        · next h => subst h; simp
        · simp
      simp only [e, Finset.sum_ite_eq', Finset.mem_univ, if_true]
    · subst h
      simp only [Matrix.mul_apply, Matrix.mulVec, dotProduct, colMatrix, if_true]

/-- A chain of steps each with a relative error `g`, taken together. -/
theorem chain_err (F : Nat → Matrix (Fin n) (Fin n) ℝ) (x : Nat → Fin n → ℝ) {g : ℝ} (hg : 0 ≤ g) (Q : Nat)
    (h : ∀ q < Q, ∀ j, |x q j - (F q *ᵥ x (q + 1)) j| ≤ g * ((F q).map abs *ᵥ fun r => |x (q + 1) r|) j) (j : Fin n) :
    |x 0 j - (firstProd F Q *ᵥ x Q) j| ≤ ((1 + g) ^ Q - 1) * (firstProd (fun l => (F l).map abs) Q *ᵥ fun r => |x Q r|) j := by
  induction Q with
  | zero => simp [firstProd_zero]
  | succ Q ih =>
    have h1 := ih fun q hq => h q (by omega)
    have hQ := h Q (by omega)
    set G := firstProd (fun l => (F l).map abs) Q with hG
    set P := firstProd F Q with hP
    set y : Fin n → ℝ := (F Q).map abs *ᵥ fun r => |x (Q + 1) r| with hy
    have gn : ∀ r, 0 ≤ G j r := fun r => firstProd_abs_nonneg F Q j r
    have hle : ∀ r, |(F Q *ᵥ x (Q + 1)) r| ≤ y r := fun r => by
      simp only [hy, Matrix.mulVec, dotProduct, Matrix.map_apply]
      refine (Finset.abs_sum_le_sum_abs _ _).trans (le_of_eq (Finset.sum_congr rfl fun s _ => abs_mul _ _))
    have hx : ∀ r, |x Q r| ≤ (1 + g) * y r := fun r => by
      have := abs_add_le (x Q r - (F Q *ᵥ x (Q + 1)) r) ((F Q *ᵥ x (Q + 1)) r)
      rw [sub_add_cancel] at this
      linarith [hQ r, hle r]
    have e1 : (G *ᵥ fun r => |x Q r|) j ≤ (1 + g) * (G *ᵥ y) j := by
      simp only [Matrix.mulVec, dotProduct, Finset.mul_sum]
      refine Finset.sum_le_sum fun r _ => ?_
      rw [mul_left_comm]
      exact mul_le_mul_of_nonneg_left (hx r) (gn r)
    have e2 : |(P *ᵥ x Q) j - (P *ᵥ (F Q *ᵥ x (Q + 1))) j| ≤ g * (G *ᵥ y) j := by
      rw [Matrix.mulVec, Matrix.mulVec, Matrix.mulVec]
      simp only [dotProduct, Finset.mul_sum, ← Finset.sum_sub_distrib, ← mul_sub]
      refine (Finset.abs_sum_le_sum_abs _ _).trans (Finset.sum_le_sum fun r _ => ?_)
      rw [abs_mul, mul_left_comm]
      exact mul_le_mul (firstProd_abs_le F Q j r) (hQ r) (abs_nonneg _) (gn r)
    rw [firstProd_succ, firstProd_succ, ← Matrix.mulVec_mulVec, ← Matrix.mulVec_mulVec]
    have e3 : x 0 j - (P *ᵥ (F Q *ᵥ x (Q + 1))) j = (x 0 j - (P *ᵥ x Q) j) + ((P *ᵥ x Q) j - (P *ᵥ (F Q *ᵥ x (Q + 1))) j) := by ring
    have p0 : 0 ≤ (1 + g) ^ Q - 1 := by linarith [one_le_pow₀ (n := Q) (show (1 : ℝ) ≤ 1 + g by linarith)]
    rw [e3]
    refine (abs_add_le _ _).trans ?_
    have e4 := mul_le_mul_of_nonneg_left e1 p0
    rw [pow_succ]
    nlinarith

end lin

section
variable {F : Type} {O : Ops F} {val : F → ℝ} {u : ℝ} (H : O.Rounds val u) (hu : u < 1) {n : Nat}
include H hu

/-- One Gauss-Jordan stage, read backwards, on one column of the matrix or of the accumulated inverse. -/
theorem stage_err (l : Fin n) (v x x' : Fin n → F) (hz : O.isZero (v l) = false)
    (hs : ∃ rcp, O.div O.one (v l) = .ok rcp ∧ O.mul (x l) rcp = .ok (x' l))
    (hc : ∀ j, j ≠ l → ∃ q, O.mul (x' l) (v j) = .ok q ∧ O.sub (x j) q = .ok (x' j)) (j : Fin n) :
    |val (x j) - (colMatrix l (fun i => val (v i)) *ᵥ fun i => val (x' i)) j| ≤
      (((1 - u) ^ 2)⁻¹ - 1) * ((colMatrix l (fun i => val (v i))).map abs *ᵥ fun i => |val (x' i)|) j := by
  have h0 := H.nonneg
  have hd : val (v l) ≠ 0 := by rw [Ne, ← H.isZero]; simp [hz]
  rw [colMatrix_abs, colMatrix_mulVec, colMatrix_mulVec]
  by_cases hj : j = l
  · subst hj
    simp only [if_true]
    obtain ⟨rcp, h1, h2⟩ := hs
    obtain ⟨ε, cε, e1⟩ := close_of_round h0 hu (H.div hd h1)
    obtain ⟨δ, cδ, e2⟩ := close_of_round h0 hu (H.mul h2)
    have c := (cδ.mul hu cε).inv hu
    have hεδ := (((cδ.mul hu cε)).pos hu).ne'
    have hε := (cε.pos hu).ne'
    have hδ := (cδ.pos hu).ne'
    have e3 : val (x j) = (δ * ε)⁻¹ * (val (v j) * val (x' j)) := by
      rw [e2, e1, H.one]; field_simp
    have e4 : val (x j) - val (v j) * val (x' j) = ((δ * ε)⁻¹ - 1) * (val (v j) * val (x' j)) := by rw [e3]; ring
    rw [e4, abs_mul, abs_mul]
    exact mul_le_mul_of_nonneg_right (c.abs_sub_one hu) (by positivity)
  · simp only [hj, if_false]
    obtain ⟨q, h1, h2⟩ := hc j hj
    obtain ⟨ε, cε, e1⟩ := close_of_round h0 hu (H.mul h1)
    obtain ⟨δ, cδ, e2⟩ := close_of_round h0 hu (H.sub h2)
    have hδ := (cδ.pos hu).ne'
    have e3 : val (x j) = δ⁻¹ * val (x' j) + ε * (val (v j) * val (x' l)) := by
      rw [e2, e1]; field_simp; ring
    have e4 : val (x j) - (val (x' j) + val (v j) * val (x' l)) =
        (δ⁻¹ - 1) * val (x' j) + (ε - 1) * (val (v j) * val (x' l)) := by rw [e3]; ring
    have c1 := ((cδ.inv hu).mono h0 hu (show 1 ≤ 2 by omega)).abs_sub_one hu
    have c2 := (cε.mono h0 hu (show 1 ≤ 2 by omega)).abs_sub_one hu
    rw [e4, mul_add]
    refine (abs_add_le _ _).trans (add_le_add ?_ ?_)
    · rw [abs_mul]; exact mul_le_mul_of_nonneg_right c1 (abs_nonneg _)
    · rw [abs_mul, abs_mul]; exact mul_le_mul_of_nonneg_right c2 (by positivity)

omit H hu in
/-- A run of the first `i` stages. -/
def GJTrace (O : Ops F) (s : Mat F n n × Mat F n n) (i : Nat) (p : Nat → Mat F n n × Mat F n n) : Prop :=
  p 0 = s ∧ ∀ (l : Nat) (hl : l < n), l < i → GJStage O ⟨l, hl⟩ (p l) (p (l + 1))

omit H hu in
theorem gj_trace {s : Mat F n n × Mat F n n} {o : Option (Mat F n n × Mat F n n)}
    (h : Mat.gjLoop O (List.range n) s = .ok o) :
    (o = none → ∃ (i : Fin n) (p : Nat → Mat F n n × Mat F n n), GJTrace O s i p ∧ O.isZero ((p i).1.get i i) = true) ∧
    (∀ q, o = some q → ∃ p : Nat → Mat F n n × Mat F n n, GJTrace O s n p ∧ p n = q) := by
  rw [List.range_eq_range'] at h
  obtain ⟨h1, h2⟩ := gjLoop_free (fun i q => ∃ p : Nat → Mat F n n × Mat F n n, GJTrace O s i p ∧ p i = q)
    (fun i q q' ⟨p, ⟨hp0, hp⟩, hpi⟩ hst => by
      refine ⟨fun m => if m ≤ i.val then p m else q', ⟨by simpa using hp0, fun l hl hli => ?_⟩, by simp⟩
      rcases Nat.lt_succ_iff_lt_or_eq.1 hli with hlt | heq
      · simpa [show l ≤ i.val by omega, show l + 1 ≤ i.val by omega] using hp l hl hlt
      · subst heq; simpa [hpi] using hst)
    n 0 (by omega) ⟨fun _ => s, ⟨rfl, fun l _ hl => absurd hl (by omega)⟩, rfl⟩ h
  refine ⟨fun e => ?_, h2⟩
  obtain ⟨i, q, ⟨p, hp, rfl⟩, hz⟩ := h1 e
  exact ⟨i, p, hp, hz⟩

omit H hu in
theorem gamma_eq (Q : Nat) : (1 + (((1 - u) ^ 2)⁻¹ - 1)) ^ Q - 1 = ((1 - u) ^ (2 * Q))⁻¹ - 1 := by
  rw [add_sub_cancel, inv_pow, ← pow_mul]

theorem gamma_nonneg (e : Nat) : 0 ≤ ((1 - u) ^ e)⁻¹ - 1 := by
  have := (Close.one H.nonneg hu e).2; linarith

end

/-- `A` is close to the product of the stages of a Gauss-Jordan elimination: `v l` is the column that stage `l` clears, stage
`l` is the identity with column `l` replaced by `v l`; up to column `q - 1` the product of the first `q` stages differs from
`A` in column `j` entry by entry by at most `(1-u)^(-2j) - 1` times the product of the absolute values; in particular the
first columns agree.  All pivots `v l l` before the last are nonzero, so that the `v l` are determined by the product. -/
structure NearGJ (u : ℝ) {n : Nat} (q : Nat) (A : Matrix (Fin n) (Fin n) ℝ) (v : Nat → Fin n → ℝ) : Prop where
  near : ∀ i j : Fin n, j.val < q → |A i j - firstProd (fun l => colMatrix l (v l)) q i j| ≤
    (((1 - u) ^ (2 * j.val))⁻¹ - 1) * firstProd (fun l => (colMatrix l (v l)).map abs) q i j
  pivots : ∀ l : Fin n, l.val + 1 < q → v l l ≠ 0

section
variable {F : Type} {O : Ops F} {val : F → ℝ} {u : ℝ} (H : O.Rounds val u) (hu : u < 1) {n : Nat}
include H hu

theorem trace_near {s : Mat F n n × Mat F n n} {i q : Nat} {p : Nat → Mat F n n × Mat F n n} (hp : GJTrace O s i p)
    (hq : q ≤ i + 1) : ∃ v : Nat → Fin n → ℝ, (∀ l : Fin n, ∀ k, v l k = val ((p l).1.get k l)) ∧
      NearGJ u q (Matrix.of fun i j => val (s.1.get i j)) v := by
  refine ⟨fun l k => if hl : l < n then val ((p l).1.get k ⟨l, hl⟩) else 0, fun l k => by simp, ⟨fun j c hc => ?_, fun l hl => ?_⟩⟩
  · have h := chain_err (fun l => colMatrix l (fun k => if hl : l < n then val ((p l).1.get k ⟨l, hl⟩) else 0))
      (fun m k => val ((p m).1.get k c)) (gamma_nonneg H hu 2) c.val (fun m hm r => by
        have hmn : m < n := by have := c.isLt; omega
        have st := hp.2 m hmn (by omega)
        have := stage_err H hu ⟨m, hmn⟩ (fun k => (p m).1.get k ⟨m, hmn⟩) (fun k => (p m).1.get k c)
          (fun k => (p (m + 1)).1.get k c) st.pivot (by
            obtain ⟨rcp, e1, e2⟩ := st.scale
            exact ⟨rcp, e1, (e2 c).1⟩) (fun k hk => (st.clear k hk c).1) r
        simpa only [hmn, dif_pos] using this) j
    rw [gamma_eq] at h
    simp only [colMatrix_abs] at h ⊢
    rw [firstProd_earlier _ q j c hc, firstProd_earlier (fun l k => |_|) q j c hc]
    simp only [hp.1, Fin.eta, c.isLt, dif_pos] at h ⊢
    exact h
  · have st := hp.2 l.val l.isLt (by omega)
    have := st.pivot
    simp only [Fin.eta, l.isLt, dif_pos]
    rw [Ne, ← H.isZero]; simp [this]

theorem trace_inverse {s : Mat F n n × Mat F n n} {p : Nat → Mat F n n × Mat F n n} (hp : GJTrace O s n p)
    (v : Nat → Fin n → ℝ) (hv : ∀ l : Fin n, ∀ k, v l k = val ((p l).1.get k l)) (i j : Fin n) :
    |val (s.2.get i j) - (firstProd (fun l => colMatrix l (v l)) n * Matrix.of fun i j => val ((p n).2.get i j)) i j| ≤
      (((1 - u) ^ (2 * n))⁻¹ - 1) *
        (firstProd (fun l => (colMatrix l (v l)).map abs) n * Matrix.of fun i j => |val ((p n).2.get i j)|) i j := by
  have h := chain_err (fun l => colMatrix l (v l)) (fun m k => val ((p m).2.get k j)) (gamma_nonneg H hu 2) n
    (fun m hm r => by
      have st := hp.2 m hm hm
      have := stage_err H hu ⟨m, hm⟩ (fun k => (p m).1.get k ⟨m, hm⟩) (fun k => (p m).2.get k j)
        (fun k => (p (m + 1)).2.get k j) st.pivot (by
          obtain ⟨rcp, e1, e2⟩ := st.scale
          exact ⟨rcp, e1, (e2 j).2⟩) (fun k hk => (st.clear k hk j).2) r
      have e : (fun k => val ((p m).1.get k ⟨m, hm⟩)) = v m := by funext k; exact (hv ⟨m, hm⟩ k).symm
      rw [e] at this
      exact this) i
  rw [gamma_eq] at h
  simp only [hp.1] at h
  exact h

omit H hu in
/-- A zero pivot makes the leading block of the product of the stages exactly singular. -/
theorem stage_singular (v : Nat → Fin n → ℝ) (q : Fin n) (hz : v q q = 0) :
    ((firstProd (fun l => colMatrix l (v l)) (q.val + 1)).submatrix (Fin.castLE q.isLt) (Fin.castLE q.isLt)).det = 0 := by
  have e : (firstProd (fun l => colMatrix l (v l)) (q.val + 1)).submatrix (Fin.castLE q.isLt) (Fin.castLE q.isLt) =
      (firstProd (fun l => colMatrix l (v l)) q.val).submatrix (Fin.castLE q.isLt) (Fin.castLE q.isLt) *
      (colMatrix q.val (v q)).submatrix (Fin.castLE q.isLt) (Fin.castLE q.isLt) := by
    ext i j
    rw [firstProd_succ, Matrix.submatrix_apply, Matrix.mul_apply, Matrix.mul_apply]
    symm
    refine Fintype.sum_of_injective (Fin.castLE q.isLt) (Fin.castLE_injective _) _ _ ?_ (fun r => rfl)
    intro r hr
    have hqr : q.val < r.val := by
      by_contra hc
      exact hr ⟨⟨r.val, by omega⟩, rfl⟩
    rw [firstProd_later v q.val _ r hqr.le, if_neg, zero_mul]
    intro e
    have := congrArg Fin.val e
    have hi := i.isLt
    simp only [Fin.val_castLE] at this
    omega
  rw [e, Matrix.det_mul, Matrix.det_eq_zero_of_row_eq_zero (i := (⟨q.val, by omega⟩ : Fin (q.val + 1))) (A := (colMatrix q.val (v q)).submatrix _ _), mul_zero]
  intro j
  rw [Matrix.submatrix_apply, colMatrix]
  split
  · exact hz
  · next h => exact if_neg fun e => h (congrArg Fin.val e).symm

/-- C86: the inverse of size `n = 4, 5, ..` in floating point.  If `Some(W)` is returned, there is a product `P` of `n`
Gauss-Jordan stages, `G` the product of their absolute values, that differs from the matrix entry by entry by at most
`(1-u)^(-2j) - 1` times `G`, `j` the column, and of which `W` is almost the inverse: `P W` differs from the identity by at
most `((1-u)^(-2n) - 1) G |W|`; so that also the given matrix times `W` differs from the identity by at most twice that.  If
`None` is returned, some leading block is as close to an exactly singular matrix. -/
theorem C86_inverse (t : Target) (k : Nat) (a : Mat F (k + 4) (k + 4)) {o : Option (Mat F (k + 4) (k + 4))}
    (ho : a.inverse t O (k + 3) = .ok o) :
    (∀ w, o = some w → ∃ v : Nat → Fin (k + 4) → ℝ, NearGJ u (k + 4) (Matrix.of fun i j => val (a.get i j)) v ∧
      (∀ l : Fin (k + 4), v l l ≠ 0) ∧
      (∀ i j, |(firstProd (fun l => colMatrix l (v l)) (k + 4) * Matrix.of fun i j => val (w.get i j)) i j -
          (1 : Matrix (Fin (k + 4)) (Fin (k + 4)) ℝ) i j| ≤ (((1 - u) ^ (2 * (k + 4)))⁻¹ - 1) *
        (firstProd (fun l => (colMatrix l (v l)).map abs) (k + 4) * Matrix.of fun i j => |val (w.get i j)|) i j) ∧
      ∀ i j, |((Matrix.of fun i j => val (a.get i j)) * Matrix.of fun i j => val (w.get i j)) i j -
          (1 : Matrix (Fin (k + 4)) (Fin (k + 4)) ℝ) i j| ≤ 2 * (((1 - u) ^ (2 * (k + 4)))⁻¹ - 1) *
        (firstProd (fun l => (colMatrix l (v l)).map abs) (k + 4) * Matrix.of fun i j => |val (w.get i j)|) i j) ∧
    (o = none → ∃ (q : Fin (k + 4)) (v : Nat → Fin (k + 4) → ℝ),
      NearGJ u (q.val + 1) (Matrix.of fun i j => val (a.get i j)) v ∧ v q q = 0 ∧
      ((firstProd (fun l => colMatrix l (v l)) (q.val + 1)).submatrix (Fin.castLE q.isLt) (Fin.castLE q.isLt)).det = 0) := by
  have h0 := H.nonneg
  rw [Mat.inverse, Mat.invGen, Mat.clone_ok, Mat.identity,
    Mat.generate_ok t _ (fun i j => if i = j then O.one else O.zero) (by intro i j; simp [Fin.ext_iff])] at ho
  simp only [res_ok_bind] at ho
  rw [bind_ok_iff] at ho
  obtain ⟨p, hl, ho⟩ := ho
  obtain ⟨h1, h2⟩ := gj_trace hl
  cases p with
  | none =>
    cases ho
    refine ⟨fun w e => absurd e (by simp), fun _ => ?_⟩
    obtain ⟨q, p, hp, hz⟩ := h1 rfl
    obtain ⟨v, hv, hn⟩ := trace_near H hu hp (q := q.val + 1) le_rfl
    have hvz : v q q = 0 := by rw [hv, ← H.isZero]; exact hz
    exact ⟨q, v, hn, hvz, stage_singular v q hvz⟩
  | some s =>
    cases ho
    refine ⟨fun w e => ?_, fun e => absurd e (by simp)⟩
    obtain ⟨p, hp, hpn⟩ := h2 s rfl
    obtain rfl : s.2 = w := Option.some.inj e
    obtain ⟨v, hv, hn⟩ := trace_near H hu hp (q := k + 4) (by omega)
    have hi := trace_inverse H hu hp v hv
    simp only [hpn, Mat.get_ofFn] at hi
    have hi' : ∀ i j, |(firstProd (fun l => colMatrix l (v l)) (k + 4) * Matrix.of fun i j => val (s.2.get i j)) i j -
          (1 : Matrix (Fin (k + 4)) (Fin (k + 4)) ℝ) i j| ≤ (((1 - u) ^ (2 * (k + 4)))⁻¹ - 1) *
        (firstProd (fun l => (colMatrix l (v l)).map abs) (k + 4) * Matrix.of fun i j => |val (s.2.get i j)|) i j := by
      intro i j
      rw [abs_sub_comm]
      have := hi i j
      rw [apply_ite val, H.one, H.zero, ← Matrix.one_apply] at this
      exact this
    refine ⟨v, hn, fun l => ?_, hi', fun i j => ?_⟩
    · rw [hv, Ne, ← H.isZero]; simp [(hp.2 l.val l.isLt l.isLt).pivot]
    · set A : Matrix (Fin (k + 4)) (Fin (k + 4)) ℝ := Matrix.of fun i j => val (a.get i j) with hA
      set P := firstProd (fun l => colMatrix l (v l)) (k + 4) with hP
      set G := firstProd (fun l => (colMatrix l (v l)).map abs) (k + 4) with hG
      set W : Matrix (Fin (k + 4)) (Fin (k + 4)) ℝ := Matrix.of fun i j => val (s.2.get i j) with hW
      have e1 : |(A * W) i j - (P * W) i j| ≤ (((1 - u) ^ (2 * (k + 4)))⁻¹ - 1) *
          (G * Matrix.of fun i j => |val (s.2.get i j)|) i j := by
        rw [Matrix.mul_apply, Matrix.mul_apply, Matrix.mul_apply, ← Finset.sum_sub_distrib, Finset.mul_sum]
        refine (Finset.abs_sum_le_sum_abs _ _).trans (Finset.sum_le_sum fun r _ => ?_)
        rw [← sub_mul, abs_mul, ← mul_assoc]
        refine mul_le_mul_of_nonneg_right ((hn.near i r r.isLt).trans ?_) (abs_nonneg _)
        refine mul_le_mul_of_nonneg_right ?_ (firstProd_abs_nonneg (fun l => colMatrix l (v l)) (k + 4) i r)
        have := r.isLt
        have := ((Close.one h0 hu (2 * r.val)).mul hu (Close.one h0 hu (2 * (k + 4) - 2 * r.val))).2
        have h3 : (1 - u) ^ (2 * (k + 4)) ≤ (1 - u) ^ (2 * r.val) :=
          pow_le_pow_of_le_one (by linarith) (by linarith) (by omega)
        have := inv_anti₀ (pow_pos (show 0 < 1 - u by linarith) (2 * (k + 4))) h3
        linarith
      have e2 : (A * W) i j - (1 : Matrix (Fin (k + 4)) (Fin (k + 4)) ℝ) i j =
          ((A * W) i j - (P * W) i j) + ((P * W) i j - (1 : Matrix (Fin (k + 4)) (Fin (k + 4)) ℝ) i j) := by ring
      rw [e2]
      refine (abs_add_le _ _).trans ?_
      linarith [hi' i j]

end

/-- C86: the stages of `NearGJ` are determined by their product. -/
theorem C86_stages_unique {n : Nat} (q : Nat) (v v' : Nat → Fin n → ℝ)
    (hp : ∀ l : Fin n, l.val + 1 < q → v l l ≠ 0)
    (h : ∀ i j : Fin n, j.val < q → firstProd (fun l => colMatrix l (v l)) q i j = firstProd (fun l => colMatrix l (v' l)) q i j) :
    ∀ l : Fin n, l.val < q → v l = v' l := by
  have key : ∀ m : Nat, ∀ l : Fin n, l.val < m → l.val < q → v l = v' l := by
    intro m
    induction m with
    | zero => intro l hl; omega
    | succ m ih =>
      intro l hl hq
      rcases Nat.lt_succ_iff_lt_or_eq.1 hl with hlt | heq
      · exact ih l hlt hq
      · subst heq
        have e : ∀ m ≤ l.val, firstProd (fun l => colMatrix (n := n) l (v l)) m = firstProd (fun l => colMatrix l (v' l)) m := by
          intro m hm
          rw [firstProd, firstProd]
          congr 1
          refine List.map_congr_left fun r hr => ?_
          have hr' := List.mem_range.1 hr
          rw [ih ⟨r, by have := l.isLt; omega⟩ (by simp; omega) (by simp; omega)]
        have inj : ∀ m ≤ l.val, ∀ x y : Fin n → ℝ, firstProd (fun l => colMatrix (n := n) l (v l)) m *ᵥ x =
            firstProd (fun l => colMatrix l (v l)) m *ᵥ y → x = y := by
          intro m
          induction m with
          | zero => intro _ x y hxy; simpa [firstProd_zero] using hxy
          | succ m ihm =>
            intro hm x y hxy
            rw [firstProd_succ, ← Matrix.mulVec_mulVec, ← Matrix.mulVec_mulVec] at hxy
            have h2 := ihm (by omega) _ _ hxy
            have hmn : m < n := by have := l.isLt; omega
            have hpm := hp ⟨m, hmn⟩ (by simp; omega)
            have hm' : x ⟨m, hmn⟩ = y ⟨m, hmn⟩ := by
              have := congrFun h2 ⟨m, hmn⟩
              rw [colMatrix_mulVec ⟨m, hmn⟩, colMatrix_mulVec ⟨m, hmn⟩] at this
              simp only [if_true] at this
              exact mul_left_cancel₀ hpm this
            funext j
            have := congrFun h2 j
            rw [colMatrix_mulVec ⟨m, hmn⟩, colMatrix_mulVec ⟨m, hmn⟩, hm'] at this
            split at this
            · next hj => rw [hj, hm']
            · linarith
        refine inj l.val le_rfl _ _ ?_
        funext i
        rw [← firstProd_earlier v q i l hq, h i l hq, firstProd_earlier v' q i l hq, e l.val le_rfl]
  intro l hl
  exact key (l.val + 1) l (by omega) hl

/-- C86: for round-to-nearest with `p` bits (53 for `f64`, 24 for `f32`) the inverse of every square matrix of size 4 and
more is computed, and `C86_inverse` says how close it is. -/
theorem C86_inverse_types (t : Target) (p : Nat) (hp : 0 < p) (k : Nat) (a : Mat ℝ (k + 4) (k + 4)) :
    ∃ o, a.inverse t (Ops.rounded (roundBin p)) (k + 3) = .ok o ∧
    (∀ w, o = some w → ∃ v : Nat → Fin (k + 4) → ℝ, NearGJ ((1 / 2) ^ p) (k + 4) a.toMatrix v ∧ ∀ i j,
      |(a.toMatrix * w.toMatrix) i j - (1 : Matrix (Fin (k + 4)) (Fin (k + 4)) ℝ) i j| ≤
        2 * (((1 - (1 / 2) ^ p) ^ (2 * (k + 4)))⁻¹ - 1) *
        (firstProd (fun l => (colMatrix l (v l)).map abs) (k + 4) * w.toMatrix.map abs) i j) ∧
    (o = none → ∃ (q : Fin (k + 4)) (v : Nat → Fin (k + 4) → ℝ), NearGJ ((1 / 2) ^ p) (q.val + 1) a.toMatrix v ∧
      ((firstProd (fun l => colMatrix l (v l)) (q.val + 1)).submatrix (Fin.castLE q.isLt) (Fin.castLE q.isLt)).det = 0) := by
  obtain ⟨o, ho⟩ := C52_inverse_total (Ops.rounded_total (roundBin p)) t (k + 3) a
  have hu : ((1 : ℝ) / 2) ^ p < 1 := pow_lt_one₀ (by norm_num) (by norm_num) (by omega)
  obtain ⟨h1, h2⟩ := C86_inverse (Ops.rounded_rounds (by positivity) (roundBin_error p)) hu t k a ho
  refine ⟨o, ho, fun w hw => ?_, fun hn => ?_⟩
  · obtain ⟨v, h3, _, _, h4⟩ := h1 w hw
    exact ⟨v, h3, h4⟩
  · obtain ⟨q, v, h3, _, h4⟩ := h2 hn
    exact ⟨q, v, h3, h4⟩

/-- Without rounding `C86_inverse` says that the result is the inverse. -/
example (t : Target) (k : Nat) (a w : Mat ℝ (k + 4) (k + 4)) (h : a.inverse t (Ops.rounded id) (k + 3) = .ok (some w)) :
    a.toMatrix * w.toMatrix = 1 := by
  obtain ⟨v, _, _, _, h4⟩ := (C86_inverse (u := 0) (Ops.rounded_rounds le_rfl (fun x => by simp)) (by norm_num) t k a h).1 w rfl
  ext i j
  have := h4 i j
  simp only [sub_zero, one_pow, inv_one, sub_self, mul_zero, zero_mul] at this
  exact sub_eq_zero.1 (abs_eq_zero.1 (le_antisymm this (abs_nonneg _)))

end Rowcol
