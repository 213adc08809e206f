import Verif.Props.MachInt

/-! # C75: fractions of machine integers -/

namespace Rowcol

variable {n r c l w : Nat}

theorem ratioFit_exact (w : Nat) (zs : List Int) (q : ℚ) : ExactOrPanic id (ratioFit w zs q) (.ok q) := by
  unfold ratioFit
  split
  · exact .ok q
  · exact .panic _

/-- C75: every operation of `Ratio<iW>` with overflow checks is the exact one or panics, and so is every operation of
exact field arithmetic itself. -/
theorem C75_types :
    (∀ w, (Ops.ratio w).DivHom (Ops.exact ℚ) id) ∧
    ∀ (K : Type) [Field K] [DecidableEq K], (Ops.exact K).DivHom (Ops.exact K) id := by
  refine ⟨fun w => ?_, fun K _ _ => ?_⟩
  · exact {
      zero := rfl, one := rfl
      add := fun a b => ratioFit_exact w _ _
      sub := fun a b => ratioFit_exact w _ _
      mul := fun a b => ratioFit_exact w _ _
      neg := fun a => ratioFit_exact w _ _
      isZero := fun a => rfl
      div := fun a b hb => by
        have hb' : b ≠ 0 := by simpa [Ops.ratio] using hb
        simp only [Ops.ratio, Ops.exact, id, if_neg hb']
        exact ratioFit_exact w _ _ }
  · have h : ∀ (α : Type) (x : Res α), x ≠ .error .ub → ExactOrPanic id x x := by
      intro α x hx
      rcases x with e | a
      · cases e with
        | panic => exact .panic _
        | ub => exact absurd rfl hx
      · exact .ok a
    exact {
      zero := rfl, one := rfl
      add := fun a b => .ok _
      sub := fun a b => .ok _
      mul := fun a b => .ok _
      neg := fun a => .ok _
      isZero := fun a => rfl
      div := fun a b hb => h _ _ (by simp only [Ops.exact]; split <;> simp) }

/-- C75, when nothing panics: if the numerators and denominators of both operands are at most `B` and `2 B²` fits in the integer type,
every operation of `Ratio<iW>` returns the exact value. -/
theorem C75_fits (w B : Nat) (hB : 2 * B * B < 2 ^ (w - 1)) (a b : ℚ) (ha : a.num.natAbs ≤ B) (ha' : a.den ≤ B)
    (hb : b.num.natAbs ≤ B) (hb' : b.den ≤ B) :
    (Ops.ratio w).add a b = .ok (a + b) ∧ (Ops.ratio w).sub a b = .ok (a - b) ∧ (Ops.ratio w).mul a b = .ok (a * b) ∧
    (Ops.ratio w).neg a = .ok (-a) ∧ (b ≠ 0 → (Ops.ratio w).div a b = .ok (a / b)) := by
  have key : ∀ (zs : List Int) (q : ℚ), (∀ z ∈ zs, z.natAbs ≤ 2 * B * B) → ratioFit w zs q = .ok q := by
    intro zs q h
    unfold ratioFit
    rw [if_pos]
    intro z hz
    have h1 : (z.natAbs : Int) < 2 ^ (w - 1) := by exact_mod_cast lt_of_le_of_lt (h z hz) hB
    rw [Int.natCast_natAbs] at h1
    have := abs_lt.1 h1
    exact ⟨this.1.le, this.2⟩
  have hB1 : 1 ≤ B := le_trans a.den_pos ha'
  have p1 : (a.num * b.den).natAbs ≤ B * B := by
    rw [Int.natAbs_mul, Int.natAbs_natCast]; exact Nat.mul_le_mul ha hb'
  have p2 : ((a.den : Int) * b.num).natAbs ≤ B * B := by
    rw [Int.natAbs_mul, Int.natAbs_natCast]; exact Nat.mul_le_mul ha' hb
  have p3 : ((a.den : Int) * b.den).natAbs ≤ B * B := by
    rw [Int.natAbs_mul, Int.natAbs_natCast, Int.natAbs_natCast]; exact Nat.mul_le_mul ha' hb'
  have p4 : (a.num * b.num).natAbs ≤ B * B := by
    rw [Int.natAbs_mul]; exact Nat.mul_le_mul ha hb
  have two : 2 * B * B = B * B + B * B := by ring
  have BB : B ≤ B * B := Nat.le_mul_of_pos_left _ hB1
  refine ⟨key _ _ ?_, key _ _ ?_, key _ _ ?_, key _ _ ?_, fun hb0 => ?_⟩
  · have := Int.natAbs_add_le (a.num * b.den) (a.den * b.num)
    simp only [List.mem_cons, List.not_mem_nil, or_false]
    rintro z (rfl | rfl | rfl | rfl) <;> omega
  · have := Int.natAbs_sub_le (a.num * b.den) (a.den * b.num)
    simp only [List.mem_cons, List.not_mem_nil, or_false]
    rintro z (rfl | rfl | rfl | rfl) <;> omega
  · simp only [List.mem_cons, List.not_mem_nil, or_false]
    rintro z (rfl | rfl) <;> omega
  · simp only [List.mem_cons, List.not_mem_nil, or_false]
    rintro z rfl
    rw [Int.natAbs_neg]; omega
  · have hn : b.num ≠ 0 := fun h => hb0 (Rat.num_eq_zero.1 h)
    have hp2 : (a.den : Int) * b.num ≠ 0 := mul_ne_zero (by exact_mod_cast a.den_nz) hn
    have hq : a / b = Rat.divInt (a.num * b.den) (a.den * b.num) := by
      rw [Rat.div_def', Rat.divInt_eq_div]
    have h1 : ((a / b).num).natAbs ≤ B * B := by
      by_cases h0 : a.num * b.den = 0
      · rw [hq, h0]; simp
      · rw [hq]
        have : (Rat.divInt (a.num * b.den) (a.den * b.num)).num ∣ a.num * b.den := Rat.num_dvd _ hp2
        exact le_trans (Nat.le_of_dvd (Int.natAbs_pos.2 h0) (Int.natAbs_dvd_natAbs.2 this)) p1
    have h2 : (a / b).den ≤ B * B := by
      rw [hq]
      have : ((Rat.divInt (a.num * b.den) (a.den * b.num)).den : Int) ∣ a.den * b.num := Rat.den_dvd _ _
      exact le_trans (Nat.le_of_dvd (Int.natAbs_pos.2 hp2) (by simpa using Int.natAbs_dvd_natAbs.2 this)) p2
    have h3 : Int.gcd (a.num * b.den) (a.den * b.num) ≤ B * B := by
      refine le_trans ?_ p2
      exact Nat.le_of_dvd (Int.natAbs_pos.2 hp2) (Int.gcd_dvd_natAbs_right _ _)
    simp only [Ops.ratio, if_neg hb0]
    refine key _ _ ?_
    simp only [List.mem_cons, List.not_mem_nil, or_false]
    rintro z (rfl | rfl | rfl | rfl | rfl)
    · omega
    · omega
    · rw [Int.natAbs_natCast]; omega
    · omega
    · rw [Int.natAbs_natCast]; omega

/-- C75, exactly when something panics: an operation of `Ratio<iW>` returns the exact value if the integers it computes fit in the
integer type, and panics otherwise: for `+` and `-` the two cross products, their sum or difference, and the product of the
denominators; for `*` the products of numerators and denominators; for `/` by a number other than 0 the cross products, their
greatest common divisor, and the result (its sign may move to the numerator); for negation the negated numerator. -/
theorem C75_overflow (w : Nat) (a b : ℚ) :
    let fits : Int → Prop := fun z => -2 ^ (w - 1) ≤ z ∧ z < 2 ^ (w - 1)
    (fits (a.num * b.den) ∧ fits (b.num * a.den) ∧ fits (a.num * b.den + b.num * a.den) ∧ fits (a.den * b.den) →
      (Ops.ratio w).add a b = .ok (a + b)) ∧
    (¬(fits (a.num * b.den) ∧ fits (b.num * a.den) ∧ fits (a.num * b.den + b.num * a.den) ∧ fits (a.den * b.den)) →
      (Ops.ratio w).add a b = .error .panic) ∧
    (fits (a.num * b.den) ∧ fits (b.num * a.den) ∧ fits (a.num * b.den - b.num * a.den) ∧ fits (a.den * b.den) →
      (Ops.ratio w).sub a b = .ok (a - b)) ∧
    (¬(fits (a.num * b.den) ∧ fits (b.num * a.den) ∧ fits (a.num * b.den - b.num * a.den) ∧ fits (a.den * b.den)) →
      (Ops.ratio w).sub a b = .error .panic) ∧
    (fits (a.num * b.num) ∧ fits (a.den * b.den) → (Ops.ratio w).mul a b = .ok (a * b)) ∧
    (¬(fits (a.num * b.num) ∧ fits (a.den * b.den)) → (Ops.ratio w).mul a b = .error .panic) ∧
    (b ≠ 0 → fits (a.num * b.den) ∧ fits (b.num * a.den) ∧ fits (Int.gcd (a.num * b.den) (b.num * a.den)) ∧ fits (a / b).num ∧
      fits (a / b).den → (Ops.ratio w).div a b = .ok (a / b)) ∧
    (b = 0 ∨ ¬(fits (a.num * b.den) ∧ fits (b.num * a.den) ∧ fits (Int.gcd (a.num * b.den) (b.num * a.den)) ∧ fits (a / b).num ∧
      fits (a / b).den) → (Ops.ratio w).div a b = .error .panic) ∧
    (fits (-a.num) → (Ops.ratio w).neg a = .ok (-a)) ∧ (¬fits (-a.num) → (Ops.ratio w).neg a = .error .panic) := by
  intro fits
  have key : ∀ (zs : List Int) (q : ℚ) (P : Prop), (P ↔ ∀ z ∈ zs, fits z) →
      (P → ratioFit w zs q = .ok q) ∧ (¬P → ratioFit w zs q = .error .panic) := by
    intro zs q P hP
    unfold ratioFit
    exact ⟨fun h => if_pos (hP.1 h), fun h => if_neg fun g => h (hP.2 g)⟩
  have hc : b.num * (a.den : Int) = a.den * b.num := mul_comm _ _
  rw [hc]
  refine ⟨(key _ _ _ ?_).1, (key _ _ _ ?_).2, (key _ _ _ ?_).1, (key _ _ _ ?_).2, (key _ _ _ ?_).1, (key _ _ _ ?_).2,
    fun hb h => ?_, fun h => ?_, (key _ _ _ ?_).1, (key _ _ _ ?_).2⟩ <;> try simp
  · simp only [Ops.ratio, if_neg hb]
    refine (key _ _ _ ?_).1 h
    simp
  · simp only [Ops.ratio]
    split
    · rfl
    · rename_i hb
      refine (key _ _ _ ?_).2 (h.resolve_left hb)
      simp

/-- Numerator and denominator fit in signed `w`-bit integers. -/
def Spec.Fits (w : Nat) (q : ℚ) : Prop := -2 ^ (w - 1) ≤ q.num ∧ q.num < 2 ^ (w - 1) ∧ (q.den : Int) < 2 ^ (w - 1)

/-- C75: what an operation of `Ratio<iW>` returns fits the type. -/
theorem C75_representable (w : Nat) (a b q : ℚ) (ha : Spec.Fits w a) :
    ((Ops.ratio w).add a b = .ok q → Spec.Fits w q) ∧ ((Ops.ratio w).sub a b = .ok q → Spec.Fits w q) ∧
    ((Ops.ratio w).mul a b = .ok q → Spec.Fits w q) ∧ ((Ops.ratio w).div a b = .ok q → Spec.Fits w q) ∧
    ((Ops.ratio w).neg a = .ok q → Spec.Fits w q) := by
  have key : ∀ (zs : List Int) (p : ℚ), ratioFit w zs p = .ok q → (∀ z ∈ zs, -2 ^ (w - 1) ≤ z ∧ z < 2 ^ (w - 1)) ∧ p = q := by
    intro zs p h
    unfold ratioFit at h
    split at h
    · rename_i h1; exact ⟨h1, Except.ok.inj h⟩
    · cases h
  -- reducing a fraction makes neither part longer
  have red : ∀ (x : Int) (y : Nat), y ≠ 0 → -2 ^ (w - 1) ≤ x ∧ x < 2 ^ (w - 1) → (y : Int) < 2 ^ (w - 1) →
      Spec.Fits w (Rat.divInt x y) := by
    intro x y hy hx hy'
    have hyz : (y : Int) ≠ 0 := by exact_mod_cast hy
    have h1 : (Rat.divInt x y).num ∣ x := Rat.num_dvd _ hyz
    have h2 : ((Rat.divInt x y).den : Int) ∣ y := Rat.den_dvd _ _
    have h3 : ((Rat.divInt x y).den : Int) ≤ y := Int.le_of_dvd (by omega) h2
    have hp : (0 : Int) < y := by omega
    refine ⟨?_, ?_, lt_of_le_of_lt h3 hy'⟩
    · rcases lt_trichotomy x 0 with h | h | h
      · have := Int.le_of_dvd (by omega : 0 < -x) ((Int.neg_dvd.2 (Int.dvd_neg.2 h1)))
        omega
      · subst h; simp
      · have : 0 ≤ (Rat.divInt x y).num := by
          rw [Rat.num_nonneg, Rat.divInt_eq_div]
          exact div_nonneg (by exact_mod_cast h.le) (by exact_mod_cast hp.le)
        have : (0 : Int) ≤ 2 ^ (w - 1) := by positivity
        omega
    · rcases lt_trichotomy x 0 with h | h | h
      · have : (Rat.divInt x y).num ≤ 0 := by
          rw [Rat.num_nonpos, Rat.divInt_eq_div]
          exact div_nonpos_of_nonpos_of_nonneg (by exact_mod_cast h.le) (by exact_mod_cast hp.le)
        have : (0 : Int) < 2 ^ (w - 1) := by positivity
        omega
      · subst h; simp
      · have := Int.le_of_dvd h h1
        omega
  have hd : a.den * b.den ≠ 0 := mul_ne_zero a.den_nz b.den_nz
  refine ⟨fun h => ?_, fun h => ?_, fun h => ?_, fun h => ?_, fun h => ?_⟩
  · obtain ⟨h1, rfl⟩ := key _ _ h
    have := red (a.num * b.den + a.den * b.num) (a.den * b.den) hd (h1 _ (by simp)) (by push_cast; exact (h1 _ (by simp)).2)
    rwa [show Rat.divInt (a.num * b.den + a.den * b.num) ((a.den * b.den : Nat) : Int) = a + b by
      have h2 : (a.den : ℚ) ≠ 0 := by exact_mod_cast a.den_nz
      have h3 : (b.den : ℚ) ≠ 0 := by exact_mod_cast b.den_nz
      rw [Rat.divInt_eq_div]
      conv_rhs => rw [← Rat.num_div_den a, ← Rat.num_div_den b]
      push_cast
      field_simp] at this
  · obtain ⟨h1, rfl⟩ := key _ _ h
    have := red (a.num * b.den - a.den * b.num) (a.den * b.den) hd (h1 _ (by simp)) (by push_cast; exact (h1 _ (by simp)).2)
    rwa [show Rat.divInt (a.num * b.den - a.den * b.num) ((a.den * b.den : Nat) : Int) = a - b by
      have h2 : (a.den : ℚ) ≠ 0 := by exact_mod_cast a.den_nz
      have h3 : (b.den : ℚ) ≠ 0 := by exact_mod_cast b.den_nz
      rw [Rat.divInt_eq_div]
      conv_rhs => rw [← Rat.num_div_den a, ← Rat.num_div_den b]
      push_cast
      field_simp] at this
  · obtain ⟨h1, rfl⟩ := key _ _ h
    have := red (a.num * b.num) (a.den * b.den) hd (h1 _ (by simp)) (by push_cast; exact (h1 _ (by simp)).2)
    rwa [show Rat.divInt (a.num * b.num) ((a.den * b.den : Nat) : Int) = a * b by
      rw [Rat.mul_eq_mkRat, Rat.mkRat_eq_divInt]] at this
  · simp only [Ops.ratio] at h
    split at h
    · cases h
    · obtain ⟨h1, rfl⟩ := key _ _ h
      exact ⟨(h1 _ (by simp)).1, (h1 (a / b).num (by simp)).2, (h1 ((a / b).den : Int) (by simp)).2⟩
  · obtain ⟨h1, rfl⟩ := key _ _ h
    have := h1 (-a.num) (by simp)
    exact ⟨by simpa using this.1, by simpa using this.2, by simpa using ha.2.2⟩

/-! With `Ratio<i8>`, `B = 7`: `2 * 7 * 7 = 98 < 128`, so `7/6 + 5/7` is exact; `11/10 + 9/11` panics. -/
example : (Ops.ratio 8).add (7 / 6) (5 / 7) = .ok (79 / 42) := by decide +kernel
example : (Ops.ratio 8).add (11 / 10) (9 / 11) = .error .panic := by decide +kernel
example : Spec.Fits 8 (79 / 42) ∧ ¬ Spec.Fits 8 (211 / 110) := by unfold Spec.Fits; decide +kernel

section
variable {T K : Type} [Field K] [DecidableEq K] {O : Ops T} {φ : T → K} (H : O.DivHom (Ops.exact K) φ) (t : Target)
include H

/-- C75: whatever overflows, `determinant`, at every size, is the determinant or a panic. -/
theorem C75_determinant (k : Nat) (a : Mat T (k + 1) (k + 1)) (hk : k + 1 < t.W) :
    ExactOrPanic φ (a.determinant t O k) (.ok (a.vals φ).det) := by
  have h := sim_det H t t rfl k a hk
  rwa [C48_determinant (Ops.exact_isField K) t k _ hk, mapV_toMatrix] at h

/-- C75: `cofactor`, at every size, is the signed minor or a panic. -/
theorem C75_cofactor (k : Nat) (a : Mat T (k + 2) (k + 2)) (i j : Fin (k + 2)) (hk : 2 * (k + 2) < t.W) :
    ExactOrPanic φ (a.cofactor t O k (i, j))
      (.ok ((-1) ^ (i.val + j.val) * ((a.vals φ).submatrix i.succAbove j.succAbove).det)) := by
  have hi := i.isLt
  have hj := j.isLt
  have h := sim_cof H t t rfl k a (i, j) (by omega) ⟨hi, hj⟩ (by simp; omega)
  rwa [C53_cofactor (Ops.exact_isField K) t k _ i j (by omega) (by omega), mapV_toMatrix] at h

/-- C75: `inverse`, at every size, panics, or returns the true inverse, or returns `None`; up to size 3 it returns `None`
only for a singular matrix. -/
theorem C75_inverse (k : Nat) (a : Mat T (k + 1) (k + 1)) :
    a.inverse t O k = .error .panic ∨
    (a.inverse t O k = .ok none ∧ (k < 3 → (a.vals φ).det = 0)) ∨
    ∃ x, a.inverse t O k = .ok (some x) ∧ a.vals φ * x.vals φ = 1 ∧ x.vals φ * a.vals φ = 1 := by
  have h := sim_inverse H t t k a
  rcases h with h | ⟨o, h1, h2⟩
  · exact .inl h
  · right
    cases o with
    | none =>
      refine .inl ⟨h1, fun hk => ?_⟩
      by_contra hd
      have := (C56_complete_partial t (Ops.exact_isField K) k hk (a.mapV φ)).2
        ⟨(a.vals φ)⁻¹, by rw [mapV_toMatrix]; exact Matrix.mul_nonsing_inv _ (isUnit_iff_ne_zero.2 hd)⟩
      obtain ⟨x, hx⟩ := this
      rw [h2] at hx; cases hx
    | some x =>
      refine .inr ⟨x, h1, ?_⟩
      have := inverse_left t (Ops.exact_isField K) k (a.mapV φ) (x.mapV φ) h2
      rw [mapV_toMatrix, mapV_toMatrix] at this
      exact ⟨mul_eq_one_comm.1 this, this⟩

end

/-! With `Ratio<i8>`: 100 * 2 overflows in the determinant; with `Ratio<i16>` nothing does. -/
example : (⟨⟨[⟨[100, 1], rfl⟩, ⟨[1, 2], rfl⟩], rfl⟩⟩ : Mat ℚ 2 2).determinant ⟨true, true, 2 ^ 64⟩ (Ops.ratio 8) 1 =
    .error .panic := by decide +kernel
example : (⟨⟨[⟨[100, 1], rfl⟩, ⟨[1, 2], rfl⟩], rfl⟩⟩ : Mat ℚ 2 2).determinant ⟨true, true, 2 ^ 64⟩ (Ops.ratio 16) 1 =
    .ok 199 := by decide +kernel

end Rowcol
