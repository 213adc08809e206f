import Verif.Props.Counts
import Verif.Lemmas.ElimFree
import Mathlib.Data.Nat.Digits.Defs
import Mathlib.Data.Nat.Log

/-! # C93: the cost of powers -/

namespace Rowcol

variable {T : Type} {O : Ops T} {n : Nat}

/-- The number of ones in the binary representation. -/
def bitCount (e : Nat) : Nat := (Nat.digits 2 e).sum

theorem bitCount_step (e : Nat) (h : e ≠ 0) : bitCount e = e % 2 + bitCount (e / 2) := by
  rw [bitCount, Nat.digits_def' (by omega) (by omega), List.sum_cons, bitCount]

theorem bitCount_pos (e : Nat) (h : e ≠ 0) : 0 < bitCount e := by
  induction e using Nat.strongRecOn with
  | ind e ih =>
    rw [bitCount_step e h]
    by_cases h2 : e % 2 = 0
    · have := ih (e / 2) (by omega) (by omega)
      omega
    · omega

theorem log_pow_mul (z e : Nat) (h : e ≠ 0) : Nat.log 2 (2 ^ z * e) = z + Nat.log 2 e := by
  induction z with
  | zero => simp
  | succ z ih =>
    have : 2 ^ (z + 1) * e = 2 ^ z * e * 2 := by rw [pow_succ]; ring
    rw [this, Nat.log_mul_base (by omega) (Nat.mul_ne_zero (by positivity) h), ih]; omega

theorem bitCount_pow_mul (z e : Nat) (h : e ≠ 0) : bitCount (2 ^ z * e) = bitCount e := by
  induction z with
  | zero => simp
  | succ z ih =>
    have : 2 ^ (z + 1) * e = 2 * (2 ^ z * e) := by rw [pow_succ]; ring
    rw [this, bitCount_step _ (Nat.mul_ne_zero (by omega) (Nat.mul_ne_zero (by positivity) h)), Nat.mul_mod_right,
      Nat.mul_div_cancel_left _ (by omega), ih, zero_add]

/-- The calls of one step of the square-and-multiply loop: a clone of a matrix and a product. -/
def mulCalls (n : Nat) : Op → Nat :=
  calls (clone := n * n + n * n * (2 * n)) (zero := n * n) (add := n * n * n) (mul := n * n * n)

theorem cost_powStrip (t : Target) (hn : n < t.W) (e : Nat) (he : e ≠ 0) :
    ∃ z odd, e = 2 ^ z * odd ∧ odd % 2 = 1 ∧ ∀ base : Mat T n n, (∀ p, powStrip (Mat.mulVV t O) base e = .ok p → p.2 = odd) ∧
      Counts ((Elem.counting O).powStrip t base e) (powStrip (Mat.mulVV t O) base e) (z • mulCalls n) := by
  induction e using Nat.strongRecOn with
  | ind e ih =>
    by_cases h : e % 2 = 0 ∧ e ≠ 0
    · obtain ⟨z, odd, h1, h2, h3⟩ := ih (e / 2) (by omega) (by omega)
      refine ⟨z + 1, odd, ?_, h2, fun base => ⟨fun p hp => ?_, ?_⟩⟩
      · have : e = e / 2 * 2 := by omega
        rw [this, h1, pow_succ]; ring
      · rw [powStrip, dif_pos h, bind_ok_iff] at hp
        obtain ⟨b, _, hb⟩ := hp
        exact (h3 b).1 p hb
      · rw [Elem.powStrip, powStrip, dif_pos h, dif_pos h]
        apply CountsIf.congr
        · apply CountsIf.skip (cost_clone' t base)
          apply CountsIf.bind (C91_mul t base base hn hn hn); intro b _
          exact (h3 b).2
        · simp only [mulCalls]; counts
    · refine ⟨0, e, by simp, by omega, fun base => ⟨fun p hp => ?_, ?_⟩⟩
      · rw [powStrip, dif_neg h] at hp; cases hp; rfl
      · rw [Elem.powStrip, powStrip, dif_neg h, dif_neg h]
        exact (CountsIf.pure' _).congr (by simp)

theorem cost_powLoop (t : Target) (hn : n < t.W) (acc base : Mat T n n) (e : Nat) (he : e ≠ 0) :
    Counts ((Elem.counting O).powLoop t acc base e) (powLoop (Mat.mulVV t O) acc base e)
      ((Nat.log 2 e + bitCount (e / 2)) • mulCalls n) := by
  induction e using Nat.strongRecOn generalizing acc base with
  | ind e ih =>
    rw [Elem.powLoop, powLoop]
    by_cases h : e > 1
    · rw [dif_pos h, dif_pos h]
      apply CountsIf.congr
      · apply CountsIf.skip (cost_clone' t base)
        apply CountsIf.bind (C91_mul t base base hn hn hn); intro b _
        have hi := fun acc' => ih (e / 2) (by omega) acc' b (by omega)
        by_cases h1 : e / 2 % 2 = 1
        · simp only [h1, if_true]
          apply CountsIf.congr (c' := (e / 2 % 2) • mulCalls n + (Nat.log 2 (e / 2) + bitCount (e / 2 / 2)) • mulCalls n)
          · apply CountsIf.skip (cost_clone' t b)
            apply CountsIf.bind (C91_mul t acc b hn hn hn); intro acc' _
            exact hi acc'
          · rw [h1]; simp only [mulCalls]; counts
        · simp only [h1, if_false, pure_bind]
          refine (hi acc).congr ?_
          rw [show e / 2 % 2 = 0 by omega, zero_smul, zero_add]
      · rw [Nat.log_of_one_lt_of_le (by omega) (show 2 ≤ e by omega), bitCount_step (e / 2) (by omega)]
        simp only [mulCalls]; counts
    · rw [dif_neg h, dif_neg h]
      obtain rfl : e = 1 := by omega
      exact (CountsIf.pure' _).congr (by simp [bitCount])

/-- **C93**.  For a positive exponent `pow` makes `log2 e + popcount e - 1` matrix products, each after cloning one matrix, and clones the
matrix once at the start and once more unless `e` is a power of two. -/
theorem C93_pow (t : Target) (hn : n < t.W) (a : Mat T n n) (e : Nat) (he : e ≠ 0) :
    Counts ((Elem.counting O).pow t a e) (a.pow t O e)
      (let products := Nat.log 2 e + bitCount e - 1
       let clones := products + 1 + if bitCount e = 1 then 0 else 1
       calls (clone := clones * (n * n) + products * (2 * (n * n * n))) (zero := products * (n * n)) (add := products * (n * n * n))
        (mul := products * (n * n * n))) := by
  obtain ⟨z, odd, h1, h2, h3⟩ := cost_powStrip (O := O) t hn e he
  have hl : Nat.log 2 e = z + Nat.log 2 odd := by
    rw [h1, log_pow_mul _ _ (by omega)]
  have hb : bitCount e = bitCount odd := by rw [h1, bitCount_pow_mul _ _ (by omega)]
  have ho : bitCount odd = 1 + bitCount (odd / 2) := by rw [bitCount_step odd (by omega), h2]
  unfold Elem.pow Mat.pow numPow
  rw [Mat.clone_ok]
  apply CountsIf.congr
  · apply CountsIf.skip (cost_clone' t a)
    rw [if_neg he, res_ok_bind, if_neg he]
    apply CountsIf.bind (h3 a).2 (c2 := (if odd = 1 then 0 else calls (clone := n * n) + (Nat.log 2 odd + bitCount (odd / 2)) • mulCalls n))
    intro p hp
    have := (h3 a).1 p hp
    obtain ⟨base, o⟩ := p
    simp only at this
    subst this
    dsimp only
    split
    · exact CountsIf.pure' _
    · apply CountsIf.skip (cost_clone' t base)
      exact cost_powLoop t hn base base o (by omega)
  · by_cases h : odd = 1
    · subst h
      have e1 : bitCount e = 1 := by rw [hb]; simp [bitCount]
      simp only [if_true, e1, hl, mulCalls]
      simp only [Nat.log_one_right, add_zero, Nat.add_sub_cancel]
      counts
    · have e1 : bitCount e ≠ 1 := by
        have := bitCount_pos (odd / 2) (by omega)
        rw [hb, ho]; omega
      simp only [h, if_false, e1]
      rw [hb, ho, hl, show z + Nat.log 2 odd + (1 + bitCount (odd / 2)) - 1 = z + (Nat.log 2 odd + bitCount (odd / 2)) by omega]
      simp only [mulCalls]
      counts

/-- **C93** (exponent zero): the matrix is cloned in vain. -/
theorem C93_pow_zero (t : Target) (a : Mat T n n) :
    Counts ((Elem.counting O).pow t a 0) (a.pow t O 0) (calls (clone := n * n) (zero := n * (n - 1)) (one := n)) := by
  unfold Elem.pow Mat.pow numPow
  rw [Mat.clone_ok]
  apply CountsIf.congr
  · apply CountsIf.skip (cost_clone' t a)
    exact C91_identity t n
  · counts

/-- The tenth power of a 2x2 matrix: four products. -/
example (a : Mat Int 2 2) : Counts ((Elem.counting Ops.int).pow ⟨true, true, 2 ^ 64⟩ a 10) (a.pow ⟨true, true, 2 ^ 64⟩ Ops.int 10)
    (calls (clone := 6 * 4 + 4 * 16) (zero := 4 * 4) (add := 4 * 8) (mul := 4 * 8)) := by
  have h := C93_pow (O := Ops.int) ⟨true, true, 2 ^ 64⟩ (by decide) a 10 (by decide)
  have e1 : Nat.log 2 10 = 3 := by decide
  have e2 : bitCount 10 = 2 := by simp [bitCount]
  simpa [e1, e2] using h

end Rowcol
