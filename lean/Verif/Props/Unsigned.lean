import Verif.Props.MachInt

/-! # C74: unsigned integers with overflow checks: exactly which computations succeed -/

namespace Rowcol

variable {n r c l w : Nat}

theorem fitU_nat (z : Nat) : fitU true w (z : Int) = if z < 2 ^ w then .ok (BitVec.ofNat w z) else .error .panic := by
  unfold fitU
  by_cases h : z < 2 ^ w
  · have : (0 : Int) ≤ z ∧ (z : Int) < 2 ^ w := ⟨by omega, by exact_mod_cast h⟩
    simp [this, h]
  · have : ¬(z : Int) < 2 ^ w := by exact_mod_cast h
    simp [this, h]

theorem unsigned_add (a b : BitVec w) : (Ops.unsigned true w).add a b =
    if a.toNat + b.toNat < 2 ^ w then .ok (BitVec.ofNat w (a.toNat + b.toNat)) else .error .panic := by
  rw [← fitU_nat]; simp [Ops.unsigned]

theorem unsigned_mul (a b : BitVec w) : (Ops.unsigned true w).mul a b =
    if a.toNat * b.toNat < 2 ^ w then .ok (BitVec.ofNat w (a.toNat * b.toNat)) else .error .panic := by
  rw [← fitU_nat]; simp [Ops.unsigned]

theorem foldlM_unsigned_add (xs : List (BitVec w)) (x : BitVec w) :
    xs.foldlM (Ops.unsigned true w).add x =
      if x.toNat + (xs.map BitVec.toNat).sum < 2 ^ w then .ok (BitVec.ofNat w (x.toNat + (xs.map BitVec.toNat).sum))
      else .error .panic := by
  induction xs generalizing x with
  | nil => simp [x.isLt]
  | cons y ys ih =>
    rw [List.foldlM_cons, unsigned_add, List.map_cons, List.sum_cons]
    by_cases h : x.toNat + y.toNat < 2 ^ w
    · rw [if_pos h, res_ok_bind, ih, BitVec.toNat_ofNat, Nat.mod_eq_of_lt h, Nat.add_assoc]
    · rw [if_neg h, if_neg (by omega)]; rfl

theorem mulFold_unsigned (ps : List (BitVec w × BitVec w)) :
    mulFold (Ops.unsigned true w) ps =
      if (ps.map fun p => p.1.toNat * p.2.toNat).sum < 2 ^ w then
        .ok (BitVec.ofNat w (ps.map fun p => p.1.toNat * p.2.toNat).sum)
      else .error .panic := by
  have key : ∀ x : BitVec w, ps.foldlM (fun acc p => do
      let q ← (Ops.unsigned true w).mul p.1 p.2
      (Ops.unsigned true w).add acc q) x =
      if x.toNat + (ps.map fun p => p.1.toNat * p.2.toNat).sum < 2 ^ w then
        .ok (BitVec.ofNat w (x.toNat + (ps.map fun p => p.1.toNat * p.2.toNat).sum)) else .error .panic := by
    induction ps with
    | nil => intro x; simp [x.isLt]
    | cons p ps ih =>
      intro x
      rw [List.foldlM_cons, unsigned_mul, List.map_cons, List.sum_cons]
      by_cases h : p.1.toNat * p.2.toNat < 2 ^ w
      · rw [if_pos h, res_ok_bind, unsigned_add, BitVec.toNat_ofNat, Nat.mod_eq_of_lt h]
        by_cases h' : x.toNat + p.1.toNat * p.2.toNat < 2 ^ w
        · rw [if_pos h', res_ok_bind, ih, BitVec.toNat_ofNat, Nat.mod_eq_of_lt h', Nat.add_assoc]
        · rw [if_neg h', if_neg (by omega)]; rfl
      · rw [if_neg h, if_neg (by omega)]; rfl
  rw [mulFold, key]
  simp [Ops.unsigned]

/-- `if` in range: as two equivalences. -/
theorem fits_iff {x : Res (BitVec w)} {s : Nat}
    (h : x = if s < 2 ^ w then .ok (BitVec.ofNat w s) else .error .panic) :
    (∀ y, x = .ok y ↔ y.toNat = s) ∧ (x = .error .panic ↔ 2 ^ w ≤ s) := by
  subst h
  by_cases h : s < 2 ^ w
  · simp only [if_pos h]
    refine ⟨fun y => ⟨?_, ?_⟩, by simp; omega⟩
    · intro e; cases e; simp [Nat.mod_eq_of_lt h]
    · intro e; congr 1; apply BitVec.eq_of_toNat_eq; simp [Nat.mod_eq_of_lt h, e]
  · simp only [if_neg h]
    refine ⟨fun y => ⟨fun e => (by cases e), fun e => ?_⟩, by simp; omega⟩
    have := y.isLt; omega

theorem toNat_map_sum (f g : Fin n → BitVec w) :
    (((List.finRange n).map fun k => (f k, g k)).map fun p => p.1.toNat * p.2.toNat).sum = ∑ k, (f k).toNat * (g k).toNat := by
  rw [List.map_map, Fin.sum_univ_def]; rfl

/-- C74: `sum` and `dot` of unsigned integers return the exact value whenever it is representable, and panic otherwise. -/
theorem C74_vec (a b : Vec (BitVec w) n) :
    (∀ x, a.sum (Ops.unsigned true w) = .ok x ↔ x.toNat = ∑ i, (a.get i).toNat) ∧
    (a.sum (Ops.unsigned true w) = .error .panic ↔ 2 ^ w ≤ ∑ i, (a.get i).toNat) ∧
    (∀ x, a.dot (Ops.unsigned true w) b = .ok x ↔ x.toNat = ∑ i, (a.get i).toNat * (b.get i).toNat) ∧
    (a.dot (Ops.unsigned true w) b = .error .panic ↔ 2 ^ w ≤ ∑ i, (a.get i).toNat * (b.get i).toNat) := by
  rw [and_assoc.symm]
  refine ⟨fits_iff ?_, fits_iff ?_⟩
  · rw [Vec.sum, foldlM_unsigned_add, Vec.toList_eq, List.map_map, Fin.sum_univ_def]
    simp [Ops.unsigned, Function.comp_def]
  · rw [Vec.dot, Vec.zip_eq, mulFold_unsigned, toNat_map_sum]

theorem vec_collect_fits (t : Target) (f : Fin n → Res (BitVec w)) (s : Fin n → Nat)
    (h : ∀ i, f i = if s i < 2 ^ w then .ok (BitVec.ofNat w (s i)) else .error .panic) :
    (∀ x : Vec (BitVec w) n, Vec.collect t n ((List.finRange n).map f) = .ok x ↔ ∀ i, (x.get i).toNat = s i) ∧
    (Vec.collect t n ((List.finRange n).map f) = .error .panic ↔ ∃ i, 2 ^ w ≤ s i) := by
  refine ⟨fun x => ?_, ?_⟩
  · rw [Vec.collect_finRange_ok_iff]
    exact forall_congr' fun i => (fits_iff (h i)).1 _
  · rw [Vec.collect_finRange_error_iff]
    constructor
    · rintro ⟨k, h1, _⟩; exact ⟨k, ((fits_iff (h k)).2).1 h1⟩
    · rintro ⟨i, hi⟩
      have hex : ∃ k : Nat, ∃ hk : k < n, 2 ^ w ≤ s ⟨k, hk⟩ := ⟨i, i.isLt, hi⟩
      classical
      refine ⟨⟨Nat.find hex, (Nat.find_spec hex).1⟩, ((fits_iff (h _)).2).2 (Nat.find_spec hex).2, fun j hj => ?_⟩
      have : ¬2 ^ w ≤ s j := fun hh => Nat.find_min hex (show j.val < _ from hj) ⟨j.isLt, hh⟩
      exact ⟨_, by rw [h j, if_pos (by omega)]⟩

/-- C74: a product of matrices of unsigned integers is the exact one whenever all its entries are representable, and a panic
otherwise; likewise a matrix times a vector. -/
theorem C74_products (t : Target) (a : Mat (BitVec w) l n) (b : Mat (BitVec w) n c) (v : Vec (BitVec w) n)
    (hl : l < t.W) (hn : n < t.W) (hc : c < t.W) :
    (∀ op ∈ mulForms t (Ops.unsigned true w),
      (∀ x, op a b = .ok x ↔ ∀ i j, (x.get i j).toNat = ∑ k, (a.get i k).toNat * (b.get k j).toNat) ∧
      (op a b = .error .panic ↔ ∃ i j, 2 ^ w ≤ ∑ k, (a.get i k).toNat * (b.get k j).toNat)) ∧
    (∀ x, a.mulVec t (Ops.unsigned true w) v = .ok x ↔ ∀ i, (x.get i).toNat = ∑ k, (a.get i k).toNat * (v.get k).toNat) ∧
    (a.mulVec t (Ops.unsigned true w) v = .error .panic ↔ ∃ i, 2 ^ w ≤ ∑ k, (a.get i k).toNat * (v.get k).toNat) ∧
    (a.mulVecRef t (Ops.unsigned true w) v = a.mulVec t (Ops.unsigned true w) v) := by
  have fold : ∀ (f g : Fin n → BitVec w), mulFold (Ops.unsigned true w) ((List.finRange n).map fun k => (f k, g k)) =
      if ∑ k, (f k).toNat * (g k).toNat < 2 ^ w then .ok (BitVec.ofNat w (∑ k, (f k).toNat * (g k).toNat)) else .error .panic :=
    fun f g => by rw [mulFold_unsigned, toNat_map_sum]
  have hmv : a.mulVec t (Ops.unsigned true w) v = Vec.collect t l ((List.finRange l).map fun i =>
      mulFold (Ops.unsigned true w) ((List.finRange n).map fun k => (a.get i k, v.get k))) := by
    rw [Mat.mulVec, drain_rowsRef t a hl]
    simp only [res_ok_bind, rowsOf, List.map_map, Function.comp_def, Vec.zip_eq, Vec.get_ofFn]
  have hmr : a.mulVecRef t (Ops.unsigned true w) v = Vec.collect t l ((List.finRange l).map fun i =>
      mulFold (Ops.unsigned true w) ((List.finRange n).map fun k => (a.get i k, v.get k))) := by
    rw [Mat.mulVecRef, rowsOf_eq a]
    simp only [rowsOf, List.map_map, Function.comp_def, Vec.zip_eq, Vec.get_ofFn]
  have hv := vec_collect_fits t (fun i => mulFold (Ops.unsigned true w) ((List.finRange n).map fun k => (a.get i k, v.get k)))
    (fun i => ∑ k, (a.get i k).toNat * (v.get k).toNat) (fun i => fold _ _)
  refine ⟨fun op hop => ⟨fun x => ?_, ?_⟩, ?_, ?_, ?_⟩
  · rw [mulForms_eq t _ op hop a b hl hn hc, Mat.collect_ok_iff]
    exact forall_congr' fun i => forall_congr' fun j => (fits_iff (fold _ _)).1 _
  · constructor
    · intro h
      obtain ⟨i, j, h1, _⟩ := (C41_mul_panic t _ op hop a b hl hn hc .panic).1 h
      rw [← mulFold_mulSum] at h1
      exact ⟨i, j, ((fits_iff (fold _ _)).2).1 h1⟩
    · rintro ⟨i, j, h⟩
      rcases h1 : op a b with e | x
      · obtain ⟨i', j', h2, _⟩ := (C41_mul_panic t _ op hop a b hl hn hc e).1 h1
        rw [← mulFold_mulSum, fold] at h2
        split at h2
        · cases h2
        · cases h2; rfl
      · rw [mulForms_eq t _ op hop a b hl hn hc, Mat.collect_ok_iff] at h1
        have := ((fits_iff (fold _ _)).1 _).1 (h1 i j)
        have := (x.get i j).isLt
        omega
  · rw [hmv]; exact hv.1
  · rw [hmv]; exact hv.2
  · rw [hmv, hmr]

example : (⟨[200#8, 55#8], rfl⟩ : Vec (BitVec 8) 2).sum (Ops.unsigned true 8) = .ok 255#8 := by decide
example : (⟨[200#8, 56#8], rfl⟩ : Vec (BitVec 8) 2).sum (Ops.unsigned true 8) = .error .panic := by decide

/-! ## The Fibonacci programs with overflow checks -/

section Pow
variable {A : Type} {P : Nat → A} {good : Nat → Prop} {mul : A → A → Res A} (hg : ∀ i j, i ≤ j → good j → good i)
  (hok : ∀ i j, good i → good j → good (i + j) → mul (P i) (P j) = .ok (P (i + j)))
  (hno : ∀ i j, good i → good j → ¬good (i + j) → mul (P i) (P j) = .error .panic)
include hg hok hno

theorem powStrip_good (i e : Nat) (he : e ≠ 0) (hi : good i) :
    (powStrip mul (P i) e = .error .panic ∧ ¬good (i * e)) ∨
    ∃ j e', powStrip mul (P i) e = .ok (P j, e') ∧ good j ∧ j * e' = i * e ∧ e' % 2 = 1 := by
  induction e using Nat.strongRecOn generalizing i with
  | _ e ih =>
    rw [powStrip]
    split
    · rename_i h
      by_cases h2 : good (i + i)
      · rw [hok i i hi hi h2, res_ok_bind]
        have e1 : (i + i) * (e / 2) = i * e := by
          rw [← Nat.mul_two, Nat.mul_assoc]; congr 1; omega
        have := ih (e / 2) (by omega) (i + i) (by omega) h2
        rwa [e1] at this
      · rw [hno i i hi hi h2]
        refine .inl ⟨rfl, fun hh => h2 (hg _ _ ?_ hh)⟩
        rw [← Nat.mul_two]; exact Nat.mul_le_mul_left _ (by omega)
    · exact .inr ⟨i, e, rfl, hi, rfl, by omega⟩

theorem powLoop_good (a b e : Nat) (ha : good a) (hb : good b) :
    (good (a + b * (2 * (e / 2))) → powLoop mul (P a) (P b) e = .ok (P (a + b * (2 * (e / 2))))) ∧
    (¬good (a + b * (2 * (e / 2))) → powLoop mul (P a) (P b) e = .error .panic) := by
  induction e using Nat.strongRecOn generalizing a b with
  | _ e ih =>
    rw [powLoop]
    split
    · rename_i h
      have h1 : b + b ≤ b * (2 * (e / 2)) := by
        rw [← Nat.mul_two]; exact Nat.mul_le_mul_left _ (by omega)
      by_cases h2 : good (b + b)
      · rw [hok b b hb hb h2, res_ok_bind]
        by_cases ho : e / 2 % 2 = 1
        · have e1 : a + (b + b) + (b + b) * (2 * (e / 2 / 2)) = a + b * (2 * (e / 2)) := by
            have : 2 * (e / 2) = 2 + 2 * (2 * (e / 2 / 2)) := by omega
            rw [this]; ring
          simp only [ho, if_true]
          by_cases h3 : good (a + (b + b))
          · rw [hok a _ ha h2 h3, res_ok_bind]
            have := ih (e / 2) (by omega) _ _ h3 h2
            rwa [e1] at this
          · rw [hno a _ ha h2 h3]
            exact ⟨fun hh => absurd (hg _ _ (by omega) hh) h3, fun _ => rfl⟩
        · have e1 : a + (b + b) * (2 * (e / 2 / 2)) = a + b * (2 * (e / 2)) := by
            have : 2 * (e / 2) = 2 * (2 * (e / 2 / 2)) := by omega
            rw [this]; ring
          simp only [ho, if_false]
          have := ih (e / 2) (by omega) _ _ ha h2
          rw [e1] at this
          exact this
      · rw [hno b b hb hb h2]
        exact ⟨fun hh => absurd (hg _ _ (by omega) hh) h2, fun _ => rfl⟩
    · rename_i h
      rw [show e / 2 = 0 by omega]
      simp only [Nat.mul_zero, Nat.add_zero]
      exact ⟨fun _ => rfl, fun hh => absurd ha hh⟩

theorem numPow_good (e : Nat) (h1 : good 1) (h0 : good 0) :
    (good e → numPow (.ok (P 0)) mul (P 1) e = .ok (P e)) ∧
    (¬good e → numPow (.ok (P 0)) mul (P 1) e = .error .panic) := by
  unfold numPow
  by_cases he : e = 0
  · subst he; simp [h0]
  · rw [if_neg he]
    rcases powStrip_good hg hok hno 1 e he h1 with ⟨h2, h3⟩ | ⟨j, e', h2, h3, h4, h5⟩
    · rw [Nat.one_mul] at h3
      rw [h2]; exact ⟨fun hh => absurd hh h3, fun _ => rfl⟩
    · rw [Nat.one_mul] at h4
      rw [h2, res_ok_bind]
      by_cases h6 : e' = 1
      · simp only [h6, if_true]
        rw [h6, Nat.mul_one] at h4
        subst h4
        exact ⟨fun _ => rfl, fun hh => absurd h3 hh⟩
      · simp only [h6, if_false]
        have := powLoop_good hg hok hno j j e' h3 h3
        rwa [show j + j * (2 * (e' / 2)) = e by
          rw [← h4]; have : e' = 1 + 2 * (e' / 2) := by omega
          conv_rhs => rw [this]
          ring] at this
end Pow

/-- The powers of the Fibonacci matrix. -/
def fibPow (i : Nat) : Matrix (Fin 2) (Fin 2) Nat := !![1, 1; 1, 0] ^ i

theorem fibPow_le (i : Nat) (p q : Fin 2) : fibPow i p q ≤ Nat.fib (i + 1) := by
  cases i with
  | zero => fin_cases p <;> fin_cases q <;> simp [fibPow]
  | succ k =>
    rw [fibPow, pow_succ, fib_matrix]
    have h1 : Nat.fib k ≤ Nat.fib (k + 2) := Nat.fib_mono (by omega)
    have h2 : Nat.fib (k + 1) ≤ Nat.fib (k + 2) := Nat.fib_mono (by omega)
    fin_cases p <;> fin_cases q <;> simp_all

theorem fibPow_00 (i : Nat) : fibPow i 0 0 = Nat.fib (i + 1) := by
  cases i with
  | zero => simp [fibPow]
  | succ k => rw [fibPow, pow_succ, fib_matrix]; simp

theorem fibPow_col (i : Nat) (p : Fin 2) : fibPow i p 0 = ![Nat.fib (i + 1), Nat.fib i] p := by
  have := congrFun (fib_vec (T := Nat) i) p
  simpa [Matrix.mulVec, dotProduct, Fin.sum_univ_two, fibPow] using this

/-- The same as a matrix of words. -/
def fibW (w i : Nat) : Mat (BitVec w) 2 2 := Mat.ofMatrix ((fibPow i).map (BitVec.ofNat w))

theorem fibW_toNat {i : Nat} (h : Nat.fib (i + 1) < 2 ^ w) (p q : Fin 2) : ((fibW w i).get p q).toNat = fibPow i p q := by
  rw [fibW, Mat.get_ofMatrix, Matrix.map_apply, BitVec.toNat_ofNat, Nat.mod_eq_of_lt]
  exact (fibPow_le i p q).trans_lt h

variable (t : Target) (ht : 2 < t.W)
include ht

omit ht in
theorem fibW_sum {i j : Nat} (hi : Nat.fib (i + 1) < 2 ^ w) (hj : Nat.fib (j + 1) < 2 ^ w) (p q : Fin 2) :
    ∑ k, ((fibW w i).get p k).toNat * ((fibW w j).get k q).toNat = fibPow (i + j) p q := by
  simp only [fibW_toNat hi, fibW_toNat hj]
  have : fibPow (i + j) = fibPow i * fibPow j := pow_add _ _ _
  rw [this, Matrix.mul_apply]

theorem fibW_mul {i j : Nat} (hi : Nat.fib (i + 1) < 2 ^ w) (hj : Nat.fib (j + 1) < 2 ^ w) :
    (Nat.fib (i + j + 1) < 2 ^ w → (fibW w i).mulVV t (Ops.unsigned true w) (fibW w j) = .ok (fibW w (i + j))) ∧
    (¬Nat.fib (i + j + 1) < 2 ^ w → (fibW w i).mulVV t (Ops.unsigned true w) (fibW w j) = .error .panic) := by
  have h := (C74_products t (fibW w i) (fibW w j) ⟨[0#w, 0#w], rfl⟩ ht ht ht).1 (Mat.mulVV t (Ops.unsigned true w)) (by simp [mulForms])
  simp only [fibW_sum hi hj] at h
  refine ⟨fun hg => (h.1 _).2 fun p q => fibW_toNat hg p q, fun hg => h.2.2 ⟨0, 0, ?_⟩⟩
  rw [fibPow_00]; omega

theorem fibW_index {i : Nat} (hi : Nat.fib (i + 1) < 2 ^ w) (hw : 0 < w) :
    (do
      let v ← (fibW w i).mulVec t (Ops.unsigned true w) (fibVec (Ops.unsigned true w))
      v.index 1) = .ok (BitVec.ofNat w (Nat.fib i)) := by
  have h := (C74_products t (fibW w i) (fibW w i) (fibVec (Ops.unsigned true w)) ht ht ht).2.1
    (Vec.ofFn fun p => BitVec.ofNat w (fibPow i p 0))
  have h2 : 1 < 2 ^ w := Nat.one_lt_two_pow (by omega)
  rw [h.2, res_ok_bind, Vec.index_ok _ (by omega), Vec.get_ofFn, fibPow_col]
  · rfl
  · intro p
    rw [Vec.get_ofFn, BitVec.toNat_ofNat, Nat.mod_eq_of_lt ((fibPow_le i p 0).trans_lt hi)]
    simp [Fin.sum_univ_two, fibW_toNat hi, fibVec, Vec.get, Ops.unsigned, Nat.mod_eq_of_lt h2]

omit ht in
theorem fibMat_fibW : fibMat t (Ops.unsigned true w) = .ok (fibW w 1) := by
  rw [fibMat_eq]
  refine congrArg _ (Mat.ext_get fun p q => ?_)
  simp only [fibW, fibPow, pow_one, Mat.get_ofMatrix, Matrix.map_apply]
  fin_cases p <;> fin_cases q <;> rfl

omit ht in
theorem identity_fibW : Mat.identity t (Ops.unsigned true w) 2 = .ok (fibW w 0) := by
  rw [Mat.identity, Mat.generate_ok t _ (fun i j => if i = j then 1#w else 0#w) (by
    intro i j; simp only [Fin.ext_iff]; split <;> rfl)]
  refine congrArg _ (Mat.ext_get fun p q => ?_)
  simp only [fibW, fibPow, pow_zero, Mat.get_ofMatrix, Matrix.map_apply, Mat.get_ofFn]
  fin_cases p <;> fin_cases q <;> rfl

/-- C74: the documented `fib(n)` with unsigned integers of `w` bits and overflow checks: the exact Fibonacci number if
`fib(n + 1)` is representable, a panic otherwise. -/
theorem C74_fib_doc (hw : 0 < w) (k : Nat) :
    fibDoc t (Ops.unsigned true w) k =
      if Nat.fib (k + 1) < 2 ^ w then .ok (BitVec.ofNat w (Nat.fib k)) else .error .panic := by
  have h2 : 1 < 2 ^ w := Nat.one_lt_two_pow (by omega)
  have h := numPow_good (P := fibW w) (good := fun i => Nat.fib (i + 1) < 2 ^ w) (mul := Mat.mulVV t (Ops.unsigned true w))
    (fun i j hij hj => (Nat.fib_mono (by omega)).trans_lt hj) (fun i j hi hj => (fibW_mul t ht hi hj).1)
    (fun i j hi hj => (fibW_mul t ht hi hj).2) k (by simpa using h2) (by simpa using h2)
  rw [fibDoc, fibMat_fibW t]
  simp only [res_ok_bind]
  rw [Mat.pow, Mat.clone_ok, res_ok_bind, Mat.one, identity_fibW t]
  by_cases hg : Nat.fib (k + 1) < 2 ^ w
  · rw [h.1 hg, if_pos hg, res_ok_bind]; exact fibW_index t ht hg hw
  · rw [h.2 hg, if_neg hg]; rfl

theorem fibLoop_good (hw : 0 < w) (k s : Nat) (hs : Nat.fib (s + 1) < 2 ^ w) :
    fibLoop t (Ops.unsigned true w) (fibW w 1) k (fibW w s) =
      if k = 0 ∨ Nat.fib (s + k + 1) < 2 ^ w then .ok ((List.range k).map fun i => BitVec.ofNat w (Nat.fib (s + i)))
      else .error .panic := by
  have h2 : 1 < 2 ^ w := Nat.one_lt_two_pow (by omega)
  induction k generalizing s with
  | zero => simp [fibLoop]
  | succ k ih =>
    have hm := fibW_mul t ht (w := w) (i := s) (j := 1) hs (by simpa using h2)
    rw [fibLoop, ← bind_assoc, fibW_index t ht hs hw, res_ok_bind, mulAssign_eq]
    by_cases hg : Nat.fib (s + 1 + 1) < 2 ^ w
    · rw [hm.1 hg]
      simp only
      rw [ih (s + 1) hg]
      have e : (k = 0 ∨ Nat.fib (s + 1 + k + 1) < 2 ^ w) ↔ (k + 1 = 0 ∨ Nat.fib (s + (k + 1) + 1) < 2 ^ w) := by
        rw [show s + (k + 1) + 1 = s + 1 + k + 1 by omega]
        constructor
        · rintro (rfl | h)
          · exact .inr hg
          · exact .inr h
        · rintro (h | h)
          · omega
          · exact .inr h
      simp only [e]
      split
      · simp only [res_ok_bind, res_pure, List.range_succ_eq_map, List.map_cons, List.map_map]
        congr 2
        apply List.map_congr_left; intro i _
        simp only [Function.comp_def]
        rw [show s + 1 + i = s + (i + 1) by omega]
      · rfl
    · rw [hm.2 hg, if_neg]
      rintro (h | h)
      · omega
      · exact hg ((Nat.fib_mono (by omega)).trans_lt h)

/-- C74: the example program with `k` iterations prints `fib(0), .., fib(k - 1)` exactly if `fib(k + 1)`, which its last
iteration computes, is representable, and panics otherwise. -/
theorem C74_fib_example (hw : 0 < w) (k : Nat) :
    fibExample t (Ops.unsigned true w) k =
      if k = 0 ∨ Nat.fib (k + 1) < 2 ^ w then .ok ((List.range k).map fun i => BitVec.ofNat w (Nat.fib i))
      else .error .panic := by
  have h2 : 1 < 2 ^ w := Nat.one_lt_two_pow (by omega)
  rw [fibExample, fibMat_fibW t, res_ok_bind, identity_fibW t, res_ok_bind,
    fibLoop_good t ht hw k 0 (by simpa using h2)]
  simp

/-- C74: with `u64`, `fib(n)` is right up to 92 and panics from 93 on, although `fib(93)` is representable; the example
program's 50 iterations are right. -/
theorem C74_fib_u64 :
    (∀ k ≤ 92, ∃ x, fibDoc t (Ops.unsigned true 64) k = .ok x ∧ x.toNat = Nat.fib k) ∧
    (∀ k ≥ 93, fibDoc t (Ops.unsigned true 64) k = .error .panic) ∧ Nat.fib 93 < 2 ^ 64 ∧
    (∃ xs, fibExample t (Ops.unsigned true 64) 50 = .ok xs ∧ xs.map BitVec.toNat = (List.range 50).map Nat.fib) := by
  have h93 : Nat.fib 93 = 12200160415121876738 := by norm_num [Nat.fib_add_two]
  have h94 : Nat.fib 94 = 19740274219868223167 := by norm_num [Nat.fib_add_two]
  refine ⟨fun k hk => ⟨_, by rw [C74_fib_doc t ht (by omega), if_pos]; exact (Nat.fib_mono (b := 93) (by omega)).trans_lt (by rw [h93]; norm_num), ?_⟩,
    fun k hk => ?_, by rw [h93]; norm_num, ⟨_, by
      rw [C74_fib_example t ht (by omega), if_pos]
      exact .inr ((Nat.fib_mono (b := 93) (by omega)).trans_lt (by rw [h93]; norm_num)), ?_⟩⟩
  · rw [BitVec.toNat_ofNat, Nat.mod_eq_of_lt]
    exact (Nat.fib_mono (b := 93) (by omega)).trans_lt (by rw [h93]; norm_num)
  · rw [C74_fib_doc t ht (by omega), if_neg]
    have := Nat.fib_mono (show 94 ≤ k + 1 by omega)
    rw [h94] at this
    norm_num; omega
  · rw [List.map_map]
    apply List.map_congr_left; intro i hi
    rw [List.mem_range] at hi
    simp only [Function.comp_def]
    rw [BitVec.toNat_ofNat, Nat.mod_eq_of_lt]
    exact (Nat.fib_mono (b := 93) (by omega)).trans_lt (by rw [h93]; norm_num)

end Rowcol
