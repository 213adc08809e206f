import Verif.Rounding
import Verif.Props.Natural
import Verif.Props.Det
import Verif.Props.MachInt
import Mathlib.Algebra.Order.BigOperators.Ring.Finset

/-! # C84: integer-valued data is computed without rounding -/

namespace Rowcol

/-- An element type whose arithmetic on integers is exact as long as operands and result do not exceed `B`: `repr f z`
says that `f` is (a representation of) the integer `z`.  `f64` with `B = 2^53` (zero has two representations), `f32` with
`B = 2^24`, and the machine integers with `B` their largest value are of this kind. -/
structure Ops.ExactInts {F : Type} (O : Ops F) (repr : F → ℤ → Prop) (B : ℤ) : Prop where
  zero : repr O.zero 0
  one : repr O.one 1
  add : ∀ {a b x y}, repr a x → repr b y → |x| ≤ B → |y| ≤ B → |x + y| ≤ B → ∃ z, O.add a b = .ok z ∧ repr z (x + y)
  sub : ∀ {a b x y}, repr a x → repr b y → |x| ≤ B → |y| ≤ B → |x - y| ≤ B → ∃ z, O.sub a b = .ok z ∧ repr z (x - y)
  mul : ∀ {a b x y}, repr a x → repr b y → |x| ≤ B → |y| ≤ B → |x * y| ≤ B → ∃ z, O.mul a b = .ok z ∧ repr z (x * y)
  neg : ∀ {a x}, repr a x → |x| ≤ B → ∃ z, O.neg a = .ok z ∧ repr z (-x)

theorem fitS_ok (checks : Bool) {w : Nat} (hw : 0 < w) {z : ℤ} (h : |z| ≤ 2 ^ (w - 1) - 1) :
    ∃ f, fitS checks w z = .ok f ∧ f.toInt = z := by
  rw [abs_le] at h
  have h' : -2 ^ (w - 1) ≤ z ∧ z < 2 ^ (w - 1) := by constructor <;> omega
  exact ⟨BitVec.ofInt w z, by rw [fitS, if_neg (by simp [h'])], toInt_ofInt_fit hw h'⟩

/-- C84: binary floating point with `p` digits, rounding to nearest, is of this kind with `B = 2^p`; so are the signed
integers of `w` bits with `B = 2^(w-1) - 1`, with and without overflow checks. -/
theorem C84_types :
    (∀ p : Nat, 0 < p → (Ops.rounded (roundBin p)).ExactInts (fun f z => f = (z : ℝ)) (2 ^ p)) ∧
    (∀ (checks : Bool) (w : Nat), 1 < w → (Ops.signed checks w).ExactInts (fun f z => f.toInt = z) (2 ^ (w - 1) - 1)) := by
  constructor
  · intro p hp
    have e := fun z => roundBin_int p hp z
    constructor
    · simp [Ops.rounded]
    · simp [Ops.rounded]
    · rintro _ _ x y rfl rfl _ _ h
      refine ⟨_, rfl, ?_⟩
      rw [← Int.cast_add]; exact e _ h
    · rintro _ _ x y rfl rfl _ _ h
      refine ⟨_, rfl, ?_⟩
      rw [← Int.cast_sub]; exact e _ h
    · rintro _ _ x y rfl rfl _ _ h
      refine ⟨_, rfl, ?_⟩
      rw [← Int.cast_mul]; exact e _ h
    · rintro _ x rfl _
      exact ⟨_, rfl, by simp⟩
  · intro checks w hw
    have hw0 : 0 < w := by omega
    constructor
    · simp [Ops.signed]
    · have := toInt_ofInt_fit (w := w) hw0 (z := 1) (by
        have : (2 : ℤ) ^ 1 ≤ 2 ^ (w - 1) := pow_le_pow_right₀ (by norm_num) (by omega)
        constructor <;> omega)
      exact this
    · rintro a b _ _ rfl rfl _ _ h; exact fitS_ok checks hw0 h
    · rintro a b _ _ rfl rfl _ _ h; exact fitS_ok checks hw0 h
    · rintro a b _ _ rfl rfl _ _ h; exact fitS_ok checks hw0 h
    · rintro a _ rfl h; exact fitS_ok checks hw0 (by rwa [abs_neg])

section
variable {F : Type} {O : Ops F} {repr : F → ℤ → Prop} {B : ℤ} (H : O.ExactInts repr B) {n r c l : Nat} (t : Target)
include H

theorem exact_fold {ι : Type} (is : List ι) {g : ι → Res F} {y : ι → ℤ} (hg : ∀ i, ∃ q, g i = .ok q ∧ repr q (y i))
    {f : F} {x : ℤ} (hf : repr f x) (hB : |x| + (is.map fun i => |y i|).sum ≤ B) :
    ∃ z, is.foldlM (fun acc i => do let q ← g i; O.add acc q) f = .ok z ∧ repr z (x + (is.map y).sum) := by
  induction is generalizing f x with
  | nil => exact ⟨f, rfl, by simpa using hf⟩
  | cons i is ih =>
    obtain ⟨q, hq, hr⟩ := hg i
    rw [List.map_cons, List.sum_cons] at hB
    have hs : 0 ≤ (is.map fun i => |y i|).sum := List.sum_nonneg fun a ha => by
      obtain ⟨j, _, rfl⟩ := List.mem_map.1 ha; exact abs_nonneg _
    have h1 := abs_nonneg x
    have h2 := abs_nonneg (y i)
    have h3 := abs_add_le x (y i)
    obtain ⟨s, hs', hrs⟩ := H.add hf hr (by linarith) (by linarith) (by linarith)
    obtain ⟨z, hz, hrz⟩ := ih hrs (by linarith)
    refine ⟨z, ?_, ?_⟩
    · rw [List.foldlM_cons, hq]
      simp only [res_ok_bind, hs', hz]
    · rw [List.map_cons, List.sum_cons, ← add_assoc]; exact hrz

theorem exact_mulFold (f g : Fin n → F) (x y : Fin n → ℤ) (hf : ∀ i, repr (f i) (x i)) (hg : ∀ i, repr (g i) (y i))
    (hx : ∀ i, |x i| ≤ B) (hy : ∀ i, |y i| ≤ B) (hB : ∑ i, |x i| * |y i| ≤ B) :
    ∃ z, mulFold O ((List.finRange n).map fun i => (f i, g i)) = .ok z ∧ repr z (∑ i, x i * y i) := by
  have hi : ∀ i, |x i * y i| ≤ B := fun i => by
    rw [abs_mul]
    exact (Finset.single_le_sum (f := fun i => |x i| * |y i|) (fun i _ => by positivity) (Finset.mem_univ i)).trans hB
  have h := exact_fold H (List.finRange n) (g := fun i => O.mul (f i) (g i)) (y := fun i => x i * y i)
    (fun i => H.mul (hf i) (hg i) (hx i) (hy i) (hi i)) H.zero (by
      rw [← Fin.sum_univ_def]; simpa [abs_mul] using hB)
  rw [← Fin.sum_univ_def, zero_add] at h
  rw [mulFold, List.foldlM_map]
  exact h

/-- C84, `dot`: exact if `Σ |x_i| |y_i|` does not exceed `B`. -/
theorem C84_dot (a b : Vec F n) (x y : Fin n → ℤ) (ha : ∀ i, repr (a.get i) (x i)) (hb : ∀ i, repr (b.get i) (y i))
    (hx : ∀ i, |x i| ≤ B) (hy : ∀ i, |y i| ≤ B) (hB : ∑ i, |x i| * |y i| ≤ B) :
    ∃ z, a.dot O b = .ok z ∧ repr z (∑ i, x i * y i) := by
  rw [Vec.dot, Vec.zip_eq]
  exact exact_mulFold H _ _ x y ha hb hx hy hB

/-- C84, `sum` of a vector: exact if `Σ |x_i|` does not exceed `B`. -/
theorem C84_vec_sum (v : Vec F n) (x : Fin n → ℤ) (hv : ∀ i, repr (v.get i) (x i)) (hB : ∑ i, |x i| ≤ B) :
    ∃ z, v.sum O = .ok z ∧ repr z (∑ i, x i) := by
  have h := exact_fold H (List.finRange n) (g := fun i => .ok (v.get i)) (y := x) (fun i => ⟨_, rfl, hv i⟩) H.zero (by
    rw [← Fin.sum_univ_def]; simpa using hB)
  rw [← Fin.sum_univ_def, zero_add] at h
  rw [Vec.sum, Vec.toList_eq, List.foldlM_map]
  exact h

/-- C84, `sum` of a matrix. -/
theorem C84_mat_sum (a : Mat F r c) (x : Matrix (Fin r) (Fin c) ℤ) (ha : ∀ i j, repr (a.get i j) (x i j))
    (hB : ∑ i, ∑ j, |x i j| ≤ B) : ∃ z, a.sum O = .ok z ∧ repr z (∑ i, ∑ j, x i j) := by
  have hrow : ∀ i, ∑ j, |x i j| ≤ B := fun i =>
    (Finset.single_le_sum (f := fun i => ∑ j, |x i j|) (fun i _ => Finset.sum_nonneg fun j _ => abs_nonneg _)
      (Finset.mem_univ i)).trans hB
  have h := exact_fold H (List.finRange r) (g := fun i => (a.rows.get i).sum O) (y := fun i => ∑ j, x i j)
    (fun i => C84_vec_sum H (a.rows.get i) (x i) (ha i) (hrow i)) H.zero (by
      rw [← Fin.sum_univ_def, abs_zero, zero_add]
      exact (Finset.sum_le_sum fun i _ => Finset.abs_sum_le_sum_abs _ _).trans hB)
  rw [← Fin.sum_univ_def, zero_add] at h
  rw [Mat.sum, Vec.toList_eq, List.foldlM_map]
  exact h

/-- C84, matrix products, every form of `*`: exact if the entries of `|X| |Y|` do not exceed `B`. -/
theorem C84_mul (op) (hop : op ∈ mulForms (l := l) (n := n) (c := c) t O) (a : Mat F l n) (b : Mat F n c)
    (x : Matrix (Fin l) (Fin n) ℤ) (y : Matrix (Fin n) (Fin c) ℤ) (ha : ∀ i j, repr (a.get i j) (x i j))
    (hb : ∀ i j, repr (b.get i j) (y i j)) (hx : ∀ i j, |x i j| ≤ B) (hy : ∀ i j, |y i j| ≤ B)
    (hB : ∀ i j, ∑ k, |x i k| * |y k j| ≤ B) (hl : l < t.W) (hn : n < t.W) (hc : c < t.W) :
    ∃ w, op a b = .ok w ∧ ∀ i j, repr (w.get i j) ((x * y) i j) := by
  have h := fun i j => exact_mulFold H (fun k => a.get i k) (fun k => b.get k j) (fun k => x i k) (fun k => y k j)
    (fun k => ha i k) (fun k => hb k j) (fun k => hx i k) (fun k => hy k j) (hB i j)
  choose z hz hr using h
  refine ⟨Mat.ofFn z, ?_, fun i j => ?_⟩
  · rw [C41_mul_entries t O op hop a b hl hn hc]
    intro i j
    rw [← mulFold_mulSum, hz, Mat.get_ofFn]
  · rw [Mat.get_ofFn, Matrix.mul_apply]; exact hr i j

/-- C84, matrix times vector, both forms. -/
theorem C84_mul_vec (a : Mat F r c) (v : Vec F c) (x : Matrix (Fin r) (Fin c) ℤ) (y : Fin c → ℤ)
    (ha : ∀ i j, repr (a.get i j) (x i j)) (hv : ∀ i, repr (v.get i) (y i)) (hx : ∀ i j, |x i j| ≤ B) (hy : ∀ i, |y i| ≤ B)
    (hB : ∀ i, ∑ k, |x i k| * |y k| ≤ B) (hr : r < t.W) :
    ∃ w, a.mulVec t O v = .ok w ∧ a.mulVecRef t O v = .ok w ∧ ∀ i, repr (w.get i) (x.mulVec y i) := by
  have h := fun i => exact_mulFold H (fun k => a.get i k) v.get (fun k => x i k) y
    (fun k => ha i k) hv (fun k => hx i k) hy (hB i)
  choose z hz hq using h
  have e : Vec.collect t r ((rowsOf a).map fun row => mulFold O (row.toList.zip v.toList)) = .ok (Vec.ofFn z) := by
    simp only [rowsOf, List.map_map]
    refine (Vec.collect_finRange_ok_iff t _ _).2 fun i => ?_
    simp only [Function.comp_def]
    rw [Vec.zip_eq, Vec.get_ofFn, ← hz i]; simp
  refine ⟨Vec.ofFn z, ?_, ?_, fun i => ?_⟩
  · rw [Mat.mulVec, drain_rowsRef t a hr]; exact e
  · rw [Mat.mulVecRef, rowsOf_eq a]; exact e
  · rw [Vec.get_ofFn]; exact hq i

/-- C84, elementwise operations of vectors. -/
theorem C84_vec_elementwise (a b : Vec F n) (s : F) (x y : Fin n → ℤ) (k : ℤ) (ha : ∀ i, repr (a.get i) (x i))
    (hb : ∀ i, repr (b.get i) (y i)) (hs : repr s k) (hx : ∀ i, |x i| ≤ B) (hy : ∀ i, |y i| ≤ B) (hk : |k| ≤ B) :
    ((∀ i, |x i + y i| ≤ B) → ∀ op ∈ vecForms t O.add, ∃ w, op a b = .ok w ∧ ∀ i, repr (w.get i) (x i + y i)) ∧
    ((∀ i, |x i - y i| ≤ B) → ∀ op ∈ vecForms t O.sub, ∃ w, op a b = .ok w ∧ ∀ i, repr (w.get i) (x i - y i)) ∧
    ((∀ i, |x i * k| ≤ B) → ∃ w, a.mulScalar t O.mul s = .ok w ∧ ∀ i, repr (w.get i) (x i * k)) ∧
    (∃ w, a.neg t O.neg = .ok w ∧ ∀ i, repr (w.get i) (-x i)) := by
  refine ⟨fun h op hop => ?_, fun h op hop => ?_, fun h => ?_, ?_⟩
  · choose z hz hr using fun i => H.add (ha i) (hb i) (hx i) (hy i) (h i)
    exact ⟨Vec.ofFn z, (C18_vec_ok t O.add op hop a b _).2 fun i => by rw [Vec.get_ofFn, hz], fun i => by rw [Vec.get_ofFn]; exact hr i⟩
  · choose z hz hr using fun i => H.sub (ha i) (hb i) (hx i) (hy i) (h i)
    exact ⟨Vec.ofFn z, (C18_vec_ok t O.sub op hop a b _).2 fun i => by rw [Vec.get_ofFn, hz], fun i => by rw [Vec.get_ofFn]; exact hr i⟩
  · choose z hz hr using fun i => H.mul (ha i) hs (hx i) hk (h i)
    exact ⟨Vec.ofFn z, (C19_vec_ok t O.mul O.neg a s _).1.2 fun i => by rw [Vec.get_ofFn, hz], fun i => by rw [Vec.get_ofFn]; exact hr i⟩
  · choose z hz hr using fun i => H.neg (ha i) (hx i)
    exact ⟨Vec.ofFn z, (C19_vec_ok t O.mul O.neg a s _).2.2.2 fun i => by rw [Vec.get_ofFn, hz], fun i => by rw [Vec.get_ofFn]; exact hr i⟩

/-- C84, elementwise operations of matrices. -/
theorem C84_mat_elementwise (a b : Mat F r c) (s : F) (x y : Matrix (Fin r) (Fin c) ℤ) (k : ℤ)
    (ha : ∀ i j, repr (a.get i j) (x i j)) (hb : ∀ i j, repr (b.get i j) (y i j)) (hs : repr s k)
    (hx : ∀ i j, |x i j| ≤ B) (hy : ∀ i j, |y i j| ≤ B) (hk : |k| ≤ B) :
    ((∀ i j, |x i j + y i j| ≤ B) → ∀ op ∈ matForms t O.add, ∃ w, op a b = .ok w ∧ ∀ i j, repr (w.get i j) ((x + y) i j)) ∧
    ((∀ i j, |x i j - y i j| ≤ B) → ∀ op ∈ matForms t O.sub, ∃ w, op a b = .ok w ∧ ∀ i j, repr (w.get i j) ((x - y) i j)) ∧
    ((∀ i j, |x i j * k| ≤ B) → ∃ w, a.mulScalar t O.mul s = .ok w ∧ ∀ i j, repr (w.get i j) (x i j * k)) ∧
    (∃ w, a.neg t O.neg = .ok w ∧ ∀ i j, repr (w.get i j) ((-x) i j)) := by
  refine ⟨fun h op hop => ?_, fun h op hop => ?_, fun h => ?_, ?_⟩
  · choose z hz hr using fun i j => H.add (ha i j) (hb i j) (hx i j) (hy i j) (h i j)
    exact ⟨Mat.ofFn z, (C18_mat_ok t O.add op hop a b _).2 fun i j => by rw [Mat.get_ofFn, hz], fun i j => by rw [Mat.get_ofFn]; exact hr i j⟩
  · choose z hz hr using fun i j => H.sub (ha i j) (hb i j) (hx i j) (hy i j) (h i j)
    exact ⟨Mat.ofFn z, (C18_mat_ok t O.sub op hop a b _).2 fun i j => by rw [Mat.get_ofFn, hz], fun i j => by rw [Mat.get_ofFn]; exact hr i j⟩
  · choose z hz hr using fun i j => H.mul (ha i j) hs (hx i j) hk (h i j)
    exact ⟨Mat.ofFn z, (C19_mat_ok t O.mul O.neg a s _ a).1.2 fun i j => by rw [Mat.get_ofFn, hz], fun i j => by rw [Mat.get_ofFn]; exact hr i j⟩
  · choose z hz hr using fun i j => H.neg (ha i j) (hx i j)
    exact ⟨Mat.ofFn z, (C19_mat_ok t O.mul O.neg a s a _).2.2.2 fun i j => by rw [Mat.get_ofFn, hz], fun i j => by rw [Mat.get_ofFn]; exact hr i j⟩

omit H in
/-- Sums of magnitudes of a product of matrices. -/
theorem abs_mul_le (x : Matrix (Fin l) (Fin n) ℤ) (y : Matrix (Fin n) (Fin c) ℤ) (x' : Matrix (Fin l) (Fin n) ℤ)
    (y' : Matrix (Fin n) (Fin c) ℤ) (hx : ∀ i j, |x i j| ≤ x' i j) (hy : ∀ i j, |y i j| ≤ y' i j) (i : Fin l) (j : Fin c) :
    |(x * y) i j| ≤ (x' * y') i j ∧ ∑ k, |x i k| * |y k j| ≤ (x' * y') i j := by
  have h : ∑ k, |x i k| * |y k j| ≤ (x' * y') i j := by
    rw [Matrix.mul_apply]
    exact Finset.sum_le_sum fun k _ => mul_le_mul (hx i k) (hy k j) (abs_nonneg _) ((abs_nonneg _).trans (hx i k))
  refine ⟨?_, h⟩
  rw [Matrix.mul_apply]
  refine (Finset.abs_sum_le_sum_abs _ _).trans ?_
  simpa only [abs_mul] using h

omit H in
/-- Exponents: `num::pow` never forms a power beyond the one asked for. -/
theorem numPow_bounded (k : Nat) (hk : k ≠ 0) :
    numPow (.ok 1) (fun x y : Nat => if x + y ≤ k then (.ok (x + y) : Res Nat) else .error .panic) 1 k = .ok k := by
  have loop : ∀ (exp acc base : Nat), acc + base * (2 * (exp / 2)) = k →
      powLoop (fun x y : Nat => if x + y ≤ k then (.ok (x + y) : Res Nat) else .error .panic) acc base exp = .ok k := by
    intro exp
    induction exp using Nat.strongRecOn with
    | _ exp ih =>
      intro acc base h
      rw [powLoop]
      split
      · rename_i h1
        have h2 : 1 ≤ exp / 2 := by omega
        have h3 : base * (2 * 1) ≤ base * (2 * (exp / 2)) := Nat.mul_le_mul_left _ (by omega)
        rw [if_pos (by omega)]
        simp only [res_ok_bind]
        have h4 : base * (2 * (exp / 2)) = (base + base) * (exp / 2) := by ring
        split
        · rename_i h5
          have h6 : exp / 2 = 2 * (exp / 2 / 2) + 1 := by omega
          have h7 : (base + base) * (exp / 2) = (base + base) * (2 * (exp / 2 / 2)) + (base + base) := by
            conv_lhs => rw [h6]
            ring
          rw [if_pos (by omega)]
          simp only [res_ok_bind]
          exact ih _ (by omega) _ _ (by omega)
        · rename_i h5
          have h6 : exp / 2 = 2 * (exp / 2 / 2) := by omega
          simp only [res_pure, res_ok_bind]
          refine ih _ (by omega) _ _ ?_
          rw [← h6]; omega
      · rename_i h1
        have : exp / 2 = 0 := by omega
        rw [this] at h
        simp at h
        rw [h]; rfl
  have strip : ∀ (exp base : Nat), exp ≠ 0 → base * exp = k → ∃ b e,
      powStrip (fun x y : Nat => if x + y ≤ k then (.ok (x + y) : Res Nat) else .error .panic) base exp = .ok (b, e) ∧
      e % 2 = 1 ∧ b * e = k := by
    intro exp
    induction exp using Nat.strongRecOn with
    | _ exp ih =>
      intro base h0 h
      rw [powStrip]
      split
      · rename_i h1
        have h2 : exp = 2 * (exp / 2) := by omega
        have h3 : base * exp = (base + base) * (exp / 2) := by
          conv_lhs => rw [h2]
          ring
        have h4 : (base + base) * 1 ≤ (base + base) * (exp / 2) := Nat.mul_le_mul_left _ (by omega)
        rw [if_pos (by omega)]
        simp only [res_ok_bind]
        exact ih _ (by omega) _ (by omega) (by omega)
      · exact ⟨base, exp, rfl, by omega, h⟩
  obtain ⟨b, e, h1, h2, h3⟩ := strip k 1 hk (by omega)
  rw [numPow, if_neg hk, h1]
  simp only [res_ok_bind]
  by_cases he : e = 1
  · subst he; simp at h3; simp [h3]
  · rw [if_neg he]
    apply loop
    have : e = 2 * (e / 2) + 1 := by omega
    have h4 : b * e = b + b * (2 * (e / 2)) := by
      conv_lhs => rw [this]
      ring
    omega

/-- C84, `pow`: exact if no power of the matrix of magnitudes up to the one asked for has an entry above `B`. -/
theorem C84_pow (a : Mat F n n) (x : Matrix (Fin n) (Fin n) ℤ) (ha : ∀ i j, repr (a.get i j) (x i j)) (k : Nat)
    (hB : ∀ m ≤ k, ∀ i j, ((Matrix.of fun i j => |x i j|) ^ m) i j ≤ B) (hn : n < t.W) :
    ∃ w, a.pow t O k = .ok w ∧ ∀ i j, repr (w.get i j) ((x ^ k) i j) := by
  have one : Mat.one t O n = .ok (Mat.ofFn fun i j => if i = j then O.one else O.zero) := by
    rw [Mat.one, Mat.identity, Mat.generate_ok t _ (fun i j => if i = j then O.one else O.zero) (by
      intro i j; simp [Fin.ext_iff])]
  rw [Mat.pow, Mat.clone_ok]
  simp only [res_ok_bind]
  by_cases hk : k = 0
  · subst hk
    rw [numPow, if_pos rfl, one]
    refine ⟨_, rfl, fun i j => ?_⟩
    rw [Mat.get_ofFn, pow_zero, Matrix.one_apply]
    split
    · exact H.one
    · exact H.zero
  let Q : Nat → Mat F n n → Prop := fun e M => e ≤ k ∧ (∀ i j, repr (M.get i j) ((x ^ e) i j)) ∧
    ∀ i j, |(x ^ e) i j| ≤ ((Matrix.of fun i j => |x i j|) ^ e) i j
  have hR := rel_numPow (p := True) (Q := Q) (one := .ok 1) (one' := .ok a)
    (f := fun x y : Nat => if x + y ≤ k then (.ok (x + y) : Res Nat) else .error .panic) (g := Mat.mulVV t O)
    (.ok ⟨by omega, fun i j => by simpa using ha i j, fun i j => by simp⟩) (by
      rintro e e' M N ⟨h1, h2, h3⟩ ⟨h4, h5, h6⟩
      by_cases he : e + e' ≤ k
      · rw [if_pos he]
        have hb := fun i j => (abs_mul_le (x ^ e) (x ^ e') _ _ h3 h6 i j)
        simp only [← pow_add] at hb
        obtain ⟨w, hw, hr⟩ := C84_mul H t (Mat.mulVV t O) (by simp [mulForms]) M N (x ^ e) (x ^ e') h2 h5
          (fun i j => (h3 i j).trans (hB e h1 i j)) (fun i j => (h6 i j).trans (hB e' h4 i j))
          (fun i j => (hb i j).2.trans (hB _ he i j)) hn hn hn
        rw [hw]
        refine .ok ⟨he, fun i j => ?_, fun i j => (hb i j).1⟩
        rw [pow_add]; exact hr i j
      · rw [if_neg he]; exact .inr ⟨_, rfl, .inl trivial⟩)
    (base := 1) (base' := a) ⟨by omega, fun i j => by simpa using ha i j, fun i j => by simp⟩ k
  obtain ⟨w, hw, _, hQ, _⟩ := hR.ok_left (numPow_bounded k hk)
  refine ⟨w, ?_, hQ⟩
  rw [numPow, if_neg hk] at hw ⊢
  exact hw

/-- C84, `cross`: exact for entries of magnitude at most `M` if `2 M²` does not exceed `B`. -/
theorem C84_cross (a b : Vec F 3) (x y : Fin 3 → ℤ) (ha : ∀ i, repr (a.get i) (x i)) (hb : ∀ i, repr (b.get i) (y i))
    (M : ℤ) (hx : ∀ i, |x i| ≤ M) (hy : ∀ i, |y i| ≤ M) (hB : 2 * (M * M) ≤ B) :
    ∃ w, a.cross t O b = .ok w ∧ ∀ i, repr (w.get i) (crossProduct x y i) := by
  have h0 : (0 : Nat) < 3 := by omega
  have h1 : (1 : Nat) < 3 := by omega
  have h2 : (2 : Nat) < 3 := by omega
  have hM0 : 0 ≤ M := (abs_nonneg _).trans (hx 0)
  have hMB : M ≤ B := by nlinarith
  have hp : ∀ i j, |x i * y j| ≤ M * M := fun i j => by
    rw [abs_mul]; exact mul_le_mul (hx i) (hy j) (abs_nonneg _) hM0
  have key : ∀ i j : Fin 3, ∃ z, (do
      let p ← O.mul (a.get i) (b.get j)
      let q ← O.mul (a.get j) (b.get i)
      O.sub p q) = .ok z ∧ repr z (x i * y j - x j * y i) := fun i j => by
    obtain ⟨p, hp1, hp2⟩ := H.mul (ha i) (hb j) ((hx i).trans hMB) ((hy j).trans hMB) ((hp i j).trans (by nlinarith))
    obtain ⟨q, hq1, hq2⟩ := H.mul (ha j) (hb i) ((hx j).trans hMB) ((hy i).trans hMB) ((hp j i).trans (by nlinarith))
    obtain ⟨z, hz1, hz2⟩ := H.sub hp2 hq2 ((hp i j).trans (by nlinarith)) ((hp j i).trans (by nlinarith))
      ((abs_sub _ _).trans (by linarith [hp i j, hp j i]))
    exact ⟨z, by simp only [hp1, hq1, res_ok_bind, hz1], hz2⟩
  obtain ⟨p, hp1, hp2⟩ := key 1 2
  obtain ⟨q, hq1, hq2⟩ := key 2 0
  obtain ⟨r, hr1, hr2⟩ := key 0 1
  refine ⟨⟨[p, q, r], rfl⟩, ?_, fun i => ?_⟩
  · simp only [Vec.cross, Vec.getUnchecked_ok t _ h0, Vec.getUnchecked_ok t _ h1, Vec.getUnchecked_ok t _ h2, res_ok_bind]
    have e : ∀ (α : Type) (i j : Fin 3) (z : F) (f : F → Res α), (do
        let p ← O.mul (a.get i) (b.get j)
        let q ← O.mul (a.get j) (b.get i)
        O.sub p q) = .ok z → (do
        let p ← O.mul (a.get i) (b.get j)
        let q ← O.mul (a.get j) (b.get i)
        let z ← O.sub p q
        f z) = f z := fun α i j z f h => by
      have := congrArg (fun m => m >>= f) h
      simpa only [bind_assoc, res_ok_bind] using this
    exact (e _ 1 2 p _ hp1).trans ((e _ 2 0 q _ hq1).trans (e _ 0 1 r _ hr1))
  · rw [cross_apply]
    fin_cases i
    · exact hp2
    · exact hq2
    · exact hr2

/-- C84, `determinant` of sizes 1, 2, 3: exact for entries of magnitude at most `M` if `M`, `2 M²`, `6 M³` does not exceed
`B`. -/
theorem C84_det_small (k : Nat) (hk : k < 3) (a : Mat F (k + 1) (k + 1)) (x : Matrix (Fin (k + 1)) (Fin (k + 1)) ℤ)
    (ha : ∀ i j, repr (a.get i j) (x i j)) (M : ℤ) (hx : ∀ i j, |x i j| ≤ M)
    (hB : (k + 1).factorial * M ^ (k + 1) ≤ B) : ∃ z, a.determinant t O k = .ok z ∧ repr z x.det := by
  have hM0 : 0 ≤ M := (abs_nonneg _).trans (hx 0 0)
  match k, hk with
  | 0, _ =>
    refine ⟨_, Mat.idxStatic_ok t a (show 0 < 1 by omega) (show 0 < 1 by omega), ?_⟩
    have : x.det = x 0 0 := Matrix.det_fin_one x
    rw [this]; exact ha 0 0
  | 1, _ =>
    have hB : 2 * (M * M) ≤ B := by simpa [Nat.factorial, pow_two] using hB
    have hMB : M ≤ B := by nlinarith
    have hp : ∀ i j k l, |x i j * x k l| ≤ M * M := fun i j k l => by
      rw [abs_mul]; exact mul_le_mul (hx i j) (hx k l) (abs_nonneg _) hM0
    obtain ⟨p, hp1, hp2⟩ := H.mul (ha 0 0) (ha 1 1) ((hx _ _).trans hMB) ((hx _ _).trans hMB)
      ((hp _ _ _ _).trans (by nlinarith))
    obtain ⟨q, hq1, hq2⟩ := H.mul (ha 1 0) (ha 0 1) ((hx _ _).trans hMB) ((hx _ _).trans hMB)
      ((hp _ _ _ _).trans (by nlinarith))
    obtain ⟨z, hz1, hz2⟩ := H.sub hp2 hq2 ((hp _ _ _ _).trans (by nlinarith)) ((hp _ _ _ _).trans (by nlinarith))
      ((abs_sub _ _).trans (by linarith [hp 0 0 1 1, hp 1 0 0 1]))
    refine ⟨z, ?_, ?_⟩
    · simp only [Mat.determinant, Mat.det2, Mat.idxStatic_ok t a (show 0 < 2 by omega) (show 0 < 2 by omega),
        Mat.idxStatic_ok t a (show 0 < 2 by omega) (show 1 < 2 by omega),
        Mat.idxStatic_ok t a (show 1 < 2 by omega) (show 0 < 2 by omega),
        Mat.idxStatic_ok t a (show 1 < 2 by omega) (show 1 < 2 by omega), res_ok_bind]
      have e1 : O.mul (a.get ⟨0, by omega⟩ ⟨0, by omega⟩) (a.get ⟨1, by omega⟩ ⟨1, by omega⟩) = .ok p := hp1
      have e2 : O.mul (a.get ⟨1, by omega⟩ ⟨0, by omega⟩) (a.get ⟨0, by omega⟩ ⟨1, by omega⟩) = .ok q := hq1
      simp only [e1, e2, res_ok_bind, hz1]
    · have : x.det = x 0 0 * x 1 1 - x 0 1 * x 1 0 := Matrix.det_fin_two x
      rw [this, mul_comm (x 0 1)]; exact hz2
  | 2, _ =>
    have hB : 6 * (M * M * M) ≤ B := by
      have := hB
      norm_num [Nat.factorial, pow_succ] at this
      linarith
    have hMM : M ≤ M * M ∧ M * M ≤ M * M * M := by
      rcases hM0.eq_or_lt with h | h
      · rw [← h]; simp
      · have : 1 ≤ M := h
        constructor <;> nlinarith
    have hMB : M ≤ B := by linarith [hMM.1, hMM.2]
    have term : ∀ i j k : Fin 3, ∃ z, a.det3Term t O i j k = .ok z ∧ repr z (x 0 i * x 1 j * x 2 k) := fun i j k => by
      have hp : |x 0 i * x 1 j| ≤ M * M := by
        rw [abs_mul]; exact mul_le_mul (hx _ _) (hx _ _) (abs_nonneg _) hM0
      obtain ⟨p, hp1, hp2⟩ := H.mul (ha 0 i) (ha 1 j) ((hx _ _).trans hMB) ((hx _ _).trans hMB)
        (hp.trans (by linarith [hMM.1, hMM.2]))
      obtain ⟨q, hq1, hq2⟩ := H.mul hp2 (ha 2 k) (hp.trans (by linarith [hMM.1, hMM.2])) ((hx _ _).trans hMB) (by
        rw [abs_mul]
        exact (mul_le_mul hp (hx _ _) (abs_nonneg _) (mul_nonneg hM0 hM0)).trans (by linarith [hMM.1, hMM.2]))
      refine ⟨q, ?_, hq2⟩
      simp only [Mat.det3Term, Mat.idxStatic_ok t a (show 0 < 3 by omega) i.isLt,
        Mat.idxStatic_ok t a (show 1 < 3 by omega) j.isLt,
        Mat.idxStatic_ok t a (show 2 < 3 by omega) k.isLt, res_ok_bind]
      have e1 : O.mul (a.get ⟨0, by omega⟩ ⟨i, i.isLt⟩) (a.get ⟨1, by omega⟩ ⟨j, j.isLt⟩) = .ok p := hp1
      have e2 : O.mul p (a.get ⟨2, by omega⟩ ⟨k, k.isLt⟩) = .ok q := hq1
      simp only [e1, e2, res_ok_bind]
    have tb : ∀ i j k : Fin 3, |x 0 i * x 1 j * x 2 k| ≤ M * M * M := fun i j k => by
      rw [abs_mul, abs_mul]
      exact mul_le_mul (mul_le_mul (hx _ _) (hx _ _) (abs_nonneg _) hM0) (hx _ _) (abs_nonneg _) (mul_nonneg hM0 hM0)
    obtain ⟨z1, a1, r1⟩ := term 0 1 2
    obtain ⟨z2, a2, r2⟩ := term 1 2 0
    obtain ⟨z3, a3, r3⟩ := term 2 0 1
    obtain ⟨z4, a4, r4⟩ := term 2 1 0
    obtain ⟨z5, a5, r5⟩ := term 1 0 2
    obtain ⟨z6, a6, r6⟩ := term 0 2 1
    have b1 := tb 0 1 2
    have b2 := tb 1 2 0
    have b3 := tb 2 0 1
    have b4 := tb 2 1 0
    have b5 := tb 1 0 2
    have b6 := tb 0 2 1
    have hC : 0 ≤ M * M * M := mul_nonneg (mul_nonneg hM0 hM0) hM0
    have hd : x.det = x 0 0 * x 1 1 * x 2 2 + x 0 1 * x 1 2 * x 2 0 + x 0 2 * x 1 0 * x 2 1 - x 0 2 * x 1 1 * x 2 0 -
        x 0 1 * x 1 0 * x 2 2 - x 0 0 * x 1 2 * x 2 1 := by
      rw [Matrix.det_fin_three x]; ring
    have e : ∀ (f : F) (p : ℤ) (g : F) (q m : ℤ), repr f p → |p| ≤ m → repr g q → |q| ≤ M * M * M →
        m + M * M * M ≤ B → (∃ z, O.add f g = .ok z ∧ repr z (p + q)) ∧ (∃ z, O.sub f g = .ok z ∧ repr z (p - q)) ∧
        |p + q| ≤ m + M * M * M ∧ |p - q| ≤ m + M * M * M := by
      intro f p g q m h1 h2 h3 h4 h5
      have l1 := abs_add_le p q
      have l2 := abs_sub p q
      have l3 := abs_nonneg p
      exact ⟨H.add h1 h3 (by linarith) (by linarith) (by linarith), H.sub h1 h3 (by linarith) (by linarith) (by linarith),
        by linarith, by linarith⟩
    obtain ⟨⟨s1, c1, q1⟩, _, l1, _⟩ := e _ _ _ _ _ r1 b1 r2 b2 (by linarith)
    obtain ⟨⟨s2, c2, q2⟩, _, l2, _⟩ := e _ _ _ _ _ q1 l1 r3 b3 (by linarith)
    obtain ⟨_, ⟨s3, c3, q3⟩, _, l3⟩ := e _ _ _ _ _ q2 l2 r4 b4 (by linarith)
    obtain ⟨_, ⟨s4, c4, q4⟩, _, l4⟩ := e _ _ _ _ _ q3 l3 r5 b5 (by linarith)
    obtain ⟨_, ⟨s5, c5, q5⟩, _, _⟩ := e _ _ _ _ _ q4 l4 r6 b6 (by linarith)
    refine ⟨s5, ?_, ?_⟩
    · simp only [Fin.val_zero, Fin.val_one, Fin.val_two] at a1 a2 a3 a4 a5 a6
      rw [Mat.determinant, Mat.det3, a1, a2, a3, a4, a5, a6]
      simp only [res_ok_bind, c1, c2, c3, c4, c5]
    · rw [hd]; exact q5

/-- C84: so on such data floating point products are associative. -/
theorem C84_mul_assoc {d : Nat} (a : Mat F l n) (b : Mat F n c) (e : Mat F c d) (x : Matrix (Fin l) (Fin n) ℤ)
    (y : Matrix (Fin n) (Fin c) ℤ) (z : Matrix (Fin c) (Fin d) ℤ) (ha : ∀ i j, repr (a.get i j) (x i j))
    (hb : ∀ i j, repr (b.get i j) (y i j)) (he : ∀ i j, repr (e.get i j) (z i j)) (hx : ∀ i j, |x i j| ≤ B)
    (hy : ∀ i j, |y i j| ≤ B) (hz : ∀ i j, |z i j| ≤ B) (hxy : ∀ i j, (x.map abs * y.map abs) i j ≤ B)
    (hyz : ∀ i j, (y.map abs * z.map abs) i j ≤ B) (hxyz : ∀ i j, (x.map abs * y.map abs * z.map abs) i j ≤ B)
    (hl : l < t.W) (hn : n < t.W) (hc : c < t.W) (hd : d < t.W) :
    ∃ v w, (do let p ← a.mulVV t O b; p.mulVV t O e) = .ok v ∧ (do let p ← b.mulVV t O e; a.mulVV t O p) = .ok w ∧
      ∀ i j, repr (v.get i j) ((x * y * z) i j) ∧ repr (w.get i j) ((x * y * z) i j) := by
  have bx := fun i j => abs_mul_le x y (x.map abs) (y.map abs) (fun i j => le_rfl) (fun i j => le_rfl) i j
  have by' := fun i j => abs_mul_le y z (y.map abs) (z.map abs) (fun i j => le_rfl) (fun i j => le_rfl) i j
  have b1 := fun i j => abs_mul_le (x * y) z _ (z.map abs) (fun i j => (bx i j).1) (fun i j => le_rfl) i j
  have b2 := fun i j => abs_mul_le x (y * z) (x.map abs) _ (fun i j => le_rfl) (fun i j => (by' i j).1) i j
  simp only [← Matrix.mul_assoc] at b2
  obtain ⟨p, hp, rp⟩ := C84_mul H t (Mat.mulVV t O) (by simp [mulForms]) a b x y ha hb hx hy
    (fun i j => (bx i j).2.trans (hxy i j)) hl hn hc
  obtain ⟨q, hq, rq⟩ := C84_mul H t (Mat.mulVV t O) (by simp [mulForms]) b e y z hb he hy hz
    (fun i j => (by' i j).2.trans (hyz i j)) hn hc hd
  obtain ⟨v, hv, rv⟩ := C84_mul H t (Mat.mulVV t O) (by simp [mulForms]) p e (x * y) z rp he
    (fun i j => (bx i j).1.trans (hxy i j)) hz (fun i j => (b1 i j).2.trans (hxyz i j)) hl hc hd
  obtain ⟨w, hw, rw'⟩ := C84_mul H t (Mat.mulVV t O) (by simp [mulForms]) a q x (y * z) ha rq hx
    (fun i j => (by' i j).1.trans (hyz i j)) (fun i j => (b2 i j).2.trans (hxyz i j)) hl hn hd
  refine ⟨v, w, by rw [hp]; exact hv, by rw [hq]; exact hw, fun i j => ⟨rv i j, ?_⟩⟩
  rw [Matrix.mul_assoc]; exact rw' i j

end

/-- A 3x3 determinant of integer-valued `f32`s: entries up to 100 are always exact (`6 * 100³ ≤ 2^24`). -/
example (t : Target) (a : Mat ℝ 3 3) (x : Matrix (Fin 3) (Fin 3) ℤ) (ha : ∀ i j, a.get i j = x i j)
    (hx : ∀ i j, |x i j| ≤ 100) : a.determinant t (Ops.rounded (roundBin 24)) 2 = .ok ((x.det : ℤ) : ℝ) := by
  obtain ⟨z, hz, rfl⟩ := C84_det_small (C84_types.1 24 (by norm_num)) t 2 (by norm_num) a x ha 100 hx
    (by norm_num [Nat.factorial])
  exact hz

/-- The bound is needed: `2^24 + 1` is not exact in `f32`. -/
example : ∃ z, (⟨[2 ^ 24, 1], rfl⟩ : Vec ℝ 2).sum (Ops.rounded (roundBin 24)) = .ok z ∧ z ≠ 2 ^ 24 + 1 := by
  have h2 : roundBin 24 (2 ^ 24) = 2 ^ 24 := by
    have := roundBin_int 24 (by norm_num) (2 ^ 24) (by norm_num); exact_mod_cast this
  refine ⟨2 ^ 24 + 2, ?_, by norm_num⟩
  simp [Vec.sum, Ops.rounded, h2, roundBin_tie]

end Rowcol
