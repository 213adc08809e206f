import Verif.Rounding
import Verif.Props.Natural
import Verif.Props.Det
import Mathlib.Algebra.Order.BigOperators.Group.Finset
import Mathlib.LinearAlgebra.Matrix.Permanent
import Mathlib.Tactic.GCongr
import Mathlib.Analysis.SpecialFunctions.Sqrt

/-! # C83: rounding errors of floating point vectors and matrices -/

namespace Rowcol

/-! ### The calculus: exact value, bound on the magnitude, number of roundings -/

/-- What is known about a computed number: the exact value it stands for, a bound on the magnitude of that value and of
everything that was added up to it, and the number of roundings on the way. -/
structure Trk where
  exact : ℝ
  bound : ℝ
  cnt : Nat

/-- The magnitudes: `-` adds up like `+`. -/
noncomputable def Ops.magn : Ops ℝ where
  zero := 0
  one := 1
  add a b := .ok (a + b)
  sub a b := .ok (a + b)
  mul a b := .ok (a * b)
  div _ _ := .error .panic
  neg a := .ok a
  isZero _ := false

/-- The roundings. -/
def Ops.cnt : Ops Nat where
  zero := 0
  one := 0
  add a b := .ok (Max.max a b + 1)
  sub a b := .ok (Max.max a b + 1)
  mul a b := .ok (a + b + 1)
  div _ _ := .error .panic
  neg a := .ok a
  isZero _ := false

/-- All three at once. -/
noncomputable def Ops.trk : Ops Trk where
  zero := ⟨0, 0, 0⟩
  one := ⟨1, 1, 0⟩
  add a b := .ok ⟨a.exact + b.exact, a.bound + b.bound, Max.max a.cnt b.cnt + 1⟩
  sub a b := .ok ⟨a.exact - b.exact, a.bound + b.bound, Max.max a.cnt b.cnt + 1⟩
  mul a b := .ok ⟨a.exact * b.exact, a.bound * b.bound, a.cnt + b.cnt + 1⟩
  div _ _ := .error .panic
  neg a := .ok ⟨-a.exact, a.bound, a.cnt⟩
  isZero _ := false

open Classical in
theorem trk_exact : Ops.trk.Preserves (Ops.exact ℝ) Trk.exact :=
  ⟨rfl, rfl, fun _ _ => rfl, fun _ _ => rfl, fun _ _ => rfl, fun _ => rfl⟩

theorem trk_magn : Ops.trk.Preserves Ops.magn Trk.bound :=
  ⟨rfl, rfl, fun _ _ => rfl, fun _ _ => rfl, fun _ _ => rfl, fun _ => rfl⟩

theorem trk_cnt : Ops.trk.Preserves Ops.cnt Trk.cnt :=
  ⟨rfl, rfl, fun _ _ => rfl, fun _ _ => rfl, fun _ _ => rfl, fun _ => rfl⟩

theorem magn_isSemiring : Ops.magn.IsSemiring := ⟨rfl, rfl, fun _ _ => rfl, fun _ _ => rfl⟩

/-- The computed number agrees with what is known about it. -/
def Tracks {F : Type} (val : F → ℝ) (u : ℝ) (f : F) (k : Trk) : Prop :=
  |k.exact| ≤ k.bound ∧ |val f - k.exact| ≤ ((1 + u) ^ k.cnt - 1) * k.bound

section
variable {u : ℝ}

theorem one_le_g (hu : 0 ≤ u) (k : Nat) : 1 ≤ (1 + u) ^ k := one_le_pow₀ (by linarith)

theorem g_mono (hu : 0 ≤ u) {j k : Nat} (h : j ≤ k) : (1 + u) ^ j ≤ (1 + u) ^ k := pow_le_pow_right₀ (by linarith) h

/-- Adding two approximations and rounding the result. -/
theorem err_add (hu : 0 ≤ u) {x y x' y' z b c : ℝ} {p q : Nat} (hx : |x| ≤ b) (hy : |y| ≤ c)
    (ex : |x' - x| ≤ ((1 + u) ^ p - 1) * b) (ey : |y' - y| ≤ ((1 + u) ^ q - 1) * c)
    (hz : |z - (x' + y')| ≤ u * |x' + y'|) :
    |x + y| ≤ b + c ∧ |z - (x + y)| ≤ ((1 + u) ^ (Max.max p q + 1) - 1) * (b + c) := by
  have hb : 0 ≤ b := (abs_nonneg x).trans hx
  have hc : 0 ≤ c := (abs_nonneg y).trans hy
  refine ⟨(abs_add_le x y).trans (add_le_add hx hy), ?_⟩
  have h1 : |x'| ≤ (1 + u) ^ p * b := by
    have := abs_add_le (x' - x) x; rw [sub_add_cancel] at this; nlinarith
  have h2 : |y'| ≤ (1 + u) ^ q * c := by
    have := abs_add_le (y' - y) y; rw [sub_add_cancel] at this; nlinarith
  have h3 : |z - (x + y)| ≤ |z - (x' + y')| + |x' - x| + |y' - y| := by
    have e : z - (x + y) = (z - (x' + y')) + (x' - x) + (y' - y) := by ring
    rw [e]; exact (abs_add_le _ _).trans (add_le_add (abs_add_le _ _) le_rfl)
  have h4 : |x' + y'| ≤ (1 + u) ^ p * b + (1 + u) ^ q * c := (abs_add_le _ _).trans (add_le_add h1 h2)
  have h5 : u * |x' + y'| ≤ u * ((1 + u) ^ p * b + (1 + u) ^ q * c) := mul_le_mul_of_nonneg_left h4 hu
  have h6 : (1 + u) ^ p * b ≤ (1 + u) ^ Max.max p q * b := mul_le_mul_of_nonneg_right (g_mono hu (le_max_left _ _)) hb
  have h7 : (1 + u) ^ q * c ≤ (1 + u) ^ Max.max p q * c := mul_le_mul_of_nonneg_right (g_mono hu (le_max_right _ _)) hc
  rw [pow_succ]
  nlinarith

/-- Multiplying two approximations and rounding the result. -/
theorem err_mul (hu : 0 ≤ u) {x y x' y' z b c : ℝ} {p q : Nat} (hx : |x| ≤ b) (hy : |y| ≤ c)
    (ex : |x' - x| ≤ ((1 + u) ^ p - 1) * b) (ey : |y' - y| ≤ ((1 + u) ^ q - 1) * c)
    (hz : |z - x' * y'| ≤ u * |x' * y'|) :
    |x * y| ≤ b * c ∧ |z - x * y| ≤ ((1 + u) ^ (p + q + 1) - 1) * (b * c) := by
  have hb : 0 ≤ b := (abs_nonneg x).trans hx
  have hc : 0 ≤ c := (abs_nonneg y).trans hy
  have hgp := one_le_g hu p
  have hgq := one_le_g hu q
  refine ⟨by rw [abs_mul]; exact mul_le_mul hx hy (abs_nonneg _) hb, ?_⟩
  have h1 : |x'| ≤ (1 + u) ^ p * b := by
    have := abs_add_le (x' - x) x; rw [sub_add_cancel] at this; nlinarith
  have h2 : |y'| ≤ (1 + u) ^ q * c := by
    have := abs_add_le (y' - y) y; rw [sub_add_cancel] at this; nlinarith
  have h3 : |x' * y'| ≤ (1 + u) ^ p * b * ((1 + u) ^ q * c) := by
    rw [abs_mul]; exact mul_le_mul h1 h2 (abs_nonneg _) (by positivity)
  have h4 : |x' * y' - x * y| ≤ ((1 + u) ^ p - 1) * b * (((1 + u) ^ q - 1) * c) + b * (((1 + u) ^ q - 1) * c) +
      ((1 + u) ^ p - 1) * b * c := by
    have e : x' * y' - x * y = (x' - x) * (y' - y) + x * (y' - y) + (x' - x) * y := by ring
    rw [e]
    refine (abs_add_le _ _).trans (add_le_add ((abs_add_le _ _).trans (add_le_add ?_ ?_)) ?_)
    · rw [abs_mul]; exact mul_le_mul ex ey (abs_nonneg _) (mul_nonneg (by linarith) hb)
    · rw [abs_mul]; exact mul_le_mul hx ey (abs_nonneg _) hb
    · rw [abs_mul]; exact mul_le_mul ex hy (abs_nonneg _) (mul_nonneg (by linarith) hb)
  have h5 : |z - x * y| ≤ |z - x' * y'| + |x' * y' - x * y| := by
    have e : z - x * y = (z - x' * y') + (x' * y' - x * y) := by ring
    rw [e]; exact abs_add_le _ _
  have h6 : u * |x' * y'| ≤ u * ((1 + u) ^ p * b * ((1 + u) ^ q * c)) := mul_le_mul_of_nonneg_left h3 hu
  have e : ((1 + u) ^ (p + q + 1) - 1) * (b * c) = u * ((1 + u) ^ p * b * ((1 + u) ^ q * c)) +
      (((1 + u) ^ p - 1) * b * (((1 + u) ^ q - 1) * c) + b * (((1 + u) ^ q - 1) * c) + ((1 + u) ^ p - 1) * b * c) := by
    rw [pow_succ, pow_add]; ring
  rw [e]; linarith

end

theorem rel_of_ok {α β : Type} {R : α → β → Prop} {x : Res α} {b : β} (h : ∀ a, x = .ok a → R a b) :
    Rel True R x (.ok b) := by
  cases x with
  | ok a => exact .ok (h a rfl)
  | error e => exact .inr ⟨e, rfl, .inl trivial⟩

section
variable {F : Type} {O : Ops F} {val : F → ℝ} {u : ℝ}

/-- Every operation of a rounding type agrees with the calculus. -/
theorem Ops.Rounds.tracks (H : O.Rounds val u) : Ops.RelHom True O Ops.trk (Tracks val u) where
  zero := by simp [Tracks, H.zero, Ops.trk]
  one := by simp [Tracks, H.one, Ops.trk]
  add ha hb := rel_of_ok fun z hz => err_add H.nonneg ha.1 hb.1 ha.2 hb.2 (H.add hz)
  sub {a b a' b'} ha hb := rel_of_ok fun z hz => by
    have h := err_add H.nonneg (x := a'.exact) (y := -b'.exact) (x' := val a) (y' := -val b) (z := val z)
      (b := a'.bound) (c := b'.bound) (p := a'.cnt) (q := b'.cnt) ha.1 (by rw [abs_neg]; exact hb.1) ha.2
      (by rw [← abs_neg]; convert hb.2 using 2; ring)
      (by have := H.sub hz; rwa [sub_eq_add_neg (val a)] at this)
    rw [← sub_eq_add_neg] at h; exact h
  mul ha hb := rel_of_ok fun z hz => err_mul H.nonneg ha.1 hb.1 ha.2 hb.2 (H.mul hz)
  neg {a a'} ha := rel_of_ok fun z hz => by
    refine ⟨by simpa [abs_neg] using ha.1, ?_⟩
    rw [H.neg hz, ← abs_neg]
    convert ha.2 using 2
    ring

/-- The inputs are taken to be exact. -/
noncomputable def Trk.input (x : ℝ) : Trk := ⟨x, |x|, 0⟩

theorem tracks_input (f : F) : Tracks val u f (Trk.input (val f)) := by simp [Tracks, Trk.input]

/-- What the calculus says about a result. -/
theorem tracks_bound (hu : 0 ≤ u) {f : F} {k : Trk} (h : Tracks val u f k) {x b : ℝ} {m : Nat} (hx : k.exact = x)
    (hb : k.bound = b) (hm : k.cnt ≤ m) : |val f - x| ≤ ((1 + u) ^ m - 1) * b := by
  subst hx hb
  exact h.2.trans (mul_le_mul_of_nonneg_right (sub_le_sub_right (g_mono hu hm) 1) ((abs_nonneg _).trans h.1))

end

/-! ### How many roundings -/

theorem cnt_mulFold {ι : Type} (l : List ι) (f g : ι → Nat) (s : Nat) (h : ∀ i ∈ l, f i + g i ≤ s) {m : Nat}
    (hm : mulFold Ops.cnt (l.map fun i => (f i, g i)) = .ok m) : m ≤ s + l.length + 1 := by
  have key : ∀ (l : List ι) (_ : ∀ i ∈ l, f i + g i ≤ s) (x : Nat) (m : Nat), (l.map fun i => (f i, g i)).foldlM
      (fun acc p => do let q ← Ops.cnt.mul p.1 p.2; Ops.cnt.add acc q) x = .ok m → m ≤ Max.max x (s + 1) + l.length := by
    intro l
    induction l with
    | nil => rintro _ x m ⟨⟩; simp
    | cons i l ih =>
      intro h x m hm
      rw [List.map_cons, List.foldlM_cons] at hm
      have := ih (fun j hj => h j (by simp [hj])) _ m hm
      have := h i (by simp)
      simp only [List.length_cons]
      omega
  have := key l h 0 m hm
  omega

theorem cnt_sum {ι : Type} (l : List ι) (f : ι → Nat) (s x : Nat) (h : ∀ i ∈ l, f i ≤ s) {m : Nat}
    (hm : (l.map f).foldlM Ops.cnt.add x = .ok m) : m ≤ Max.max x s + l.length := by
  induction l generalizing x with
  | nil => cases hm; simp
  | cons i l ih =>
    rw [List.map_cons, List.foldlM_cons] at hm
    have := ih _ (fun j hj => h j (by simp [hj])) hm
    have := h i (by simp)
    simp only [List.length_cons]
    omega


/-! ### From the calculus to error bounds -/

section
variable {F : Type} {val : F → ℝ} {u : ℝ} {n r c : Nat}

theorem bound_scalar (hu : 0 ≤ u) {x : Res F} {y : Res Trk} {z : F} {e b : ℝ} {m : Nat} (hz : x = .ok z)
    (hR : Rel True (Tracks val u) x y) (he : .ok e = y.map Trk.exact) (hb : .ok b = y.map Trk.bound)
    (hm : ∀ k, y.map Trk.cnt = .ok k → k ≤ m) : |val z - e| ≤ ((1 + u) ^ m - 1) * b := by
  obtain ⟨k, rfl, hk⟩ := hR.ok_left hz
  cases he; cases hb
  exact tracks_bound hu hk rfl rfl (hm _ rfl)

theorem bound_scalar' (hu : 0 ≤ u) {x : Res F} {y : Res Trk} {z : F} {e b : ℝ} {m : Nat} (hz : x = .ok z)
    (hR : Rel True (Tracks val u) x y) (hy : ∃ k, y = .ok k ∧ k.exact = e ∧ k.bound = b ∧ k.cnt ≤ m) :
    |val z - e| ≤ ((1 + u) ^ m - 1) * b := by
  obtain ⟨k, rfl, hk⟩ := hR.ok_left hz
  obtain ⟨k', h1, h2, h3, h4⟩ := hy
  cases h1
  exact tracks_bound hu hk h2 h3 h4

theorem bound_vec (hu : 0 ≤ u) {x : Res (Vec F n)} {y : Res (Vec Trk n)} {z : Vec F n} {e b : Vec ℝ n} {m : Nat}
    (hz : x = .ok z) (hR : Rel True (VecRel (Tracks val u)) x y) (he : .ok e = y.map (Vec.mapV Trk.exact))
    (hb : .ok b = y.map (Vec.mapV Trk.bound)) (hm : ∀ k, y.map (Vec.mapV Trk.cnt) = .ok k → ∀ i, k.get i ≤ m) (i : Fin n) :
    |val (z.get i) - e.get i| ≤ ((1 + u) ^ m - 1) * b.get i := by
  obtain ⟨k, rfl, hk⟩ := hR.ok_left hz
  cases he; cases hb
  have := hm _ rfl i
  exact tracks_bound hu (hk i) (Vec.get_mapV ..).symm (Vec.get_mapV ..).symm (by rwa [Vec.get_mapV] at this)

theorem bound_mat (hu : 0 ≤ u) {x : Res (Mat F r c)} {y : Res (Mat Trk r c)} {z : Mat F r c} {e b : Mat ℝ r c} {m : Nat}
    (hz : x = .ok z) (hR : Rel True (MatRel (Tracks val u)) x y) (he : .ok e = y.map (Mat.mapV Trk.exact))
    (hb : .ok b = y.map (Mat.mapV Trk.bound)) (hm : ∀ k, y.map (Mat.mapV Trk.cnt) = .ok k → ∀ i j, k.get i j ≤ m)
    (i : Fin r) (j : Fin c) : |val (z.get i j) - e.get i j| ≤ ((1 + u) ^ m - 1) * b.get i j := by
  obtain ⟨k, rfl, hk⟩ := hR.ok_left hz
  cases he; cases hb
  have := hm _ rfl i j
  exact tracks_bound hu (hk i j) (Mat.get_mapV ..).symm (Mat.get_mapV ..).symm (by rwa [Mat.get_mapV] at this)

/-- The operands as exact inputs of the calculus. -/
noncomputable def Vec.input (val : F → ℝ) (v : Vec F n) : Vec Trk n := v.mapV fun f => Trk.input (val f)
/-- The operands as exact inputs of the calculus. -/
noncomputable def Mat.input (val : F → ℝ) (a : Mat F r c) : Mat Trk r c := a.mapV fun f => Trk.input (val f)

theorem vec_input (v : Vec F n) : VecRel (Tracks val u) v (v.input val) := fun i => by
  rw [Vec.input, Vec.get_mapV]; exact tracks_input _
theorem mat_input (a : Mat F r c) : MatRel (Tracks val u) a (a.input val) := fun i j => by
  rw [Mat.input, Mat.get_mapV]; exact tracks_input _

end

/-- What the components say about the calculus. -/
theorem trk_facts {y : Res Trk} {e b : ℝ} {m : Nat} (he : .ok e = y.map Trk.exact) (hb : .ok b = y.map Trk.bound)
    (hm : ∀ k, y.map Trk.cnt = .ok k → k ≤ m) : ∃ k, y = .ok k ∧ k.exact = e ∧ k.bound = b ∧ k.cnt ≤ m := by
  cases y with
  | error x => cases he
  | ok k => cases he; cases hb; exact ⟨k, rfl, rfl, rfl, hm _ rfl⟩

/-- The relation between the calculus and one of its components. -/
theorem vecFn {T U : Type} {φ : T → U} {n : Nat} (v : Vec T n) : VecRel (fun a b => b = φ a) v (v.mapV φ) := vecRel_fn.2 rfl
theorem matFn {T U : Type} {φ : T → U} {r c : Nat} (a : Mat T r c) : MatRel (fun a b => b = φ a) a (a.mapV φ) :=
  matRel_fn.2 rfl

section
open Matrix Equiv

theorem permanent_fin_two {R : Type*} [CommSemiring R] (M : Matrix (Fin 2) (Fin 2) R) :
    M.permanent = M 0 0 * M 1 1 + M 0 1 * M 1 0 := by
  have h : (Finset.univ : Finset (Perm (Fin 2))) = {1, swap 0 1} := by decide
  rw [permanent, h, Finset.sum_insert (by decide), Finset.sum_singleton]
  simp only [Fin.prod_univ_two, Perm.one_apply, swap_apply_left, swap_apply_right]
  ring

theorem permanent_fin_three {R : Type*} [CommSemiring R] (M : Matrix (Fin 3) (Fin 3) R) :
    M.permanent = M 0 0 * M 1 1 * M 2 2 + M 0 1 * M 1 2 * M 2 0 + M 0 2 * M 1 0 * M 2 1 + M 0 2 * M 1 1 * M 2 0 +
      M 0 1 * M 1 0 * M 2 2 + M 0 0 * M 1 2 * M 2 1 := by
  have h : (Finset.univ : Finset (Perm (Fin 3))) =
    {1, swap 0 1, swap 0 2, swap 1 2, swap 0 1 * swap 1 2, swap 1 2 * swap 0 1} := by decide
  have e1 : ∀ i : Fin 3, (swap 0 1 : Perm (Fin 3)) i = ![1, 0, 2] i := by decide
  have e2 : ∀ i : Fin 3, (swap 0 2 : Perm (Fin 3)) i = ![2, 1, 0] i := by decide
  have e3 : ∀ i : Fin 3, (swap 1 2 : Perm (Fin 3)) i = ![0, 2, 1] i := by decide
  rw [permanent, h, Finset.sum_insert (by decide), Finset.sum_insert (by decide), Finset.sum_insert (by decide),
    Finset.sum_insert (by decide), Finset.sum_insert (by decide), Finset.sum_singleton]
  simp only [Fin.prod_univ_three, Perm.one_apply, Perm.mul_apply, e1, e2, e3]
  simp
  ring

end

/-! ### The calculus on vectors and matrices -/

section
variable {F : Type} {val : F → ℝ} {n r c l : Nat} (t : Target)

theorem trk_dot (a b : Vec F n) :
    ∃ k, (a.input val).dot Ops.trk (b.input val) = .ok k ∧ k.exact = ∑ i, val (a.get i) * val (b.get i) ∧
      k.bound = ∑ i, |val (a.get i)| * |val (b.get i)| ∧ k.cnt ≤ n + 1 := by
  classical
  refine trk_facts ?_ ?_ ?_
  · rw [← (rel_dot trk_exact.rel (vecFn _) (vecFn _)).eq_map, C23_dot (Ops.exact_isField ℝ).toIsSemiring]
    simp [Vec.input, Trk.input]
  · rw [← (rel_dot trk_magn.rel (vecFn _) (vecFn _)).eq_map, C23_dot magn_isSemiring]
    simp [Vec.input, Trk.input]
  · intro k hk
    rw [← (rel_dot trk_cnt.rel (vecFn _) (vecFn _)).eq_map, Vec.dot, Vec.zip_eq] at hk
    have := cnt_mulFold _ _ _ 0 (fun i _ => by simp [Vec.input, Trk.input]) hk
    simpa using this

theorem trk_vecSum (v : Vec F n) :
    ∃ k, (v.input val).sum Ops.trk = .ok k ∧ k.exact = ∑ i, val (v.get i) ∧
      k.bound = ∑ i, |val (v.get i)| ∧ k.cnt ≤ n := by
  classical
  refine trk_facts ?_ ?_ ?_
  · rw [← (rel_vecSum trk_exact.rel (vecFn _)).eq_map, C26_vec_sum (Ops.exact_isField ℝ).toIsSemiring]
    simp [Vec.input, Trk.input]
  · rw [← (rel_vecSum trk_magn.rel (vecFn _)).eq_map, C26_vec_sum magn_isSemiring]
    simp [Vec.input, Trk.input]
  · intro k hk
    rw [← (rel_vecSum trk_cnt.rel (vecFn _)).eq_map, Vec.sum, Vec.toList_eq] at hk
    have := cnt_sum _ _ 0 _ (fun i _ => by simp [Vec.input, Trk.input]) hk
    simpa [Ops.cnt] using this

theorem trk_matSum (a : Mat F r c) :
    ∃ k, (a.input val).sum Ops.trk = .ok k ∧ k.exact = ∑ i, ∑ j, val (a.get i j) ∧
      k.bound = ∑ i, ∑ j, |val (a.get i j)| ∧ k.cnt ≤ r + c := by
  classical
  refine trk_facts ?_ ?_ ?_
  · rw [← (rel_matSum trk_exact.rel (matFn _)).eq_map, C26_mat_sum (Ops.exact_isField ℝ).toIsSemiring]
    simp [Mat.input, Trk.input]
  · rw [← (rel_matSum trk_magn.rel (matFn _)).eq_map, C26_mat_sum magn_isSemiring]
    simp [Mat.input, Trk.input]
  · intro k hk
    rw [← (rel_matSum trk_cnt.rel (matFn _)).eq_map, Mat.sum, Vec.toList_eq, List.foldlM_map] at hk
    have row : ∀ (i : Fin r) m, (((a.input val).mapV Trk.cnt).rows.get i).sum Ops.cnt = .ok m → m ≤ c := by
      intro i m hm
      rw [Vec.sum, Vec.toList_eq] at hm
      have := cnt_sum _ _ 0 _ (fun j _ => by
        change ((a.input val).mapV Trk.cnt).get i j ≤ 0
        simp [Mat.input, Trk.input]) hm
      simpa [Ops.cnt] using this
    have key : ∀ (is : List (Fin r)) (x m : Nat), is.foldlM (fun acc i => do
        let s ← (((a.input val).mapV Trk.cnt).rows.get i).sum Ops.cnt
        Ops.cnt.add acc s) x = .ok m → m ≤ Max.max x c + is.length := by
      intro is
      induction is with
      | nil => rintro x m ⟨⟩; simp
      | cons i is ih =>
        intro x m hm
        rw [List.foldlM_cons] at hm
        cases hs : (((a.input val).mapV Trk.cnt).rows.get i).sum Ops.cnt with
        | error e => rw [hs] at hm; cases hm
        | ok s =>
          rw [hs] at hm
          have h1 := row i s hs
          have h2 := ih (Max.max x s + 1) m hm
          simp only [List.length_cons]
          omega
    have := key _ _ _ hk
    simp only [List.length_finRange, Ops.cnt] at this
    omega

theorem trk_detSmall (k : Nat) (hk : k < 3) (a : Mat F (k + 1) (k + 1)) :
    ∃ q, (a.input val).determinant t Ops.trk k = .ok q ∧ q.exact = (Matrix.of fun i j => val (a.get i j)).det ∧
      q.bound = (Matrix.of fun i j => |val (a.get i j)|).permanent ∧ q.cnt ≤ [0, 2, 7].getD k 0 := by
  classical
  refine trk_facts ?_ ?_ ?_
  · rw [← (rel_det_small trk_exact.rel t t k (by omega) (matFn _)).eq_map, C50_small (Ops.exact_isField ℝ).toIsRing t k hk]
    congr 2
    ext i j
    simp [Mat.input, Trk.input]
  · rw [← (rel_det_small trk_magn.rel t t k (by omega) (matFn _)).eq_map]
    have e : ∀ (r c : Nat) (b : Mat F r c) i j, ((b.input val).mapV Trk.bound).get i j = |val (b.get i j)| := fun r c b i j => by
      simp [Mat.input, Trk.input]
    match k, hk with
    | 0, _ =>
      simp only [Mat.determinant, Mat.det1, Mat.idxStatic_ok t _ (show 0 < 1 by omega) (show 0 < 1 by omega), e]
      exact congrArg _ (Matrix.permanent_unique (n := Fin 1) _)
    | 1, _ =>
      simp only [Mat.determinant, Mat.det2, Mat.idxStatic_ok t _ (show 0 < 2 by omega) (show 0 < 2 by omega),
        Mat.idxStatic_ok t _ (show 0 < 2 by omega) (show 1 < 2 by omega),
        Mat.idxStatic_ok t _ (show 1 < 2 by omega) (show 0 < 2 by omega),
        Mat.idxStatic_ok t _ (show 1 < 2 by omega) (show 1 < 2 by omega), res_ok_bind, e, Ops.magn, Except.ok.injEq]
      rw [permanent_fin_two]
      simp only [Matrix.of_apply, Fin.mk_zero, Fin.mk_one]
      ring
    | 2, _ =>
      have h : ∀ i j k : Fin 3, ((a.input val).mapV Trk.bound).det3Term t Ops.magn i j k =
          .ok (|val (a.get 0 i)| * |val (a.get 1 j)| * |val (a.get 2 k)|) := fun i j k => by
        simp only [Mat.det3Term, Mat.idxStatic_ok t _ (show 0 < 3 by omega) i.isLt,
          Mat.idxStatic_ok t _ (show 1 < 3 by omega) j.isLt,
          Mat.idxStatic_ok t _ (show 2 < 3 by omega) k.isLt, res_ok_bind, e, Ops.magn]
        rfl
      have h1 := h 0 1 2
      have h2 := h 1 2 0
      have h3 := h 2 0 1
      have h4 := h 2 1 0
      have h5 := h 1 0 2
      have h6 := h 0 2 1
      simp only [Fin.val_zero, Fin.val_one, Fin.val_two] at h1 h2 h3 h4 h5 h6
      rw [Mat.determinant, Mat.det3, h1, h2, h3, h4, h5, h6, permanent_fin_three]
      rfl
  · intro m hm
    rw [← (rel_det_small trk_cnt.rel t t k (by omega) (matFn _)).eq_map] at hm
    have e : ∀ (r c : Nat) (b : Mat F r c) i j, ((b.input val).mapV Trk.cnt).get i j = 0 := fun r c b i j => by
      simp [Mat.input, Trk.input]
    match k, hk with
    | 0, _ =>
      simp only [Mat.determinant, Mat.det1, Mat.idxStatic_ok t _ (show 0 < 1 by omega) (show 0 < 1 by omega), e] at hm
      cases hm; decide
    | 1, _ =>
      simp only [Mat.determinant, Mat.det2, Mat.idxStatic_ok t _ (show 0 < 2 by omega) (show 0 < 2 by omega),
        Mat.idxStatic_ok t _ (show 0 < 2 by omega) (show 1 < 2 by omega),
        Mat.idxStatic_ok t _ (show 1 < 2 by omega) (show 0 < 2 by omega),
        Mat.idxStatic_ok t _ (show 1 < 2 by omega) (show 1 < 2 by omega), res_ok_bind, e] at hm
      cases hm; decide
    | 2, _ =>
      have h : ∀ i j k : Fin 3, ((a.input val).mapV Trk.cnt).det3Term t Ops.cnt i j k = .ok 2 := fun i j k => by
        simp only [Mat.det3Term, Mat.idxStatic_ok t _ (show 0 < 3 by omega) i.isLt,
          Mat.idxStatic_ok t _ (show 1 < 3 by omega) j.isLt,
          Mat.idxStatic_ok t _ (show 2 < 3 by omega) k.isLt, res_ok_bind, e]
        rfl
      have h1 := h 0 1 2
      have h2 := h 1 2 0
      have h3 := h 2 0 1
      have h4 := h 2 1 0
      have h5 := h 1 0 2
      have h6 := h 0 2 1
      simp only [Fin.val_zero, Fin.val_one, Fin.val_two] at h1 h2 h3 h4 h5 h6
      rw [Mat.determinant, Mat.det3, h1, h2, h3, h4, h5, h6] at hm
      cases hm; decide

theorem trk_cross (a b : Vec F 3) :
    ∃ k, (a.input val).cross t Ops.trk (b.input val) = .ok k ∧ ∀ i,
      (k.get i).exact = crossProduct (fun k => val (a.get k)) (fun k => val (b.get k)) i ∧
      (k.get i).bound = |val (a.get (i + 1))| * |val (b.get (i + 2))| + |val (a.get (i + 2))| * |val (b.get (i + 1))| ∧
      (k.get i).cnt ≤ 2 := by
  classical
  have h0 : (0 : Nat) < 3 := by omega
  have h1 : (1 : Nat) < 3 := by omega
  have h2 : (2 : Nat) < 3 := by omega
  suffices h : (Except.ok (Vec.ofFn (crossProduct (fun k => val (a.get k)) (fun k => val (b.get k)))) : Res _) =
        ((a.input val).cross t Ops.trk (b.input val)).map (Vec.mapV Trk.exact) ∧
      (Except.ok (Vec.ofFn fun i => |val (a.get (i + 1))| * |val (b.get (i + 2))| + |val (a.get (i + 2))| * |val (b.get (i + 1))|) : Res _) =
        ((a.input val).cross t Ops.trk (b.input val)).map (Vec.mapV Trk.bound) ∧
      (∀ k, ((a.input val).cross t Ops.trk (b.input val)).map (Vec.mapV Trk.cnt) = .ok k → ∀ i, k.get i ≤ 2) by
    obtain ⟨he, hb, hm⟩ := h
    cases hy : (a.input val).cross t Ops.trk (b.input val) with
    | error x => rw [hy] at he; cases he
    | ok k =>
      rw [hy] at he hb hm
      refine ⟨k, rfl, fun i => ⟨?_, ?_, ?_⟩⟩
      · have := congrArg (fun v => Vec.get v i) (Except.ok.inj he); simpa using this.symm
      · have := congrArg (fun v => Vec.get v i) (Except.ok.inj hb); simpa using this.symm
      · simpa using hm _ rfl i
  refine ⟨?_, ?_, ?_⟩
  · rw [← (rel_cross trk_exact.rel t t (vecFn _) (vecFn _)).eq_mapV, cross_eq (Ops.exact_isField ℝ).toIsRing]
    simp [cross_apply, Vec.input, Trk.input]
  · rw [← (rel_cross trk_magn.rel t t (vecFn _) (vecFn _)).eq_mapV]
    simp only [Vec.cross, Vec.getUnchecked_ok t _ h0, Vec.getUnchecked_ok t _ h1, Vec.getUnchecked_ok t _ h2,
      res_ok_bind, Ops.magn, res_pure, Except.ok.injEq, Vec.input, Trk.input, Vec.get_mapV]
    apply Vec.ext_get
    intro i
    rw [Vec.get_ofFn]
    fin_cases i <;> rfl
  · intro k hk i
    rw [← (rel_cross trk_cnt.rel t t (vecFn _) (vecFn _)).eq_mapV] at hk
    simp only [Vec.cross, Vec.getUnchecked_ok t _ h0, Vec.getUnchecked_ok t _ h1, Vec.getUnchecked_ok t _ h2,
      res_ok_bind, Ops.cnt, res_pure, Except.ok.injEq, Vec.input, Trk.input, Vec.get_mapV] at hk
    subst hk
    fin_cases i <;> decide
end

/-! ## C83 -/

section
variable {F : Type} {O : Ops F} {val : F → ℝ} {u : ℝ} (H : O.Rounds val u) {n r c l : Nat} (t : Target)
include H

/-- C83, `dot`: the error is at most `(1+u)^(n+1) - 1` times `Σ |a_i| |b_i|`. -/
theorem C83_dot (a b : Vec F n) {z : F} (hz : a.dot O b = .ok z) :
    |val z - ∑ i, val (a.get i) * val (b.get i)| ≤ ((1 + u) ^ (n + 1) - 1) * ∑ i, |val (a.get i)| * |val (b.get i)| := by
  exact bound_scalar' H.nonneg hz (rel_dot H.tracks (vec_input a) (vec_input b)) (trk_dot a b)

/-- C83, `sum` of a vector: at most `(1+u)^n - 1` times `Σ |v_i|`. -/
theorem C83_vec_sum (v : Vec F n) {z : F} (hz : v.sum O = .ok z) :
    |val z - ∑ i, val (v.get i)| ≤ ((1 + u) ^ n - 1) * ∑ i, |val (v.get i)| := by
  exact bound_scalar' H.nonneg hz (rel_vecSum H.tracks (vec_input v)) (trk_vecSum v)

/-- C83, `sum` of a matrix: rows first, so at most `(1+u)^(r+c) - 1` times the sum of the magnitudes. -/
theorem C83_mat_sum (a : Mat F r c) {z : F} (hz : a.sum O = .ok z) :
    |val z - ∑ i, ∑ j, val (a.get i j)| ≤ ((1 + u) ^ (r + c) - 1) * ∑ i, ∑ j, |val (a.get i j)| := by
  exact bound_scalar' H.nonneg hz (rel_matSum H.tracks (mat_input a)) (trk_matSum a)

/-- C83, elementwise operations of vectors: one rounding per element. -/
theorem C83_vec_elementwise (a b w : Vec F n) (s : F) :
    (∀ op ∈ vecForms t O.add, op a b = .ok w →
      ∀ i, |val (w.get i) - (val (a.get i) + val (b.get i))| ≤ u * |val (a.get i) + val (b.get i)|) ∧
    (∀ op ∈ vecForms t O.sub, op a b = .ok w →
      ∀ i, |val (w.get i) - (val (a.get i) - val (b.get i))| ≤ u * |val (a.get i) - val (b.get i)|) ∧
    (a.mulScalar t O.mul s = .ok w → ∀ i, |val (w.get i) - val (a.get i) * val s| ≤ u * |val (a.get i) * val s|) ∧
    (val s ≠ 0 → a.divScalar t O.div s = .ok w →
      ∀ i, |val (w.get i) - val (a.get i) / val s| ≤ u * |val (a.get i) / val s|) ∧
    (a.neg t O.neg = .ok w → ∀ i, val (w.get i) = -val (a.get i)) := by
  refine ⟨fun op hop h i => ?_, fun op hop h i => ?_, fun h i => ?_, fun hs h i => ?_, fun h i => ?_⟩
  · exact H.add ((C18_vec_ok t O.add op hop a b w).1 h i)
  · exact H.sub ((C18_vec_ok t O.sub op hop a b w).1 h i)
  · exact H.mul ((C19_vec_ok t O.mul O.neg a s w).1.1 h i)
  · exact H.div hs ((C19_vec_ok t O.div O.neg a s w).2.1.1 h i)
  · exact H.neg ((C19_vec_ok t O.mul O.neg a s w).2.2.1 h i)

/-- C83, elementwise operations of matrices: one rounding per element. -/
theorem C83_mat_elementwise (a b w : Mat F r c) (s : F) :
    (∀ op ∈ matForms t O.add, op a b = .ok w →
      ∀ i j, |val (w.get i j) - (val (a.get i j) + val (b.get i j))| ≤ u * |val (a.get i j) + val (b.get i j)|) ∧
    (∀ op ∈ matForms t O.sub, op a b = .ok w →
      ∀ i j, |val (w.get i j) - (val (a.get i j) - val (b.get i j))| ≤ u * |val (a.get i j) - val (b.get i j)|) ∧
    (a.mulScalar t O.mul s = .ok w →
      ∀ i j, |val (w.get i j) - val (a.get i j) * val s| ≤ u * |val (a.get i j) * val s|) ∧
    (val s ≠ 0 → a.divScalar t O.div s = .ok w →
      ∀ i j, |val (w.get i j) - val (a.get i j) / val s| ≤ u * |val (a.get i j) / val s|) ∧
    (a.neg t O.neg = .ok w → ∀ i j, val (w.get i j) = -val (a.get i j)) := by
  refine ⟨fun op hop h i j => ?_, fun op hop h i j => ?_, fun h i j => ?_, fun hs h i j => ?_, fun h i j => ?_⟩
  · exact H.add ((C18_mat_ok t O.add op hop a b w).1 h i j)
  · exact H.sub ((C18_mat_ok t O.sub op hop a b w).1 h i j)
  · exact H.mul ((C19_mat_ok t O.mul O.neg a s w w).1.1 h i j)
  · exact H.div hs ((C19_mat_ok t O.div O.neg a s w w).2.1.1 h i j)
  · exact H.neg ((C19_mat_ok t O.mul O.neg a s w w).2.2.1 h i j)

theorem mulFold_bound (f g : Fin n → F) {z : F} (hz : mulFold O ((List.finRange n).map fun k => (f k, g k)) = .ok z) :
    |val z - ∑ i, val (f i) * val (g i)| ≤ ((1 + u) ^ (n + 1) - 1) * ∑ i, |val (f i)| * |val (g i)| := by
  have h := C83_dot H (Vec.ofFn f) (Vec.ofFn g) (z := z) (by rw [Vec.dot, Vec.zip_eq]; simpa using hz)
  simpa using h

/-- C83, matrix products, every form of `*`: each entry is a dot product. -/
theorem C83_mul (op) (hop : op ∈ mulForms (l := l) (n := n) (c := c) t O) (a : Mat F l n) (b : Mat F n c)
    (hl : l < t.W) (hn : n < t.W) (hc : c < t.W) {w : Mat F l c} (hw : op a b = .ok w) (i : Fin l) (j : Fin c) :
    |val (w.get i j) - ∑ k, val (a.get i k) * val (b.get k j)| ≤
      ((1 + u) ^ (n + 1) - 1) * ∑ k, |val (a.get i k)| * |val (b.get k j)| := by
  have h := (C41_mul_entries t O op hop a b hl hn hc w).1 hw i j
  rw [← mulFold_mulSum] at h
  exact mulFold_bound H _ _ h

/-- C83, matrix times vector, both forms: each entry is a dot product. -/
theorem C83_mul_vec (a : Mat F r c) (v : Vec F c) (hr : r < t.W) {w : Vec F r}
    (hw : a.mulVec t O v = .ok w ∨ a.mulVecRef t O v = .ok w) (i : Fin r) :
    |val (w.get i) - ∑ j, val (a.get i j) * val (v.get j)| ≤
      ((1 + u) ^ (c + 1) - 1) * ∑ j, |val (a.get i j)| * |val (v.get j)| := by
  have e : mulFold O ((Vec.ofFn fun j => a.get i j).toList.zip v.toList) =
      mulFold O ((List.finRange c).map fun j => (a.get i j, v.get j)) := by rw [Vec.zip_eq]; simp
  refine mulFold_bound H _ _ (e.symm.trans ?_)
  rcases hw with hw | hw
  · rw [Mat.mulVec, drain_rowsRef t a hr] at hw
    simp only [res_ok_bind, rowsOf, List.map_map] at hw
    have := (Vec.collect_finRange_ok_iff t _ w).1 hw i
    exact this
  · rw [Mat.mulVecRef, rowsOf_eq a] at hw
    simp only [rowsOf, List.map_map] at hw
    exact (Vec.collect_finRange_ok_iff t _ w).1 hw i

/-- C83, `cross`: two roundings per component. -/
theorem C83_cross (a b : Vec F 3) {w : Vec F 3} (hw : a.cross t O b = .ok w) (i : Fin 3) :
    |val (w.get i) - crossProduct (fun k => val (a.get k)) (fun k => val (b.get k)) i| ≤
      ((1 + u) ^ 2 - 1) * (|val (a.get (i + 1))| * |val (b.get (i + 2))| + |val (a.get (i + 2))| * |val (b.get (i + 1))|) := by
  obtain ⟨k, hk, hR⟩ := (rel_cross H.tracks t t (vec_input a) (vec_input b)).ok_left hw
  obtain ⟨k', hk', h⟩ := trk_cross t a b
  cases hk.symm.trans hk'
  exact tracks_bound H.nonneg (hR i) (h i).1 (h i).2.1 (h i).2.2

/-- C83, `determinant` of sizes 1, 2, 3: at most `(1+u)^m - 1` times the permanent of the magnitudes, for `m = 0, 2, 7`. -/
theorem C83_det_small (k : Nat) (hk : k < 3) (a : Mat F (k + 1) (k + 1)) {z : F} (hz : a.determinant t O k = .ok z) :
    |val z - (Matrix.of fun i j => val (a.get i j)).det| ≤
      ((1 + u) ^ ([0, 2, 7].getD k 0) - 1) * (Matrix.of fun i j => |val (a.get i j)|).permanent := by
  exact bound_scalar' H.nonneg hz (rel_det_small H.tracks t t k (by omega) (mat_input a)) (trk_detSmall t k hk a)

/-- C83, `pow`: `k - 1` matrix products, however they are grouped: the error is at most `(1+u)^((k-1)(n+1)) - 1` times
the `k`-th power of the matrix of magnitudes, entry by entry. -/
theorem C83_pow (a : Mat F n n) (k : Nat) (hn : n < t.W) {w : Mat F n n} (hw : a.pow t O k = .ok w) (i j : Fin n) :
    |val (w.get i j) - ((Matrix.of fun i j => val (a.get i j)) ^ k) i j| ≤
      ((1 + u) ^ ((k - 1) * (n + 1)) - 1) * ((Matrix.of fun i j => |val (a.get i j)|) ^ k) i j := by
  classical
  have h := bound_mat (m := (k - 1) * (n + 1)) (e := Mat.ofMatrix ((Matrix.of fun i j => val (a.get i j)) ^ k))
    (b := Mat.ofMatrix ((Matrix.of fun i j => |val (a.get i j)|) ^ k))
    H.nonneg hw (rel_pow H.tracks t t rfl (mat_input a) k hn) ?_ ?_ ?_ i j
  · simpa using h
  · rw [← (rel_pow trk_exact.rel t t rfl (matFn _) k hn).eq_mapM, pow_eq (Ops.exact_isField ℝ).toIsSemiring t _ k hn]
    congr 3
    ext i j
    simp [Mat.input, Trk.input]
  · rw [← (rel_pow trk_magn.rel t t rfl (matFn _) k hn).eq_mapM, pow_eq magn_isSemiring t _ k hn]
    congr 3
    ext i j
    simp [Mat.input, Trk.input]
  · intro m hm
    rw [← (rel_pow trk_cnt.rel t t rfl (matFn _) k hn).eq_mapM, Mat.pow, Mat.clone_ok] at hm
    simp only [res_ok_bind] at hm
    have one : Mat.one t Ops.cnt n = .ok (Mat.ofFn fun _ _ => 0) := by
      rw [Mat.one, Mat.identity, Mat.generate_ok t _ (fun i j => if i = j then Ops.cnt.one else Ops.cnt.zero) (by
        intro i j; simp [Fin.ext_iff])]
      simp [Ops.cnt]
    by_cases hk : k = 0
    · subst hk
      rw [numPow, if_pos rfl, one] at hm
      cases hm; simp
    have hR := rel_numPow (p := True) (Q := fun (M : Mat Nat n n) (e : Nat) => 1 ≤ e ∧ ∀ i j, M.get i j ≤ (e - 1) * (n + 1))
      (f := Mat.mulVV t Ops.cnt) (g := fun x y => .ok (x + y)) (one := Mat.one t Ops.cnt n) (one' := .ok 1)
      (by rw [one]; exact .ok ⟨le_rfl, by simp⟩) (by
        rintro M N e e' ⟨h1, h2⟩ ⟨h3, h4⟩
        refine rel_of_ok fun P hP => ⟨by omega, fun i j => ?_⟩
        have := (C41_mul_entries t Ops.cnt _ (by simp [mulForms]) M N hn hn hn P).1 hP i j
        rw [← mulFold_mulSum] at this
        have := cnt_mulFold _ _ _ ((e - 1) * (n + 1) + (e' - 1) * (n + 1)) (fun x _ => add_le_add (h2 i x) (h4 x j)) this
        rw [List.length_finRange] at this
        obtain ⟨e, rfl⟩ := Nat.exists_eq_add_of_le h1
        obtain ⟨e', rfl⟩ := Nat.exists_eq_add_of_le h3
        refine this.trans (le_of_eq ?_)
        have h5 : 1 + e + (1 + e') - 1 = e + e' + 1 := by omega
        have h6 : 1 + e - 1 = e := by omega
        have h7 : 1 + e' - 1 = e' := by omega
        rw [h5, h6, h7]; ring)
      (base := (a.input val).mapV Trk.cnt) (base' := 1) ⟨le_rfl, fun i j => by simp [Mat.input, Trk.input]⟩ k
    obtain ⟨e, he, _, hQ⟩ := hR.ok_left hm
    obtain ⟨e', he', hq⟩ := numPow_eq (fun x : Nat => Multiplicative.ofAdd x) (fun x y => (.ok (x + y) : Res Nat))
      (fun x y => ⟨_, rfl, rfl⟩) (.ok 0) ⟨0, rfl, rfl⟩ 1 k
    rw [numPow, if_neg hk] at he he'
    rw [he] at he'
    cases he'
    have : e = k := by
      have := congrArg Multiplicative.toAdd hq
      simpa using this
    subst this
    exact hQ

/-- C83: when nothing cancels (all terms have one sign) the relative error itself is small, whatever the data. -/
theorem C83_no_cancellation (a b : Vec F n) (h : ∀ i, 0 ≤ val (a.get i) * val (b.get i)) {z : F} (hz : a.dot O b = .ok z) :
    |val z - ∑ i, val (a.get i) * val (b.get i)| ≤ ((1 + u) ^ (n + 1) - 1) * ∑ i, val (a.get i) * val (b.get i) := by
  have := C83_dot H a b hz
  simp only [← abs_mul] at this
  rwa [Finset.sum_congr rfl fun i _ => abs_of_nonneg (h i)] at this

/-- C83: if the determinant is larger than the error bound, the computed determinant has its sign. -/
theorem C83_det_sign (k : Nat) (hk : k < 3) (a : Mat F (k + 1) (k + 1)) {z : F} (hz : a.determinant t O k = .ok z)
    (h : ((1 + u) ^ ([0, 2, 7].getD k 0) - 1) * (Matrix.of fun i j => |val (a.get i j)|).permanent <
      |(Matrix.of fun i j => val (a.get i j)).det|) :
    0 < val z * (Matrix.of fun i j => val (a.get i j)).det := by
  have h1 := (C83_det_small H t k hk a hz).trans_lt h
  generalize (Matrix.of fun i j => val (a.get i j)).det = d at h1
  rcases lt_or_ge d 0 with hd | hd
  · rw [abs_of_neg hd, abs_lt] at h1; nlinarith [h1.1, h1.2]
  · rw [abs_of_nonneg hd, abs_lt] at h1
    have : 0 < d := by linarith
    nlinarith [h1.1, h1.2]

section norm
variable {sqrt : F → F} {powi : F → Int → F}

theorem norm_fold (hu : u ≤ 1) (l : List F) (hp : ∀ x, |val (powi x 2) - val x ^ 2| ≤ u * val x ^ 2) {x z : F} {A : ℝ}
    {m : Nat} (hm : 1 ≤ m) (hA : 0 ≤ A) (h1 : (1 - u) ^ m * A ≤ val x) (h2 : val x ≤ (1 + u) ^ m * A)
    (hz : (l.map fun x => powi x 2).foldlM O.add x = .ok z) :
    (1 - u) ^ (m + l.length) * (A + (l.map fun x => val x ^ 2).sum) ≤ val z ∧
    val z ≤ (1 + u) ^ (m + l.length) * (A + (l.map fun x => val x ^ 2).sum) := by
  induction l generalizing x A m with
  | nil => cases hz; simpa using ⟨h1, h2⟩
  | cons y l ih =>
    rw [List.map_cons, List.foldlM_cons] at hz
    cases hs : O.add x (powi y 2) with
    | error e => rw [hs] at hz; cases hz
    | ok s =>
      rw [hs] at hz
      have hu0 := H.nonneg
      have h3 := H.add hs
      have h4 := abs_le.1 (hp y)
      have hy := sq_nonneg (val y)
      have hx0 : 0 ≤ val x := le_trans (mul_nonneg (pow_nonneg (by linarith) _) hA) h1
      have hy0 : 0 ≤ val (powi y 2) := by nlinarith
      rw [abs_of_nonneg (add_nonneg hx0 hy0)] at h3
      have h3 := abs_le.1 h3
      have e1 : (1 - u) ^ m ≤ 1 - u := pow_le_of_le_one (by linarith) (by linarith) (by omega)
      have e2 : 1 + u ≤ (1 + u) ^ m := le_self_pow₀ (by linarith) (by omega)
      have h5 : (1 - u) ^ m * val y ^ 2 ≤ val (powi y 2) := by nlinarith
      have h6 : val (powi y 2) ≤ (1 + u) ^ m * val y ^ 2 := by nlinarith
      have h7 : (1 - u) * ((1 - u) ^ m * (A + val y ^ 2)) ≤ (1 - u) * (val x + val (powi y 2)) :=
        mul_le_mul_of_nonneg_left (by linarith) (by linarith)
      have h8 : (1 + u) * (val x + val (powi y 2)) ≤ (1 + u) * ((1 + u) ^ m * (A + val y ^ 2)) :=
        mul_le_mul_of_nonneg_left (by linarith) (by linarith)
      have := ih (m := m + 1) (A := A + val y ^ 2) (by omega) (by linarith) (by rw [pow_succ']; linarith)
        (by rw [pow_succ']; linarith) hz
      simpa [add_assoc, add_comm 1] using this

/-- C83, `norm`: a small relative error for every vector (`powi(x, 2)` and `sqrt` round once each). -/
theorem C83_norm (hu : u ≤ 1) (hp : ∀ x, |val (powi x 2) - val x ^ 2| ≤ u * val x ^ 2)
    (hs : ∀ x, 0 ≤ val x → |val (sqrt x) - Real.sqrt (val x)| ≤ u * Real.sqrt (val x)) (v : Vec F n) {z : F}
    (hz : v.norm O sqrt powi = .ok z) :
    (1 - u) * Real.sqrt ((1 - u) ^ (n + 1)) * Real.sqrt (∑ i, val (v.get i) ^ 2) ≤ val z ∧
    val z ≤ (1 + u) * Real.sqrt ((1 + u) ^ (n + 1)) * Real.sqrt (∑ i, val (v.get i) ^ 2) := by
  have hu0 := H.nonneg
  rw [Vec.norm] at hz
  cases hq : (v.toList.map fun x => powi x 2).foldlM O.add O.zero with
  | error e => rw [hq] at hz; cases hz
  | ok q =>
    rw [hq] at hz
    cases hz
    have h := norm_fold H hu v.toList hp (A := 0) (m := 1) le_rfl le_rfl (by simp [H.zero]) (by simp [H.zero]) hq
    have e : (v.toList.map fun x => val x ^ 2).sum = ∑ i, val (v.get i) ^ 2 := by
      rw [Vec.toList_eq, List.map_map, ← Fin.sum_univ_def]; rfl
    rw [e, zero_add, v.length_eq, add_comm 1] at h
    have hS : 0 ≤ ∑ i, val (v.get i) ^ 2 := Finset.sum_nonneg fun i _ => sq_nonneg _
    have hq0 : 0 ≤ val q := le_trans (mul_nonneg (pow_nonneg (by linarith) _) hS) h.1
    have h1 := abs_le.1 (hs q hq0)
    have h2 := Real.sqrt_le_sqrt h.1
    have h3 := Real.sqrt_le_sqrt h.2
    rw [Real.sqrt_mul (pow_nonneg (by linarith) _)] at h2 h3
    constructor
    · nlinarith
    · nlinarith

/-- C83, `normalized`: for a vector that is not zero every component has a small relative error. -/
theorem C83_normalized (hu : u < 1) (hp : ∀ x, |val (powi x 2) - val x ^ 2| ≤ u * val x ^ 2)
    (hs : ∀ x, 0 ≤ val x → |val (sqrt x) - Real.sqrt (val x)| ≤ u * Real.sqrt (val x)) (v : Vec F n) (hv : ∃ i, val (v.get i) ≠ 0)
    {w : Vec F n} (hw : v.normalized t O sqrt powi = .ok w) (i : Fin n) :
    ∃ θ, (1 - u) / ((1 + u) * Real.sqrt ((1 + u) ^ (n + 1))) ≤ θ ∧ θ ≤ (1 + u) / ((1 - u) * Real.sqrt ((1 - u) ^ (n + 1))) ∧
      val (w.get i) = θ * (val (v.get i) / Real.sqrt (∑ j, val (v.get j) ^ 2)) := by
  have hu0 := H.nonneg
  rw [Vec.normalized, Vec.clone_ok] at hw
  cases hd : v.norm O sqrt powi with
  | error e => rw [hd] at hw; cases hw
  | ok d =>
    rw [hd] at hw
    simp only [res_ok_bind] at hw
    have hn := C83_norm H hu.le hp hs v hd
    have hS : 0 < Real.sqrt (∑ j, val (v.get j) ^ 2) := by
      obtain ⟨j, hj⟩ := hv
      refine Real.sqrt_pos.2 (Finset.sum_pos' (fun j _ => sq_nonneg _) ⟨j, Finset.mem_univ _, by positivity⟩)
    generalize Real.sqrt (∑ j, val (v.get j) ^ 2) = S at hn hS
    have p1 : 0 < (1 - u) * Real.sqrt ((1 - u) ^ (n + 1)) := mul_pos (by linarith) (Real.sqrt_pos.2 (pow_pos (by linarith) _))
    have p2 : 0 < (1 + u) * Real.sqrt ((1 + u) ^ (n + 1)) := mul_pos (by linarith) (Real.sqrt_pos.2 (pow_pos (by linarith) _))
    generalize (1 - u) * Real.sqrt ((1 - u) ^ (n + 1)) = lo at hn p1
    generalize (1 + u) * Real.sqrt ((1 + u) ^ (n + 1)) = hi at hn p2
    have hd0 : 0 < val d := lt_of_lt_of_le (mul_pos p1 hS) hn.1
    have h := H.div hd0.ne' ((C19_vec_ok t O.div O.neg v d w).2.1.1 hw i)
    by_cases hx : val (v.get i) = 0
    · rw [hx] at h ⊢
      refine ⟨(1 - u) / hi, le_rfl, ?_, by simpa using h⟩
      have l1 : lo ≤ hi := by nlinarith
      exact (div_le_div_of_nonneg_right (by linarith) p2.le).trans (div_le_div_of_nonneg_left (by linarith) p1 l1)
    · have hr : |val (w.get i) / (val (v.get i) / val d) - 1| ≤ u := by
        have hne : val (v.get i) / val d ≠ 0 := div_ne_zero hx hd0.ne'
        have e : val (w.get i) / (val (v.get i) / val d) - 1 = (val (w.get i) - val (v.get i) / val d) / (val (v.get i) / val d) := by
          rw [sub_div, div_self hne]
        rw [e, abs_div, div_le_iff₀ (abs_pos.2 hne)]
        exact h
      have hr := abs_le.1 hr
      generalize hq : val (w.get i) / (val (v.get i) / val d) = q at hr
      have hw' : val (w.get i) = q * (val (v.get i) / val d) := by
        rw [← hq]; field_simp
      refine ⟨q * (S / val d), ?_, ?_, ?_⟩
      · have : 1 / hi ≤ S / val d := by
          rw [div_le_div_iff₀ p2 hd0]; linarith [hn.2]
        calc (1 - u) / hi = (1 - u) * (1 / hi) := by ring
          _ ≤ q * (S / val d) := mul_le_mul (by linarith) this (by positivity) (by linarith)
      · have : S / val d ≤ 1 / lo := by
          rw [div_le_div_iff₀ hd0 p1]; linarith [hn.1]
        calc q * (S / val d) ≤ (1 + u) * (1 / lo) := mul_le_mul (by linarith) this (by positivity) (by linarith)
          _ = (1 + u) / lo := by ring
      · rw [hw']; field_simp

/-- C83, `normalized`: the length of the result is close to 1. -/
theorem C83_unit (hu : u < 1) (hp : ∀ x, |val (powi x 2) - val x ^ 2| ≤ u * val x ^ 2)
    (hs : ∀ x, 0 ≤ val x → |val (sqrt x) - Real.sqrt (val x)| ≤ u * Real.sqrt (val x)) (v : Vec F n) (hv : ∃ i, val (v.get i) ≠ 0)
    {w : Vec F n} (hw : v.normalized t O sqrt powi = .ok w) :
    (1 - u) / ((1 + u) * Real.sqrt ((1 + u) ^ (n + 1))) ≤ Real.sqrt (∑ i, val (w.get i) ^ 2) ∧
    Real.sqrt (∑ i, val (w.get i) ^ 2) ≤ (1 + u) / ((1 - u) * Real.sqrt ((1 - u) ^ (n + 1))) := by
  have hu0 := H.nonneg
  have hθ := C83_normalized H t hu hp hs v hv hw
  have p1 : 0 < (1 - u) * Real.sqrt ((1 - u) ^ (n + 1)) := mul_pos (by linarith) (Real.sqrt_pos.2 (pow_pos (by linarith) _))
  have p2 : 0 < (1 + u) * Real.sqrt ((1 + u) ^ (n + 1)) := mul_pos (by linarith) (Real.sqrt_pos.2 (pow_pos (by linarith) _))
  have lo0 : 0 ≤ (1 - u) / ((1 + u) * Real.sqrt ((1 + u) ^ (n + 1))) := div_nonneg (by linarith) p2.le
  have hi0 : 0 ≤ (1 + u) / ((1 - u) * Real.sqrt ((1 - u) ^ (n + 1))) := div_nonneg (by linarith) p1.le
  generalize (1 - u) / ((1 + u) * Real.sqrt ((1 + u) ^ (n + 1))) = lo at *
  generalize (1 + u) / ((1 - u) * Real.sqrt ((1 - u) ^ (n + 1))) = hi at *
  have hS : 0 < ∑ j, val (v.get j) ^ 2 := by
    obtain ⟨j, hj⟩ := hv
    exact Finset.sum_pos' (fun j _ => sq_nonneg _) ⟨j, Finset.mem_univ _, by positivity⟩
  have e1 : ∀ k : ℝ, ∑ i, k ^ 2 * (val (v.get i) ^ 2 / ∑ j, val (v.get j) ^ 2) = k ^ 2 := fun k => by
    rw [← Finset.mul_sum]
    simp only [div_eq_mul_inv]
    rw [← Finset.sum_mul, mul_inv_cancel₀ hS.ne', mul_one]
  have e2 : ∀ θ x : ℝ, (θ * (x / Real.sqrt (∑ j, val (v.get j) ^ 2))) ^ 2 = θ ^ 2 * (x ^ 2 / ∑ j, val (v.get j) ^ 2) := fun θ x => by
    rw [mul_pow, div_pow, Real.sq_sqrt hS.le]
  constructor
  · apply Real.le_sqrt_of_sq_le
    rw [← e1 lo]
    refine Finset.sum_le_sum fun i _ => ?_
    obtain ⟨θ, h1, h2, h3⟩ := hθ i
    rw [h3, e2]
    exact mul_le_mul_of_nonneg_right (pow_le_pow_left₀ lo0 h1 2) (div_nonneg (sq_nonneg _) hS.le)
  · rw [Real.sqrt_le_left hi0, ← e1 hi]
    refine Finset.sum_le_sum fun i _ => ?_
    obtain ⟨θ, h1, h2, h3⟩ := hθ i
    rw [h3, e2]
    exact mul_le_mul_of_nonneg_right (pow_le_pow_left₀ (lo0.trans h1) h2 2) (div_nonneg (sq_nonneg _) hS.le)

end norm
end

/-- C83: the usual form of the bounds: `(1+u)^k - 1 ≤ ku / (1 - ku)`. -/
theorem C83_gamma {u : ℝ} (hu : 0 ≤ u) (k : Nat) (hk : k * u < 1) : (1 + u) ^ k - 1 ≤ k * u / (1 - k * u) := by
  have h1 : 0 < 1 - k * u := by linarith
  rw [le_div_iff₀ h1]
  by_cases h0 : k = 0
  · subst h0; simp
  have hu1 : u ≤ 1 := by
    have : (1 : ℝ) ≤ k := by exact_mod_cast Nat.one_le_iff_ne_zero.2 h0
    nlinarith
  have h2 : 1 - k * u ≤ (1 - u) ^ k := by
    have := one_add_mul_le_pow (a := -u) (by linarith) k
    rw [← sub_eq_add_neg] at this; linarith
  have h3 : (1 + u) ^ k * (1 - u) ^ k ≤ 1 := by
    rw [← mul_pow]
    exact pow_le_one₀ (by nlinarith) (by nlinarith)
  have h4 : (1 + u) ^ k * (1 - k * u) ≤ 1 := (mul_le_mul_of_nonneg_left h2 (by positivity)).trans h3
  linarith

/-- C83: the element types this covers: exact real operations followed by any rounding with relative error `u`, in
particular rounding to the nearest number with `p` binary digits (`p = 53` for `f64`, `p = 24` for `f32`), `u = 2^-p`. -/
theorem C83_types :
    (∀ (rnd : ℝ → ℝ) (u : ℝ), 0 ≤ u → (∀ x, |rnd x - x| ≤ u * |x|) → (Ops.rounded rnd).Rounds id u) ∧
    (∀ p : Nat, (Ops.rounded (roundBin p)).Rounds id ((1 / 2) ^ p)) :=
  ⟨fun _ _ hu h => Ops.rounded_rounds hu h, fun p => Ops.rounded_rounds (by positivity) (roundBin_error p)⟩

/-- These types do round: with 24 digits the dot product of `(2^24, 1)` and `(1, 1)` is `2^24 + 2`, so the bound of
`C83_dot` is about a real error. -/
example : (⟨[2 ^ 24, 1], rfl⟩ : Vec ℝ 2).dot (Ops.rounded (roundBin 24)) ⟨[1, 1], rfl⟩ = .ok (2 ^ 24 + 2) := by
  have e : ∀ z : ℤ, |z| ≤ 2 ^ 24 → roundBin 24 (z : ℝ) = z := roundBin_int 24 (by norm_num)
  have h1 : roundBin 24 1 = 1 := by have := e 1 (by norm_num); exact_mod_cast this
  have h2 : roundBin 24 (2 ^ 24) = 2 ^ 24 := by have := e (2 ^ 24) (by norm_num); exact_mod_cast this
  simp [Vec.dot, mulFold, Ops.rounded, h1, h2, roundBin_tie]

end Rowcol
