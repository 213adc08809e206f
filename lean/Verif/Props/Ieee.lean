import Verif.Lemmas.Ieee
import Verif.Props.FloatInv
import Verif.Props.ExactInts

/-! # C87: vectors and matrices of `f32` and `f64` -/

namespace Rowcol

/-! ### The calculus with underflow -/

/-- What is known about a computed number (`Trk`), and a bound `high` on the magnitudes in which every product counts
half of the smallest positive number more. -/
structure FTrk extends Trk where
  high : ℝ

/-- The magnitudes with `η` added for every product. -/
noncomputable def Ops.high (η : ℝ) : Ops ℝ where
  zero := 0
  one := 1
  add a b := .ok (a + b)
  sub a b := .ok (a + b)
  mul a b := .ok (a * b + η)
  div _ _ := .error .panic
  neg a := .ok a
  isZero _ := false

noncomputable def Ops.ftrk (η : ℝ) : Ops FTrk where
  zero := ⟨⟨0, 0, 0⟩, 0⟩
  one := ⟨⟨1, 1, 0⟩, 1⟩
  add a b := .ok ⟨⟨a.exact + b.exact, a.bound + b.bound, Max.max a.cnt b.cnt + 1⟩, a.high + b.high⟩
  sub a b := .ok ⟨⟨a.exact - b.exact, a.bound + b.bound, Max.max a.cnt b.cnt + 1⟩, a.high + b.high⟩
  mul a b := .ok ⟨⟨a.exact * b.exact, a.bound * b.bound, a.cnt + b.cnt + 1⟩, a.high * b.high + η⟩
  div _ _ := .error .panic
  neg a := .ok ⟨⟨-a.exact, a.bound, a.cnt⟩, a.high⟩
  isZero _ := false

theorem ftrk_trk (η : ℝ) : (Ops.ftrk η).Preserves Ops.trk FTrk.toTrk :=
  ⟨rfl, rfl, fun _ _ => rfl, fun _ _ => rfl, fun _ _ => rfl, fun _ => rfl⟩

theorem ftrk_high (η : ℝ) : (Ops.ftrk η).Preserves (Ops.high η) FTrk.high :=
  ⟨rfl, rfl, fun _ _ => rfl, fun _ _ => rfl, fun _ _ => rfl, fun _ => rfl⟩

/-- The computed number, if it is finite, agrees with what is known about it. -/
def FTracks (f : FloatFormat) (x : Fl f) (k : FTrk) : Prop :=
  |k.exact| ≤ k.bound ∧ (x.IsFinite → |x.val - k.exact| ≤ (1 + f.u) ^ k.cnt * k.high - k.bound)

section
variable {u η : ℝ}

theorem ferr_add (hu : 0 ≤ u) {x y x' y' z b c P Q : ℝ} {p q : Nat} (hx : |x| ≤ b) (hy : |y| ≤ c)
    (ex : |x' - x| ≤ (1 + u) ^ p * P - b) (ey : |y' - y| ≤ (1 + u) ^ q * Q - c)
    (hz : |z - (x' + y')| ≤ u * |x' + y'|) :
    |z - (x + y)| ≤ (1 + u) ^ (Max.max p q + 1) * (P + Q) - (b + c) := by
  have hb : 0 ≤ b := (abs_nonneg x).trans hx
  have hc : 0 ≤ c := (abs_nonneg y).trans hy
  have hP : 0 ≤ P := by
    have h1 := one_le_g hu p
    have h2 := (abs_nonneg _).trans ex
    by_contra h; nlinarith
  have hQ : 0 ≤ Q := by
    have h1 := one_le_g hu q
    have h2 := (abs_nonneg _).trans ey
    by_contra h; nlinarith
  have h1 : |x'| ≤ (1 + u) ^ p * P := by
    have := abs_add_le (x' - x) x; rw [sub_add_cancel] at this; linarith
  have h2 : |y'| ≤ (1 + u) ^ q * Q := by
    have := abs_add_le (y' - y) y; rw [sub_add_cancel] at this; linarith
  have h3 : |z - (x + y)| ≤ |z - (x' + y')| + |x' - x| + |y' - y| := by
    have e : z - (x + y) = (z - (x' + y')) + (x' - x) + (y' - y) := by ring
    rw [e]; exact (abs_add_le _ _).trans (add_le_add (abs_add_le _ _) le_rfl)
  have h4 : |x' + y'| ≤ (1 + u) ^ p * P + (1 + u) ^ q * Q := (abs_add_le _ _).trans (add_le_add h1 h2)
  have h5 : u * |x' + y'| ≤ u * ((1 + u) ^ p * P + (1 + u) ^ q * Q) := mul_le_mul_of_nonneg_left h4 hu
  have h6 : (1 + u) ^ p * P ≤ (1 + u) ^ Max.max p q * P := mul_le_mul_of_nonneg_right (g_mono hu (le_max_left _ _)) hP
  have h7 : (1 + u) ^ q * Q ≤ (1 + u) ^ Max.max p q * Q := mul_le_mul_of_nonneg_right (g_mono hu (le_max_right _ _)) hQ
  rw [pow_succ]
  nlinarith

theorem ferr_mul (hu : 0 ≤ u) (hη : 0 ≤ η) {x y x' y' z b c P Q : ℝ} {p q : Nat} (hx : |x| ≤ b) (hy : |y| ≤ c)
    (ex : |x' - x| ≤ (1 + u) ^ p * P - b) (ey : |y' - y| ≤ (1 + u) ^ q * Q - c)
    (hz : |z - x' * y'| ≤ u * |x' * y'| + η) :
    |z - x * y| ≤ (1 + u) ^ (p + q + 1) * (P * Q + η) - b * c := by
  have hb : 0 ≤ b := (abs_nonneg x).trans hx
  have hc : 0 ≤ c := (abs_nonneg y).trans hy
  have e1 := (abs_nonneg _).trans ex
  have e2 := (abs_nonneg _).trans ey
  have h1 : |x'| ≤ (1 + u) ^ p * P := by
    have := abs_add_le (x' - x) x; rw [sub_add_cancel] at this; linarith
  have h2 : |y'| ≤ (1 + u) ^ q * Q := by
    have := abs_add_le (y' - y) y; rw [sub_add_cancel] at this; linarith
  have h3 : |x' * y'| ≤ (1 + u) ^ p * P * ((1 + u) ^ q * Q) := by
    rw [abs_mul]; exact mul_le_mul h1 h2 (abs_nonneg _) ((abs_nonneg _).trans h1)
  have h4 : |x' * y' - x * y| ≤ ((1 + u) ^ p * P - b) * ((1 + u) ^ q * Q - c) + b * ((1 + u) ^ q * Q - c) +
      ((1 + u) ^ p * P - b) * c := by
    have e : x' * y' - x * y = (x' - x) * (y' - y) + x * (y' - y) + (x' - x) * y := by ring
    rw [e]
    refine (abs_add_le _ _).trans (add_le_add ((abs_add_le _ _).trans (add_le_add ?_ ?_)) ?_)
    · rw [abs_mul]; exact mul_le_mul ex ey (abs_nonneg _) e1
    · rw [abs_mul]; exact mul_le_mul hx ey (abs_nonneg _) hb
    · rw [abs_mul]; exact mul_le_mul ex hy (abs_nonneg _) e1
  have h5 : |z - x * y| ≤ |z - x' * y'| + |x' * y' - x * y| := by
    have e : z - x * y = (z - x' * y') + (x' * y' - x * y) := by ring
    rw [e]; exact abs_add_le _ _
  have h6 : u * |x' * y'| ≤ u * ((1 + u) ^ p * P * ((1 + u) ^ q * Q)) := mul_le_mul_of_nonneg_left h3 hu
  have h7 : η ≤ (1 + u) ^ (p + q + 1) * η := le_mul_of_one_le_left hη (one_le_g hu _)
  have e : (1 + u) ^ (p + q + 1) * (P * Q + η) - b * c = u * ((1 + u) ^ p * P * ((1 + u) ^ q * Q)) +
      (((1 + u) ^ p * P - b) * ((1 + u) ^ q * Q - c) + b * ((1 + u) ^ q * Q - c) + ((1 + u) ^ p * P - b) * c) +
      (1 + u) ^ (p + q + 1) * η := by
    rw [pow_succ, pow_add]; ring
  rw [e]; linarith

end

theorem rel_of_ok' {α β : Type} {R : α → β → Prop} {x : Res α} {y : Res β}
    (h : ∀ a, x = .ok a → ∃ b, y = .ok b ∧ R a b) : Rel True R x y := by
  cases x with
  | ok a => obtain ⟨b, rfl, hb⟩ := h a rfl; exact .ok hb
  | error e => exact .inr ⟨e, rfl, .inl trivial⟩

section
variable {f : FloatFormat}

/-- Every operation of the floating point type agrees with the calculus. -/
theorem ieee_tracks (f : FloatFormat) : Ops.RelHom False (Ops.ieee f) (Ops.ftrk f.eta) (FTracks f) where
  zero := ⟨by simp [Ops.ftrk], fun _ => by simp [Ops.ftrk, Ops.ieee, Fl.ofInt, Fl.val]⟩
  one := ⟨by simp [Ops.ftrk], fun _ => by simp [Ops.ftrk, Ops.ieee, Fl.ofInt, Fl.val]⟩
  add {a b a' b'} ha hb := .ok ⟨(abs_add_le _ _).trans (add_le_add ha.1 hb.1), fun hf => by
    obtain ⟨h1, h2, h3⟩ := Fl.finite_add hf
    rw [h3]
    exact ferr_add f.u_pos.le ha.1 hb.1 (ha.2 h1) (hb.2 h2) (FloatFormat.rnd_add a.rep_val b.rep_val)⟩
  sub {a b a' b'} ha hb := .ok ⟨(abs_sub _ _).trans (add_le_add ha.1 hb.1), fun hf => by
    obtain ⟨h1, h2, h3⟩ := Fl.finite_add hf
    rw [h3]
    have h := ferr_add f.u_pos.le (x := a'.exact) (y := -b'.exact) (c := b'.bound) ha.1 (by rw [abs_neg]; exact hb.1) (ha.2 h1)
      (y' := b.neg.val) (by rw [Fl.val_neg, ← abs_neg]; convert hb.2 (Fl.finite_neg.1 h2) using 2; ring)
      (FloatFormat.rnd_add a.rep_val b.neg.rep_val)
    rw [← sub_eq_add_neg] at h; exact h⟩
  mul {a b a' b'} ha hb := .ok ⟨by
      rw [show |(_ : FTrk).exact| = |a'.exact * b'.exact| from rfl, abs_mul]
      exact mul_le_mul ha.1 hb.1 (abs_nonneg _) ((abs_nonneg _).trans ha.1), fun hf => by
    obtain ⟨h1, h2, h3⟩ := Fl.finite_mul hf
    rw [h3]
    exact ferr_mul f.u_pos.le f.eta_pos.le ha.1 hb.1 (ha.2 h1) (hb.2 h2) (f.rnd_error _)⟩
  neg {a a'} ha := .ok ⟨by simpa [abs_neg] using ha.1, fun hf => by
    have := ha.2 (Fl.finite_neg.1 hf)
    rw [Fl.val_neg, ← abs_neg]
    convert this using 2
    ring⟩

/-- The inputs are taken to be exact. -/
noncomputable def FTrk.input (x : ℝ) : FTrk := ⟨Trk.input x, |x|⟩

theorem ftracks_input (x : Fl f) : FTracks f x (FTrk.input x.val) := by simp [FTracks, FTrk.input, Trk.input]

/-- The operands as exact inputs of the calculus. -/
noncomputable def Vec.finput {n : Nat} (v : Vec (Fl f) n) : Vec FTrk n := v.mapV fun x => FTrk.input x.val
/-- The operands as exact inputs of the calculus. -/
noncomputable def Mat.finput {r c : Nat} (a : Mat (Fl f) r c) : Mat FTrk r c := a.mapV fun x => FTrk.input x.val

theorem vec_finput {n : Nat} (v : Vec (Fl f) n) : VecRel (FTracks f) v v.finput := fun i => by
  rw [Vec.finput, Vec.get_mapV]; exact ftracks_input _
theorem mat_finput {r c : Nat} (a : Mat (Fl f) r c) : MatRel (FTracks f) a a.finput := fun i j => by
  rw [Mat.finput, Mat.get_mapV]; exact ftracks_input _

theorem vec_finput_trk {n : Nat} (v : Vec (Fl f) n) : VecRel (fun a b => b = a.toTrk) v.finput (v.input Fl.val) := fun i => by
  simp [Vec.finput, Vec.input, FTrk.input]
theorem mat_finput_trk {r c : Nat} (a : Mat (Fl f) r c) : MatRel (fun a b => b = a.toTrk) a.finput (a.input Fl.val) :=
  fun i j => by simp [Mat.finput, Mat.input, FTrk.input]

/-- The magnitudes of the elements. -/
noncomputable def Vec.mags {n : Nat} (v : Vec (Fl f) n) : Vec ℝ n := v.mapV fun x => |x.val|
/-- The magnitudes of the elements. -/
noncomputable def Mat.mags {r c : Nat} (a : Mat (Fl f) r c) : Mat ℝ r c := a.mapV fun x => |x.val|

theorem vec_finput_high {n : Nat} (v : Vec (Fl f) n) : VecRel (fun a b => b = a.high) v.finput v.mags := fun i => by
  simp [Vec.finput, Vec.mags, FTrk.input]
theorem mat_finput_high {r c : Nat} (a : Mat (Fl f) r c) : MatRel (fun a b => b = a.high) a.finput a.mags :=
  fun i j => by simp [Mat.finput, Mat.mags, FTrk.input]

theorem ftracks_bound {x : Fl f} {k : FTrk} (h : FTracks f x k) {e b g : ℝ} {m : Nat} (he : k.exact = e) (hb : k.bound = b)
    (hm : k.cnt ≤ m) (hg : k.high = g) (hf : x.IsFinite) : |x.val - e| ≤ (1 + f.u) ^ m * g - b := by
  subst he hb hg
  have h1 := h.2 hf
  have h2 := one_le_g f.u_pos.le k.cnt
  have h3 : 0 ≤ k.high := by
    have h4 := (abs_nonneg _).trans h1
    have h5 := (abs_nonneg _).trans h.1
    by_contra h6; nlinarith
  have := mul_le_mul_of_nonneg_right (g_mono f.u_pos.le hm) h3
  linarith

theorem fbound {x : Res (Fl f)} {y : Res FTrk} {y1 : Res Trk} {y2 : Res ℝ} {e b g : ℝ} {m : Nat}
    (hR : Rel False (FTracks f) x y) (h1 : Rel False (fun a b => b = a.toTrk) y y1)
    (h2 : Rel False (fun a b => b = a.high) y y2) (hy1 : ∃ k, y1 = .ok k ∧ k.exact = e ∧ k.bound = b ∧ k.cnt ≤ m)
    (hy2 : y2 = .ok g) : ∃ z, x = .ok z ∧ (z.IsFinite → |z.val - e| ≤ (1 + f.u) ^ m * g - b) := by
  obtain ⟨k1, rfl, e1, e2, e3⟩ := hy1
  have h1 := h1.eq_map
  have h2 := h2.eq_map
  rw [hy2] at h2
  rcases hR with ⟨z, k, rfl, rfl, hk⟩ | ⟨e, rfl, h⟩
  · cases h1; cases h2
    exact ⟨z, rfl, ftracks_bound hk e1 e2 e3 rfl⟩
  · rcases h with h | h
    · exact h.elim
    · subst h; cases h1

/-! ### The calculus on vectors and matrices -/

theorem high_mulFold {ι : Type} (η : ℝ) (l : List ι) (p q : ι → ℝ) :
    mulFold (Ops.high η) (l.map fun i => (p i, q i)) = .ok ((l.map fun i => p i * q i + η).sum) := by
  have key : ∀ (l : List ι) (x : ℝ), (l.map fun i => (p i, q i)).foldlM
      (fun acc p => do let q ← (Ops.high η).mul p.1 p.2; (Ops.high η).add acc q) x =
      .ok (x + (l.map fun i => p i * q i + η).sum) := by
    intro l
    induction l with
    | nil => intro x; simp
    | cons i l ih =>
      intro x
      rw [List.map_cons, List.foldlM_cons]
      exact (ih _).trans (by simp [add_assoc])
  exact (key l 0).trans (by rw [zero_add])

theorem high_dot {n : Nat} (η : ℝ) (a b : Vec ℝ n) :
    a.dot (Ops.high η) b = .ok (∑ i, a.get i * b.get i + n * η) := by
  rw [Vec.dot, Vec.zip_eq, high_mulFold, ← Fin.sum_univ_def, Finset.sum_add_distrib]
  simp

theorem high_det3Term (t : Target) (η : ℝ) (a : Mat ℝ 3 3) (i j k : Fin 3) :
    a.det3Term t (Ops.high η) i j k = .ok ((a.get 0 i * a.get 1 j + η) * a.get 2 k + η) := by
  simp only [Mat.det3Term, Mat.idxStatic_ok t _ (show 0 < 3 by omega) i.isLt,
    Mat.idxStatic_ok t _ (show 1 < 3 by omega) j.isLt, Mat.idxStatic_ok t _ (show 2 < 3 by omega) k.isLt, res_ok_bind, Ops.high]
  rfl

theorem high_det3 (t : Target) (η : ℝ) (a : Mat ℝ 3 3) : a.det3 t (Ops.high η) =
    .ok ((Matrix.of a.get).permanent + (2 * ∑ j, a.get 2 j + 6) * η) := by
  have h1 := high_det3Term t η a 0 1 2
  have h2 := high_det3Term t η a 1 2 0
  have h3 := high_det3Term t η a 2 0 1
  have h4 := high_det3Term t η a 2 1 0
  have h5 := high_det3Term t η a 1 0 2
  have h6 := high_det3Term t η a 0 2 1
  simp only [Fin.val_zero, Fin.val_one, Fin.val_two] at h1 h2 h3 h4 h5 h6
  rw [Mat.det3, h1, h2, h3, h4, h5, h6, permanent_fin_three, Fin.sum_univ_three]
  simp only [res_ok_bind, Ops.high, Except.ok.injEq, Matrix.of_apply]
  ring

theorem high_det2 (t : Target) (η : ℝ) (a : Mat ℝ 2 2) : a.det2 t (Ops.high η) =
    .ok ((Matrix.of a.get).permanent + 2 * η) := by
  simp only [Mat.det2, Mat.idxStatic_ok t _ (show 0 < 2 by omega) (show 0 < 2 by omega),
    Mat.idxStatic_ok t _ (show 0 < 2 by omega) (show 1 < 2 by omega),
    Mat.idxStatic_ok t _ (show 1 < 2 by omega) (show 0 < 2 by omega),
    Mat.idxStatic_ok t _ (show 1 < 2 by omega) (show 1 < 2 by omega), res_ok_bind, Ops.high, Except.ok.injEq]
  rw [permanent_fin_two]
  simp only [Matrix.of_apply, Fin.mk_zero, Fin.mk_one]
  ring

/-! ### No overflow -/

theorem finite_fold {ι : Type} (l : List ι) (h : ι → Res (Fl f)) (B : ι → ℝ)
    (hB : ∀ i ∈ l, ∃ z, h i = .ok z ∧ z.IsFinite ∧ |z.val| ≤ B i) {x : Fl f} (hx : x.IsFinite) {A : ℝ} (hA : |x.val| ≤ A)
    (hm : (1 + f.u) ^ l.length * (A + (l.map B).sum) ≤ f.max) :
    ∃ z, l.foldlM (fun acc i => do let s ← h i; (Ops.ieee f).add acc s) x = .ok z ∧ z.IsFinite ∧
      |z.val| ≤ (1 + f.u) ^ l.length * (A + (l.map B).sum) := by
  induction l generalizing x A with
  | nil => exact ⟨x, rfl, hx, by simpa using hA⟩
  | cons i l ih =>
    obtain ⟨s, e1, e2, e3⟩ := hB i (by simp)
    have hS : 0 ≤ (l.map B).sum := List.sum_nonneg (by
      rintro y hy
      obtain ⟨j, hj, rfl⟩ := List.mem_map.1 hy
      obtain ⟨_, _, _, h⟩ := hB j (by simp [hj])
      exact (abs_nonneg _).trans h)
    have hA0 := (abs_nonneg _).trans hA
    have hB0 := (abs_nonneg _).trans e3
    have hu := f.u_pos
    have hg := one_le_g f.u_pos.le l.length
    simp only [List.map_cons, List.sum_cons, List.length_cons] at hm ⊢
    have e4 := Fl.add_of_finite hx e2
    have e5 : |x.val + s.val| ≤ A + B i := (abs_add_le _ _).trans (add_le_add hA e3)
    have e6 : |f.rnd (x.val + s.val)| ≤ (1 + f.u) * (A + B i) := by
      have h1 := FloatFormat.rnd_add x.rep_val s.rep_val
      have h2 := abs_add_le (f.rnd (x.val + s.val) - (x.val + s.val)) (x.val + s.val)
      rw [sub_add_cancel] at h2
      nlinarith
    have e7 : (1 + f.u) ^ l.length * ((1 + f.u) * (A + B i) + (l.map B).sum) ≤
        (1 + f.u) ^ (l.length + 1) * (A + (B i + (l.map B).sum)) := by
      rw [pow_succ, mul_assoc]
      refine mul_le_mul_of_nonneg_left ?_ (by positivity)
      nlinarith
    have e8 : |f.rnd (x.val + s.val)| ≤ f.max := by
      have : (1 + f.u) * (A + B i) + (l.map B).sum ≤ (1 + f.u) ^ l.length * ((1 + f.u) * (A + B i) + (l.map B).sum) :=
        le_mul_of_one_le_left (by positivity) hg
      linarith
    have e9 : (x.add s).IsFinite := by rw [e4]; exact Fl.round_finite_iff.2 e8
    rw [List.foldlM_cons, e1]
    obtain ⟨z, z1, z2, z3⟩ := ih (fun j hj => hB j (by simp [hj])) e9 (A := (1 + f.u) * (A + B i))
      (by rw [(Fl.finite_add e9).2.2]; exact e6) (e7.trans hm)
    exact ⟨z, z1, z2, z3.trans e7⟩

theorem finite_mul' {a b : Fl f} (ha : a.IsFinite) (hb : b.IsFinite) (h : (1 + f.u) * (|a.val| * |b.val| + f.eta) ≤ f.max) :
    (a.mul b).IsFinite ∧ |(a.mul b).val| ≤ (1 + f.u) * (|a.val| * |b.val| + f.eta) := by
  have h1 := f.rnd_error (a.val * b.val)
  have h2 := abs_add_le (f.rnd (a.val * b.val) - a.val * b.val) (a.val * b.val)
  rw [sub_add_cancel] at h2
  rw [abs_mul] at h1 h2
  have h3 : |f.rnd (a.val * b.val)| ≤ (1 + f.u) * (|a.val| * |b.val| + f.eta) := by
    nlinarith [f.u_pos, f.eta_pos]
  have h4 : (a.mul b).IsFinite := by rw [Fl.mul_of_finite ha hb]; exact Fl.round_finite_iff.2 (h3.trans h)
  exact ⟨h4, by rw [(Fl.finite_mul h4).2.2]; exact h3⟩

theorem finite_dot {n : Nat} (a b : Vec (Fl f) n) (ha : ∀ i, (a.get i).IsFinite) (hb : ∀ i, (b.get i).IsFinite)
    (hm : (1 + f.u) ^ (n + 1) * (∑ i, |(a.get i).val| * |(b.get i).val| + n * f.eta) ≤ f.max) :
    ∃ z, a.dot (Ops.ieee f) b = .ok z ∧ z.IsFinite := by
  have hu := f.u_pos
  have hη := f.eta_pos
  have hs : ∑ i, |(a.get i).val| * |(b.get i).val| + n * f.eta = ∑ i, (|(a.get i).val| * |(b.get i).val| + f.eta) := by
    rw [Finset.sum_add_distrib]; simp
  rw [hs] at hm
  have hp : ∀ i, 0 ≤ |(a.get i).val| * |(b.get i).val| + f.eta := fun i => by positivity
  have h := finite_fold (List.finRange n) (fun i => (Ops.ieee f).mul (a.get i) (b.get i))
    (fun i => (1 + f.u) * (|(a.get i).val| * |(b.get i).val| + f.eta)) (fun i _ => by
      refine ⟨_, rfl, finite_mul' (ha i) (hb i) (le_trans ?_ hm)⟩
      have h1 := Finset.single_le_sum (f := fun i => |(a.get i).val| * |(b.get i).val| + f.eta) (fun i _ => hp i)
        (Finset.mem_univ i)
      have h2 := one_le_g hu.le n
      rw [pow_succ, mul_comm _ (1 + f.u), mul_assoc]
      refine mul_le_mul_of_nonneg_left (h1.trans ?_) (by linarith)
      exact le_mul_of_one_le_left (Finset.sum_nonneg fun i _ => hp i) h2)
    (x := (Ops.ieee f).zero) trivial (A := 0) (by simp [Ops.ieee, Fl.ofInt, Fl.val]) (by
      rw [← Fin.sum_univ_def, zero_add, ← Finset.mul_sum, ← mul_assoc, List.length_finRange, ← pow_succ]; exact hm)
  obtain ⟨z, h1, h2, _⟩ := h
  refine ⟨z, ?_, h2⟩
  rw [Vec.dot, Vec.zip_eq, mulFold, List.foldlM_map]
  exact h1

theorem finite_vecSum {n : Nat} (v : Vec (Fl f) n) (hv : ∀ i, (v.get i).IsFinite)
    (hm : (1 + f.u) ^ n * ∑ i, |(v.get i).val| ≤ f.max) :
    ∃ z, v.sum (Ops.ieee f) = .ok z ∧ z.IsFinite ∧ |z.val| ≤ (1 + f.u) ^ n * ∑ i, |(v.get i).val| := by
  have h := finite_fold (List.finRange n) (fun i => .ok (v.get i)) (fun i => |(v.get i).val|)
    (fun i _ => ⟨_, rfl, hv i, le_rfl⟩) (x := (Ops.ieee f).zero) trivial (A := 0) (by simp [Ops.ieee, Fl.ofInt, Fl.val])
  rw [← Fin.sum_univ_def, zero_add, List.length_finRange] at h
  obtain ⟨z, h1, h2⟩ := h hm
  refine ⟨z, ?_, h2⟩
  rw [Vec.sum, Vec.toList_eq, List.foldlM_map]
  exact h1

theorem finite_matSum {r c : Nat} (a : Mat (Fl f) r c) (ha : ∀ i j, (a.get i j).IsFinite)
    (hm : (1 + f.u) ^ (r + c) * ∑ i, ∑ j, |(a.get i j).val| ≤ f.max) : ∃ z, a.sum (Ops.ieee f) = .ok z ∧ z.IsFinite := by
  have hu := f.u_pos
  have hp : ∀ i, 0 ≤ ∑ j, |(a.get i j).val| := fun i => Finset.sum_nonneg fun j _ => abs_nonneg _
  have h := finite_fold (List.finRange r) (fun i => (a.rows.get i).sum (Ops.ieee f))
    (fun i => (1 + f.u) ^ c * ∑ j, |(a.get i j).val|) (fun i _ => finite_vecSum (a.rows.get i) (ha i) (by
      refine le_trans ?_ hm
      rw [pow_add, mul_comm (_ ^ r), mul_assoc]
      refine mul_le_mul_of_nonneg_left ?_ (by positivity)
      exact (Finset.single_le_sum (f := fun i => ∑ j, |(a.get i j).val|) (fun i _ => hp i) (Finset.mem_univ i)).trans
        (le_mul_of_one_le_left (Finset.sum_nonneg fun i _ => hp i) (one_le_g hu.le r))))
    (x := (Ops.ieee f).zero) trivial (A := 0) (by simp [Ops.ieee, Fl.ofInt, Fl.val]) (by
      rw [← Fin.sum_univ_def, zero_add, ← Finset.mul_sum, ← mul_assoc, List.length_finRange, ← pow_add]; exact hm)
  obtain ⟨z, h1, h2, _⟩ := h
  refine ⟨z, ?_, h2⟩
  rw [Mat.sum, Vec.toList_eq, List.foldlM_map]
  exact h1

/-! ## C87 -/

/-- C87, `dot` of `f32`/`f64` vectors: it always returns; whenever the result is finite the error is at most
`(1+u)^(n+1) - 1` times `Σ |a_i| |b_i|` plus `n` times half of the smallest positive number (up to rounding); and the
result is finite whenever the magnitudes leave room. -/
theorem C87_dot {n : Nat} (a b : Vec (Fl f) n) :
    ∃ z, a.dot (Ops.ieee f) b = .ok z ∧
      (z.IsFinite → |z.val - ∑ i, (a.get i).val * (b.get i).val| ≤
        ((1 + f.u) ^ (n + 1) - 1) * ∑ i, |(a.get i).val| * |(b.get i).val| + (1 + f.u) ^ (n + 1) * (n * f.eta)) ∧
      ((∀ i, (a.get i).IsFinite ∧ (b.get i).IsFinite) →
        (1 + f.u) ^ (n + 1) * (∑ i, |(a.get i).val| * |(b.get i).val| + n * f.eta) ≤ f.max → z.IsFinite) := by
  obtain ⟨z, h1, h2⟩ := fbound (rel_dot (ieee_tracks f) (vec_finput a) (vec_finput b))
    (rel_dot (ftrk_trk _).rel (vec_finput_trk a) (vec_finput_trk b))
    (rel_dot (ftrk_high _).rel (vec_finput_high a) (vec_finput_high b)) (trk_dot a b) (high_dot _ _ _)
  refine ⟨z, h1, fun hf => (h2 hf).trans (le_of_eq ?_), fun h hm => ?_⟩
  · simp only [Vec.mags, Vec.get_mapV]
    ring
  · obtain ⟨z', e1, e2⟩ := finite_dot a b (fun i => (h i).1) (fun i => (h i).2) hm
    cases h1.symm.trans e1
    exact e2

/-- C87, `sum` of a vector: sums do not underflow, so the error is relative to the magnitudes. -/
theorem C87_vec_sum {n : Nat} (v : Vec (Fl f) n) :
    ∃ z, v.sum (Ops.ieee f) = .ok z ∧
      (z.IsFinite → |z.val - ∑ i, (v.get i).val| ≤ ((1 + f.u) ^ n - 1) * ∑ i, |(v.get i).val|) ∧
      ((∀ i, (v.get i).IsFinite) → (1 + f.u) ^ n * ∑ i, |(v.get i).val| ≤ f.max → z.IsFinite) := by
  obtain ⟨z, h1, h2⟩ := fbound (g := ∑ i, |(v.get i).val|) (rel_vecSum (ieee_tracks f) (vec_finput v))
    (rel_vecSum (ftrk_trk _).rel (vec_finput_trk v))
    (rel_vecSum (ftrk_high _).rel (vec_finput_high v)) (trk_vecSum v)
    (by rw [show v.mags.sum (Ops.high f.eta) = v.mags.sum Ops.magn from rfl, C26_vec_sum magn_isSemiring]; simp [Vec.mags])
  refine ⟨z, h1, fun hf => (h2 hf).trans (le_of_eq (by ring)), fun h hm => ?_⟩
  obtain ⟨z', e1, e2, _⟩ := finite_vecSum v h hm
  cases h1.symm.trans e1
  exact e2

/-- C87, `sum` of a matrix. -/
theorem C87_mat_sum {r c : Nat} (a : Mat (Fl f) r c) :
    ∃ z, a.sum (Ops.ieee f) = .ok z ∧
      (z.IsFinite → |z.val - ∑ i, ∑ j, (a.get i j).val| ≤ ((1 + f.u) ^ (r + c) - 1) * ∑ i, ∑ j, |(a.get i j).val|) ∧
      ((∀ i j, (a.get i j).IsFinite) → (1 + f.u) ^ (r + c) * ∑ i, ∑ j, |(a.get i j).val| ≤ f.max → z.IsFinite) := by
  obtain ⟨z, h1, h2⟩ := fbound (g := ∑ i, ∑ j, |(a.get i j).val|) (rel_matSum (ieee_tracks f) (mat_finput a))
    (rel_matSum (ftrk_trk _).rel (mat_finput_trk a))
    (rel_matSum (ftrk_high _).rel (mat_finput_high a)) (trk_matSum a)
    (by rw [show a.mags.sum (Ops.high f.eta) = a.mags.sum Ops.magn from rfl, C26_mat_sum magn_isSemiring]; simp [Mat.mags])
  refine ⟨z, h1, fun hf => (h2 hf).trans (le_of_eq (by ring)), fun h hm => ?_⟩
  obtain ⟨z', e1, e2⟩ := finite_matSum a h hm
  cases h1.symm.trans e1
  exact e2

theorem ieee_mulFold {n : Nat} (p q : Fin n → Fl f) :
    ∃ z, mulFold (Ops.ieee f) ((List.finRange n).map fun k => (p k, q k)) = .ok z ∧
      (z.IsFinite → |z.val - ∑ i, (p i).val * (q i).val| ≤
        ((1 + f.u) ^ (n + 1) - 1) * ∑ i, |(p i).val| * |(q i).val| + (1 + f.u) ^ (n + 1) * (n * f.eta)) ∧
      ((∀ i, (p i).IsFinite ∧ (q i).IsFinite) →
        (1 + f.u) ^ (n + 1) * (∑ i, |(p i).val| * |(q i).val| + n * f.eta) ≤ f.max → z.IsFinite) := by
  have h := C87_dot (Vec.ofFn p) (Vec.ofFn q)
  rw [Vec.dot, Vec.zip_eq] at h
  simpa only [Vec.get_ofFn] using h

/-- C87, matrix products, every form of `*`: each entry is a dot product. -/
theorem C87_mul {l n c : Nat} (t : Target) (op) (hop : op ∈ mulForms (l := l) (n := n) (c := c) t (Ops.ieee f))
    (a : Mat (Fl f) l n) (b : Mat (Fl f) n c) (hl : l < t.W) (hn : n < t.W) (hc : c < t.W) :
    ∃ w, op a b = .ok w ∧ ∀ i j,
      ((w.get i j).IsFinite → |(w.get i j).val - ∑ k, (a.get i k).val * (b.get k j).val| ≤
        ((1 + f.u) ^ (n + 1) - 1) * ∑ k, |(a.get i k).val| * |(b.get k j).val| + (1 + f.u) ^ (n + 1) * (n * f.eta)) ∧
      ((∀ k, (a.get i k).IsFinite ∧ (b.get k j).IsFinite) →
        (1 + f.u) ^ (n + 1) * (∑ k, |(a.get i k).val| * |(b.get k j).val| + n * f.eta) ≤ f.max →
        (w.get i j).IsFinite) := by
  have h := fun i j => ieee_mulFold (fun k => a.get i k) (fun k => b.get k j)
  choose z hz h1 h2 using h
  refine ⟨Mat.ofFn z, (C41_mul_entries t _ op hop a b hl hn hc _).2 fun i j => ?_, fun i j => ?_⟩
  · rw [← mulFold_mulSum, Mat.get_ofFn]; exact hz i j
  · rw [Mat.get_ofFn]; exact ⟨h1 i j, h2 i j⟩

/-- C87, matrix times vector, by value and by reference. -/
theorem C87_mul_vec {r c : Nat} (t : Target) (a : Mat (Fl f) r c) (v : Vec (Fl f) c) (hr : r < t.W) :
    ∃ w, a.mulVec t (Ops.ieee f) v = .ok w ∧ a.mulVecRef t (Ops.ieee f) v = .ok w ∧ ∀ i,
      ((w.get i).IsFinite → |(w.get i).val - ∑ k, (a.get i k).val * (v.get k).val| ≤
        ((1 + f.u) ^ (c + 1) - 1) * ∑ k, |(a.get i k).val| * |(v.get k).val| + (1 + f.u) ^ (c + 1) * (c * f.eta)) ∧
      ((∀ k, (a.get i k).IsFinite ∧ (v.get k).IsFinite) →
        (1 + f.u) ^ (c + 1) * (∑ k, |(a.get i k).val| * |(v.get k).val| + c * f.eta) ≤ f.max →
        (w.get i).IsFinite) := by
  have h := fun i => ieee_mulFold (fun k => a.get i k) v.get
  choose z hz h1 h2 using h
  have e : ∀ i, mulFold (Ops.ieee f) ((Vec.ofFn fun j => a.get i j).toList.zip v.toList) = .ok ((Vec.ofFn z).get i) := by
    intro i
    rw [Vec.zip_eq, Vec.get_ofFn, ← hz i]; simp
  refine ⟨Vec.ofFn z, ?_, ?_, fun i => ?_⟩
  · rw [Mat.mulVec, drain_rowsRef t a hr]
    simp only [res_ok_bind, rowsOf, List.map_map]
    exact (Vec.collect_finRange_ok_iff t _ _).2 e
  · rw [Mat.mulVecRef, rowsOf_eq a]
    simp only [rowsOf, List.map_map]
    exact (Vec.collect_finRange_ok_iff t _ _).2 e
  · rw [Vec.get_ofFn]; exact ⟨h1 i, h2 i⟩

/-- C87, `cross`. -/
theorem C87_cross (t : Target) (a b : Vec (Fl f) 3) :
    ∃ w, a.cross t (Ops.ieee f) b = .ok w ∧ ∀ i, (w.get i).IsFinite →
      |(w.get i).val - crossProduct (fun k => (a.get k).val) (fun k => (b.get k).val) i| ≤
        ((1 + f.u) ^ 2 - 1) * (|(a.get (i + 1)).val| * |(b.get (i + 2)).val| + |(a.get (i + 2)).val| * |(b.get (i + 1)).val|) +
          (1 + f.u) ^ 2 * (2 * f.eta) := by
  have h0 : (0 : Nat) < 3 := by omega
  have h1 : (1 : Nat) < 3 := by omega
  have h2 : (2 : Nat) < 3 := by omega
  obtain ⟨k, hk, hK⟩ := trk_cross (val := Fl.val) t a b
  have e1 := (rel_cross (ftrk_trk f.eta).rel t t (vec_finput_trk a) (vec_finput_trk b)).eq_mapV
  have e2 := (rel_cross (ftrk_high f.eta).rel t t (vec_finput_high a) (vec_finput_high b)).eq_mapV
  have hh : a.mags.cross t (Ops.high f.eta) b.mags = .ok (Vec.ofFn fun i : Fin 3 =>
      |(a.get (i + 1)).val| * |(b.get (i + 2)).val| + |(a.get (i + 2)).val| * |(b.get (i + 1)).val| + 2 * f.eta) := by
    simp only [Vec.cross, Vec.getUnchecked_ok t _ h0, Vec.getUnchecked_ok t _ h1, Vec.getUnchecked_ok t _ h2,
      res_ok_bind, Ops.high, res_pure, Except.ok.injEq, Vec.mags, Vec.get_mapV]
    apply Vec.ext_get
    intro i
    rw [Vec.get_ofFn]
    fin_cases i <;> simp [Vec.get] <;> ring
  rcases rel_cross (ieee_tracks f) t t (vec_finput a) (vec_finput b) with ⟨w, k', hw, hk', hR⟩ | ⟨e, _, he⟩
  · rw [hk'] at e1 e2
    rw [hk] at e1
    rw [hh] at e2
    cases e1
    have e2 := Except.ok.inj e2
    refine ⟨w, hw, fun i hf => ?_⟩
    have hK := hK i
    rw [Vec.get_mapV] at hK
    have := ftracks_bound (hR i) hK.1 hK.2.1 hK.2.2 (by rw [← Vec.get_mapV FTrk.high k' i, ← e2, Vec.get_ofFn]) hf
    exact this.trans (le_of_eq (by ring))
  · rcases he with he | he
    · exact he.elim
    · rw [he, hk] at e1; cases e1

/-- C87, `determinant` of sizes 1, 2, 3. -/
theorem C87_det_small (t : Target) (k : Nat) (hk : k < 3) (a : Mat (Fl f) (k + 1) (k + 1)) :
    ∃ z, a.determinant t (Ops.ieee f) k = .ok z ∧ (z.IsFinite →
      |z.val - (Matrix.of fun i j => (a.get i j).val).det| ≤
        ((1 + f.u) ^ ([0, 2, 7].getD k 0) - 1) * (Matrix.of fun i j => |(a.get i j).val|).permanent +
        (1 + f.u) ^ ([0, 2, 7].getD k 0) * ([0, 2, 2 * ∑ j, |(a.get (Fin.last k) j).val| + 6].getD k 0 * f.eta)) := by
  have key : a.mags.determinant t (Ops.high f.eta) k = .ok ((Matrix.of fun i j => |(a.get i j).val|).permanent +
      [0, 2, 2 * ∑ j, |(a.get (Fin.last k) j).val| + 6].getD k 0 * f.eta) := by
    have e : ∀ i j, a.mags.get i j = |(a.get i j).val| := fun i j => by simp [Mat.mags]
    have e' : Matrix.of a.mags.get = Matrix.of fun i j => |(a.get i j).val| := by ext i j; exact e i j
    match k, hk with
    | 0, _ =>
      simp only [Mat.determinant, Mat.det1, Mat.idxStatic_ok t _ (show 0 < 1 by omega) (show 0 < 1 by omega), e]
      simp [Matrix.permanent_unique]
    | 1, _ => rw [Mat.determinant, high_det2, e']; simp
    | 2, _ => rw [Mat.determinant, high_det3, e']; simp only [e]; rfl
  obtain ⟨z, h1, h2⟩ := fbound (rel_det_small (ieee_tracks f) t t k (by omega) (mat_finput a))
    (rel_det_small (ftrk_trk _).rel t t k (by omega) (mat_finput_trk a))
    (rel_det_small (ftrk_high _).rel t t k (by omega) (mat_finput_high a)) (trk_detSmall t k hk a) key
  refine ⟨z, h1, fun hf => (h2 hf).trans (le_of_eq (by ring))⟩

/-- C87: integers of at most `prec` digits are exact, so everything C84 says holds for `f32` (up to `2^24`) and `f64` (up
to `2^53`). -/
theorem C87_ints (f : FloatFormat) : (Ops.ieee f).ExactInts (fun x z => x.IsFinite ∧ x.val = z) (2 ^ f.prec) := by
  have e : ∀ {z : ℤ}, |z| ≤ 2 ^ f.prec → f.rnd z = z := fun h => f.rnd_rep (.int f h)
  have m : ∀ {z : ℤ}, |z| ≤ 2 ^ f.prec → |f.rnd z| ≤ f.max := fun {z} h => by
    rw [e h]
    have : |(z : ℝ)| ≤ 2 ^ f.prec := by exact_mod_cast h
    exact this.trans f.pow_le_max
  have r : ∀ {z : ℤ} (s : Bool), |z| ≤ 2 ^ f.prec → (Fl.round s (z : ℝ) : Fl f).IsFinite ∧ (Fl.round s (z : ℝ) : Fl f).val = z :=
    fun s h => by
      have := (Fl.round_finite_iff (f := f) (s := s)).2 (m h)
      exact ⟨this, by rw [Fl.val_round this, e h]⟩
  refine ⟨⟨trivial, by simp [Ops.ieee, Fl.ofInt, Fl.val]⟩, ⟨trivial, by simp [Ops.ieee, Fl.ofInt, Fl.val]⟩, ?_, ?_, ?_, ?_⟩
  · rintro a b x y ⟨h1, h2⟩ ⟨h3, h4⟩ _ _ h
    refine ⟨_, rfl, ?_⟩
    rw [Fl.add_of_finite h1 h3, h2, h4]
    exact_mod_cast r _ h
  · rintro a b x y ⟨h1, h2⟩ ⟨h3, h4⟩ _ _ h
    refine ⟨_, rfl, ?_⟩
    rw [Fl.add_of_finite h1 (Fl.finite_neg.2 h3), h2, Fl.val_neg, h4, ← sub_eq_add_neg]
    exact_mod_cast r _ h
  · rintro a b x y ⟨h1, h2⟩ ⟨h3, h4⟩ _ _ h
    refine ⟨_, rfl, ?_⟩
    rw [Fl.mul_of_finite h1 h3, h2, h4]
    exact_mod_cast r _ h
  · rintro a x ⟨h1, h2⟩ _
    exact ⟨_, rfl, Fl.finite_neg.2 h1, by rw [Fl.val_neg, h2]; push_cast; rfl⟩

end

/-! ### Computations that stay within the range -/

namespace FloatFormat
/-- The smallest positive number with full precision (`f64::MIN_POSITIVE`). -/
noncomputable def minPos (f : FloatFormat) : ℝ := 2 ^ (f.emin + f.prec - 1)

theorem rnd_normal (f : FloatFormat) {x : ℝ} (h : x = 0 ∨ f.minPos ≤ |x|) : |f.rnd x - x| ≤ f.u * |x| := by
  rcases h with rfl | h
  · simp
  · refine f.rnd_relative ?_
    have h0 : x ≠ 0 := by
      rintro rfl
      rw [abs_zero] at h
      exact absurd h (not_le.2 (two_zpow_pos _))
    have h1 := lt_of_le_of_lt h (lt_log x)
    have := (zpow_lt_zpow_iff_right₀ (by norm_num : (1 : ℝ) < 2)).1 h1
    omega
end FloatFormat

open Classical in
/-- The finite values with the same operations, except that an operation fails if the result is not finite (overflow,
division by zero) or, for products and quotients, if the exact result is positive but below full precision (underflow).
`f` in `Ops.trap f` computes the same as `Ops.ieee f` as long as nothing of this happens. -/
noncomputable def Ops.trap (f : FloatFormat) : Ops {a : Fl f // a.IsFinite} where
  zero := ⟨(Ops.ieee f).zero, trivial⟩
  one := ⟨(Ops.ieee f).one, trivial⟩
  add a b := if h : (a.1.add b.1).IsFinite then .ok ⟨_, h⟩ else .error .panic
  sub a b := if h : (a.1.add b.1.neg).IsFinite then .ok ⟨_, h⟩ else .error .panic
  mul a b := if h : (a.1.mul b.1).IsFinite ∧ (a.1.val * b.1.val = 0 ∨ f.minPos ≤ |a.1.val * b.1.val|) then .ok ⟨_, h.1⟩
    else .error .panic
  div a b := if h : (a.1.div b.1).IsFinite ∧ (a.1.val / b.1.val = 0 ∨ f.minPos ≤ |a.1.val / b.1.val|) then .ok ⟨_, h.1⟩
    else .error .panic
  neg a := .ok ⟨a.1.neg, Fl.finite_neg.2 a.2⟩
  isZero a := a.1.isZero

section
variable {f : FloatFormat}

theorem trap_rounds (f : FloatFormat) : (Ops.trap f).Rounds (fun a => a.1.val) f.u where
  nonneg := f.u_pos.le
  zero := by simp [Ops.trap, Ops.ieee, Fl.ofInt, Fl.val]
  one := by simp [Ops.trap, Ops.ieee, Fl.ofInt, Fl.val]
  add {a b z} hz := by
    simp only [Ops.trap] at hz
    split at hz
    · next h => cases hz; dsimp only; rw [(Fl.finite_add h).2.2]; exact FloatFormat.rnd_add a.1.rep_val b.1.rep_val
    · cases hz
  sub {a b z} hz := by
    simp only [Ops.trap] at hz
    split at hz
    · next h =>
      cases hz; dsimp only; rw [(Fl.finite_add h).2.2, sub_eq_add_neg a.1.val, ← Fl.val_neg]
      exact FloatFormat.rnd_add a.1.rep_val b.1.neg.rep_val
    · cases hz
  mul {a b z} hz := by
    simp only [Ops.trap] at hz
    split at hz
    · next h => cases hz; dsimp only; rw [(Fl.finite_mul h.1).2.2]; exact f.rnd_normal h.2
    · cases hz
  div {a b z} hb hz := by
    simp only [Ops.trap] at hz
    split at hz
    · next h =>
      have e := Fl.div_of_finite a.2 b.2 hb
      have h1 := h.1
      rw [e] at h1
      cases hz; dsimp only; rw [e, Fl.val_round h1]; exact f.rnd_normal h.2
    · cases hz
  neg {a z} hz := by cases hz; exact Fl.val_neg _
  isZero a := (Fl.isZero_iff a.1).trans ⟨fun h => h.2, fun h => ⟨a.2, h⟩⟩

theorem trap_ieee (f : FloatFormat) : Ops.RelDivHom True (Ops.trap f) (Ops.ieee f) (fun a b => b = a.1) where
  zero := rfl
  one := rfl
  add {a b a' b'} ha hb := by
    subst ha hb
    refine rel_of_ok fun z hz => ?_
    simp only [Ops.trap] at hz
    split at hz <;> cases hz
    rfl
  sub {a b a' b'} ha hb := by
    subst ha hb
    refine rel_of_ok fun z hz => ?_
    simp only [Ops.trap] at hz
    split at hz <;> cases hz
    rfl
  mul {a b a' b'} ha hb := by
    subst ha hb
    refine rel_of_ok fun z hz => ?_
    simp only [Ops.trap] at hz
    split at hz <;> cases hz
    rfl
  neg {a a'} ha := by subst ha; exact .ok rfl
  isZero ha := by subst ha; rfl
  div {a b a' b'} ha hb _ := by
    subst ha hb
    refine rel_of_ok fun z hz => ?_
    simp only [Ops.trap] at hz
    split at hz <;> cases hz
    rfl

/-- A matrix of finite values, seen as one of `f32`/`f64`. -/
def Mat.plain {r c : Nat} (a : Mat {x : Fl f // x.IsFinite} r c) : Mat (Fl f) r c := a.mapV Subtype.val

/-- C87, `determinant` of any size: if no operation on the way overflows, underflows or divides by zero (that is, if the
trapping run returns `z`) then the plain run returns the same `z`, which satisfies the error bounds of C83 and C86; and the
same for `inverse` and `pow`. -/
theorem C87_no_trap (t : Target) (f : FloatFormat) :
    (∀ (k : Nat) (a : Mat {x : Fl f // x.IsFinite} (k + 1) (k + 1)) (z), k + 1 < t.W → a.determinant t (Ops.trap f) k = .ok z →
      a.plain.determinant t (Ops.ieee f) k = .ok z.1) ∧
    (∀ (k : Nat) (a : Mat {x : Fl f // x.IsFinite} (k + 1) (k + 1)) (o), a.inverse t (Ops.trap f) k = .ok o →
      a.plain.inverse t (Ops.ieee f) k = .ok (o.map Mat.plain)) ∧
    (∀ (n k : Nat) (a : Mat {x : Fl f // x.IsFinite} n n) (w), n < t.W → a.pow t (Ops.trap f) k = .ok w →
      a.plain.pow t (Ops.ieee f) k = .ok w.plain) ∧
    (Ops.trap f).Rounds (fun a => a.1.val) f.u := by
  have H := trap_ieee f
  refine ⟨fun k a z hk hz => ?_, fun k a o ho => ?_, fun n k a w hn hw => ?_, trap_rounds f⟩
  · obtain ⟨z', h1, h2⟩ := (rel_det H.weak t t rfl k (matFn a) hk).ok_left hz
    rw [Mat.plain, h1, h2]
  · obtain ⟨z', h1, h2⟩ := (rel_inverse H.weak t t k (matFn a)).ok_left ho
    rw [Mat.plain, h1]
    cases o <;> cases z' <;> simp only [OptRel] at h2
    · rfl
    · exact congrArg (fun x => Except.ok (some x)) (matRel_fn.1 h2)
  · obtain ⟨z', h1, h2⟩ := (rel_pow H.toRelHom t t rfl (matFn a) k hn).ok_left hw
    rw [Mat.plain, h1, matRel_fn.1 h2]; rfl

/-- C87, `determinant` of size at least 4 when no operation traps: what `f32`/`f64` return is finite and is, up to a small
relative error, the determinant of a product `L U` that is close to the matrix entry by entry (or an intermediate pivot was
zero). -/
theorem C87_determinant (t : Target) (k : Nat) (a : Mat {x : Fl f // x.IsFinite} (k + 4) (k + 4)) {z}
    (hk : k + 4 < t.W) (hz : a.determinant t (Ops.trap f) (k + 3) = .ok z) :
    a.plain.determinant t (Ops.ieee f) (k + 3) = .ok z.1 ∧ z.1.IsFinite ∧
    ((∃ L U, NearLU f.u (a.block (fun x => x.1.val) (k + 4) le_rfl) L U ∧
      |z.1.val - (L * U).det| ≤ (((1 - f.u) ^ (k + 4))⁻¹ - 1) * |(L * U).det|) ∨
    (∃ (p : Nat) (hp : p < k + 4) (L U : Matrix (Fin p) (Fin p) ℝ), 0 < p ∧
      NearLU f.u (a.block (fun x => x.1.val) p hp.le) L U ∧ (L * U).det = 0)) := by
  refine ⟨(C87_no_trap t f).1 (k + 3) a z hk hz, z.2, ?_⟩
  rcases C86_determinant (trap_rounds f) f.u_lt_one t k a hz with h | ⟨p, hp, L, U, h1, h2, h3, _⟩
  · exact .inl h
  · exact .inr ⟨p, hp, L, U, h1, h2, h3⟩

/-- C87, `inverse` of sizes 1, 2, 3 when no operation traps. -/
theorem C87_inverse_small (t : Target) (k : Nat) (hk : k < 3) (hW : k + 1 < t.W)
    (a : Mat {x : Fl f // x.IsFinite} (k + 1) (k + 1)) {o}
    (ho : a.inverse t (Ops.trap f) k = .ok o) :
    a.plain.inverse t (Ops.ieee f) k = .ok (o.map Mat.plain) ∧
    ∃ d, a.plain.determinant t (Ops.ieee f) k = .ok d ∧ d.IsFinite ∧ (o = none ↔ d.val = 0) ∧
      ∀ w, o = some w → ∀ i j : Fin (k + 1), |d.val * (w.get i j).1.val -
        (Matrix.of fun i j => (a.get i j).1.val).adjugate i j| ≤ ((1 + f.u) ^ 3 - 1) *
          ((Matrix.of fun i j => |(a.get i j).1.val|).submatrix j.succAbove i.succAbove).permanent := by
  refine ⟨(C87_no_trap t f).2.1 k a o ho, ?_⟩
  obtain ⟨d, h1, h2, h3⟩ := C86_inverse_small (trap_rounds f) t k hk a ho
  exact ⟨d.1, (C87_no_trap t f).1 k a d hW h1, d.2, h2, h3⟩

/-- C87, `inverse` of size at least 4 when no operation traps: what `f32`/`f64` return is finite, and the given matrix times
the result is close to the identity in the sense of `C86_inverse`; `None` only if a leading block is close to a singular
one. -/
theorem C87_inverse (t : Target) (k : Nat) (a : Mat {x : Fl f // x.IsFinite} (k + 4) (k + 4)) {o}
    (ho : a.inverse t (Ops.trap f) (k + 3) = .ok o) :
    a.plain.inverse t (Ops.ieee f) (k + 3) = .ok (o.map Mat.plain) ∧
    (∀ w, o = some w → ∃ v : Nat → Fin (k + 4) → ℝ,
      NearGJ f.u (k + 4) (Matrix.of fun i j => (a.get i j).1.val) v ∧ ∀ i j,
      |((Matrix.of fun i j => (a.get i j).1.val) * Matrix.of fun i j => (w.get i j).1.val) i j -
          (1 : Matrix (Fin (k + 4)) (Fin (k + 4)) ℝ) i j| ≤ 2 * (((1 - f.u) ^ (2 * (k + 4)))⁻¹ - 1) *
        (firstProd (fun l => (colMatrix l (v l)).map abs) (k + 4) * Matrix.of fun i j => |(w.get i j).1.val|) i j) ∧
    (o = none → ∃ (q : Fin (k + 4)) (v : Nat → Fin (k + 4) → ℝ),
      NearGJ f.u (q.val + 1) (Matrix.of fun i j => (a.get i j).1.val) v ∧
      ((firstProd (fun l => colMatrix l (v l)) (q.val + 1)).submatrix (Fin.castLE q.isLt) (Fin.castLE q.isLt)).det = 0) := by
  obtain ⟨h1, h2⟩ := C86_inverse (trap_rounds f) f.u_lt_one t k a ho
  refine ⟨(C87_no_trap t f).2.1 (k + 3) a o ho, fun w hw => ?_, fun hn => ?_⟩
  · obtain ⟨v, h3, _, _, h4⟩ := h1 w hw
    exact ⟨v, h3, h4⟩
  · obtain ⟨q, v, h3, _, h4⟩ := h2 hn
    exact ⟨q, v, h3, h4⟩

end

/-! ### Concrete cases -/

/-- A small integer as `f32`. -/
noncomputable def f32Int (z : ℤ) (hz : |z| ≤ 2 ^ 24) : Fl .f32 := .ofInt z hz

/-- `2^24 + 1` is not an `f32`; half way between its neighbours, it goes to the even one. -/
theorem f32_tie : FloatFormat.f32.rnd (2 ^ 24 + 1) = 2 ^ 24 := by
  have h : Int.log 2 |(2 ^ 24 + 1 : ℝ)| = 24 := by
    rw [abs_of_pos (by positivity)]
    have : ((2 : ℝ) ^ 24 + 1) = ((2 ^ 24 + 1 : Nat) : ℝ) := by norm_num
    rw [this, Int.log_natCast]
    rw [show Nat.log 2 (2 ^ 24 + 1) = 24 by decide +kernel]; rfl
  have h2 : FloatFormat.f32.lastPlace (2 ^ 24 + 1) = 1 := by
    rw [FloatFormat.lastPlace, h]; rfl
  have h3 : (((2 : ℝ) ^ 24 + 1) / 2 ^ (1 : ℤ)) = ((2 ^ 23 : ℤ) : ℝ) + 1 / 2 := by norm_num
  have h4 : ⌊((2 ^ 23 : ℤ) : ℝ) + 1 / 2⌋ = 2 ^ 23 := by rw [Int.floor_intCast_add]; norm_num
  have h5 : Int.fract (((2 ^ 23 : ℤ) : ℝ) + 1 / 2) = 1 / 2 := by rw [Int.fract_intCast_add]; norm_num
  rw [FloatFormat.rnd, h2, h3, roundEven, h5, h4]
  norm_num
  exact ⟨4194304, by norm_num⟩

/-- In `f32` the dot product of `(2^24, 1)` and `(1, 1)` is `2^24`: finite, all hypotheses of `C87_dot` hold, and its bound
is about a real error. -/
example : ∃ z, (⟨[f32Int (2 ^ 24) (by norm_num), f32Int 1 (by norm_num)], rfl⟩ : Vec (Fl .f32) 2).dot (Ops.ieee .f32)
    ⟨[f32Int 1 (by norm_num), f32Int 1 (by norm_num)], rfl⟩ = .ok z ∧ z.IsFinite ∧ z.val = 2 ^ 24 := by
  obtain ⟨p, h1, h2, h3⟩ := (C87_ints .f32).mul (a := f32Int (2 ^ 24) (by norm_num)) (b := f32Int 1 (by norm_num))
    (x := 2 ^ 24) (y := 1) ⟨trivial, rfl⟩ ⟨trivial, rfl⟩ (by simp [FloatFormat.f32]) (by simp [FloatFormat.f32])
    (by simp [FloatFormat.f32])
  obtain ⟨s, h4, h5, h6⟩ := (C87_ints .f32).add (a := (Ops.ieee .f32).zero) (b := p) (x := 0) (y := 2 ^ 24 * 1)
    (C87_ints .f32).zero ⟨h2, h3⟩ (by simp [FloatFormat.f32]) (by simp [FloatFormat.f32]) (by simp [FloatFormat.f32])
  obtain ⟨q, h7, h8, h9⟩ := (C87_ints .f32).mul (a := f32Int 1 (by norm_num)) (b := f32Int 1 (by norm_num))
    (x := 1) (y := 1) ⟨trivial, rfl⟩ ⟨trivial, rfl⟩ (by simp [FloatFormat.f32]) (by simp [FloatFormat.f32])
    (by simp [FloatFormat.f32])
  have e : s.val + q.val = 2 ^ 24 + 1 := by rw [h6, h9]; norm_num
  have hf : (s.add q).IsFinite := by
    rw [Fl.add_of_finite h5 h8, Fl.round_finite_iff, e, f32_tie, abs_of_pos (by positivity)]
    exact FloatFormat.f32.pow_le_max
  refine ⟨s.add q, ?_, hf, by rw [(Fl.finite_add hf).2.2, e, f32_tie]⟩
  simp only [Vec.dot, mulFold, List.zip_cons_cons, List.zip_nil_right, List.foldlM_cons, List.foldlM_nil]
  rw [h1, h7]
  simp only [res_ok_bind]
  rw [h4]
  rfl

/-- Arithmetic with zeros and ones only. -/
def Ops.bits : Ops Bool where
  zero := false
  one := true
  add a b := if a && b then .error .panic else .ok (a || b)
  sub a b := if b && !a then .error .panic else .ok (a && !b)
  mul a b := .ok (a && b)
  div a b := if b then .ok a else .error .panic
  neg a := if a then .error .panic else .ok false
  isZero a := !a

/-- Zeros and ones in `f32` never trap. -/
theorem bits_trap : Ops.RelDivHom True Ops.bits (Ops.trap .f32) (fun b x => x.1.val = if b then 1 else 0) := by
  have e : ∀ {x : ℝ}, x = 0 ∨ x = 1 → FloatFormat.f32.rnd x = x ∧ |x| ≤ FloatFormat.f32.max := by
    have h := FloatFormat.f32.pow_le_max
    rintro x (rfl | rfl)
    · exact ⟨by simp, by rw [abs_zero]; exact (by positivity : (0 : ℝ) ≤ 2 ^ FloatFormat.f32.prec).trans h⟩
    · refine ⟨?_, by rw [abs_one]; exact (one_le_pow₀ (by norm_num)).trans h⟩
      have := FloatFormat.f32.rnd_rep (.int _ (z := 1) (by rw [abs_one]; exact one_le_pow₀ (by norm_num)))
      simpa using this
  have r : ∀ (s : Bool) {x : ℝ}, x = 0 ∨ x = 1 → (Fl.round s x : Fl .f32).IsFinite ∧ (Fl.round s x : Fl .f32).val = x :=
    fun s x h => by
      have := (Fl.round_finite_iff (f := .f32) (s := s) (x := x)).2 (by rw [(e h).1]; exact (e h).2)
      exact ⟨this, by rw [Fl.val_round this, (e h).1]⟩
  have m : ∀ {x : ℝ}, x = 0 ∨ x = 1 → x = 0 ∨ FloatFormat.f32.minPos ≤ |x| := by
    rintro x (rfl | rfl)
    · exact .inl rfl
    · refine .inr ?_
      rw [abs_one, FloatFormat.minPos]
      exact zpow_le_one_of_nonpos₀ (by norm_num) (by decide)
  constructor
  · constructor
    · simp [Ops.trap, Ops.ieee, Fl.ofInt, Fl.val, Ops.bits]
    · simp [Ops.trap, Ops.ieee, Fl.ofInt, Fl.val, Ops.bits]
    · rintro a b ⟨a', fa⟩ ⟨b', fb⟩ ha hb
      refine rel_of_ok' fun z hz => ?_
      have h := r (a'.sign && b'.sign) (x := a'.val + b'.val) (by
        rw [ha, hb]; cases a <;> cases b <;> simp [Ops.bits] at hz ⊢)
      rw [← Fl.add_of_finite fa fb] at h
      refine ⟨⟨_, h.1⟩, dif_pos h.1, h.2.trans ?_⟩
      rw [ha, hb]; cases a <;> cases b <;> simp [Ops.bits] at hz ⊢ <;> simp [← hz]
    · rintro a b ⟨a', fa⟩ ⟨b', fb⟩ ha hb
      refine rel_of_ok' fun z hz => ?_
      have h := r (a'.sign && b'.neg.sign) (x := a'.val + b'.neg.val) (by
        rw [Fl.val_neg, ha, hb]; cases a <;> cases b <;> simp [Ops.bits] at hz ⊢)
      rw [← Fl.add_of_finite fa (Fl.finite_neg.2 fb)] at h
      refine ⟨⟨_, h.1⟩, dif_pos h.1, h.2.trans ?_⟩
      rw [Fl.val_neg, ha, hb]; cases a <;> cases b <;> simp [Ops.bits] at hz ⊢ <;> simp [← hz]
    · rintro a b ⟨a', fa⟩ ⟨b', fb⟩ ha hb
      refine rel_of_ok' fun z hz => ?_
      have h01 : a'.val * b'.val = 0 ∨ a'.val * b'.val = 1 := by rw [ha, hb]; cases a <;> cases b <;> simp
      have h := r (a'.sign ^^ b'.sign) h01
      rw [← Fl.mul_of_finite fa fb] at h
      refine ⟨⟨_, h.1⟩, dif_pos ⟨h.1, m h01⟩, h.2.trans ?_⟩
      rw [ha, hb]; cases a <;> cases b <;> simp [Ops.bits] at hz ⊢ <;> simp [← hz]
    · rintro a ⟨a', fa⟩ ha
      refine rel_of_ok' fun z hz => ?_
      refine ⟨_, rfl, (Fl.val_neg _).trans ?_⟩
      rw [ha]; cases a <;> simp [Ops.bits] at hz ⊢; simp [← hz]
  · rintro a ⟨a', fa⟩ ha
    cases h : Ops.bits.isZero a
    · refine Bool.eq_false_iff.2 fun h' => ?_
      have := ((Fl.isZero_iff a').1 h').2
      rw [ha] at this; cases a <;> simp [Ops.bits] at h this
    · refine (Fl.isZero_iff a').2 ⟨fa, ?_⟩
      rw [ha]; cases a <;> simp [Ops.bits] at h ⊢
  · rintro a b ⟨a', fa⟩ ⟨b', fb⟩ ha hb hz
    refine rel_of_ok' fun z hz' => ?_
    have hb1 : b'.val = 1 := by rw [hb]; cases b <;> simp [Ops.bits] at hz ⊢
    have h01 : a'.val / b'.val = 0 ∨ a'.val / b'.val = 1 := by rw [hb1, ha]; cases a <;> simp
    have h := r (a'.sign ^^ b'.sign) h01
    rw [← Fl.div_of_finite fa fb (by rw [hb1]; norm_num)] at h
    refine ⟨⟨_, h.1⟩, dif_pos ⟨h.1, m h01⟩, h.2.trans ?_⟩
    rw [hb1, ha]; cases a <;> cases b <;> simp [Ops.bits] at hz hz' ⊢ <;> simp [← hz']

/-- The hypothesis of `C87_determinant` holds for a unit triangular matrix of `f32`, whose determinant comes out as 1. -/
example : ∃ (a : Mat {x : Fl .f32 // x.IsFinite} 4 4) (z : _), a.determinant ⟨true, true, 2 ^ 64⟩ (Ops.trap .f32) 3 = .ok z ∧ z.1.val = 1 ∧
    (a.get 0 1).1.val = 1 := by
  obtain ⟨a, ha⟩ : ∃ a : Mat {x : Fl .f32 // x.IsFinite} 4 4, MatRel (fun b x => x.1.val = if b then 1 else 0)
      (Mat.ofFn fun i j : Fin 4 => decide (i ≤ j)) a := by
    refine ⟨Mat.ofFn fun i j => if i ≤ j then (Ops.trap .f32).one else (Ops.trap .f32).zero, fun i j => ?_⟩
    rw [Mat.get_ofFn, Mat.get_ofFn]
    by_cases h : i ≤ j
    · simp [h, Ops.trap, Ops.ieee, Fl.ofInt, Fl.val]
    · simp [h, Ops.trap, Ops.ieee, Fl.ofInt, Fl.val]
  obtain ⟨z, h1, h2⟩ := (rel_det bits_trap.weak ⟨true, true, 2 ^ 64⟩ ⟨true, true, 2 ^ 64⟩ rfl 3 ha (by decide)).ok_left
    (show Mat.determinant ⟨true, true, 2 ^ 64⟩ Ops.bits 3 (Mat.ofFn fun i j : Fin 4 => decide (i ≤ j)) = .ok true by
      decide +kernel)
  exact ⟨a, z, h1, by simpa using h2, by simpa using ha 0 1⟩

end Rowcol
