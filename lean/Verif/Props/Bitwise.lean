import Verif.Props.Special

/-! # C89: identities that hold to the last bit -/

namespace Rowcol

section
variable {T : Type} {O : Ops T} {l n r c : Nat} (t : Target)

/-- Multiplication gives the same for both orders of the operands (also when it fails). -/
def Ops.MulComm (O : Ops T) : Prop := ∀ a b, O.mul a b = O.mul b a

/-- Addition gives the same for both orders of the operands (also when it fails). -/
def Ops.AddComm (O : Ops T) : Prop := ∀ a b, O.add a b = O.add b a

theorem mulSum_comm (hO : O.MulComm) (p q : Fin n → T) : mulSum O n p q = mulSum O n q p := by
  induction n with
  | zero => rfl
  | succ n ih => rw [mulSum, mulSum, ih, hO]

/-- C89: `dot` is symmetric, whatever rounding, wrapping or panicking the element type does. -/
theorem C89_dot_comm (hO : O.MulComm) (a b : Vec T n) : a.dot O b = b.dot O a := by
  rw [Vec.dot, Vec.dot, Vec.zip_eq, Vec.zip_eq, mulFold_mulSum, mulFold_mulSum, mulSum_comm hO]

/-- C89: `+` of vectors and of matrices is commutative, in every form and also when it fails. -/
theorem C89_add_comm (hO : O.AddComm) (a b : Vec T n) (x y : Mat T r c) :
    (∀ op ∈ vecForms t O.add, ∀ op' ∈ vecForms t O.add, op a b = op' b a) ∧
    (∀ op ∈ matForms t O.add, ∀ op' ∈ matForms t O.add, op x y = op' y x) := by
  refine ⟨fun op h op' h' => ?_, fun op h op' h' => ?_⟩
  · rw [vecForms_eq t _ op h, vecForms_eq t _ op' h', funext fun i => hO (a.get i) (b.get i)]
  · rw [matForms_eq t _ op h, matForms_eq t _ op' h']
    have e : ∀ i, (fun j => O.add (x.get i j) (y.get i j)) = fun j => O.add (y.get i j) (x.get i j) :=
      fun i => funext fun j => hO _ _
    simp only [e]

/-- C89: the transpose of a product is the product of the transposes in the other order, every entry the same to the last
bit; one is computed if and only if the other is. -/
theorem C89_mul_transposed (hO : O.MulComm) (a : Mat T l n) (b : Mat T n c) (hl : l < t.W) (hn : n < t.W) (hc : c < t.W)
    (op) (hop : op ∈ mulForms (l := l) (n := n) (c := c) t O) (op') (hop' : op' ∈ mulForms (l := c) (n := n) (c := l) t O)
    (a' : Mat T n l) (b' : Mat T c n) (ha : a.transposed t = .ok a') (hb : b.transposed t = .ok b')
    (w : Mat T l c) (w' : Mat T c l) (hw : w.transposed t = .ok w') :
    op a b = .ok w ↔ op' b' a' = .ok w' := by
  obtain ⟨_, e1, ea⟩ := C38_transposed t a hn
  cases ha.symm.trans e1
  obtain ⟨_, e2, eb⟩ := C38_transposed t b hc
  cases hb.symm.trans e2
  obtain ⟨_, e3, ew⟩ := C38_transposed t w hc
  cases hw.symm.trans e3
  rw [C41_mul_entries t O op hop a b hl hn hc, C41_mul_entries t O op' hop' b' a' hc hn hl, forall_comm]
  simp only [ea, eb, ew]
  refine forall_congr' fun j => forall_congr' fun i => ?_
  rw [mulSum_comm hO]

/-- C89: `a * aᵀ` and `aᵀ * a` are exactly symmetric. -/
theorem C89_gram (hO : O.MulComm) (a : Mat T r c) (hr : r < t.W) (hc : c < t.W) (b : Mat T c r)
    (hb : a.transposed t = .ok b) :
    (∀ op ∈ mulForms (l := r) (n := c) (c := r) t O, ∀ w, op a b = .ok w → ∀ i j, w.get i j = w.get j i) ∧
    (∀ op ∈ mulForms (l := c) (n := r) (c := c) t O, ∀ w, op b a = .ok w → ∀ i j, w.get i j = w.get j i) := by
  obtain ⟨_, e1, eb⟩ := C38_transposed t a hc
  cases hb.symm.trans e1
  refine ⟨fun op hop w hw i j => ?_, fun op hop w hw i j => ?_⟩
  · have h := (C41_mul_entries t O op hop a b hr hc hr w).1 hw
    have h1 := h i j
    have h2 := h j i
    rw [mulSum_comm hO] at h2
    simp only [eb] at h1 h2
    exact Except.ok.inj (h1.symm.trans h2)
  · have h := (C41_mul_entries t O op hop b a hc hr hc w).1 hw
    have h1 := h i j
    have h2 := h j i
    rw [mulSum_comm hO] at h2
    simp only [eb] at h1 h2
    exact Except.ok.inj (h1.symm.trans h2)

/-- C89: a 2x2 matrix and its transpose have the same determinant to the last bit. -/
theorem C89_det2_transposed (hO : O.MulComm) (a b : Mat T 2 2) (ht : 2 < t.W) (hb : a.transposed t = .ok b) :
    a.determinant t O 1 = b.determinant t O 1 := by
  obtain ⟨_, e1, eb⟩ := C38_transposed t a ht
  cases hb.symm.trans e1
  have h := fun i j => (eb i j).symm
  simp only [Mat.determinant, Mat.det2, Mat.idxStatic_ok t _ (show 0 < 2 by omega) (show 0 < 2 by omega),
    Mat.idxStatic_ok t _ (show 1 < 2 by omega) (show 0 < 2 by omega), Mat.idxStatic_ok t _ (show 0 < 2 by omega) (show 1 < 2 by omega),
    Mat.idxStatic_ok t _ (show 1 < 2 by omega) (show 1 < 2 by omega), res_ok_bind, h]
  rw [hO (b.get ⟨0, _⟩ ⟨1, _⟩)]

/-- C89: negating twice gives the matrix back if it does so for the elements. -/
theorem C89_neg_neg (hO : ∀ x y, O.neg x = .ok y → O.neg y = .ok x) (a : Mat T r c) (b : Mat T r c) (v w : Vec T n) :
    (a.neg t O.neg = .ok b → b.neg t O.neg = .ok a) ∧ (v.neg t O.neg = .ok w → w.neg t O.neg = .ok v) := by
  refine ⟨fun h => ?_, fun h => ?_⟩
  · refine (C19_mat_ok t O.mul O.neg b O.zero a a).2.2.2 fun i j => hO _ _ ?_
    exact (C19_mat_ok t O.mul O.neg a O.zero b b).2.2.1 h i j
  · refine (C19_vec_ok t O.mul O.neg w O.zero v).2.2.2 fun i => hO _ _ ?_
    exact (C19_vec_ok t O.mul O.neg v O.zero w).2.2.1 h i

/-- C89: the first powers, for any element type: `pow(0)` is the identity, `pow(1)` the matrix itself, `pow(2)` one product,
`pow(3)` the matrix times its square, and `pow(2k)` for `k > 0` is `pow(k)` of the square. -/
theorem C89_pow (a : Mat T n n) :
    a.pow t O 0 = Mat.identity t O n ∧ a.pow t O 1 = .ok a ∧ a.pow t O 2 = a.mulVV t O a ∧
    a.pow t O 3 = (do let b ← a.mulVV t O a; a.mulVV t O b) ∧
    ∀ k, 0 < k → a.pow t O (2 * k) = (do let b ← a.mulVV t O a; b.pow t O k) := by
  have e2 : ∀ k, 0 < k → a.pow t O (2 * k) = (do let b ← a.mulVV t O a; b.pow t O k) := by
    intro k hk
    simp only [Mat.pow, Mat.clone_ok, res_ok_bind]
    rw [numPow, if_neg (by omega), powStrip, dif_pos ⟨by omega, by omega⟩, show 2 * k / 2 = k by omega, bind_assoc]
    congr 1; funext b
    rw [numPow, if_neg (by omega)]
  have e1 : ∀ b : Mat T n n, b.pow t O 1 = .ok b := by
    intro b
    simp only [Mat.pow, Mat.clone_ok, res_ok_bind]
    rw [numPow, if_neg (by omega), powStrip, dif_neg (by omega)]
    rfl
  refine ⟨?_, e1 a, ?_, ?_, e2⟩
  · simp only [Mat.pow, Mat.clone_ok, res_ok_bind]
    rw [numPow, if_pos rfl]; rfl
  · rw [show 2 = 2 * 1 from rfl, e2 1 (by omega)]
    simp only [e1]
    cases a.mulVV t O a <;> rfl
  · simp only [Mat.pow, Mat.clone_ok, res_ok_bind]
    rw [numPow, if_neg (by omega), powStrip, dif_neg (by omega)]
    simp only [pure_bind]
    rw [if_neg (by omega), powLoop, dif_pos (by omega)]
    congr 1; funext b
    rw [show 3 / 2 = 1 from rfl, if_pos (by rfl)]
    cases h : a.mulVV t O b with
    | error e => rfl
    | ok x => simp only [res_ok_bind]; rw [powLoop, dif_neg (by omega)]; rfl

end

/-! ### `f32` and `f64` -/

section
variable {f : FloatFormat} {l n r c : Nat} (t : Target)

/-- C89: element types to which the identities above apply: floats, integers with and without overflow checks, fractions of
checked integers. -/
theorem C89_types (f : FloatFormat) : (Ops.ieee f).MulComm ∧ (Ops.ieee f).AddComm ∧
    (∀ x y, (Ops.ieee f).neg x = .ok y → (Ops.ieee f).neg y = .ok x) ∧
    (Ops.trap f).MulComm ∧ (Ops.trap f).AddComm ∧
    (∀ checks w, (Ops.signed checks w).MulComm ∧ (Ops.signed checks w).AddComm ∧
      (Ops.unsigned checks w).MulComm ∧ (Ops.unsigned checks w).AddComm) ∧
    ∀ w, (Ops.ratio w).MulComm := by
  have m : ∀ a b : Fl f, a.mul b = b.mul a := by
    intro a b
    cases a <;> cases b <;> simp only [Fl.mul, Bool.xor_comm, mul_comm, Fl.val, Fl.sign]
    all_goals rfl
  have a : ∀ a b : Fl f, a.add b = b.add a := by
    intro a b
    cases a <;> cases b <;> simp only [Fl.add, Bool.and_comm, add_comm, Fl.val, Fl.sign]
    rename_i s s'
    cases s <;> cases s' <;> rfl
  refine ⟨fun x y => congrArg Except.ok (m x y), fun x y => congrArg Except.ok (a x y), ?_, ?_, ?_, ?_, ?_⟩
  · rintro x _ ⟨⟩
    show Except.ok _ = _
    congr 1
    cases x with
    | nan => rfl
    | inf s => cases s <;> rfl
    | negZero => simp [Fl.neg]
    | fin x r h =>
      by_cases h0 : x = 0
      · subst h0; simp [Fl.neg]
      · simp [Fl.neg, h0]
  · intro x y
    simp only [Ops.trap]
    by_cases h : (x.1.mul y.1).IsFinite ∧ (x.1.val * y.1.val = 0 ∨ f.minPos ≤ |x.1.val * y.1.val|)
    · have h' := h
      rw [m, mul_comm x.1.val] at h'
      rw [dif_pos h, dif_pos h']
      exact congrArg Except.ok (Subtype.ext (m x.1 y.1))
    · have h' := h
      rw [m, mul_comm x.1.val] at h'
      rw [dif_neg h, dif_neg h']
  · intro x y
    simp only [Ops.trap]
    by_cases h : (x.1.add y.1).IsFinite
    · have h' := h
      rw [a] at h'
      rw [dif_pos h, dif_pos h']
      exact congrArg Except.ok (Subtype.ext (a x.1 y.1))
    · have h' := h
      rw [a] at h'
      rw [dif_neg h, dif_neg h']
  · refine fun checks w => ⟨fun x y => ?_, fun x y => ?_, fun x y => ?_, fun x y => ?_⟩
    · simp only [Ops.signed, mul_comm]
    · simp only [Ops.signed, add_comm]
    · simp only [Ops.unsigned, mul_comm]
    · simp only [Ops.unsigned, add_comm]
  · intro w x y
    simp only [Ops.ratio, mul_comm]

theorem rnd_nonneg {x : ℝ} (hx : 0 ≤ x) : 0 ≤ f.rnd x := by
  have hp := FloatFormat.two_zpow_pos (f.lastPlace x)
  have h1 := (abs_le.1 (roundEven_error (x / 2 ^ f.lastPlace x))).1
  have h2 : (0 : ℝ) ≤ x / 2 ^ f.lastPlace x := by positivity
  have h3 : (-1 : ℝ) < roundEven (x / 2 ^ f.lastPlace x) := by linarith
  have h4 : (-1 : ℤ) < roundEven (x / 2 ^ f.lastPlace x) := by exact_mod_cast h3
  have h5 : (0 : ℝ) ≤ roundEven (x / 2 ^ f.lastPlace x) := by exact_mod_cast (by omega : 0 ≤ roundEven (x / 2 ^ f.lastPlace x))
  exact mul_nonneg h5 hp.le

/-- Rounding a number that is not negative. -/
theorem sign_round {s : Bool} {x : ℝ} (hx : 0 ≤ x) (h : x = 0 → s = false) :
    (Fl.round s x : Fl f).sign = false ∧ (Fl.round s x : Fl f) ≠ .nan := by
  unfold Fl.round
  split
  · rw [if_neg]
    · exact ⟨by simpa [Fl.sign] using rnd_nonneg hx, by simp⟩
    · rintro ⟨_, h1 | ⟨h1, h2⟩⟩
      · linarith
      · rw [h h1] at h2; cases h2
  · exact ⟨by simpa [Fl.sign] using hx, by simp⟩

/-- Sign bit clear or NaN (`Fl.sign` of NaN is false), that is `+0`, positive numbers, `+inf` and NaN: sums stay so, and no
NaN arises. -/
theorem sign_add {a b : Fl f} (ha : a.sign = false) (hb : b.sign = false) : (a.add b).sign = false ∧
    (a.add b = .nan ↔ a = .nan ∨ b = .nan) := by
  have key : a.IsFinite → b.IsFinite → (a.add b).sign = false ∧ (a.add b = .nan ↔ a = .nan ∨ b = .nan) := by
    intro h1 h2
    have hv : ∀ x : Fl f, x.IsFinite → x.sign = false → 0 ≤ x.val := by
      intro x h hx
      cases x with
      | fin x r h => show 0 ≤ x; simpa [Fl.sign] using hx
      | negZero => cases hx
      | nan => exact h.elim
      | inf => exact h.elim
    obtain ⟨e1, e2⟩ := sign_round (f := f) (s := a.sign && b.sign) (add_nonneg (hv a h1 ha) (hv b h2 hb)) (fun _ => by rw [ha]; rfl)
    rw [Fl.add_of_finite h1 h2]
    refine ⟨e1, fun h => absurd h e2, ?_⟩
    rintro (rfl | rfl)
    · exact h1.elim
    · exact h2.elim
  cases a <;> cases b <;> first
    | exact key trivial trivial
    | (simp only [Fl.sign, reduceCtorEq] at ha; done)
    | (simp only [Fl.sign, reduceCtorEq] at hb; done)
    | simp_all [Fl.add, Fl.sign]

theorem sign_mul_self (a : Fl f) : (a.mul a).sign = false ∧ (a.mul a = .nan ↔ a = .nan) := by
  have key : a.IsFinite → (a.mul a).sign = false ∧ (a.mul a = .nan ↔ a = .nan) := by
    intro h
    obtain ⟨e1, e2⟩ := sign_round (f := f) (s := a.sign ^^ a.sign) (mul_self_nonneg a.val) (fun _ => by simp)
    rw [Fl.mul_of_finite h h]
    refine ⟨e1, fun h => absurd h e2, ?_⟩
    rintro rfl
    exact h.elim
  cases a <;> first
    | exact key trivial
    | simp [Fl.mul, Fl.sign]

theorem sign_fold {ι : Type} (g : ι → Fl f) (hg : ∀ i, (g i).sign = false) (l : List ι) {x : Fl f} (hx : x.sign = false) :
    ∃ z, l.foldlM (fun acc i => (Ops.ieee f).add acc (g i)) x = .ok z ∧ z.sign = false ∧
      (z = .nan ↔ x = .nan ∨ ∃ i ∈ l, g i = .nan) := by
  induction l generalizing x with
  | nil => exact ⟨x, rfl, hx, by simp⟩
  | cons i l ih =>
    obtain ⟨h1, h2⟩ := sign_add hx (hg i)
    obtain ⟨z, e1, e2, e3⟩ := ih h1
    exact ⟨z, e1, e2, by rw [e3, h2]; simp [or_assoc]⟩

/-- C89, floats: `v.dot(&v)` is never negative and never `-0`; it is NaN only if `v` contains a NaN. -/
theorem C89_dot_self (v : Vec (Fl f) n) :
    ∃ z, v.dot (Ops.ieee f) v = .ok z ∧ z.sign = false ∧ (z = .nan ↔ ∃ i, v.get i = .nan) := by
  rw [Vec.dot, Vec.zip_eq, mulFold, List.foldlM_map]
  obtain ⟨z, e1, e2, e3⟩ := sign_fold (fun i => (v.get i).mul (v.get i)) (fun i => (sign_mul_self _).1) (List.finRange n)
    (x := (Ops.ieee f).zero) (by simp [Ops.ieee, Fl.ofInt, Fl.sign])
  refine ⟨z, e1, e2, ?_⟩
  rw [e3]
  simp [(sign_mul_self _).2, Ops.ieee, Fl.ofInt]

/-- C89, floats: the sum of elements without sign is without sign, and NaN only if one of them is. -/
theorem C89_sum_nonneg (v : Vec (Fl f) n) (h : ∀ i, (v.get i).sign = false) :
    ∃ z, v.sum (Ops.ieee f) = .ok z ∧ z.sign = false ∧ (z = .nan ↔ ∃ i, v.get i = .nan) := by
  rw [Vec.sum, Vec.toList_eq, List.foldlM_map]
  obtain ⟨z, e1, e2, e3⟩ := sign_fold v.get h (List.finRange n) (x := (Ops.ieee f).zero) (by simp [Ops.ieee, Fl.ofInt, Fl.sign])
  refine ⟨z, e1, e2, ?_⟩
  rw [e3]
  simp [Ops.ieee, Fl.ofInt]

/-- C89, floats: a permutation matrix permutes the rows of a matrix of finite numbers, and only does so (`-0` becomes `+0`). -/
theorem C89_permutation (σ : Fin r → Fin r) (p : Mat (Fl f) r r) (a : Mat (Fl f) r c) (hr : r < t.W) (hc : c < t.W)
    (hp : ∀ i k, p.get i k = if k = σ i then (Ops.ieee f).one else (Ops.ieee f).zero) (ha : ∀ i j, (a.get i j).IsFinite)
    (op) (hop : op ∈ mulForms (l := r) (n := r) (c := c) t (Ops.ieee f)) :
    ∃ w, op p a = .ok w ∧ ∀ i j, (w.get i j).Copies (a.get (σ i) j) := by
  have h := fun i j => unit_mulFold (fun k => a.get k j) (σ i) _ _ (.inr ⟨rfl, rfl⟩)
  choose z hz h1 h2 using h
  refine ⟨Mat.ofFn z, (C41_mul_entries t _ op hop _ a hr hr hc _).2 fun i j => ?_, fun i j => ?_⟩
  · rw [← mulFold_mulSum, Mat.get_ofFn, ← hz i j]
    simp only [hp]
  · rw [Mat.get_ofFn]; exact h1 i j fun k => ha k j

/-- C89, floats, on the right: a permutation matrix permutes the columns, and only does so. -/
theorem C89_permutation_right (σ : Fin c → Fin c) (p : Mat (Fl f) c c) (a : Mat (Fl f) r c) (hr : r < t.W) (hc : c < t.W)
    (hp : ∀ k j, p.get k j = if k = σ j then (Ops.ieee f).one else (Ops.ieee f).zero) (ha : ∀ i j, (a.get i j).IsFinite)
    (op) (hop : op ∈ mulForms (l := r) (n := c) (c := c) t (Ops.ieee f)) :
    ∃ w, op a p = .ok w ∧ ∀ i j, (w.get i j).Copies (a.get i (σ j)) := by
  have h := fun i j => unit_mulFold (fun k => a.get i k) (σ j) _ _ (.inl ⟨rfl, rfl⟩)
  choose z hz h1 h2 using h
  refine ⟨Mat.ofFn z, (C41_mul_entries t _ op hop a _ hr hc hc _).2 fun i j => ?_, fun i j => ?_⟩
  · rw [← mulFold_mulSum, Mat.get_ofFn, ← hz i j]
    simp only [hp]
  · rw [Mat.get_ofFn]; exact h1 i j fun k => ha i k

/-- C89, floats: multiplying by a diagonal matrix rounds each entry once: entry `(i, j)` is `d i * a i j` as one
multiplication gives it (`-0` becomes `+0`), if these products are finite. -/
theorem C89_diag (d : Fin r → Fl f) (p : Mat (Fl f) r r) (a : Mat (Fl f) r c) (hr : r < t.W) (hc : c < t.W)
    (hp : ∀ i k, p.get i k = if k = i then d i else (Ops.ieee f).zero) (ha : ∀ i j, (a.get i j).IsFinite)
    (hd : ∀ i j, ((d i).mul (a.get i j)).IsFinite)
    (op) (hop : op ∈ mulForms (l := r) (n := r) (c := c) t (Ops.ieee f)) :
    ∃ w, op p a = .ok w ∧ ∀ i j, (w.get i j).Copies ((d i).mul (a.get i j)) := by
  have h : ∀ i j, ∃ z, mulSum (Ops.ieee f) r (fun k => p.get i k) (fun k => a.get k j) = .ok z ∧
      z.Copies ((d i).mul (a.get i j)) := by
    intro i j
    have hg : ∀ k, ((p.get i k).mul (a.get k j)).IsFinite ∧ (k ≠ i → ((p.get i k).mul (a.get k j)).val = 0) := by
      intro k
      by_cases hk : k = i
      · subst hk; rw [hp, if_pos rfl]; exact ⟨hd k j, fun h => absurd rfl h⟩
      · rw [hp, if_neg hk]
        have e0 : (Ops.ieee f).zero.val = 0 := by simp [Ops.ieee, Fl.ofInt, Fl.val]
        have hm : 0 ≤ f.max := (abs_nonneg _).trans (Fl.abs_val_le (a.get k j))
        obtain ⟨x, y⟩ := mul_exact (x := (Ops.ieee f).zero) (y := a.get k j) trivial (ha k j) (by rw [e0, zero_mul]; exact .zero f)
          (by rw [e0, zero_mul, abs_zero]; exact hm)
        exact ⟨x, fun _ => by rw [y, e0, zero_mul]⟩
    obtain ⟨z, e1, e2, e3, e4⟩ := fold_copies (fun k => (p.get i k).mul (a.get k j)) i (fun k => (hg k).1)
      (fun k hk => (hg k).2 hk) (List.finRange r) (List.nodup_finRange r) (x := (Ops.ieee f).zero) trivial
      (by simp [Ops.ieee, Fl.ofInt]) (fun _ => by simp [Ops.ieee, Fl.ofInt, Fl.val])
    refine ⟨z, ?_, e2, ?_, e4⟩
    · rw [← mulFold_mulSum, mulFold, List.foldlM_map]; exact e1
    · rw [e3, if_pos (List.mem_finRange i), hp, if_pos rfl]; simp [Ops.ieee, Fl.ofInt, Fl.val]
  choose z hz h1 using h
  refine ⟨Mat.ofFn z, (C41_mul_entries t _ op hop _ a hr hr hc _).2 fun i j => ?_, fun i j => ?_⟩
  · rw [Mat.get_ofFn]; exact hz i j
  · rw [Mat.get_ofFn]; exact h1 i j

/-- C89, floats, on the right: multiplying by a diagonal matrix from the right rounds each entry once. -/
theorem C89_diag_right (d : Fin c → Fl f) (p : Mat (Fl f) c c) (a : Mat (Fl f) r c) (hr : r < t.W) (hc : c < t.W)
    (hp : ∀ k j, p.get k j = if k = j then d j else (Ops.ieee f).zero) (ha : ∀ i j, (a.get i j).IsFinite)
    (hd : ∀ i j, ((a.get i j).mul (d j)).IsFinite)
    (op) (hop : op ∈ mulForms (l := r) (n := c) (c := c) t (Ops.ieee f)) :
    ∃ w, op a p = .ok w ∧ ∀ i j, (w.get i j).Copies ((a.get i j).mul (d j)) := by
  have hcm : ∀ x y : Fl f, x.mul y = y.mul x := fun x y => Except.ok.inj ((C89_types f).1 x y)
  obtain ⟨a', e1, ea⟩ := C38_transposed t a hc
  obtain ⟨p', e2, ep⟩ := C38_transposed t p hc
  obtain ⟨w, h1, h2⟩ := C89_diag t d p' a' hc hr (fun i k => by rw [ep, hp]) (fun i j => by rw [ea]; exact ha _ _)
    (fun i j => by rw [ea, hcm]; exact hd _ _) (Mat.mulVV t (Ops.ieee f)) (by simp [mulForms])
  obtain ⟨v, e3, ev⟩ := C38_transposed t w hr
  obtain ⟨w', e4, ew⟩ := C38_transposed t v hc
  have : w' = w := Mat.ext_get fun i j => by rw [ew, ev]
  subst this
  refine ⟨v, (C89_mul_transposed t (C89_types f).1 a p hr hc hc op hop _ (by simp [mulForms]) a' p' e1 e2 v _ e4).2 h1, fun i j => ?_⟩
  have := h2 j i
  rwa [ea, ew, hcm] at this

/-! Powers of two -/

theorem log_scale (e : Nat) {x : ℝ} (hx : x ≠ 0) : Int.log 2 |2 ^ e * x| = Int.log 2 |x| + e := by
  have h1 := FloatFormat.log_le hx
  have h2 := FloatFormat.lt_log x
  have hx' : (2 : ℝ) ^ e * x ≠ 0 := mul_ne_zero (by positivity) hx
  have h3 := FloatFormat.log_le hx'
  have h4 := FloatFormat.lt_log (2 ^ e * x)
  have e1 : |(2 : ℝ) ^ e * x| = 2 ^ e * |x| := by rw [abs_mul, abs_of_pos (by positivity)]
  rw [e1] at h3 h4
  have e2 : ∀ k : ℤ, (2 : ℝ) ^ e * 2 ^ k = 2 ^ (k + e) := fun k => by
    rw [zpow_add₀ (by norm_num), zpow_natCast, mul_comm]
  have hp : (0 : ℝ) < 2 ^ e := by positivity
  have h5 := lt_of_le_of_lt h3 (mul_lt_mul_of_pos_left h2 hp)
  have h6 := lt_of_le_of_lt (mul_le_mul_of_nonneg_left h1 hp.le) h4
  rw [e2] at h5 h6
  have h7 := (zpow_lt_zpow_iff_right₀ (by norm_num : (1 : ℝ) < 2)).1 h5
  have h8 := (zpow_lt_zpow_iff_right₀ (by norm_num : (1 : ℝ) < 2)).1 h6
  rw [e1]
  omega

/-- Rounding commutes with multiplication by a power of two, for numbers in the normal range or representable. -/
theorem rnd_scale (e : Nat) {x : ℝ} (h : f.Rep x ∨ f.emin ≤ Int.log 2 |x| - f.prec + 1) :
    f.rnd (2 ^ e * x) = 2 ^ e * f.rnd x := by
  by_cases hx : x = 0
  · subst hx; simp
  rcases h with h | h
  · rw [f.rnd_rep h]
    refine f.rnd_rep ?_
    obtain ⟨m, k, h1, h2, rfl⟩ := h
    refine ⟨m, k + e, by omega, h2, ?_⟩
    rw [zpow_add₀ (by norm_num), zpow_natCast]; ring
  · have e1 : f.lastPlace (2 ^ e * x) = f.lastPlace x + e := by
      rw [FloatFormat.lastPlace, FloatFormat.lastPlace, log_scale e hx, max_eq_left h, max_eq_left (by omega)]; ring
    have e2 : (2 : ℝ) ^ (f.lastPlace x + e) = 2 ^ e * 2 ^ f.lastPlace x := by
      rw [zpow_add₀ (by norm_num), zpow_natCast, mul_comm]
    rw [FloatFormat.rnd, e1, e2, mul_div_mul_left _ _ (by positivity), FloatFormat.rnd]; ring

theorem rep_or_normal {x y : ℝ} (hx : f.Rep x) (hy : f.Rep y) :
    f.Rep (x + y) ∨ f.emin ≤ Int.log 2 |x + y| - f.prec + 1 := by
  rcases le_total f.emin (Int.log 2 |x + y| - f.prec + 1) with h | h
  · exact .inr h
  · refine .inl ?_
    obtain ⟨m, e, he, _, ex⟩ := hx
    obtain ⟨m', e', he', _, ey⟩ := hy
    obtain ⟨k, hk, _⟩ := FloatFormat.zpow_split e _ he
    obtain ⟨k', hk', _⟩ := FloatFormat.zpow_split e' _ he'
    have e1 : x + y = ((m * 2 ^ k + m' * 2 ^ k' : ℤ) : ℝ) * 2 ^ f.emin := by
      rw [ex, ey, hk, hk']; push_cast; ring
    have h2 : |x + y| < 2 ^ f.prec * 2 ^ f.emin := by
      refine lt_of_lt_of_le (FloatFormat.lt_log _) ?_
      rw [← zpow_natCast, ← zpow_add₀ (by norm_num)]
      exact zpow_le_zpow_right₀ (by norm_num) (by omega)
    refine ⟨_, f.emin, le_rfl, ?_, e1⟩
    rw [e1, abs_mul, abs_of_pos (FloatFormat.two_zpow_pos _)] at h2
    have := lt_of_mul_lt_mul_right h2 (FloatFormat.two_zpow_pos _).le
    exact_mod_cast this

/-- The value of a sum without overflow. -/
theorem trap_add {x y z : {a : Fl f // a.IsFinite}} (h : (Ops.trap f).add x y = .ok z) :
    z.1.val = f.rnd (x.1.val + y.1.val) := by
  simp only [Ops.trap] at h
  split at h
  · next h' => cases h; exact (Fl.finite_add h').2.2
  · cases h

/-- The value of a product without overflow and underflow. -/
theorem trap_mul {x y z : {a : Fl f // a.IsFinite}} (h : (Ops.trap f).mul x y = .ok z) :
    z.1.val = f.rnd (x.1.val * y.1.val) ∧ (f.Rep (x.1.val * y.1.val) ∨ f.emin ≤ Int.log 2 |x.1.val * y.1.val| - f.prec + 1) := by
  simp only [Ops.trap] at h
  split at h
  · next h' =>
    cases h
    refine ⟨(Fl.finite_mul h'.1).2.2, ?_⟩
    rcases h'.2 with h0 | h0
    · rw [h0]; exact .inl (.zero f)
    · refine .inr ?_
      have h1 := lt_of_le_of_lt h0 (FloatFormat.lt_log _)
      rw [FloatFormat.minPos] at h1
      have := (zpow_lt_zpow_iff_right₀ (by norm_num : (1 : ℝ) < 2)).1 h1
      omega
  · cases h

theorem scale_mulSum (e : Nat) (p p' q : Fin n → {a : Fl f // a.IsFinite}) (hp : ∀ i, (p' i).1.val = 2 ^ e * (p i).1.val)
    {z z'} (hz : mulSum (Ops.trap f) n p q = .ok z) (hz' : mulSum (Ops.trap f) n p' q = .ok z') :
    z'.1.val = 2 ^ e * z.1.val := by
  induction n generalizing z z' with
  | zero => cases hz; cases hz'; simp [Ops.trap, Ops.ieee, Fl.ofInt, Fl.val]
  | succ n ih =>
    simp only [mulSum, bind_ok_iff] at hz hz'
    obtain ⟨x, hx, y, hy, hz⟩ := hz
    obtain ⟨x', hx', y', hy', hz'⟩ := hz'
    have h1 := ih _ _ _ (fun i => hp _) hx hx'
    have h2 : y'.1.val = 2 ^ e * y.1.val := by
      rw [(trap_mul hy').1, hp, mul_assoc, rnd_scale e (trap_mul hy).2, (trap_mul hy).1]
    rw [trap_add hz', h1, h2, ← mul_add, rnd_scale e (rep_or_normal x.1.rep_val y.1.rep_val), trap_add hz]

/-- C89, floats: scaling by a power of two is exact.  If the elements of `a'` are `2^e` times those of `a` and no operation
of either computation overflows or underflows, the dot product and the entries of the product are `2^e` times as large,
exactly. -/
theorem C89_scale (e : Nat) (a a' b : Vec {x : Fl f // x.IsFinite} n) (ha : ∀ i, (a'.get i).1.val = 2 ^ e * (a.get i).1.val)
    (x x' : Mat {x : Fl f // x.IsFinite} l n) (hx : ∀ i j, (x'.get i j).1.val = 2 ^ e * (x.get i j).1.val)
    (y : Mat {x : Fl f // x.IsFinite} n c) (hl : l < t.W) (hn : n < t.W) (hc : c < t.W) :
    (∀ z z', a.dot (Ops.trap f) b = .ok z → a'.dot (Ops.trap f) b = .ok z' → z'.1.val = 2 ^ e * z.1.val) ∧
    (∀ op ∈ mulForms t (Ops.trap f), ∀ w w', op x y = .ok w → op x' y = .ok w' →
      ∀ i j, (w'.get i j).1.val = 2 ^ e * (w.get i j).1.val) := by
  refine ⟨fun z z' hz hz' => ?_, fun op hop w w' hw hw' i j => ?_⟩
  · rw [Vec.dot, Vec.zip_eq, mulFold_mulSum] at hz hz'
    exact scale_mulSum e _ _ _ ha hz hz'
  · exact scale_mulSum e _ _ _ (hx i) ((C41_mul_entries t _ op hop x y hl hn hc w).1 hw i j)
      ((C41_mul_entries t _ op hop x' y hl hn hc w').1 hw' i j)

/-- C89, floats, the right operand: the same if the elements of the right operand are scaled, and for a matrix times a vector. -/
theorem C89_scale_right (e : Nat) (b b' : Vec {x : Fl f // x.IsFinite} n) (hb : ∀ i, (b'.get i).1.val = 2 ^ e * (b.get i).1.val)
    (a : Vec {x : Fl f // x.IsFinite} n) (x : Mat {x : Fl f // x.IsFinite} l n) (y y' : Mat {x : Fl f // x.IsFinite} n c)
    (hy : ∀ i j, (y'.get i j).1.val = 2 ^ e * (y.get i j).1.val) (hl : l < t.W) (hn : n < t.W) (hc : c < t.W) :
    (∀ z z', a.dot (Ops.trap f) b = .ok z → a.dot (Ops.trap f) b' = .ok z' → z'.1.val = 2 ^ e * z.1.val) ∧
    (∀ op ∈ mulForms t (Ops.trap f), ∀ w w', op x y = .ok w → op x y' = .ok w' →
      ∀ i j, (w'.get i j).1.val = 2 ^ e * (w.get i j).1.val) := by
  have hm := (C89_types f).2.2.2.1
  refine ⟨fun z z' hz hz' => ?_, fun op hop w w' hw hw' i j => ?_⟩
  · rw [Vec.dot, Vec.zip_eq, mulFold_mulSum, mulSum_comm hm] at hz hz'
    exact scale_mulSum e _ _ _ hb hz hz'
  · have h := (C41_mul_entries t _ op hop x y hl hn hc w).1 hw i j
    have h' := (C41_mul_entries t _ op hop x y' hl hn hc w').1 hw' i j
    rw [mulSum_comm hm] at h h'
    exact scale_mulSum e _ _ _ (fun k => hy k j) h h'

/-! Concrete cases. -/

/-- Symmetry to the last bit in the presence of anything. -/
example : (⟨[.nan, .inf true, .negZero], rfl⟩ : Vec (Fl .f32) 3).dot (Ops.ieee .f32) ⟨[.inf false, .nan, .negZero], rfl⟩ =
    (⟨[.inf false, .nan, .negZero], rfl⟩ : Vec (Fl .f32) 3).dot (Ops.ieee .f32) ⟨[.nan, .inf true, .negZero], rfl⟩ :=
  C89_dot_comm (C89_types .f32).1 _ _

/-- Addition of floats is not associative, so the claims are not consequences of ring laws: `(2^24 + 1) + 1` is `2^24` in
`f32`, `2^24 + (1 + 1)` is not. -/
example : FloatFormat.f32.rnd (FloatFormat.f32.rnd (2 ^ 24 + 1) + 1) = 2 ^ 24 ∧ FloatFormat.f32.rnd (2 ^ 24 + FloatFormat.f32.rnd (1 + 1)) ≠ 2 ^ 24 := by
  rw [f32_tie]
  refine ⟨f32_tie, ?_⟩
  have h2 : FloatFormat.f32.rnd (1 + 1) = 2 := by
    rw [show (1 + 1 : ℝ) = ((2 : ℤ) : ℝ) by norm_num]
    exact FloatFormat.rnd_rep _ (.int _ (by norm_num [FloatFormat.f32]))
  have h3 : FloatFormat.f32.rnd (2 ^ 24 + 2) = 2 ^ 24 + 2 := by
    refine FloatFormat.rnd_rep _ ⟨2 ^ 23 + 1, 1, by norm_num [FloatFormat.f32], by norm_num [FloatFormat.f32], ?_⟩
    norm_num
  rw [h2, h3]
  norm_num

theorem trap_ints_mul {x y : {a : Fl .f32 // a.IsFinite}} {p q : ℤ} (hx : x.1.val = p) (hy : y.1.val = q) (h : |p * q| ≤ 2 ^ 24)
    (h0 : p * q ≠ 0) : ∃ z, (Ops.trap .f32).mul x y = .ok z ∧ z.1.val = (p * q : ℤ) := by
  obtain ⟨z, hz, h1, h2⟩ := (C87_ints .f32).mul (a := x.1) (b := y.1) ⟨x.2, hx⟩ ⟨y.2, hy⟩
    (by
      have : |p| ≤ |p * q| := by rw [abs_mul]; exact le_mul_of_one_le_right (abs_nonneg _) (Int.one_le_abs (right_ne_zero_of_mul h0))
      exact this.trans h)
    (by
      have : |q| ≤ |p * q| := by rw [abs_mul]; exact le_mul_of_one_le_left (abs_nonneg _) (Int.one_le_abs (left_ne_zero_of_mul h0))
      exact this.trans h) h
  cases hz
  refine ⟨⟨_, h1⟩, ?_, h2⟩
  simp only [Ops.trap]
  refine dif_pos ⟨h1, .inr ?_⟩
  rw [hx, hy]
  have : (1 : ℝ) ≤ |(p : ℝ) * q| := by exact_mod_cast Int.one_le_abs h0
  refine le_trans ?_ this
  rw [FloatFormat.minPos]
  exact zpow_le_one_of_nonpos₀ (by norm_num) (by norm_num [FloatFormat.f32])

theorem trap_ints_add {x y : {a : Fl .f32 // a.IsFinite}} {p q : ℤ} (hx : x.1.val = p) (hy : y.1.val = q) (hp : |p| ≤ 2 ^ 24)
    (hq : |q| ≤ 2 ^ 24) (h : |p + q| ≤ 2 ^ 24) : ∃ z, (Ops.trap .f32).add x y = .ok z ∧ z.1.val = (p + q : ℤ) := by
  obtain ⟨z, hz, h1, h2⟩ := (C87_ints .f32).add (a := x.1) (b := y.1) ⟨x.2, hx⟩ ⟨y.2, hy⟩ hp hq h
  cases hz
  exact ⟨⟨_, h1⟩, by simp only [Ops.trap]; exact dif_pos h1, h2⟩

/-- A scaled pair meets the hypotheses of `C89_scale`: `(1)` and `(2)`. -/
example : ∃ a a' : Vec {x : Fl .f32 // x.IsFinite} 1, ∃ z z', (∀ i, (a'.get i).1.val = 2 ^ 1 * (a.get i).1.val) ∧
    a.dot (Ops.trap .f32) a = .ok z ∧ a'.dot (Ops.trap .f32) a = .ok z' ∧ z'.1.val = 2 := by
  let o : {x : Fl .f32 // x.IsFinite} := ⟨f32Int 1 (by norm_num), trivial⟩
  let w : {x : Fl .f32 // x.IsFinite} := ⟨f32Int 2 (by norm_num), trivial⟩
  have ho : o.1.val = (1 : ℤ) := rfl
  have hw : w.1.val = (2 : ℤ) := rfl
  have hz : (Ops.trap .f32).zero.1.val = (0 : ℤ) := rfl
  obtain ⟨p, hp, vp⟩ := trap_ints_mul ho ho (by norm_num) (by norm_num)
  obtain ⟨q, hq, vq⟩ := trap_ints_mul hw ho (by norm_num) (by norm_num)
  obtain ⟨z, hz1, _⟩ := trap_ints_add hz vp (by norm_num) (by norm_num) (by norm_num)
  obtain ⟨z', hz2, vz⟩ := trap_ints_add hz vq (by norm_num) (by norm_num) (by norm_num)
  refine ⟨⟨[o], rfl⟩, ⟨[w], rfl⟩, z, z', ?_, ?_, ?_, by rw [vz]; norm_num⟩
  · intro i
    fin_cases i
    show w.1.val = 2 ^ 1 * o.1.val
    rw [ho, hw]; norm_num
  · show mulFold _ [(o, o)] = _
    simp only [mulFold, List.foldlM_cons, List.foldlM_nil, hp, res_ok_bind, hz1]; rfl
  · show mulFold _ [(w, o)] = _
    simp only [mulFold, List.foldlM_cons, List.foldlM_nil, hq, res_ok_bind, hz2]; rfl

end
end Rowcol
