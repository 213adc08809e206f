import Verif.Lemmas.SoftFloat

/-! The bits of floating point numbers: `decode` and `encode` are inverse to each other except for the NaNs. -/

namespace Rowcol

theorem pow2_lt_iff {a b : ℤ} : pow2 a < pow2 b ↔ a < b := by
  rw [pow2_eq, pow2_eq]; exact zpow_lt_zpow_iff_right₀ (by norm_num)

theorem ilog2_unique {q : ℚ} {l : ℤ} (h1 : pow2 l ≤ |q|) (h2 : |q| < pow2 (l + 1)) : ilog2 q = l := by
  have hq : q ≠ 0 := by
    rintro rfl
    rw [abs_zero] at h1
    exact absurd h1 (not_le.2 (pow2_pos l))
  obtain ⟨a, b⟩ := ilog2_spec hq
  have c := pow2_lt_iff.1 (lt_of_le_of_lt a h2)
  have d := pow2_lt_iff.1 (lt_of_le_of_lt h1 b)
  omega

theorem ilog2_neg (q : ℚ) : ilog2 (-q) = ilog2 q := by unfold ilog2; simp

set_option linter.unusedSectionVars false

namespace FloatFormat
variable (f : FloatFormat)

theorem half_pow : 2 ^ f.prec = 2 * 2 ^ (f.prec - 1) := by
  have := f.prec_pos
  rw [← pow_succ']; congr 1; omega

/-- The number `M * 2 ^ L` in the normal form of the format. -/
structure Normal (M : Nat) (L : ℤ) : Prop where
  pos : 0 < M
  lt : M < 2 ^ f.prec
  le : f.emin ≤ L
  norm : L = f.emin ∨ 2 ^ (f.prec - 1) ≤ M

variable {f}

theorem Normal.place {M : Nat} {L : ℤ} (h : f.Normal M L) : f.place (ilog2 (M * pow2 L)) = L := by
  have hp := f.prec_pos
  have hL := pow2_pos L
  have hM : (0 : ℚ) < M := by exact_mod_cast h.pos
  have hq : (0 : ℚ) < M * pow2 L := mul_pos hM hL
  have up : (M : ℚ) * pow2 L < pow2 (L + f.prec) := by
    rw [pow2_add, mul_comm (pow2 L)]
    refine mul_lt_mul_of_pos_right ?_ hL
    rw [pow2_nat]; exact_mod_cast h.lt
  obtain ⟨a, b⟩ := ilog2_spec hq.ne'
  rw [abs_of_pos hq] at a b
  have l1 : ilog2 ((M : ℚ) * pow2 L) < L + f.prec := pow2_lt_iff.1 (lt_of_le_of_lt a up)
  rw [place_eq]
  rcases h.norm with hn | hn
  · rw [hn] at l1 ⊢
    exact max_eq_right (by omega)
  · have lo : pow2 (L + (f.prec - 1 : Nat)) ≤ (M : ℚ) * pow2 L := by
      rw [pow2_add, mul_comm (pow2 L)]
      refine mul_le_mul_of_nonneg_right ?_ hL.le
      rw [pow2_nat]; exact_mod_cast hn
    have l2 : L + (f.prec - 1 : Nat) < ilog2 ((M : ℚ) * pow2 L) + 1 := pow2_lt_iff.1 (lt_of_le_of_lt lo b)
    have := h.le
    rw [max_eq_left (by omega)]
    omega

theorem Normal.rep {M : Nat} {L : ℤ} (h : f.Normal M L) : f.rndQ (M * pow2 L) = M * pow2 L := by
  apply f.rndQ_of_rep
  refine ⟨M, L, h.le, ?_, ?_⟩
  · rw [Nat.abs_cast]; exact_mod_cast h.lt
  · rw [Rat.cast_mul, pow2_cast]; simp

theorem Normal.fieldBits {M : Nat} {L : ℤ} (h : f.Normal M L) :
    f.fieldBits (M * pow2 L) = (L - f.emin).toNat * 2 ^ (f.prec - 1) + M := by
  have hM : (0 : ℚ) < M := by exact_mod_cast h.pos
  have hq : (0 : ℚ) < M * pow2 L := mul_pos hM (pow2_pos L)
  unfold FloatFormat.fieldBits
  rw [if_neg hq.ne']
  dsimp only
  rw [h.place, abs_of_pos hq, mul_div_assoc, div_self (pow2_pos L).ne', mul_one]
  simp

theorem fieldBits_neg (q : ℚ) : f.fieldBits (-q) = f.fieldBits q := by
  unfold fieldBits; simp [ilog2_neg]

/-- Every positive number of the format has a normal form. -/
theorem normal_of_rep {q : ℚ} (hq : 0 < q) (h : f.rndQ q = q) : ∃ (M : Nat) (L : ℤ), f.Normal M L ∧ q = M * pow2 L := by
  have hp := f.prec_pos
  obtain ⟨a, b⟩ := ilog2_spec hq.ne'
  rw [abs_of_pos hq] at a b
  unfold rndQ at h
  rw [if_neg hq.ne'] at h
  dsimp only at h
  have hpl := f.place_eq (ilog2 q)
  generalize f.place (ilog2 q) = L at *
  have hL := pow2_pos L
  generalize roundEvenQ (q / pow2 L) = z at h
  have hz : 0 < z := by
    have : (0 : ℚ) < z := by
      by_contra g
      have : (z : ℚ) * pow2 L ≤ 0 := mul_nonpos_of_nonpos_of_nonneg (not_lt.1 g) hL.le
      linarith
    exact_mod_cast this
  obtain ⟨M, rfl⟩ := Int.eq_ofNat_of_zero_le hz.le
  have e : q = M * pow2 L := by rw [← h]; simp
  refine ⟨M, L, ⟨by omega, ?_, ?_, ?_⟩, e⟩
  · have h1 : q < pow2 (L + f.prec) := b.trans_le (pow2_le (by have := le_max_left (ilog2 q - f.prec + 1) f.emin; omega))
    rw [e, pow2_add, mul_comm (pow2 L), pow2_nat] at h1
    have := lt_of_mul_lt_mul_right h1 hL.le
    exact_mod_cast this
  · rw [hpl]; exact le_max_right _ _
  · rcases le_total (ilog2 q - f.prec + 1) f.emin with g | g
    · left; rw [hpl]; exact max_eq_right g
    · right
      rw [max_eq_left g] at hpl
      rw [show ilog2 q = L + (f.prec - 1 : Nat) by omega, pow2_add, mul_comm (pow2 L), pow2_nat] at a
      replace a := a.trans_eq e
      have := le_of_mul_le_mul_right a hL
      exact_mod_cast this

theorem magnitude_normal {M : Nat} {L : ℤ} (h : f.Normal M L) :
    f.magnitude ((L - f.emin).toNat * 2 ^ (f.prec - 1) + M) = M * pow2 L := by
  have hP : 0 < 2 ^ (f.prec - 1) := by positivity
  have hlt := h.lt
  rw [half_pow] at hlt
  unfold magnitude
  have hle := h.le
  have hnorm := h.norm
  clear h
  generalize 2 ^ (f.prec - 1) = P at *
  dsimp only
  by_cases hM : M < P
  · have hL : L = f.emin := hnorm.resolve_right (by omega)
    subst hL
    rw [sub_self, Int.toNat_zero, zero_mul, zero_add, Nat.div_eq_of_lt hM, Nat.mod_eq_of_lt hM]
    simp
  · obtain ⟨n, rfl⟩ : ∃ n, M = n + P := ⟨M - P, by omega⟩
    have hn : n < P := by omega
    rw [show (L - f.emin).toNat * P + (n + P) = n + P * ((L - f.emin).toNat + 1) by ring,
      Nat.add_mul_div_left _ _ hP, Nat.div_eq_of_lt hn, Nat.add_mul_mod_self_left, Nat.mod_eq_of_lt hn, if_neg (by omega)]
    congr 2
    push_cast
    omega

section
variable {k : Nat} (hk : f.Interchange k)
include hk

theorem Interchange.pow : (2 : ℤ) ^ k = 2 * (f.emax + 1) := by
  obtain ⟨n, rfl⟩ : ∃ n, k = n + 1 := ⟨k - 1, by have := hk.exp; omega⟩
  rw [hk.emax, pow_succ]
  simp; ring

theorem Interchange.pow_nat : ((2 ^ k : Nat) : ℤ) = 2 * (f.emax + 1) := by
  rw [← hk.pow]; push_cast; rfl

theorem Interchange.width : 2 ^ (k + f.prec - 1) = 2 ^ k * 2 ^ (f.prec - 1) := by
  have := f.prec_pos
  rw [← pow_add]; congr 1; omega

theorem Interchange.top_lt : f.top k + 2 ^ (f.prec - 1) = 2 ^ (k + f.prec - 1) := by
  have h : 1 ≤ 2 ^ k := Nat.one_le_two_pow
  rw [hk.width, top, Nat.sub_mul, one_mul]
  have := Nat.mul_le_mul_right (2 ^ (f.prec - 1)) h
  omega

/-- The normal form belonging to bits below infinity. -/
theorem Interchange.normal {b : Nat} (h0 : b ≠ 0) (hb : b < f.top k) :
    ∃ (M : Nat) (L : ℤ), f.Normal M L ∧ b = (L - f.emin).toNat * 2 ^ (f.prec - 1) + M ∧ (M : ℚ) * pow2 L ≤ f.maxQ := by
  have hP : 0 < 2 ^ (f.prec - 1) := by positivity
  have h2 := f.half_pow
  have hpw := hk.pow_nat
  have hmin := hk.emin
  have hmax := hk.emax
  have hple := f.prec_le
  have hk1 : 1 ≤ 2 ^ k := Nat.one_le_two_pow
  have hdiv := Nat.div_add_mod b (2 ^ (f.prec - 1))
  have hmod := Nat.mod_lt b hP
  have hdlt : b / 2 ^ (f.prec - 1) < 2 ^ k - 1 := by
    rw [Nat.div_lt_iff_lt_mul hP]; exact hb
  have key : ∀ (M : Nat) (L : ℤ), M < 2 ^ f.prec → L ≤ f.emax - f.prec + 1 → (M : ℚ) * pow2 L ≤ f.maxQ := by
    intro M L hM hL
    unfold maxQ
    refine mul_le_mul ?_ (pow2_le hL) (pow2_pos _).le (by positivity)
    exact_mod_cast (by omega : M ≤ 2 ^ f.prec - 1)
  generalize b / 2 ^ (f.prec - 1) = e at *
  generalize b % 2 ^ (f.prec - 1) = m at *
  generalize hPe : 2 ^ (f.prec - 1) = P at *
  rcases Nat.eq_zero_or_pos e with he | he
  · subst he
    have hbm : b = m := by simpa using hdiv.symm
    refine ⟨m, f.emin, ⟨by omega, by rw [h2]; omega, le_rfl, .inl rfl⟩, by simp [hbm], key _ _ (by rw [h2]; omega) (by have := f.emin_le; omega)⟩
  · refine ⟨m + P, f.emin + e - 1, ⟨by omega, by rw [h2]; omega, by omega, .inr (by rw [hPe]; omega)⟩, ?_, key _ _ (by rw [h2]; omega) (by omega)⟩
    rw [show (f.emin + (e : ℤ) - 1 - f.emin).toNat = e - 1 by omega]
    obtain ⟨d, rfl⟩ : ∃ d, e = d + 1 := ⟨e - 1, by omega⟩
    simp only [Nat.add_sub_cancel]
    rw [← hdiv]; ring

theorem Interchange.bits_lt {M : Nat} {L : ℤ} (h : f.Normal M L) (hm : (M : ℚ) * pow2 L ≤ f.maxQ) :
    (L - f.emin).toNat * 2 ^ (f.prec - 1) + M < f.top k := by
  have hP : 0 < 2 ^ (f.prec - 1) := by positivity
  have h2 := f.half_pow
  have hpw := hk.pow_nat
  have hmin := hk.emin
  have hple := f.prec_le
  have hlt := h.lt
  have hle := h.le
  have hp0 := f.prec_pos
  have e0 := hk.exp
  have hk4 : 4 ≤ 2 ^ k := le_trans (by norm_num) (Nat.pow_le_pow_right (by norm_num : 0 < 2) e0)
  have hL : L ≤ f.emax - f.prec + 1 := by
    rcases h.norm with hn | hn
    · have := f.emin_le; omega
    · have h1 : pow2 (L + (f.prec - 1 : Nat)) < pow2 (f.emax + 1) := by
        refine lt_of_le_of_lt ?_ (lt_of_le_of_lt hm ?_) (b := (M : ℚ) * pow2 L)
        · rw [pow2_add, mul_comm (pow2 L)]
          refine mul_le_mul_of_nonneg_right ?_ (pow2_pos L).le
          rw [pow2_nat]; exact_mod_cast hn
        · unfold maxQ
          rw [show f.emax + 1 = f.prec + (f.emax - f.prec + 1) by ring, pow2_add (f.prec : ℤ), pow2_nat]
          refine mul_lt_mul_of_pos_right ?_ (pow2_pos _)
          have : 1 ≤ 2 ^ f.prec := Nat.one_le_two_pow
          exact_mod_cast (by omega : 2 ^ f.prec - 1 < 2 ^ f.prec)
      have := pow2_lt_iff.1 h1
      omega
  unfold top
  rw [h2] at hlt
  have hn : (L - f.emin).toNat + 2 ≤ 2 ^ k - 1 + 1 := by omega
  rcases h.norm with g | g
  · subst g
    rw [sub_self, Int.toNat_zero, zero_mul, zero_add]
    calc M < 2 * 2 ^ (f.prec - 1) := hlt
      _ ≤ (2 ^ k - 1) * 2 ^ (f.prec - 1) := Nat.mul_le_mul_right _ (by omega)
  · have : (L - f.emin).toNat + 2 ≤ 2 ^ k - 1 := by omega
    have := Nat.mul_le_mul_right (2 ^ (f.prec - 1)) this
    rw [add_mul] at this
    omega

theorem Interchange.fieldBits_magnitude {b : Nat} (hb : b < f.top k) : f.fieldBits (f.magnitude b) = b := by
  by_cases h0 : b = 0
  · subst h0; simp [magnitude, fieldBits]
  · obtain ⟨M, L, h, e, -⟩ := hk.normal h0 hb
    rw [e, magnitude_normal h, h.fieldBits]

theorem Interchange.magnitude_spec {b : Nat} (hb : b < f.top k) :
    f.rndQ (f.magnitude b) = f.magnitude b ∧ 0 ≤ f.magnitude b ∧ f.magnitude b ≤ f.maxQ ∧ (f.magnitude b = 0 ↔ b = 0) := by
  by_cases h0 : b = 0
  · subst h0
    have : 0 ≤ f.maxQ := by unfold maxQ; exact mul_nonneg (by positivity) (pow2_pos _).le
    simp [magnitude, rndQ, this]
  · obtain ⟨M, L, h, e, hm⟩ := hk.normal h0 hb
    have hM : (0 : ℚ) < M := by exact_mod_cast h.pos
    have hq : (0 : ℚ) < M * pow2 L := mul_pos hM (pow2_pos L)
    have hmag : f.magnitude b = M * pow2 L := by rw [e, magnitude_normal h]
    rw [hmag]
    exact ⟨h.rep, hq.le, hm, by simp [h0, hq.ne']⟩

theorem Interchange.magnitude_fieldBits {q : ℚ} (hq : 0 ≤ q) (h : f.rndQ q = q) (hm : q ≤ f.maxQ) :
    f.magnitude (f.fieldBits q) = q ∧ f.fieldBits q < f.top k := by
  have ht : 0 < f.top k := by
    have := hk.exp
    have hk4 : 4 ≤ 2 ^ k := le_trans (by norm_num) (Nat.pow_le_pow_right (by norm_num : 0 < 2) this)
    unfold top
    exact Nat.mul_pos (by omega) (by positivity)
  rcases hq.eq_or_lt with h0 | h0
  · subst h0; simp [magnitude, fieldBits, ht]
  · obtain ⟨M, L, hN, rfl⟩ := normal_of_rep h0 h
    rw [hN.fieldBits]
    exact ⟨magnitude_normal hN, hk.bits_lt hN hm⟩

/-- Sign and magnitude of the bits. -/
theorem Interchange.split (s : Bool) {m : Nat} (hm : m < 2 ^ (k + f.prec - 1)) :
    (BitVec.ofNat (k + f.prec) (m + if s then 2 ^ (k + f.prec - 1) else 0)).toNat % 2 ^ (k + f.prec - 1) = m ∧
    (BitVec.ofNat (k + f.prec) (m + if s then 2 ^ (k + f.prec - 1) else 0)).msb = s := by
  have hw : 2 ^ (k + f.prec) = 2 * 2 ^ (k + f.prec - 1) := by
    have := f.prec_pos
    rw [← pow_succ']; congr 1; omega
  have hlt : m + (if s then 2 ^ (k + f.prec - 1) else 0) < 2 ^ (k + f.prec) := by split <;> omega
  rw [BitVec.msb_eq_decide, BitVec.toNat_ofNat, Nat.mod_eq_of_lt hlt]
  cases s
  · simp only [Bool.false_eq_true, if_false, add_zero]
    exact ⟨Nat.mod_eq_of_lt hm, by simpa using hm⟩
  · simp only [if_true]
    exact ⟨by rw [Nat.add_mod_right, Nat.mod_eq_of_lt hm], by simp⟩

theorem Interchange.unsplit (b : BitVec (k + f.prec)) :
    b = BitVec.ofNat (k + f.prec) (b.toNat % 2 ^ (k + f.prec - 1) + if b.msb then 2 ^ (k + f.prec - 1) else 0) := by
  have hw : 2 ^ (k + f.prec) = 2 * 2 ^ (k + f.prec - 1) := by
    have := f.prec_pos
    rw [← pow_succ']; congr 1; omega
  have hb := b.isLt
  apply BitVec.eq_of_toNat_eq
  rw [BitVec.toNat_ofNat, BitVec.msb_eq_decide]
  generalize b.toNat = n at *
  generalize 2 ^ (k + f.prec - 1) = H at *
  rw [hw] at hb ⊢
  by_cases h : H ≤ n
  · obtain ⟨r, rfl⟩ : ∃ r, n = r + H := ⟨n - H, by omega⟩
    have hr : r < H := by omega
    simp only [h, decide_true, if_true]
    rw [Nat.add_mod_right, Nat.mod_eq_of_lt hr, Nat.mod_eq_of_lt (by omega)]
  · simp only [h, decide_false, Bool.false_eq_true, if_false, add_zero]
    rw [Nat.mod_eq_of_lt (by omega : n < H), Nat.mod_eq_of_lt (by omega)]

theorem Interchange.pack_fin (s : Bool) {q : ℚ} (h : f.rndQ q = q) (hm : |q| ≤ f.maxQ) (hs : q = 0 → s = false) :
    (Sf.pack s q : Sf f) = .fin q h hm := by
  unfold Sf.pack
  rw [dif_pos hm, if_neg (fun g => by rw [hs g.1] at g; simp at g), dif_pos h]

theorem Interchange.rndQ_neg {q : ℚ} (h : f.rndQ q = q) : f.rndQ (-q) = -q := by
  apply f.rndQ_of_rep
  push_cast
  exact (f.rep_cast h).neg

/-- Decoding the bits of a value gives the value back. -/
theorem Interchange.decode_encode (x : Sf f) : f.decode k (f.encode k x) = x := by
  have htop := hk.top_lt
  have hP : 0 < 2 ^ (f.prec - 1) := by positivity
  have hmax : 0 ≤ f.maxQ := by unfold maxQ; exact mul_nonneg (by positivity) (pow2_pos _).le
  have r0 : f.rndQ 0 = 0 := by simp [rndQ]
  cases x with
  | nan =>
    have h2 : 2 ^ (f.prec - 1) = 2 * 2 ^ (f.prec - 2) := by
      have := hk.prec
      rw [← pow_succ']; congr 1; omega
    have hQ : 0 < 2 ^ (f.prec - 2) := by positivity
    obtain ⟨a, b⟩ := hk.split false (m := f.top k + 2 ^ (f.prec - 2)) (by omega)
    simp only [Bool.false_eq_true, if_false, add_zero] at a b
    unfold decode encode
    dsimp only
    rw [a, if_pos (by omega)]
  | inf s =>
    obtain ⟨a, b⟩ := hk.split s (m := f.top k) (by omega)
    unfold decode encode
    dsimp only
    rw [a, b, if_neg (lt_irrefl _), if_pos rfl]
  | negZero =>
    obtain ⟨a, b⟩ := hk.split true (m := 0) (by positivity)
    simp only [if_true, zero_add] at a b
    have ht := (hk.magnitude_fieldBits le_rfl r0 hmax).2
    unfold decode encode
    dsimp only
    rw [a, b, if_neg (by omega), if_neg (by omega), if_pos rfl]
    have : f.magnitude 0 = 0 := by simp [magnitude]
    rw [this, neg_zero]
    unfold Sf.pack
    rw [dif_pos (by simpa using hmax), if_pos ⟨rfl, rfl⟩]
  | fin q r h =>
    obtain ⟨m1, m2⟩ : f.magnitude (f.fieldBits q) = |q| ∧ f.fieldBits q < f.top k := by
      rcases le_total 0 q with hq | hq
      · rw [abs_of_nonneg hq] at h ⊢
        exact hk.magnitude_fieldBits hq r h
      · rw [abs_of_nonpos hq] at h ⊢
        rw [← fieldBits_neg]
        exact hk.magnitude_fieldBits (by linarith) (hk.rndQ_neg r) h
    obtain ⟨a, b⟩ := hk.split (decide (q < 0)) (m := f.fieldBits q) (by omega)
    simp only [decide_eq_true_iff] at a b
    unfold decode encode
    dsimp only
    rw [a, b, if_neg (by omega), if_neg (by omega), m1]
    have : (if decide (q < 0) = true then -|q| else |q|) = q := by
      by_cases hq : q < 0
      · simp [hq, abs_of_neg hq]
      · simp [hq, abs_of_nonneg (not_lt.1 hq)]
    rw [this]
    exact hk.pack_fin _ r h (by rintro rfl; simp)

/-- Encoding the value of bits that are not a NaN gives the bits back. -/
theorem Interchange.encode_decode (b : BitVec (k + f.prec)) (hb : f.decode k b ≠ .nan) : f.encode k (f.decode k b) = b := by
  conv_rhs => rw [hk.unsplit b]
  unfold decode at hb ⊢
  dsimp only at hb ⊢
  generalize b.toNat % 2 ^ (k + f.prec - 1) = m at *
  by_cases h1 : f.top k < m
  · exact absurd (if_pos h1) hb
  rw [if_neg h1]
  by_cases h2 : m = f.top k
  · rw [if_pos h2, h2]; rfl
  rw [if_neg h2]
  have hm : m < f.top k := by omega
  obtain ⟨r, h0, hle, hz⟩ := hk.magnitude_spec hm
  have hfb := hk.fieldBits_magnitude hm
  have habs : |f.magnitude m| ≤ f.maxQ := by rwa [abs_of_nonneg h0]
  cases b.msb
  · simp only [Bool.false_eq_true, if_false]
    rw [hk.pack_fin false r habs (fun _ => rfl)]
    unfold encode
    dsimp only
    rw [hfb, if_neg (not_lt.2 h0)]
  · simp only [if_true]
    by_cases hm0 : m = 0
    · subst hm0
      rw [hz.2 rfl, neg_zero]
      unfold Sf.pack
      rw [dif_pos (by rw [abs_zero]; exact le_trans h0 hle), if_pos ⟨rfl, rfl⟩]
      simp [encode]
    · have hpos : 0 < f.magnitude m := lt_of_le_of_ne h0 (fun g => hm0 (hz.1 g.symm))
      rw [hk.pack_fin true (hk.rndQ_neg r) (by rwa [abs_neg]) (fun g => absurd g (by linarith [hpos]))]
      unfold encode
      dsimp only
      rw [fieldBits_neg, hfb, if_pos (by linarith)]

end
end FloatFormat
end Rowcol
