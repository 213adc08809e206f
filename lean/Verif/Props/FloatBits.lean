import Verif.Lemmas.FloatBits
import Verif.Props.Parametric

/-! # C105: `f32` and `f64` bit by bit

`Verif/Float.lean` describes the floating point types with real numbers and rounding.  Here: what the bits stand for, and
that the bits of every result of every program are determined, up to which NaN it is.  `Verif/SoftFloat.lean` computes
them. -/

namespace Rowcol
namespace FloatBits
open Prog FloatFormat
variable {f : FloatFormat} {k : Nat}

/-- C105: the formats. -/
theorem C105_formats : f32.Interchange 8 ∧ f64.Interchange 11 :=
  ⟨⟨by norm_num, by decide, by rfl, by rfl⟩, ⟨by norm_num, by decide, by rfl, by rfl⟩⟩

/-- The value of bits. -/
noncomputable def value (f : FloatFormat) (k : Nat) (b : BitVec (k + f.prec)) : Fl f := (f.decode k b).toFl

/-- Sign bit, exponent field and fraction field put together. -/
def fields (f : FloatFormat) (k : Nat) (s : Bool) (e m : Nat) : BitVec (k + f.prec) :=
  BitVec.ofNat _ ((if s then 2 ^ (k + f.prec - 1) else 0) + e * 2 ^ (f.prec - 1) + m)

theorem neg_one_pow_toNat (s : Bool) (x : ℝ) : (if s then -x else x) = (-1) ^ s.toNat * x := by cases s <;> simp

/-- C105: what the bits mean (IEEE 754, 3.4): the largest exponent field stands for infinity and NaN, 0 for the subnormal
numbers `0.m * 2^(2 - 2^(k-1))`, every other `e` for `1.m * 2^(e + 1 - 2^(k-1))`. -/
theorem C105_meaning (hk : f.Interchange k) (s : Bool) (e m : Nat) (he : e < 2 ^ k) (hm : m < 2 ^ (f.prec - 1)) :
    (e = 2 ^ k - 1 → m = 0 → value f k (fields f k s e m) = .inf s) ∧
    (e = 2 ^ k - 1 → m ≠ 0 → value f k (fields f k s e m) = .nan) ∧
    (e < 2 ^ k - 1 → (value f k (fields f k s e m)).IsFinite ∧ (value f k (fields f k s e m)).sign = s ∧
      (value f k (fields f k s e m)).val = (-1) ^ s.toNat *
        (if e = 0 then (m / 2 ^ (f.prec - 1) : ℝ) * 2 ^ (2 - 2 ^ (k - 1) : ℤ)
        else (1 + m / 2 ^ (f.prec - 1) : ℝ) * 2 ^ (e + 1 - 2 ^ (k - 1) : ℤ))) := by
  have hP : 0 < 2 ^ (f.prec - 1) := by positivity
  have htop := hk.top_lt
  have hb : e * 2 ^ (f.prec - 1) + m < 2 ^ (k + f.prec - 1) := by
    rw [hk.width]
    calc e * 2 ^ (f.prec - 1) + m < (e + 1) * 2 ^ (f.prec - 1) := by rw [add_mul]; omega
      _ ≤ _ := Nat.mul_le_mul_right _ (by omega)
  obtain ⟨a, b⟩ := hk.split s hb
  have hf : fields f k s e m = BitVec.ofNat _ (e * 2 ^ (f.prec - 1) + m + if s then 2 ^ (k + f.prec - 1) else 0) := by
    unfold fields; congr 1; omega
  rw [← hf] at a b
  unfold value decode
  dsimp only
  rw [a, b]
  refine ⟨fun h1 h2 => ?_, fun h1 h2 => ?_, fun h => ?_⟩
  · rw [h2, add_zero, h1, ← top, if_neg (lt_irrefl _), if_pos rfl]; rfl
  · rw [h1, ← top, if_pos (by omega)]; rfl
  · have hlt : e * 2 ^ (f.prec - 1) + m < f.top k := by
      unfold top
      calc e * 2 ^ (f.prec - 1) + m < (e + 1) * 2 ^ (f.prec - 1) := by rw [add_mul]; omega
        _ ≤ _ := Nat.mul_le_mul_right _ (by omega)
    rw [if_neg (by omega), if_neg (by omega)]
    obtain ⟨r, h0, hle, hz⟩ := hk.magnitude_spec hlt
    have habs : |f.magnitude (e * 2 ^ (f.prec - 1) + m)| ≤ f.maxQ := by rwa [abs_of_nonneg h0]
    have hmag : ((f.magnitude (e * 2 ^ (f.prec - 1) + m) : ℚ) : ℝ) =
        if e = 0 then (m / 2 ^ (f.prec - 1) : ℝ) * 2 ^ (2 - 2 ^ (k - 1) : ℤ)
        else (1 + m / 2 ^ (f.prec - 1) : ℝ) * 2 ^ (e + 1 - 2 ^ (k - 1) : ℤ) := by
      have hp := f.prec_pos
      have hemin : f.emin = 2 - 2 ^ (k - 1) - ((f.prec - 1 : Nat) : ℤ) := by rw [hk.emin, hk.emax]; omega
      unfold magnitude
      rw [Nat.add_comm, Nat.add_mul_div_right _ _ hP, Nat.div_eq_of_lt hm, zero_add, Nat.add_mul_mod_self_right, Nat.mod_eq_of_lt hm]
      dsimp only
      split
      · rw [Rat.cast_mul, pow2_cast, hemin, zpow_sub₀ (by norm_num : (2 : ℝ) ≠ 0), zpow_natCast]; simp; ring
      · rw [Rat.cast_mul, pow2_cast, hemin, show (2 - 2 ^ (k - 1) - ((f.prec - 1 : Nat) : ℤ) + e - 1 : ℤ) =
          (e + 1 - 2 ^ (k - 1)) - ((f.prec - 1 : Nat) : ℤ) by ring, zpow_sub₀ (by norm_num : (2 : ℝ) ≠ 0), zpow_natCast]
        push_cast
        field_simp
        ring
    rw [← hmag]
    cases s
    · simp only [Bool.false_eq_true, if_false, Bool.toNat_false, pow_zero, one_mul]
      rw [hk.pack_fin false r habs (fun _ => rfl)]
      exact ⟨trivial, by simp [Sf.toFl, Fl.sign, h0], rfl⟩
    · simp only [if_true, Bool.toNat_true, pow_one, neg_mul, one_mul]
      rcases h0.eq_or_lt with h1 | h1
      · rw [← h1, neg_zero]
        unfold Sf.pack
        rw [dif_pos (by rw [abs_zero]; exact h0.trans hle), if_pos ⟨rfl, rfl⟩]
        exact ⟨trivial, rfl, by simp [Sf.toFl, Fl.val]⟩
      · rw [hk.pack_fin true (hk.rndQ_neg r) (by rwa [abs_neg]) (fun g => absurd g (by linarith))]
        exact ⟨trivial, by simp [Sf.toFl, Fl.sign, h1], by simp [Sf.toFl, Fl.val]⟩

/-- C105: every value has bits, and only NaN has more than one pattern. -/
theorem C105_patterns (hk : f.Interchange k) :
    (∀ x : Fl f, ∃ b, value f k b = x) ∧
    (∀ a b : BitVec (k + f.prec), value f k a = value f k b ↔ a = b ∨ value f k a = .nan ∧ value f k b = .nan) := by
  refine ⟨fun x => ?_, fun a b => ⟨fun h => ?_, ?_⟩⟩
  · obtain ⟨y, rfl⟩ := Sf.toFl_surjective x
    exact ⟨f.encode k y, by unfold value; rw [hk.decode_encode]⟩
  · have h1 := Sf.toFl_injective h
    by_cases hn : f.decode k a = .nan
    · exact .inr ⟨by simp [value, hn], by simp [value, ← h1, hn]⟩
    · refine .inl ?_
      rw [← hk.encode_decode a hn, h1, hk.encode_decode b (by rwa [← h1])]
  · rintro (rfl | ⟨h1, h2⟩)
    · rfl
    · rw [h1, h2]

/-- A processor: operations on bits whose results have the correctly rounded values (`Verif/Float.lean`); which of the NaNs
is returned is left open, as in Rust's documentation of `f32` and `f64`. -/
structure Processor (f : FloatFormat) (k : Nat) (O : Ops (BitVec (k + f.prec))) : Prop where
  zero : value f k O.zero = (Ops.ieee f).zero
  one : value f k O.one = (Ops.ieee f).one
  add : ∀ a b, ∃ c, O.add a b = .ok c ∧ value f k c = (value f k a).add (value f k b)
  sub : ∀ a b, ∃ c, O.sub a b = .ok c ∧ value f k c = (value f k a).add (value f k b).neg
  mul : ∀ a b, ∃ c, O.mul a b = .ok c ∧ value f k c = (value f k a).mul (value f k b)
  div : ∀ a b, ∃ c, O.div a b = .ok c ∧ value f k c = (value f k a).div (value f k b)
  neg : ∀ a, ∃ c, O.neg a = .ok c ∧ value f k c = (value f k a).neg
  isZero : ∀ a, O.isZero a = (value f k a).isZero

theorem Processor.fullRel {O : Ops (BitVec (k + f.prec))} (h : Processor f k O) :
    FullRel False O (Ops.ieee f) (fun b x => x = value f k b) := by
  have hq : ∀ {a b : BitVec (k + f.prec)} {a' b' : Fl f}, a' = value f k a → b' = value f k b →
      Rel False (fun b x => x = value f k b) (O.div a b) ((Ops.ieee f).div a' b') := by
    rintro a b _ _ rfl rfl; obtain ⟨c, h1, h2⟩ := h.div a b; rw [h1]; exact .ok h2.symm
  exact {
    zero := h.zero.symm, one := h.one.symm
    add := by rintro a b _ _ rfl rfl; obtain ⟨c, h1, h2⟩ := h.add a b; rw [h1]; exact .ok h2.symm
    sub := by rintro a b _ _ rfl rfl; obtain ⟨c, h1, h2⟩ := h.sub a b; rw [h1]; exact .ok h2.symm
    mul := by rintro a b _ _ rfl rfl; obtain ⟨c, h1, h2⟩ := h.mul a b; rw [h1]; exact .ok h2.symm
    neg := by rintro a _ rfl; obtain ⟨c, h1, h2⟩ := h.neg a; rw [h1]; exact .ok h2.symm
    isZero := by rintro a _ rfl; exact (h.isZero a).symm
    div := fun h1 h2 _ => hq h1 h2
    quot := hq
    safe := by obtain ⟨c, h1, _⟩ := h.neg O.one; rw [h1]; simp
    safe' := by simp [Ops.ieee] }

/-- C105: the executable operations are a processor. -/
theorem C105_executable (hk : f.Interchange k) : Processor f k (Ops.floatBits f k) where
  zero := by
    show ((f.decode k (f.encode k (Sf.ofInt 0))).toFl : Fl f) = _
    rw [hk.decode_encode]; exact Sf.toFl_ofInt 0 (by simp)
  one := by
    show ((f.decode k (f.encode k (Sf.ofInt 1))).toFl : Fl f) = _
    rw [hk.decode_encode]; exact Sf.toFl_ofInt 1 (by rw [abs_one]; exact one_le_pow₀ (by norm_num))
  add a b := ⟨_, rfl, by unfold value; rw [hk.decode_encode, Sf.toFl_add]⟩
  sub a b := ⟨_, rfl, by unfold value; rw [hk.decode_encode, Sf.toFl_add, Sf.toFl_neg]⟩
  mul a b := ⟨_, rfl, by unfold value; rw [hk.decode_encode, Sf.toFl_mul]⟩
  div a b := ⟨_, rfl, by unfold value; rw [hk.decode_encode, Sf.toFl_div]⟩
  neg a := ⟨_, rfl, by unfold value; rw [hk.decode_encode, Sf.toFl_neg]⟩
  isZero a := (Sf.toFl_isZero _).symm

/-- C105: on every processor a program ends, fails and runs forever exactly as with the values, and the values of the bits it
leaves in its variables are those. -/
theorem C105_programs {O : Ops (BitVec (k + f.prec))} (hO : Processor f k O) (t t' : Target)
    (hW : t'.W = t.W) (p : Stmt) (hs : p.Small t.W) (σ : Store (BitVec (k + f.prec))) :
    (∀ σ', Run t O p σ (.ok σ') → Run t' (Ops.ieee f) p (σ.map (value f k)) (.ok (σ'.map (value f k)))) ∧
    (∀ ρ, Run t' (Ops.ieee f) p (σ.map (value f k)) (.ok ρ) → ∃ σ', Run t O p σ (.ok σ') ∧ ρ = σ'.map (value f k)) ∧
    (∀ e, Run t O p σ (.error e) ↔ Run t' (Ops.ieee f) p (σ.map (value f k)) (.error e)) := by
  have m : ∀ (σ : Store (BitVec (k + f.prec))) (ρ : Store (Fl f)), σ.Rel (fun b x => x = value f k b) ρ ↔ ρ = σ.map (value f k) := by
    intro σ ρ
    constructor
    · intro h
      funext τ i
      have := h τ i
      match τ with
      | .s => exact this
      | .v n =>
        show ρ (.v n) i = Vec.mapV _ _
        exact Vec.ext_get fun j => by rw [Vec.get_mapV]; exact this j
      | .m r c =>
        show ρ (.m r c) i = Mat.mapV _ _
        exact Mat.ext_get fun j l => by rw [Mat.get_mapV]; exact this j l
    · rintro rfl τ i
      match τ with
      | .s => exact rfl
      | .v n => exact fun j => Vec.get_mapV _ _ _
      | .m r c => exact fun j l => Mat.get_mapV _ _ _ _
  obtain ⟨h1, h2, h3⟩ := C104_parametric hO.fullRel t t' hW p hs σ _ ((m _ _).2 rfl)
  refine ⟨fun σ' h => ?_, fun ρ h => ?_, h3⟩
  · obtain ⟨ρ, h4, h5⟩ := h1 σ' h
    rw [(m _ _).1 h5] at h4; exact h4
  · obtain ⟨σ', h4, h5⟩ := h2 ρ h
    exact ⟨σ', h4, (m _ _).1 h5⟩

/-- The same bits, or two NaNs. -/
def SameBits (f : FloatFormat) (k : Nat) (a b : BitVec (k + f.prec)) : Prop :=
  a = b ∨ value f k a = .nan ∧ value f k b = .nan

/-- C105: results are reproducible: on any two processors, from the same variables, a program behaves alike, and leaves the
same bits, NaNs apart, in every variable. -/
theorem C105_reproducible (hk : f.Interchange k) {O O' : Ops (BitVec (k + f.prec))} (hO : Processor f k O)
    (hO' : Processor f k O') (t t' : Target) (hW : t'.W = t.W) (p : Stmt) (hs : p.Small t.W)
    (σ ρ : Store (BitVec (k + f.prec))) (hσ : σ.Rel (SameBits f k) ρ) :
    (∀ σ', Run t O p σ (.ok σ') → ∃ ρ', Run t' O' p ρ (.ok ρ') ∧ σ'.Rel (SameBits f k) ρ') ∧
    (∀ ρ', Run t' O' p ρ (.ok ρ') → ∃ σ', Run t O p σ (.ok σ') ∧ σ'.Rel (SameBits f k) ρ') ∧
    (∀ e, Run t O p σ (.error e) ↔ Run t' O' p ρ (.error e)) := by
  have hS : ∀ a b, SameBits f k a b ↔ value f k a = value f k b := fun a b => ((C105_patterns hk).2 a b).symm
  refine C104_parametric ?_ t t' hW p hs σ ρ hσ
  have H := hO.fullRel
  have H' := hO'.fullRel
  have j : ∀ {x y : Res (BitVec (k + f.prec))} {z : Res (Fl f)}, Rel False (fun b x => x = value f k b) x z →
      Rel False (fun b x => x = value f k b) y z → Rel False (SameBits f k) x y := by
    rintro x y z (⟨a, b, rfl, rfl, rfl⟩ | ⟨e, rfl, h | rfl⟩) h2
    · rcases h2 with ⟨a', b', rfl, h3, h4⟩ | ⟨e, rfl, h | h⟩
      · cases h3; exact .ok ((hS _ _).2 h4)
      · exact h.elim
      · cases h
    · exact h.elim
    · rcases h2 with ⟨a', b', rfl, h3, h4⟩ | ⟨e', rfl, h | h⟩
      · cases h3
      · exact h.elim
      · cases h; exact .fail _
  have hq : ∀ {a b a' b'}, SameBits f k a a' → SameBits f k b b' → Rel False (SameBits f k) (O.div a b) (O'.div a' b') :=
    fun h1 h2 => j (H.quot rfl rfl) (H'.quot ((hS _ _).1 h1) ((hS _ _).1 h2))
  exact {
    zero := (hS _ _).2 (hO.zero.trans hO'.zero.symm)
    one := (hS _ _).2 (hO.one.trans hO'.one.symm)
    add := fun h1 h2 => j (H.add rfl rfl) (H'.add ((hS _ _).1 h1) ((hS _ _).1 h2))
    sub := fun h1 h2 => j (H.sub rfl rfl) (H'.sub ((hS _ _).1 h1) ((hS _ _).1 h2))
    mul := fun h1 h2 => j (H.mul rfl rfl) (H'.mul ((hS _ _).1 h1) ((hS _ _).1 h2))
    neg := fun h1 => j (H.neg rfl) (H'.neg ((hS _ _).1 h1))
    isZero := fun {a b} h1 => by rw [hO.isZero, hO'.isZero, (hS _ _).1 h1]
    div := fun h1 h2 _ => hq h1 h2
    quot := hq
    safe := H.safe
    safe' := H'.safe }

/-- C105: `norm` and `normalized` of the bits have the values of `norm` and `normalized`, if `sqrt` and `powi(_, 2)` are
correctly rounded. -/
theorem C105_norm {O : Ops (BitVec (k + f.prec))} (hO : Processor f k O) (t : Target)
    (sqrt : BitVec (k + f.prec) → BitVec (k + f.prec)) (powi : BitVec (k + f.prec) → Int → BitVec (k + f.prec))
    (powi' : Fl f → Int → Fl f) (hs : ∀ a, value f k (sqrt a) = (value f k a).sqrt)
    (hp : ∀ a, value f k (powi a 2) = (value f k a).mul (value f k a)) (hp' : ∀ x, powi' x 2 = x.mul x)
    {n : Nat} (v : Vec (BitVec (k + f.prec)) n) :
    (v.mapV (value f k)).norm (Ops.ieee f) Fl.sqrt powi' = (v.norm O sqrt powi).map (value f k) ∧
    (v.mapV (value f k)).normalized t (Ops.ieee f) Fl.sqrt powi' = (v.normalized t O sqrt powi).map (Vec.mapV (value f k)) := by
  have H := hO.fullRel
  have h1 : Rel False (fun b x => x = value f k b) (v.norm O sqrt powi) ((v.mapV (value f k)).norm (Ops.ieee f) Fl.sqrt powi') := by
    rw [Vec.norm, Vec.norm, Vec.toList_eq v, Vec.toList_eq (v.mapV (value f k)), List.map_map, List.map_map, List.foldlM_map,
      List.foldlM_map]
    refine Rel.map (R := fun b x => x = value f k b) (.foldlM _ (fun i _ s s' hs => H.add hs ?_) H.zero) ?_
    · simp only [Function.comp_def, Vec.get_mapV]; rw [hp, hp']
    · rintro a _ rfl; exact (hs a).symm
  refine ⟨h1.eq_map, ?_⟩
  rw [Vec.normalized, Vec.normalized, Vec.clone_ok, Vec.clone_ok]
  rw [res_ok_bind, res_ok_bind]
  have h2 : Rel False (VecRel fun b x => x = value f k b) (do let d ← v.norm O sqrt powi; v.divScalar t O.div d)
      (do let d ← (v.mapV (value f k)).norm (Ops.ieee f) Fl.sqrt powi'; (v.mapV (value f k)).divScalar t (Ops.ieee f).div d) :=
    h1.bind fun d d' hd => rel_vecDivScalar t t (fun h => H.quot h hd) fun i => Vec.get_mapV _ _ _
  refine (h2.mono fun a b h => ?_).eq_map
  exact Vec.ext_get fun i => by rw [Vec.get_mapV]; exact h i

/-- The square root and the equality of bits. -/
def sqrtBits (f : FloatFormat) (k : Nat) (a : BitVec (k + f.prec)) : BitVec (k + f.prec) := f.encode k (f.decode k a).sqrt

/-- `a == b` on bits. -/
def eqBits (f : FloatFormat) (k : Nat) (a b : BitVec (k + f.prec)) : Bool := (f.decode k a).beq (f.decode k b)

/-- C105: the executable square root is correctly rounded, and `==` is that of the values: equal bits that are not NaN, or two
zeros. -/
theorem C105_sqrt_eq (hk : f.Interchange k) (a b : BitVec (k + f.prec)) :
    value f k (sqrtBits f k a) = (value f k a).sqrt ∧
    eqBits f k a b = (value f k a).beq (value f k b) ∧
    (eqBits f k a b = true ↔ (a = b ∧ value f k a ≠ .nan) ∨ ((value f k a).isZero = true ∧ (value f k b).isZero = true)) := by
  have hb : eqBits f k a b = (value f k a).beq (value f k b) := Sf.toFl_beq _ _
  refine ⟨by unfold value sqrtBits; rw [hk.decode_encode, Sf.toFl_sqrt], hb, ?_⟩
  rw [hb]
  have key : (value f k a).beq (value f k b) = true ↔
      (value f k a = value f k b ∧ value f k a ≠ .nan) ∨ ((value f k a).isZero = true ∧ (value f k b).isZero = true) := by
    unfold Fl.beq
    simp only [decide_eq_true_eq]
    generalize value f k a = x
    generalize value f k b = y
    cases x with
    | nan => simp [Fl.isZero]
    | inf s => cases y with
      | inf s' => cases s <;> cases s' <;> simp [Fl.ext, Fl.isZero]
      | nan => simp [Fl.isZero]
      | negZero => cases s <;> simp [Fl.ext, Fl.isZero, Fl.val]
      | fin => cases s <;> simp [Fl.ext, Fl.isZero, Fl.val]
    | negZero => cases y with
      | inf s' => cases s' <;> simp [Fl.ext, Fl.isZero, Fl.val]
      | nan => simp [Fl.isZero]
      | negZero => simp
      | fin x => simp only [Fl.ext, Fl.isZero, Fl.val]; simp [eq_comm (a := (0 : EReal))]
    | fin x => cases y with
      | inf s' => cases s' <;> simp [Fl.ext, Fl.isZero, Fl.val]
      | nan => simp [Fl.isZero]
      | negZero => simp [Fl.ext, Fl.isZero, Fl.val]
      | fin y =>
        simp [Fl.ext, Fl.isZero, Fl.val]
        rintro rfl rfl; rfl
  rw [key]
  refine or_congr ⟨fun ⟨h1, h2⟩ => ⟨?_, h2⟩, fun ⟨h1, h2⟩ => ⟨by rw [h1], h2⟩⟩ Iff.rfl
  rcases ((C105_patterns hk).2 a b).1 h1 with h | h
  · exact h
  · exact absurd h.1 h2

/-! ## Examples, computed by the kernel -/

/-- `f64`, and its square root. -/
def F64 : Ops (BitVec 64) := Ops.floatBits f64 11
def sqrt64 : BitVec 64 → BitVec 64 := sqrtBits f64 11

/-! `1 / 3`, `0.1 + 0.2`, the square root of 2, the smallest number halved (ties to even), overflow, `0 / 0`, `-1 / 0`, `1 / ∞`
in `f64`. -/
example :
    F64.div 0x3ff0000000000000#64 0x4008000000000000#64 = .ok 0x3fd5555555555555#64 ∧
    F64.add 0x3fb999999999999a#64 0x3fc999999999999a#64 = .ok 0x3fd3333333333334#64 ∧
    sqrt64 0x4000000000000000#64 = 0x3ff6a09e667f3bcd#64 ∧
    F64.div 0x1#64 0x4000000000000000#64 = .ok 0#64 ∧
    F64.div 0x3#64 0x4000000000000000#64 = .ok 2#64 ∧
    F64.mul 0x7fefffffffffffff#64 0x4000000000000000#64 = .ok 0x7ff0000000000000#64 ∧
    F64.div 0#64 0#64 = .ok 0x7ff8000000000000#64 ∧
    F64.div 0xbff0000000000000#64 0#64 = .ok 0xfff0000000000000#64 ∧
    F64.div 0x3ff0000000000000#64 0xfff0000000000000#64 = .ok 0x8000000000000000#64 := by decide +kernel

/-! A processor that returns another NaN. -/
example : ∃ O : Ops (BitVec (8 + f32.prec)), Processor f32 8 O ∧ O.div 0 0 = .ok 0xffc00001 := by
  refine ⟨{ Ops.floatBits f32 8 with
    div := fun a b => if a = 0 ∧ b = 0 then .ok 0xffc00001 else (Ops.floatBits f32 8).div a b }, ?_, ?_⟩
  · have h := C105_executable C105_formats.1
    refine { zero := h.zero, one := h.one, add := h.add, sub := h.sub, mul := h.mul, neg := h.neg, isZero := h.isZero, div := ?_ }
    intro a b
    dsimp only
    split
    · rename_i g
      obtain ⟨rfl, rfl⟩ := g
      obtain ⟨c, h1, h2⟩ := h.div 0 0
      refine ⟨_, rfl, ?_⟩
      rw [← h2]
      have : c = 0x7fc00000 := by
        have e : (Ops.floatBits f32 8).div 0 0 = .ok 0x7fc00000 := by decide +kernel
        rw [e] at h1; cases h1; rfl
      subst this
      have : f32.decode 8 0xffc00001 = f32.decode 8 0x7fc00000 := by decide +kernel
      exact congrArg Sf.toFl this
    · exact h.div a b
  · simp

/-! The program that solves a linear system (`Verif/Props/Programs.lean`) in `f64`: `1 / 25` and `2 / 25`, the
second one unit in the last place too small (the nearest would end in `7b`). -/
example : Examples.final F64 Examples.solve (Examples.zeros 0#64) (.v 2) 0 =
    some (.ok [0x3fa47ae147ae147b#64, 0x3fb47ae147ae147a#64]) := by decide +kernel

end FloatBits
end Rowcol
