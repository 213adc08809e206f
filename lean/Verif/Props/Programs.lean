import Verif.Lemmas.Program
import Verif.Props.Ieee
import Verif.Complex

/-! # C100 - C103: whole programs

A client that combines any number of the crate's operations, with variables, assignments, `if` and `while`
(`Verif/Model/Program.lean`); which programs, and what they mean in linear algebra: `Verif/ProgSpec.lean`. -/

namespace Rowcol
namespace Prog
variable {T U K : Type} {w : Nat}

/-! ## C100: memory safety -/

/-- The element type's own operations may panic but never commit an invalid memory access. -/
structure Honest (O : Ops T) : Prop where
  add : ∀ a b, O.add a b ≠ .error .ub
  sub : ∀ a b, O.sub a b ≠ .error .ub
  mul : ∀ a b, O.mul a b ≠ .error .ub
  div : ∀ a b, O.div a b ≠ .error .ub
  neg : ∀ a, O.neg a ≠ .error .ub

theorem Honest.fullHom {O : Ops T} (h : Honest O) : FullHom O O id where
  left := {
    zero := rfl, one := rfl
    add := fun a b => exactOrPanic_refl (h.add a b)
    sub := fun a b => exactOrPanic_refl (h.sub a b)
    mul := fun a b => exactOrPanic_refl (h.mul a b)
    neg := fun a => exactOrPanic_refl (h.neg a)
    isZero := fun _ => rfl
    div := fun a b _ => exactOrPanic_refl (h.div a b) }
  right := fun a b => exactOrPanic_refl (h.div a b)

theorem FullHom.honest {O : Ops T} {O' : Ops U} {φ : T → U} (h : FullHom O O' φ) : Honest O := by
  have e : ∀ {x : Res T} {y : Res U}, ExactOrPanic φ x y → x ≠ .error .ub := by
    intro x y h
    rcases h with h | ⟨a, h, _⟩ <;> rw [h] <;> simp
  exact ⟨fun a b => e (h.1.add a b), fun a b => e (h.1.sub a b), fun a b => e (h.1.mul a b), fun a b => e (h.2 a b),
    fun a => e (h.1.neg a)⟩

/-- C100: no program built from the crate's arithmetic and linear algebra, whatever its element type, its indices and its
control flow, and in whatever build, ends in an invalid memory access. -/
theorem C100_memory_safe {O : Ops T} (hO : Honest O) (t : Target) (p : Stmt) (hs : p.Small t.W) (σ : Store T)
    (x : Res (Store T)) (h : Run t O p σ x) : x ≠ .error .ub := by
  have H := hO.fullHom
  rcases sim_run H.1.toHom t t rfl (fun _ => rfl) p σ x h hs (.inr H) with h | ⟨σ', h, _⟩ <;> rw [h] <;> simp

/-- C100: the same for a single expression: it returns a value or panics. -/
theorem C100_expressions {O : Ops T} (hO : Honest O) (t : Target) (σ : Store T) (τ : Ty) (e : Ex τ) (hs : e.Small t.W) :
    e.eval t O σ = .error .panic ∨ ∃ v, e.eval t O σ = .ok v := by
  have H := hO.fullHom
  rcases sim_eval H.1.toHom t t rfl σ e hs (.inr H) with h | ⟨v, h, _⟩
  · exact .inl h
  · exact .inr ⟨v, h⟩

/-- C100: a program has at most one outcome. -/
theorem C100_deterministic {O : Ops T} (t : Target) (p : Stmt) (σ : Store T) (x y : Res (Store T)) (hx : Run t O p σ x)
    (hy : Run t O p σ y) : x = y := by
  induction hx generalizing y with
  | skip σ => cases hy; rfl
  | act a σ => cases hy; rfl
  | seq _ _ ih1 ih2 =>
    cases hy with
    | seq h1 h2 => have := ih1 _ h1; cases this; exact ih2 _ h2
    | seqFault h1 => have := ih1 _ h1; cases this
  | seqFault _ ih =>
    cases hy with
    | seq h1 h2 => have := ih _ h1; cases this
    | seqFault h1 => exact ih _ h1
  | iteZero he hv _ ih =>
    cases hy with
    | iteZero he' hv' h => exact ih _ h
    | iteElse he' hv' h => rw [he] at he'; cases he'; rw [hv] at hv'; cases hv'
    | iteFault he' => rw [he] at he'; cases he'
  | iteElse he hv _ ih =>
    cases hy with
    | iteZero he' hv' h => rw [he] at he'; cases he'; rw [hv] at hv'; cases hv'
    | iteElse he' hv' h => exact ih _ h
    | iteFault he' => rw [he] at he'; cases he'
  | iteFault he =>
    cases hy with
    | iteZero he' hv' h => rw [he] at he'; cases he'
    | iteElse he' hv' h => rw [he] at he'; cases he'
    | iteFault he' => rw [he] at he'; cases he'; rfl
  | loopGo he hv _ _ ih1 ih2 =>
    cases hy with
    | loopGo he' hv' h1 h2 => have := ih1 _ h1; cases this; exact ih2 _ h2
    | loopBody he' hv' h1 => have := ih1 _ h1; cases this
    | loopEnd he' hv' => rw [he] at he'; cases he'; rw [hv] at hv'; revert hv'; simp
    | loopFault he' => rw [he] at he'; cases he'
  | loopBody he hv _ ih1 =>
    cases hy with
    | loopGo he' hv' h1 h2 => have := ih1 _ h1; cases this
    | loopBody he' hv' h1 => exact ih1 _ h1
    | loopEnd he' hv' => rw [he] at he'; cases he'; rw [hv] at hv'; revert hv'; simp
    | loopFault he' => rw [he] at he'; cases he'
  | loopEnd he hv =>
    cases hy with
    | loopGo he' hv' h1 h2 => rw [he] at he'; cases he'; rw [hv] at hv'; revert hv'; simp
    | loopBody he' hv' h1 => rw [he] at he'; cases he'; rw [hv] at hv'; revert hv'; simp
    | loopEnd he' hv' => rfl
    | loopFault he' => rw [he] at he'; cases he'
  | loopFault he =>
    cases hy with
    | loopGo he' hv' h1 h2 => rw [he] at he'; cases he'
    | loopBody he' hv' h1 => rw [he] at he'; cases he'
    | loopEnd he' hv' => rw [he] at he'; cases he'
    | loopFault he' => rw [he] at he'; cases he'; rfl

theorem fitS_ne (b : Bool) (z : Int) : fitS b w z ≠ .error .ub := by unfold fitS; split <;> simp
theorem fitU_ne (b : Bool) (z : Int) : fitU b w z ≠ .error .ub := by unfold fitU; split <;> simp

/-- C100: the element types: integers of every width in every build, fractions, floats. -/
theorem C100_types :
    (∀ b w, Honest (Ops.signed b w)) ∧ (∀ b w, Honest (Ops.unsigned b w)) ∧ (∀ w, Honest (Ops.ratio w)) ∧
    (∀ f, Honest (Ops.ieee f)) := by
  have r : ∀ w zs q, ratioFit w zs q ≠ .error .ub := by intro w zs q; unfold ratioFit; split <;> simp
  refine ⟨fun b w => ⟨fun _ _ => fitS_ne _ _, fun _ _ => fitS_ne _ _, fun _ _ => fitS_ne _ _, fun _ _ => ?_, fun _ => fitS_ne _ _⟩,
    fun b w => ⟨fun _ _ => fitU_ne _ _, fun _ _ => fitU_ne _ _, fun _ _ => fitU_ne _ _, fun _ _ => ?_, fun _ => fitU_ne _ _⟩,
    fun w => ⟨fun _ _ => r _ _ _, fun _ _ => r _ _ _, fun _ _ => r _ _ _, fun _ _ => ?_, fun _ => r _ _ _⟩,
    fun f => ⟨fun _ _ => ?_, fun _ _ => ?_, fun _ _ => ?_, fun _ _ => ?_, fun _ => ?_⟩⟩
  · simp only [Ops.signed]; split
    · simp
    · exact fitS_ne _ _
  · simp only [Ops.unsigned]; split
    · simp
    · exact fitU_ne _ _
  · simp only [Ops.ratio]; split
    · simp
    · exact r _ _ _
  all_goals simp [Ops.ieee]

/-- C100: what the operations of big numbers give and when they panic. -/
theorem C100_big_numbers :
    (∀ a b q : Nat, Ops.nat.div a b = .ok q ↔ ∃ r < b, a = q * b + r) ∧ (∀ a : Nat, Ops.nat.div a 0 = .error .panic) ∧
    (∀ a b d : Nat, Ops.nat.sub a b = .ok d ↔ a = b + d) ∧ (∀ a b : Nat, a < b → Ops.nat.sub a b = .error .panic) ∧
    Ops.nat.neg 0 = .ok 0 ∧ (∀ a : Nat, a ≠ 0 → Ops.nat.neg a = .error .panic) ∧
    (∀ a b q : Int, Ops.int.div a b = .ok q ↔ ∃ r : Int, r.natAbs < b.natAbs ∧ 0 ≤ r * a ∧ a = q * b + r) ∧
    (∀ a : Int, Ops.int.div a 0 = .error .panic) := by
  refine ⟨fun a b q => ?_, fun a => rfl, fun a b d => ?_, fun a b h => ?_, rfl, fun a h => ?_, fun a b q => ?_, fun a => rfl⟩
  · by_cases hb : b = 0
    · subst hb; simp [Ops.nat]
    · simp only [Ops.nat, if_neg hb, Except.ok.injEq]
      constructor
      · rintro rfl
        exact ⟨a % b, Nat.mod_lt _ (Nat.pos_of_ne_zero hb), (Nat.div_add_mod' a b).symm⟩
      · rintro ⟨r, hr, rfl⟩
        rw [Nat.add_comm, Nat.add_mul_div_right _ _ (Nat.pos_of_ne_zero hb), Nat.div_eq_of_lt hr, Nat.zero_add]
  · by_cases h : b ≤ a
    · simp only [Ops.nat, if_pos h, Except.ok.injEq]; omega
    · simp only [Ops.nat, if_neg h]
      constructor
      · intro h; cases h
      · intro h'; omega
  · simp [Ops.nat, Nat.not_le.2 h]
  · simp [Ops.nat, h]
  · by_cases hb : b = 0
    · subst hb; simp [Ops.int]
    · simp only [Ops.int, if_neg hb, Except.ok.injEq]
      have key : ∃ r : Int, r.natAbs < b.natAbs ∧ 0 ≤ r * a ∧ a = a.tdiv b * b + r := by
        refine ⟨a.tmod b, ?_, ?_, ?_⟩
        · rw [Int.natAbs_tmod]; exact Nat.mod_lt _ (Int.natAbs_pos.2 hb)
        · rcases Int.le_total 0 a with ha | ha
          · exact mul_nonneg (Int.tmod_nonneg _ ha) ha
          · exact mul_nonneg_of_nonpos_of_nonpos (by
              have := Int.tmod_nonneg b (a := -a) (by omega)
              rw [Int.neg_tmod] at this; omega) ha
        · have := Int.mul_tdiv_add_tmod a b
          linarith [mul_comm b (a.tdiv b)]
      constructor
      · rintro rfl; exact key
      · rintro ⟨r, hr, hs, hq⟩
        obtain ⟨r', hr', hs', hq'⟩ := key
        have hd : (a.tdiv b - q) * b = r - r' := by rw [Int.sub_mul]; omega
        have hlt : (r - r').natAbs < b.natAbs := by
          rcases Int.lt_trichotomy a 0 with ha | ha | ha
          · have h1 : r ≤ 0 := by by_contra hc; nlinarith
            have h2 : r' ≤ 0 := by by_contra hc; nlinarith
            omega
          · subst ha
            have h1 : r = 0 := by
              have h0 : q * b = -r := by omega
              rcases eq_or_ne q 0 with rfl | hne
              · omega
              · have := congrArg Int.natAbs h0
                rw [Int.natAbs_mul, Int.natAbs_neg] at this
                have := Nat.le_mul_of_pos_left b.natAbs (Int.natAbs_pos.2 hne)
                omega
            have h2 : r' = 0 := by simpa using hq'.symm
            rw [h1, h2]; simpa using Int.natAbs_pos.2 hb
          · have h1 : 0 ≤ r := by by_contra hc; nlinarith
            have h2 : 0 ≤ r' := by by_contra hc; nlinarith
            omega
        have := congrArg Int.natAbs hd
        rw [Int.natAbs_mul] at this
        by_contra hne
        have := Nat.le_mul_of_pos_left b.natAbs (Int.natAbs_pos.2 (show a.tdiv b - q ≠ 0 by omega))
        omega

/-- C100: big integers, big natural numbers, exact fractions, and complex numbers with honest parts. -/
theorem C100_exact_types :
    Honest Ops.int ∧ Honest Ops.nat ∧ (∀ (K : Type) [Field K] [DecidableEq K], Honest (Ops.exact K)) ∧
    (∀ {T : Type} {O : Ops T}, Honest O → Honest (Ops.complex O)) := by
  refine ⟨⟨?_, ?_, ?_, ?_, ?_⟩, ⟨?_, ?_, ?_, ?_, ?_⟩, fun K _ _ => ⟨?_, ?_, ?_, ?_, ?_⟩, fun {T O} h => ?_⟩
  any_goals (intros; simp only [Ops.int, Ops.nat, Ops.exact]; (try split) <;> simp)
  have b : ∀ {α β : Type} {x : Res α} {g : α → Res β}, x ≠ .error .ub → (∀ a, g a ≠ .error .ub) → (x >>= g) ≠ .error .ub := by
    intro α β x g hx hg
    cases x with
    | ok a => exact hg a
    | error e => cases e with
      | panic => intro h; cases h
      | ub => exact absurd rfl hx
  refine ⟨fun a c => ?_, fun a c => ?_, fun a c => ?_, fun a c => ?_, fun a => ?_⟩ <;> simp only [Ops.complex] <;>
    repeat' first
      | exact h.add _ _ | exact h.sub _ _ | exact h.mul _ _ | exact h.div _ _ | exact h.neg _
      | exact fun h => by cases h
      | refine b ?_ fun _ => ?_

/-! ## C101: builds agree -/

/-- C101: if every operation of the element type in the first build panics or agrees with the second build, so does every
program. -/
theorem C101_transport {O : Ops T} {O' : Ops U} {φ : T → U} (H : FullHom O O' φ) (t t' : Target) (hW : t'.W = t.W)
    (p : Stmt) (hs : p.Small t.W) (σ : Store T) (x : Res (Store T)) (h : Run t O p σ x) :
    x = .error .panic ∨ ∃ σ', x = .ok σ' ∧ Run t' O' p (σ.map φ) (.ok (σ'.map φ)) :=
  sim_run H.1.toHom t t' hW H.1.isZero p σ x h hs (.inr H)

theorem Store.map_id (σ : Store T) : σ.map id = σ := by
  funext τ i
  match τ with
  | .s => rfl
  | .v n =>
    show Vec.mapV id (σ (.v n) i) = σ (.v n) i
    exact Vec.ext_get fun j => by simp [Vec.get_mapV]
  | .m r c =>
    show Mat.mapV id (σ (.m r c) i) = σ (.m r c) i
    exact Mat.ext_get fun j k => by simp [Mat.get_mapV]

/-- C101: with integers of any width, whenever a program returns in a build with overflow checks and debug assertions,
it returns the same values of all variables in a build without them; and if it panics without the checks, it panics or
does not end with them. -/
theorem C101_builds_agree (signed : Bool) (w : Nat) (t t' : Target) (hW : t'.W = t.W) (p : Stmt) (hs : p.Small t.W)
    (σ : Store (BitVec w)) :
    let O := fun b : Bool => if signed then Ops.signed b w else Ops.unsigned b w
    (∀ σ', Run t (O true) p σ (.ok σ') → Run t' (O false) p σ (.ok σ')) ∧
    (Run t' (O false) p σ (.error .panic) → ∀ σ', ¬ Run t (O true) p σ (.ok σ')) := by
  intro O
  have H : FullHom (O true) (O false) id := by
    cases signed
    · exact ⟨C76_types.2 w, fun a b => exactOrPanic_refl (C100_types.2.1 true w |>.div a b)⟩
    · exact ⟨C76_types.1 w, fun a b => exactOrPanic_refl (C100_types.1 true w |>.div a b)⟩
  have key : ∀ σ', Run t (O true) p σ (.ok σ') → Run t' (O false) p σ (.ok σ') := by
    intro σ' h
    rcases C101_transport H t t' hW p hs σ _ h with h | ⟨σ1, h1, h2⟩
    · cases h
    · cases h1
      rwa [Store.map_id, Store.map_id] at h2
  exact ⟨key, fun h σ' h' => by have := C100_deterministic t' p σ _ _ h (key σ' h'); cases this⟩

/-- C101: machine integers with overflow checks and big naturals, against big integers: every operation, division by
anything included, panics or agrees. -/
theorem C101_exact_integers :
    (∀ w, 1 < w → FullHom (Ops.signed true w) Ops.int BitVec.toInt) ∧
    (∀ w, 0 < w → FullHom (Ops.unsigned true w) Ops.int uval) ∧
    FullHom Ops.nat Ops.int (fun n => (n : Int)) := by
  have key : ∀ {T : Type} {O : Ops T} {φ : T → Int}, O.DivHom Ops.int φ →
      (∀ a b, O.isZero b = true → O.div a b = .error .panic) → FullHom O Ops.int φ := by
    intro T O φ H h
    refine ⟨H, fun a b => ?_⟩
    cases hb : O.isZero b with
    | true => exact .inl (h a b hb)
    | false => exact H.div a b hb
  refine ⟨fun w h => key (C72_types.1 w h) fun a b hb => ?_, fun w h => key (C72_types.2 w h) fun a b hb => ?_,
    key { zero := rfl, one := rfl, add := fun a b => ?_, sub := fun a b => ?_, mul := fun a b => ?_, neg := fun a => ?_,
          isZero := fun a => ?_, div := fun a b hb => ?_ } fun a b hb => ?_⟩
  · simp only [Ops.signed] at hb ⊢; simp_all
  · simp only [Ops.unsigned] at hb ⊢; simp_all
  · exact .inr ⟨a + b, rfl, by simp [Ops.int]⟩
  · by_cases h : b ≤ a
    · exact .inr ⟨a - b, by simp [Ops.nat, h], by simp [Ops.int, Int.ofNat_sub h]⟩
    · exact .inl (by simp [Ops.nat, h])
  · exact .inr ⟨a * b, rfl, by simp [Ops.int]⟩
  · by_cases h : a = 0
    · exact .inr ⟨0, by simp [Ops.nat, h], by simp [Ops.int, h]⟩
    · exact .inl (by simp [Ops.nat, h])
  · simp [Ops.int, Ops.nat]
  · have hb' : b ≠ 0 := by simpa [Ops.nat] using hb
    refine .inr ⟨a / b, by simp [Ops.nat, hb'], ?_⟩
    simp only [Ops.int, Int.natCast_eq_zero, hb', if_false]
    rw [Int.tdiv_eq_ediv_of_nonneg (by omega)]; rfl
  · simp only [Ops.nat] at hb ⊢; simp_all

/-- C101: a program over machine integers with overflow checks, or over big naturals, that returns has computed what the
same program computes over big integers, divisions included. -/
theorem C101_bignum (t t' : Target) (hW : t'.W = t.W) (p : Stmt) (hs : p.Small t.W) :
    (∀ w, 1 < w → ∀ σ σ' : Store (BitVec w), Run t (Ops.signed true w) p σ (.ok σ') →
      Run t' Ops.int p (σ.map BitVec.toInt) (.ok (σ'.map BitVec.toInt))) ∧
    (∀ w, 0 < w → ∀ σ σ' : Store (BitVec w), Run t (Ops.unsigned true w) p σ (.ok σ') →
      Run t' Ops.int p (σ.map uval) (.ok (σ'.map uval))) ∧
    (∀ σ σ' : Store Nat, Run t Ops.nat p σ (.ok σ') →
      Run t' Ops.int p (σ.map fun n : Nat => (n : Int)) (.ok (σ'.map fun n : Nat => (n : Int)))) := by
  have key : ∀ {T : Type} {O : Ops T} {φ : T → Int}, FullHom O Ops.int φ → ∀ σ σ' : Store T, Run t O p σ (.ok σ') →
      Run t' Ops.int p (σ.map φ) (.ok (σ'.map φ)) := by
    intro T O φ H σ σ' h
    rcases C101_transport H t t' hW p hs σ _ h with h | ⟨σ1, h1, h2⟩
    · cases h
    · cases h1; exact h2
  exact ⟨fun w h => key (C101_exact_integers.1 w h), fun w h => key (C101_exact_integers.2.1 w h), key C101_exact_integers.2.2⟩

/-! ## C102: exact or panic -/

theorem exact_divOk (K : Type) [Field K] [DecidableEq K] (t : Target) : DivOk t (Ops.exact K) (· / ·) where
  div a b := by
    by_cases h : b = 0
    · exact .inl (by simp [Ops.exact, h])
    · exact .inr (by simp [Ops.exact, h])
  det k a hk := .inr (C48_determinant (Ops.exact_isField K) t k a hk)
  cof k a i j hk := .inr (C53_cofactor (Ops.exact_isField K) t k a i j (by omega) (by omega))
  inv k a := by
    cases h : a.inverse t (Ops.exact K) k with
    | error e =>
      have H : FullHom (Ops.exact K) (Ops.exact K) id :=
        ⟨C75_types.2 K, fun a b => exactOrPanic_refl (by simp only [Ops.exact]; split <;> simp)⟩
      rcases sim_inverse H.1 t t k a with h' | ⟨o, h', _⟩
      · rw [h] at h'; exact .inl h'
      · rw [h] at h'; cases h'
    | ok o =>
      cases o with
      | none => exact .inr (.inl rfl)
      | some x =>
        refine .inr (.inr ⟨x, rfl, ?_⟩)
        have := inverse_left t (Ops.exact_isField K) k a x h
        exact (Matrix.inv_eq_left_inv this).symm

/-- C102: with elements from a field whose operations are exact or panic (fractions of machine integers with overflow
checks, big fractions), a program that returns has computed what it means in linear algebra: `determinant()` is the
determinant, `inverse().unwrap()` the inverse, `a * b` the product, and so on, through all assignments, branches and
loops. -/
theorem C102_fractions [Field K] [DecidableEq K] {O : Ops T} {φ : T → K} (H : FullHom O (Ops.exact K) φ) (t : Target)
    (p : Stmt) (hs : p.Small t.W) (σ : Store T) (x : Res (Store T)) (h : Run t O p σ x) :
    x = .error .panic ∨ ∃ σ', x = .ok σ' ∧ Means (· / ·) p (σ.den φ) (σ'.den φ) := by
  rcases C101_transport H t t rfl p hs σ x h with h | ⟨σ', rfl, h2⟩
  · exact .inl h
  · rcases exact_run (Ops.exact_isField K).toIsRing t (Ops.exact_isField K).isZero p _ _ h2 hs (.inr (exact_divOk K t))
      with ⟨h, _⟩ | ⟨σ1, h3, h4⟩
    · cases h
    · cases h3
      rw [Store.den_map, Store.den_map] at h4
      exact .inr ⟨σ', rfl, h4⟩

/-- C102: with integers whose operations are exact or panic (machine integers with overflow checks, big integers), the
same for programs that do not divide. -/
theorem C102_integers {O : Ops T} {φ : T → Int} (H : O.DivHom Ops.int φ) (t : Target) (p : Stmt) (hs : p.Small t.W)
    (hd : p.DivFree) (σ : Store T) (x : Res (Store T)) (h : Run t O p σ x) :
    x = .error .panic ∨ ∃ σ', x = .ok σ' ∧ Means Int.tdiv p (σ.den φ) (σ'.den φ) := by
  rcases sim_run H.toHom t t rfl H.isZero p σ x h hs (.inl hd) with h | ⟨σ', rfl, h2⟩
  · exact .inl h
  · rcases exact_run (dv := Int.tdiv) Ops.int_isRing t (by simp [Ops.int]) p _ _ h2 hs (.inl hd) with ⟨h, _⟩ | ⟨σ1, h3, h4⟩
    · cases h
    · cases h3
      rw [Store.den_map, Store.den_map] at h4
      exact .inr ⟨σ', rfl, h4⟩

/-- C102: the element types. -/
theorem C102_types :
    (∀ w, FullHom (Ops.ratio w) (Ops.exact ℚ) id) ∧
    (∀ (K : Type) [Field K] [DecidableEq K], FullHom (Ops.exact K) (Ops.exact K) id) ∧
    (∀ w, 1 < w → (Ops.signed true w).DivHom Ops.int BitVec.toInt) ∧
    (∀ w, 0 < w → (Ops.unsigned true w).DivHom Ops.int uval) := by
  refine ⟨fun w => ⟨C75_types.1 w, fun a b => ?_⟩, fun K _ _ => ⟨C75_types.2 K, fun a b => exactOrPanic_refl (by
    simp only [Ops.exact]; split <;> simp)⟩, C72_types.1, C72_types.2⟩
  by_cases hb : b = 0
  · simp only [Ops.ratio, hb, if_true]; exact .panic _
  · exact (C75_types.1 w).div a b (by simpa [Ops.ratio] using hb)

/-- C102: the meaning of a program is unique. -/
theorem C102_unique [CommRing K] (dv : K → K → K) (p : Stmt) (ρ ρ₁ ρ₂ : Env K) (h₁ : Means dv p ρ ρ₁) (h₂ : Means dv p ρ ρ₂) :
    ρ₁ = ρ₂ := by
  induction h₁ generalizing ρ₂ with
  | skip => cases h₂; rfl
  | act => cases h₂; rfl
  | seq _ _ ih1 ih2 => cases h₂ with | seq h1 h2 => have := ih1 _ h1; subst this; exact ih2 _ h2
  | iteZero h0 _ ih =>
    cases h₂ with
    | iteZero _ h => exact ih _ h
    | iteElse h0' _ => exact absurd h0 h0'
  | iteElse h0 _ ih =>
    cases h₂ with
    | iteZero h0' _ => exact absurd h0' h0
    | iteElse _ h => exact ih _ h
  | loopGo h0 _ _ ih1 ih2 =>
    cases h₂ with
    | loopGo _ h1 h2 => have := ih1 _ h1; subst this; exact ih2 _ h2
    | loopEnd h0' => exact absurd h0 h0'
  | loopEnd h0 =>
    cases h₂ with
    | loopGo h0' _ _ => exact absurd h0' h0
    | loopEnd _ => rfl

/-! ## C103: no panics -/

/-- C103: with elements from a commutative ring with total operations (big integers, wrapping integers), a program that
does not divide and whose indices are in range never panics, and computes what it means in linear algebra. -/
theorem C103_ring [CommRing K] {O : Ops K} (hO : O.IsRing) (hz : ∀ a, O.isZero a = true ↔ a = 0) (t : Target) (p : Stmt)
    (hs : p.Small t.W) (hd : p.DivFree) (hi : p.InRange) (dv : K → K → K) (σ : Store K) (x : Res (Store K))
    (h : Run t O p σ x) : ∃ σ', x = .ok σ' ∧ Means dv p (σ.den id) (σ'.den id) := by
  rcases exact_run hO t hz p σ x h hs (.inl hd) with ⟨_, h⟩ | h
  · exact absurd ⟨hd, hi⟩ h
  · exact h

/-- C103: and it ends whenever the same computation with exact numbers ends. -/
theorem C103_complete [CommRing K] {O : Ops K} (hO : O.IsRing) (hz : ∀ a, O.isZero a = true ↔ a = 0) (t : Target) (p : Stmt)
    (hs : p.Small t.W) (hd : p.DivFree) (hi : p.InRange) (dv : K → K → K) (σ : Store K) (ρ' : Env K)
    (h : Means dv p (σ.den id) ρ') : ∃ σ', Run t O p σ (.ok σ') ∧ σ'.den id = ρ' :=
  exact_complete hO t hz p _ ρ' h hs hd hi σ rfl

/-- No `while`. -/
def Stmt.LoopFree : Stmt → Prop
  | .skip => True
  | .act _ => True
  | .seq p q => p.LoopFree ∧ q.LoopFree
  | .ite _ p q => p.LoopFree ∧ q.LoopFree
  | .loop _ _ _ => False

/-- C103: a program without loops has an outcome. -/
theorem C103_total {O : Ops T} (t : Target) (p : Stmt) (hl : p.LoopFree) (σ : Store T) : ∃ x, Run t O p σ x := by
  induction p generalizing σ with
  | skip => exact ⟨_, .skip σ⟩
  | act a => exact ⟨_, .act a σ⟩
  | seq p q ihp ihq =>
    obtain ⟨x, hx⟩ := ihp hl.1 σ
    cases x with
    | ok σ' => obtain ⟨y, hy⟩ := ihq hl.2 σ'; exact ⟨y, .seq hx hy⟩
    | error f => exact ⟨_, .seqFault hx⟩
  | @ite τ e p q ihp ihq =>
    cases he : e.eval t O σ with
    | error f => exact ⟨_, .iteFault he⟩
    | ok v =>
      cases hv : Val.isZero O τ v with
      | true => obtain ⟨x, hx⟩ := ihp hl.1 σ; exact ⟨x, .iteZero he hv hx⟩
      | false => obtain ⟨x, hx⟩ := ihq hl.2 σ; exact ⟨x, .iteElse he hv hx⟩
  | loop => exact hl.elim

/-- C103: integers of `w` bits in a build without overflow checks are such a ring, the integers modulo `2^w`. -/
theorem C103_wrapping_types (w : Nat) :
    ((Ops.signed false w).IsRing ∧ ∀ a, (Ops.signed false w).isZero a = true ↔ a = 0) ∧
    ((Ops.unsigned false w).IsRing ∧ ∀ a, (Ops.unsigned false w).isZero a = true ↔ a = 0) :=
  ⟨⟨C73_ring (C73_types.1 w), by simp [Ops.signed]⟩, ⟨C73_ring (C73_types.2.1 w), by simp [Ops.unsigned]⟩⟩

/-- C103: with wrapping integers an expression that does not divide and whose indices are in range returns its exact value
over the integers, reduced modulo `2^w` once: what happens in between does not matter. -/
theorem C103_wrapping {O : Ops (BitVec w)} {φ : BitVec w → Int} (H : Wrapping w O φ) (t : Target) (τ : Ty) (e : Ex τ)
    (hs : e.Small t.W) (hd : e.DivFree) (hi : e.InRange) (σ : Store (BitVec w)) :
    ∃ v : Val Int τ, Val.den id τ v = e.den Int.tdiv (σ.den φ) ∧ e.eval t O σ = .ok (Val.map (BitVec.ofInt w) τ v) := by
  rcases exact_eval (dv := Int.tdiv) Ops.int_isRing t (σ.map φ) e hs (.inl hd) with ⟨_, h⟩ | ⟨v, h1, h2⟩
  · exact absurd ⟨hd, hi⟩ h
  · refine ⟨v, by rw [h2, Store.den_map], ?_⟩
    have h3 := sim_eval H.hom t t rfl (σ.map φ) e hs (.inl hd)
    rw [h1] at h3
    have h4 := h3.of_ok
    rwa [show ((σ.map φ).map (BitVec.ofInt w)) = σ by
      funext τ i
      match τ with
      | .s => exact H.value _
      | .v n => exact mapV_value H _
      | .m r c => exact mat_mapV_value H _] at h4

/-! ## Examples

An interpreter with a bound on the number of loop rounds, to run concrete programs; what it returns is an outcome. -/

/-- Run a program, giving up when the fuel is used up. -/
def Stmt.interp (t : Target) (O : Ops T) : Nat → Stmt → Store T → Option (Res (Store T))
  | 0, _, _ => none
  | _ + 1, .skip, σ => some (.ok σ)
  | _ + 1, .act a, σ => some (a.exec t O σ)
  | n + 1, .seq p q, σ =>
    match interp t O n p σ with
    | some (.ok σ') => interp t O n q σ'
    | x => x
  | n + 1, @Stmt.ite τ e p q, σ =>
    match e.eval t O σ with
    | .ok v => if Val.isZero O τ v then interp t O n p σ else interp t O n q σ
    | .error f => some (.error f)
  | n + 1, @Stmt.loop τ b e p, σ =>
    match e.eval t O σ with
    | .ok v =>
      if Val.isZero O τ v = b then
        match interp t O n p σ with
        | some (.ok σ') => interp t O n (.loop b e p) σ'
        | x => x
      else some (.ok σ)
    | .error f => some (.error f)

theorem Stmt.interp_run (t : Target) (O : Ops T) (n : Nat) (p : Stmt) (σ : Store T) (x : Res (Store T))
    (h : p.interp t O n σ = some x) : Run t O p σ x := by
  induction n generalizing p σ x with
  | zero => cases h
  | succ n ih =>
    cases p with
    | skip => cases h; exact .skip σ
    | act a => cases h; exact .act a σ
    | seq p q =>
      rw [Stmt.interp] at h
      split at h
      · next σ' h1 => exact .seq (ih _ _ _ h1) (ih _ _ _ h)
      · next h1 =>
        cases x with
        | ok σ' => exact (h1 _ h).elim
        | error f => exact .seqFault (ih _ _ _ h)
    | @ite τ e p q =>
      rw [Stmt.interp] at h
      split at h
      · next v hv =>
        split at h
        · next h0 => exact .iteZero hv h0 (ih _ _ _ h)
        · next h0 => exact .iteElse hv (by simpa using h0) (ih _ _ _ h)
      · next f hf => cases h; exact .iteFault hf
    | @loop τ b e p =>
      rw [Stmt.interp] at h
      split at h
      · next v hv =>
        split at h
        · next h0 =>
          split at h
          · next σ' h1 => exact .loopGo hv h0 (ih _ _ _ h1) (ih _ _ _ h)
          · next h1 =>
            cases x with
            | ok σ' => exact (h1 _ h).elim
            | error f => exact .loopBody hv h0 (ih _ _ _ h)
        · next h0 =>
          cases h
          refine .loopEnd hv ?_
          revert h0
          cases Val.isZero O τ v <;> cases b <;> simp
      · next f hf => cases h; exact .loopFault hf

namespace Examples

/-- All variables zero. -/
def zeros (z : T) : Store T
  | .s, _ => z
  | .v _, _ => Vec.ofFn fun _ => z
  | .m _ _, _ => Mat.ofFn fun _ _ => z

/-- `while n.is_zero() == false { acc *= a; n -= 1; }`: `acc` and `a` are the matrix variables 0 and 1 of size `k`, `n` the
scalar variable 0. -/
def power (k : Nat) : Stmt :=
  .loop false (.var .s 0) (.seq (.act (.updMul 0 (.var (.m k k) 1))) (.act (.upd (τ := .s) .sub 0 .one)))

theorem power_ok (k W : Nat) (h : 2 * k < W) : (power k).Small W ∧ (power k).DivFree ∧ (power k).InRange := by
  refine ⟨⟨trivial, ⟨h, h, h⟩, ⟨trivial, trivial⟩⟩, ⟨trivial, trivial, trivial⟩, ⟨trivial, trivial, trivial⟩⟩

theorem _root_.Rowcol.Prog.Env.put_same (ρ : Env K) (τ : Ty) (i : Nat) (x : Den K τ) : (ρ.put τ i x) τ i = x := by
  unfold Env.put
  exact (congrFun (Function.update_self (f := ρ) ..) i).trans (Function.update_self ..)

theorem _root_.Rowcol.Prog.Env.put_index (ρ : Env K) (τ : Ty) (i j : Nat) (x : Den K τ) (h : j ≠ i) :
    (ρ.put τ i x) τ j = ρ τ j := by
  unfold Env.put
  exact (congrFun (Function.update_self (f := ρ) ..) j).trans (Function.update_of_ne h ..)

theorem _root_.Rowcol.Prog.Env.put_type (ρ : Env K) (τ τ' : Ty) (i j : Nat) (x : Den K τ) (h : τ' ≠ τ) :
    (ρ.put τ i x) τ' j = ρ τ' j := by
  unfold Env.put
  exact congrFun (Function.update_of_ne (f := ρ) h ..) j

/-- What the loop means: it multiplies `acc` with the `n`-th power of `a`, for every `n`. -/
theorem power_means (k n : Nat) (dv : Int → Int → Int) (ρ : Env Int) (hn : ρ .s 0 = (n : Int)) :
    ∃ ρ', Means dv (power k) ρ ρ' ∧
      ρ' (.m k k) 0 = (ρ (.m k k) 0 * ρ (.m k k) 1 ^ n : Matrix (Fin k) (Fin k) Int) := by
  induction n generalizing ρ with
  | zero => exact ⟨ρ, .loopEnd (by simp [Ex.den, hn]), (mul_one _).symm⟩
  | succ n ih =>
    let ρ1 : Env Int := ((Act.updMul 0 (.var (.m k k) 1)).den dv ρ)
    let ρ2 : Env Int := ((Act.upd (τ := .s) .sub 0 .one).den dv ρ1)
    have e1 : ρ1 (.m k k) 0 = (ρ (.m k k) 0 * ρ (.m k k) 1 : Matrix (Fin k) (Fin k) Int) := Env.put_same ..
    have e2 : ρ1 (.m k k) 1 = ρ (.m k k) 1 := Env.put_index _ _ _ _ _ (by decide)
    have e3 : ρ1 .s 0 = ρ .s 0 := Env.put_type _ _ _ _ _ _ (by simp)
    have e4 : ∀ i, ρ2 (.m k k) i = ρ1 (.m k k) i := fun i => Env.put_type _ _ _ _ _ _ (by simp)
    have e5 : ρ2 .s 0 = (n : Int) := by
      have : ρ2 .s 0 = (ρ1 .s 0 : Int) - (1 : Int) := Env.put_same ..
      rw [this, e3, hn]; push_cast; ring
    obtain ⟨ρ', h1, h2⟩ := ih ρ2 e5
    refine ⟨ρ', .loopGo ?_ (.seq (.act _ _) (.act _ _)) h1, ?_⟩
    · simp only [Ex.den, hn]
      exact ⟨fun h => absurd h (by show ((n + 1 : Nat) : Int) ≠ 0; omega), fun h => by cases h⟩
    · rw [h2, e4, e4, e1, e2, pow_succ', Matrix.mul_assoc]

end Examples

/-- The client's loop `while n != 0 { acc *= a; n -= 1; }` with big integers ends for every start value `n`, every size and
every `a`, without a panic, with `acc * a^n` in `acc`. -/
theorem C103_power_loop (t : Target) (k : Nat) (hk : 2 * k < t.W) (n : Nat) (σ : Store Int)
    (hn : σ .s 0 = (n : Int)) :
    ∃ σ', Run t Ops.int (Examples.power k) σ (.ok σ') ∧
      (σ' (.m k k) 0).toMatrix = (σ (.m k k) 0).toMatrix * (σ (.m k k) 1).toMatrix ^ n := by
  obtain ⟨ρ', h1, h2⟩ := Examples.power_means k n Int.tdiv (σ.den id) (by simpa [Store.den, Val.den] using hn)
  obtain ⟨a, b, c⟩ := Examples.power_ok k t.W hk
  obtain ⟨σ', h3, h4⟩ := C103_complete Ops.int_isRing (by simp [Ops.int]) t (Examples.power k) a b c Int.tdiv σ ρ' h1
  refine ⟨σ', h3, ?_⟩
  rw [← h4] at h2
  exact h2

namespace Examples

/-- Machine parameters of the examples: 64 bit. -/
def t64 : Target := ⟨true, true, 2 ^ 64⟩

/-- The numbers in a value. -/
def list : (τ : Ty) → Val T τ → List T
  | .s, a => [a]
  | .v _, a => a.toList
  | .m _ _, a => a.rows.toList.flatMap (·.toList)

/-- The numbers in variable `i` of type `τ` after at most 100 rounds. -/
def final (O : Ops T) (p : Stmt) (σ : Store T) (τ : Ty) (i : Nat) : Option (Res (List T)) :=
  (p.interp t64 O 100 σ).map fun x => x.map fun σ' => list τ (σ' τ i)

/-- Put `n` into scalar 0 by adding ones. -/
def count : Nat → Stmt
  | 0 => .skip
  | n + 1 => .seq (.act (.upd (τ := .s) .add 0 .one)) (count n)

/-- `a = [[1, 1], [1, 0]]; acc = identity; n = n; while ...`. -/
def fib (n : Nat) : Stmt :=
  .seq (.act (.set 0 (.ident 2))) <| .seq (.act (.mset 2 2 1 0 0 .one)) <| .seq (.act (.mset 2 2 1 0 1 .one)) <|
  .seq (.act (.mset 2 2 1 1 0 .one)) <| .seq (count n) (power 2)

/-! Fibonacci numbers by a loop of `*=`: with `i64` and overflow checks; with `i8` the checks stop it at the 12th; without
checks the result is the Fibonacci number modulo 256 (144 - 256 = -112). -/
example : final (Ops.signed true 64) (fib 12) (zeros 0) (.m 2 2) 0 = some (.ok [233, 144, 144, 89]) := by
  decide +kernel
example : final (Ops.signed true 8) (fib 12) (zeros 0) (.m 2 2) 0 = some (.error .panic) := by decide +kernel
example : final (Ops.signed false 8) (fib 12) (zeros 0) (.m 2 2) 0 =
    some (.ok [233, 144, 144, 89]) ∧ (144 : BitVec 8).toInt = -112 := by decide +kernel
example : (fib 12).Small (2 ^ 64) ∧ (fib 12).DivFree ∧ (fib 12).InRange := by
  refine ⟨?_, ?_, ?_⟩ <;>
    simp [fib, count, power, Stmt.Every, Act.Small, Act.DivFree, Act.InRange, Ex.Every, Ex.SmallStep, Ex.DivFreeStep,
      Ex.InRangeStep, Ty.Small]

/-- `m = [[1, 1], [1, 0]] + 2 * identity; if m.determinant() == 0 { } else { v = m.inverse().unwrap() * (1, 1); }`, then
divide by the determinant. -/
def solve : Stmt :=
  .seq (.act (.mset 2 2 0 0 0 .one)) <| .seq (.act (.mset 2 2 0 0 1 .one)) <| .seq (.act (.mset 2 2 0 1 0 .one)) <|
  .seq (.act (.upd .add 0 (.bin .add .rr (.ident 2) (.ident 2)))) <|
  .seq (.act (.vset 2 0 0 .one)) <| .seq (.act (.vset 2 0 1 .one)) <|
  .ite (.det (k := 1) (.var (.m 2 2) 0)) .skip <|
  .seq (.act (.set 0 (.mulVec true (.inv (k := 1) (.var (.m 2 2) 0)) (.var (.v 2) 0)))) <|
  .act (.updQuot (.v 2) 0 (.det (k := 1) (.var (.m 2 2) 0)))

/-! The determinant is 5, the solution `(1/5, 2/5)`, divided by 5 `(1/25, 2/25)`. -/
example : final (Ops.ratio 64) solve (zeros 0) (.v 2) 0 = some (.ok [1 / 25, 2 / 25]) := by decide +kernel
example : solve.Small (2 ^ 64) ∧ ¬ solve.DivFree := by
  refine ⟨?_, ?_⟩ <;>
    simp [solve, Stmt.Every, Act.Small, Act.DivFree, Ex.Every, Ex.SmallStep, Ex.DivFreeStep, Ty.Small]

/-! With fractions of 4-bit numbers it panics: 25 does not fit.  An index out of range panics.  `inverse().unwrap()` of a
singular matrix panics. -/
example : final (Ops.ratio 4) solve (zeros 0) (.v 2) 0 = some (.error .panic) := by decide +kernel
example : final (Ops.ratio 64) (.act (.vset 2 0 2 .one)) (zeros 0) (.v 2) 0 = some (.error .panic) := by decide +kernel
example : final (Ops.ratio 64) (.act (.set 0 (.inv (k := 1) (.var (.m 2 2) 0)))) (zeros 0) (.m 2 2) 0 =
    some (.error .panic) := by decide +kernel

/-- `a = Matrix::diag([1, 1]) with a[(0, 1)] = 1 + 1`; the matrix of the dot products of its rows and columns, with 1 added to
every entry. -/
def gram : Stmt :=
  .seq (.act (.set 0 (.diag (r := 2) (c := 2) (.gen fun _ => .one)))) <|
  .seq (.act (.mset 2 2 0 0 1 (.bin .add .vv .one .one))) <|
  .act (.set 1 (.map 0 (fun _ => .bin .add .vv (.var .s 0) .one)
    (.mgen (r := 2) (c := 2) fun p => .dot (.row (.var (.m 2 2) 0) p.1) (.col (.var (.m 2 2) 0) p.2))))

/-! It is the square of `a` plus 1 in every entry; a row that does not exist panics. -/
example : final (Ops.signed true 64) gram (zeros 0) (.m 2 2) 1 = some (.ok [2, 5, 1, 2]) := by decide +kernel
example : gram.Small (2 ^ 64) ∧ gram.DivFree ∧ gram.InRange := by
  refine ⟨?_, ?_, ?_⟩ <;>
    simp +contextual [gram, Stmt.Every, Act.Small, Act.DivFree, Act.InRange, Ex.Every, Ex.SmallStep, Ex.DivFreeStep,
      Ex.InRangeStep, Ty.Small] <;> omega
example : final (Ops.signed true 64) (.act (.set 0 (.row (.ident 2) 2))) (zeros 0) (.v 2) 0 = some (.error .panic) ∧
    final (Ops.signed true 64) (.act (.set 0 (.col (.ident 2) 1))) (zeros 0) (.v 2) 0 = some (.ok [0, 1]) := by decide +kernel

/-! A loop whose condition never changes has no outcome. -/
example (σ : Store Int) (x : Res (Store Int)) : ¬ Run t64 Ops.int (.loop true (.zero .s) .skip) σ x := by
  intro h
  generalize hp : Stmt.loop true (.zero .s) .skip = p at h
  induction h with
  | loopGo he hv h1 h2 ih1 ih2 => exact ih2 hp
  | loopBody he hv h1 ih => cases hp; cases h1
  | loopEnd he hv => cases hp; cases he; revert hv; decide
  | loopFault he => cases hp; cases he
  | skip => cases hp
  | act => cases hp
  | seq => cases hp
  | seqFault => cases hp
  | iteZero => cases hp
  | iteElse => cases hp
  | iteFault => cases hp

end Examples

end Prog
end Rowcol
