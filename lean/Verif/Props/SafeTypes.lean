import Verif.Props.Variables
import Verif.Props.Block
import Verif.Rounding
import Verif.RingSpec
import Verif.PolySpec
import Verif.SoftFloat
import Verif.ErrorSpec

/-! # C100 for more element types; exchanging statements that may panic (C118) -/

namespace Rowcol
namespace Prog
variable {T : Type}

theorem out_ne {α : Type} {x : Res α} (h : x = .error .panic ∨ ∃ v, x = .ok v) : x ≠ .error .ub := by
  rcases h with h | ⟨v, h⟩ <;> rw [h] <;> exact fun h => by cases h

/-- C100: square matrices as elements of matrices. -/
theorem C100_matrix_elements {O : Ops T} (h : Honest O) (t : Target) (m : Nat) (hm : 2 * m < t.W) : Honest (Ops.block t O m) := by
  have st : ∀ a b : Mat T m m, ∃ σ : Store T, σ (.m m m) 0 = a ∧ σ (.m m m) 1 = b := fun a b => by
    let σ : Store T := fun τ _ => match τ with
      | .s => O.zero
      | .v n => Vec.ofFn fun _ => O.zero
      | .m r c => Mat.ofFn fun _ _ => O.zero
    refine ⟨(σ.put (.m m m) 1 b).put (.m m m) 0 a, put_same _ _ _ _, ?_⟩
    rw [put_other _ _ _ _ _ _ (by simp), put_same]
  refine ⟨fun a b => ?_, fun a b => ?_, fun a b => ?_, fun _ _ h => (by cases h), fun a => ?_⟩
  · obtain ⟨σ, rfl, rfl⟩ := st a b
    exact out_ne (C100_expressions h t σ (.m m m) (.bin .add .vv (.var _ 0) (.var _ 1)) (by simp [Ex.Small, Ex.Every, Ex.SmallStep, Ty.Small, hm]))
  · obtain ⟨σ, rfl, rfl⟩ := st a b
    exact out_ne (C100_expressions h t σ (.m m m) (.bin .sub .vv (.var _ 0) (.var _ 1)) (by simp [Ex.Small, Ex.Every, Ex.SmallStep, Ty.Small, hm]))
  · obtain ⟨σ, rfl, rfl⟩ := st a b
    exact out_ne (C100_expressions h t σ (.m m m) (.mul .vv (.var (.m m m) 0) (.var (.m m m) 1)) (by simp [Ex.Small, Ex.Every, Ex.SmallStep, Ty.Small, hm]))
  · obtain ⟨σ, rfl, _⟩ := st a a
    exact out_ne (C100_expressions h t σ (.m m m) (.neg (.var _ 0)) (by simp [Ex.Small, Ex.Every, Ex.SmallStep, Ty.Small, hm]))

/-- C100: more element types: floats as bits, numbers modulo `m`, dual numbers, real numbers with any rounding, numbers with an
uncertainty. -/
theorem C100_more_types :
    (∀ f k, Honest (Ops.floatBits f k)) ∧ (∀ m, Honest (Ops.zmod m)) ∧
      (∀ (K : Type) [Field K] [DecidableEq K], Honest (Ops.dual K)) ∧ (∀ rnd, Honest (Ops.rounded rnd)) ∧
      ∀ f, Honest (Ops.unc f) := by
  have r : ∀ f x d e, Unc.round f x d e ≠ .error .ub := by
    intro f x d e
    simp only [Unc.round]
    split_ifs <;> simp
  refine ⟨fun f k => ⟨?_, ?_, ?_, ?_, ?_⟩, fun m => ⟨?_, ?_, ?_, ?_, ?_⟩,
    fun K _ _ => ⟨?_, ?_, ?_, ?_, ?_⟩, fun rnd => ⟨?_, ?_, ?_, ?_, ?_⟩,
    fun f => ⟨fun _ _ => r _ _ _ _, fun _ _ => r _ _ _ _, fun _ _ => r _ _ _ _, fun a b => ?_, fun _ h => by cases h⟩⟩
  all_goals first
    | (simp only [Ops.unc]; split
       · exact r _ _ _ _
       · exact fun h => by cases h)
    | (intros; simp only [Ops.floatBits, Ops.zmod, Ops.dual, Ops.rounded]; try split_ifs
       all_goals exact fun h => by cases h)

/-- C118: with an element type whose operations return or panic, two pieces of program that write nothing the other reads or writes, and
that both end, do exactly the same in both orders, panics included. -/
theorem C118_exchange_outcomes {O : Ops T} (hO : Honest O) (t : Target) (p q : Stmt) (hsp : p.Small t.W) (hsq : q.Small t.W)
    (hp : ∀ x, p.Writes x → ¬ q.Reads x ∧ ¬ q.Writes x) (hq : ∀ x, q.Writes x → ¬ p.Reads x ∧ ¬ p.Writes x) (σ : Store T)
    (h1 : ∃ x, Run t O p σ x) (h2 : ∃ y, Run t O q σ y) (x : Res (Store T)) :
    Run t O (.seq p q) σ x ↔ Run t O (.seq q p) σ x := by
  obtain ⟨ok, err⟩ := C118_exchange t O p q hp hq σ
  have key : ∀ {p q : Stmt}, p.Small t.W → q.Small t.W → (∃ e, Run t O (.seq p q) σ (.error e)) → Run t O (.seq p q) σ (.error .panic) := by
    rintro p q hp hq ⟨e, he⟩
    cases e with
    | panic => exact he
    | ub => exact absurd rfl (C100_memory_safe hO t (.seq p q) ⟨hp, hq⟩ σ _ he)
  match x with
  | .ok σ' => exact ok σ'
  | .error .panic =>
    exact ⟨fun h => key hsq hsp ((err h1 h2).1 ⟨_, h⟩), fun h => key hsp hsq ((err h1 h2).2 ⟨_, h⟩)⟩
  | .error .ub =>
    exact ⟨fun h => absurd rfl (C100_memory_safe hO t (.seq p q) ⟨hsp, hsq⟩ σ _ h),
      fun h => absurd rfl (C100_memory_safe hO t (.seq q p) ⟨hsq, hsp⟩ σ _ h)⟩

/-- With `i32` and overflow checks: `s0 += s1` and `m0 *= m1` in both orders. -/
example (σ : Store (BitVec 32)) (x : Res (Store (BitVec 32))) :
    Run Examples.t64 (Ops.signed true 32) (.seq (.act (.upd .add 0 (.var .s 1))) (.act (.updMul 0 (.var (.m 2 2) 1)))) σ x ↔
      Run Examples.t64 (Ops.signed true 32) (.seq (.act (.updMul 0 (.var (.m 2 2) 1))) (.act (.upd .add 0 (.var .s 1)))) σ x := by
  refine C118_exchange_outcomes (C100_types.1 true 32) Examples.t64 _ _ ?_ ?_ ?_ ?_ σ ⟨_, .act _ _⟩ ⟨_, .act _ _⟩ x <;>
    simp [Stmt.Every, Act.Small, Ex.Every, Ex.SmallStep, Ty.Small, Examples.t64, Stmt.Writes, Stmt.Reads, Act.target, Act.Reads, Ex.Reads]

/-- A program over `2 x 2` matrices of complex floats is memory safe. -/
example (f : FloatFormat) (t : Target) (ht : 4 < t.W) (p : Stmt) (hs : p.Small t.W)
    (σ : Store (Mat (Mat.Cpx (Fl f)) 2 2)) (x) (h : Run t (Ops.block t (Ops.complex (Ops.ieee f)) 2) p σ x) : x ≠ .error .ub :=
  C100_memory_safe (C100_matrix_elements (C100_exact_types.2.2.2 (C100_types.2.2.2 f)) t 2 (by omega)) t p hs σ x h

end Prog
end Rowcol
