import Verif.Lemmas.ProgramRel
import Verif.Props.Programs

/-! # C104: whole programs do not depend on how the elements are represented

Two element types, a relation between them that their operations preserve (`FullRel False`: `0` and `1` are related, related
operands give related results or the same failure, the zero tests agree).  Then a program started with related variables
behaves alike over both: it runs forever over both, fails over both in the same way, or ends over both with related
variables. -/

namespace Rowcol
namespace Prog
variable {T U : Type}

theorem relFlip {A B : Type} {Q : A → B → Prop} {x : Res A} {y : Res B} (h : Rowcol.Rel False Q x y) :
    Rowcol.Rel False (fun b a => Q a b) y x := by
  rcases h with ⟨a, b, h1, h2, h3⟩ | ⟨e, h1, h | h2⟩
  · exact .inl ⟨b, a, h2, h1, h3⟩
  · exact h.elim
  · exact .inr ⟨e, h2, .inr h1⟩

theorem FullRel.flip {O : Ops T} {O' : Ops U} {R : T → U → Prop} (H : FullRel False O O' R) :
    FullRel False O' O (fun b a => R a b) where
  zero := H.zero
  one := H.one
  add := fun h1 h2 => relFlip (H.add h1 h2)
  sub := fun h1 h2 => relFlip (H.sub h1 h2)
  mul := fun h1 h2 => relFlip (H.mul h1 h2)
  neg := fun h => relFlip (H.neg h)
  isZero := fun h => (H.isZero h).symm
  div := fun h1 h2 _ => relFlip (H.quot h1 h2)
  quot := fun h1 h2 => relFlip (H.quot h1 h2)
  safe := H.safe'
  safe' := H.safe

theorem valRel_flip {R : T → U → Prop} (τ : Ty) {a : Val T τ} {b : Val U τ} :
    Val.Rel (fun b a => R a b) τ b a ↔ Val.Rel R τ a b := by
  match τ with
  | .s => exact Iff.rfl
  | .v _ => exact Iff.rfl
  | .m _ _ => exact Iff.rfl

/-- C104: an outcome over one type has a related outcome over the other, in both directions. -/
theorem C104_parametric {O : Ops T} {O' : Ops U} {R : T → U → Prop} (H : FullRel False O O' R) (t t' : Target)
    (hW : t'.W = t.W) (p : Stmt) (hs : p.Small t.W) (σ : Store T) (ρ : Store U) (hσ : σ.Rel R ρ) :
    (∀ σ', Run t O p σ (.ok σ') → ∃ ρ', Run t' O' p ρ (.ok ρ') ∧ σ'.Rel R ρ') ∧
    (∀ ρ', Run t' O' p ρ (.ok ρ') → ∃ σ', Run t O p σ (.ok σ') ∧ σ'.Rel R ρ') ∧
    (∀ e, Run t O p σ (.error e) ↔ Run t' O' p ρ (.error e)) := by
  have hσ' : ρ.Rel (fun b a => R a b) σ := fun τ i => (valRel_flip τ).2 (hσ τ i)
  have hs' : p.Small t'.W := by rw [hW]; exact hs
  have e1 : ∀ {A B : Type} {Q : A → B → Prop} {e : Fault} {y : Res B}, Rowcol.Rel False Q (.error e : Res A) y → y = .error e := by
    intro A B Q e y h
    rcases h with ⟨_, _, h, _⟩ | ⟨e', h, h' | h'⟩
    · cases h
    · exact h'.elim
    · cases h; exact h'
  refine ⟨fun σ' h => ?_, fun ρ' h => ?_, fun e => ⟨fun h => ?_, fun h => ?_⟩⟩
  · obtain ⟨y, h1, h2⟩ := rel_run H t t' hW p hs σ ρ hσ _ h
    obtain ⟨ρ', rfl, h3⟩ := h2.ok_left rfl
    exact ⟨ρ', h1, h3⟩
  · obtain ⟨y, h1, h2⟩ := rel_run H.flip t' t hW.symm p hs' ρ σ hσ' _ h
    obtain ⟨σ', rfl, h3⟩ := h2.ok_left rfl
    exact ⟨σ', h1, fun τ i => (valRel_flip τ).1 (h3 τ i)⟩
  · obtain ⟨y, h1, h2⟩ := rel_run H t t' hW p hs σ ρ hσ _ h
    cases e1 h2; exact h1
  · obtain ⟨y, h1, h2⟩ := rel_run H.flip t' t hW.symm p hs' ρ σ hσ' _ h
    cases e1 h2; exact h1

/-- C104: it runs forever over one type if and only if it does over the other. -/
theorem C104_termination {O : Ops T} {O' : Ops U} {R : T → U → Prop} (H : FullRel False O O' R) (t t' : Target)
    (hW : t'.W = t.W) (p : Stmt) (hs : p.Small t.W) (σ : Store T) (ρ : Store U) (hσ : σ.Rel R ρ) :
    (∃ x, Run t O p σ x) ↔ ∃ y, Run t' O' p ρ y := by
  obtain ⟨h1, h2, h3⟩ := C104_parametric H t t' hW p hs σ ρ hσ
  constructor
  · rintro ⟨x | x, h⟩
    · exact ⟨_, (h3 x).1 h⟩
    · obtain ⟨ρ', h, _⟩ := h1 x h; exact ⟨_, h⟩
  · rintro ⟨x | x, h⟩
    · exact ⟨_, (h3 x).2 h⟩
    · obtain ⟨σ', h, _⟩ := h2 x h; exact ⟨_, h⟩

/-- All elements of a value satisfy `P`. -/
def Val.All (P : T → Prop) : (τ : Ty) → Val T τ → Prop
  | .s, a => P a
  | .v _, a => ∀ i, P (Vec.get a i)
  | .m _ _, a => ∀ i j, P (Mat.get a i j)

/-- C104: a property of elements that `0` and `1` have and that all operations keep holds for every element of every
variable when the program ends, if it did at the start. -/
theorem C104_closed {O : Ops T} (P : T → Prop) (h0 : P O.zero) (h1 : P O.one)
    (hadd : ∀ a b c, P a → P b → O.add a b = .ok c → P c) (hsub : ∀ a b c, P a → P b → O.sub a b = .ok c → P c)
    (hmul : ∀ a b c, P a → P b → O.mul a b = .ok c → P c) (hdiv : ∀ a b c, P a → P b → O.div a b = .ok c → P c)
    (hneg : ∀ a c, P a → O.neg a = .ok c → P c) (hO : Honest O) (t : Target) (p : Stmt) (hs : p.Small t.W) (σ σ' : Store T)
    (hσ : ∀ τ i, Val.All P τ (σ τ i)) (h : Run t O p σ (.ok σ')) : ∀ τ i, Val.All P τ (σ' τ i) := by
  have key : ∀ {x : Res T}, (∀ c, x = .ok c → P c) → Rowcol.Rel False (fun a b => a = b ∧ P a) x x := by
    intro x hx
    cases x with
    | ok c => exact .ok ⟨rfl, hx c rfl⟩
    | error e => exact .fail e
  have H : FullRel False O O (fun a b => a = b ∧ P a) := {
    zero := ⟨rfl, h0⟩, one := ⟨rfl, h1⟩
    add := fun {a b _ _} ha hb => by
      obtain ⟨rfl, ha⟩ := ha; obtain ⟨rfl, hb⟩ := hb; exact key fun c => hadd a b c ha hb
    sub := fun {a b _ _} ha hb => by
      obtain ⟨rfl, ha⟩ := ha; obtain ⟨rfl, hb⟩ := hb; exact key fun c => hsub a b c ha hb
    mul := fun {a b _ _} ha hb => by
      obtain ⟨rfl, ha⟩ := ha; obtain ⟨rfl, hb⟩ := hb; exact key fun c => hmul a b c ha hb
    neg := fun {a _} ha => by obtain ⟨rfl, ha⟩ := ha; exact key fun c => hneg a c ha
    isZero := fun h => by rw [h.1]
    div := fun {a b _ _} ha hb _ => by
      obtain ⟨rfl, ha⟩ := ha; obtain ⟨rfl, hb⟩ := hb; exact key fun c => hdiv a b c ha hb
    quot := fun {a b _ _} ha hb => by
      obtain ⟨rfl, ha⟩ := ha; obtain ⟨rfl, hb⟩ := hb; exact key fun c => hdiv a b c ha hb
    safe := hO.neg _
    safe' := hO.neg _ }
  have hr : σ.Rel (fun a b => a = b ∧ P a) σ := by
    intro τ i
    have := hσ τ i
    match τ with
    | .s => exact ⟨rfl, this⟩
    | .v n => exact fun j => ⟨rfl, this j⟩
    | .m r c => exact fun j k => ⟨rfl, this j k⟩
  obtain ⟨ρ', _, h3⟩ := (C104_parametric H t t rfl p hs σ σ hr).1 σ' h
  intro τ i
  have := h3 τ i
  match τ with
  | .s => exact this.2
  | .v n => exact fun j => (this j).2
  | .m r c => exact fun j k => (this j k).2

/-! ## Element types -/

section Types
open Mat

/-- C104: which relations: a homomorphism of fields (exact arithmetic over both), complex conjugation, and the real numbers
among the complex numbers. -/
theorem C104_types :
    (∀ {K L : Type} [Field K] [DecidableEq K] [Field L] [DecidableEq L] (φ : K →+* L),
      FullRel False (Ops.exact K) (Ops.exact L) (fun a b => b = φ a)) ∧
    (∀ {K : Type} [Field K] [DecidableEq K],
      FullRel False (Ops.complex (Ops.exact K)) (Ops.complex (Ops.exact K)) (fun z w => w.re = z.re ∧ w.im = -z.im)) ∧
    (∀ {K : Type} [Field K] [DecidableEq K],
      FullRel False (Ops.exact K) (Ops.complex (Ops.exact K)) (fun a z => z.re = a ∧ z.im = 0)) := by
  refine ⟨fun {K L} _ _ _ _ φ => ?_, fun {K} _ _ => ?_, fun {K} _ _ => ?_⟩
  · have hq : ∀ {a b : K} {a' b' : L}, a' = φ a → b' = φ b →
        Rowcol.Rel False (fun a b => b = φ a) ((Ops.exact K).div a b) ((Ops.exact L).div a' b') := by
      rintro a b _ _ rfl rfl
      by_cases hb : b = 0
      · subst hb; simp only [Ops.exact, map_zero, if_true]; exact .fail _
      · simp only [Ops.exact, hb, map_eq_zero, if_false]; exact .ok (map_div₀ φ a b).symm
    exact {
      zero := (map_zero φ).symm, one := (map_one φ).symm
      add := by rintro a b _ _ rfl rfl; exact .ok (map_add φ a b).symm
      sub := by rintro a b _ _ rfl rfl; exact .ok (map_sub φ a b).symm
      mul := by rintro a b _ _ rfl rfl; exact .ok (map_mul φ a b).symm
      neg := by rintro a _ rfl; exact .ok (map_neg φ a).symm
      isZero := by rintro a _ rfl; simp [Ops.exact]
      div := fun h1 h2 _ => hq h1 h2
      quot := hq
      safe := by simp [Ops.exact]
      safe' := by simp [Ops.exact] }
  · have hq : ∀ {a b a' b' : Cpx K}, (a'.re = a.re ∧ a'.im = -a.im) → (b'.re = b.re ∧ b'.im = -b.im) →
        Rowcol.Rel False (fun z w : Cpx K => w.re = z.re ∧ w.im = -z.im) ((Ops.complex (Ops.exact K)).div a b)
          ((Ops.complex (Ops.exact K)).div a' b') := by
      rintro a b ⟨_, _⟩ ⟨_, _⟩ ⟨rfl, rfl⟩ ⟨rfl, rfl⟩
      simp only [Ops.complex, Ops.exact, res_ok_bind, neg_mul_neg]
      by_cases hs : b.re * b.re + b.im * b.im = 0
      · simp only [hs, if_true]; exact .fail _
      · simp only [hs, if_false, res_ok_bind]; exact .ok ⟨rfl, by ring⟩
    exact {
      zero := ⟨rfl, by simp [Ops.complex, Ops.exact]⟩, one := ⟨rfl, by simp [Ops.complex, Ops.exact]⟩
      add := by
        rintro a b ⟨_, _⟩ ⟨_, _⟩ ⟨rfl, rfl⟩ ⟨rfl, rfl⟩; exact .ok ⟨rfl, by dsimp only; ring⟩
      sub := by
        rintro a b ⟨_, _⟩ ⟨_, _⟩ ⟨rfl, rfl⟩ ⟨rfl, rfl⟩; exact .ok ⟨rfl, by dsimp only; ring⟩
      mul := by
        rintro a b ⟨_, _⟩ ⟨_, _⟩ ⟨rfl, rfl⟩ ⟨rfl, rfl⟩; exact .ok ⟨by dsimp only; ring, by dsimp only; ring⟩
      neg := by rintro a ⟨_, _⟩ ⟨rfl, rfl⟩; exact .ok ⟨rfl, rfl⟩
      isZero := by rintro a ⟨_, _⟩ ⟨rfl, rfl⟩; simp [Ops.complex, Ops.exact]
      div := fun h1 h2 _ => hq h1 h2
      quot := hq
      safe := by simp [Ops.complex, Ops.exact, res_ok_bind, pure, Except.pure]
      safe' := by simp [Ops.complex, Ops.exact, res_ok_bind, pure, Except.pure] }
  · have hq : ∀ {a b : K} {a' b' : Cpx K}, (a'.re = a ∧ a'.im = 0) → (b'.re = b ∧ b'.im = 0) →
        Rowcol.Rel False (fun (a : K) (z : Cpx K) => z.re = a ∧ z.im = 0) ((Ops.exact K).div a b)
          ((Ops.complex (Ops.exact K)).div a' b') := by
      rintro a b ⟨_, _⟩ ⟨_, _⟩ ⟨rfl, rfl⟩ ⟨rfl, rfl⟩
      rename_i x y
      simp only [Ops.complex, Ops.exact, res_ok_bind, mul_zero, add_zero, zero_mul, sub_zero]
      by_cases hs : y = 0
      · subst hs; simp only [mul_zero, if_true]; exact .fail _
      · simp only [hs, mul_self_eq_zero, if_false, res_ok_bind]
        exact .ok ⟨by dsimp only; field_simp, by simp⟩
    exact {
      zero := ⟨rfl, rfl⟩, one := ⟨rfl, rfl⟩
      add := by
        rintro a b ⟨_, _⟩ ⟨_, _⟩ ⟨rfl, rfl⟩ ⟨rfl, rfl⟩; exact .ok ⟨rfl, by dsimp only; ring⟩
      sub := by
        rintro a b ⟨_, _⟩ ⟨_, _⟩ ⟨rfl, rfl⟩ ⟨rfl, rfl⟩; exact .ok ⟨rfl, by dsimp only; ring⟩
      mul := by
        rintro a b ⟨_, _⟩ ⟨_, _⟩ ⟨rfl, rfl⟩ ⟨rfl, rfl⟩; exact .ok ⟨by dsimp only; ring, by dsimp only; ring⟩
      neg := by rintro a ⟨_, _⟩ ⟨rfl, rfl⟩; exact .ok ⟨rfl, by dsimp only; ring⟩
      isZero := by rintro a ⟨_, _⟩ ⟨rfl, rfl⟩; simp [Ops.complex, Ops.exact]
      div := fun h1 h2 _ => hq h1 h2
      quot := hq
      safe := by simp [Ops.exact]
      safe' := by simp [Ops.complex, Ops.exact, res_ok_bind, pure, Except.pure] }

end Types

/-! `C104_closed` applies to the real numbers among the complex numbers. -/
example (K : Type) [Field K] [DecidableEq K] (t : Target) (p : Stmt) (hs : p.Small t.W) (σ σ' : Store (Mat.Cpx K))
    (hσ : ∀ τ i, Val.All (fun z => z.im = 0) τ (σ τ i)) (h : Run t (Ops.complex (Ops.exact K)) p σ (.ok σ')) :
    ∀ τ i, Val.All (fun z => z.im = 0) τ (σ' τ i) := by
  have hd : ∀ a b : Mat.Cpx K, (Ops.complex (Ops.exact K)).div a b ≠ .error .ub := by
    intro a b
    simp only [Ops.complex, Ops.exact, res_ok_bind]
    split <;> simp [pure, Except.pure, bind, Except.bind]
  refine C104_closed (fun z => z.im = 0) rfl rfl ?_ ?_ ?_ ?_ ?_
    ⟨fun _ _ => by simp [Ops.complex, Ops.exact, res_ok_bind, pure, Except.pure],
      fun _ _ => by simp [Ops.complex, Ops.exact, res_ok_bind, pure, Except.pure],
      fun _ _ => by simp [Ops.complex, Ops.exact, res_ok_bind, pure, Except.pure], hd,
      fun _ => by simp [Ops.complex, Ops.exact, res_ok_bind, pure, Except.pure]⟩ t p hs σ σ' hσ h
  · rintro a b c ha hb h; cases h; simp [ha, hb]
  · rintro a b c ha hb h; cases h; simp [ha, hb]
  · rintro a b c ha hb h; cases h; simp [ha, hb]
  · rintro a b c ha hb h
    simp only [Ops.complex, Ops.exact, res_ok_bind, ha, hb] at h
    split at h
    · cases h
    · cases h; simp
  · rintro a c ha h; cases h; simp [ha]

/-! Conjugating the variables conjugates the result: `m += identity + identity; v = m.inverse().unwrap() * v`, with
`m = [[i, 1], [1, i]]` and `v = (1, 1)` at the start. -/
def refine2 : Stmt :=
  .seq (.act (.upd .add 0 (.bin .add .rr (.ident 2) (.ident 2))))
    (.act (.set 0 (.mulVec true (.inv (k := 1) (.var (.m 2 2) 0)) (.var (.v 2) 0))))

def start (y : ℚ) : Store (Mat.Cpx ℚ)
  | .s, _ => (⟨0, 0⟩ : Mat.Cpx ℚ)
  | .v n, _ => (Vec.ofFn fun _ => ⟨1, 0⟩ : Vec (Mat.Cpx ℚ) n)
  | .m r c, _ => (Mat.ofFn fun i j => if i.val = j.val then ⟨0, y⟩ else ⟨1, 0⟩ : Mat (Mat.Cpx ℚ) r c)

def result (y : ℚ) : Option (Res (List (ℚ × ℚ))) :=
  (Examples.final (Ops.complex (Ops.exact ℚ)) refine2 (start y) (.v 2) 0).map fun x => x.map fun l => l.map fun z => (z.re, z.im)

example : result 1 = some (.ok [(3 / 10, -1 / 10), (3 / 10, -1 / 10)]) ∧
    result (-1) = some (.ok [(3 / 10, 1 / 10), (3 / 10, 1 / 10)]) := by decide +kernel

end Prog
end Rowcol
