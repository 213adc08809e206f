import Verif.RewriteSpec
import Verif.Props.Programs

/-! # C114: rewriting programs by the laws of linear algebra -/

namespace Rowcol
namespace Prog
variable {T K : Type} {τ : Ty} {w : Nat}

theorem Ex.Same.rfl' (e : Ex τ) : e.Same e := fun _ _ _ _ => rfl

/-- Programs that are the same after rewriting mean the same. -/
theorem Stmt.SameBy.means {E : ∀ {τ : Ty}, Ex τ → Ex τ → Prop} {A : Act → Act → Prop} [CommRing K] (dv : K → K → K)
    (hE : ∀ {τ : Ty} {e e' : Ex τ}, E e e' → ∀ ρ : Env K, e.den dv ρ = e'.den dv ρ)
    (hA : ∀ {a b : Act}, A a b → ∀ ρ : Env K, a.den dv ρ = b.den dv ρ) {p q : Stmt} (h : p.SameBy E A q) :
    ∀ ρ ρ', Means dv p ρ ρ' ↔ Means dv q ρ ρ' := by
  induction h with
  | refl p => exact fun _ _ => Iff.rfl
  | symm _ ih => exact fun ρ ρ' => (ih ρ ρ').symm
  | trans _ _ ih1 ih2 => exact fun ρ ρ' => (ih1 ρ ρ').trans (ih2 ρ ρ')
  | @act a b h =>
    refine fun ρ ρ' => ⟨fun g => ?_, fun g => ?_⟩
    · cases g; rw [hA h]; exact .act _ _
    · cases g; rw [← hA h]; exact .act _ _
  | seq _ _ ih1 ih2 =>
    refine fun ρ ρ' => ⟨fun g => ?_, fun g => ?_⟩
    · cases g with | seq g1 g2 => exact .seq ((ih1 _ _).1 g1) ((ih2 _ _).1 g2)
    · cases g with | seq g1 g2 => exact .seq ((ih1 _ _).2 g1) ((ih2 _ _).2 g2)
  | ite h _ _ ih1 ih2 =>
    refine fun ρ ρ' => ⟨fun g => ?_, fun g => ?_⟩
    · cases g with
      | iteZero h0 g => exact .iteZero (by rw [← hE h]; exact h0) ((ih1 _ _).1 g)
      | iteElse h0 g => exact .iteElse (by rw [← hE h]; exact h0) ((ih2 _ _).1 g)
    · cases g with
      | iteZero h0 g => exact .iteZero (by rw [hE h]; exact h0) ((ih1 _ _).2 g)
      | iteElse h0 g => exact .iteElse (by rw [hE h]; exact h0) ((ih2 _ _).2 g)
  | @loop τ e e' b p p' h _ ih =>
    refine fun ρ ρ' => ⟨fun g => ?_, fun g => ?_⟩
    · generalize hl : Stmt.loop b e p = l at g
      induction g with
      | loopGo h0 g1 _ _ ih2 => cases hl; exact .loopGo (by rw [← hE h]; exact h0) ((ih _ _).1 g1) (ih2 rfl)
      | loopEnd h0 => cases hl; exact .loopEnd (by rw [← hE h]; exact h0)
      | _ => cases hl
    · generalize hl : Stmt.loop b e' p' = l at g
      induction g with
      | loopGo h0 g1 _ _ ih2 => cases hl; exact .loopGo (by rw [hE h]; exact h0) ((ih _ _).2 g1) (ih2 rfl)
      | loopEnd h0 => cases hl; exact .loopEnd (by rw [hE h]; exact h0)
      | _ => cases hl
  | skipLeft p =>
    refine fun ρ ρ' => ⟨fun g => ?_, fun g => .seq (.skip _) g⟩
    cases g with | seq g1 g2 => cases g1; exact g2
  | skipRight p =>
    refine fun ρ ρ' => ⟨fun g => ?_, fun g => .seq g (.skip _)⟩
    cases g with | seq g1 g2 => cases g2; exact g1
  | assoc p q r =>
    refine fun ρ ρ' => ⟨fun g => ?_, fun g => ?_⟩
    · cases g with | seq g1 g2 => cases g1 with | seq g3 g4 => exact .seq g3 (.seq g4 g2)
    · cases g with | seq g1 g2 => cases g2 with | seq g3 g4 => exact .seq (.seq g1 g3) g4
  | iteSeq e p q r =>
    refine fun ρ ρ' => ⟨fun g => ?_, fun g => ?_⟩
    · cases g with
      | seq g1 g2 =>
        cases g1 with
        | iteZero h0 g => exact .iteZero h0 (.seq g g2)
        | iteElse h0 g => exact .iteElse h0 (.seq g g2)
    · cases g with
      | iteZero h0 g => cases g with | seq g1 g2 => exact .seq (.iteZero h0 g1) g2
      | iteElse h0 g => cases g with | seq g1 g2 => exact .seq (.iteElse h0 g1) g2
  | iteSame e p =>
    refine fun ρ ρ' => ⟨fun g => ?_, fun g => ?_⟩
    · cases g <;> assumption
    · by_cases h : e.den dv ρ = 0
      · exact .iteZero h g
      · exact .iteElse h g
  | unroll e p =>
    refine fun ρ ρ' => ⟨fun g => ?_, fun g => ?_⟩
    · cases g with
      | loopGo h0 g1 g2 => exact .iteZero (h0.2 rfl) (.seq g1 g2)
      | loopEnd h0 => exact .iteElse (fun h => h0 (by simp [h])) (.skip _)
    · cases g with
      | iteZero h0 g => cases g with | seq g1 g2 => exact .loopGo (by simp [h0]) g1 g2
      | iteElse h0 g => cases g; exact .loopEnd (by simp [h0])
  | unrollNot e p =>
    refine fun ρ ρ' => ⟨fun g => ?_, fun g => ?_⟩
    · cases g with
      | loopGo h0 g1 g2 => exact .iteElse (fun h => by simpa using h0.1 h) (.seq g1 g2)
      | loopEnd h0 => exact .iteZero (by by_contra h; exact h0 (by simp [h])) (.skip _)
    · cases g with
      | iteZero h0 g => cases g; exact .loopEnd (by simp [h0])
      | iteElse h0 g => cases g with | seq g1 g2 => exact .loopGo (by simp [h0]) g1 g2

theorem Stmt.Same.means {p q : Stmt} (h : p.Same q) [CommRing K] (dv : K → K → K) :
    ∀ ρ ρ', Means dv p ρ ρ' ↔ Means dv q ρ ρ' := SameBy.means dv (fun h => h K dv) (fun h => h K dv) h

theorem Val.den_injective {φ : T → K} (hφ : Function.Injective φ) (τ : Ty) (x y : Val T τ) (h : Val.den φ τ x = Val.den φ τ y) :
    x = y := by
  match τ with
  | .s => exact hφ h
  | .v n => exact Vec.ext_get fun i => hφ (congrFun h i)
  | .m r c => exact Mat.ext_get fun i j => hφ (congrFun (congrFun h i) j)

theorem Store.den_injective {φ : T → K} (hφ : Function.Injective φ) (σ₁ σ₂ : Store T) (h : σ₁.den φ = σ₂.den φ) : σ₁ = σ₂ := by
  funext τ i
  exact Val.den_injective hφ τ _ _ (congrFun (congrFun h τ) i)

/-- C114: with elements from a commutative ring with total operations (big integers, wrapping integers), rewriting a program
that does not divide and whose indices are in range changes nothing: the same outcome, or none, for all start values. -/
theorem C114_ring [CommRing K] {O : Ops K} (hO : O.IsRing) (hz : ∀ a, O.isZero a = true ↔ a = 0) (t : Target) (p q : Stmt)
    (h : p.Same q) (hp : p.Small t.W ∧ p.DivFree ∧ p.InRange) (hq : q.Small t.W ∧ q.DivFree ∧ q.InRange) (σ : Store K)
    (x : Res (Store K)) : Run t O p σ x ↔ Run t O q σ x := by
  have key : ∀ {p q : Stmt}, p.Same q → (p.Small t.W ∧ p.DivFree ∧ p.InRange) → (q.Small t.W ∧ q.DivFree ∧ q.InRange) →
      Run t O p σ x → Run t O q σ x := by
    intro p q h hp hq hx
    obtain ⟨σ', rfl, hm⟩ := C103_ring hO hz t p hp.1 hp.2.1 hp.2.2 (fun a _ => a) σ x hx
    obtain ⟨σ'', hr, hd⟩ := C103_complete hO hz t q hq.1 hq.2.1 hq.2.2 _ σ _ ((Stmt.Same.means h _ _ _).1 hm)
    rwa [Store.den_injective Function.injective_id _ _ hd] at hr
  exact ⟨key h hp hq, key h.symm hq hp⟩

/-- C114: for expressions. -/
theorem C114_expressions [CommRing K] {O : Ops K} (hO : O.IsRing) (t : Target) (e₁ e₂ : Ex τ) (h : e₁.Same e₂)
    (h₁ : e₁.Small t.W ∧ e₁.DivFree ∧ e₁.InRange) (h₂ : e₂.Small t.W ∧ e₂.DivFree ∧ e₂.InRange) (σ : Store K) :
    e₁.eval t O σ = e₂.eval t O σ := by
  rcases exact_eval (dv := fun a _ => a) hO t σ e₁ h₁.1 (.inl h₁.2.1) with ⟨_, g⟩ | ⟨v, g, hv⟩
  · exact absurd h₁.2 g
  rcases exact_eval (dv := fun a _ => a) hO t σ e₂ h₂.1 (.inl h₂.2.1) with ⟨_, g'⟩ | ⟨u, g', hu⟩
  · exact absurd h₂.2 g'
  rw [g, g', Val.den_injective Function.injective_id τ v u (by rw [hv, hu, h])]

/-- C114: with fractions whose operations are exact or panic, a program and its rewritten form that both return end with the
same values; division allowed. -/
theorem C114_fractions [Field K] [DecidableEq K] {O : Ops T} {φ : T → K} (H : FullHom O (Ops.exact K) φ)
    (hφ : Function.Injective φ) (t : Target) (p q : Stmt) (h : p.Same q) (hp : p.Small t.W) (hq : q.Small t.W)
    (σ σ₁ σ₂ : Store T) (h₁ : Run t O p σ (.ok σ₁)) (h₂ : Run t O q σ (.ok σ₂)) : σ₁ = σ₂ := by
  rcases C102_fractions H t p hp σ _ h₁ with g | ⟨_, g, m₁⟩
  · cases g
  cases g
  rcases C102_fractions H t q hq σ _ h₂ with g | ⟨_, g, m₂⟩
  · cases g
  cases g
  exact Store.den_injective hφ _ _ (C102_unique _ _ _ _ _ ((Stmt.Same.means h _ _ _).1 m₁) m₂)

/-- C114: the same for rewriting with laws that hold over all fields, those about division, inverses and Cramer's rule among
them. -/
theorem C114_fields [Field K] [DecidableEq K] {O : Ops T} {φ : T → K} (H : FullHom O (Ops.exact K) φ)
    (hφ : Function.Injective φ) (t : Target) (p q : Stmt) (h : p.SameField q) (hp : p.Small t.W) (hq : q.Small t.W)
    (σ σ₁ σ₂ : Store T) (h₁ : Run t O p σ (.ok σ₁)) (h₂ : Run t O q σ (.ok σ₂)) : σ₁ = σ₂ := by
  rcases C102_fractions H t p hp σ _ h₁ with g | ⟨_, g, m₁⟩
  · cases g
  cases g
  rcases C102_fractions H t q hq σ _ h₂ with g | ⟨_, g, m₂⟩
  · cases g
  cases g
  exact Store.den_injective hφ _ _ (C102_unique _ _ _ _ _
    ((Stmt.SameBy.means (· / ·) (fun h => h K) (fun h => h K) h _ _).1 m₁) m₂)

/-- C114: for expressions. -/
theorem C114_field_expressions [Field K] [DecidableEq K] {O : Ops T} {φ : T → K} (H : FullHom O (Ops.exact K) φ)
    (hφ : Function.Injective φ) (t : Target) (e₁ e₂ : Ex τ) (h : e₁.SameField e₂) (h₁ : e₁.Small t.W) (h₂ : e₂.Small t.W)
    (σ : Store T) (v₁ v₂ : Val T τ) (g₁ : e₁.eval t O σ = .ok v₁) (g₂ : e₂.eval t O σ = .ok v₂) : v₁ = v₂ := by
  have key : ∀ (e : Ex τ) (_ : e.Small t.W) (v : Val T τ), e.eval t O σ = .ok v → Val.den φ τ v = e.den (· / ·) (σ.den φ) := by
    intro e hs v hv
    rcases sim_eval H.1.toHom t t rfl σ e hs (.inr H) with h3 | ⟨w', h3, h4⟩
    · rw [hv] at h3; cases h3
    · rw [hv] at h3; cases h3
      rcases exact_eval (Ops.exact_isField K).toIsRing t (σ.map φ) e hs (.inr (exact_divOk K t)) with ⟨h5, _⟩ | ⟨x, h5, h6⟩
      · rw [h4] at h5; cases h5
      · rw [h4] at h5; cases h5
        rwa [Val.den_map, Store.den_map] at h6
  exact Val.den_injective hφ τ _ _ (by rw [key e₁ h₁ v₁ g₁, key e₂ h₂ v₂ g₂]; exact h K _)

/-- C114: with integers whose operations are exact or panic, the same for programs that do not divide. -/
theorem C114_integers {O : Ops T} {φ : T → Int} (H : O.DivHom Ops.int φ) (hφ : Function.Injective φ) (t : Target) (p q : Stmt)
    (h : p.Same q) (hp : p.Small t.W ∧ p.DivFree) (hq : q.Small t.W ∧ q.DivFree)
    (σ σ₁ σ₂ : Store T) (h₁ : Run t O p σ (.ok σ₁)) (h₂ : Run t O q σ (.ok σ₂)) : σ₁ = σ₂ := by
  rcases C102_integers H t p hp.1 hp.2 σ _ h₁ with g | ⟨_, g, m₁⟩
  · cases g
  cases g
  rcases C102_integers H t q hq.1 hq.2 σ _ h₂ with g | ⟨_, g, m₂⟩
  · cases g
  cases g
  exact Store.den_injective hφ _ _ (C102_unique _ _ _ _ _ ((Stmt.Same.means h _ _ _).1 m₁) m₂)

/-- C114: the element types of the last two theorems. -/
theorem C114_types :
    (∀ w, FullHom (Ops.ratio w) (Ops.exact ℚ) id) ∧
    (∀ w, 1 < w → (Ops.signed true w).DivHom Ops.int BitVec.toInt ∧ Function.Injective (BitVec.toInt (n := w))) ∧
    (∀ w, 0 < w → (Ops.unsigned true w).DivHom Ops.int uval ∧ Function.Injective (uval (w := w))) :=
  ⟨C102_types.1, fun w hw => ⟨C102_types.2.2.1 w hw, fun _ _ h => BitVec.eq_of_toInt_eq h⟩,
    fun w hw => ⟨C102_types.2.2.2 w hw, fun a b h => BitVec.eq_of_toNat_eq (by simpa [uval] using h)⟩⟩

/-! ## Laws -/

section
variable {l n r c d k : Nat} (f g : Form)

/-- C114: an equal expression may replace a part of an expression, in every position. -/
theorem C114_parts :
    (∀ o {a a' b b' : Ex τ}, a.Same a' → b.Same b' → (Ex.bin o f a b).Same (.bin o g a' b')) ∧
    (∀ {a a' : Ex τ}, a.Same a' → (Ex.neg a).Same (.neg a')) ∧
    (∀ {a a' : Ex τ} {s s' : Ex .s}, a.Same a' → s.Same s' →
      (Ex.scale a s).Same (.scale a' s') ∧ (Ex.quot a s).Same (.quot a' s')) ∧
    (∀ {v v' w w' : Ex (.v n)} {i : Nat}, v.Same v' → w.Same w' →
      (Ex.vsum v).Same (.vsum v') ∧ (Ex.dot v w).Same (.dot v' w') ∧ (Ex.vget v i).Same (.vget v' i)) ∧
    (∀ {v v' w w' : Ex (.v 3)}, v.Same v' → w.Same w' → (Ex.cross v w).Same (.cross v' w')) ∧
    (∀ {a a' : Ex (.m l n)} {b b' : Ex (.m n c)} {v v' : Ex (.v n)} {y y' : Bool} {i j : Nat}, a.Same a' → b.Same b' → v.Same v' →
      (Ex.msum a).Same (.msum a') ∧ (Ex.mget a i j).Same (.mget a' i j) ∧ (Ex.mul f a b).Same (.mul g a' b') ∧
      (Ex.mulVec y a v).Same (.mulVec y' a' v') ∧ (Ex.transposed a).Same (.transposed a') ∧
      (Ex.row a i).Same (.row a' i) ∧ (Ex.col a j).Same (.col a' j)) ∧
    (∀ {a a' : Ex (.m n n)} {i : Nat}, a.Same a' → (Ex.pow a i).Same (.pow a' i)) ∧
    (∀ {a a' : Ex (.m (k + 1) (k + 1))}, a.Same a' → (Ex.det a).Same (.det a') ∧ (Ex.inv a).Same (.inv a')) ∧
    (∀ {a a' : Ex (.m (k + 2) (k + 2))} {i j : Nat}, a.Same a' → (Ex.cof a i j).Same (.cof a' i j)) ∧
    (∀ {e e' : Nat → Ex .s}, (∀ i < n, (e i).Same (e' i)) → (Ex.gen (n := n) e).Same (.gen e')) ∧
    (∀ {e e' : Nat × Nat → Ex .s} {a a' : Ex (.m r c)} {x : Nat}, (∀ i < r, ∀ j < c, (e (i, j)).Same (e' (i, j))) → a.Same a' →
      (Ex.mgen (r := r) (c := c) e).Same (.mgen e') ∧ (Ex.map x e a).Same (.map x e' a')) ∧
    (∀ {v v' : Ex (.v (Nat.min r c))}, v.Same v' → (Ex.diag (r := r) (c := c) v).Same (.diag v')) := by
  refine ⟨fun o a a' b b' h h' K _ dv ρ => ?_, fun h K _ dv ρ => ?_, fun h h' => ⟨fun K _ dv ρ => ?_, fun K _ dv ρ => ?_⟩,
    fun h h' => ⟨fun K _ dv ρ => ?_, fun K _ dv ρ => ?_, fun K _ dv ρ => ?_⟩, fun h h' K _ dv ρ => ?_,
    fun h h' h'' => ⟨fun K _ dv ρ => ?_, fun K _ dv ρ => ?_, fun K _ dv ρ => ?_, fun K _ dv ρ => ?_, fun K _ dv ρ => ?_,
      fun K _ dv ρ => ?_, fun K _ dv ρ => ?_⟩,
    fun h K _ dv ρ => ?_, fun h => ⟨fun K _ dv ρ => ?_, fun K _ dv ρ => ?_⟩, fun h K _ dv ρ => ?_, fun h K _ dv ρ => ?_,
    fun h h' => ⟨fun K _ dv ρ => ?_, fun K _ dv ρ => ?_⟩, fun h K _ dv ρ => ?_⟩
  · cases o <;> simp only [Ex.den, h K dv ρ, h' K dv ρ]
  · simp only [Ex.den, h K dv ρ]
  · simp only [Ex.den, h K dv ρ, h' K dv ρ]
  · simp only [Ex.den, h K dv ρ, h' K dv ρ]
  · simp only [Ex.den, h K dv ρ]
  · simp only [Ex.den, h K dv ρ, h' K dv ρ]
  · simp only [Ex.den, h K dv ρ]
  · simp only [Ex.den, h K dv ρ, h' K dv ρ]
  · simp only [Ex.den, h K dv ρ]
  · simp only [Ex.den, h K dv ρ]
  · simp only [Ex.den, h K dv ρ, h' K dv ρ]
  · simp only [Ex.den, h K dv ρ, h'' K dv ρ]
  · simp only [Ex.den, h K dv ρ]
  · simp only [Ex.den, h K dv ρ]
  · simp only [Ex.den, h K dv ρ]
  · simp only [Ex.den, h K dv ρ]
  · simp only [Ex.den, h K dv ρ]
  · simp only [Ex.den, h K dv ρ]
  · simp only [Ex.den, h K dv ρ]
  · funext i; exact h i i.isLt K dv ρ
  · funext i j; exact h i i.isLt j j.isLt K dv ρ
  · funext i j
    simp only [Ex.den, h' K dv ρ]
    exact h i i.isLt j j.isLt K dv _
  · simp only [Ex.den, h K dv ρ]; rfl

open Matrix in
/-- C114: products. -/
theorem C114_products (a : Ex (.m l n)) (b b' : Ex (.m n c)) (e : Ex (.m c d)) (v : Ex (.v n)) (u : Ex (.v c)) (w : Ex (.v l))
    (s : Ex .s) (m : Ex (.m n n)) (i j : Nat) (y : Bool) :
    (Ex.mul f (.mul f a b) e).Same (.mul g a (.mul g b e)) ∧
    (Ex.mul f a (.bin .add f b b')).Same (.bin .add g (.mul g a b) (.mul g a b')) ∧
    (Ex.mul f (.scale a s) b).Same (.scale (.mul g a b) s) ∧
    (Ex.mul f a (.scale b s)).Same (.scale (.mul g a b) s) ∧
    (Ex.mul f (.ident l) a).Same a ∧ (Ex.mul f a (.ident n)).Same a ∧
    (Ex.transposed (.mul f a b)).Same (.mul g (.transposed b) (.transposed a)) ∧
    (Ex.transposed (.transposed a)).Same a ∧
    (Ex.mulVec y (.mul f a b) u).Same (.mulVec y a (.mulVec y b u)) ∧
    (Ex.dot (.mulVec y a v) w).Same (.dot v (.mulVec y (.transposed a) w)) ∧
    (Ex.pow m (i + j)).Same (.mul f (.pow m i) (.pow m j)) ∧
    (Ex.pow m (i * j)).Same (.pow (.pow m i) j) := by
  refine ⟨fun K _ dv ρ => ?_, fun K _ dv ρ => ?_, fun K _ dv ρ => ?_, fun K _ dv ρ => ?_, fun K _ dv ρ => ?_, fun K _ dv ρ => ?_,
    fun K _ dv ρ => ?_, fun K _ dv ρ => ?_, fun K _ dv ρ => ?_, fun K _ dv ρ => ?_, fun K _ dv ρ => ?_, fun K _ dv ρ => ?_⟩ <;>
    simp only [Ex.den]
  · exact Matrix.mul_assoc _ _ _
  · exact Matrix.mul_add _ _ _
  · exact Matrix.smul_mul _ _ _
  · exact Matrix.mul_smul _ _ _
  · exact Matrix.one_mul _
  · exact Matrix.mul_one _
  · exact Matrix.transpose_mul _ _
  · exact Matrix.transpose_transpose _
  · exact (Matrix.mulVec_mulVec _ _ _).symm
  · rw [Matrix.mulVec_transpose, dotProduct_comm, Matrix.dotProduct_mulVec, dotProduct_comm]
  · exact pow_add _ _ _
  · exact pow_mul _ _ _

/-- C114: determinants and inverses. -/
theorem C114_determinants (a b : Ex (.m (k + 1) (k + 1))) :
    (Ex.det (.mul f a b)).Same (.scale (.det b) (.det a)) ∧
    (Ex.det (.transposed a)).Same (.det a) ∧
    (Ex.det (.ident (k + 1))).Same .one ∧
    (Ex.inv (.mul f a b)).Same (.mul g (.inv b) (.inv a)) ∧
    (Ex.inv (.transposed a)).Same (.transposed (.inv a)) := by
  refine ⟨fun K _ dv ρ => ?_, fun K _ dv ρ => ?_, fun K _ dv ρ => ?_, fun K _ dv ρ => ?_, fun K _ dv ρ => ?_⟩ <;>
    simp only [Ex.den]
  · exact Matrix.det_mul _ _
  · exact Matrix.det_transpose _
  · exact Matrix.det_one
  · exact Matrix.mul_inv_rev _ _
  · exact (Matrix.transpose_nonsing_inv _).symm

/-- C114: entries, rows and columns. -/
theorem C114_entries (a : Ex (.m l n)) (b : Ex (.m n c)) (v : Ex (.v n)) (u w : Ex (.v n)) (i j : Nat) (y : Bool) :
    (Ex.mgen (r := l) (c := c) fun p => .dot (.row a p.1) (.col b p.2)).Same (.mul f a b) ∧
    (Ex.gen (n := l) fun i => .dot (.row a i) v).Same (.mulVec y a v) ∧
    (Ex.mgen (r := n) (c := l) fun p => .mget a p.2 p.1).Same (.transposed a) ∧
    (Ex.mgen (r := l) (c := n) fun p => .mget a p.1 p.2).Same a ∧
    (Ex.gen (n := n) fun i => .vget v i).Same v ∧
    (Ex.gen (n := n) fun i => .bin .add f (.vget u i) (.vget w i)).Same (.bin .add g u w) ∧
    (Ex.row (.transposed a) i).Same (.col a i) ∧ (Ex.col (.transposed a) i).Same (.row a i) ∧
    (Ex.vget (.row a i) j).Same (.mget a i j) ∧ (Ex.vget (.col a j) i).Same (.mget a i j) ∧
    (i < l → (Ex.row (.mul f a b) i).Same (.mulVec y (.transposed b) (.row a i))) ∧
    (j < c → (Ex.col (.mul f a b) j).Same (.mulVec y a (.col b j))) ∧
    (Ex.diag (r := n) (c := n) (.gen fun _ => .one)).Same (.ident n) ∧
    (Ex.msum a).Same (.vsum (.gen (n := l) fun i => .vsum (.row a i))) := by
  refine ⟨fun K _ dv ρ => ?_, fun K _ dv ρ => ?_, fun K _ dv ρ => ?_, fun K _ dv ρ => ?_, fun K _ dv ρ => ?_, fun K _ dv ρ => ?_,
    fun K _ dv ρ => ?_, fun K _ dv ρ => ?_, fun K _ dv ρ => ?_, fun K _ dv ρ => ?_, fun hi K _ dv ρ => ?_, fun hj K _ dv ρ => ?_,
    fun K _ dv ρ => ?_, fun K _ dv ρ => ?_⟩ <;>
    simp only [Ex.den]
  · funext i j; simp [Matrix.mul_apply, dotProduct]
  · funext i; simp [Matrix.mulVec, dotProduct]
  · funext i j; simp [Matrix.transpose]
  · funext i j; simp
  · funext i; simp
  · funext i; simp
  · split <;> rfl
  · split <;> rfl
  · split <;> split <;> simp_all
  · split <;> split <;> simp_all
  · rw [dif_pos hi, dif_pos hi]
    funext j
    simp [Matrix.mul_apply, Matrix.mulVec, dotProduct, Matrix.transpose_apply, mul_comm]
  · rw [dif_pos hj, dif_pos hj]
    funext i
    simp [Matrix.mul_apply, Matrix.mulVec, dotProduct]
  · funext i j
    simp [Matrix.one_apply, Fin.ext_iff]
  · simp

/-- C114: vectors. -/
theorem C114_vectors (u v w x : Ex (.v 3)) (a : Ex (.m 3 3)) (p q : Ex (.v n)) (s : Ex .s) (y : Bool) :
    (Ex.cross u v).Same (.neg (.cross v u)) ∧ (Ex.cross u u).Same (.zero (.v 3)) ∧
    (Ex.cross u (.cross v w)).Same (.bin .sub f (.scale v (.dot u w)) (.scale w (.dot u v))) ∧
    (Ex.dot (.cross u v) (.cross w x)).Same
      (.bin .sub f (.scale (.dot u w) (.dot v x)) (.scale (.dot u x) (.dot v w))) ∧
    (Ex.dot u (.cross v w)).Same
      (.det (k := 2) (.mgen fun p => .vget (if p.1 = 0 then u else if p.1 = 1 then v else w) p.2)) ∧
    (Ex.cross (.mulVec y a u) (.mulVec y a v)).Same (.mulVec y (.mgen fun p => .cof (k := 1) a p.1 p.2) (.cross u v)) ∧
    (Ex.dot p q).Same (.dot q p) ∧ (Ex.dot (.scale p s) q).Same (.scale (.dot p q) s) ∧
    (Ex.vsum p).Same (.dot p (.gen fun _ => .one)) := by
  refine ⟨fun K _ dv ρ => ?_, fun K _ dv ρ => ?_, fun K _ dv ρ => ?_, fun K _ dv ρ => ?_, fun K _ dv ρ => ?_, fun K _ dv ρ => ?_,
    fun K _ dv ρ => ?_, fun K _ dv ρ => ?_, fun K _ dv ρ => ?_⟩
  · simp only [Ex.den]; exact (cross_anticomm _ _).symm
  · simp only [Ex.den]; exact cross_self _
  · simp only [Ex.den]
    funext i
    fin_cases i <;> simp [crossProduct, dotProduct, Fin.sum_univ_three, Den] <;> ring
  · simp only [Ex.den]
    simp [crossProduct, dotProduct, Fin.sum_univ_three] ; ring
  · simp only [Ex.den]
    refine Eq.trans ?_ (Matrix.det_fin_three _).symm
    simp [crossProduct, dotProduct, Fin.sum_univ_three]; ring
  · simp only [Ex.den]
    funext i
    fin_cases i <;> simp [crossProduct, Matrix.mulVec, dotProduct, Fin.sum_univ_three, Matrix.det_fin_two, Fin.succAbove] <;> ring
  · simp only [Ex.den]; exact dotProduct_comm _ _
  · simp only [Ex.den]; exact smul_dotProduct _ _ _
  · simp only [Ex.den]; simp [dotProduct]

theorem cof_adj (a : Ex (.m (k + 2) (k + 2))) [CommRing K] (dv : K → K → K) (ρ : Env K) (x y : Fin (k + 2)) :
    (Ex.cof a y.val x.val).den dv ρ = Matrix.adjugate (show Matrix (Fin (k + 2)) (Fin (k + 2)) K from a.den dv ρ) x y := by
  simp only [Ex.den]
  rw [dif_pos ⟨y.isLt, x.isLt⟩, Matrix.adjugate_fin_succ_eq_det_submatrix]

theorem adj_eq (a : Ex (.m (k + 2) (k + 2))) [CommRing K] (dv : K → K → K) (ρ : Env K) :
    (Ex.mgen (r := k + 2) (c := k + 2) fun p => .cof a p.2 p.1).den dv ρ =
      Matrix.adjugate (show Matrix (Fin (k + 2)) (Fin (k + 2)) K from a.den dv ρ) :=
  funext fun x => funext fun y => cof_adj a dv ρ x y

/-- C114: cofactors: expansion along any row or column; the row of another entry; the adjugate. -/
theorem C114_cofactors (a : Ex (.m (k + 2) (k + 2))) (i j : Nat) (hi : i < k + 2) (hj : j < k + 2) :
    (Ex.dot (.row a i) (.gen fun l => .cof a i l)).Same (.det a) ∧
    (Ex.dot (.col a j) (.gen fun l => .cof a l j)).Same (.det a) ∧
    (i ≠ j → (Ex.dot (.row a i) (.gen fun l => .cof a j l)).Same (.zero .s)) ∧
    (Ex.mul f a (.mgen fun p => .cof a p.2 p.1)).Same (.scale (.ident _) (.det a)) ∧
    (Ex.mul f (.mgen fun p => .cof a p.2 p.1) a).Same (.scale (.ident _) (.det a)) := by
  refine ⟨fun K _ dv ρ => ?_, fun K _ dv ρ => ?_, fun hij K _ dv ρ => ?_, fun K _ dv ρ => ?_, fun K _ dv ρ => ?_⟩
  · have h := congrFun (congrFun (Matrix.mul_adjugate (show Matrix (Fin (k + 2)) (Fin (k + 2)) K from a.den dv ρ)) ⟨i, hi⟩) ⟨i, hi⟩
    rw [Matrix.mul_apply, Matrix.smul_apply, Matrix.one_apply_eq, smul_eq_mul, mul_one] at h
    simp only [Ex.den, dif_pos hi, dotProduct]
    exact (Finset.sum_congr rfl fun x _ => congrArg _ (cof_adj a dv ρ x ⟨i, hi⟩)).trans h
  · have h := congrFun (congrFun (Matrix.adjugate_mul (show Matrix (Fin (k + 2)) (Fin (k + 2)) K from a.den dv ρ)) ⟨j, hj⟩) ⟨j, hj⟩
    rw [Matrix.mul_apply, Matrix.smul_apply, Matrix.one_apply_eq, smul_eq_mul, mul_one] at h
    simp only [Ex.den, dif_pos hj, dotProduct]
    exact (Finset.sum_congr rfl fun x _ => (mul_comm _ _).trans (congrArg (· * _) (cof_adj a dv ρ ⟨j, hj⟩ x))).trans h
  · have h := congrFun (congrFun (Matrix.mul_adjugate (show Matrix (Fin (k + 2)) (Fin (k + 2)) K from a.den dv ρ)) ⟨i, hi⟩) ⟨j, hj⟩
    rw [Matrix.mul_apply, Matrix.smul_apply, Matrix.one_apply_ne (by simpa using hij), smul_zero] at h
    simp only [Ex.den, dif_pos hi, dotProduct]
    exact (Finset.sum_congr rfl fun x _ => congrArg _ (cof_adj a dv ρ x ⟨j, hj⟩)).trans h
  · have e := adj_eq a dv ρ
    simp only [Ex.den] at e ⊢
    rw [e]
    exact Matrix.mul_adjugate _
  · have e := adj_eq a dv ρ
    simp only [Ex.den] at e ⊢
    rw [e]
    exact Matrix.adjugate_mul _

/-- C114: what holds over all commutative rings holds over all fields. -/
theorem C114_same_field {e₁ e₂ : Ex τ} (h : e₁.Same e₂) : e₁.SameField e₂ := fun K _ ρ => h K _ ρ

theorem quot_smul [Field K] (τ : Ty) (x : Den K τ) (s : K) : Den.quot (· / ·) τ x s = s⁻¹ • x := by
  match τ with
  | .s => exact div_eq_inv_mul _ _
  | .v n => funext i; exact div_eq_inv_mul _ _
  | .m r c => funext i j; exact div_eq_inv_mul _ _

/-- C114: division and inverses: the inverse from cofactors, Cramer's rule, and so on. -/
theorem C114_division (a : Ex (.m (k + 1) (k + 1))) (b : Ex (.m (k + 2) (k + 2))) (v : Ex (.v (k + 1))) (x y : Ex τ)
    (s s' : Ex .s) (z : Bool) (i : Nat) (hi : i < k + 1) :
    (Ex.quot x s).SameField (.scale x (.quot .one s)) ∧
    (Ex.quot (.quot x s) s').SameField (.quot x (.scale s s')) ∧
    (Ex.quot (.bin .add f x y) s).SameField (.bin .add g (.quot x s) (.quot y s)) ∧
    (Ex.inv b).SameField (.quot (.mgen fun p => .cof b p.2 p.1) (.det b)) ∧
    (Ex.vget (.mulVec z (.inv a) v) i).SameField
      (.quot (.det (k := k) (.mgen fun p => if p.2 = i then .vget v p.1 else .mget a p.1 p.2)) (.det a)) ∧
    (Ex.det (.inv a)).SameField (.quot .one (.det a)) ∧
    (Ex.inv (.scale a s)).SameField (.quot (.inv a) s) ∧
    (Ex.scale (.mul f a (.inv a)) (.det a)).SameField (.scale (.ident _) (.det a)) := by
  refine ⟨fun K _ ρ => ?_, fun K _ ρ => ?_, fun K _ ρ => ?_, fun K _ ρ => ?_, fun K _ ρ => ?_, fun K _ ρ => ?_,
    fun K _ ρ => ?_, fun K _ ρ => ?_⟩
  · simp only [Ex.den, quot_smul]
    exact congrArg (· • _) (mul_one _).symm
  · simp only [Ex.den, quot_smul, smul_smul]
    congr 1
    exact (mul_inv_rev _ _).symm.trans (congrArg _ (mul_comm _ _))
  · simp only [Ex.den, quot_smul, smul_add]
  · have e := adj_eq b (· / ·) ρ
    simp only [Ex.den] at e ⊢
    rw [e, quot_smul, Matrix.inv_def, Ring.inverse_eq_inv']
  · simp only [Ex.den, dif_pos hi]
    rw [Matrix.inv_def, Ring.inverse_eq_inv', Matrix.smul_mulVec, Pi.smul_apply, ← Matrix.cramer_eq_adjugate_mulVec,
      Matrix.cramer_apply, Den.quot, div_eq_inv_mul, smul_eq_mul]
    congr 2
    funext x y
    by_cases hy : y.val = i
    · subst hy; simp [Ex.den]; omega
    · have : y ≠ ⟨i, hi⟩ := fun h => hy (congrArg Fin.val h)
      simp [Ex.den, hy, this]; omega
  · simp only [Ex.den, Den.quot]
    rw [Matrix.det_nonsing_inv, Ring.inverse_eq_inv', one_div]
  · simp only [Ex.den]
    rw [quot_smul]
    by_cases h0 : (s.den (· / ·) ρ : K) = 0
    · rw [h0, zero_smul, inv_zero, zero_smul]
      exact Matrix.inv_zero
    · by_cases h1 : IsUnit (Matrix.det (a.den (· / ·) ρ : Matrix (Fin (k + 1)) (Fin (k + 1)) K))
      · exact Matrix.inv_smul' _ (Units.mk0 _ h0) h1
      · rw [Matrix.nonsing_inv_apply_not_isUnit _ h1, smul_zero]
        refine Matrix.nonsing_inv_apply_not_isUnit _ fun h2 => h1 ?_
        rw [Matrix.det_smul] at h2
        exact isUnit_of_mul_isUnit_right h2
  · simp only [Ex.den]
    by_cases h1 : IsUnit (Matrix.det (a.den (· / ·) ρ : Matrix (Fin (k + 1)) (Fin (k + 1)) K))
    · rw [Matrix.mul_nonsing_inv _ h1]
    · rw [isUnit_iff_ne_zero, not_not] at h1
      rw [h1, zero_smul, zero_smul]

/-- C114: an equal expression may replace a part of a statement. -/
theorem C114_statements {e e' : Ex τ} {s s' : Ex .s} {m m' : Ex (.m n n)} (he : e.Same e') (hs : s.Same s') (hm : m.Same m')
    (o : Bin) (i x y : Nat) :
    (Act.set i e).Same (.set i e') ∧ (Act.upd o i e).Same (.upd o i e') ∧ (Act.updScale τ i s).Same (.updScale τ i s') ∧
    (Act.updQuot τ i s).Same (.updQuot τ i s') ∧ (Act.updMul i m).Same (.updMul i m') ∧
    (Act.vset n i x s).Same (.vset n i x s') ∧ (Act.mset r c i x y s).Same (.mset r c i x y s') := by
  refine ⟨fun K _ dv ρ => ?_, fun K _ dv ρ => ?_, fun K _ dv ρ => ?_, fun K _ dv ρ => ?_, fun K _ dv ρ => ?_, fun K _ dv ρ => ?_,
    fun K _ dv ρ => ?_⟩
  · simp only [Act.den, he K dv ρ]
  · cases o <;> simp only [Act.den, he K dv ρ]
  · simp only [Act.den, hs K dv ρ]
  · simp only [Act.den, hs K dv ρ]
  · simp only [Act.den, hm K dv ρ]
  · simp only [Act.den, hs K dv ρ]
  · simp only [Act.den, hs K dv ρ]

/-- C114: statements that change a variable. -/
theorem C114_assign (o : Bin) (i : Nat) (e : Ex τ) (s : Ex .s) (m : Ex (.m n n)) :
    (Act.upd o i e).Same (.set i (.bin o f (.var τ i) e)) ∧
    (Act.updScale τ i s).Same (.set i (.scale (.var τ i) s)) ∧
    (Act.updQuot τ i s).Same (.set i (.quot (.var τ i) s)) ∧
    (Act.updMul i m).Same (.set i (.mul f (.var (.m n n) i) m)) ∧
    (Act.transpose n i).Same (.set i (.transposed (.var (.m n n) i))) := by
  refine ⟨fun K _ dv ρ => ?_, fun K _ dv ρ => ?_, fun K _ dv ρ => ?_, fun K _ dv ρ => ?_, fun K _ dv ρ => ?_⟩
  · cases o <;> simp only [Act.den, Ex.den]
  all_goals simp only [Act.den, Ex.den]

end

/-! ## Examples -/

namespace Examples

/-- `x = (a * b).transposed(); while s.is_zero() { x *= b; s += 1; }` on `2 x 2` matrices. -/
def before : Stmt :=
  .seq (.act (.set 0 (.transposed (.mul .rr (.var (.m 2 2) 1) (.var (.m 2 2) 2)))))
    (.loop true (.var .s 0) (.seq (.act (.updMul 0 (.var (.m 2 2) 2))) (.act (.upd (τ := .s) .add 0 .one))))

/-- `x = b.transposed() * a.transposed(); while s.is_zero() { x = x * b; s = s + 1; }`. -/
def after : Stmt :=
  .seq (.act (.set 0 (.mul .vv (.transposed (.var (.m 2 2) 2)) (.transposed (.var (.m 2 2) 1)))))
    (.loop true (.var .s 0) (.seq (.act (.set 0 (.mul .vr (.var (.m 2 2) 0) (.var (.m 2 2) 2))))
      (.act (.set 0 (.bin .add .vv (.var .s 0) .one)))))

theorem before_after : before.Same after :=
  .seq (.act (C114_statements (r := 0) (c := 0) (C114_products (d := 0) .rr .vv _ _ (.zero _) (.zero _) (.zero _) (.zero _) (.zero _)
      .one (.ident _) 0 0 true).2.2.2.2.2.2.1 (Ex.Same.rfl' .one) (Ex.Same.rfl' (.ident 2)) .add 0 0 0).1)
    (.loop true (Ex.Same.rfl' _) (.seq (.act (C114_assign (τ := .s) .vr .add 0 .one .one _).2.2.2.1)
      (.act (C114_assign (n := 0) .vv .add 0 .one .one (.ident _)).1)))

/-- Both do the same with `i32` without overflow checks, for all start values. -/
example (σ : Store (BitVec 32)) (x : Res (Store (BitVec 32))) :
    Run t64 (Ops.signed false 32) before σ x ↔ Run t64 (Ops.signed false 32) after σ x := by
  have h := (C103_wrapping_types 32).1
  refine C114_ring h.1 h.2 t64 _ _ before_after ⟨?_, ?_, ?_⟩ ⟨?_, ?_, ?_⟩ σ x <;>
    simp [before, after, t64, Stmt.Every, Act.Small, Act.DivFree, Act.InRange, Ex.Every, Ex.SmallStep, Ex.DivFreeStep,
      Ex.InRangeStep, Ty.Small]

/-- `x = (a * s).inverse(); k = det(x)`, with `3 x 3` matrices, and the same with `x = a.inverse() / s`. -/
def inv₁ : Stmt :=
  .seq (.act (.set 0 (.inv (.scale (.var (.m 3 3) 1) (.var .s 0))))) (.act (.set 0 (.det (.var (.m 3 3) 0))))

def inv₂ : Stmt :=
  .seq (.act (.set 0 (.quot (.inv (.var (.m 3 3) 1)) (.var .s 0)))) (.act (.set 0 (.det (.var (.m 3 3) 0))))

theorem inv_same : inv₁.SameField inv₂ :=
  .seq (.act fun K _ ρ => by
      have h := (C114_division (f := .vv) (g := .vv) (.var (.m 3 3) 1) (.zero (.m 4 4)) (.zero _) (.zero .s) (.zero .s) (.var .s 0) .one true
        0 (by decide)).2.2.2.2.2.2.1 K ρ
      simp only [Act.den, h])
    (.act fun K _ ρ => rfl)

/-- Fractions with 64-bit numerator and denominator: if both programs return they return the same. -/
example (σ σ₁ σ₂ : Store ℚ) (h₁ : Run t64 (Ops.ratio 64) inv₁ σ (.ok σ₁)) (h₂ : Run t64 (Ops.ratio 64) inv₂ σ (.ok σ₂)) :
    σ₁ = σ₂ := by
  refine C114_fields (C114_types.1 64) Function.injective_id t64 _ _ inv_same ?_ ?_ σ σ₁ σ₂ h₁ h₂ <;>
    simp [inv₁, inv₂, t64, Stmt.Small, Stmt.Every, Act.Small, Ex.Every, Ex.SmallStep, Ty.Small]

end Examples

end Prog
end Rowcol
