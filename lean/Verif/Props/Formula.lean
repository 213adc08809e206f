import Verif.PolySpec
import Verif.Props.Rewrite
import Mathlib.Algebra.MvPolynomial.Funext
import Mathlib.Data.ZMod.Basic
import Mathlib.Algebra.MvPolynomial.SchwartzZippel
import Mathlib.Analysis.Calculus.Deriv.Add

/-! # C116: calculations without division are polynomials -/

namespace Rowcol
namespace Prog
open MvPolynomial
variable {T K L : Type} {τ : Ty} {w : Nat}

/-! ## Ring homomorphisms -/

/-- Apply a function to every number of every variable. -/
def Env.map (f : K → L) (ρ : Env K) : Env L := fun τ i => Den.map f τ (ρ τ i)

theorem Env.map_ofPlaces (f : K → L) (g : Place → K) : (Env.ofPlaces g).map f = Env.ofPlaces fun q => f (g q) := by
  funext τ i
  match τ with
  | .s => rfl
  | .v _ => rfl
  | .m _ _ => rfl

theorem Env.map_put (f : K → L) (ρ : Env K) (τ : Ty) (i : Nat) (x : Den K τ) :
    (ρ.put τ i x).map f = (ρ.map f).put τ i (Den.map f τ x) := by
  funext τ' j
  by_cases h : τ' = τ
  · subst h
    by_cases hj : j = i
    · subst hj
      rw [Env.put_same]; unfold Env.map; rw [Env.put_same]
    · rw [Env.put_index _ _ _ _ _ hj]; unfold Env.map; rw [Env.put_index _ _ _ _ _ hj]
  · rw [Env.put_type _ _ _ _ _ _ h]; unfold Env.map; rw [Env.put_type _ _ _ _ _ _ h]

section Map
variable [CommRing K] [CommRing L] (f : K →+* L)

theorem Den.map_zero (τ : Ty) : Den.map f τ 0 = 0 := by
  match τ with
  | .s => exact f.map_zero
  | .v _ => funext i; exact f.map_zero
  | .m _ _ => funext i j; exact f.map_zero

theorem Den.map_add (τ : Ty) (a b : Den K τ) : Den.map f τ (a + b) = Den.map f τ a + Den.map f τ b := by
  match τ with
  | .s => exact f.map_add _ _
  | .v _ => funext i; exact f.map_add _ _
  | .m _ _ => funext i j; exact f.map_add _ _

theorem Den.map_sub (τ : Ty) (a b : Den K τ) : Den.map f τ (a - b) = Den.map f τ a - Den.map f τ b := by
  match τ with
  | .s => exact f.map_sub _ _
  | .v _ => funext i; exact f.map_sub _ _
  | .m _ _ => funext i j; exact f.map_sub _ _

theorem Den.map_neg (τ : Ty) (a : Den K τ) : Den.map f τ (-a) = -Den.map f τ a := by
  match τ with
  | .s => exact f.map_neg _
  | .v _ => funext i; exact f.map_neg _
  | .m _ _ => funext i j; exact f.map_neg _

theorem Den.map_smul (τ : Ty) (s : K) (a : Den K τ) : Den.map f τ (s • a) = f s • Den.map f τ a := by
  match τ with
  | .s => exact f.map_mul _ _
  | .v _ => funext i; exact f.map_mul _ _
  | .m _ _ => funext i j; exact f.map_mul _ _

theorem Den.map_mat (r c : Nat) (a : Matrix (Fin r) (Fin c) K) : Den.map f (.m r c) a = Matrix.map a f := rfl

theorem Den.map_matMul {l n c : Nat} (a : Matrix (Fin l) (Fin n) K) (b : Matrix (Fin n) (Fin c) K) :
    (Den.map f (.m l c) (show Matrix (Fin l) (Fin c) K from a * b) : Matrix (Fin l) (Fin c) L) = Matrix.map a f * Matrix.map b f := by
  refine (?_ : (a * b).map f = _).trans Matrix.map_mul
  rfl

theorem Den.map_mulVec {l n : Nat} (a : Matrix (Fin l) (Fin n) K) (b : Fin n → K) :
    Den.map f (.v l) (a.mulVec b) = Matrix.mulVec (Matrix.map a f) (fun i => f (b i)) := funext fun i => f.map_mulVec a b i

/-- The meaning of an expression commutes with ring homomorphisms. -/
theorem Ex.den_map (dv : K → K → K) (dv' : L → L → L) (e : Ex τ) (hq : e.NoQuot) (ρ : Env K) :
    Den.map f τ (e.den dv ρ) = e.den dv' (ρ.map f) := by
  induction e generalizing ρ with
  | var τ i => rfl
  | zero τ => exact Den.map_zero f τ
  | one => exact f.map_one
  | ident n => exact Matrix.map_one _ f.map_zero f.map_one
  | bin o g a b iha ihb =>
    cases o
    · simp only [Ex.den, Den.map_add, iha hq.2.1, ihb hq.2.2]
    · simp only [Ex.den, Den.map_sub, iha hq.2.1, ihb hq.2.2]
  | neg a iha => simp only [Ex.den, Den.map_neg, iha hq.2]
  | scale a s iha ihs =>
    simp only [Ex.den, Den.map_smul, iha hq.2.1, ← ihs hq.2.2 ρ]; rfl
  | quot a s => exact hq.1.elim
  | vsum v ih =>
    simp only [Ex.den, ← ih hq.2 ρ]
    exact map_sum f _ _
  | msum a ih =>
    simp only [Ex.den, ← ih hq.2 ρ]
    refine (map_sum f _ _).trans (Finset.sum_congr rfl fun i _ => map_sum f _ _)
  | dot a b iha ihb =>
    simp only [Ex.den, ← iha hq.2.1 ρ, ← ihb hq.2.2 ρ]
    exact (map_sum f _ _).trans (Finset.sum_congr rfl fun i _ => f.map_mul _ _)
  | cross a b iha ihb =>
    simp only [Ex.den, ← iha hq.2.1 ρ, ← ihb hq.2.2 ρ]
    funext i
    fin_cases i <;> simp [Den.map, cross_apply]
  | vget v i ih =>
    simp only [Ex.den, ← ih hq.2 ρ]
    split
    · rfl
    · exact f.map_zero
  | mget a i j ih =>
    simp only [Ex.den, ← ih hq.2 ρ]
    split
    · rfl
    · exact f.map_zero
  | mul g a b iha ihb =>
    simp only [Ex.den, ← iha hq.2.1 ρ, ← ihb hq.2.2 ρ]
    exact Den.map_matMul f _ _
  | mulVec r a v iha ihv =>
    simp only [Ex.den, ← iha hq.2.1 ρ, ← ihv hq.2.2 ρ]
    exact Den.map_mulVec f _ _
  | transposed a ih =>
    simp only [Ex.den, ← ih hq.2 ρ]; rfl
  | pow a k ih =>
    simp only [Ex.den, ← ih hq.2 ρ]
    exact Matrix.map_pow _ f k
  | det a ih =>
    simp only [Ex.den, ← ih hq.2 ρ]
    exact f.map_det _
  | cof a i j ih =>
    simp only [Ex.den, ← ih hq.2 ρ]
    split
    · refine (f.map_mul _ _).trans ?_
      rw [map_pow, map_neg, map_one, f.map_det]
      rfl
    · exact f.map_zero
  | inv a => exact hq.1.elim
  | gen g ih =>
    funext i
    exact ih i.val (hq.2 i.val i.isLt) ρ
  | mgen g ih =>
    funext i j
    exact ih (i.val, j.val) (hq.2 i.val i.isLt j.val j.isLt) ρ
  | map k g a ihg iha =>
    funext i j
    simp only [Ex.den, ← iha hq.2.1 ρ]
    have := ihg (i.val, j.val) (hq.2.2 i.val i.isLt j.val j.isLt) (ρ.put .s k (a.den dv ρ i j))
    rw [Env.map_put] at this
    exact this
  | diag v ih =>
    simp only [Ex.den, ← ih hq.2 ρ]
    funext i j
    simp only [Den.map]
    split
    · rfl
    · exact f.map_zero
  | row a i ih =>
    simp only [Ex.den, ← ih hq.2 ρ]
    split
    · rfl
    · exact Den.map_zero f _
  | col a j ih =>
    simp only [Ex.den, ← ih hq.2 ρ]
    split
    · rfl
    · exact Den.map_zero f _

theorem Act.den_map (dv : K → K → K) (dv' : L → L → L) (a : Act) (hq : a.NoQuot) (ρ : Env K) :
    (a.den dv ρ).map f = a.den dv' (ρ.map f) := by
  cases a with
  | set i e => simp only [Act.den, Env.map_put, Ex.den_map f dv dv' e hq]
  | upd o i e =>
    cases o
    · simp only [Act.den, Env.map_put, Den.map_add, Ex.den_map f dv dv' e hq]; rfl
    · simp only [Act.den, Env.map_put, Den.map_sub, Ex.den_map f dv dv' e hq]; rfl
  | updScale τ i s => simp only [Act.den, Env.map_put, Den.map_smul, ← Ex.den_map f dv dv' s hq]; rfl
  | updQuot τ i s => exact hq.elim
  | updMul i e =>
    simp only [Act.den, Env.map_put, ← Ex.den_map f dv dv' e hq]
    exact congrArg _ (Den.map_matMul f _ _)
  | transpose n i => simp only [Act.den, Env.map_put]; rfl
  | vset n i k e =>
    simp only [Act.den, Env.map_put, ← Ex.den_map f dv dv' e hq]
    congr 1
    funext j
    simp only [Den.map, apply_ite f]
    rfl
  | mset r c i k l e =>
    simp only [Act.den]
    refine (Env.map_put f ρ (.m r c) i _).trans (congrArg (Env.put _ (.m r c) i) ?_)
    rw [← Ex.den_map f dv dv' e hq]
    funext x y
    exact apply_ite f _ _ _

theorem Stmt.den_map (dv : K → K → K) (dv' : L → L → L) (p : Stmt) (hq : p.NoQuot) (ρ : Env K) :
    (p.den dv ρ).map f = p.den dv' (ρ.map f) := by
  induction p generalizing ρ with
  | skip => rfl
  | act a => exact Act.den_map f dv dv' a hq ρ
  | seq p q ihp ihq => simp only [Stmt.den]; rw [ihq hq.2, ihp hq.1]
  | ite => rfl
  | loop => rfl

end Map

/-! ## Straight programs -/

theorem Stmt.means_den [CommRing K] (dv : K → K → K) (p : Stmt) (h : p.Straight) (ρ : Env K) : Means dv p ρ (p.den dv ρ) := by
  induction p generalizing ρ with
  | skip => exact .skip ρ
  | act a => exact .act a ρ
  | seq p q ihp ihq => exact .seq (ihp h.1 ρ) (ihq h.2 _)
  | ite => exact h.elim
  | loop => exact h.elim

theorem Ex.Every.imp {P Q : ∀ τ, Ex τ → Prop} (h : ∀ τ e, P τ e → Q τ e) (e : Ex τ) (he : e.Every P) : e.Every Q := by
  induction e with
  | var | zero | one | ident => exact h _ _ he
  | neg _ ih | vsum _ ih | msum _ ih | vget _ _ ih | mget _ _ _ ih | transposed _ ih | pow _ _ ih | det _ ih | cof _ _ _ ih | inv _ ih
    | diag _ ih | row _ _ ih | col _ _ ih => exact ⟨h _ _ he.1, ih he.2⟩
  | bin _ _ _ _ ih1 ih2 | scale _ _ ih1 ih2 | quot _ _ ih1 ih2 | dot _ _ ih1 ih2 | cross _ _ ih1 ih2 | mul _ _ _ ih1 ih2
    | mulVec _ _ _ ih1 ih2 => exact ⟨h _ _ he.1, ih1 he.2.1, ih2 he.2.2⟩
  | gen f ih => exact ⟨h _ _ he.1, fun i hi => ih i (he.2 i hi)⟩
  | mgen f ih => exact ⟨h _ _ he.1, fun i hi j hj => ih (i, j) (he.2 i hi j hj)⟩
  | map k f a ih1 ih2 => exact ⟨h _ _ he.1, ih2 he.2.1, fun i hi j hj => ih1 (i, j) (he.2.2 i hi j hj)⟩

theorem Ex.DivFree.noQuot {e : Ex τ} (h : e.DivFree) : e.NoQuot :=
  Ex.Every.imp (fun τ e h => by cases e <;> trivial) e h

theorem Act.DivFree.noQuot {a : Act} (h : a.DivFree) : a.NoQuot := by
  cases a <;> first | exact Ex.DivFree.noQuot h | trivial

theorem Stmt.DivFree.noQuot {p : Stmt} (h : p.DivFree) : p.NoQuot := by
  induction p with
  | skip => trivial
  | act a => exact Act.DivFree.noQuot h
  | seq p q ihp ihq => exact ⟨ihp h.1, ihq h.2⟩
  | ite e p q ihp ihq => exact ⟨Ex.DivFree.noQuot h.1, ihp h.2.1, ihq h.2.2⟩
  | loop b e p ih => exact ⟨Ex.DivFree.noQuot h.1, ih h.2⟩

theorem Store.ofPlaces_den (φ : T → K) (g : Place → T) : (Store.ofPlaces g).den φ = Env.ofPlaces fun q => φ (g q) := by
  funext τ i
  match τ with
  | .s => rfl
  | .v _ => funext k; exact congrArg φ (Vec.get_ofFn _ _)
  | .m _ _ => funext k l; exact congrArg φ (Mat.get_ofFn _ _ _)

theorem Env.ofPlaces_subst [CommRing K] (g : Place → K) :
    (Env.ofPlaces X).map (eval₂Hom (Int.castRingHom K) g) = Env.ofPlaces g := by
  rw [Env.map_ofPlaces]
  congr 1
  funext q
  exact eval₂Hom_X' _ _ q

theorem Ex.formula_subst [CommRing K] (dv : K → K → K) (e : Ex τ) (hq : e.NoQuot) (g : Place → K) :
    Den.subst g τ e.formula = e.den dv (Env.ofPlaces g) := by
  rw [← Env.ofPlaces_subst g]
  exact Ex.den_map (eval₂Hom (Int.castRingHom K) g) (fun a _ => a) dv e hq (Env.ofPlaces X)

theorem Stmt.formula_subst [CommRing K] (dv : K → K → K) (p : Stmt) (hq : p.NoQuot) (g : Place → K) (τ : Ty) (i : Nat) :
    Den.subst g τ (p.formula τ i) = p.den dv (Env.ofPlaces g) τ i := by
  rw [← Env.ofPlaces_subst g]
  exact congrFun (congrFun (Stmt.den_map (eval₂Hom (Int.castRingHom K) g) (fun a _ => a) dv p hq (Env.ofPlaces X)) τ) i

/-! ## C116: one formula for all element types -/

/-- C116: every content of the variables is given by the numbers in the places. -/
theorem C116_places (σ : Store T) (z : T) : ∃ g : Place → T, σ = Store.ofPlaces g := by
  refine ⟨fun q => match q.ty, σ q.ty q.name with
    | .s, x => x
    | .v n, x => if h : q.row < n then x.get ⟨q.row, h⟩ else z
    | .m r c, x => if h : q.row < r ∧ q.col < c then x.get ⟨q.row, h.1⟩ ⟨q.col, h.2⟩ else z, ?_⟩
  funext τ i
  match τ with
  | .s => rfl
  | .v n => exact Vec.ext_get fun k => by simp [Store.ofPlaces]
  | .m r c => exact Mat.ext_get fun k l => by simp [Store.ofPlaces]

theorem Env.exists_places (ρ : Env K) (z : K) : ∃ g : Place → K, ρ = Env.ofPlaces g := by
  refine ⟨fun q => match q.ty, ρ q.ty q.name with
    | .s, x => x
    | .v n, x => if h : q.row < n then x ⟨q.row, h⟩ else z
    | .m r c, x => if h : q.row < r ∧ q.col < c then x ⟨q.row, h.1⟩ ⟨q.col, h.2⟩ else z, ?_⟩
  funext τ i
  match τ with
  | .s => rfl
  | .v n => exact funext fun k => by simp [Env.ofPlaces]
  | .m r c => exact funext fun k => funext fun l => by simp [Env.ofPlaces]

/-- C116: with elements from a commutative ring with total operations, an expression without division whose indices are in range
has the value of its formula at the numbers in the variables. -/
theorem C116_formula [CommRing K] {O : Ops K} (hO : O.IsRing) (t : Target) (e : Ex τ) (hs : e.Small t.W) (hd : e.DivFree)
    (hi : e.InRange) (g : Place → K) :
    ∃ v, e.eval t O (Store.ofPlaces g) = .ok v ∧ Val.den id τ v = Den.subst g τ e.formula := by
  rcases exact_eval (dv := fun a _ => a) hO t (Store.ofPlaces g) e hs (.inl hd) with ⟨_, h⟩ | ⟨v, h, hv⟩
  · exact absurd ⟨hd, hi⟩ h
  · refine ⟨v, h, ?_⟩
    rw [hv, Ex.formula_subst (fun a _ => a) e hd.noQuot, Store.ofPlaces_den]
    rfl

/-- C116: the same for programs without tests: every final value of every variable. -/
theorem C116_program [CommRing K] {O : Ops K} (hO : O.IsRing) (hz : ∀ a, O.isZero a = true ↔ a = 0) (t : Target) (p : Stmt)
    (hs : p.Small t.W) (hd : p.DivFree) (hi : p.InRange) (hp : p.Straight) (g : Place → K) :
    ∃ σ', Run t O p (Store.ofPlaces g) (.ok σ') ∧ ∀ τ i, Val.den id τ (σ' τ i) = Den.subst g τ (p.formula τ i) := by
  obtain ⟨σ', h, h'⟩ := C103_complete hO hz t p hs hd hi (fun a _ => a) (Store.ofPlaces g) _ (p.means_den _ hp _)
  refine ⟨σ', h, fun τ i => ?_⟩
  rw [Stmt.formula_subst (fun a _ => a) p hd.noQuot]
  have h2 := congrFun (congrFun h' τ) i
  rw [Store.ofPlaces_den] at h2
  exact h2

/-- C116: with fractions whose operations are exact or panic, an expression without `/` and `inverse` (determinants and cofactors of
any size allowed) panics or has the value of its formula. -/
theorem C116_fractions [Field K] [DecidableEq K] {O : Ops T} {φ : T → K} (H : FullHom O (Ops.exact K) φ) (t : Target) (e : Ex τ)
    (hs : e.Small t.W) (hq : e.NoQuot) (g : Place → T) :
    e.eval t O (Store.ofPlaces g) = .error .panic ∨
      ∃ v, e.eval t O (Store.ofPlaces g) = .ok v ∧ Val.den φ τ v = Den.subst (fun q => φ (g q)) τ e.formula := by
  rcases sim_eval H.1.toHom t t rfl (Store.ofPlaces g) e hs (.inr H) with h3 | ⟨w', h3, h4⟩
  · exact .inl h3
  rcases exact_eval (Ops.exact_isField K).toIsRing t ((Store.ofPlaces g).map φ) e hs (.inr (exact_divOk K t)) with ⟨h5, _⟩ | ⟨x, h5, h6⟩
  · rw [h4] at h5; cases h5
  · rw [h4] at h5; cases h5
    refine .inr ⟨w', h3, ?_⟩
    rw [Val.den_map, Store.den_map] at h6
    rw [h6, Ex.formula_subst (· / ·) e hq, Store.ofPlaces_den]

/-- C116: with integers whose operations are exact or panic, an expression without division panics or has the value of its formula. -/
theorem C116_integers {O : Ops T} {φ : T → Int} (H : O.DivHom Ops.int φ) (t : Target) (e : Ex τ) (hs : e.Small t.W) (hd : e.DivFree)
    (g : Place → T) :
    e.eval t O (Store.ofPlaces g) = .error .panic ∨
      ∃ v, e.eval t O (Store.ofPlaces g) = .ok v ∧ Val.den φ τ v = Den.subst (fun q => φ (g q)) τ e.formula := by
  rcases sim_eval H.toHom t t rfl (Store.ofPlaces g) e hs (.inl hd) with h3 | ⟨w', h3, h4⟩
  · exact .inl h3
  rcases exact_eval (dv := fun a _ => a) Ops.int_isRing t ((Store.ofPlaces g).map φ) e hs (.inl hd) with ⟨h5, _⟩ | ⟨x, h5, h6⟩
  · rw [h4] at h5; cases h5
  · rw [h4] at h5; cases h5
    refine .inr ⟨w', h3, ?_⟩
    rw [Val.den_map, Store.den_map] at h6
    rw [h6, Ex.formula_subst (fun a _ => a) e hd.noQuot, Store.ofPlaces_den]

/-! ## Degrees -/

section Degree
variable {ι R : Type} [CommRing R]

theorem deg_sum {α : Type} (s : Finset α) (f : α → MvPolynomial ι R) (d : Nat) (h : ∀ i, (f i).totalDegree ≤ d) :
    (∑ i ∈ s, f i).totalDegree ≤ d := totalDegree_finsetSum_le fun i _ => h i

theorem deg_mul {p q : MvPolynomial ι R} {a b : Nat} (hp : p.totalDegree ≤ a) (hq : q.totalDegree ≤ b) :
    (p * q).totalDegree ≤ a + b := (totalDegree_mul p q).trans (Nat.add_le_add hp hq)

theorem deg_add {p q : MvPolynomial ι R} {a b : Nat} (hp : p.totalDegree ≤ a) (hq : q.totalDegree ≤ b) :
    (p + q).totalDegree ≤ max a b := (totalDegree_add p q).trans (max_le_max hp hq)

theorem deg_sub {p q : MvPolynomial ι R} {a b : Nat} (hp : p.totalDegree ≤ a) (hq : q.totalDegree ≤ b) :
    (p - q).totalDegree ≤ max a b := (totalDegree_sub p q).trans (max_le_max hp hq)

theorem deg_zero (d : Nat) : (0 : MvPolynomial ι R).totalDegree ≤ d := by simp
theorem deg_one (d : Nat) : (1 : MvPolynomial ι R).totalDegree ≤ d := by simp

theorem deg_matMul {l n c : Nat} {a : Matrix (Fin l) (Fin n) (MvPolynomial ι R)} {b : Matrix (Fin n) (Fin c) (MvPolynomial ι R)}
    {d e : Nat} (ha : ∀ i j, (a i j).totalDegree ≤ d) (hb : ∀ i j, (b i j).totalDegree ≤ e) (i j) : ((a * b) i j).totalDegree ≤ d + e := by
  rw [Matrix.mul_apply]
  exact deg_sum _ _ _ fun k => deg_mul (ha i k) (hb k j)

theorem deg_matOne {n : Nat} (d : Nat) (i j : Fin n) : ((1 : Matrix (Fin n) (Fin n) (MvPolynomial ι R)) i j).totalDegree ≤ d := by
  rw [Matrix.one_apply]
  split
  · exact deg_one d
  · exact deg_zero d

theorem deg_matPow {n : Nat} {a : Matrix (Fin n) (Fin n) (MvPolynomial ι R)} {d : Nat} (ha : ∀ i j, (a i j).totalDegree ≤ d) (k : Nat) :
    ∀ i j, ((a ^ k) i j).totalDegree ≤ k * d := by
  induction k with
  | zero => exact fun i j => by rw [pow_zero]; exact deg_matOne _ i j
  | succ k ih =>
    intro i j
    rw [pow_succ, Nat.succ_mul]
    exact deg_matMul ih ha i j

theorem deg_det {n : Nat} {a : Matrix (Fin n) (Fin n) (MvPolynomial ι R)} {d : Nat} (ha : ∀ i j, (a i j).totalDegree ≤ d) :
    a.det.totalDegree ≤ n * d := by
  rw [Matrix.det_apply]
  refine deg_sum _ _ _ fun σ => ?_
  have h : (∏ i, a (σ i) i).totalDegree ≤ n * d :=
    (totalDegree_finsetProd _ _).trans ((Finset.sum_le_sum fun i _ => ha (σ i) i).trans (by simp))
  rcases Int.units_eq_one_or (Equiv.Perm.sign σ) with e | e <;> rw [e]
  · rwa [one_smul]
  · rwa [Units.neg_smul, one_smul, totalDegree_neg]

theorem Den.All.mono {P Q : K → Prop} (h : ∀ x, P x → Q x) {τ : Ty} {a : Den K τ} (ha : Den.All P τ a) : Den.All Q τ a := by
  match τ with
  | .s => exact h _ ha
  | .v _ => exact fun i => h _ (ha i)
  | .m _ _ => exact fun i j => h _ (ha i j)

theorem Den.all_zero {P : MvPolynomial ι R → Prop} (h : P 0) (τ : Ty) : Den.All P τ 0 := by
  match τ with
  | .s => exact h
  | .v _ => exact fun _ => h
  | .m _ _ => exact fun _ _ => h

/-- All numbers are polynomials of degree at most `d`. -/
abbrev Low (d : Nat) (τ : Ty) (a : Den (MvPolynomial ι R) τ) : Prop := Den.All (fun p => p.totalDegree ≤ d) τ a

theorem low_put {ρ : Env (MvPolynomial ι R)} {δ : Ty → Nat → Nat} (h : ∀ τ i, Low (δ τ i) τ (ρ τ i)) (τ : Ty) (i : Nat) {d : Nat}
    {x : Den (MvPolynomial ι R) τ} (hx : Low d τ x) (τ' : Ty) (j : Nat) :
    Low (Function.update δ τ (Function.update (δ τ) i d) τ' j) τ' (ρ.put τ i x τ' j) := by
  by_cases ht : τ' = τ
  · subst ht
    by_cases hj : j = i
    · subst hj; rw [Env.put_same]; simpa using hx
    · rw [Env.put_index _ _ _ _ _ hj]; simpa [hj] using h τ' j
  · rw [Env.put_type _ _ _ _ _ _ ht]; simpa [ht] using h τ' j

/-- `Ex.deg` bounds the degrees of the values of an expression on polynomials. -/
theorem Ex.deg_bound (dv) (e : Ex τ) (hq : e.NoQuot) (ρ : Env (MvPolynomial ι R)) (δ : Ty → Nat → Nat)
    (h : ∀ τ i, Low (δ τ i) τ (ρ τ i)) : Low (e.deg δ) τ (e.den dv ρ) := by
  induction e generalizing ρ δ with
  | var τ i => exact h τ i
  | zero τ => exact Den.all_zero (deg_zero _) τ
  | one => exact deg_one _
  | ident n => exact fun i j => deg_matOne _ i j
  | @bin τ o g a b iha ihb =>
    have ha := iha hq.2.1 ρ δ h
    have hb := ihb hq.2.2 ρ δ h
    match τ, o with
    | .s, .add => exact deg_add ha hb
    | .s, .sub => exact deg_sub ha hb
    | .v _, .add => exact fun i => deg_add (ha i) (hb i)
    | .v _, .sub => exact fun i => deg_sub (ha i) (hb i)
    | .m _ _, .add => exact fun i j => deg_add (ha i j) (hb i j)
    | .m _ _, .sub => exact fun i j => deg_sub (ha i j) (hb i j)
  | @neg τ a iha =>
    have ha := iha hq.2 ρ δ h
    match τ with
    | .s => exact (totalDegree_neg _).trans_le ha
    | .v _ => exact fun i => (totalDegree_neg _).trans_le (ha i)
    | .m _ _ => exact fun i j => (totalDegree_neg _).trans_le (ha i j)
  | @scale τ a s iha ihs =>
    have ha := iha hq.2.1 ρ δ h
    have hs := ihs hq.2.2 ρ δ h
    match τ with
    | .s => exact (deg_mul hs ha).trans_eq (Nat.add_comm _ _)
    | .v _ => exact fun i => (deg_mul hs (ha i)).trans_eq (Nat.add_comm _ _)
    | .m _ _ => exact fun i j => (deg_mul hs (ha i j)).trans_eq (Nat.add_comm _ _)
  | quot a s => exact hq.1.elim
  | vsum v ih => exact deg_sum _ _ _ (ih hq.2 ρ δ h)
  | msum a ih => exact deg_sum _ _ _ fun i => deg_sum _ _ _ (ih hq.2 ρ δ h i)
  | dot a b iha ihb => exact deg_sum _ _ _ fun i => deg_mul (iha hq.2.1 ρ δ h i) (ihb hq.2.2 ρ δ h i)
  | cross a b iha ihb =>
    have ha := iha hq.2.1 ρ δ h
    have hb := ihb hq.2.2 ρ δ h
    intro i
    simp only [Ex.den, Ex.deg, cross_apply]
    have k : ∀ i j : Fin 3, _ := fun i j => deg_mul (ha i) (hb j)
    fin_cases i <;> exact (deg_sub (k _ _) (k _ _)).trans_eq (max_self _)
  | vget v i ih =>
    simp only [Ex.den]
    split
    · exact ih hq.2 ρ δ h _
    · exact deg_zero _
  | mget a i j ih =>
    simp only [Ex.den]
    split
    · exact ih hq.2 ρ δ h _ _
    · exact deg_zero _
  | mul g a b iha ihb => exact deg_matMul (iha hq.2.1 ρ δ h) (ihb hq.2.2 ρ δ h)
  | mulVec r a v iha ihv => exact fun i => deg_sum _ _ _ fun j => deg_mul (iha hq.2.1 ρ δ h i j) (ihv hq.2.2 ρ δ h j)
  | transposed a ih => exact fun i j => ih hq.2 ρ δ h j i
  | pow a k ih => exact deg_matPow (ih hq.2 ρ δ h) k
  | det a ih => exact deg_det (ih hq.2 ρ δ h)
  | cof a i j ih =>
    have ha := ih hq.2 ρ δ h
    simp only [Ex.den]
    split
    · rename_i hij
      have hd := deg_det (a := Matrix.submatrix (a.den dv ρ) (Fin.succAbove ⟨i, hij.1⟩) (Fin.succAbove ⟨j, hij.2⟩)) fun x y => ha _ _
      rcases neg_one_pow_eq_or (MvPolynomial ι R) (i + j) with e | e
      · show ((-1 : MvPolynomial ι R) ^ (i + j) * _).totalDegree ≤ _
        rw [e, one_mul]; exact hd
      · show ((-1 : MvPolynomial ι R) ^ (i + j) * _).totalDegree ≤ _
        rw [e, neg_one_mul, totalDegree_neg]; exact hd
    · exact deg_zero _
  | inv a => exact hq.1.elim
  | gen g ih =>
    exact fun i => (ih i.val (hq.2 i.val i.isLt) ρ δ h).trans
      (Finset.le_sup (f := fun i => (g i).deg δ) (Finset.mem_range.2 i.isLt))
  | mgen g ih =>
    exact fun i j => (ih (i.val, j.val) (hq.2 i.val i.isLt j.val j.isLt) ρ δ h).trans
      (Finset.le_sup (f := fun p => (g p).deg δ) (Finset.mem_product.2 ⟨Finset.mem_range.2 i.isLt, Finset.mem_range.2 j.isLt⟩))
  | map k g a ihg iha =>
    exact fun i j => (ihg (i.val, j.val) (hq.2.2 i.val i.isLt j.val j.isLt) _ _ (low_put h .s k (iha hq.2.1 ρ δ h i j))).trans
      (Finset.le_sup (f := fun p => (g p).deg (Function.update δ .s (Function.update (δ .s) k (a.deg δ))))
        (Finset.mem_product.2 ⟨Finset.mem_range.2 i.isLt, Finset.mem_range.2 j.isLt⟩))
  | diag v ih =>
    intro i j
    simp only [Ex.den]
    split
    · exact ih hq.2 ρ δ h _
    · exact deg_zero _
  | row a i ih =>
    simp only [Ex.den]
    split
    · exact ih hq.2 ρ δ h _
    · exact Den.all_zero (deg_zero _) _
  | col a j ih =>
    simp only [Ex.den]
    split
    · exact fun k => ih hq.2 ρ δ h k _
    · exact Den.all_zero (deg_zero _) _

end Degree

/-- C116: the degree of the formula. -/
theorem C116_degree (e : Ex τ) (hq : e.NoQuot) : Den.All (fun p => p.totalDegree ≤ e.degree) τ e.formula := by
  refine Ex.deg_bound _ e hq _ _ fun τ i => ?_
  match τ with
  | .s => exact (totalDegree_X _).le
  | .v _ => exact fun _ => (totalDegree_X _).le
  | .m _ _ => exact fun _ _ => (totalDegree_X _).le

/-! ## Testing identities -/

theorem Den.map_injective {f : K → L} (hf : Function.Injective f) (τ : Ty) (a b : Den K τ) (h : Den.map f τ a = Den.map f τ b) : a = b := by
  match τ with
  | .s => exact hf h
  | .v n => exact funext fun i => hf (congrFun h i)
  | .m r c => exact funext fun i => funext fun j => hf (congrFun (congrFun h i) j)

theorem formula_ext (P Q : Den (MvPolynomial Place ℤ) τ) (h : ∀ g : Place → ℤ, Den.subst g τ P = Den.subst g τ Q) : P = Q := by
  have key : ∀ p q : MvPolynomial Place ℤ, (∀ g : Place → ℤ, eval₂ (Int.castRingHom ℤ) g p = eval₂ (Int.castRingHom ℤ) g q) → p = q :=
    fun p q h => MvPolynomial.funext fun g => by
      have := h g
      rwa [show Int.castRingHom ℤ = RingHom.id ℤ from Subsingleton.elim _ _] at this
  match τ with
  | .s => exact key _ _ h
  | .v n => exact funext fun i => key _ _ fun g => congrFun (h g) i
  | .m r c => exact funext fun i => funext fun j => key _ _ fun g => congrFun (congrFun (h g) i) j

/-- C116: two expressions without division that agree for all big integers are the same over all commutative rings, so that C114
applies: one may replace the other in programs over any element type. -/
theorem C116_transfer (t : Target) (e₁ e₂ : Ex τ) (h₁ : e₁.Small t.W ∧ e₁.DivFree ∧ e₁.InRange)
    (h₂ : e₂.Small t.W ∧ e₂.DivFree ∧ e₂.InRange)
    (h : ∀ σ : Store Int, e₁.eval t Ops.int σ = e₂.eval t Ops.int σ) : e₁.Same e₂ := by
  intro K _ dv ρ
  obtain ⟨g', rfl⟩ := Env.exists_places ρ 0
  rw [← Ex.formula_subst dv e₁ h₁.2.1.noQuot, ← Ex.formula_subst dv e₂ h₂.2.1.noQuot]
  congr 1
  refine formula_ext _ _ fun g => ?_
  obtain ⟨v, a, b⟩ := C116_formula Ops.int_isRing t e₁ h₁.1 h₁.2.1 h₁.2.2 g
  obtain ⟨v', a', b'⟩ := C116_formula Ops.int_isRing t e₂ h₂.1 h₂.2.1 h₂.2.2 g
  rw [← b, ← b']
  rw [h, a'] at a
  cases a
  rfl

open Classical in
/-- C116: random testing.  Put in every place either a constant or one of `n` numbers chosen independently from a finite set `S` of
integers (`plan`).  Two expressions without division, of degree at most `d`, agree for all choices whatsoever, or at most the fraction
`d / |S|` of the choices makes them agree. -/
theorem C116_testing (t : Target) (e₁ e₂ : Ex τ) (h₁ : e₁.Small t.W ∧ e₁.DivFree ∧ e₁.InRange)
    (h₂ : e₂.Small t.W ∧ e₂.DivFree ∧ e₂.InRange) (d : Nat) (hd₁ : e₁.degree ≤ d) (hd₂ : e₂.degree ≤ d)
    (n : Nat) (plan : Place → Fin n ⊕ Int) (S : Finset Int) :
    let σ (x : Fin n → Int) : Store Int := Store.ofPlaces fun q => Sum.elim x id (plan q)
    (∀ x, e₁.eval t Ops.int (σ x) = e₂.eval t Ops.int (σ x)) ∨
      ((Fintype.piFinset fun _ : Fin n => S).filter fun x => e₁.eval t Ops.int (σ x) = e₂.eval t Ops.int (σ x)).card * S.card ≤
        d * S.card ^ n := by
  intro σ
  let ρ : Env (MvPolynomial (Fin n) ℤ) := Env.ofPlaces fun q => Sum.elim X C (plan q)
  have hlow : ∀ τ i, Low ((fun _ _ => 1 : Ty → Nat → Nat) τ i) τ (ρ τ i) := by
    have k : ∀ q, (Sum.elim X C (plan q) : MvPolynomial (Fin n) ℤ).totalDegree ≤ 1 := by
      intro q
      rcases plan q with i | c
      · exact (totalDegree_X _).le
      · exact (totalDegree_C c).le.trans (Nat.zero_le _)
    intro τ i
    match τ with
    | .s => exact k _
    | .v _ => exact fun _ => k _
    | .m _ _ => exact fun _ _ => k _
  have hval : ∀ e : Ex τ, e.Small t.W ∧ e.DivFree ∧ e.InRange → ∀ x, ∃ v, e.eval t Ops.int (σ x) = .ok v ∧
      Val.den id τ v = Den.map (eval x) τ (e.den (fun a _ => a) ρ) := by
    intro e he x
    obtain ⟨v, a, b⟩ := C116_formula Ops.int_isRing t e he.1 he.2.1 he.2.2 fun q => Sum.elim x id (plan q)
    refine ⟨v, a, ?_⟩
    rw [b, Ex.formula_subst (fun a _ => a) e he.2.1.noQuot]
    refine .trans ?_ (Ex.den_map (eval x) (fun a _ => a) (fun a _ => a) e he.2.1.noQuot ρ).symm
    congr 1
    rw [Env.map_ofPlaces]
    congr 1
    funext q
    rcases plan q with i | c <;> simp
  have hagree : ∀ x, e₁.eval t Ops.int (σ x) = e₂.eval t Ops.int (σ x) ↔
      Den.map (eval x) τ (e₁.den (fun a _ => a) ρ) = Den.map (eval x) τ (e₂.den (fun a _ => a) ρ) := by
    intro x
    obtain ⟨v₁, a₁, b₁⟩ := hval e₁ h₁ x
    obtain ⟨v₂, a₂, b₂⟩ := hval e₂ h₂ x
    rw [a₁, a₂, ← b₁, ← b₂]
    exact ⟨fun h => by cases h; rfl, fun h => by rw [Val.den_injective Function.injective_id τ _ _ h]⟩
  simp only [hagree]
  have l₁ : Low d τ (e₁.den (fun a _ => a) ρ) := Den.All.mono (fun x hx => hx.trans hd₁) (Ex.deg_bound _ e₁ h₁.2.1.noQuot ρ _ hlow)
  have l₂ : Low d τ (e₂.den (fun a _ => a) ρ) := Den.All.mono (fun x hx => hx.trans hd₂) (Ex.deg_bound _ e₂ h₂.2.1.noQuot ρ _ hlow)
  clear hval hagree hd₁ hd₂ h₁ h₂
  generalize e₁.den (fun a _ => a) ρ = P₁ at l₁ ⊢
  generalize e₂.den (fun a _ => a) ρ = P₂ at l₂ ⊢
  by_cases hP : P₁ = P₂
  · exact .inl fun x => by rw [hP]
  right
  have key : ∀ p q : MvPolynomial (Fin n) ℤ, p ≠ q → p.totalDegree ≤ d → q.totalDegree ≤ d →
      ((Fintype.piFinset fun _ : Fin n => S).filter fun x => eval x p = eval x q).card * S.card ≤ d * S.card ^ n := by
    intro p q hpq hp hq
    have hz := schwartz_zippel_totalDegree (sub_ne_zero.2 hpq) S
    rcases S.eq_empty_or_nonempty with rfl | hS
    · simp
    have hc : (0 : ℚ≥0) < S.card := by exact_mod_cast hS.card_pos
    rw [div_le_div_iff₀ (pow_pos hc n) hc] at hz
    have hz2 : ((Fintype.piFinset fun _ : Fin n => S).filter fun x => eval x (p - q) = 0).card * S.card ≤
        (p - q).totalDegree * S.card ^ n := by exact_mod_cast hz
    have e : ∀ x, eval x p = eval x q ↔ eval x (p - q) = 0 := fun x => by rw [map_sub, sub_eq_zero]
    simp only [e]
    exact hz2.trans (Nat.mul_le_mul_right _ ((totalDegree_sub p q).trans (max_le hp hq)))
  have fin : ∀ (Q : (Fin n → ℤ) → Prop) (p q : MvPolynomial (Fin n) ℤ), p ≠ q → p.totalDegree ≤ d → q.totalDegree ≤ d →
      (∀ x, Q x → eval x p = eval x q) →
      ((Fintype.piFinset fun _ : Fin n => S).filter Q).card * S.card ≤ d * S.card ^ n := fun Q p q hpq hp hq h =>
    (Nat.mul_le_mul_right _ (Finset.card_le_card (Finset.monotone_filter_right _ fun x _ hx => h x hx))).trans (key p q hpq hp hq)
  match τ, P₁, P₂, hP, l₁, l₂ with
  | .s, P₁, P₂, hP, l₁, l₂ => exact fin _ P₁ P₂ hP l₁ l₂ fun x hx => hx
  | .v _, P₁, P₂, hP, l₁, l₂ =>
    obtain ⟨i, hi⟩ := Function.ne_iff.1 hP
    exact fin _ _ _ hi (l₁ i) (l₂ i) fun x hx => congrFun hx i
  | .m _ _, P₁, P₂, hP, l₁, l₂ =>
    obtain ⟨i, hi⟩ := Function.ne_iff.1 hP
    obtain ⟨j, hj⟩ := Function.ne_iff.1 hi
    exact fin _ _ _ hj (l₁ i j) (l₂ i j) fun x hx => congrFun (congrFun hx i) j

/-! ## Congruences -/

/-- C116: with big integers, inputs congruent modulo `m` give results congruent modulo `m`. -/
theorem C116_congruence (t : Target) (e : Ex τ) (hs : e.Small t.W) (hd : e.DivFree) (hi : e.InRange) (m : Nat) (g g' : Place → ℤ)
    (h : ∀ q, g q ≡ g' q [ZMOD m]) : ∃ v v', e.eval t Ops.int (Store.ofPlaces g) = .ok v ∧ e.eval t Ops.int (Store.ofPlaces g') = .ok v' ∧
      Den.map (fun z : ℤ => z % (m : ℤ)) τ (Val.den id τ v) = Den.map (fun z : ℤ => z % (m : ℤ)) τ (Val.den id τ v') := by
  obtain ⟨v, a, b⟩ := C116_formula Ops.int_isRing t e hs hd hi g
  obtain ⟨v', a', b'⟩ := C116_formula Ops.int_isRing t e hs hd hi g'
  refine ⟨v, v', a, a', ?_⟩
  rw [b, b', Ex.formula_subst (fun a _ => a) e hd.noQuot, Ex.formula_subst (fun a _ => a) e hd.noQuot]
  have k : ∀ u : Place → ℤ, Den.map (Int.castRingHom (ZMod m)) τ (e.den (fun a _ => a) (Env.ofPlaces u)) =
      e.den (fun a _ => a) (Env.ofPlaces fun q => (u q : ZMod m)) := fun u => by
    rw [Ex.den_map _ _ (fun a _ => a) e hd.noQuot, Env.map_ofPlaces]; rfl
  have hz : (fun q => (g q : ZMod m)) = fun q => (g' q : ZMod m) := funext fun q => (ZMod.intCast_eq_intCast_iff _ _ m).2 (h q)
  have k2 := (k g).trans ((congrArg (fun f => e.den (fun a _ => a) (Env.ofPlaces f)) hz).trans (k g').symm)
  revert k2
  generalize e.den (fun a _ => a) (Env.ofPlaces g) = P
  generalize e.den (fun a _ => a) (Env.ofPlaces g') = Q
  intro k2
  have c : ∀ x y : ℤ, (Int.castRingHom (ZMod m)) x = (Int.castRingHom (ZMod m)) y → x % m = y % m := fun x y hxy =>
    (ZMod.intCast_eq_intCast_iff x y m).1 hxy
  match τ, P, Q, k2 with
  | .s, P, Q, k2 => exact c _ _ k2
  | .v _, P, Q, k2 => exact funext fun i => c _ _ (congrFun k2 i)
  | .m _ _, P, Q, k2 => exact funext fun i => funext fun j => c _ _ (congrFun (congrFun k2 i) j)

/-! ## Derivatives -/

theorem dual_isRing (K : Type) [Field K] [DecidableEq K] : (Ops.dual K).IsRing where
  zero := rfl
  one := rfl
  add _ _ := rfl
  mul a b := by
    refine congrArg Except.ok (TrivSqZeroExt.ext rfl ?_)
    rw [TrivSqZeroExt.snd_mul, smul_eq_mul, op_smul_eq_mul]
    rfl
  sub _ _ := rfl
  neg _ := rfl

theorem deriv_poly (G : Place → DualNumber ℝ) (p : MvPolynomial Place ℤ) :
    (eval₂ (Int.castRingHom (DualNumber ℝ)) G p).fst = eval₂ (Int.castRingHom ℝ) (fun q => (G q).fst) p ∧
    HasDerivAt (fun s : ℝ => eval₂ (Int.castRingHom ℝ) (fun q => (G q).fst + s * (G q).snd) p)
      (eval₂ (Int.castRingHom (DualNumber ℝ)) G p).snd 0 := by
  induction p using MvPolynomial.induction_on with
  | C a =>
    simp only [eval₂_C]
    refine ⟨by simp, ?_⟩
    have : ((Int.castRingHom (DualNumber ℝ)) a).snd = 0 := by simp
    rw [this]
    exact hasDerivAt_const _ _
  | add p q hp hq =>
    simp only [eval₂_add]
    exact ⟨by rw [TrivSqZeroExt.fst_add, hp.1, hq.1], hp.2.add hq.2⟩
  | mul_X p q hp =>
    simp only [eval₂_mul, eval₂_X]
    refine ⟨by rw [TrivSqZeroExt.fst_mul, hp.1], ?_⟩
    have h2 : HasDerivAt (fun s : ℝ => (G q).fst + s * (G q).snd) (G q).snd 0 := by
      simpa using ((hasDerivAt_id (0 : ℝ)).mul_const (G q).snd).const_add (G q).fst
    refine (hp.2.mul h2).congr_deriv ?_
    rw [TrivSqZeroExt.snd_mul, hp.1, smul_eq_mul, op_smul_eq_mul]
    simp only [zero_mul, add_zero]
    exact add_comm _ _

theorem isDeriv_subst (G : Place → DualNumber ℝ) (P : Den (MvPolynomial Place ℤ) τ) :
    IsDeriv τ (fun s => Den.subst (fun q => (G q).fst + s * (G q).snd) τ P) (Den.subst G τ P) := by
  have e : (fun q => (G q).fst + 0 * (G q).snd) = fun q => (G q).fst := funext fun q => by ring
  refine ⟨?_, ?_⟩
  · simp only [e]
    match τ with
    | .s => exact (deriv_poly G P).1
    | .v _ => exact funext fun i => (deriv_poly G (P i)).1
    | .m _ _ => exact funext fun i => funext fun j => (deriv_poly G (P i j)).1
  · match τ with
    | .s => exact (deriv_poly G P).2
    | .v _ => exact fun i => (deriv_poly G (P i)).2
    | .m _ _ => exact fun i j => (deriv_poly G (P i j)).2

/-- C116: automatic differentiation.  Evaluate an expression without division on dual numbers `x + x' ε`; the result is, number by number,
the result on the real numbers `x`, with the derivative at `s = 0` of the result on the real numbers `x + s x'`. -/
theorem C116_derivative {O : Ops (DualNumber ℝ)} (hO : O.IsRing) {O' : Ops ℝ} (hO' : O'.IsRing) (t : Target) (e : Ex τ)
    (hs : e.Small t.W) (hd : e.DivFree) (hi : e.InRange) (G : Place → DualNumber ℝ) :
    ∃ (v : Val (DualNumber ℝ) τ) (F : ℝ → Val ℝ τ), e.eval t O (Store.ofPlaces G) = .ok v ∧
      (∀ s, e.eval t O' (Store.ofPlaces fun q => (G q).fst + s * (G q).snd) = .ok (F s)) ∧
      IsDeriv τ (fun s => Val.den id τ (F s)) (Val.den id τ v) := by
  obtain ⟨v, a, b⟩ := C116_formula hO t e hs hd hi G
  choose F a' b' using fun s : ℝ => C116_formula hO' t e hs hd hi fun q => (G q).fst + s * (G q).snd
  refine ⟨v, F, a, a', ?_⟩
  rw [b]
  simp only [b']
  exact isDeriv_subst G _

/-- C116: the same for programs without tests. -/
theorem C116_derivative_programs {O : Ops (DualNumber ℝ)} (hO : O.IsRing) (hz : ∀ a, O.isZero a = true ↔ a = 0) {O' : Ops ℝ}
    (hO' : O'.IsRing) (hz' : ∀ a, O'.isZero a = true ↔ a = 0) (t : Target) (p : Stmt)
    (hs : p.Small t.W) (hd : p.DivFree) (hi : p.InRange) (hp : p.Straight) (G : Place → DualNumber ℝ) :
    ∃ (σ' : Store (DualNumber ℝ)) (F : ℝ → Store ℝ), Run t O p (Store.ofPlaces G) (.ok σ') ∧
      (∀ s, Run t O' p (Store.ofPlaces fun q => (G q).fst + s * (G q).snd) (.ok (F s))) ∧
      ∀ τ i, IsDeriv τ (fun s => Val.den id τ (F s τ i)) (Val.den id τ (σ' τ i)) := by
  obtain ⟨v, a, b⟩ := C116_program hO hz t p hs hd hi hp G
  choose F a' b' using fun s : ℝ => C116_program hO' hz' t p hs hd hi hp fun q => (G q).fst + s * (G q).snd
  refine ⟨v, F, a, a', fun τ i => ?_⟩
  rw [b]
  simp only [b']
  exact isDeriv_subst G _

/-- C116: dual numbers with the usual operations are such an element type. -/
theorem C116_dual : (Ops.dual ℝ).IsRing ∧ ∀ a, (Ops.dual ℝ).isZero a = true ↔ a = 0 := by
  refine ⟨dual_isRing ℝ, fun a => ?_⟩
  simp only [Ops.dual, decide_eq_true_eq]
  exact ⟨fun h => TrivSqZeroExt.ext h.1 h.2, fun h => by rw [h]; exact ⟨rfl, rfl⟩⟩

/-! ## Examples -/

namespace Examples

/-- `(a * b).determinant() + v.dot(&v) * s`, with `3 x 3` matrices. -/
def mixed : Ex .s :=
  .bin .add .vv (.det (.mul .rr (.var (.m 3 3) 0) (.var (.m 3 3) 1))) (.scale (.dot (.var (.v 4) 0) (.var (.v 4) 0)) (.var .s 0))

theorem mixed_ok : mixed.Small t64.W ∧ mixed.DivFree ∧ mixed.InRange := by
  refine ⟨?_, ?_, ?_⟩ <;> simp [mixed, t64, Ex.Every, Ex.SmallStep, Ex.DivFreeStep, Ex.InRangeStep, Ty.Small]

example : mixed.degree = 6 := rfl

/-- Its value on wrapping 8-bit integers is its formula's. -/
example (g : Place → BitVec 8) : ∃ v, mixed.eval t64 (Ops.signed false 8) (Store.ofPlaces g) = .ok v ∧
    Val.den id .s v = Den.subst g .s mixed.formula :=
  C116_formula (C103_wrapping_types 8).1.1 t64 mixed mixed_ok.1 mixed_ok.2.1 mixed_ok.2.2 g

/-- `a * b` and `b * a`, with `2 x 2` matrices. -/
def ab : Ex (.m 2 2) := .mul .rr (.var (.m 2 2) 0) (.var (.m 2 2) 1)
def ba : Ex (.m 2 2) := .mul .vv (.var (.m 2 2) 1) (.var (.m 2 2) 0)

/-- All eight entries random. -/
def plan (q : Place) : Fin 8 ⊕ Int :=
  if q.ty = .m 2 2 ∧ q.name < 2 ∧ q.row < 2 ∧ q.col < 2 then .inl (Fin.ofNat 8 (4 * q.name + 2 * q.row + q.col)) else .inr 0

theorem ab_ne_ba : ab.eval t64 Ops.int (Store.ofPlaces fun q => Sum.elim (fun i : Fin 8 => (i.val : Int)) id (plan q)) ≠
    ba.eval t64 Ops.int (Store.ofPlaces fun q => Sum.elim (fun i : Fin 8 => (i.val : Int)) id (plan q)) := by
  intro h
  have h2 : (ab.eval t64 Ops.int (Store.ofPlaces fun q => Sum.elim (fun i : Fin 8 => (i.val : Int)) id (plan q))).toOption.map
      (fun a => a.rows.toList.map Vec.toList) = (ba.eval t64 Ops.int (Store.ofPlaces fun q => Sum.elim (fun i : Fin 8 => (i.val : Int))
        id (plan q))).toOption.map (fun a => a.rows.toList.map Vec.toList) := by rw [h]
  revert h2
  decide +kernel

open Classical in
/-- A test with entries chosen independently from 1000 numbers misses that `a * b` and `b * a` differ with probability at most 2 / 1000. -/
example : ((Fintype.piFinset fun _ : Fin 8 => Finset.Ico (0 : Int) 1000).filter fun x =>
    ab.eval t64 Ops.int (Store.ofPlaces fun q => Sum.elim x id (plan q)) =
      ba.eval t64 Ops.int (Store.ofPlaces fun q => Sum.elim x id (plan q))).card * 1000 ≤ 2 * 1000 ^ 8 := by
  have k : ab.Small t64.W ∧ ab.DivFree ∧ ab.InRange := by
    refine ⟨?_, ?_, ?_⟩ <;> simp [ab, t64, Ex.Every, Ex.SmallStep, Ex.DivFreeStep, Ex.InRangeStep, Ty.Small]
  have k' : ba.Small t64.W ∧ ba.DivFree ∧ ba.InRange := by
    refine ⟨?_, ?_, ?_⟩ <;> simp [ba, t64, Ex.Every, Ex.SmallStep, Ex.DivFreeStep, Ex.InRangeStep, Ty.Small]
  rcases C116_testing t64 ab ba k k' 2 (by decide) (by decide) 8 plan (Finset.Ico 0 1000) with h | h
  · exact absurd (h _) ab_ne_ba
  · simpa using h

/-- `x * x * x` on `3 + ε` is `27 + 27 ε`. -/
example : (match (Ex.scale (.scale (.var .s 0) (.var .s 0)) (.var .s 0)).eval t64 (Ops.dual ℚ)
      (Store.ofPlaces fun _ => ((3, 1) : DualNumber ℚ)) with
    | .ok d => decide ((show DualNumber ℚ from d).fst = 27 ∧ (show DualNumber ℚ from d).snd = 27) | .error _ => false) = true := by decide +kernel

end Examples

end Prog
end Rowcol
