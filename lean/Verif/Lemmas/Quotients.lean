import Verif.Lemmas.RingDiv
import Verif.Props.Formula

/-! Expressions with division under ring homomorphisms. -/

namespace Rowcol
namespace Prog
variable {K : Type} {τ : Ty}

theorem ringDiv_field [Field K] : (ringDiv : K → K → K) = (· / ·) := by
  funext a b
  rw [ringDiv, Ring.inverse_eq_inv', div_eq_mul_inv]

section Defined
variable [CommRing K] {O : Ops K}

theorem bind_ok {α β : Type} {x : Res α} {f : α → Res β} {y : β} (h : x >>= f = .ok y) : ∃ a, x = .ok a ∧ f a = .ok y := by
  cases x with
  | ok a => exact ⟨a, rfl, h⟩
  | error e => cases h

theorem quot_unit (hdv : O.UnitDiv) (t : Target) (a : Val K τ) (s : K) (w : Val K τ) (h : Val.quot t O τ a s = .ok w)
    (hn : τ.NonEmpty) : IsUnit s := by
  have key : ∀ x y : K, O.div x s = .ok y → IsUnit s := fun x y hx => by
    rcases hdv x s with h' | ⟨q, _, _, hu⟩
    · rw [hx] at h'; cases h'
    · exact hu
  match τ, a, w, h, hn with
  | .s, a, w, h, _ => exact key a w h
  | .v n, a, w, h, hn => exact key _ _ ((C19_vec_ok t O.div O.neg a s w).2.1.1 h ⟨0, hn⟩)
  | .m r c, a, w, h, hn => exact key _ _ ((C19_mat_ok t O.div (fun x => .ok x) a s w a).2.1.1 h ⟨0, hn.1⟩ ⟨0, hn.2⟩)

theorem eval_den (hO : O.IsRing) (hdv : O.UnitDiv) (t : Target) {e : Ex τ} (hs : e.Small t.W) {σ : Store K} {v : Val K τ}
    (h : e.eval t O σ = .ok v) : Val.den id τ v = e.den ringDiv (σ.den id) := by
  rcases exact_eval hO t σ e hs (.inr (ring_divOk hO hdv t)) with ⟨h', _⟩ | ⟨w, h', hw⟩
  · rw [h] at h'; cases h'
  · rw [h] at h'; cases h'; exact hw

theorem inverse_unit (hO : O.IsRing) (hdv : O.UnitDiv) (t : Target) (k : Nat) (a x : Mat K (k + 1) (k + 1))
    (h : a.inverse t O k = .ok (some x)) : IsUnit a.toMatrix.det ∧
      (3 ≤ k → ∀ l, ∀ hl : l ≤ k + 1, IsUnit (Matrix.submatrix a.toMatrix (Fin.castLE hl) (Fin.castLE hl)).det) := by
  constructor
  · rcases inverse_ring hO hdv t k a with h' | h' | ⟨y, h', hy⟩
    · rw [h] at h'; cases h'
    · rw [h] at h'; cases h'
    · have := congrArg Matrix.det hy
      rw [Matrix.det_mul, Matrix.det_one, mul_comm] at this
      exact IsUnit.of_mul_eq_one _ this
  · intro hk l hl
    obtain ⟨k, rfl⟩ : ∃ j, k = j + 3 := ⟨k - 3, by omega⟩
    rw [Mat.inverse] at h
    rcases (invGen_ring hO hdv t a).1 with h' | h' | ⟨h1, _⟩
    · rw [h] at h'; cases h'
    · rw [h] at h'; cases h'
    · rcases Nat.eq_zero_or_pos l with rfl | h0
      · rw [Matrix.det_isEmpty]; exact isUnit_one
      · exact h1 l hl h0

/-- An evaluation that returns has divided by numbers with reciprocals only. -/
theorem eval_defined (hO : O.IsRing) (hdv : O.UnitDiv) (t : Target) (e : Ex τ) (hs : e.Small t.W) (σ : Store K) (v : Val K τ)
    (h : e.eval t O σ = .ok v) : e.Defined (σ.den id) := by
  induction e generalizing σ with
  | var | zero | one | ident => trivial
  | neg a ih | vsum a ih | msum a ih | transposed a ih | pow a _ ih | det a ih | diag a ih =>
    obtain ⟨x, h1, _⟩ := bind_ok h
    exact ih hs.2 σ x h1
  | bin _ _ a b iha ihb | scale a b iha ihb | dot a b iha ihb | cross a b iha ihb | mul _ a b iha ihb | mulVec _ a b iha ihb =>
    obtain ⟨x, h1, h2⟩ := bind_ok h
    obtain ⟨y, h3, _⟩ := bind_ok h2
    exact ⟨iha hs.2.1 σ x h1, ihb hs.2.2 σ y h3⟩
  | @vget n v i ih =>
    obtain ⟨x, h1, h2⟩ := bind_ok h
    refine ⟨ih hs.2 σ x h1, ?_⟩
    by_contra hi
    rw [Vec.index_panic x (by omega)] at h2; cases h2
  | @mget r c a i j ih =>
    obtain ⟨x, h1, h2⟩ := bind_ok h
    refine ⟨ih hs.2 σ x h1, ?_⟩
    by_contra hi
    rw [Mat.index_panic x (by omega)] at h2; cases h2
  | @cof k a i j ih =>
    obtain ⟨x, h1, h2⟩ := bind_ok h
    refine ⟨ih hs.2 σ x h1, ?_⟩
    by_contra hi
    have ha := hs.2.ty
    have hij := hs.1
    simp only [Ty.Small] at ha
    simp only [Ex.SmallStep] at hij
    rw [C54_out_of_range t O k x i j hij.1 hij.2 (by omega) (by rw [hO.neg]; simp)] at h2; cases h2
  | @row r c a i ih =>
    obtain ⟨x, h1, h2⟩ := bind_ok h
    have ha := hs.2.ty
    simp only [Ty.Small] at ha
    refine ⟨ih hs.2 σ x h1, ?_⟩
    by_contra hi
    rw [row_nth t x i hs.1.2 (by omega), dif_neg hi] at h2; cases h2
  | @col r c a j ih =>
    obtain ⟨x, h1, h2⟩ := bind_ok h
    have ha := hs.2.ty
    simp only [Ty.Small] at ha
    refine ⟨ih hs.2 σ x h1, ?_⟩
    by_contra hi
    rw [col_nth t x j hs.1.2 (by omega), dif_neg hi] at h2; cases h2
  | quot a s iha ihs =>
    obtain ⟨x, h1, h2⟩ := bind_ok h
    obtain ⟨y, h3, h4⟩ := bind_ok h2
    refine ⟨iha hs.2.1 σ x h1, ihs hs.2.2 σ y h3, fun hn => ?_⟩
    rw [← eval_den hO hdv t hs.2.2 h3]
    exact quot_unit hdv t x y v h4 hn
  | inv a ih =>
    obtain ⟨x, h1, h2⟩ := bind_ok h
    obtain ⟨o, h3, h4⟩ := bind_ok h2
    refine ⟨ih hs.2 σ x h1, ?_⟩
    rw [← eval_den hO hdv t hs.2 h1]
    cases o with
    | none => cases h4
    | some y => exact inverse_unit hO hdv t _ x y h3
  | @gen n f ih =>
    rw [Ex.eval, generate_fin, Vec.collect_finRange_ok_iff] at h
    exact fun i hi => ih i (hs.2 i hi) σ _ (h ⟨i, hi⟩)
  | @mgen r c f ih =>
    rw [Ex.eval, matGenerate_fin] at h
    obtain ⟨w, h1, _⟩ := bind_ok h
    rw [Vec.collect_finRange_ok_iff] at h1
    intro i hi j hj
    have h2 := h1 ⟨i, hi⟩
    rw [Vec.collect_finRange_ok_iff] at h2
    exact ih (i, j) (hs.2 i hi j hj) σ _ (h2 ⟨j, hj⟩)
  | @map r c k f a ihf iha =>
    obtain ⟨x, h0, h⟩ := bind_ok h
    rw [map_fin] at h
    obtain ⟨w, h1, _⟩ := bind_ok h
    rw [Vec.collect_finRange_ok_iff] at h1
    refine ⟨iha hs.2.1 σ x h0, fun i j => ?_⟩
    have h2 := h1 i
    rw [Vec.collect_finRange_ok_iff] at h2
    have h3 := ihf (i.val, j.val) (hs.2.2 i i.isLt j j.isLt) _ _ (h2 j)
    rw [Store.den_put] at h3
    rw [← eval_den hO hdv t hs.2.1 h0]
    exact h3

theorem exec_den (hO : O.IsRing) (hdv : O.UnitDiv) (t : Target) {a : Act} (hs : a.Small t.W) {σ σ' : Store K}
    (h : a.exec t O σ = .ok σ') : σ'.den id = a.den ringDiv (σ.den id) := by
  rcases exact_exec hO t σ a hs (.inr (ring_divOk hO hdv t)) with ⟨h', _⟩ | ⟨w, h', hw⟩
  · rw [h] at h'; cases h'
  · rw [h] at h'; cases h'; exact hw

theorem exec_defined (hO : O.IsRing) (hdv : O.UnitDiv) (t : Target) (a : Act) (hs : a.Small t.W) (σ σ' : Store K)
    (h : a.exec t O σ = .ok σ') : a.Defined (σ.den id) := by
  cases a with
  | set i e => obtain ⟨x, h1, _⟩ := bind_ok h; exact eval_defined hO hdv t e hs.2 σ x h1
  | upd o i e => obtain ⟨x, h1, _⟩ := bind_ok h; exact eval_defined hO hdv t e hs.2 σ x h1
  | updScale τ i s => obtain ⟨x, h1, _⟩ := bind_ok h; exact eval_defined hO hdv t s hs.2 σ x h1
  | updQuot τ i s =>
    obtain ⟨x, h1, h2⟩ := bind_ok h
    refine ⟨eval_defined hO hdv t s hs.2 σ x h1, fun hn => ?_⟩
    rw [← eval_den hO hdv t hs.2 h1]
    rw [after_updQuot t] at h2
    obtain ⟨w, h3, _⟩ := bind_ok h2
    exact quot_unit hdv t _ x w h3 hn
  | updMul i e => obtain ⟨x, h1, _⟩ := bind_ok h; exact eval_defined hO hdv t e hs.2 σ x h1
  | transpose n i => trivial
  | vset n i k e =>
    obtain ⟨x, h1, h2⟩ := bind_ok h
    refine ⟨eval_defined hO hdv t e hs.2 σ x h1, ?_⟩
    by_contra hk
    rw [Vec.indexSet_panic _ (by omega) x] at h2; cases h2
  | mset r c i k l e =>
    obtain ⟨x, h1, h2⟩ := bind_ok h
    refine ⟨eval_defined hO hdv t e hs.2.2 σ x h1, ?_⟩
    by_contra hk
    rw [Mat.indexSet_panic _ (by omega) x] at h2; cases h2

theorem run_defined (hO : O.IsRing) (hdv : O.UnitDiv) (t : Target) (p : Stmt) (hs : p.Small t.W) (hp : p.Straight) (σ σ' : Store K)
    (h : Run t O p σ (.ok σ')) : p.Defined (σ.den id) ∧ σ'.den id = p.den ringDiv (σ.den id) := by
  induction p generalizing σ σ' with
  | skip => cases h; exact ⟨trivial, rfl⟩
  | act a =>
    generalize hx : (Except.ok σ' : Res (Store K)) = x at h
    cases h
    exact ⟨exec_defined hO hdv t a hs σ σ' hx.symm, exec_den hO hdv t hs hx.symm⟩
  | seq p q ihp ihq =>
    cases h with
    | seq h1 h2 =>
      obtain ⟨a1, a2⟩ := ihp hs.1 hp.1 _ _ h1
      obtain ⟨b1, b2⟩ := ihq hs.2 hp.2 _ _ h2
      rw [a2] at b1 b2
      exact ⟨⟨a1, b1⟩, b2⟩
  | ite => exact hp.elim
  | loop => exact hp.elim

end Defined

section Complete
variable [Field K] {O : Ops K}

theorem ok_bind {α β : Type} {x : Res α} {f : α → Res β} {a : α} (h : x = .ok a) (hf : ∃ b, f a = .ok b) : ∃ b, x >>= f = .ok b := by
  rw [h]; exact hf

theorem div_ok (hO : O.IsField) (t : Target) (a : Val K τ) (s : K) (hs : τ.NonEmpty → IsUnit s) : ∃ w, Val.quot t O τ a s = .ok w := by
  match τ, a, hs with
  | .s, a, hs => exact ⟨_, hO.div a s (hs trivial).ne_zero⟩
  | .v n, a, hs =>
    exact ⟨Vec.ofFn fun i => a.get i / s, (C19_vec_ok t O.div O.neg a s _).2.1.2 fun i => by
      rw [Vec.get_ofFn]; exact hO.div _ _ (hs (Nat.lt_of_le_of_lt (Nat.zero_le _) i.isLt)).ne_zero⟩
  | .m r c, a, hs =>
    exact ⟨Mat.ofFn fun i j => a.get i j / s, (C19_mat_ok t O.div (fun x => .ok x) a s _ a).2.1.2 fun i j => by
      rw [Mat.get_ofFn]; exact hO.div _ _ (hs ⟨i.pos, j.pos⟩).ne_zero⟩

theorem inverse_some (hO : O.IsField) (t : Target) (k : Nat) (a : Mat K (k + 1) (k + 1)) (h : IsUnit a.toMatrix.det)
    (h' : 3 ≤ k → ∀ l, ∀ hl : l ≤ k + 1, IsUnit (Matrix.submatrix a.toMatrix (Fin.castLE hl) (Fin.castLE hl)).det) :
    ∃ x, a.inverse t O k = .ok (some x) := by
  by_cases hk : 3 ≤ k
  · exact (C57_minors t hO k hk a).2 fun l hl _ => (h' hk l hl).ne_zero
  · rw [C56_complete_partial t hO k (by omega) a]
    exact ⟨a.toMatrix⁻¹, Matrix.mul_nonsing_inv _ h⟩

/-- Over an exact field an expression that is defined has a value. -/
theorem defined_eval (hO : O.IsField) (hdv : O.UnitDiv) (t : Target) (e : Ex τ) (hs : e.Small t.W) (σ : Store K)
    (hd : e.Defined (σ.den id)) : ∃ v, e.eval t O σ = .ok v := by
  have hR := hO.toIsRing
  induction e generalizing σ with
  | var τ i => exact ⟨_, rfl⟩
  | zero τ => obtain ⟨w, h, _⟩ := exact_zero hR t τ; exact ⟨w, h⟩
  | one => exact ⟨_, rfl⟩
  | ident n => exact ⟨_, identity_eq hR.toIsSemiring t n⟩
  | bin o g a b iha ihb =>
    obtain ⟨x, hx⟩ := iha hs.2.1 σ hd.1
    obtain ⟨y, hy⟩ := ihb hs.2.2 σ hd.2
    obtain ⟨w, h, _⟩ := exact_bin hR t o g _ x y
    exact ok_bind hx (ok_bind hy ⟨w, h⟩)
  | neg a iha =>
    obtain ⟨x, hx⟩ := iha hs.2 σ hd
    obtain ⟨w, h, _⟩ := exact_neg hR t _ x
    exact ok_bind hx ⟨w, h⟩
  | scale a s iha ihs =>
    obtain ⟨x, hx⟩ := iha hs.2.1 σ hd.1
    obtain ⟨y, hy⟩ := ihs hs.2.2 σ hd.2
    obtain ⟨w, h, _⟩ := exact_scale hR t _ x y
    exact ok_bind hx (ok_bind hy ⟨w, h⟩)
  | quot a s iha ihs =>
    obtain ⟨x, hx⟩ := iha hs.2.1 σ hd.1
    obtain ⟨y, hy⟩ := ihs hs.2.2 σ hd.2.1
    have hu := hd.2.2
    rw [← eval_den hR hdv t hs.2.2 hy] at hu
    exact ok_bind hx (ok_bind hy (div_ok hO t x y hu))
  | vsum v ih =>
    obtain ⟨x, hx⟩ := ih hs.2 σ hd
    exact ok_bind hx ⟨_, C26_vec_sum hR.toIsSemiring x⟩
  | msum a ih =>
    obtain ⟨x, hx⟩ := ih hs.2 σ hd
    exact ok_bind hx ⟨_, C26_mat_sum hR.toIsSemiring x⟩
  | dot a b iha ihb =>
    obtain ⟨x, hx⟩ := iha hs.2.1 σ hd.1
    obtain ⟨y, hy⟩ := ihb hs.2.2 σ hd.2
    exact ok_bind hx (ok_bind hy ⟨_, C23_dot hR.toIsSemiring x y⟩)
  | cross a b iha ihb =>
    obtain ⟨x, hx⟩ := iha hs.2.1 σ hd.1
    obtain ⟨y, hy⟩ := ihb hs.2.2 σ hd.2
    exact ok_bind hx (ok_bind hy ⟨_, cross_eq hR t x y⟩)
  | vget v i ih =>
    obtain ⟨x, hx⟩ := ih hs.2 σ hd.1
    exact ok_bind hx ⟨_, Vec.index_ok x hd.2⟩
  | mget a i j ih =>
    obtain ⟨x, hx⟩ := ih hs.2 σ hd.1
    exact ok_bind hx ⟨_, Mat.index_ok x hd.2.1 hd.2.2⟩
  | mul g a b iha ihb =>
    have ha := hs.2.1.ty
    have hb := hs.2.2.ty
    simp only [Ty.Small] at ha hb
    obtain ⟨x, hx⟩ := iha hs.2.1 σ hd.1
    obtain ⟨y, hy⟩ := ihb hs.2.2 σ hd.2
    refine ok_bind hx (ok_bind hy ⟨Mat.ofMatrix (x.toMatrix * y.toMatrix), ?_⟩)
    rw [mul_eq_vv t O g x y (by omega) (by omega) (by omega)]
    exact mulVV_eq hR.toIsSemiring t x y (by omega) (by omega) (by omega)
  | mulVec br a v iha ihv =>
    have ha := hs.2.1.ty
    simp only [Ty.Small] at ha
    obtain ⟨x, hx⟩ := iha hs.2.1 σ hd.1
    obtain ⟨y, hy⟩ := ihv hs.2.2 σ hd.2
    have h := mulVec_eq hR.toIsSemiring t x y (by omega)
    refine ok_bind hx (ok_bind hy ⟨Vec.ofFn (x.toMatrix.mulVec y.get), ?_⟩)
    cases br
    · exact h.1
    · exact h.2
  | transposed a ih =>
    have ha := hs.2.ty
    simp only [Ty.Small] at ha
    obtain ⟨x, hx⟩ := ih hs.2 σ hd
    exact ok_bind hx ⟨_, transposed_eq t x (by omega)⟩
  | pow a k ih =>
    have ha := hs.2.ty
    simp only [Ty.Small] at ha
    obtain ⟨x, hx⟩ := ih hs.2 σ hd
    exact ok_bind hx ⟨_, pow_eq hR.toIsSemiring t x k (by omega)⟩
  | @det k a ih =>
    have ha := hs.2.ty
    simp only [Ty.Small] at ha
    obtain ⟨x, hx⟩ := ih hs.2 σ hd
    exact ok_bind hx ⟨_, C48_determinant hO t k x (by omega)⟩
  | @cof k a i j ih =>
    have ha := hs.2.ty
    have hij := hs.1
    simp only [Ty.Small] at ha
    obtain ⟨x, hx⟩ := ih hs.2 σ hd.1
    exact ok_bind hx ⟨_, C53_cofactor hO t k x ⟨i, hd.2.1⟩ ⟨j, hd.2.2⟩ (by omega) (by have := hd.2; simp; omega)⟩
  | @inv k a ih =>
    obtain ⟨x, hx⟩ := ih hs.2 σ hd.1
    have hu := hd.2
    rw [← eval_den hR hdv t hs.2 hx] at hu
    obtain ⟨y, hy⟩ := inverse_some hO t k x hu.1 hu.2
    exact ok_bind hx ⟨y, by rw [hy]; rfl⟩
  | @gen n g ih =>
    choose x hx using fun i : Fin n => ih i.val (hs.2 i.val i.isLt) σ (hd i.val i.isLt)
    refine ⟨Vec.ofFn x, ?_⟩
    rw [Ex.eval, generate_fin, Vec.collect_finRange_ok_iff]
    intro i; rw [Vec.get_ofFn]; exact hx i
  | @mgen r c g ih =>
    choose x hx using fun (i : Fin r) (j : Fin c) => ih (i.val, j.val) (hs.2 i.val i.isLt j.val j.isLt) σ (hd i.val i.isLt j.val j.isLt)
    rw [Ex.eval, matGenerate_fin]
    refine ok_bind (a := Vec.ofFn fun i => Vec.ofFn (x i)) ?_ ⟨_, rfl⟩
    rw [Vec.collect_finRange_ok_iff]
    intro i; rw [Vec.get_ofFn, Vec.collect_finRange_ok_iff]
    intro j; rw [Vec.get_ofFn]; exact hx i j
  | @map r c k g a ihg iha =>
    obtain ⟨x, hx⟩ := iha hs.2.1 σ hd.1
    refine ok_bind hx ?_
    choose y hy using fun (i : Fin r) (j : Fin c) => ihg (i.val, j.val) (hs.2.2 i.val i.isLt j.val j.isLt) (σ.put .s k (x.get i j)) (by
      have := hd.2 i j
      rw [← eval_den hR hdv t hs.2.1 hx] at this
      rw [Store.den_put]
      exact this)
    rw [map_fin]
    refine ok_bind (a := Vec.ofFn fun i => Vec.ofFn (y i)) ?_ ⟨_, rfl⟩
    rw [Vec.collect_finRange_ok_iff]
    intro i; rw [Vec.get_ofFn, Vec.collect_finRange_ok_iff]
    intro j; rw [Vec.get_ofFn]; exact hy i j
  | diag v ih =>
    obtain ⟨x, hx⟩ := ih hs.2 σ hd
    exact ok_bind hx ⟨_, diag_fin t O.zero x⟩
  | row a i ih =>
    have ha := hs.2.ty
    simp only [Ty.Small] at ha
    obtain ⟨x, hx⟩ := ih hs.2 σ hd.1
    refine ok_bind hx ?_
    rw [row_nth t x i hs.1.2 (by omega), dif_pos hd.2]
    exact ⟨_, rfl⟩
  | col a j ih =>
    have ha := hs.2.ty
    simp only [Ty.Small] at ha
    obtain ⟨x, hx⟩ := ih hs.2 σ hd.1
    refine ok_bind hx ?_
    rw [col_nth t x j hs.1.2 (by omega), dif_pos hd.2]
    exact ⟨_, rfl⟩

theorem defined_exec (hO : O.IsField) (hdv : O.UnitDiv) (t : Target) (a : Act) (hs : a.Small t.W) (σ : Store K)
    (hd : a.Defined (σ.den id)) : ∃ σ', a.exec t O σ = .ok σ' := by
  have hR := hO.toIsRing
  cases a with
  | set i e =>
    obtain ⟨x, hx⟩ := defined_eval hO hdv t e hs.2 σ hd
    exact ok_bind hx ⟨_, rfl⟩
  | upd o i e =>
    obtain ⟨x, hx⟩ := defined_eval hO hdv t e hs.2 σ hd
    refine ok_bind hx ?_
    rw [after_upd t]
    obtain ⟨w, h, _⟩ := exact_bin hR t o .vv _ (σ _ i) x
    exact ok_bind h ⟨_, rfl⟩
  | updScale τ i s =>
    obtain ⟨x, hx⟩ := defined_eval hO hdv t s hs.2 σ hd
    refine ok_bind hx ?_
    rw [after_updScale t]
    obtain ⟨w, h, _⟩ := exact_scale hR t _ (σ τ i) x
    exact ok_bind h ⟨_, rfl⟩
  | updQuot τ i s =>
    obtain ⟨x, hx⟩ := defined_eval hO hdv t s hs.2 σ hd.1
    refine ok_bind hx ?_
    rw [after_updQuot t]
    have hu := hd.2
    rw [← eval_den hR hdv t hs.2 hx] at hu
    obtain ⟨w, h⟩ := div_ok hO t (σ τ i) x hu
    exact ok_bind h ⟨_, rfl⟩
  | @updMul n i e =>
    have h2 := hs.1
    obtain ⟨x, hx⟩ := defined_eval hO hdv t e hs.2 σ hd
    refine ok_bind hx ?_
    rw [after_updMul t]
    exact ok_bind (mulVV_eq hR.toIsSemiring t _ x (by omega) (by omega) (by omega)) ⟨_, rfl⟩
  | transpose n i =>
    simp only [Act.Small] at hs
    simp only [Act.exec]
    rw [after_transpose t]
    exact ok_bind (transposed_eq t _ (by omega)) ⟨_, rfl⟩
  | vset n i k e =>
    obtain ⟨x, hx⟩ := defined_eval hO hdv t e hs.2 σ hd.1
    exact ok_bind hx (ok_bind (Vec.indexSet_ok _ hd.2 x) ⟨_, rfl⟩)
  | mset r c i k l e =>
    obtain ⟨x, hx⟩ := defined_eval hO hdv t e hs.2.2 σ hd.1
    exact ok_bind hx (ok_bind (Mat.indexSet_ok _ hd.2.1 hd.2.2 x) ⟨_, rfl⟩)

theorem defined_run (hO : O.IsField) (hdv : O.UnitDiv) (t : Target) (p : Stmt) (hs : p.Small t.W) (hp : p.Straight) (σ : Store K)
    (hd : p.Defined (σ.den id)) : ∃ σ', Run t O p σ (.ok σ') := by
  induction p generalizing σ with
  | skip => exact ⟨σ, .skip σ⟩
  | act a =>
    obtain ⟨σ', h⟩ := defined_exec hO hdv t a hs σ hd
    exact ⟨σ', h ▸ .act a σ⟩
  | seq p q ihp ihq =>
    obtain ⟨σ1, h1⟩ := ihp hs.1 hp.1 σ hd.1
    have h := hd.2
    rw [← (run_defined hO.toIsRing hdv t p hs.1 hp.1 σ σ1 h1).2] at h
    obtain ⟨σ2, h2⟩ := ihq hs.2 hp.2 σ1 h
    exact ⟨σ2, .seq h1 h2⟩
  | ite => exact hp.elim
  | loop => exact hp.elim

end Complete

section Lift
variable {J : Type} {L : J → Type} [CommRing K] [∀ j, CommRing (L j)] (f : ∀ j, K →+* L j) (j₀ : J)
  (H : ∀ b : K, IsUnit (f j₀ b) → ∃ c : K, ∀ j, f j c = Ring.inverse (f j b))
include H

/-- If reciprocals that exist in one image exist in the ring, values of expressions defined in that image exist in the ring. -/
theorem Ex.den_lift (e : Ex τ) (ρ : Env K) (hd : e.Defined (ρ.map (f j₀))) :
    ∃ x : Den K τ, ∀ j, Den.map (f j) τ x = e.den ringDiv (ρ.map (f j)) := by
  induction e generalizing ρ with
  | var τ i => exact ⟨ρ τ i, fun j => rfl⟩
  | zero τ => exact ⟨0, fun j => Den.map_zero (f j) τ⟩
  | one => exact ⟨(1 : K), fun j => (f j).map_one⟩
  | ident n => exact ⟨(1 : Matrix (Fin n) (Fin n) K), fun j => Matrix.map_one _ (f j).map_zero (f j).map_one⟩
  | bin o g a b iha ihb =>
    obtain ⟨x, hx⟩ := iha ρ hd.1
    obtain ⟨y, hy⟩ := ihb ρ hd.2
    cases o
    · exact ⟨x + y, fun j => by simp only [Ex.den, Den.map_add, hx, hy]⟩
    · exact ⟨x - y, fun j => by simp only [Ex.den, Den.map_sub, hx, hy]⟩
  | neg a iha =>
    obtain ⟨x, hx⟩ := iha ρ hd
    exact ⟨-x, fun j => by simp only [Ex.den, Den.map_neg, hx]⟩
  | scale a s iha ihs =>
    obtain ⟨x, hx⟩ := iha ρ hd.1
    obtain ⟨y, hy⟩ := ihs ρ hd.2
    refine ⟨(show K from y) • x, fun j => ?_⟩
    simp only [Ex.den, Den.map_smul, hx, ← hy]; rfl
  | @quot τ a s iha ihs =>
    obtain ⟨x, hx⟩ := iha ρ hd.1
    obtain ⟨y, hy⟩ := ihs ρ hd.2.1
    by_cases hn : τ.NonEmpty
    case neg =>
      refine ⟨x, fun j => ?_⟩
      match τ, x, hn with
      | .s, _, hn => exact absurd trivial hn
      | .v _, _, hn => exact funext fun i => absurd (Nat.lt_of_le_of_lt (Nat.zero_le _) i.isLt) hn
      | .m _ _, _, hn => exact funext fun i => funext fun k => absurd ⟨i.pos, k.pos⟩ hn
    obtain ⟨c, hc⟩ := H y (by have := hd.2.2 hn; rw [← hy] at this; exact this)
    refine ⟨c • x, fun j => ?_⟩
    simp only [Ex.den, Den.map_smul, hx, ← hy, hc]
    match τ with
    | .s => exact mul_comm _ _
    | .v _ => exact funext fun i => mul_comm _ _
    | .m _ _ => exact funext fun i => funext fun k => mul_comm _ _
  | vsum v ih =>
    obtain ⟨x, hx⟩ := ih ρ hd
    refine ⟨∑ i, x i, fun j => ?_⟩
    simp only [Ex.den, ← hx j]
    exact map_sum (f j) _ _
  | msum a ih =>
    obtain ⟨x, hx⟩ := ih ρ hd
    refine ⟨∑ i, ∑ k, x i k, fun j => ?_⟩
    simp only [Ex.den, ← hx j]
    refine (map_sum (f j) _ _).trans (Finset.sum_congr rfl fun i _ => map_sum (f j) _ _)
  | dot a b iha ihb =>
    obtain ⟨x, hx⟩ := iha ρ hd.1
    obtain ⟨y, hy⟩ := ihb ρ hd.2
    refine ⟨dotProduct x y, fun j => ?_⟩
    simp only [Ex.den, ← hx j, ← hy j]
    exact (map_sum (f j) _ _).trans (Finset.sum_congr rfl fun i _ => (f j).map_mul _ _)
  | cross a b iha ihb =>
    obtain ⟨x, hx⟩ := iha ρ hd.1
    obtain ⟨y, hy⟩ := ihb ρ hd.2
    refine ⟨crossProduct x y, fun j => ?_⟩
    simp only [Ex.den, ← hx j, ← hy j]
    funext i
    fin_cases i <;> simp [Den.map, cross_apply]
  | @vget n v i ih =>
    obtain ⟨x, hx⟩ := ih ρ hd.1
    refine ⟨if h : i < n then x ⟨i, h⟩ else (0 : K), fun j => ?_⟩
    simp only [Ex.den, ← hx j]
    split
    · rfl
    · exact (f j).map_zero
  | @mget r c a i k ih =>
    obtain ⟨x, hx⟩ := ih ρ hd.1
    refine ⟨if h : i < r ∧ k < c then x ⟨i, h.1⟩ ⟨k, h.2⟩ else (0 : K), fun j => ?_⟩
    simp only [Ex.den, ← hx j]
    split
    · rfl
    · exact (f j).map_zero
  | @mul l n c g a b iha ihb =>
    obtain ⟨x, hx⟩ := iha ρ hd.1
    obtain ⟨y, hy⟩ := ihb ρ hd.2
    refine ⟨(show Matrix (Fin l) (Fin n) K from x) * (show Matrix (Fin n) (Fin c) K from y), fun j => ?_⟩
    simp only [Ex.den, ← hx j, ← hy j]
    exact Den.map_matMul (f j) _ _
  | mulVec r a v iha ihv =>
    obtain ⟨x, hx⟩ := iha ρ hd.1
    obtain ⟨y, hy⟩ := ihv ρ hd.2
    refine ⟨Matrix.mulVec x y, fun j => ?_⟩
    simp only [Ex.den, ← hx j, ← hy j]
    exact Den.map_mulVec (f j) _ _
  | transposed a ih =>
    obtain ⟨x, hx⟩ := ih ρ hd
    refine ⟨Matrix.transpose x, fun j => ?_⟩
    simp only [Ex.den, ← hx j]; rfl
  | @pow n a k ih =>
    obtain ⟨x, hx⟩ := ih ρ hd
    refine ⟨(show Matrix (Fin n) (Fin n) K from x) ^ k, fun j => ?_⟩
    simp only [Ex.den, ← hx j]
    exact Matrix.map_pow _ (f j) k
  | det a ih =>
    obtain ⟨x, hx⟩ := ih ρ hd
    refine ⟨Matrix.det x, fun j => ?_⟩
    simp only [Ex.den, ← hx j]
    exact (f j).map_det _
  | @cof k a p q ih =>
    obtain ⟨x, hx⟩ := ih ρ hd.1
    refine ⟨if h : p < k + 2 ∧ q < k + 2 then
      (-1 : K) ^ (p + q) * (Matrix.submatrix x (Fin.succAbove ⟨p, h.1⟩) (Fin.succAbove ⟨q, h.2⟩)).det else (0 : K), fun j => ?_⟩
    simp only [Ex.den, ← hx j]
    split
    · refine ((f j).map_mul _ _).trans ?_
      rw [map_pow, map_neg, map_one, (f j).map_det]
      rfl
    · exact (f j).map_zero
  | @inv k a ih =>
    obtain ⟨x, hx⟩ := ih ρ hd.1
    have e : ∀ j, (f j) (Matrix.det x) = Matrix.det (a.den ringDiv (ρ.map (f j))) := fun j => by
      rw [← hx j]; exact (f j).map_det _
    obtain ⟨c, hc⟩ := H (Matrix.det x) (by rw [e]; exact hd.2.1)
    refine ⟨c • (Matrix.adjugate x : Matrix (Fin (k + 1)) (Fin (k + 1)) K), fun j => ?_⟩
    have e2 : (f j).mapMatrix (Matrix.adjugate x) = Matrix.adjugate ((f j).mapMatrix x) := (f j).map_adjugate x
    refine (Den.map_smul (f j) (.m (k + 1) (k + 1)) c (Matrix.adjugate x)).trans ?_
    rw [hc, e]
    simp only [Ex.den, ← hx j, Matrix.inv_def]
    exact congrArg _ e2
  | @gen n g ih =>
    choose x hx using fun i : Fin n => ih i.val ρ (hd i.val i.isLt)
    exact ⟨x, fun j => funext fun i => hx i j⟩
  | @mgen r c g ih =>
    choose x hx using fun (i : Fin r) (k : Fin c) => ih (i.val, k.val) ρ (hd i.val i.isLt k.val k.isLt)
    exact ⟨x, fun j => funext fun i => funext fun k => hx i k j⟩
  | @map r c k g a ihg iha =>
    obtain ⟨x, hx⟩ := iha ρ hd.1
    choose y hy using fun (i : Fin r) (l : Fin c) => ihg (i.val, l.val) (ρ.put .s k (x i l)) (by
      rw [Env.map_put]
      have := hd.2 i l
      rw [← hx] at this
      exact this)
    refine ⟨y, fun j => funext fun i => funext fun l => ?_⟩
    simp only [Ex.den, ← hx j]
    have := hy i l j
    rw [Env.map_put] at this
    exact this
  | @diag r c v ih =>
    obtain ⟨x, hx⟩ := ih ρ hd
    refine ⟨fun (i : Fin r) (k : Fin c) => if h : i.val = k.val then x ⟨i, Nat.lt_min.2 ⟨i.isLt, h ▸ k.isLt⟩⟩ else (0 : K), fun j => ?_⟩
    simp only [Ex.den, ← hx j]
    funext i k
    simp only [Den.map]
    split
    · rfl
    · exact (f j).map_zero
  | @row r c a i ih =>
    obtain ⟨x, hx⟩ := ih ρ hd.1
    refine ⟨if h : i < r then x ⟨i, h⟩ else (0 : Den K (.v c)), fun j => ?_⟩
    simp only [Ex.den, ← hx j]
    split
    · rfl
    · exact Den.map_zero (f j) _
  | @col r c a k ih =>
    obtain ⟨x, hx⟩ := ih ρ hd.1
    refine ⟨if h : k < c then fun i : Fin r => x i ⟨k, h⟩ else (0 : Den K (.v r)), fun j => ?_⟩
    simp only [Ex.den, ← hx j]
    split
    · rfl
    · exact Den.map_zero (f j) _

/-- The same for programs without tests. -/
theorem Act.den_lift (a : Act) (ρ : Env K) (hd : a.Defined (ρ.map (f j₀))) :
    ∃ ρ' : Env K, ∀ j, ρ'.map (f j) = a.den ringDiv (ρ.map (f j)) := by
  cases a with
  | @set τ i e =>
    obtain ⟨x, hx⟩ := Ex.den_lift f j₀ H e ρ hd
    exact ⟨ρ.put τ i x, fun j => by rw [Env.map_put, hx]; rfl⟩
  | @upd τ o i e =>
    obtain ⟨x, hx⟩ := Ex.den_lift f j₀ H e ρ hd
    cases o
    · exact ⟨ρ.put τ i (ρ τ i + x), fun j => by rw [Env.map_put, Den.map_add, hx]; rfl⟩
    · exact ⟨ρ.put τ i (ρ τ i - x), fun j => by rw [Env.map_put, Den.map_sub, hx]; rfl⟩
  | updScale τ i s =>
    obtain ⟨x, hx⟩ := Ex.den_lift f j₀ H s ρ hd
    refine ⟨ρ.put τ i ((show K from x) • ρ τ i), fun j => ?_⟩
    rw [Env.map_put, Den.map_smul, Act.den, ← hx]; rfl
  | updQuot τ i s =>
    obtain ⟨x, hx⟩ := Ex.den_lift f j₀ H (.quot (.var τ i) s) ρ ⟨trivial, hd.1, hd.2⟩
    refine ⟨ρ.put τ i x, fun j => ?_⟩
    rw [Env.map_put, hx]; rfl
  | @updMul n i e =>
    obtain ⟨x, hx⟩ := Ex.den_lift f j₀ H (.mul .rr (.var (.m n n) i) e) ρ ⟨trivial, hd⟩
    refine ⟨ρ.put (.m n n) i x, fun j => ?_⟩
    rw [Env.map_put, hx]; rfl
  | transpose n i =>
    refine ⟨ρ.put (.m n n) i (Matrix.transpose (ρ (.m n n) i)), fun j => ?_⟩
    rw [Env.map_put]; rfl
  | vset n i k e =>
    obtain ⟨x, hx⟩ := Ex.den_lift f j₀ H e ρ hd.1
    refine ⟨ρ.put (.v n) i fun l => if l.val = k then x else ρ (.v n) i l, fun j => ?_⟩
    rw [Env.map_put, Act.den, ← hx]
    congr 1
    funext l
    exact apply_ite (f j) _ _ _
  | mset r c i k l e =>
    obtain ⟨x, hx⟩ := Ex.den_lift f j₀ H e ρ hd.1
    refine ⟨ρ.put (.m r c) i fun a b => if a.val = k ∧ b.val = l then x else ρ (.m r c) i a b, fun j => ?_⟩
    refine (Env.map_put (f j) ρ (.m r c) i _).trans (congrArg (Env.put _ (.m r c) i) ?_)
    rw [← hx j]
    funext u v
    exact apply_ite (f j) _ _ _

theorem Stmt.den_lift (p : Stmt) (ρ : Env K) (hd : p.Defined (ρ.map (f j₀))) :
    ∃ ρ' : Env K, ∀ j, ρ'.map (f j) = p.den ringDiv (ρ.map (f j)) := by
  induction p generalizing ρ with
  | skip => exact ⟨ρ, fun j => rfl⟩
  | act a => exact Act.den_lift f j₀ H a ρ hd
  | seq p q ihp ihq =>
    obtain ⟨ρ1, h1⟩ := ihp ρ hd.1
    have h := hd.2
    rw [← h1 j₀] at h
    obtain ⟨ρ2, h2⟩ := ihq ρ1 h
    exact ⟨ρ2, fun j => by rw [h2, h1]; rfl⟩
  | ite => exact ⟨ρ, fun j => rfl⟩
  | loop => exact ⟨ρ, fun j => rfl⟩

omit H in
/-- If numbers invertible in one image are invertible in most images, expressions defined in that image are defined in most images. -/
theorem Ex.defined_near (H : ∀ b : K, IsUnit (f j₀ b) → ∃ c : K, ∀ j, f j c = Ring.inverse (f j b)) (F : Filter J)
    (HF : ∀ b : K, IsUnit (f j₀ b) → ∀ᶠ j in F, IsUnit (f j b)) (e : Ex τ) (ρ : Env K) (hd : e.Defined (ρ.map (f j₀))) :
    ∀ᶠ j in F, e.Defined (ρ.map (f j)) := by
  induction e generalizing ρ with
  | var | zero | one | ident => exact .of_forall fun _ => trivial
  | neg a ih | vsum a ih | msum a ih | transposed a ih | pow a _ ih | det a ih | diag a ih => exact ih ρ hd
  | bin _ _ a b iha ihb | scale a b iha ihb | dot a b iha ihb | cross a b iha ihb | mul _ a b iha ihb | mulVec _ a b iha ihb =>
    exact (iha ρ hd.1).and (ihb ρ hd.2)
  | vget a _ ih | mget a _ _ ih | cof a _ _ ih | row a _ ih | col a _ ih =>
    exact (ih ρ hd.1).mono fun j hj => ⟨hj, hd.2⟩
  | @quot τ a s iha ihs =>
    refine (iha ρ hd.1).and ((ihs ρ hd.2.1).and ?_)
    by_cases hn : τ.NonEmpty
    · obtain ⟨y, hy⟩ := Ex.den_lift f j₀ H s ρ hd.2.1
      have hu := hd.2.2 hn
      rw [← hy j₀] at hu
      refine (HF y hu).mono fun j hj _ => ?_
      rw [← hy j]; exact hj
    · exact .of_forall fun j h => absurd h hn
  | @inv k a ih =>
    obtain ⟨x, hx⟩ := Ex.den_lift f j₀ H a ρ hd.1
    have e : ∀ l (hl : l ≤ k + 1) j, (f j) (Matrix.submatrix x (Fin.castLE hl) (Fin.castLE hl)).det =
        (Matrix.submatrix (a.den ringDiv (ρ.map (f j))) (Fin.castLE hl) (Fin.castLE hl)).det := fun l hl j => by
      rw [← hx j]; exact (f j).map_det _
    have e' : ∀ j, (f j) (Matrix.det x) = Matrix.det (a.den ringDiv (ρ.map (f j))) := fun j => by
      rw [← hx j]; exact (f j).map_det _
    refine (ih ρ hd.1).and (.and ?_ ?_)
    · have := HF (Matrix.det x) (by rw [e']; exact hd.2.1)
      exact this.mono fun j hj => by rw [e'] at hj; exact hj
    · by_cases hk : 3 ≤ k
      · have h : ∀ l : Fin (k + 2), ∀ᶠ j in F,
            IsUnit (Matrix.submatrix (a.den ringDiv (ρ.map (f j))) (Fin.castLE (Nat.lt_succ_iff.1 l.isLt))
              (Fin.castLE (Nat.lt_succ_iff.1 l.isLt))).det := fun l => by
          have := HF (Matrix.submatrix x (Fin.castLE (Nat.lt_succ_iff.1 l.isLt)) (Fin.castLE (Nat.lt_succ_iff.1 l.isLt))).det
            (by rw [e]; exact hd.2.2 hk _ _)
          exact this.mono fun j hj => by rw [e] at hj; exact hj
        exact (Filter.eventually_all.2 h).mono fun j hj _ l hl => hj ⟨l, by omega⟩
      · exact .of_forall fun j h => absurd h hk
  | @gen n g ih =>
    have h := fun i : Fin n => ih i.val ρ (hd i.val i.isLt)
    exact (Filter.eventually_all.2 h).mono fun j hj i hi => hj ⟨i, hi⟩
  | @mgen r c g ih =>
    have h := fun (i : Fin r) => Filter.eventually_all.2 fun k : Fin c => ih (i.val, k.val) ρ (hd i.val i.isLt k.val k.isLt)
    exact (Filter.eventually_all.2 h).mono fun j hj i hi k hk => hj ⟨i, hi⟩ ⟨k, hk⟩
  | @map r c k g a ihg iha =>
    obtain ⟨x, hx⟩ := Ex.den_lift f j₀ H a ρ hd.1
    have h := fun (i : Fin r) => Filter.eventually_all.2 fun l : Fin c => ihg (i.val, l.val) (ρ.put .s k (x i l)) (by
      rw [Env.map_put]
      have := hd.2 i l
      rw [← hx] at this
      exact this)
    refine (iha ρ hd.1).and ((Filter.eventually_all.2 h).mono fun j hj i l => ?_)
    have := hj i l
    rw [Env.map_put] at this
    rw [← hx]
    exact this

omit H in
theorem Act.defined_near (H : ∀ b : K, IsUnit (f j₀ b) → ∃ c : K, ∀ j, f j c = Ring.inverse (f j b)) (F : Filter J)
    (HF : ∀ b : K, IsUnit (f j₀ b) → ∀ᶠ j in F, IsUnit (f j b)) (a : Act) (ρ : Env K) (hd : a.Defined (ρ.map (f j₀))) :
    ∀ᶠ j in F, a.Defined (ρ.map (f j)) := by
  cases a with
  | set i e => exact Ex.defined_near f j₀ H F HF e ρ hd
  | upd o i e => exact Ex.defined_near f j₀ H F HF e ρ hd
  | updScale τ i s => exact Ex.defined_near f j₀ H F HF s ρ hd
  | updQuot τ i s =>
    exact (Ex.defined_near f j₀ H F HF (.quot (.var τ i) s) ρ ⟨trivial, hd⟩).mono fun j hj => hj.2
  | updMul i e => exact Ex.defined_near f j₀ H F HF e ρ hd
  | transpose n i => exact .of_forall fun _ => trivial
  | vset n i k e => exact (Ex.defined_near f j₀ H F HF e ρ hd.1).mono fun j hj => ⟨hj, hd.2⟩
  | mset r c i k l e => exact (Ex.defined_near f j₀ H F HF e ρ hd.1).mono fun j hj => ⟨hj, hd.2⟩

omit H in
theorem Stmt.defined_near (H : ∀ b : K, IsUnit (f j₀ b) → ∃ c : K, ∀ j, f j c = Ring.inverse (f j b)) (F : Filter J)
    (HF : ∀ b : K, IsUnit (f j₀ b) → ∀ᶠ j in F, IsUnit (f j b)) (p : Stmt) (ρ : Env K) (hd : p.Defined (ρ.map (f j₀))) :
    ∀ᶠ j in F, p.Defined (ρ.map (f j)) := by
  induction p generalizing ρ with
  | skip => exact .of_forall fun _ => trivial
  | act a => exact Act.defined_near f j₀ H F HF a ρ hd
  | seq p q ihp ihq =>
    obtain ⟨ρ1, h1⟩ := Stmt.den_lift f j₀ H p ρ hd.1
    have h := hd.2
    rw [← h1 j₀] at h
    refine (ihp ρ hd.1).and ((ihq ρ1 h).mono fun j hj => ?_)
    rw [← h1 j]; exact hj
  | ite => exact .of_forall fun _ => trivial
  | loop => exact .of_forall fun _ => trivial

end Lift
/-! ### Two calculations side by side -/

section Pair
variable {M L ι : Type} [CommRing M] [CommRing L]

/-- The first ring and a copy of the second for every parameter. -/
def PairL (M L : Type) {ι : Type} : Option ι → Type
  | none => M
  | some _ => L

instance : ∀ j : Option ι, CommRing (PairL M L j)
  | none => inferInstanceAs (CommRing M)
  | some _ => inferInstanceAs (CommRing L)

/-- The projections of a ring of pairs. -/
def pairHom (S : Subring (M × (ι → L))) : ∀ j : Option ι, S →+* PairL M L j
  | none => (RingHom.fst M (ι → L)).comp S.subtype
  | some i => ((Pi.evalRingHom (fun _ => L) i).comp (RingHom.snd M (ι → L))).comp S.subtype

variable (S : Subring (M × (ι → L)))
  (H : ∀ b ∈ S, IsUnit b.1 → (Ring.inverse b.1, fun i => Ring.inverse (b.2 i)) ∈ S)
include H

theorem pair_H (b : S) (h : IsUnit (pairHom S none b)) :
    ∃ c : S, ∀ j, pairHom S j c = Ring.inverse (pairHom S j b) :=
  ⟨⟨_, H b.1 b.2 h⟩, fun j => match j with
    | none => rfl
    | some _ => rfl⟩

omit H in
theorem pair_env (g : Place → M × (ι → L)) (hg : ∀ q, g q ∈ S) :
    (Env.ofPlaces fun q => (⟨g q, hg q⟩ : S)).map (pairHom S none) = (Env.ofPlaces fun q => (g q).1 : Env M) ∧
    ∀ i, (Env.ofPlaces fun q => (⟨g q, hg q⟩ : S)).map (pairHom S (some i)) = (Env.ofPlaces fun q => (g q).2 i : Env L) :=
  ⟨Env.map_ofPlaces _ _, fun i => Env.map_ofPlaces _ _⟩

omit H in
theorem pair_rel (τ : Ty) (x : Den S τ) {a : Den M τ} {b : ι → Den L τ} (ha : Den.map (pairHom S none) τ x = a)
    (hb : ∀ i, Den.map (pairHom S (some i)) τ x = b i) :
    ∃ y : Den (ι → L) τ, (∀ i, Den.map (fun f => f i) τ y = b i) ∧ Den.Rel (fun u v => (u, v) ∈ S) τ a y := by
  subst ha
  refine ⟨Den.map (fun u : S => u.1.2) τ x, fun i => ?_, ?_⟩
  · rw [← hb i]
    match τ with
    | .s => rfl
    | .v _ => rfl
    | .m _ _ => rfl
  · match τ with
    | .s => exact x.2
    | .v _ => exact fun i => (x i).2
    | .m _ _ => exact fun i j => (x i j).2

/-- An expression defined in the first ring is defined for most parameters in the second, and the values are related if the numbers
they are calculated from are. -/
theorem Ex.pair (F : Filter ι) (HF : ∀ b ∈ S, IsUnit b.1 → ∀ᶠ i in F, IsUnit (b.2 i)) (e : Ex τ) (g : Place → M × (ι → L))
    (hg : ∀ q, g q ∈ S) (hd : e.Defined (Env.ofPlaces fun q => (g q).1)) :
    (∀ᶠ i in F, e.Defined (Env.ofPlaces fun q => (g q).2 i)) ∧
    ∃ y : Den (ι → L) τ, (∀ i, Den.map (fun f => f i) τ y = e.den ringDiv (Env.ofPlaces fun q => (g q).2 i)) ∧
      Den.Rel (fun u v => (u, v) ∈ S) τ (e.den ringDiv (Env.ofPlaces fun q => (g q).1)) y := by
  obtain ⟨h1, h2⟩ := pair_env S g hg
  have hd' : e.Defined ((Env.ofPlaces fun q => (⟨g q, hg q⟩ : S)).map (pairHom S none)) := by rw [h1]; exact hd
  constructor
  · have := Ex.defined_near (pairHom S) none (pair_H S H) (F.map some) (fun b hb => Filter.eventually_map.2 (HF b.1 b.2 hb)) e _ hd'
    refine (Filter.eventually_map.1 this).mono fun i hi => ?_
    rw [h2] at hi; exact hi
  · obtain ⟨x, hx⟩ := Ex.den_lift (pairHom S) none (pair_H S H) e _ hd'
    refine pair_rel S τ x ((hx none).trans ?_) fun i => (hx (some i)).trans ?_
    · rw [h1]; rfl
    · rw [h2]; rfl

/-- The same for a program without tests. -/
theorem Stmt.pair (F : Filter ι) (HF : ∀ b ∈ S, IsUnit b.1 → ∀ᶠ i in F, IsUnit (b.2 i)) (p : Stmt) (g : Place → M × (ι → L))
    (hg : ∀ q, g q ∈ S) (hd : p.Defined (Env.ofPlaces fun q => (g q).1)) :
    (∀ᶠ i in F, p.Defined (Env.ofPlaces fun q => (g q).2 i)) ∧
    ∀ τ k, ∃ y : Den (ι → L) τ, (∀ i, Den.map (fun f => f i) τ y = p.den ringDiv (Env.ofPlaces fun q => (g q).2 i) τ k) ∧
      Den.Rel (fun u v => (u, v) ∈ S) τ (p.den ringDiv (Env.ofPlaces fun q => (g q).1) τ k) y := by
  obtain ⟨h1, h2⟩ := pair_env S g hg
  have hd' : p.Defined ((Env.ofPlaces fun q => (⟨g q, hg q⟩ : S)).map (pairHom S none)) := by rw [h1]; exact hd
  constructor
  · have := Stmt.defined_near (pairHom S) none (pair_H S H) (F.map some) (fun b hb => Filter.eventually_map.2 (HF b.1 b.2 hb)) p _ hd'
    refine (Filter.eventually_map.1 this).mono fun i hi => ?_
    rw [h2] at hi; exact hi
  · obtain ⟨x, hx⟩ := Stmt.den_lift (pairHom S) none (pair_H S H) p _ hd'
    intro τ k
    refine pair_rel S τ (x τ k) ((congrFun (congrFun (hx none) τ) k).trans ?_) fun i => (congrFun (congrFun (hx (some i)) τ) k).trans ?_
    · rw [h1]; rfl
    · rw [h2]; rfl

end Pair

end Prog
end Rowcol
