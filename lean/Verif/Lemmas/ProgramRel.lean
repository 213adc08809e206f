import Verif.Lemmas.Program
import Verif.Lemmas.Param

/-! Whole programs over two element types connected by a relation. -/

namespace Rowcol
namespace Prog
variable {T U : Type} {τ : Ty} {p : Prop} {R : T → U → Prop}

/-- Values of the same shape with related elements. -/
def Val.Rel (R : T → U → Prop) : (τ : Ty) → Val T τ → Val U τ → Prop
  | .s => R
  | .v _ => VecRel R
  | .m _ _ => MatRel R

/-- Every variable holds related values. -/
def Store.Rel (R : T → U → Prop) (σ : Store T) (ρ : Store U) : Prop := ∀ τ i, Val.Rel R τ (σ τ i) (ρ τ i)

/-- The operations of the two element types preserve the relation, division by zero included; negating 1 is not an
invalid memory access. -/
structure FullRel (p : Prop) (O : Ops T) (O' : Ops U) (R : T → U → Prop) : Prop extends Ops.RelDivHom p O O' R where
  quot : ∀ {a b a' b'}, R a a' → R b b' → Rowcol.Rel p R (O.div a b) (O'.div a' b')
  safe : O.neg O.one ≠ .error .ub
  safe' : O'.neg O'.one ≠ .error .ub

/-- The same with the weaker condition on zero tests. -/
structure WeakRel (p : Prop) (O : Ops T) (O' : Ops U) (R : T → U → Prop) : Prop extends Ops.RelTestHom p O O' R where
  quot : ∀ {a b a' b'}, R a a' → R b b' → Rowcol.Rel p R (O.div a b) (O'.div a' b')
  safe : O.neg O.one ≠ .error .ub
  safe' : O'.neg O'.one ≠ .error .ub

theorem FullRel.weaken {O : Ops T} {O' : Ops U} (H : FullRel p O O' R) : WeakRel p O O' R :=
  ⟨H.toRelDivHom.weak, H.quot, H.safe, H.safe'⟩

theorem rel_put {σ : Store T} {ρ : Store U} (h : σ.Rel R ρ) (τ : Ty) (i : Nat) {x : Val T τ} {y : Val U τ}
    (hx : Val.Rel R τ x y) : (σ.put τ i x).Rel R (ρ.put τ i y) := by
  intro τ' j
  simp only [Store.put, Function.update]
  by_cases e : τ' = τ
  · subst e
    simp only [dite_true]
    by_cases hj : j = i
    · subst hj; simpa using hx
    · simpa [hj] using h τ' j
  · simpa [e] using h τ' j

section
variable {O : Ops T} {O' : Ops U} (H : Ops.RelHom p O O' R) (t t' : Target) {n r c l : Nat}
include H

theorem rel_fn (o : Bin) {a b : T} {a' b' : U} (ha : R a a') (hb : R b b') : Rowcol.Rel p R (o.fn O a b) (o.fn O' a' b') := by
  cases o
  · exact H.add ha hb
  · exact H.sub ha hb

theorem rel_bin (o : Bin) (f : Form) (τ : Ty) {a b : Val T τ} {a' b' : Val U τ} (ha : Val.Rel R τ a a') (hb : Val.Rel R τ b b') :
    Rowcol.Rel p (Val.Rel R τ) (Val.bin t O o f τ a b) (Val.bin t' O' o f τ a' b') := by
  rw [bin_eq_vv t O, bin_eq_vv t' O']
  match τ with
  | .s => exact rel_fn H o ha hb
  | .v n => exact rel_vecOp t t' (rel_fn H o) (op := Vec.opVV t (o.fn O)) (op' := Vec.opVV t' (o.fn O')) (by simp [vecForms]) (by simp [vecForms]) ha hb
  | .m r c => exact rel_matOp t t' (rel_fn H o) (op := Mat.opVV t (o.fn O)) (op' := Mat.opVV t' (o.fn O')) (by simp [matForms]) (by simp [matForms]) ha hb

theorem rel_neg (τ : Ty) {a : Val T τ} {a' : Val U τ} (ha : Val.Rel R τ a a') :
    Rowcol.Rel p (Val.Rel R τ) (Val.neg t O τ a) (Val.neg t' O' τ a') := by
  match τ with
  | .s => exact H.neg ha
  | .v n => exact rel_vecNeg t t' H.neg ha
  | .m r c => exact rel_matNeg t t' H.neg ha

theorem rel_scale (τ : Ty) {a : Val T τ} {a' : Val U τ} (ha : Val.Rel R τ a a') {s : T} {s' : U} (hs : R s s') :
    Rowcol.Rel p (Val.Rel R τ) (Val.scale t O τ a s) (Val.scale t' O' τ a' s') := by
  match τ with
  | .s => exact H.mul ha hs
  | .v n => exact rel_vecScalar t t' (fun h => H.mul h hs) ha
  | .m r c => exact rel_matScalar t t' (fun h => H.mul h hs) ha

omit H in
theorem rel_quot (hq : ∀ {a b a' b'}, R a a' → R b b' → Rowcol.Rel p R (O.div a b) (O'.div a' b')) (τ : Ty) {a : Val T τ}
    {a' : Val U τ} (ha : Val.Rel R τ a a') {s : T} {s' : U} (hs : R s s') :
    Rowcol.Rel p (Val.Rel R τ) (Val.quot t O τ a s) (Val.quot t' O' τ a' s') := by
  match τ with
  | .s => exact hq ha hs
  | .v n => exact rel_vecDivScalar t t' (fun h => hq h hs) ha
  | .m r c => exact rel_matDivScalar t t' (fun h => hq h hs) ha

theorem rel_zero (τ : Ty) : Rowcol.Rel p (Val.Rel R τ) (Val.zero t O τ) (Val.zero t' O' τ) := by
  match τ with
  | .s => exact .ok H.zero
  | .v n =>
    change Rowcol.Rel p (VecRel R) (Vec.zero t n O.zero) (Vec.zero t' n O'.zero)
    obtain ⟨⟨v, h1, h2⟩, _⟩ := C32_vec_const (n := n) t O.zero
    obtain ⟨⟨w, h3, h4⟩, _⟩ := C32_vec_const (n := n) t' O'.zero
    rw [h1, h3]
    exact .ok fun i => by rw [h2, h4]; exact H.zero
  | .m r c =>
    change Rowcol.Rel p (MatRel R) (Mat.zero t r c O.zero) (Mat.zero t' r c O'.zero)
    obtain ⟨⟨v, h1, h2⟩, _⟩ := C32_mat_const (r := r) (c := c) t O.zero
    obtain ⟨⟨w, h3, h4⟩, _⟩ := C32_mat_const (r := r) (c := c) t' O'.zero
    rw [h1, h3]
    exact .ok fun i j => by rw [h2, h4]; exact H.zero

omit H in
theorem rel_transposed (hW : t'.W = t.W) {a : Mat T r c} {a' : Mat U r c} (ha : MatRel R a a') (hc : c < t.W) :
    Rowcol.Rel p (MatRel R) (a.transposed t) (a'.transposed t') := by
  rw [transposed_eq t a hc, transposed_eq t' a' (hW ▸ hc)]
  exact .ok fun i j => by simpa [Matrix.transpose_apply] using ha j i

omit H in
theorem rel_vecIsZero (hz : ∀ {a a'}, R a a' → O'.isZero a' = O.isZero a) {a : Vec T n} {a' : Vec U n} (ha : VecRel R a a') : Vec.isZero O'.isZero a' = Vec.isZero O.isZero a := by
  rw [Vec.isZero, Vec.isZero, Vec.toList_eq a, Vec.toList_eq a', List.all_map, List.all_map]
  congr 1; funext i; exact hz (ha i)

omit H in
theorem rel_isZero (hz : ∀ {a a'}, R a a' → O'.isZero a' = O.isZero a) (τ : Ty) {a : Val T τ} {a' : Val U τ} (ha : Val.Rel R τ a a') : Val.isZero O' τ a' = Val.isZero O τ a := by
  match τ with
  | .s => exact hz ha
  | .v n => exact rel_vecIsZero hz ha
  | .m r c =>
    change Mat.isZero O'.isZero a' = Mat.isZero O.isZero a
    rw [Mat.isZero, Mat.isZero, Vec.toList_eq (Mat.rows a), Vec.toList_eq (Mat.rows a'), List.all_map, List.all_map]
    congr 1; funext i
    exact rel_vecIsZero hz (a := (Mat.rows a).get i) (a' := (Mat.rows a').get i) (fun j => ha i j)

omit H in
theorem rel_unwrap {A B : Type} {Q : A → B → Prop} {o : Option A} {o' : Option B} (h : OptRel Q o o') :
    Rowcol.Rel p Q (unwrap o : Res A) (unwrap o' : Res B) := by
  match o, o', h with
  | none, none, _ => exact .fail _
  | some x, some y, h => exact .ok h

omit H in
theorem rel_cof4 (H : Ops.RelHom p O O' R) (hW : t'.W = t.W) (k : Nat) (hk : k ≤ 2) {a : Mat T (k + 2) (k + 2)}
    {a' : Mat U (k + 2) (k + 2)} (ha : MatRel R a a') (q : Nat × Nat) (hn : k + 2 < t.W) (hp : q.1 < k + 2 ∧ q.2 < k + 2)
    (hp' : q.1 + q.2 < t.W) : Rowcol.Rel p R (a.cofactor t O k q) (a'.cofactor t' O' k q) := by
  match k, hk with
  | 0, _ => exact rel_cof_small H t t' hW 0 (by omega) ha q hn hp hp'
  | 1, _ => exact rel_cof_small H t t' hW 1 (by omega) ha q hn hp hp'
  | 2, _ => exact rel_cofGen H t t' hW (fun hb => rel_det_small H t t' 2 (by omega) hb) ha q hn hp'

/-- What is needed for an expression: the operations preserve the relation; or all but the zero test and division do, and
the expression does not divide. -/
def EvalHyp (p : Prop) (O : Ops T) (O' : Ops U) (R : T → U → Prop) (df : Prop) : Prop := WeakRel p O O' R ∨ df

omit H in
theorem EvalHyp.imp {df df' : Prop} (h : EvalHyp p O O' R df) (h2 : df → df') : EvalHyp p O O' R df' := Or.imp id h2 h

/-- Evaluation of an expression in `O` and in `O'`. -/
theorem rel_eval_gen (hu : O.neg O.one ≠ .error .ub) (hu' : O'.neg O'.one ≠ .error .ub) (hW : t'.W = t.W) {σ : Store T}
    {ρ : Store U} (hσ : σ.Rel R ρ) (e : Ex τ) (hs : e.Small t.W) (hd : EvalHyp p O O' R e.DivFree) :
    Rowcol.Rel p (Val.Rel R τ) (e.eval t O σ) (e.eval t' O' ρ) := by
  have H0 := H
  induction e generalizing σ ρ with
  | var τ i => exact .ok (hσ τ i)
  | zero τ => exact rel_zero H t t' τ
  | one => exact .ok H.one
  | ident n => exact rel_identity H0 t t' n
  | bin o f a b iha ihb =>
    exact (iha hσ hs.2.1 (hd.imp (·.2.1))).bind fun x x' hx => (ihb hσ hs.2.2 (hd.imp (·.2.2))).bind fun y y' hy => rel_bin H t t' o f _ hx hy
  | neg a iha => exact (iha hσ hs.2 (hd.imp (·.2))).bind fun x x' hx => rel_neg H t t' _ hx
  | scale a s iha ihs =>
    exact (iha hσ hs.2.1 (hd.imp (·.2.1))).bind fun x x' hx => (ihs hσ hs.2.2 (hd.imp (·.2.2))).bind fun y y' hy => rel_scale H t t' _ hx hy
  | quot a s iha ihs =>
    exact (iha hσ hs.2.1 (hd.imp (·.2.1))).bind fun x x' hx => (ihs hσ hs.2.2 (hd.imp (·.2.2))).bind fun y y' hy => rel_quot t t' (hd.elim (·.quot) fun h => absurd h.1 (by simp [Ex.DivFreeStep])) _ hx hy
  | vsum v ih => exact (ih hσ hs.2 (hd.imp (·.2))).bind fun x x' hx => rel_vecSum H0 hx
  | msum a ih => exact (ih hσ hs.2 (hd.imp (·.2))).bind fun x x' hx => rel_matSum H0 hx
  | dot a b iha ihb => exact (iha hσ hs.2.1 (hd.imp (·.2.1))).bind fun x x' hx => (ihb hσ hs.2.2 (hd.imp (·.2.2))).bind fun y y' hy => rel_dot H0 hx hy
  | cross a b iha ihb =>
    exact (iha hσ hs.2.1 (hd.imp (·.2.1))).bind fun x x' hx => (ihb hσ hs.2.2 (hd.imp (·.2.2))).bind fun y y' hy => rel_cross H0 t t' hx hy
  | vget v i ih => exact (ih hσ hs.2 (hd.imp (·.2))).bind fun x x' hx => rel_vecIndex hx i
  | mget a i j ih => exact (ih hσ hs.2 (hd.imp (·.2))).bind fun x x' hx => rel_index hx (i, j)
  | mul f a b iha ihb =>
    have ha := hs.2.1.ty
    have hb := hs.2.2.ty
    simp only [Ty.Small] at ha hb
    refine (iha hσ hs.2.1 (hd.imp (·.2.1))).bind fun x x' hx => (ihb hσ hs.2.2 (hd.imp (·.2.2))).bind fun y y' hy => ?_
    rw [mul_eq_vv t O f x y (by omega) (by omega) (by omega),
      mul_eq_vv t' O' f _ _ (by omega) (by omega) (by omega)]
    exact rel_mul H0 t t' hW (by simp [mulForms]) (by simp [mulForms]) hx hy (by omega) (by omega) (by omega)
  | mulVec b a v iha ihv =>
    have ha := hs.2.1.ty
    simp only [Ty.Small] at ha
    refine (iha hσ hs.2.1 (hd.imp (·.2.1))).bind fun x x' hx => (ihv hσ hs.2.2 (hd.imp (·.2.2))).bind fun y y' hy => ?_
    cases b
    · exact rel_mulVec H0 t t' hW hx hy (by omega)
    · exact rel_mulVecRef H0 t t' hx hy
  | transposed a ih =>
    have ha := hs.2.ty
    simp only [Ty.Small] at ha
    exact (ih hσ hs.2 (hd.imp (·.2))).bind fun x x' hx => rel_transposed t t' hW hx (by omega)
  | pow a k ih =>
    have ha := hs.2.ty
    simp only [Ty.Small] at ha
    exact (ih hσ hs.2 (hd.imp (·.2))).bind fun x x' hx => rel_pow H0 t t' hW hx k (by omega)
  | @det k a ih =>
    have ha := hs.2.ty
    simp only [Ty.Small] at ha
    refine (ih hσ hs.2 (hd.imp (·.2))).bind fun x x' hx => ?_
    rcases hd with hd | hd
    · exact rel_det hd.toRelTestHom t t' hW k hx (by omega)
    · exact rel_det_small H t t' k hd.1 hx
  | @cof k a i j ih =>
    have ha := hs.2.ty
    have hij := hs.1
    simp only [Ty.Small] at ha
    simp only [Ex.SmallStep] at hij
    refine (ih hσ hs.2 (hd.imp (·.2))).bind fun x x' hx => ?_
    by_cases hr : i < k + 2 ∧ j < k + 2
    · rcases hd with hd | hd
      · exact rel_cof hd.toRelTestHom t t' hW k hx (i, j) (by omega) hr (by simp; omega)
      · exact rel_cof4 t t' H hW k hd.1 hx (i, j) (by omega) hr (by simp; omega)
    · rw [C54_out_of_range t O k x i j hij.1 hij.2 (by omega) hu,
        C54_out_of_range t' O' k x' i j (hW ▸ hij.1) (hW ▸ hij.2) (by omega) hu']
      exact .fail _
  | @inv k a ih => 
    rcases hd with hd | hd
    · exact (ih hσ hs.2 (.inl hd)).bind fun x x' hx => (rel_inverse hd.toRelTestHom t t' k hx).bind fun o o' ho => rel_unwrap ho
    · exact absurd hd.1 (by simp [Ex.DivFreeStep])
  | @gen n f ih =>
    rw [Ex.eval, Ex.eval, generate_fin, generate_fin]
    exact rel_collect t t' _ _ fun i => ih i hσ (hs.2 i i.isLt) (hd.imp (·.2 i i.isLt))
  | @mgen r c f ih =>
    rw [Ex.eval, Ex.eval, matGenerate_fin, matGenerate_fin]
    exact rel_matCollect t t' _ _ fun i j => ih (i, j) hσ (hs.2 i i.isLt j j.isLt) (hd.imp (·.2 i i.isLt j j.isLt))
  | @map r c k f a ihf iha =>
    refine (iha hσ hs.2.1 (hd.imp (·.2.1))).bind fun x x' hx => ?_
    rw [map_fin, map_fin]
    exact rel_matCollect t t' _ _ fun i j => ihf (i, j) (rel_put hσ .s k (hx i j)) (hs.2.2 i i.isLt j j.isLt) (hd.imp (·.2.2 i i.isLt j j.isLt))
  | @diag r c v ih =>
    refine (ih hσ hs.2 (hd.imp (·.2))).bind fun x x' hx => ?_
    rw [diag_fin, diag_fin]
    refine .ok fun i j => ?_
    simp only [Mat.get_ofFn]
    split
    · exact hx _
    · exact H.zero
  | @row r c a i ih =>
    have ha := hs.2.ty
    have hi := hs.1.2
    simp only [Ty.Small] at ha
    refine (ih hσ hs.2 (hd.imp (·.2))).bind fun x x' hx => ?_
    rw [row_nth t x i hi (by omega), row_nth t' x' i (by omega) (by omega)]
    split
    · exact .ok fun j => hx _ j
    · exact .fail _
  | @col r c a j ih =>
    have ha := hs.2.ty
    have hj := hs.1.2
    simp only [Ty.Small] at ha
    refine (ih hσ hs.2 (hd.imp (·.2))).bind fun x x' hx => ?_
    rw [col_nth t x j hj (by omega), col_nth t' x' j (by omega) (by omega)]
    split
    · exact .ok fun i => by rw [Vec.get_ofFn, Vec.get_ofFn]; exact hx i _
    · exact .fail _

omit H in
/-- Evaluation of an expression in `O` and in `O'`. -/
theorem rel_eval (H : FullRel p O O' R) (t t' : Target) (hW : t'.W = t.W) {σ : Store T} {ρ : Store U} (hσ : σ.Rel R ρ) (e : Ex τ)
    (hs : e.Small t.W) : Rowcol.Rel p (Val.Rel R τ) (e.eval t O σ) (e.eval t' O' ρ) :=
  rel_eval_gen H.toRelHom t t' H.safe H.safe' hW hσ e hs (.inl H.weaken)

omit H in
theorem rel_putM {σ : Store T} {ρ : Store U} (hσ : σ.Rel R ρ) (τ : Ty) (i : Nat) {x : Res (Val T τ)} {y : Res (Val U τ)}
    (h : Rowcol.Rel p (Val.Rel R τ) x y) :
    Rowcol.Rel p (Store.Rel R) (do let w ← x; pure (σ.put τ i w)) (do let w ← y; pure (ρ.put τ i w)) :=
  h.bind fun _ _ hw => .ok (rel_put hσ τ i hw)

omit H in
theorem rel_vecIndexSet {v : Vec T n} {v' : Vec U n} (hv : VecRel R v v') (k : Nat) {x : T} {x' : U} (hx : R x x') :
    Rowcol.Rel p (VecRel R) (v.indexSet k x) (v'.indexSet k x') := by
  by_cases h : k < n
  · rw [Vec.indexSet_ok _ h, Vec.indexSet_ok _ h]
    refine .ok fun i => ?_
    rw [Vec.get_put, Vec.get_put]
    split
    · exact hx
    · exact hv i
  · rw [Vec.indexSet_panic _ (by omega), Vec.indexSet_panic _ (by omega)]; exact .fail _

/-- A statement in `O` and in `O'`. -/
theorem rel_exec_gen (hu : O.neg O.one ≠ .error .ub) (hu' : O'.neg O'.one ≠ .error .ub) (hW : t'.W = t.W) {σ : Store T}
    {ρ : Store U} (hσ : σ.Rel R ρ) (a : Act) (hs : a.Small t.W) (hd : EvalHyp p O O' R a.DivFree) :
    Rowcol.Rel p (Store.Rel R) (a.exec t O σ) (a.exec t' O' ρ) := by
  have H0 := H
  cases a with
  | set i e => exact rel_putM hσ _ i (rel_eval_gen H t t' hu hu' hW hσ e hs.2 hd)
  | upd o i e =>
    refine (rel_eval_gen H t t' hu hu' hW hσ e hs.2 hd).bind fun x x' hx => ?_
    rw [after_upd t, after_upd t']
    exact rel_putM hσ _ i (rel_bin H t t' o .vv _ (hσ _ _) hx)
  | updScale τ i s =>
    refine (rel_eval_gen H t t' hu hu' hW hσ s hs.2 hd).bind fun x x' hx => ?_
    rw [after_updScale t, after_updScale t']
    exact rel_putM hσ _ i (rel_scale H t t' _ (hσ _ _) hx)
  | updQuot τ i s =>
    have hq : ∀ {a b a' b'}, R a a' → R b b' → Rowcol.Rel p R (O.div a b) (O'.div a' b') :=
      hd.elim (·.quot) fun h => False.elim h
    refine (rel_eval_gen H t t' hu hu' hW hσ s hs.2 (hd.imp False.elim)).bind fun x x' hx => ?_
    rw [after_updQuot t, after_updQuot t']
    exact rel_putM hσ _ i (rel_quot t t' hq _ (hσ _ _) hx)
  | @updMul n i e =>
    have h2 := hs.1
    refine (rel_eval_gen H t t' hu hu' hW hσ e hs.2 hd).bind fun x x' hx => ?_
    rw [after_updMul t, after_updMul t']
    exact rel_putM hσ (.m n n) i (rel_mul H0 t t' hW (by simp [mulForms]) (by simp [mulForms]) (hσ (.m n n) i) hx
      (by omega) (by omega) (by omega))
  | transpose n i =>
    simp only [Act.Small] at hs
    simp only [Act.exec]
    rw [after_transpose t, after_transpose t']
    exact rel_putM hσ (.m n n) i (rel_transposed t t' hW (hσ (.m n n) i) (by omega))
  | vset n i k e =>
    exact (rel_eval_gen H t t' hu hu' hW hσ e hs.2 hd).bind fun x x' hx => rel_putM hσ (.v n) i (rel_vecIndexSet (hσ (.v n) i) k hx)
  | mset r c i k l e =>
    exact (rel_eval_gen H t t' hu hu' hW hσ e hs.2.2 hd).bind fun x x' hx => rel_putM hσ (.m r c) i (rel_indexSet (hσ (.m r c) i) (k, l) hx)

omit H in
/-- A statement in `O` and in `O'`. -/
theorem rel_exec (H : FullRel p O O' R) (t t' : Target) (hW : t'.W = t.W) {σ : Store T} {ρ : Store U} (hσ : σ.Rel R ρ) (a : Act)
    (hs : a.Small t.W) : Rowcol.Rel p (Store.Rel R) (a.exec t O σ) (a.exec t' O' ρ) :=
  rel_exec_gen H.toRelHom t t' H.safe H.safe' hW hσ a hs (.inl H.weaken)

end

/-- Every run in `O` has a corresponding run in `O'`. -/
theorem rel_run {O : Ops T} {O' : Ops U} (H : FullRel False O O' R) (t t' : Target) (hW : t'.W = t.W) (q : Stmt)
    (hs : q.Small t.W) (σ : Store T) (ρ : Store U) (hσ : σ.Rel R ρ) (x : Res (Store T)) (h : Run t O q σ x) :
    ∃ y, Run t' O' q ρ y ∧ Rowcol.Rel False (Store.Rel R) x y := by
  have nf : ∀ {A B : Type} {Q : A → B → Prop} {e : Fault} {y : Res B}, Rowcol.Rel False Q (.error e : Res A) y → y = .error e := by
    intro A B Q e y h
    rcases h with ⟨_, _, h, _⟩ | ⟨e', h, h' | h'⟩
    · cases h
    · exact h'.elim
    · cases h; exact h'
  induction h generalizing ρ with
  | skip σ => exact ⟨_, .skip _, .ok hσ⟩
  | act a σ => exact ⟨_, .act a ρ, rel_exec H t t' hW hσ a hs⟩
  | seq _ _ ih1 ih2 =>
    obtain ⟨y, h1, h2⟩ := ih1 hs.1 ρ hσ
    obtain ⟨ρ', rfl, h3⟩ := h2.ok_left rfl
    obtain ⟨z, h4, h5⟩ := ih2 hs.2 ρ' h3
    exact ⟨z, .seq h1 h4, h5⟩
  | seqFault _ ih =>
    obtain ⟨y, h1, h2⟩ := ih hs.1 ρ hσ
    cases nf h2
    exact ⟨_, .seqFault h1, .fail _⟩
  | @iteZero τ e p q σ v x he hv _ ih =>
    obtain ⟨w, h1, h2⟩ := (rel_eval H t t' hW hσ e hs.1).ok_left he
    obtain ⟨y, h3, h4⟩ := ih hs.2.1 ρ hσ
    exact ⟨y, .iteZero h1 (by rw [rel_isZero H.isZero τ h2, hv]) h3, h4⟩
  | @iteElse τ e p q σ v x he hv _ ih =>
    obtain ⟨w, h1, h2⟩ := (rel_eval H t t' hW hσ e hs.1).ok_left he
    obtain ⟨y, h3, h4⟩ := ih hs.2.2 ρ hσ
    exact ⟨y, .iteElse h1 (by rw [rel_isZero H.isZero τ h2, hv]) h3, h4⟩
  | @iteFault τ e p q σ f he =>
    have h := rel_eval H t t' hW hσ e hs.1
    rw [he] at h
    exact ⟨_, .iteFault (nf h), .fail _⟩
  | @loopGo τ b e p σ v σ' x he hv _ _ ih1 ih2 =>
    obtain ⟨w, h1, h2⟩ := (rel_eval H t t' hW hσ e hs.1).ok_left he
    obtain ⟨y, h3, h4⟩ := ih1 hs.2 ρ hσ
    obtain ⟨ρ', rfl, h5⟩ := h4.ok_left rfl
    obtain ⟨z, h6, h7⟩ := ih2 hs ρ' h5
    exact ⟨z, .loopGo h1 (by rw [rel_isZero H.isZero τ h2, hv]) h3 h6, h7⟩
  | @loopBody τ b e p σ v f he hv _ ih =>
    obtain ⟨w, h1, h2⟩ := (rel_eval H t t' hW hσ e hs.1).ok_left he
    obtain ⟨y, h3, h4⟩ := ih hs.2 ρ hσ
    cases nf h4
    exact ⟨_, .loopBody h1 (by rw [rel_isZero H.isZero τ h2, hv]) h3, .fail _⟩
  | @loopEnd τ b e p σ v he hv =>
    obtain ⟨w, h1, h2⟩ := (rel_eval H t t' hW hσ e hs.1).ok_left he
    exact ⟨_, .loopEnd h1 (by rw [rel_isZero H.isZero τ h2, hv]), .ok hσ⟩
  | @loopFault τ b e p σ f he =>
    have h := rel_eval H t t' hW hσ e hs.1
    rw [he] at h
    exact ⟨_, .loopFault (nf h), .fail _⟩

end Prog
end Rowcol
