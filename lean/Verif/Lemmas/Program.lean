import Verif.ProgSpec
import Verif.Props.Misc
import Verif.Props.Builds
import Verif.Props.Wrap

/-! Whole programs: transport of program runs along maps between element types, and runs with exact numbers. -/

namespace Rowcol
namespace Prog
variable {T U K : Type} {τ : Ty}

/-! ### Mapping values and stores -/

/-- Apply a function to every element. -/
def Val.map (φ : T → U) : (τ : Ty) → Val T τ → Val U τ
  | .s, a => φ a
  | .v _, a => Vec.mapV φ a
  | .m _ _, a => Mat.mapV φ a

/-- Apply a function to every element of every variable. -/
def Store.map (φ : T → U) (σ : Store T) : Store U := fun τ i => Val.map φ τ (σ τ i)

theorem Store.map_put (φ : T → U) (σ : Store T) (τ : Ty) (i : Nat) (x : Val T τ) :
    (σ.put τ i x).map φ = (σ.map φ).put τ i (Val.map φ τ x) := by
  funext τ' j
  simp only [Store.map, Store.put, Function.update]
  by_cases h : τ' = τ
  · subst h
    simp only [dite_true]
    by_cases hj : j = i
    · subst hj; simp
    · simp [hj, Store.map]
  · simp [h, Store.map]

/-! ### Transport -/

section Sim
variable {O : Ops T} {O' : Ops U} {φ : T → U} (H : O.Hom O' φ) (t t' : Target) {n r c l : Nat}

/-- Division, too, panics or agrees, for every divisor. -/
def FullHom (O : Ops T) (O' : Ops U) (φ : T → U) : Prop :=
  O.DivHom O' φ ∧ ∀ a b, ExactOrPanic φ (O.div a b) (O'.div (φ a) (φ b))

theorem sim_vecDivScalar {f : T → T → Res T} {g : U → U → Res U} {s : T}
    (h : ∀ a, ExactOrPanic φ (f a s) (g (φ a) (φ s))) (a : Vec T n) :
    ExactOrPanic (Vec.mapV φ) (a.divScalar t f s) ((a.mapV φ).divScalar t' g (φ s)) := by
  rw [Vec.divScalar, Vec.divScalar, Vec.toList_eq a, Vec.toList_eq (a.mapV φ), List.map_map, List.map_map]
  exact Vec.collect_sim t t' φ _ _ fun i => by simp only [Function.comp_def, Vec.get_mapV]; exact h _

include H in
theorem sim_fn (o : Bin) (a b : T) : ExactOrPanic φ (o.fn O a b) (o.fn O' (φ a) (φ b)) := by
  cases o
  · exact H.add a b
  · exact H.sub a b

theorem bin_eq_vv (O : Ops T) (o : Bin) (f : Form) (τ : Ty) (a b : Val T τ) :
    Val.bin t O o f τ a b = Val.bin t O o .vv τ a b := by
  match τ with
  | .s => cases f <;> rfl
  | .v n =>
    cases f
    · rfl
    · exact C18_vec_forms_agree t (o.fn O) (Vec.opVR t (o.fn O)) (Vec.opVV t (o.fn O)) (by simp [vecForms]) (by simp [vecForms]) a b
    · exact C18_vec_forms_agree t (o.fn O) (Vec.opRV t (o.fn O)) (Vec.opVV t (o.fn O)) (by simp [vecForms]) (by simp [vecForms]) a b
    · exact C18_vec_forms_agree t (o.fn O) (Vec.opRR t (o.fn O)) (Vec.opVV t (o.fn O)) (by simp [vecForms]) (by simp [vecForms]) a b
  | .m r c =>
    cases f
    · rfl
    · exact C18_mat_forms_agree t (o.fn O) (Mat.opVR t (o.fn O)) (Mat.opVV t (o.fn O)) (by simp [matForms]) (by simp [matForms]) a b
    · exact C18_mat_forms_agree t (o.fn O) (Mat.opRV t (o.fn O)) (Mat.opVV t (o.fn O)) (by simp [matForms]) (by simp [matForms]) a b
    · exact C18_mat_forms_agree t (o.fn O) (Mat.opRR t (o.fn O)) (Mat.opVV t (o.fn O)) (by simp [matForms]) (by simp [matForms]) a b

theorem mul_eq_vv (O : Ops T) (f : Form) (a : Mat T l n) (b : Mat T n c) (hl : l < t.W) (hn : n < t.W) (hc : c < t.W) :
    f.mul t O a b = a.mulVV t O b := by
  refine C41_forms_agree t O (f.mul t O) (Mat.mulVV t O) ?_ (by simp [mulForms]) a b hl hn hc
  cases f <;> simp [mulForms, Form.mul]

include H in
theorem sim_bin (o : Bin) (f : Form) (τ : Ty) (a b : Val T τ) :
    ExactOrPanic (Val.map φ τ) (Val.bin t O o f τ a b) (Val.bin t' O' o f τ (Val.map φ τ a) (Val.map φ τ b)) := by
  rw [bin_eq_vv t O, bin_eq_vv t' O']
  match τ with
  | .s => exact sim_fn H o a b
  | .v n => exact sim_vecOp t t' (sim_fn H o) a b
  | .m r c => exact sim_matOp t t' (sim_fn H o) a b

include H in
theorem sim_neg (τ : Ty) (a : Val T τ) :
    ExactOrPanic (Val.map φ τ) (Val.neg t O τ a) (Val.neg t' O' τ (Val.map φ τ a)) := by
  match τ with
  | .s => exact H.neg a
  | .v n => exact sim_vecNeg t t' H.neg a
  | .m r c => exact sim_matNeg t t' H.neg a

include H in
theorem sim_scale (τ : Ty) (a : Val T τ) (s : T) :
    ExactOrPanic (Val.map φ τ) (Val.scale t O τ a s) (Val.scale t' O' τ (Val.map φ τ a) (φ s)) := by
  match τ with
  | .s => exact H.mul a s
  | .v n => exact sim_vecScalar t t' (fun x => H.mul x s) a
  | .m r c => exact sim_matScalar t t' (fun x => H.mul x s) a

theorem sim_quot (hd : ∀ a b, ExactOrPanic φ (O.div a b) (O'.div (φ a) (φ b))) (τ : Ty) (a : Val T τ) (s : T) :
    ExactOrPanic (Val.map φ τ) (Val.quot t O τ a s) (Val.quot t' O' τ (Val.map φ τ a) (φ s)) := by
  match τ with
  | .s => exact hd a s
  | .v n => exact sim_vecDivScalar t t' (fun x => hd x s) a
  | .m r c => exact sim_matDivScalar t t' (fun x => hd x s) a

include H in
theorem sim_zero (τ : Ty) : ExactOrPanic (Val.map φ τ) (Val.zero t O τ) (Val.zero t' O' τ) := by
  match τ with
  | .s => exact .ok' H.zero
  | .v n =>
    change ExactOrPanic (Vec.mapV φ) (Vec.zero t n O.zero) (Vec.zero t' n O'.zero)
    obtain ⟨⟨v, h1, h2⟩, _⟩ := C32_vec_const (n := n) t O.zero
    obtain ⟨⟨w, h3, h4⟩, _⟩ := C32_vec_const (n := n) t' O'.zero
    rw [h1, h3]
    exact .ok' (Vec.ext_get fun i => by simp [h2, h4, H.zero])
  | .m r c =>
    change ExactOrPanic (Mat.mapV φ) (Mat.zero t r c O.zero) (Mat.zero t' r c O'.zero)
    obtain ⟨⟨v, h1, h2⟩, _⟩ := C32_mat_const (r := r) (c := c) t O.zero
    obtain ⟨⟨w, h3, h4⟩, _⟩ := C32_mat_const (r := r) (c := c) t' O'.zero
    rw [h1, h3]
    exact .ok' (Mat.ext_get fun i j => by simp [h2, h4, H.zero])

theorem sim_transposed (hW : t'.W = t.W) (a : Mat T r c) (hc : c < t.W) :
    ExactOrPanic (Mat.mapV φ) (a.transposed t) ((a.mapV φ).transposed t') := by
  rw [transposed_eq t a hc, transposed_eq t' (a.mapV φ) (hW ▸ hc)]
  exact .ok' (Mat.ext_get fun i j => by simp [Matrix.transpose_apply])

theorem sim_isZero (hz : ∀ a, O'.isZero (φ a) = O.isZero a) (τ : Ty) (a : Val T τ) :
    Val.isZero O' τ (Val.map φ τ a) = Val.isZero O τ a := by
  match τ with
  | .s => exact hz a
  | .v n =>
    change Vec.isZero O'.isZero (Vec.mapV φ a) = Vec.isZero O.isZero a
    rw [Vec.isZero, Vec.isZero, Vec.mapV, List.all_map]
    congr 1; funext x; exact hz x
  | .m r c =>
    change Mat.isZero O'.isZero (Mat.mapV φ a) = Mat.isZero O.isZero a
    rw [Mat.isZero, Mat.isZero, Mat.mapV, Vec.mapV, List.all_map]
    congr 1; funext x
    simp only [Function.comp_def, Vec.mapV, List.all_map]
    congr 1; funext y; exact hz y

theorem sim_unwrap {A B : Type} {ψ : A → B} (o : Option A) :
    ExactOrPanic ψ (unwrap o : Res A) (unwrap (o.map ψ) : Res B) := by
  cases o with
  | none => exact .panic _
  | some x => exact .ok x

/-! ### Generating, mapping, rows and columns -/

theorem generate_fin (f : Nat → Res T) :
    Vec.generate t n f = Vec.collect t n ((List.finRange n).map fun i => f i.val) := by
  rw [Vec.generate, Vec.range_eq, List.map_map]; rfl

theorem matGenerate_fin (f : Nat × Nat → Res T) :
    Mat.generate t r c f = (do
      let v ← Vec.collect t r ((List.finRange r).map fun i => Vec.collect t c ((List.finRange c).map fun j => f (i.val, j.val)))
      pure (⟨v⟩ : Mat T r c)) := by
  simp only [Mat.generate, generate_fin]
  rw [Vec.range_eq, List.map_map]; rfl

theorem map_fin (f : Nat × Nat → T → Res U) (a : Mat T r c) :
    a.map t f = (do
      let v ← Vec.collect t r ((List.finRange r).map fun i =>
        Vec.collect t c ((List.finRange c).map fun j => f (i.val, j.val) (a.get i j)))
      pure (⟨v⟩ : Mat U r c)) := by
  unfold Mat.map
  rw [Vec.zipIdx_eq a.rows, List.map_map]
  simp only [Function.comp_def, Vec.zipIdx_eq, List.map_map]
  rfl

theorem diag_fin (z : T) (v : Vec T (Nat.min r c)) : (Mat.diag t z v).1 = .ok (Mat.ofFn fun (i : Fin r) (j : Fin c) =>
    if h : i.val = j.val then v.get ⟨i, Nat.lt_min.2 ⟨i.isLt, h ▸ j.isLt⟩⟩ else z) := by
  obtain ⟨a, h, h1, h2⟩ := C36_diag t z v
  rw [h]
  refine congrArg Except.ok (Mat.ext_get fun i j => ?_)
  rw [Mat.get_ofFn]
  split
  · exact h2 i j ‹_›
  · exact h1 i j ‹_›

theorem row_nth (a : Mat T r c) (i : Nat) (hi : i < t.W) (hr : r < t.W) :
    (do let o ← RowsIter.nth t a.rows i (RowsIter.new a.rows); unwrap o.1) =
      if h : i < r then (.ok (a.rows.get ⟨i, h⟩) : Res (Vec T c)) else .error .panic := by
  by_cases h : i < r
  · simp [RowsIter.nth, RowsIter.new, RowsIter.next, uadd_ok t (show 0 + i < t.W by omega), uadd_ok t (show i + 1 < t.W by omega),
      h, Vec.index_ok a.rows h, unwrap]
  · simp [RowsIter.nth, RowsIter.new, RowsIter.next, uadd_ok t (show 0 + i < t.W by omega), h, unwrap, fault]

theorem col_nth (a : Mat T r c) (j : Nat) (hj : j < t.W) (hc : c < t.W) :
    (do let o ← ColsIter.nth t a.rows j (ColsIter.new a.rows); unwrap o.1) =
      if h : j < c then (.ok (Vec.ofFn fun i => a.get i ⟨j, h⟩) : Res (Vec T r)) else .error .panic := by
  by_cases h : j < c
  · simp only [dif_pos h]
    rw [show (Vec.ofFn fun i => a.get i ⟨j, h⟩) = colVec a.rows ⟨j, h⟩ from
      Vec.ext_get fun i => by rw [Vec.get_ofFn]; simp [colVec, colList, Vec.get, Mat.get]]
    simp [ColsIter.nth, ColsIter.new, ColsIter.next, uadd_ok t (show 0 + j < t.W by omega), uadd_ok t (show j + 1 < t.W by omega),
      h, ColsIter.column_ok t a.rows h, unwrap, debugAssert]
  · simp [ColsIter.nth, ColsIter.new, ColsIter.next, uadd_ok t (show 0 + j < t.W by omega), h, unwrap, debugAssert, fault]

theorem Ex.Every.head {P : ∀ τ, Ex τ → Prop} {e : Ex τ} (h : e.Every P) : P τ e := by
  cases e <;> first | exact h | exact h.1

theorem Ex.Every.ty {e : Ex τ} {W : Nat} (h : e.Every (Ex.SmallStep W)) : τ.Small W := by
  have := h.head
  cases e <;> first | exact this | exact this.1 | trivial

include H in
/-- Evaluation of an expression in `O` panics or agrees with its evaluation in `O'`. -/
theorem sim_eval (hW : t'.W = t.W) (σ : Store T) (e : Ex τ) (hs : e.Small t.W) (hd : e.DivFree ∨ FullHom O O' φ) :
    ExactOrPanic (Val.map φ τ) (e.eval t O σ) (e.eval t' O' (σ.map φ)) := by
  induction e generalizing σ with
  | var τ i => exact .ok _
  | zero τ => exact sim_zero H t t' τ
  | one => exact .ok' H.one
  | ident n => exact sim_identity H t t' n
  | bin o f a b iha ihb =>
    exact (iha σ hs.2.1 (hd.imp (·.2.1) id)).bind fun x => (ihb σ hs.2.2 (hd.imp (·.2.2) id)).bind fun y =>
      sim_bin H t t' o f _ x y
  | neg a iha => exact (iha σ hs.2 (hd.imp (·.2) id)).bind fun x => sim_neg H t t' _ x
  | scale a s iha ihs =>
    exact (iha σ hs.2.1 (hd.imp (·.2.1) id)).bind fun x => (ihs σ hs.2.2 (hd.imp (·.2.2) id)).bind fun y =>
      sim_scale H t t' _ x y
  | quot a s iha ihs =>
    rcases hd with hd | hd
    · exact absurd hd.1 (by simp [Ex.DivFreeStep])
    · exact (iha σ hs.2.1 (.inr hd)).bind fun x => (ihs σ hs.2.2 (.inr hd)).bind fun y => sim_quot t t' hd.2 _ x y
  | vsum v ih => exact (ih σ hs.2 (hd.imp (·.2) id)).bind fun x => sim_vecSum H x
  | msum a ih => exact (ih σ hs.2 (hd.imp (·.2) id)).bind fun x => sim_matSum H x
  | dot a b iha ihb =>
    exact (iha σ hs.2.1 (hd.imp (·.2.1) id)).bind fun x => (ihb σ hs.2.2 (hd.imp (·.2.2) id)).bind fun y => sim_dot H x y
  | cross a b iha ihb =>
    exact (iha σ hs.2.1 (hd.imp (·.2.1) id)).bind fun x => (ihb σ hs.2.2 (hd.imp (·.2.2) id)).bind fun y =>
      sim_cross H t t' x y
  | vget v i ih => exact (ih σ hs.2 (hd.imp (·.2) id)).bind fun x => Vec.index_mapV φ x i
  | mget a i j ih => exact (ih σ hs.2 (hd.imp (·.2) id)).bind fun x => Mat.index_mapV φ x (i, j)
  | mul f a b iha ihb =>
    have ha := hs.2.1.ty
    have hb := hs.2.2.ty
    simp only [Ty.Small] at ha hb
    refine (iha σ hs.2.1 (hd.imp (·.2.1) id)).bind fun x => (ihb σ hs.2.2 (hd.imp (·.2.2) id)).bind fun y => ?_
    rw [mul_eq_vv t O f x y (by omega) (by omega) (by omega),
      mul_eq_vv t' O' f _ _ (by omega) (by omega) (by omega)]
    exact sim_mul H t t' hW x y (by omega) (by omega) (by omega)
  | mulVec b a v iha ihv =>
    have ha := hs.2.1.ty
    simp only [Ty.Small] at ha
    refine (iha σ hs.2.1 (hd.imp (·.2.1) id)).bind fun x => (ihv σ hs.2.2 (hd.imp (·.2.2) id)).bind fun y => ?_
    cases b
    · exact sim_mulVec H t t' hW x y (by omega)
    · exact sim_mulVecRef H t t' x y
  | transposed a ih =>
    have ha := hs.2.ty
    simp only [Ty.Small] at ha
    exact (ih σ hs.2 (hd.imp (·.2) id)).bind fun x => sim_transposed t t' hW x (by omega)
  | pow a k ih =>
    have ha := hs.2.ty
    simp only [Ty.Small] at ha
    exact (ih σ hs.2 (hd.imp (·.2) id)).bind fun x => sim_pow H t t' hW x k (by omega)
  | @det k a ih =>
    have ha := hs.2.ty
    simp only [Ty.Small] at ha
    refine (ih σ hs.2 (hd.imp (·.2) id)).bind fun x => ?_
    rcases hd with hd | hd
    · exact sim_det_small H t t' k hd.1 x
    · exact sim_det hd.1 t t' hW k x (by omega)
  | @cof k a i j ih =>
    have ha := hs.2.ty
    have hij := hs.1
    simp only [Ty.Small] at ha
    simp only [Ex.SmallStep] at hij
    refine (ih σ hs.2 (hd.imp (·.2) id)).bind fun x => ?_
    by_cases hr : i < k + 2 ∧ j < k + 2
    · rcases hd with hd | hd
      · have hk : k ≤ 2 := hd.1
        match k, hk with
        | 0, _ => exact sim_cof_small H t t' hW 0 (by omega) x (i, j) (by omega) hr (by simp; omega)
        | 1, _ => exact sim_cof_small H t t' hW 1 (by omega) x (i, j) (by omega) hr (by simp; omega)
        | 2, _ => exact sim_cofGen H t t' hW (fun b => sim_det_small H t t' 2 (by omega) b) x (i, j) (by omega) (by simp; omega)
      · exact sim_cof hd.1 t t' hW k x (i, j) (by omega) hr (by simp; omega)
    · refine .inl (C54_out_of_range t O k x i j hij.1 hij.2 (by omega) ?_)
      rcases H.neg O.one with h | ⟨b, h, _⟩ <;> rw [h] <;> simp
  | @inv k a ih =>
    rcases hd with hd | hd
    · exact absurd hd.1 (by simp [Ex.DivFreeStep])
    · exact (ih σ hs.2 (.inr hd)).bind fun x => (sim_inverse hd.1 t t' k x).bind fun o => sim_unwrap o
  | @gen n f ih =>
    rw [Ex.eval, Ex.eval, generate_fin, generate_fin]
    exact Vec.collect_sim t t' φ _ _ fun i => ih i σ (hs.2 i i.isLt) (hd.imp (·.2 i i.isLt) id)
  | @mgen r c f ih =>
    rw [Ex.eval, Ex.eval, matGenerate_fin, matGenerate_fin]
    exact Mat.collect_sim t t' φ _ _ fun i j =>
      ih (i, j) σ (hs.2 i i.isLt j j.isLt) (hd.imp (·.2 i i.isLt j j.isLt) id)
  | @map r c k f a ihf iha =>
    refine (iha σ hs.2.1 (hd.imp (·.2.1) id)).bind fun x => ?_
    simp only [map_fin]
    refine Mat.collect_sim t t' φ _ _ fun i j => ?_
    have h := ihf (i, j) (σ.put .s k (x.get i j)) (hs.2.2 i i.isLt j j.isLt) (hd.imp (·.2.2 i i.isLt j j.isLt) id)
    rw [Store.map_put] at h
    rw [show (Val.map φ (.m r c) x) = Mat.mapV φ x from rfl, Mat.get_mapV]
    exact h
  | @diag r c v ih =>
    refine (ih σ hs.2 (hd.imp (·.2) id)).bind fun x => ?_
    rw [diag_fin, diag_fin]
    refine .ok' (Mat.ext_get fun i j => ?_)
    simp only [Val.map, Mat.get_mapV, Mat.get_ofFn]
    split
    · rw [Vec.get_mapV]
    · exact H.zero
  | @row r c a i ih =>
    have ha := hs.2.ty
    have hi := hs.1.2
    simp only [Ty.Small] at ha
    refine (ih σ hs.2 (hd.imp (·.2) id)).bind fun x => ?_
    rw [row_nth t x i hi (by omega), row_nth t' (Val.map φ (.m r c) x) i (by omega) (by omega)]
    split
    · exact .ok' (Vec.ext_get fun j => by simp [Val.map, Mat.mapV])
    · exact .panic _
  | @col r c a j ih =>
    have ha := hs.2.ty
    have hj := hs.1.2
    simp only [Ty.Small] at ha
    refine (ih σ hs.2 (hd.imp (·.2) id)).bind fun x => ?_
    rw [col_nth t x j hj (by omega), col_nth t' (Val.map φ (.m r c) x) j (by omega) (by omega)]
    split
    · exact .ok' (Vec.ext_get fun i => by simp [Val.map])
    · exact .panic _

/-! ### Compound assignment -/

theorem after_ok (σ : Store T) (τ : Ty) (i : Nat) (w : Val T τ) : σ.after τ i (.ok (), w) = .ok (σ.put τ i w) := rfl

theorem after_error (σ : Store T) (τ : Ty) (i : Nat) (x : Res Unit × Val T τ) (e : Fault) (h : x.1 = .error e) :
    σ.after τ i x = .error e := by simp [Store.after, h]

theorem after_upd (O : Ops T) (σ : Store T) (o : Bin) (τ : Ty) (i : Nat) (a b : Val T τ) :
    σ.after τ i (Val.upd O o τ a b) = (do let w ← Val.bin t O o .vv τ a b; pure (σ.put τ i w)) := by
  cases hb : Val.bin t O o .vv τ a b with
  | ok w =>
    have : Val.upd O o τ a b = (.ok (), w) := by
      match τ, o with
      | .s, o => 
        change o.fn O a b = .ok w at hb
        simp [Val.upd, assign, hb]
      | .v n, .add => exact ((C20_vec_assign t O.add a b O.zero w).1 hb).1
      | .v n, .sub => exact ((C20_vec_assign t O.sub a b O.zero w).1 hb).2
      | .m r c, .add => exact ((C20_mat_assign t O.add a b O.zero w).1 hb).1
      | .m r c, .sub => exact ((C20_mat_assign t O.sub a b O.zero w).1 hb).2
    rw [this]; rfl
  | error e =>
    refine after_error _ _ _ _ _ ?_
    match τ, o with
    | .s, o =>
      change o.fn O a b = .error e at hb
      simp [Val.upd, assign, hb]
    | .v n, .add =>
      obtain ⟨k, h1, h2⟩ := (C18_vec_panic t O.add (Vec.opVV t O.add) (by simp [vecForms]) a b e).1 hb
      obtain ⟨w, h, _⟩ := C21_vec_assign_panic O.add a b k e (fun i => if h : i < k then (h2 i h).choose else a.get i)
        (fun i hi => by simp only [hi, dite_true]; exact (h2 i hi).choose_spec) h1
      simp [Val.upd, h]
    | .v n, .sub =>
      obtain ⟨k, h1, h2⟩ := (C18_vec_panic t O.sub (Vec.opVV t O.sub) (by simp [vecForms]) a b e).1 hb
      obtain ⟨w, _, h, _⟩ := C21_vec_assign_panic O.sub a b k e (fun i => if h : i < k then (h2 i h).choose else a.get i)
        (fun i hi => by simp only [hi, dite_true]; exact (h2 i hi).choose_spec) h1
      simp [Val.upd, h]
    | .m r c, .add =>
      obtain ⟨k, l, h1, h2⟩ := (C18_mat_panic t O.add (Mat.opVV t O.add) (by simp [matForms]) a b e).1 hb
      obtain ⟨w, h, _⟩ := C21_mat_assign_panic O.add a b k l e
        (fun i j => if h : i < k ∨ (i = k ∧ j < l) then (h2 i j h).choose else a.get i j)
        (fun i j hi => by simp only [hi, dite_true]; exact (h2 i j hi).choose_spec) h1
      simp [Val.upd, h]
    | .m r c, .sub =>
      obtain ⟨k, l, h1, h2⟩ := (C18_mat_panic t O.sub (Mat.opVV t O.sub) (by simp [matForms]) a b e).1 hb
      obtain ⟨w, _, h, _⟩ := C21_mat_assign_panic O.sub a b k l e
        (fun i j => if h : i < k ∨ (i = k ∧ j < l) then (h2 i j h).choose else a.get i j)
        (fun i j hi => by simp only [hi, dite_true]; exact (h2 i j hi).choose_spec) h1
      simp [Val.upd, h]

theorem vecScalar_error (f : T → T → Res T) (a : Vec T n) (x : T) (e : Fault) (h : a.mulScalar t f x = .error e) :
    ∃ k, f (a.get k) x = .error e ∧ ∀ i < k, ∃ y, f (a.get i) x = .ok y := by
  rw [Vec.mulScalar, Vec.toList_eq, List.map_map] at h
  exact (Vec.collect_finRange_error_iff t _ e).1 h

theorem matScalar_error (f : T → T → Res T) (a : Mat T r c) (x : T) (e : Fault) (h : a.mulScalar t f x = .error e) :
    ∃ k l, f (a.get k l) x = .error e ∧ ∀ i j, (i < k ∨ (i = k ∧ j < l)) → ∃ y, f (a.get i j) x = .ok y := by
  rw [Mat.mulScalar] at h; simp only [Vec.mulScalar] at h; rw [matScalar_eq, Mat.collect_error_iff] at h
  exact h

theorem after_updScale (O : Ops T) (σ : Store T) (τ : Ty) (i : Nat) (a : Val T τ) (x : T) :
    σ.after τ i (Val.updScale O τ a x) = (do let w ← Val.scale t O τ a x; pure (σ.put τ i w)) := by
  cases hb : Val.scale t O τ a x with
  | ok w =>
    have : Val.updScale O τ a x = (.ok (), w) := by
      match τ with
      | .s =>
        change O.mul a x = .ok w at hb
        simp [Val.updScale, assign, hb]
      | .v n => exact (C20_vec_assign t O.mul a (Vec.ofFn fun _ => x) x w).2.1 hb
      | .m r c => exact (C20_mat_assign t O.mul a a x w).2.1 hb
    rw [this]; rfl
  | error e =>
    refine after_error _ _ _ _ _ ?_
    match τ with
    | .s =>
      change O.mul a x = .error e at hb
      simp [Val.updScale, assign, hb]
    | .v n =>
      obtain ⟨k, h1, h2⟩ := vecScalar_error t O.mul a x e hb
      obtain ⟨w, h, _⟩ := C21_vec_scalar_assign_panic O.mul a x k e (fun i => if h : i < k then (h2 i h).choose else a.get i)
        (fun i hi => by simp only [hi, dite_true]; exact (h2 i hi).choose_spec) h1
      simp [Val.updScale, h]
    | .m r c =>
      obtain ⟨k, l, h1, h2⟩ := matScalar_error t O.mul a x e hb
      obtain ⟨w, h, _⟩ := C21_mat_scalar_assign_panic O.mul a x k l e
        (fun i j => if h : i < k ∨ (i = k ∧ j < l) then (h2 i j h).choose else a.get i j)
        (fun i j hi => by simp only [hi, dite_true]; exact (h2 i j hi).choose_spec) h1
      simp [Val.updScale, h]

theorem after_updQuot (O : Ops T) (σ : Store T) (τ : Ty) (i : Nat) (a : Val T τ) (x : T) :
    σ.after τ i (Val.updQuot O τ a x) = (do let w ← Val.quot t O τ a x; pure (σ.put τ i w)) := by
  cases hb : Val.quot t O τ a x with
  | ok w =>
    have : Val.updQuot O τ a x = (.ok (), w) := by
      match τ with
      | .s =>
        change O.div a x = .ok w at hb
        simp [Val.updQuot, assign, hb]
      | .v n => exact (C20_vec_assign t O.div a (Vec.ofFn fun _ => x) x w).2.2 hb
      | .m r c => exact (C20_mat_assign t O.div a a x w).2.2 hb
    rw [this]; rfl
  | error e =>
    refine after_error _ _ _ _ _ ?_
    match τ with
    | .s =>
      change O.div a x = .error e at hb
      simp [Val.updQuot, assign, hb]
    | .v n =>
      obtain ⟨k, h1, h2⟩ := vecScalar_error t O.div a x e hb
      obtain ⟨w, _, h, _⟩ := C21_vec_scalar_assign_panic O.div a x k e (fun i => if h : i < k then (h2 i h).choose else a.get i)
        (fun i hi => by simp only [hi, dite_true]; exact (h2 i hi).choose_spec) h1
      simp [Val.updQuot, h]
    | .m r c =>
      obtain ⟨k, l, h1, h2⟩ := matScalar_error t O.div a x e hb
      obtain ⟨w, _, h, _⟩ := C21_mat_scalar_assign_panic O.div a x k l e
        (fun i j => if h : i < k ∨ (i = k ∧ j < l) then (h2 i j h).choose else a.get i j)
        (fun i j hi => by simp only [hi, dite_true]; exact (h2 i j hi).choose_spec) h1
      simp [Val.updQuot, h]

theorem after_updMul (O : Ops T) (σ : Store T) (i : Nat) (a b : Mat T n n) :
    σ.after (.m n n) i (Mat.mulAssign t O a b) = (do let w ← a.mulVV t O b; pure (σ.put (.m n n) i w)) := by
  rw [mulAssign_eq]
  cases a.mulVV t O b <;> rfl

theorem after_transpose (σ : Store T) (i : Nat) (a : Mat T n n) :
    σ.after (.m n n) i (Mat.transpose t a) = (do let w ← a.transposed t; pure (σ.put (.m n n) i w)) := by
  rw [Mat.transpose]
  cases a.transposed t <;> rfl

theorem sim_put (σ : Store T) (τ : Ty) (i : Nat) {x : Res (Val T τ)} {y : Res (Val U τ)}
    (h : ExactOrPanic (Val.map φ τ) x y) :
    ExactOrPanic (Store.map φ) (do let w ← x; pure (σ.put τ i w)) (do let w ← y; pure ((σ.map φ).put τ i w)) :=
  h.bind fun w => .ok' (Store.map_put φ σ τ i w)

theorem indexSet_mapV (v : Vec T n) (k : Nat) (x : T) :
    ExactOrPanic (Vec.mapV φ) (v.indexSet k x) ((v.mapV φ).indexSet k (φ x)) := by
  by_cases h : k < n
  · rw [Vec.indexSet_ok _ h, Vec.indexSet_ok _ h]
    refine .ok' (Vec.ext_get fun i => ?_)
    rw [Vec.get_mapV, Vec.get_put, Vec.get_put, Vec.get_mapV]
    split <;> rfl
  · rw [Vec.indexSet_panic _ (by omega)]; exact .panic _

include H in
/-- A statement in `O` panics or agrees with it in `O'`. -/
theorem sim_exec (hW : t'.W = t.W) (σ : Store T) (a : Act) (hs : a.Small t.W) (hd : a.DivFree ∨ FullHom O O' φ) :
    ExactOrPanic (Store.map φ) (a.exec t O σ) (a.exec t' O' (σ.map φ)) := by
  cases a with
  | set i e => exact sim_put σ _ i (sim_eval H t t' hW σ e hs.2 hd)
  | upd o i e =>
    refine (sim_eval H t t' hW σ e hs.2 hd).bind fun x => ?_
    rw [after_upd t, after_upd t']
    exact sim_put σ _ i (sim_bin H t t' o .vv _ _ x)
  | updScale τ i s =>
    refine (sim_eval H t t' hW σ s hs.2 hd).bind fun x => ?_
    rw [after_updScale t, after_updScale t']
    exact sim_put σ _ i (sim_scale H t t' _ _ x)
  | updQuot τ i s =>
    rcases hd with hd | hd
    · exact hd.elim
    refine (sim_eval H t t' hW σ s hs.2 (.inr hd)).bind fun x => ?_
    rw [after_updQuot t, after_updQuot t']
    exact sim_put σ _ i (sim_quot t t' hd.2 _ _ x)
  | @updMul n i e =>
    have h2 := hs.1
    refine (sim_eval H t t' hW σ e hs.2 hd).bind fun x => ?_
    rw [after_updMul t, after_updMul t']
    exact sim_put σ (.m n n) i (sim_mul H t t' hW _ x (by omega) (by omega) (by omega))
  | transpose n i =>
    simp only [Act.Small] at hs
    simp only [Act.exec]
    rw [after_transpose t, after_transpose t']
    exact sim_put σ (.m n n) i (sim_transposed t t' hW _ (by omega))
  | vset n i k e =>
    exact (sim_eval H t t' hW σ e hs.2 hd).bind fun x => sim_put σ (.v n) i (indexSet_mapV _ k x)
  | mset r c i k l e =>
    exact (sim_eval H t t' hW σ e hs.2.2 hd).bind fun x => sim_put σ (.m r c) i (Mat.indexSet_mapV φ _ (k, l) x)

include H in
/-- A run in `O` ends in a panic, or there is a run in `O'` with the corresponding outcome. -/
theorem sim_run (hW : t'.W = t.W) (hz : ∀ a, O'.isZero (φ a) = O.isZero a) (p : Stmt) (σ : Store T) (x : Res (Store T))
    (h : Run t O p σ x) (hs : p.Small t.W) (hd : p.DivFree ∨ FullHom O O' φ) :
    x = .error .panic ∨ ∃ σ', x = .ok σ' ∧ Run t' O' p (σ.map φ) (.ok (σ'.map φ)) := by
  induction h with
  | skip σ => exact .inr ⟨σ, rfl, .skip _⟩
  | act a σ =>
    rcases sim_exec H t t' hW σ a hs hd with h | ⟨σ', h1, h2⟩
    · exact .inl h
    · exact .inr ⟨σ', h1, h2 ▸ .act a (σ.map φ)⟩
  | seq _ _ ih1 ih2 =>
    rcases ih1 hs.1 (hd.imp (·.1) id) with h | ⟨σ1, h1, h2⟩
    · cases h
    · cases h1
      rcases ih2 hs.2 (hd.imp (·.2) id) with h | ⟨σ2, h3, h4⟩
      · exact .inl h
      · exact .inr ⟨σ2, h3, .seq h2 h4⟩
  | seqFault _ ih =>
    rcases ih hs.1 (hd.imp (·.1) id) with h | ⟨σ1, h1, h2⟩
    · exact .inl h
    · cases h1
  | @iteZero τ e p q σ v x he hv _ ih =>
    rcases sim_eval H t t' hW σ e hs.1 (hd.imp (·.1) id) with h | ⟨w, h1, h2⟩
    · rw [he] at h; cases h
    · rw [he] at h1; cases h1
      rcases ih hs.2.1 (hd.imp (·.2.1) id) with h | ⟨σ', h3, h4⟩
      · exact .inl h
      · exact .inr ⟨σ', h3, .iteZero h2 (by rw [sim_isZero hz, hv]) h4⟩
  | @iteElse τ e p q σ v x he hv _ ih =>
    rcases sim_eval H t t' hW σ e hs.1 (hd.imp (·.1) id) with h | ⟨w, h1, h2⟩
    · rw [he] at h; cases h
    · rw [he] at h1; cases h1
      rcases ih hs.2.2 (hd.imp (·.2.2) id) with h | ⟨σ', h3, h4⟩
      · exact .inl h
      · exact .inr ⟨σ', h3, .iteElse h2 (by rw [sim_isZero hz, hv]) h4⟩
  | @iteFault τ e p q σ f he =>
    rcases sim_eval H t t' hW σ e hs.1 (hd.imp (·.1) id) with h | ⟨w, h1, h2⟩
    · rw [he] at h; cases h; exact .inl rfl
    · rw [he] at h1; cases h1
  | @loopGo τ b e p σ v σ' x he hv _ _ ih1 ih2 =>
    rcases sim_eval H t t' hW σ e hs.1 (hd.imp (·.1) id) with h | ⟨w, h1, h2⟩
    · rw [he] at h; cases h
    · rw [he] at h1; cases h1
      rcases ih1 hs.2 (hd.imp (·.2) id) with h | ⟨σ1, h3, h4⟩
      · cases h
      · cases h3
        rcases ih2 hs hd with h | ⟨σ2, h5, h6⟩
        · exact .inl h
        · exact .inr ⟨σ2, h5, .loopGo h2 (by rw [sim_isZero hz, hv]) h4 h6⟩
  | @loopBody τ b e p σ v f he hv _ ih =>
    rcases ih hs.2 (hd.imp (·.2) id) with h | ⟨σ1, h3, h4⟩
    · exact .inl h
    · cases h3
  | @loopEnd τ b e p σ v he hv =>
    rcases sim_eval H t t' hW σ e hs.1 (hd.imp (·.1) id) with h | ⟨w, h1, h2⟩
    · rw [he] at h; cases h
    · rw [he] at h1; cases h1
      exact .inr ⟨σ, rfl, .loopEnd h2 (by rw [sim_isZero hz, hv])⟩
  | @loopFault τ b e p σ f he =>
    rcases sim_eval H t t' hW σ e hs.1 (hd.imp (·.1) id) with h | ⟨w, h1, h2⟩
    · rw [he] at h; cases h; exact .inl rfl
    · rw [he] at h1; cases h1

end Sim
/-! ### Programs computing with exact numbers -/

theorem Store.den_put (φ : T → K) (σ : Store T) (τ : Ty) (i : Nat) (x : Val T τ) :
    (σ.put τ i x).den φ = (σ.den φ).put τ i (Val.den φ τ x) := by
  funext τ' j
  simp only [Store.den, Store.put, Env.put, Function.update]
  by_cases h : τ' = τ
  · subst h
    simp only [dite_true]
    by_cases hj : j = i
    · subst hj; simp
    · simp [hj, Store.den]
  · simp [h, Store.den]

theorem Val.den_map (φ : T → K) (τ : Ty) (x : Val T τ) : Val.den id τ (Val.map φ τ x) = Val.den φ τ x := by
  match τ with
  | .s => rfl
  | .v n => funext i; simp [Val.den, Val.map, Vec.vals]
  | .m r c => funext i j; simp [Val.den, Val.map, Mat.vals]

theorem Store.den_map (φ : T → K) (σ : Store T) : (σ.map φ).den id = σ.den φ := by
  funext τ i; exact Val.den_map φ τ (σ τ i)

/-- The computation returns a value with the given numbers, or panics although `P` does not hold. -/
def Sound {α β : Type} (ν : α → β) (P : Prop) (x : Res α) (b : β) : Prop :=
  (x = .error .panic ∧ ¬ P) ∨ ∃ a, x = .ok a ∧ ν a = b

theorem Sound.ok {α β : Type} {ν : α → β} {P : Prop} {a : α} {b : β} (h : ν a = b) : Sound ν P (.ok a) b := .inr ⟨a, rfl, h⟩

theorem Sound.bind {α β γ δ : Type} {ν : α → β} {μ : γ → δ} {P Q R : Prop} {x : Res α} {b : β} {f : α → Res γ} {d : δ}
    (h : Sound ν P x b) (hf : ∀ a, ν a = b → Sound μ Q (f a) d) (hR : R → P ∧ Q) : Sound μ R (x >>= f) d := by
  rcases h with ⟨rfl, h⟩ | ⟨a, rfl, h⟩
  · exact .inl ⟨rfl, fun r => h (hR r).1⟩
  · rcases hf a h with ⟨h1, h2⟩ | h
    · exact .inl ⟨h1, fun r => h2 (hR r).2⟩
    · exact .inr h

theorem Sound.mono {α β : Type} {ν : α → β} {P Q : Prop} {x : Res α} {b : β} (h : Sound ν P x b) (hQ : Q → P) : Sound ν Q x b :=
  h.imp (fun h => ⟨h.1, fun q => h.2 (hQ q)⟩) id

theorem sound_collect {α β : Type} {n : Nat} (t : Target) {ν : α → β} {P : Fin n → Prop} (f : Fin n → Res α) (b : Fin n → β)
    (h : ∀ i, Sound ν (P i) (f i) (b i)) :
    Sound (Vec.vals ν) (∀ i, P i) (Vec.collect t n ((List.finRange n).map f)) b := by
  cases hx : Vec.collect t n ((List.finRange n).map f) with
  | ok v =>
    rw [Vec.collect_finRange_ok_iff] at hx
    refine .inr ⟨v, rfl, funext fun i => ?_⟩
    rcases h i with ⟨h, _⟩ | ⟨a, h1, h2⟩
    · rw [hx i] at h; cases h
    · rw [hx i] at h1; cases h1; exact h2
  | error e =>
    rw [Vec.collect_finRange_error_iff] at hx
    obtain ⟨k, hk, _⟩ := hx
    rcases h k with ⟨h, h'⟩ | ⟨a, h1, h2⟩
    · rw [hk] at h; cases h; exact .inl ⟨rfl, fun g => h' (g k)⟩
    · rw [hk] at h1; cases h1

theorem sound_matCollect {α β : Type} {r c : Nat} (t : Target) {ν : α → β} {P : Fin r → Fin c → Prop} (f : Fin r → Fin c → Res α)
    (b : Fin r → Fin c → β) (h : ∀ i j, Sound ν (P i j) (f i j) (b i j)) :
    Sound (Mat.vals ν) (∀ i j, P i j) (do
      let v ← Vec.collect t r ((List.finRange r).map fun i => Vec.collect t c ((List.finRange c).map (f i)))
      pure (⟨v⟩ : Mat α r c)) b :=
  (sound_collect t _ b fun i => sound_collect t (f i) (b i) (h i)).bind (Q := True)
    (fun v hv => .ok (by rw [← hv]; rfl)) fun h => ⟨h, trivial⟩

/-- What is needed of an element type for division, `determinant`, `cofactor` and `inverse` at all sizes. -/
structure DivOk [CommRing K] (t : Target) (O : Ops K) (dv : K → K → K) : Prop where
  div : ∀ a b, O.div a b = .error .panic ∨ O.div a b = .ok (dv a b)
  det : ∀ k (a : Mat K (k + 1) (k + 1)), k + 1 < t.W →
    a.determinant t O k = .error .panic ∨ a.determinant t O k = .ok a.toMatrix.det
  cof : ∀ k (a : Mat K (k + 2) (k + 2)) (i j : Fin (k + 2)), 2 * (k + 2) < t.W →
    a.cofactor t O k (i, j) = .error .panic ∨ a.cofactor t O k (i, j) =
    .ok ((-1) ^ (i.val + j.val) * (a.toMatrix.submatrix i.succAbove j.succAbove).det)
  inv : ∀ k (a : Mat K (k + 1) (k + 1)), a.inverse t O k = .error .panic ∨ a.inverse t O k = .ok none ∨
    ∃ x, a.inverse t O k = .ok (some x) ∧ x.toMatrix = a.toMatrix⁻¹

section Exact
variable [CommRing K] {O : Ops K} (hO : O.IsRing) (t : Target) {dv : K → K → K}

include hO in
theorem exact_bin (o : Bin) (f : Form) (τ : Ty) (a b : Val K τ) :
    ∃ w, Val.bin t O o f τ a b = .ok w ∧
      Val.den id τ w = match o with
        | .add => Val.den id τ a + Val.den id τ b
        | .sub => Val.den id τ a - Val.den id τ b := by
  rw [bin_eq_vv t O]
  match τ, o with
  | .s, .add => exact ⟨_, hO.add a b, rfl⟩
  | .s, .sub => exact ⟨_, hO.sub a b, rfl⟩
  | .v n, .add =>
    refine ⟨Vec.ofFn (a.get + b.get), (C18_vec_ok t O.add (Vec.opVV t O.add) (by simp [vecForms]) a b _).2 fun i => ?_, ?_⟩
    · rw [hO.add, Vec.get_ofFn]; rfl
    · funext i; exact Vec.get_ofFn _ i
  | .v n, .sub =>
    refine ⟨Vec.ofFn (a.get - b.get), (C18_vec_ok t O.sub (Vec.opVV t O.sub) (by simp [vecForms]) a b _).2 fun i => ?_, ?_⟩
    · rw [hO.sub, Vec.get_ofFn]; rfl
    · funext i; exact Vec.get_ofFn _ i
  | .m r c, .add =>
    refine ⟨Mat.ofMatrix (a.toMatrix + b.toMatrix),
      (C18_mat_ok t O.add (Mat.opVV t O.add) (by simp [matForms]) a b _).2 fun i j => ?_, ?_⟩
    · rw [hO.add, Mat.get_ofMatrix]; rfl
    · exact Mat.toMatrix_ofMatrix _
  | .m r c, .sub =>
    refine ⟨Mat.ofMatrix (a.toMatrix - b.toMatrix),
      (C18_mat_ok t O.sub (Mat.opVV t O.sub) (by simp [matForms]) a b _).2 fun i j => ?_, ?_⟩
    · rw [hO.sub, Mat.get_ofMatrix]; rfl
    · exact Mat.toMatrix_ofMatrix _

include hO in
theorem exact_neg (τ : Ty) (a : Val K τ) : ∃ w, Val.neg t O τ a = .ok w ∧ Val.den id τ w = -Val.den id τ a := by
  match τ with
  | .s => exact ⟨_, hO.neg a, rfl⟩
  | .v n =>
    refine ⟨Vec.ofFn (-a.get), (C19_vec_ok t O.mul O.neg a O.zero _).2.2.2 fun i => ?_, ?_⟩
    · rw [hO.neg, Vec.get_ofFn]; rfl
    · funext i; exact Vec.get_ofFn _ i
  | .m r c =>
    refine ⟨Mat.ofMatrix (-a.toMatrix), (C19_mat_ok t O.mul O.neg a O.zero a _).2.2.2 fun i j => ?_, ?_⟩
    · rw [hO.neg, Mat.get_ofMatrix]; rfl
    · exact Mat.toMatrix_ofMatrix _

include hO in
theorem exact_scale (τ : Ty) (a : Val K τ) (s : K) :
    ∃ w, Val.scale t O τ a s = .ok w ∧ Val.den id τ w = s • Val.den id τ a := by
  match τ with
  | .s => exact ⟨_, hO.mul a s, mul_comm _ _⟩
  | .v n =>
    refine ⟨Vec.ofFn (s • a.get), (C19_vec_ok t O.mul O.neg a s _).1.2 fun i => ?_, ?_⟩
    · rw [hO.mul, Vec.get_ofFn, mul_comm]; rfl
    · funext i; exact Vec.get_ofFn _ i
  | .m r c =>
    refine ⟨Mat.ofMatrix (s • a.toMatrix), (C19_mat_ok t O.mul O.neg a s _ a).1.2 fun i j => ?_, ?_⟩
    · rw [hO.mul, Mat.get_ofMatrix, mul_comm]; rfl
    · exact Mat.toMatrix_ofMatrix _

include hO in
theorem exact_zero (τ : Ty) : ∃ w, Val.zero t O τ = .ok w ∧ Val.den id τ w = 0 := by
  match τ with
  | .s => exact ⟨_, rfl, hO.zero⟩
  | .v n =>
    obtain ⟨⟨v, h1, h2⟩, _⟩ := C32_vec_const (n := n) t O.zero
    exact ⟨v, h1, by funext i; exact (h2 i).trans hO.zero⟩
  | .m r c =>
    obtain ⟨⟨v, h1, h2⟩, _⟩ := C32_mat_const (r := r) (c := c) t O.zero
    exact ⟨v, h1, by funext i j; exact (h2 i j).trans hO.zero⟩

omit [CommRing K] in
theorem exact_quot (hd : ∀ a b, O.div a b = .error .panic ∨ O.div a b = .ok (dv a b)) (τ : Ty) (a : Val K τ) (s : K) :
    Val.quot t O τ a s = .error .panic ∨
      ∃ w, Val.quot t O τ a s = .ok w ∧ Val.den id τ w = Den.quot dv τ (Val.den id τ a) s := by
  match τ with
  | .s =>
    rcases hd a s with h | h
    · exact .inl h
    · exact .inr ⟨_, h, rfl⟩
  | .v n =>
    change Vec.divScalar t O.div a s = _ ∨ ∃ w, Vec.divScalar t O.div a s = .ok w ∧ _
    cases hx : Vec.divScalar t O.div a s with
    | ok w =>
      refine .inr ⟨w, rfl, ?_⟩
      have h := (C19_vec_ok t O.div O.neg a s w).2.1.1 hx
      funext i
      rcases hd (a.get i) s with h' | h'
      · rw [h i] at h'; cases h'
      · rw [h i] at h'; exact Except.ok.inj h'
    | error e =>
      obtain ⟨k, h1, _⟩ := vecScalar_error t O.div a s e hx
      rcases hd (a.get k) s with h' | h'
      · rw [h1] at h'; cases h'; exact .inl rfl
      · rw [h1] at h'; cases h'
  | .m r c =>
    change Mat.divScalar t O.div a s = _ ∨ ∃ w, Mat.divScalar t O.div a s = .ok w ∧ _
    cases hx : Mat.divScalar t O.div a s with
    | ok w =>
      refine .inr ⟨w, rfl, ?_⟩
      have h := (C19_mat_ok t O.div O.neg a s w a).2.1.1 hx
      funext i j
      rcases hd (a.get i j) s with h' | h'
      · rw [h i j] at h'; cases h'
      · rw [h i j] at h'; exact Except.ok.inj h'
    | error e =>
      obtain ⟨k, l, h1, _⟩ := matScalar_error t O.div a s e hx
      rcases hd (a.get k l) s with h' | h'
      · rw [h1] at h'; cases h'; exact .inl rfl
      · rw [h1] at h'; cases h'

theorem exact_isZero (hz : ∀ a, O.isZero a = true ↔ a = 0) (τ : Ty) (a : Val K τ) :
    Val.isZero O τ a = true ↔ Val.den id τ a = 0 := by
  match τ with
  | .s => exact hz a
  | .v n =>
    change Vec.isZero O.isZero a = true ↔ _
    rw [(C32_is_zero O.isZero a (Mat.ofFn (r := 0) (c := 0) fun _ _ => 0)).1]
    simp only [hz]
    exact ⟨fun h => funext h, fun h i => congrFun h i⟩
  | .m r c =>
    change Mat.isZero O.isZero a = true ↔ _
    rw [(C32_is_zero O.isZero (Vec.ofFn (n := 0) fun _ => 0) a).2]
    simp only [hz]
    exact ⟨fun h => funext fun i => funext fun j => h i j, fun h i j => congrFun (congrFun h i) j⟩

include hO in
/-- With exact numbers an expression has its value in linear algebra, or panics although it divides or has an index
out of range. -/
theorem exact_eval (σ : Store K) (e : Ex τ) (hs : e.Small t.W) (hd : e.DivFree ∨ DivOk t O dv) :
    Sound (Val.den id τ) (e.DivFree ∧ e.InRange) (e.eval t O σ) (e.den dv (σ.den id)) := by
  induction e generalizing σ with
  | var τ i => exact .ok rfl
  | zero τ => obtain ⟨w, h1, h2⟩ := exact_zero hO t τ; exact .inr ⟨w, h1, h2⟩
  | one => exact .ok hO.one
  | ident n => exact .inr ⟨_, identity_eq hO.toIsSemiring t n, Mat.toMatrix_ofMatrix _⟩
  | bin o f a b iha ihb =>
    refine (iha σ hs.2.1 (hd.imp (·.2.1) id)).bind (Q := b.DivFree ∧ b.InRange) (fun x hx =>
      (ihb σ hs.2.2 (hd.imp (·.2.2) id)).bind (Q := True) (fun y hy => ?_) fun h => ⟨h, trivial⟩)
      fun h => ⟨⟨h.1.2.1, h.2.2.1⟩, h.1.2.2, h.2.2.2⟩
    obtain ⟨w, h1, h2⟩ := exact_bin hO t o f _ x y
    refine .inr ⟨w, h1, ?_⟩
    rw [h2]
    cases o <;> simp only [hx, hy, Ex.den]
  | neg a iha =>
    refine (iha σ hs.2 (hd.imp (·.2) id)).bind (Q := True) (fun x hx => ?_) fun h => ⟨⟨h.1.2, h.2.2⟩, trivial⟩
    obtain ⟨w, h1, h2⟩ := exact_neg hO t _ x
    exact .inr ⟨w, h1, by rw [h2, hx]; rfl⟩
  | scale a s iha ihs =>
    refine (iha σ hs.2.1 (hd.imp (·.2.1) id)).bind (Q := s.DivFree ∧ s.InRange) (fun x hx =>
      (ihs σ hs.2.2 (hd.imp (·.2.2) id)).bind (Q := True) (fun y hy => ?_) fun h => ⟨h, trivial⟩)
      fun h => ⟨⟨h.1.2.1, h.2.2.1⟩, h.1.2.2, h.2.2.2⟩
    obtain ⟨w, h1, h2⟩ := exact_scale hO t _ x y
    refine .inr ⟨w, h1, ?_⟩
    rw [h2, hx, Ex.den, ← hy]; rfl
  | quot a s iha ihs =>
    rcases hd with hd | hd
    · exact absurd hd.1 (by simp [Ex.DivFreeStep])
    refine (iha σ hs.2.1 (.inr hd)).bind (Q := False) (fun x hx =>
      (ihs σ hs.2.2 (.inr hd)).bind (Q := False) (fun y hy => ?_) fun h => h.elim) fun h => absurd h.1.1 (by simp [Ex.DivFreeStep])
    rcases exact_quot t hd.div _ x y with h | ⟨w, h1, h2⟩
    · exact .inl ⟨h, id⟩
    · refine .inr ⟨w, h1, ?_⟩
      rw [h2, hx, Ex.den, ← hy]; rfl
  | vsum v ih =>
    refine (ih σ hs.2 (hd.imp (·.2) id)).bind (Q := True) (fun x hx => ?_) fun h => ⟨⟨h.1.2, h.2.2⟩, trivial⟩
    refine .inr ⟨_, C26_vec_sum hO.toIsSemiring x, ?_⟩
    rw [Ex.den, ← hx]; rfl
  | msum a ih =>
    refine (ih σ hs.2 (hd.imp (·.2) id)).bind (Q := True) (fun x hx => ?_) fun h => ⟨⟨h.1.2, h.2.2⟩, trivial⟩
    refine .inr ⟨_, C26_mat_sum hO.toIsSemiring x, ?_⟩
    rw [Ex.den, ← hx]; rfl
  | dot a b iha ihb =>
    refine (iha σ hs.2.1 (hd.imp (·.2.1) id)).bind (Q := b.DivFree ∧ b.InRange) (fun x hx =>
      (ihb σ hs.2.2 (hd.imp (·.2.2) id)).bind (Q := True) (fun y hy => ?_) fun h => ⟨h, trivial⟩)
      fun h => ⟨⟨h.1.2.1, h.2.2.1⟩, h.1.2.2, h.2.2.2⟩
    refine .inr ⟨_, C23_dot hO.toIsSemiring x y, ?_⟩
    rw [Ex.den, ← hx, ← hy]; rfl
  | cross a b iha ihb =>
    refine (iha σ hs.2.1 (hd.imp (·.2.1) id)).bind (Q := b.DivFree ∧ b.InRange) (fun x hx =>
      (ihb σ hs.2.2 (hd.imp (·.2.2) id)).bind (Q := True) (fun y hy => ?_) fun h => ⟨h, trivial⟩)
      fun h => ⟨⟨h.1.2.1, h.2.2.1⟩, h.1.2.2, h.2.2.2⟩
    refine .inr ⟨_, cross_eq hO t x y, ?_⟩
    rw [Ex.den, ← hx, ← hy]
    funext i; exact Vec.get_ofFn _ i
  | @vget n v i ih =>
    refine (ih σ hs.2 (hd.imp (·.2) id)).bind (Q := i < n) (fun x hx => ?_) fun h => ⟨⟨h.1.2, h.2.2⟩, h.2.1⟩
    by_cases hi : i < n
    · refine .inr ⟨_, Vec.index_ok x hi, ?_⟩
      rw [Ex.den, dif_pos hi, ← hx]; rfl
    · exact .inl ⟨Vec.index_panic x (by omega), hi⟩
  | @mget r c a i j ih =>
    refine (ih σ hs.2 (hd.imp (·.2) id)).bind (Q := i < r ∧ j < c) (fun x hx => ?_) fun h => ⟨⟨h.1.2, h.2.2⟩, h.2.1⟩
    by_cases hi : i < r ∧ j < c
    · refine .inr ⟨_, Mat.index_ok x hi.1 hi.2, ?_⟩
      rw [Ex.den, dif_pos hi, ← hx]; rfl
    · exact .inl ⟨Mat.index_panic x (by omega), hi⟩
  | mul f a b iha ihb =>
    have ha := hs.2.1.ty
    have hb := hs.2.2.ty
    simp only [Ty.Small] at ha hb
    refine (iha σ hs.2.1 (hd.imp (·.2.1) id)).bind (Q := b.DivFree ∧ b.InRange) (fun x hx =>
      (ihb σ hs.2.2 (hd.imp (·.2.2) id)).bind (Q := True) (fun y hy => ?_) fun h => ⟨h, trivial⟩)
      fun h => ⟨⟨h.1.2.1, h.2.2.1⟩, h.1.2.2, h.2.2.2⟩
    refine .inr ⟨Mat.ofMatrix (x.toMatrix * y.toMatrix), ?_, ?_⟩
    · rw [mul_eq_vv t O f x y (by omega) (by omega) (by omega)]
      exact mulVV_eq hO.toIsSemiring t x y (by omega) (by omega) (by omega)
    · rw [Ex.den, ← hx, ← hy]
      exact Mat.toMatrix_ofMatrix _
  | mulVec br a v iha ihv =>
    have ha := hs.2.1.ty
    simp only [Ty.Small] at ha
    refine (iha σ hs.2.1 (hd.imp (·.2.1) id)).bind (Q := v.DivFree ∧ v.InRange) (fun x hx =>
      (ihv σ hs.2.2 (hd.imp (·.2.2) id)).bind (Q := True) (fun y hy => ?_) fun h => ⟨h, trivial⟩)
      fun h => ⟨⟨h.1.2.1, h.2.2.1⟩, h.1.2.2, h.2.2.2⟩
    have h := mulVec_eq hO.toIsSemiring t x y (by omega)
    refine .inr ⟨Vec.ofFn (x.toMatrix.mulVec y.get), ?_, ?_⟩
    · cases br
      · exact h.1
      · exact h.2
    · rw [Ex.den, ← hx, ← hy]
      funext i; exact Vec.get_ofFn _ i
  | transposed a ih =>
    have ha := hs.2.ty
    simp only [Ty.Small] at ha
    refine (ih σ hs.2 (hd.imp (·.2) id)).bind (Q := True) (fun x hx => ?_) fun h => ⟨⟨h.1.2, h.2.2⟩, trivial⟩
    refine .inr ⟨_, transposed_eq t x (by omega), ?_⟩
    rw [Ex.den, ← hx]
    exact Mat.toMatrix_ofMatrix _
  | pow a k ih =>
    have ha := hs.2.ty
    simp only [Ty.Small] at ha
    refine (ih σ hs.2 (hd.imp (·.2) id)).bind (Q := True) (fun x hx => ?_) fun h => ⟨⟨h.1.2, h.2.2⟩, trivial⟩
    refine .inr ⟨_, pow_eq hO.toIsSemiring t x k (by omega), ?_⟩
    rw [Ex.den, ← hx]
    exact Mat.toMatrix_ofMatrix _
  | @det k a ih =>
    have ha := hs.2.ty
    simp only [Ty.Small] at ha
    refine (ih σ hs.2 (hd.imp (·.2) id)).bind (Q := k ≤ 2) (fun x hx => ?_) fun h => ⟨⟨h.1.2, h.2.2⟩, h.1.1⟩
    have e : x.toMatrix.det = (Ex.det a).den dv (σ.den id) := by rw [Ex.den, ← hx]; rfl
    by_cases hk : k ≤ 2
    · exact .inr ⟨_, C50_small hO t k (by omega) x, e⟩
    · rcases hd with hd | hd
      · exact absurd hd.1 hk
      · rcases hd.det k x (by omega) with h | h
        · exact .inl ⟨h, hk⟩
        · exact .inr ⟨_, h, e⟩
  | @cof k a i j ih =>
    have ha := hs.2.ty
    have hij := hs.1
    simp only [Ty.Small] at ha
    simp only [Ex.SmallStep] at hij
    refine (ih σ hs.2 (hd.imp (·.2) id)).bind (Q := (i < k + 2 ∧ j < k + 2) ∧ k ≤ 2) (fun x hx => ?_) fun h => ⟨⟨h.1.2, h.2.2⟩, h.2.1, h.1.1⟩
    by_cases hr : i < k + 2 ∧ j < k + 2
    · have e : (-1) ^ (i + j) * (x.toMatrix.submatrix (Fin.succAbove ⟨i, hr.1⟩) (Fin.succAbove ⟨j, hr.2⟩)).det =
          (Ex.cof a i j).den dv (σ.den id) := by rw [Ex.den, dif_pos hr, ← hx]; rfl
      by_cases hk : k ≤ 2
      · exact .inr ⟨_, C53_cofactor_ring hO t k (by omega) x ⟨i, hr.1⟩ ⟨j, hr.2⟩ (by omega) (by simp; omega), e⟩
      · rcases hd with hd | hd
        · exact absurd hd.1 hk
        · rcases hd.cof k x ⟨i, hr.1⟩ ⟨j, hr.2⟩ (by omega) with h | h
          · exact .inl ⟨h, fun h => hk h.2⟩
          · exact .inr ⟨_, h, e⟩
    · exact .inl ⟨C54_out_of_range t O k x i j hij.1 hij.2 (by omega) (by rw [hO.neg]; simp), fun h => hr h.1⟩
  | @inv k a ih =>
    rcases hd with hd | hd
    · exact absurd hd.1 (by simp [Ex.DivFreeStep])
    refine (ih σ hs.2 (.inr hd)).bind (Q := False) (fun x hx => ?_) fun h => absurd h.1.1 (by simp [Ex.DivFreeStep])
    rcases hd.inv k x with h | h | ⟨y, h, hy⟩
    · exact .inl ⟨by rw [h]; rfl, id⟩
    · exact .inl ⟨by rw [h]; rfl, id⟩
    · refine .inr ⟨y, by rw [h]; rfl, ?_⟩
      rw [Ex.den, ← hx]
      exact hy
  | @gen n f ih =>
    rw [Ex.eval, generate_fin]
    refine (sound_collect t (P := fun i : Fin n => (f i).DivFree ∧ (f i).InRange) _ _ fun i =>
      ih i σ (hs.2 i i.isLt) (hd.imp (·.2 i i.isLt) id)).mono fun h i => ⟨h.1.2 i i.isLt, h.2.2 i i.isLt⟩
  | @mgen r c f ih =>
    rw [Ex.eval, matGenerate_fin]
    exact (sound_matCollect t (P := fun (i : Fin r) (j : Fin c) => (f (i.val, j.val)).DivFree ∧ (f (i.val, j.val)).InRange)
      _ _ fun i j => ih (i, j) σ (hs.2 i i.isLt j j.isLt) (hd.imp (·.2 i i.isLt j j.isLt) id)).mono
      fun h i j => ⟨h.1.2 i i.isLt j j.isLt, h.2.2 i i.isLt j j.isLt⟩
  | @map r c k f a ihf iha =>
    refine (iha σ hs.2.1 (hd.imp (·.2.1) id)).bind
      (Q := ∀ (i : Fin r) (j : Fin c), (f (i.val, j.val)).DivFree ∧ (f (i.val, j.val)).InRange) (fun x hx => ?_)
      fun h => ⟨⟨h.1.2.1, h.2.2.1⟩, fun i j => ⟨h.1.2.2 i i.isLt j j.isLt, h.2.2.2 i i.isLt j j.isLt⟩⟩
    rw [map_fin]
    refine sound_matCollect t (P := fun (i : Fin r) (j : Fin c) => (f (i.val, j.val)).DivFree ∧ (f (i.val, j.val)).InRange)
      _ _ fun i j => ?_
    have h := ihf (i, j) (σ.put .s k (x.get i j)) (hs.2.2 i i.isLt j j.isLt) (hd.imp (·.2.2 i i.isLt j j.isLt) id)
    rw [Store.den_put] at h
    have e : (a.den dv (σ.den id) i j : K) = x.get i j := by rw [← hx]; rfl
    have e' : (Ex.map k f a).den dv (σ.den id) i j = (f (i.val, j.val)).den dv ((σ.den id).put .s k (a.den dv (σ.den id) i j)) :=
      rfl
    rw [e', e]
    exact h
  | @diag r c v ih =>
    refine (ih σ hs.2 (hd.imp (·.2) id)).bind (Q := True) (fun x hx => ?_) fun h => ⟨⟨h.1.2, h.2.2⟩, trivial⟩
    refine .inr ⟨_, diag_fin t O.zero x, ?_⟩
    rw [Ex.den, ← hx]
    funext i j
    simp only [Val.den, Mat.vals, Mat.get_ofFn, Vec.vals, id]
    split
    · rfl
    · exact hO.zero
  | @row r c a i ih =>
    have ha := hs.2.ty
    have hi := hs.1.2
    simp only [Ty.Small] at ha
    refine (ih σ hs.2 (hd.imp (·.2) id)).bind (Q := i < r) (fun x hx => ?_) fun h => ⟨⟨h.1.2, h.2.2⟩, h.2.1⟩
    rw [row_nth t x i hi (by omega)]
    by_cases h : i < r
    · rw [dif_pos h]
      refine .inr ⟨_, rfl, ?_⟩
      rw [Ex.den, dif_pos h, ← hx]; rfl
    · rw [dif_neg h]; exact .inl ⟨rfl, h⟩
  | @col r c a j ih =>
    have ha := hs.2.ty
    have hj := hs.1.2
    simp only [Ty.Small] at ha
    refine (ih σ hs.2 (hd.imp (·.2) id)).bind (Q := j < c) (fun x hx => ?_) fun h => ⟨⟨h.1.2, h.2.2⟩, h.2.1⟩
    rw [col_nth t x j hj (by omega)]
    by_cases h : j < c
    · rw [dif_pos h]
      refine .inr ⟨_, rfl, ?_⟩
      rw [Ex.den, dif_pos h, ← hx]
      funext i; exact Vec.get_ofFn _ i
    · rw [dif_neg h]; exact .inl ⟨rfl, h⟩

omit [CommRing K] in
theorem sound_put (σ : Store K) (τ : Ty) (i : Nat) {P : Prop} {x : Res (Val K τ)} {d : Den K τ} {ρ : Env K}
    (h : Sound (Val.den id τ) P x d) (hρ : (σ.den id).put τ i d = ρ) :
    Sound (Store.den id) P (do let w ← x; pure (σ.put τ i w)) ρ :=
  h.bind (Q := True) (fun w hw => .ok (by rw [Store.den_put, hw, hρ])) fun h => ⟨h, trivial⟩

include hO in
/-- With exact numbers a statement has its effect in linear algebra, or panics although it divides or has an index out
of range. -/
theorem exact_exec (σ : Store K) (a : Act) (hs : a.Small t.W) (hd : a.DivFree ∨ DivOk t O dv) :
    Sound (Store.den id) (a.DivFree ∧ a.InRange) (a.exec t O σ) (a.den dv (σ.den id)) := by
  cases a with
  | set i e => exact sound_put σ _ i (exact_eval hO t σ e hs.2 hd) rfl
  | @upd τ o i e =>
    refine (exact_eval hO t σ e hs.2 hd).bind (Q := True) (fun x hx => ?_) fun h => ⟨h, trivial⟩
    rw [after_upd t]
    obtain ⟨w, h1, h2⟩ := exact_bin hO t o .vv _ (σ τ i) x
    refine sound_put σ _ i (.inr ⟨w, h1, h2⟩) ?_
    cases o <;> rw [Act.den, ← hx] <;> rfl
  | updScale τ i s =>
    refine (exact_eval hO t σ s hs.2 hd).bind (Q := True) (fun x hx => ?_) fun h => ⟨h, trivial⟩
    rw [after_updScale t]
    obtain ⟨w, h1, h2⟩ := exact_scale hO t _ (σ τ i) x
    refine sound_put σ _ i (.inr ⟨w, h1, h2⟩) ?_
    rw [Act.den, ← hx]; rfl
  | updQuot τ i s =>
    rcases hd with hd | hd
    · exact hd.elim
    refine (exact_eval hO t σ s hs.2 (.inr hd)).bind (Q := False) (fun x hx => ?_) fun h => h.1.elim
    rw [after_updQuot t]
    refine sound_put σ _ i (P := False) (d := Den.quot dv τ (Val.den id τ (σ τ i)) x) ?_ ?_
    · rcases exact_quot t hd.div _ (σ τ i) x with h | ⟨w, h1, h2⟩
      · exact .inl ⟨h, id⟩
      · exact .inr ⟨w, h1, h2⟩
    · rw [Act.den, ← hx]; rfl
  | @updMul n i e =>
    have h2 := hs.1
    refine (exact_eval hO t σ e hs.2 hd).bind (Q := True) (fun x hx => ?_) fun h => ⟨h, trivial⟩
    rw [after_updMul t]
    refine sound_put σ (.m n n) i (.inr ⟨_, mulVV_eq hO.toIsSemiring t _ x (by omega) (by omega) (by omega),
      Mat.toMatrix_ofMatrix _⟩) ?_
    rw [Act.den, ← hx]; rfl
  | transpose n i =>
    simp only [Act.Small] at hs
    simp only [Act.exec]
    rw [after_transpose t]
    refine sound_put σ (.m n n) i (.inr ⟨_, transposed_eq t _ (by omega), Mat.toMatrix_ofMatrix _⟩) ?_
    rw [Act.den]; rfl
  | vset n i k e =>
    refine (exact_eval hO t σ e hs.2 hd).bind (Q := k < n) (fun x hx => ?_) fun h => ⟨⟨h.1, h.2.2⟩, h.2.1⟩
    refine sound_put σ (.v n) i (d := fun j => if j.val = k then x else (σ (.v n) i).get j) ?_ ?_
    · by_cases h : k < n
      · exact .inr ⟨_, Vec.indexSet_ok _ h x, by funext j; exact Vec.get_put _ k x j⟩
      · exact .inl ⟨Vec.indexSet_panic _ (by omega) x, h⟩
    · rw [Act.den, ← hx]; rfl
  | mset r c i k l e =>
    refine (exact_eval hO t σ e hs.2.2 hd).bind (Q := k < r ∧ l < c) (fun x hx => ?_) fun h =>
      ⟨⟨h.1, h.2.2.2⟩, h.2.1, h.2.2.1⟩
    refine sound_put σ (.m r c) i (d := fun a b => if a.val = k ∧ b.val = l then x else (σ (.m r c) i).get a b) ?_ ?_
    · by_cases h : k < r ∧ l < c
      · exact .inr ⟨_, Mat.indexSet_ok _ h.1 h.2 x, by funext a b; exact Mat.get_put _ h.1 x a b⟩
      · exact .inl ⟨Mat.indexSet_panic _ (by omega) x, h⟩
    · rw [Act.den, ← hx]; rfl

include hO in
theorem exact_run (hz : ∀ a, O.isZero a = true ↔ a = 0) (p : Stmt) (σ : Store K) (x : Res (Store K)) (h : Run t O p σ x)
    (hs : p.Small t.W) (hd : p.DivFree ∨ DivOk t O dv) :
    (x = .error .panic ∧ ¬ (p.DivFree ∧ p.InRange)) ∨ ∃ σ', x = .ok σ' ∧ Means dv p (σ.den id) (σ'.den id) := by
  have hz' : ∀ {τ : Ty} {e : Ex τ} {σ : Store K} {v : Val K τ}, e.Small t.W → (e.DivFree ∨ DivOk t O dv) →
      e.eval t O σ = .ok v → (Val.isZero O τ v = true ↔ e.den dv (σ.den id) = 0) := by
    intro τ e σ v hs hd he
    rcases exact_eval hO t σ e hs hd with ⟨h, _⟩ | ⟨w, h1, h2⟩
    · rw [he] at h; cases h
    · rw [he] at h1; cases h1
      rw [exact_isZero hz, h2]
  have hp : ∀ {τ : Ty} {e : Ex τ} {σ : Store K} {f : Fault}, e.Small t.W → (e.DivFree ∨ DivOk t O dv) →
      e.eval t O σ = .error f → f = .panic ∧ ¬ (e.DivFree ∧ e.InRange) := by
    intro τ e σ v hs hd he
    rcases exact_eval hO t σ e hs hd with ⟨h, h'⟩ | ⟨w, h1, h2⟩
    · rw [he] at h; cases h; exact ⟨rfl, h'⟩
    · rw [he] at h1; cases h1
  induction h with
  | skip σ => exact .inr ⟨σ, rfl, .skip _⟩
  | act a σ =>
    rcases exact_exec hO t σ a hs hd with h | ⟨σ', h1, h2⟩
    · exact .inl h
    · exact .inr ⟨σ', h1, h2 ▸ .act a (σ.den id)⟩
  | seq _ _ ih1 ih2 =>
    rcases ih1 hs.1 (hd.imp (·.1) id) with ⟨h, _⟩ | ⟨σ1, h1, h2⟩
    · cases h
    · cases h1
      rcases ih2 hs.2 (hd.imp (·.2) id) with ⟨h, h'⟩ | ⟨σ2, h3, h4⟩
      · exact .inl ⟨h, fun g => h' ⟨g.1.2, g.2.2⟩⟩
      · exact .inr ⟨σ2, h3, .seq h2 h4⟩
  | seqFault _ ih =>
    rcases ih hs.1 (hd.imp (·.1) id) with ⟨h, h'⟩ | ⟨σ1, h1, h2⟩
    · exact .inl ⟨h, fun g => h' ⟨g.1.1, g.2.1⟩⟩
    · cases h1
  | @iteZero τ e p q σ v x he hv _ ih =>
    rcases ih hs.2.1 (hd.imp (·.2.1) id) with ⟨h, h'⟩ | ⟨σ', h3, h4⟩
    · exact .inl ⟨h, fun g => h' ⟨g.1.2.1, g.2.2.1⟩⟩
    · exact .inr ⟨σ', h3, .iteZero ((hz' hs.1 (hd.imp (·.1) id) he).1 hv) h4⟩
  | @iteElse τ e p q σ v x he hv _ ih =>
    rcases ih hs.2.2 (hd.imp (·.2.2) id) with ⟨h, h'⟩ | ⟨σ', h3, h4⟩
    · exact .inl ⟨h, fun g => h' ⟨g.1.2.2, g.2.2.2⟩⟩
    · exact .inr ⟨σ', h3, .iteElse (fun g => by
        have := (hz' hs.1 (hd.imp (·.1) id) he).2 g
        rw [hv] at this; cases this) h4⟩
  | @iteFault τ e p q σ f he =>
    obtain ⟨rfl, h⟩ := hp hs.1 (hd.imp (·.1) id) he
    exact .inl ⟨rfl, fun g => h ⟨g.1.1, g.2.1⟩⟩
  | @loopGo τ b e p σ v σ' x he hv _ _ ih1 ih2 =>
    rcases ih1 hs.2 (hd.imp (·.2) id) with ⟨h, _⟩ | ⟨σ1, h3, h4⟩
    · cases h
    · cases h3
      rcases ih2 hs hd with h | ⟨σ2, h5, h6⟩
      · exact .inl h
      · exact .inr ⟨σ2, h5, .loopGo (by rw [← hz' hs.1 (hd.imp (·.1) id) he, hv]) h4 h6⟩
  | @loopBody τ b e p σ v f he hv _ ih =>
    rcases ih hs.2 (hd.imp (·.2) id) with ⟨h, h'⟩ | ⟨σ1, h3, h4⟩
    · exact .inl ⟨h, fun g => h' ⟨g.1.2, g.2.2⟩⟩
    · cases h3
  | @loopEnd τ b e p σ v he hv =>
    refine .inr ⟨σ, rfl, .loopEnd ?_⟩
    rw [← hz' hs.1 (hd.imp (·.1) id) he, hv]
    cases b <;> simp
  | @loopFault τ b e p σ f he =>
    obtain ⟨rfl, h⟩ := hp hs.1 (hd.imp (·.1) id) he
    exact .inl ⟨rfl, fun g => h ⟨g.1.1, g.2.1⟩⟩

include hO in
/-- If the program has a meaning, it does not divide and its indices are in range, then it runs to that meaning. -/
theorem exact_complete (hz : ∀ a, O.isZero a = true ↔ a = 0) (p : Stmt) (ρ ρ' : Env K) (h : Means dv p ρ ρ')
    (hs : p.Small t.W) (hd : p.DivFree) (hi : p.InRange) (σ : Store K) (hσ : σ.den id = ρ) :
    ∃ σ', Run t O p σ (.ok σ') ∧ σ'.den id = ρ' := by
  have hz' : ∀ {τ : Ty} (e : Ex τ) (σ : Store K), e.Small t.W → e.DivFree → e.InRange →
      ∃ v, e.eval t O σ = .ok v ∧ (Val.isZero O τ v = true ↔ e.den dv (σ.den id) = 0) := by
    intro τ e σ hs hd hi
    rcases exact_eval hO t (dv := dv) σ e hs (.inl hd) with ⟨_, h⟩ | ⟨w, h1, h2⟩
    · exact absurd ⟨hd, hi⟩ h
    · exact ⟨w, h1, by rw [exact_isZero hz, h2]⟩
  induction h generalizing σ with
  | skip ρ => exact ⟨σ, .skip σ, hσ⟩
  | act a ρ =>
    rcases exact_exec hO t (dv := dv) σ a hs (.inl hd) with ⟨_, h⟩ | ⟨σ', h1, h2⟩
    · exact absurd ⟨hd, hi⟩ h
    · exact ⟨σ', h1 ▸ .act a σ, by rw [h2, hσ]⟩
  | seq _ _ ih1 ih2 =>
    obtain ⟨σ1, h1, h2⟩ := ih1 hs.1 hd.1 hi.1 σ hσ
    obtain ⟨σ2, h3, h4⟩ := ih2 hs.2 hd.2 hi.2 σ1 h2
    exact ⟨σ2, .seq h1 h3, h4⟩
  | @iteZero τ e p q ρ ρ' h0 _ ih =>
    obtain ⟨v, hv, h⟩ := hz' e σ hs.1 hd.1 hi.1
    obtain ⟨σ1, h1, h2⟩ := ih hs.2.1 hd.2.1 hi.2.1 σ hσ
    exact ⟨σ1, .iteZero hv (h.2 (by rw [hσ, h0])) h1, h2⟩
  | @iteElse τ e p q ρ ρ' h0 _ ih =>
    obtain ⟨v, hv, h⟩ := hz' e σ hs.1 hd.1 hi.1
    obtain ⟨σ1, h1, h2⟩ := ih hs.2.2 hd.2.2 hi.2.2 σ hσ
    exact ⟨σ1, .iteElse hv (by rw [← Bool.not_eq_true, h, hσ]; exact h0) h1, h2⟩
  | @loopGo τ b e p ρ ρ' ρ'' h0 _ _ ih1 ih2 =>
    obtain ⟨v, hv, h⟩ := hz' e σ hs.1 hd.1 hi.1
    obtain ⟨σ1, h1, h2⟩ := ih1 hs.2 hd.2 hi.2 σ hσ
    obtain ⟨σ2, h3, h4⟩ := ih2 hs hd hi σ1 h2
    exact ⟨σ2, .loopGo hv (by rw [Bool.eq_iff_iff, h, hσ, h0]) h1 h3, h4⟩
  | @loopEnd τ b e p ρ h0 =>
    obtain ⟨v, hv, h⟩ := hz' e σ hs.1 hd.1 hi.1
    refine ⟨σ, .loopEnd hv ?_, hσ⟩
    rw [← hσ, ← h] at h0
    revert h0
    cases Val.isZero O τ v <;> cases b <;> simp

end Exact

end Prog
end Rowcol
