import Verif.Props.Det

/-! Transport of the crate's computations along a map between element types: if every element operation of `T`
either panics or agrees with the corresponding operation of `T'`, so does every vector and matrix operation. -/

namespace Rowcol

/-- `x` panics, or returns a value whose image under `φ` is what `y` returns. -/
def ExactOrPanic {α β : Type} (φ : α → β) (x : Res α) (y : Res β) : Prop :=
  x = .error .panic ∨ ∃ a, x = .ok a ∧ y = .ok (φ a)

namespace ExactOrPanic
variable {α β γ δ σ τ ι : Type} {φ : α → β} {ψ : γ → δ}

theorem panic (y : Res β) : ExactOrPanic φ (.error .panic) y := .inl rfl

theorem ok (a : α) : ExactOrPanic φ (.ok a) (.ok (φ a)) := .inr ⟨a, rfl, rfl⟩

theorem ok' {a : α} {b : β} (h : φ a = b) : ExactOrPanic φ (.ok a) (.ok b) := .inr ⟨a, rfl, by rw [h]⟩

theorem bind {x : Res α} {y : Res β} (h : ExactOrPanic φ x y) {f : α → Res γ} {g : β → Res δ}
    (hf : ∀ a, ExactOrPanic ψ (f a) (g (φ a))) : ExactOrPanic ψ (x >>= f) (y >>= g) := by
  rcases h with rfl | ⟨a, rfl, rfl⟩
  · exact .inl rfl
  · exact hf a

theorem map {x : Res α} {y : Res β} (h : ExactOrPanic φ x y) {f : α → γ} {g : β → δ}
    (hf : ∀ a, ψ (f a) = g (φ a)) : ExactOrPanic ψ (x >>= fun a => pure (f a)) (y >>= fun b => pure (g b)) :=
  h.bind fun a => ok' (hf a)

theorem foldlM {f : σ → ι → Res σ} {g : τ → ι → Res τ} {φ : σ → τ} (l : List ι)
    (h : ∀ i ∈ l, ∀ s, ExactOrPanic φ (f s i) (g (φ s) i)) (s : σ) :
    ExactOrPanic φ (l.foldlM f s) (l.foldlM g (φ s)) := by
  induction l generalizing s with
  | nil => exact ok s
  | cons i l ih =>
    rw [List.foldlM_cons, List.foldlM_cons]
    exact (h i (by simp) s).bind fun a => ih (fun j hj => h j (by simp [hj])) a

end ExactOrPanic

namespace Vec
variable {T U : Type} {n : Nat}

/-- Apply a function to every element. -/
def mapV (φ : T → U) (v : Vec T n) : Vec U n := ⟨v.toList.map φ, by simp [v.length_eq]⟩

@[simp] theorem get_mapV (φ : T → U) (v : Vec T n) (i : Fin n) : (v.mapV φ).get i = φ (v.get i) := by
  simp [get, mapV]

theorem index_mapV (φ : T → U) (v : Vec T n) (i : Nat) : ExactOrPanic φ (v.index i) ((v.mapV φ).index i) := by
  by_cases h : i < n
  · rw [index_ok _ h, index_ok _ h, get_mapV]; exact .ok _
  · rw [index_panic _ (by omega)]; exact .panic _

theorem getUnchecked_mapV (t t' : Target) (φ : T → U) (v : Vec T n) {i : Nat} (h : i < n) :
    ExactOrPanic φ (v.getUnchecked t i) ((v.mapV φ).getUnchecked t' i) := by
  rw [getUnchecked_ok t _ h, getUnchecked_ok t' _ h, get_mapV]; exact .ok _

theorem collect_sim (t t' : Target) (φ : T → U) (f : Fin n → Res T) (g : Fin n → Res U)
    (h : ∀ i, ExactOrPanic φ (f i) (g i)) :
    ExactOrPanic (mapV φ) (collect t n ((List.finRange n).map f)) (collect t' n ((List.finRange n).map g)) := by
  cases hx : collect t n ((List.finRange n).map f) with
  | ok v =>
    rw [collect_finRange_ok_iff] at hx
    refine .inr ⟨v, rfl, ?_⟩
    rw [collect_finRange_ok_iff]
    intro i
    rcases h i with h | ⟨a, h1, h2⟩
    · rw [hx i] at h; cases h
    · rw [hx i] at h1; cases h1; rw [h2, get_mapV]
  | error e =>
    rw [collect_finRange_error_iff] at hx
    obtain ⟨k, hk, _⟩ := hx
    rcases h k with h | ⟨a, h1, h2⟩
    · rw [hk] at h; cases h; exact .inl rfl
    · rw [hk] at h1; cases h1

end Vec

namespace Mat
variable {T U : Type} {r c : Nat}

/-- Apply a function to every entry. -/
def mapV (φ : T → U) (a : Mat T r c) : Mat U r c := ⟨a.rows.mapV (Vec.mapV φ)⟩

@[simp] theorem get_mapV (φ : T → U) (a : Mat T r c) (i : Fin r) (j : Fin c) :
    (a.mapV φ).get i j = φ (a.get i j) := by simp [get, mapV]

theorem mapV_ofFn (φ : T → U) (f : Fin r → Fin c → T) : (ofFn f).mapV φ = ofFn fun i j => φ (f i j) :=
  ext_get (by simp)

theorem index_mapV (φ : T → U) (a : Mat T r c) (p : Nat × Nat) : ExactOrPanic φ (a.index p) ((a.mapV φ).index p) := by
  obtain ⟨i, j⟩ := p
  by_cases h : i < r ∧ j < c
  · rw [index_ok _ h.1 h.2, index_ok _ h.1 h.2, get_mapV]; exact .ok _
  · rw [index_panic _ (by omega)]; exact .panic _

theorem idxStatic_mapV (t t' : Target) (φ : T → U) (a : Mat T r c) {i j : Nat} (hi : i < r) (hj : j < c) :
    ExactOrPanic φ (a.idxStatic t i j) ((a.mapV φ).idxStatic t' i j) := by
  rw [idxStatic_ok t _ hi hj, idxStatic_ok t' _ hi hj, get_mapV]; exact .ok _

theorem indexSet_mapV (φ : T → U) (a : Mat T r c) (p : Nat × Nat) (x : T) :
    ExactOrPanic (mapV φ) (a.indexSet p x) ((a.mapV φ).indexSet p (φ x)) := by
  obtain ⟨i, j⟩ := p
  by_cases h : i < r ∧ j < c
  · rw [indexSet_ok _ h.1 h.2, indexSet_ok _ h.1 h.2]
    refine .ok' (ext_get fun k l => ?_)
    rw [get_mapV, get_put a h.1, get_put _ h.1, get_mapV]
    split <;> rfl
  · rw [indexSet_panic _ (by omega)]; exact .panic _

theorem collect_sim (t t' : Target) (φ : T → U) (f : Fin r → Fin c → Res T) (g : Fin r → Fin c → Res U)
    (h : ∀ i j, ExactOrPanic φ (f i j) (g i j)) :
    ExactOrPanic (mapV φ)
      (do let v ← Vec.collect t r ((List.finRange r).map fun i => Vec.collect t c ((List.finRange c).map (f i)))
          pure (⟨v⟩ : Mat T r c))
      (do let v ← Vec.collect t' r ((List.finRange r).map fun i => Vec.collect t' c ((List.finRange c).map (g i)))
          pure (⟨v⟩ : Mat U r c)) :=
  (Vec.collect_sim t t' (Vec.mapV φ) _ _ fun i => Vec.collect_sim t t' φ _ _ (h i)).map fun _ => rfl

end Mat

/-- Every `0`, `1`, `+`, `-`, `*` and negation of `O` panics or agrees, through `φ`, with that of `O'`. -/
structure Ops.Hom {T U : Type} (O : Ops T) (O' : Ops U) (φ : T → U) : Prop where
  zero : φ O.zero = O'.zero
  one : φ O.one = O'.one
  add : ∀ a b, ExactOrPanic φ (O.add a b) (O'.add (φ a) (φ b))
  sub : ∀ a b, ExactOrPanic φ (O.sub a b) (O'.sub (φ a) (φ b))
  mul : ∀ a b, ExactOrPanic φ (O.mul a b) (O'.mul (φ a) (φ b))
  neg : ∀ a, ExactOrPanic φ (O.neg a) (O'.neg (φ a))

/-- In addition the zero test agrees, and division by anything that is not zero panics or agrees. -/
structure Ops.DivHom {T U : Type} (O : Ops T) (O' : Ops U) (φ : T → U) : Prop extends Ops.Hom O O' φ where
  isZero : ∀ a, O'.isZero (φ a) = O.isZero a
  div : ∀ a b, O.isZero b = false → ExactOrPanic φ (O.div a b) (O'.div (φ a) (φ b))

section Hom
variable {T U : Type} {O : Ops T} {O' : Ops U} {φ : T → U} (H : O.Hom O' φ) {n r c l : Nat} (t t' : Target)
include H

/-! ### Vectors -/

theorem sim_mulFold (ps : List (T × T)) :
    ExactOrPanic φ (mulFold O ps) (mulFold O' (ps.map fun p => (φ p.1, φ p.2))) := by
  unfold mulFold
  rw [List.foldlM_map, ← H.zero]
  refine .foldlM _ (fun p _ s => ?_) _
  exact (H.mul _ _).bind fun q => H.add _ _

theorem sim_dot (a b : Vec T n) : ExactOrPanic φ (a.dot O b) ((a.mapV φ).dot O' (b.mapV φ)) := by
  have := sim_mulFold H (a.toList.zip b.toList)
  rw [Vec.dot, Vec.dot]
  rwa [show (a.mapV φ).toList.zip (b.mapV φ).toList = (a.toList.zip b.toList).map fun p => (φ p.1, φ p.2) by
    simp only [Vec.mapV]; rw [List.zip_map]; rfl]

theorem sim_vecSum (v : Vec T n) : ExactOrPanic φ (v.sum O) ((v.mapV φ).sum O') := by
  rw [Vec.sum, Vec.sum, Vec.mapV, List.foldlM_map, ← H.zero]
  exact .foldlM _ (fun p _ s => H.add _ _) _

theorem sim_cross (a b : Vec T 3) : ExactOrPanic (Vec.mapV φ) (a.cross t O b) ((a.mapV φ).cross t' O' (b.mapV φ)) := by
  have g : ∀ (v : Vec T 3) (i : Nat) (_ : i < 3), ExactOrPanic φ (v.getUnchecked t i) ((v.mapV φ).getUnchecked t' i) :=
    fun v i hi => Vec.getUnchecked_mapV t t' φ v hi
  unfold Vec.cross
  refine (g _ _ (by omega)).bind fun _ => (g _ _ (by omega)).bind fun _ => (H.mul _ _).bind fun _ =>
    (g _ _ (by omega)).bind fun _ => (g _ _ (by omega)).bind fun _ => (H.mul _ _).bind fun _ => (H.sub _ _).bind fun _ =>
    (g _ _ (by omega)).bind fun _ => (g _ _ (by omega)).bind fun _ => (H.mul _ _).bind fun _ =>
    (g _ _ (by omega)).bind fun _ => (g _ _ (by omega)).bind fun _ => (H.mul _ _).bind fun _ => (H.sub _ _).bind fun _ =>
    (g _ _ (by omega)).bind fun _ => (g _ _ (by omega)).bind fun _ => (H.mul _ _).bind fun _ =>
    (g _ _ (by omega)).bind fun _ => (g _ _ (by omega)).bind fun _ => (H.mul _ _).bind fun _ => (H.sub _ _).bind fun _ =>
    .ok' rfl

omit H in
theorem sim_vecOp {f : T → T → Res T} {g : U → U → Res U} (h : ∀ a b, ExactOrPanic φ (f a b) (g (φ a) (φ b)))
    (a b : Vec T n) : ExactOrPanic (Vec.mapV φ) (Vec.opVV t f a b) (Vec.opVV t' g (a.mapV φ) (b.mapV φ)) := by
  rw [vecForms_eq t f (Vec.opVV t f) (by simp [vecForms]), vecForms_eq t' g (Vec.opVV t' g) (by simp [vecForms])]
  exact Vec.collect_sim t t' φ _ _ fun i => by rw [Vec.get_mapV, Vec.get_mapV]; exact h _ _

omit H in
theorem sim_vecScalar {f : T → T → Res T} {g : U → U → Res U} {s : T}
    (h : ∀ a, ExactOrPanic φ (f a s) (g (φ a) (φ s))) (a : Vec T n) :
    ExactOrPanic (Vec.mapV φ) (a.mulScalar t f s) ((a.mapV φ).mulScalar t' g (φ s)) := by
  rw [Vec.mulScalar, Vec.mulScalar, Vec.toList_eq a, Vec.toList_eq (a.mapV φ), List.map_map, List.map_map]
  exact Vec.collect_sim t t' φ _ _ fun i => by simp only [Function.comp_def, Vec.get_mapV]; exact h _

omit H in
theorem sim_vecNeg {f : T → Res T} {g : U → Res U} (h : ∀ a, ExactOrPanic φ (f a) (g (φ a))) (a : Vec T n) :
    ExactOrPanic (Vec.mapV φ) (a.neg t f) ((a.mapV φ).neg t' g) := by
  rw [Vec.neg, Vec.neg, Vec.toList_eq a, Vec.toList_eq (a.mapV φ), List.map_map, List.map_map]
  exact Vec.collect_sim t t' φ _ _ fun i => by simp only [Function.comp_def, Vec.get_mapV]; exact h _

/-! ### Matrices -/

omit H in
theorem sim_matOp {f : T → T → Res T} {g : U → U → Res U} (h : ∀ a b, ExactOrPanic φ (f a b) (g (φ a) (φ b)))
    (a b : Mat T r c) : ExactOrPanic (Mat.mapV φ) (Mat.opVV t f a b) (Mat.opVV t' g (a.mapV φ) (b.mapV φ)) := by
  rw [matForms_eq t f (Mat.opVV t f) (by simp [matForms]), matForms_eq t' g (Mat.opVV t' g) (by simp [matForms])]
  exact Mat.collect_sim t t' φ _ _ fun i j => by rw [Mat.get_mapV, Mat.get_mapV]; exact h _ _

omit H in
theorem sim_matScalar {f : T → T → Res T} {g : U → U → Res U} {s : T}
    (h : ∀ a, ExactOrPanic φ (f a s) (g (φ a) (φ s))) (a : Mat T r c) :
    ExactOrPanic (Mat.mapV φ) (a.mulScalar t f s) ((a.mapV φ).mulScalar t' g (φ s)) := by
  rw [Mat.mulScalar, Mat.mulScalar]; simp only [Vec.mulScalar]; rw [matScalar_eq, matScalar_eq]
  exact Mat.collect_sim t t' φ _ _ fun i j => by rw [Mat.get_mapV]; exact h _

omit H in
theorem sim_matDivScalar {f : T → T → Res T} {g : U → U → Res U} {s : T}
    (h : ∀ a, ExactOrPanic φ (f a s) (g (φ a) (φ s))) (a : Mat T r c) :
    ExactOrPanic (Mat.mapV φ) (a.divScalar t f s) ((a.mapV φ).divScalar t' g (φ s)) := by
  rw [Mat.divScalar, Mat.divScalar]; simp only [Vec.divScalar]; rw [matScalar_eq, matScalar_eq]
  exact Mat.collect_sim t t' φ _ _ fun i j => by rw [Mat.get_mapV]; exact h _

omit H in
theorem sim_matNeg {f : T → Res T} {g : U → Res U} (h : ∀ a, ExactOrPanic φ (f a) (g (φ a))) (a : Mat T r c) :
    ExactOrPanic (Mat.mapV φ) (a.neg t f) ((a.mapV φ).neg t' g) := by
  rw [Mat.neg, Mat.neg]; simp only [Vec.neg]; rw [matScalar_eq, matScalar_eq]
  exact Mat.collect_sim t t' φ _ _ fun i j => by rw [Mat.get_mapV]; exact h _

theorem sim_matSum (a : Mat T r c) : ExactOrPanic φ (a.sum O) ((a.mapV φ).sum O') := by
  rw [Mat.sum, Mat.sum, Mat.mapV, Vec.mapV, List.foldlM_map, ← H.zero]
  exact .foldlM _ (fun row _ s => (sim_vecSum H row).bind fun _ => H.add _ _) _

theorem sim_mul (hW : t'.W = t.W) (a : Mat T l n) (b : Mat T n c) (hl : l < t.W) (hn : n < t.W) (hc : c < t.W) :
    ExactOrPanic (Mat.mapV φ) (a.mulVV t O b) ((a.mapV φ).mulVV t' O' (b.mapV φ)) := by
  rw [mulForms_eq t O (Mat.mulVV t O) (by simp [mulForms]) a b hl hn hc,
    mulForms_eq t' O' (Mat.mulVV t' O') (by simp [mulForms]) _ _ (hW ▸ hl) (hW ▸ hn) (hW ▸ hc)]
  refine Mat.collect_sim t t' φ _ _ fun i j => ?_
  have := sim_mulFold H (mulPairs a b i j)
  rwa [show mulPairs (a.mapV φ) (b.mapV φ) i j = (mulPairs a b i j).map fun p => (φ p.1, φ p.2) by
    simp [mulPairs, Function.comp_def]]

theorem sim_mulVec (hW : t'.W = t.W) (a : Mat T r c) (v : Vec T c) (hr : r < t.W) :
    ExactOrPanic (Vec.mapV φ) (a.mulVec t O v) ((a.mapV φ).mulVec t' O' (v.mapV φ)) := by
  rw [Mat.mulVec, Mat.mulVec, drain_rowsRef t a hr, drain_rowsRef t' (a.mapV φ) (hW ▸ hr)]
  simp only [res_ok_bind, rowsOf, List.map_map]
  refine Vec.collect_sim t t' φ _ _ fun i => ?_
  simp only [Function.comp_def, Vec.zip_eq, Vec.get_ofFn, Mat.get_mapV, Vec.get_mapV]
  have := sim_mulFold H ((List.finRange c).map fun k => (a.get i k, v.get k))
  rwa [List.map_map] at this

theorem sim_mulVecRef (a : Mat T r c) (v : Vec T c) :
    ExactOrPanic (Vec.mapV φ) (a.mulVecRef t O v) ((a.mapV φ).mulVecRef t' O' (v.mapV φ)) := by
  rw [Mat.mulVecRef, Mat.mulVecRef, rowsOf_eq a, rowsOf_eq (a.mapV φ)]
  simp only [rowsOf, List.map_map]
  refine Vec.collect_sim t t' φ _ _ fun i => ?_
  simp only [Function.comp_def, Vec.zip_eq, Vec.get_ofFn, Mat.get_mapV, Vec.get_mapV]
  have := sim_mulFold H ((List.finRange c).map fun k => (a.get i k, v.get k))
  rwa [List.map_map] at this

theorem sim_identity (n : Nat) : ExactOrPanic (Mat.mapV φ) (Mat.identity t O n) (Mat.identity t' O' n) := by
  rw [Mat.identity, Mat.identity, Mat.generate_ok t _ (fun i j => if i = j then O.one else O.zero) (by
    intro i j; simp [Fin.ext_iff]), Mat.generate_ok t' _ (fun i j => if i = j then O'.one else O'.zero) (by
    intro i j; simp [Fin.ext_iff])]
  refine .ok' ?_
  rw [Mat.mapV_ofFn]
  congr 1; funext i j; split
  · exact H.one
  · exact H.zero

omit H in
theorem sim_powStrip {A B : Type} {ψ : A → B} {f : A → A → Res A} {g : B → B → Res B}
    (h : ∀ a b, ExactOrPanic ψ (f a b) (g (ψ a) (ψ b))) (base : A) (exp : Nat) :
    ExactOrPanic (fun p : A × Nat => (ψ p.1, p.2)) (powStrip f base exp) (powStrip g (ψ base) exp) := by
  induction exp using Nat.strongRecOn generalizing base with
  | _ exp ih =>
    rw [powStrip, powStrip]
    split
    · exact (h _ _).bind fun b => ih _ (by omega) b
    · exact .ok' rfl

omit H in
theorem sim_powLoop {A B : Type} {ψ : A → B} {f : A → A → Res A} {g : B → B → Res B}
    (h : ∀ a b, ExactOrPanic ψ (f a b) (g (ψ a) (ψ b))) (acc base : A) (exp : Nat) :
    ExactOrPanic ψ (powLoop f acc base exp) (powLoop g (ψ acc) (ψ base) exp) := by
  induction exp using Nat.strongRecOn generalizing acc base with
  | _ exp ih =>
    rw [powLoop, powLoop]
    split
    · refine (h _ _).bind fun b => ?_
      by_cases ho : exp / 2 % 2 = 1
      · simp only [ho, if_true]
        exact (h _ _).bind fun a => ih _ (by omega) a b
      · simp only [ho, if_false]
        exact ih _ (by omega) acc b
    · exact .ok _

omit H in
theorem sim_numPow {A B : Type} {ψ : A → B} {f : A → A → Res A} {g : B → B → Res B} {one : Res A} {one' : Res B}
    (h1 : ExactOrPanic ψ one one')
    (h : ∀ a b, ExactOrPanic ψ (f a b) (g (ψ a) (ψ b))) (base : A) (exp : Nat) :
    ExactOrPanic ψ (numPow one f base exp) (numPow one' g (ψ base) exp) := by
  unfold numPow
  split
  · exact h1
  · refine (sim_powStrip h base exp).bind fun p => ?_
    simp only
    split
    · exact .ok _
    · exact sim_powLoop h _ _ _

theorem sim_pow (hW : t'.W = t.W) (a : Mat T n n) (k : Nat) (hn : n < t.W) :
    ExactOrPanic (Mat.mapV φ) (a.pow t O k) ((a.mapV φ).pow t' O' k) := by
  rw [Mat.pow, Mat.pow, Mat.clone_ok, Mat.clone_ok]
  exact sim_numPow (sim_identity H t t' n) (fun x y => sim_mul H t t' hW x y hn hn hn) a k

/-! ### Determinant, cofactor, inverse -/

theorem sim_det2 (a : Mat T 2 2) : ExactOrPanic φ (a.det2 t O) ((a.mapV φ).det2 t' O') := by
  unfold Mat.det2
  exact (Mat.idxStatic_mapV t t' φ a (by omega) (by omega)).bind fun _ =>
    (Mat.idxStatic_mapV t t' φ a (by omega) (by omega)).bind fun _ => (H.mul _ _).bind fun _ =>
    (Mat.idxStatic_mapV t t' φ a (by omega) (by omega)).bind fun _ =>
    (Mat.idxStatic_mapV t t' φ a (by omega) (by omega)).bind fun _ => (H.mul _ _).bind fun _ => H.sub _ _

theorem sim_det3Term (a : Mat T 3 3) {i j k : Nat} (hi : i < 3) (hj : j < 3) (hk : k < 3) :
    ExactOrPanic φ (a.det3Term t O i j k) ((a.mapV φ).det3Term t' O' i j k) := by
  unfold Mat.det3Term
  exact (Mat.idxStatic_mapV t t' φ a (by omega) hi).bind fun _ =>
    (Mat.idxStatic_mapV t t' φ a (by omega) hj).bind fun _ => (H.mul _ _).bind fun _ =>
    (Mat.idxStatic_mapV t t' φ a (by omega) hk).bind fun _ => H.mul _ _

theorem sim_det3 (a : Mat T 3 3) : ExactOrPanic φ (a.det3 t O) ((a.mapV φ).det3 t' O') := by
  have g : ∀ (i j k : Nat) (_ : i < 3) (_ : j < 3) (_ : k < 3), ExactOrPanic φ (a.det3Term t O i j k)
    ((a.mapV φ).det3Term t' O' i j k) := fun i j k hi hj hk => sim_det3Term H t t' a hi hj hk
  unfold Mat.det3
  exact (g _ _ _ (by omega) (by omega) (by omega)).bind fun _ => (g _ _ _ (by omega) (by omega) (by omega)).bind fun _ =>
    (H.add _ _).bind fun _ => (g _ _ _ (by omega) (by omega) (by omega)).bind fun _ =>
    (H.add _ _).bind fun _ => (g _ _ _ (by omega) (by omega) (by omega)).bind fun _ =>
    (H.sub _ _).bind fun _ => (g _ _ _ (by omega) (by omega) (by omega)).bind fun _ =>
    (H.sub _ _).bind fun _ => (g _ _ _ (by omega) (by omega) (by omega)).bind fun _ => H.sub _ _

theorem sim_det_small (k : Nat) (hk : k ≤ 2) (a : Mat T (k + 1) (k + 1)) :
    ExactOrPanic φ (a.determinant t O k) ((a.mapV φ).determinant t' O' k) := by
  match k, hk with
  | 0, _ => exact Mat.idxStatic_mapV t t' φ a (by omega) (by omega)
  | 1, _ => exact sim_det2 H t t' a
  | 2, _ => exact sim_det3 H t t' a

theorem sim_cofSign (hW : t'.W = t.W) (i j : Nat) (hij : i + j < t.W) : ExactOrPanic φ (Mat.cofSign t O i j) (Mat.cofSign t' O' i j) := by
  unfold Mat.cofSign
  rw [uadd_ok t hij, uadd_ok t' (hW ▸ hij)]
  simp only [res_ok_bind]
  split
  · exact .ok' H.one
  · rw [← H.one]; exact H.neg _

omit H in
theorem sim_minor (hW : t'.W = t.W) (a : Mat T (n + 1) (n + 1)) (i j : Nat) (hi : i < n + 1) (hj : j < n + 1) (hn : n + 1 < t.W) :
    ExactOrPanic (Mat.mapV φ) (a.minor t i j) ((a.mapV φ).minor t' i j) := by
  rw [minor_eq t a ⟨i, hi⟩ ⟨j, hj⟩ hn, minor_eq t' (a.mapV φ) ⟨i, hi⟩ ⟨j, hj⟩ (hW ▸ hn)]
  refine .ok' (Mat.ext_get fun k l => ?_)
  simp

theorem sim_cofGen (hW : t'.W = t.W) {det : Mat T n n → Res T} {det' : Mat U n n → Res U}
    (hd : ∀ b, ExactOrPanic φ (det b) (det' (b.mapV φ))) (a : Mat T (n + 1) (n + 1)) (p : Nat × Nat)
    (hn : n + 1 < t.W) (hp : p.1 + p.2 < t.W) :
    ExactOrPanic φ (Mat.cofGen t O det a p) (Mat.cofGen t' O' det' (a.mapV φ) p) := by
  unfold Mat.cofGen
  split
  · rename_i h
    exact (sim_minor t t' hW a _ _ h.1 h.2 hn).bind fun b => (sim_cofSign H t t' hW _ _ hp).bind fun s =>
      (hd b).bind fun d => H.mul _ _
  · exact .panic _

theorem sim_cof_small (hW : t'.W = t.W) (k : Nat) (hk : k ≤ 1) (a : Mat T (k + 2) (k + 2)) (p : Nat × Nat) (hn : k + 2 < t.W)
    (hp : p.1 < k + 2 ∧ p.2 < k + 2) (hp' : p.1 + p.2 < t.W) :
    ExactOrPanic φ (a.cofactor t O k p) ((a.mapV φ).cofactor t' O' k p) := by
  match k, hk with
  | 0, _ =>
    change ExactOrPanic φ (a.cof2 t O p) ((a.mapV φ).cof2 t' O' p)
    unfold Mat.cof2
    rw [usub_ok t (by omega), usub_ok t (by omega), usub_ok t' (by omega), usub_ok t' (by omega)]
    exact (sim_cofSign H t t' hW _ _ hp').bind fun s => (Mat.index_mapV φ a _).bind fun x => H.mul _ _
  | 1, _ =>
    change ExactOrPanic φ (a.cof3 t O p) ((a.mapV φ).cof3 t' O' p)
    unfold Mat.cof3
    rw [if_pos (by omega), if_pos (by omega)]
    exact (sim_cofSign H t t' hW _ _ hp').bind fun s => (sim_minor t t' hW a _ _ hp.1 hp.2 hn).bind fun b =>
      (sim_det2 H t t' b).bind fun d => H.mul _ _

end Hom

section DivHom
variable {T U : Type} {O : Ops T} {O' : Ops U} {φ : T → U} (H : O.DivHom O' φ) {n : Nat} (t t' : Target)
include H

theorem sim_elimRow (m : Mat T n n) (i j : Nat) (d : T) :
    ExactOrPanic (Mat.mapV φ) (Mat.elimRow O m i j d) (Mat.elimRow O' (m.mapV φ) i j (φ d)) := by
  unfold Mat.elimRow
  refine .foldlM (φ := Mat.mapV φ) _ (fun k _ s => ?_) m
  exact (Mat.index_mapV φ s _).bind fun _ => (Mat.index_mapV φ s _).bind fun _ => (H.mul _ _).bind fun _ =>
    (H.sub _ _).bind fun _ => Mat.indexSet_mapV φ s _ _

theorem sim_elimCol (i : Nat) (js : List Nat) (m : Mat T n n) :
    ExactOrPanic (Option.map (Mat.mapV φ)) (Mat.elimCol O i js m) (Mat.elimCol O' i js (m.mapV φ)) := by
  induction js generalizing m with
  | nil => exact .ok' rfl
  | cons j js ih =>
    unfold Mat.elimCol
    rcases Mat.index_mapV φ m (i, i) with hp | ⟨q, hq, hq'⟩
    · rw [hp]; exact .panic _
    · rw [hq, hq']
      simp only [res_ok_bind, H.isZero]
      by_cases hz : O.isZero q = true
      · simp only [hz, if_true]; exact .ok' rfl
      · rw [if_neg hz, if_neg hz]
        exact (Mat.index_mapV φ m (j, i)).bind fun x =>
          (H.div _ _ (by simpa using hz)).bind fun d => (sim_elimRow H m i j d).bind fun m' => ih m'

theorem sim_elimAll (is : List Nat) (m : Mat T n n) :
    ExactOrPanic (Option.map (Mat.mapV φ)) (Mat.elimAll O is m) (Mat.elimAll O' is (m.mapV φ)) := by
  induction is generalizing m with
  | nil => exact .ok' rfl
  | cons i is ih =>
    unfold Mat.elimAll
    refine (sim_elimCol H i _ m).bind fun o => ?_
    cases o with
    | none => exact .ok' rfl
    | some m' => exact ih m'

theorem sim_detGen {cof : Nat × Nat → Res T} {cof' : Nat × Nat → Res U}
    (hc : ∀ i < n, ExactOrPanic φ (cof (i, 0)) (cof' (i, 0))) (a : Mat T n n) :
    ExactOrPanic φ (Mat.detGen t O cof a) (Mat.detGen t' O' cof' (a.mapV φ)) := by
  unfold Mat.detGen
  rw [Mat.clone_ok, Mat.clone_ok]
  refine (sim_elimAll H (List.range n) a).bind fun o => ?_
  cases o with
  | none =>
    simp only [Option.map_none]
    rw [← H.zero]
    refine .foldlM _ (fun i hi s => ?_) _
    exact (Mat.index_mapV φ a _).bind fun x => (hc i (List.mem_range.1 hi)).bind fun y => (H.mul _ _).bind fun p =>
      H.add _ _
  | some m =>
    simp only [Option.map_some]
    rw [← H.one]
    refine .foldlM _ (fun i hi s => ?_) _
    exact (Mat.index_mapV φ m _).bind fun x => H.mul _ _

theorem sim_det (hW : t'.W = t.W) (k : Nat) (a : Mat T (k + 1) (k + 1)) (hk : k + 1 < t.W) :
    ExactOrPanic φ (a.determinant t O k) ((a.mapV φ).determinant t' O' k) := by
  induction k with
  | zero => exact sim_det_small H.toHom t t' 0 (by omega) a
  | succ k ih =>
    match k, ih with
    | 0, _ => exact sim_det_small H.toHom t t' 1 (by omega) a
    | 1, _ => exact sim_det_small H.toHom t t' 2 (by omega) a
    | k + 2, ih =>
      exact sim_detGen H t t' (fun i hi => sim_cofGen H.toHom t t' hW (fun b => ih b (by omega)) a (i, 0) hk (by simp; omega)) a

theorem sim_cof (hW : t'.W = t.W) (k : Nat) (a : Mat T (k + 2) (k + 2)) (p : Nat × Nat) (hk : k + 2 < t.W)
    (hp : p.1 < k + 2 ∧ p.2 < k + 2) (hp' : p.1 + p.2 < t.W) :
    ExactOrPanic φ (a.cofactor t O k p) ((a.mapV φ).cofactor t' O' k p) := by
  match k with
  | 0 => exact sim_cof_small H.toHom t t' hW 0 (by omega) a p hk hp hp'
  | 1 => exact sim_cof_small H.toHom t t' hW 1 (by omega) a p hk hp hp'
  | k + 2 => exact sim_cofGen H.toHom t t' hW (fun b => sim_det H t t' hW _ b (by omega)) a p hk hp'

omit H in
theorem sim_new (m : Nat) (rows : Vec (Vec T m) n) :
    ExactOrPanic (Mat.mapV φ) (Mat.new t rows) (Mat.new t' (rows.mapV (Vec.mapV φ))) := by
  unfold Mat.new
  rw [Vec.collect_pure t n _ rows.length_eq, Vec.collect_pure t' n _ (rows.mapV (Vec.mapV φ)).length_eq]
  exact .ok' rfl

theorem sim_ms (a : Mat T 3 3) (p q u v : Nat × Nat) (h : p.1 < 3 ∧ p.2 < 3 ∧ q.1 < 3 ∧ q.2 < 3 ∧ u.1 < 3 ∧ u.2 < 3 ∧
    v.1 < 3 ∧ v.2 < 3) : ExactOrPanic φ (a.ms t O p q u v) ((a.mapV φ).ms t' O' p q u v) := by
  unfold Mat.ms
  exact (Mat.idxStatic_mapV t t' φ a h.1 h.2.1).bind fun _ => (Mat.idxStatic_mapV t t' φ a h.2.2.1 h.2.2.2.1).bind fun _ =>
    (H.mul _ _).bind fun _ => (Mat.idxStatic_mapV t t' φ a h.2.2.2.2.1 h.2.2.2.2.2.1).bind fun _ =>
    (Mat.idxStatic_mapV t t' φ a h.2.2.2.2.2.2.1 h.2.2.2.2.2.2.2).bind fun _ => (H.mul _ _).bind fun _ => H.sub _ _

theorem sim_gjScale (i : Nat) (x : T) (s : Mat T n n × Mat T n n) :
    ExactOrPanic (Prod.map (Mat.mapV φ) (Mat.mapV φ)) (Mat.gjScale O i x s)
      (Mat.gjScale O' i (φ x) (s.1.mapV φ, s.2.mapV φ)) := by
  unfold Mat.gjScale
  refine .foldlM (φ := Prod.map (Mat.mapV φ) (Mat.mapV φ)) _ (fun k _ s => ?_) s
  exact (Mat.index_mapV φ s.1 _).bind fun _ => (H.mul _ _).bind fun _ => (Mat.indexSet_mapV φ s.1 _ _).bind fun _ =>
    (Mat.index_mapV φ s.2 _).bind fun _ => (H.mul _ _).bind fun _ => (Mat.indexSet_mapV φ s.2 _ _).bind fun _ =>
    .ok' rfl

theorem sim_gjRow (i j : Nat) (x : T) (s : Mat T n n × Mat T n n) :
    ExactOrPanic (Prod.map (Mat.mapV φ) (Mat.mapV φ)) (Mat.gjRow O i j x s)
      (Mat.gjRow O' i j (φ x) (s.1.mapV φ, s.2.mapV φ)) := by
  unfold Mat.gjRow
  refine .foldlM (φ := Prod.map (Mat.mapV φ) (Mat.mapV φ)) _ (fun k _ s => ?_) s
  exact (Mat.index_mapV φ s.1 _).bind fun _ => (Mat.index_mapV φ s.1 _).bind fun _ => (H.mul _ _).bind fun _ =>
    (H.sub _ _).bind fun _ => (Mat.indexSet_mapV φ s.1 _ _).bind fun _ =>
    (Mat.index_mapV φ s.2 _).bind fun _ => (Mat.index_mapV φ s.2 _).bind fun _ => (H.mul _ _).bind fun _ =>
    (H.sub _ _).bind fun _ => (Mat.indexSet_mapV φ s.2 _ _).bind fun _ => .ok' rfl

theorem sim_gjClear (i : Nat) (s : Mat T n n × Mat T n n) :
    ExactOrPanic (Prod.map (Mat.mapV φ) (Mat.mapV φ)) (Mat.gjClear O i s)
      (Mat.gjClear O' i (s.1.mapV φ, s.2.mapV φ)) := by
  unfold Mat.gjClear
  refine .foldlM (φ := Prod.map (Mat.mapV φ) (Mat.mapV φ)) _ (fun j _ s => ?_) s
  split
  · exact .ok _
  · exact (Mat.index_mapV φ s.1 _).bind fun _ => sim_gjRow H _ _ _ s

theorem sim_gjLoop (is : List Nat) (s : Mat T n n × Mat T n n) :
    ExactOrPanic (Option.map (Prod.map (Mat.mapV φ) (Mat.mapV φ))) (Mat.gjLoop O is s)
      (Mat.gjLoop O' is (s.1.mapV φ, s.2.mapV φ)) := by
  induction is generalizing s with
  | nil => exact .ok' rfl
  | cons i is ih =>
    unfold Mat.gjLoop
    refine (Mat.index_mapV φ s.1 _).bind fun d => ?_
    rw [H.isZero]
    by_cases hz : O.isZero d = true
    · rw [if_pos hz, if_pos hz]; exact .ok' rfl
    · rw [if_neg hz, if_neg hz]
      refine .bind (φ := φ) (by rw [← H.one]; exact H.div _ _ (by simpa using hz)) fun rcp => ?_
      exact (sim_gjScale H i rcp s).bind fun s' => (sim_gjClear H i s').bind fun s'' => ih s''

theorem sim_invGen (a : Mat T n n) :
    ExactOrPanic (Option.map (Mat.mapV φ)) (Mat.invGen t O a) (Mat.invGen t' O' (a.mapV φ)) := by
  unfold Mat.invGen
  rw [Mat.clone_ok, Mat.clone_ok]
  refine (sim_identity H.toHom t t' n).bind fun e => (sim_gjLoop H _ (a, e)).bind fun o => ?_
  cases o <;> exact .ok' rfl

theorem sim_inverse (k : Nat) (a : Mat T (k + 1) (k + 1)) :
    ExactOrPanic (Option.map (Mat.mapV φ)) (a.inverse t O k) ((a.mapV φ).inverse t' O' k) := by
  have g : ∀ {m : Nat} (b : Mat T m m) (i j : Nat) (_ : i < m) (_ : j < m),
    ExactOrPanic φ (b.idxStatic t i j) ((b.mapV φ).idxStatic t' i j) := fun b i j hi hj => Mat.idxStatic_mapV t t' φ b hi hj
  match k with
  | 0 =>
    change ExactOrPanic _ (Mat.inv1 t O a) (Mat.inv1 t' O' (a.mapV φ))
    unfold Mat.inv1
    refine (g a 0 0 (by omega) (by omega)).bind fun d => ?_
    rw [H.isZero]
    by_cases hz : O.isZero d = true
    · rw [if_pos hz, if_pos hz]; exact .ok' rfl
    · rw [if_neg hz, if_neg hz]
      refine .bind (φ := φ) (by rw [← H.one]; exact H.div _ _ (by simpa using hz)) fun x => ?_
      exact (sim_new t t' 1 _).bind fun b => .ok' rfl
  | 1 =>
    change ExactOrPanic _ (Mat.inv2 t O a) (Mat.inv2 t' O' (a.mapV φ))
    unfold Mat.inv2
    refine (sim_det2 H.toHom t t' a).bind fun d => ?_
    rw [H.isZero]
    by_cases hz : O.isZero d = true
    · rw [if_pos hz, if_pos hz]; exact .ok' rfl
    · rw [if_neg hz, if_neg hz]
      exact (g a _ _ (by omega) (by omega)).bind fun _ => (g a _ _ (by omega) (by omega)).bind fun _ =>
        (H.neg _).bind fun _ => (g a _ _ (by omega) (by omega)).bind fun _ => (H.neg _).bind fun _ =>
        (g a _ _ (by omega) (by omega)).bind fun _ => (sim_new t t' 2 _).bind fun b =>
        (sim_matDivScalar t t' (fun x => H.div x d (by simpa using hz)) b).bind fun b' => .ok' rfl
  | 2 =>
    change ExactOrPanic _ (Mat.inv3 t O a) (Mat.inv3 t' O' (a.mapV φ))
    unfold Mat.inv3
    refine (sim_det3 H.toHom t t' a).bind fun d => ?_
    rw [H.isZero]
    by_cases hz : O.isZero d = true
    · rw [if_pos hz, if_pos hz]; exact .ok' rfl
    · rw [if_neg hz, if_neg hz]
      have m : ∀ p q u v, (p.1 < 3 ∧ p.2 < 3 ∧ q.1 < 3 ∧ q.2 < 3 ∧ u.1 < 3 ∧ u.2 < 3 ∧ v.1 < 3 ∧ v.2 < 3) →
        ExactOrPanic φ (a.ms t O p q u v) ((a.mapV φ).ms t' O' p q u v) := fun p q u v h => sim_ms H t t' a p q u v h
      exact (m _ _ _ _ (by simp)).bind fun _ => (m _ _ _ _ (by simp)).bind fun _ => (m _ _ _ _ (by simp)).bind fun _ =>
        (m _ _ _ _ (by simp)).bind fun _ => (m _ _ _ _ (by simp)).bind fun _ => (m _ _ _ _ (by simp)).bind fun _ =>
        (m _ _ _ _ (by simp)).bind fun _ => (m _ _ _ _ (by simp)).bind fun _ => (m _ _ _ _ (by simp)).bind fun _ =>
        (sim_new t t' 3 _).bind fun b =>
        (sim_matDivScalar t t' (fun x => H.div x d (by simpa using hz)) b).bind fun b' => .ok' rfl
  | k + 3 => exact sim_invGen H t t' a

end DivHom
end Rowcol
