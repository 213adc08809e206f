import Verif.Lemmas.Param
import Verif.Props.Order
import Verif.MachInt

/-! # C85: operations commute with structure-preserving maps of the element type -/

namespace Rowcol
variable {T U : Type} {n r c l : Nat}

/-- `φ` carries `0`, `1`, `+`, `-`, `*` and negation of `O` to those of `O'`, including their panics. -/
structure Ops.Preserves (O : Ops T) (O' : Ops U) (φ : T → U) : Prop where
  zero : φ O.zero = O'.zero
  one : φ O.one = O'.one
  add : ∀ a b, O'.add (φ a) (φ b) = (O.add a b).map φ
  sub : ∀ a b, O'.sub (φ a) (φ b) = (O.sub a b).map φ
  mul : ∀ a b, O'.mul (φ a) (φ b) = (O.mul a b).map φ
  neg : ∀ a, O'.neg (φ a) = (O.neg a).map φ

/-- `φ` also preserves the zero test, and division by anything that is not zero. -/
structure Ops.PreservesDiv (O : Ops T) (O' : Ops U) (φ : T → U) : Prop extends Ops.Preserves O O' φ where
  isZero : ∀ a, O'.isZero (φ a) = O.isZero a
  div : ∀ a b, O.isZero b = false → O'.div (φ a) (φ b) = (O.div a b).map φ

theorem relFn_map {α β : Type} {φ : α → β} {x : Res α} {y : Res β} (h : y = x.map φ) :
    Rel False (fun a b => b = φ a) x y := by
  subst h
  cases x with
  | ok a => exact .ok rfl
  | error e => exact .fail e

theorem Ops.Preserves.rel {O : Ops T} {O' : Ops U} {φ : T → U} (H : O.Preserves O' φ) :
    Ops.RelHom False O O' (fun a b => b = φ a) where
  zero := H.zero.symm
  one := H.one.symm
  add := by rintro a b _ _ rfl rfl; exact relFn_map (H.add a b)
  sub := by rintro a b _ _ rfl rfl; exact relFn_map (H.sub a b)
  mul := by rintro a b _ _ rfl rfl; exact relFn_map (H.mul a b)
  neg := by rintro a _ rfl; exact relFn_map (H.neg a)

theorem Ops.PreservesDiv.rel {O : Ops T} {O' : Ops U} {φ : T → U} (H : O.PreservesDiv O' φ) :
    Ops.RelDivHom False O O' (fun a b => b = φ a) where
  toRelHom := H.toPreserves.rel
  isZero := by rintro a _ rfl; exact H.isZero a
  div := by rintro a b _ _ rfl rfl h; exact relFn_map (H.div a b h)

theorem vecRel_fn {φ : T → U} {v : Vec T n} {w : Vec U n} : VecRel (fun a b => b = φ a) v w ↔ w = v.mapV φ := by
  constructor
  · intro h; exact Vec.ext_get fun i => by rw [h i, Vec.get_mapV]
  · rintro rfl i; exact Vec.get_mapV ..

theorem matRel_fn {φ : T → U} {a : Mat T r c} {b : Mat U r c} : MatRel (fun a b => b = φ a) a b ↔ b = a.mapV φ := by
  constructor
  · intro h; exact Mat.ext_get fun i j => by rw [h i j, Mat.get_mapV]
  · rintro rfl i j; exact Mat.get_mapV ..

theorem Rel.eq_mapV {φ : T → U} {x : Res (Vec T n)} {y : Res (Vec U n)}
    (h : Rel False (VecRel fun a b => b = φ a) x y) : y = x.map (Vec.mapV φ) :=
  Rel.eq_map (h.mono fun _ _ h => vecRel_fn.1 h)

theorem Rel.eq_mapM {φ : T → U} {x : Res (Mat T r c)} {y : Res (Mat U r c)}
    (h : Rel False (MatRel fun a b => b = φ a) x y) : y = x.map (Mat.mapV φ) :=
  Rel.eq_map (h.mono fun _ _ h => matRel_fn.1 h)

theorem Rel.eq_mapO {φ : T → U} {x : Res (Option (Mat T r c))} {y : Res (Option (Mat U r c))}
    (h : Rel False (OptRel (MatRel fun a b => b = φ a)) x y) : y = x.map (Option.map (Mat.mapV φ)) :=
  Rel.eq_map (h.mono fun o o' h => by
    cases o <;> cases o'
    · rfl
    · exact h.elim
    · exact h.elim
    · exact congrArg some (matRel_fn.1 h))

section
variable {O : Ops T} {O' : Ops U} {φ : T → U} (t : Target)

/-- C85, vector arithmetic: mapping the operands and then computing is computing and then mapping the result. -/
theorem C85_vec (H : O.Preserves O' φ) (a b : Vec T n) (x y : Vec T 3) (s : T) :
    Vec.opVV t O'.add (a.mapV φ) (b.mapV φ) = (Vec.opVV t O.add a b).map (Vec.mapV φ) ∧
    Vec.opVV t O'.sub (a.mapV φ) (b.mapV φ) = (Vec.opVV t O.sub a b).map (Vec.mapV φ) ∧
    (a.mapV φ).mulScalar t O'.mul (φ s) = (a.mulScalar t O.mul s).map (Vec.mapV φ) ∧
    (a.mapV φ).neg t O'.neg = (a.neg t O.neg).map (Vec.mapV φ) ∧
    (a.mapV φ).sum O' = (a.sum O).map φ ∧
    (a.mapV φ).dot O' (b.mapV φ) = (a.dot O b).map φ ∧
    (x.mapV φ).cross t O' (y.mapV φ) = (x.cross t O y).map (Vec.mapV φ) := by
  have e : ∀ {n : Nat} (v : Vec T n), VecRel (fun a b => b = φ a) v (v.mapV φ) := fun v => vecRel_fn.2 rfl
  exact ⟨(rel_vecOp t t H.rel.add (by simp [vecForms]) (by simp [vecForms]) (e a) (e b)).eq_mapV,
    (rel_vecOp t t H.rel.sub (by simp [vecForms]) (by simp [vecForms]) (e a) (e b)).eq_mapV,
    (rel_vecScalar t t (fun h => H.rel.mul h rfl) (e a)).eq_mapV,
    (rel_vecNeg t t H.rel.neg (e a)).eq_mapV,
    (rel_vecSum H.rel (e a)).eq_map, (rel_dot H.rel (e a) (e b)).eq_map, (rel_cross H.rel t t (e x) (e y)).eq_mapV⟩

/-- C85, matrix arithmetic, products and powers. -/
theorem C85_mat (H : O.Preserves O' φ) (a b : Mat T l n) (d : Mat T n c) (p : Mat T n n) (v : Vec T n) (s : T) (k : Nat)
    (hl : l < t.W) (hn : n < t.W) (hc : c < t.W) :
    Mat.opVV t O'.add (a.mapV φ) (b.mapV φ) = (Mat.opVV t O.add a b).map (Mat.mapV φ) ∧
    Mat.opVV t O'.sub (a.mapV φ) (b.mapV φ) = (Mat.opVV t O.sub a b).map (Mat.mapV φ) ∧
    (a.mapV φ).mulScalar t O'.mul (φ s) = (a.mulScalar t O.mul s).map (Mat.mapV φ) ∧
    (a.mapV φ).neg t O'.neg = (a.neg t O.neg).map (Mat.mapV φ) ∧
    (a.mapV φ).sum O' = (a.sum O).map φ ∧
    (a.mapV φ).mulVV t O' (d.mapV φ) = (a.mulVV t O d).map (Mat.mapV φ) ∧
    (a.mapV φ).mulVec t O' (v.mapV φ) = (a.mulVec t O v).map (Vec.mapV φ) ∧
    (a.mapV φ).mulVecRef t O' (v.mapV φ) = (a.mulVecRef t O v).map (Vec.mapV φ) ∧
    (p.mapV φ).pow t O' k = (p.pow t O k).map (Mat.mapV φ) ∧
    Mat.identity t O' n = (Mat.identity t O n).map (Mat.mapV φ) := by
  have e : ∀ {r c : Nat} (a : Mat T r c), MatRel (fun a b => b = φ a) a (a.mapV φ) := fun a => matRel_fn.2 rfl
  have ev : ∀ {n : Nat} (v : Vec T n), VecRel (fun a b => b = φ a) v (v.mapV φ) := fun v => vecRel_fn.2 rfl
  exact ⟨(rel_matOp t t H.rel.add (by simp [matForms]) (by simp [matForms]) (e a) (e b)).eq_mapM,
    (rel_matOp t t H.rel.sub (by simp [matForms]) (by simp [matForms]) (e a) (e b)).eq_mapM,
    (rel_matScalar t t (fun h => H.rel.mul h rfl) (e a)).eq_mapM,
    (rel_matNeg t t H.rel.neg (e a)).eq_mapM,
    (rel_matSum H.rel (e a)).eq_map,
    (rel_mul H.rel t t rfl (by simp [mulForms]) (by simp [mulForms]) (e a) (e d) hl hn hc).eq_mapM,
    (rel_mulVec H.rel t t rfl (e a) (ev v) hl).eq_mapV,
    (rel_mulVecRef H.rel t t (e a) (ev v)).eq_mapV,
    (rel_pow H.rel t t rfl (e p) k hn).eq_mapM,
    (rel_identity H.rel t t n).eq_mapM⟩

/-- C85, `determinant` up to size 3 needs no division. -/
theorem C85_det_small (H : O.Preserves O' φ) (k : Nat) (hk : k ≤ 2) (a : Mat T (k + 1) (k + 1)) :
    (a.mapV φ).determinant t O' k = (a.determinant t O k).map φ :=
  (rel_det_small H.rel t t k hk (matRel_fn.2 rfl)).eq_map

/-- C85, `cofactor` up to size 4 needs no division. -/
theorem C85_cofactor_small (H : O.Preserves O' φ) (k : Nat) (hk : k ≤ 2) (a : Mat T (k + 2) (k + 2)) (i j : Fin (k + 2))
    (ht : 2 * (k + 2) < t.W) :
    (a.mapV φ).cofactor t O' k (i, j) = (a.cofactor t O k (i, j)).map φ := by
  have hi := i.isLt
  have hj := j.isLt
  match k, hk with
  | 0, _ => exact (rel_cof_small H.rel t t rfl 0 (by omega) (matRel_fn.2 rfl) (i, j) (by omega) ⟨hi, hj⟩ (by simp; omega)).eq_map
  | 1, _ => exact (rel_cof_small H.rel t t rfl 1 (by omega) (matRel_fn.2 rfl) (i, j) (by omega) ⟨hi, hj⟩ (by simp; omega)).eq_map
  | 2, _ => exact (rel_cofGen H.rel t t rfl (fun hb => rel_det_small H.rel t t 2 (by omega) hb) (matRel_fn.2 rfl) (i, j) (by omega)
      (by simp; omega)).eq_map

/-- C85, `determinant`, `cofactor`, `inverse` and division by a scalar, at every size. -/
theorem C85_linear_algebra (H : O.PreservesDiv O' φ) (k : Nat) (a : Mat T (k + 1) (k + 1)) (b : Mat T (k + 2) (k + 2))
    (i j : Fin (k + 2)) (d : Mat T r c) (s : T) (hs : O.isZero s = false) (hk : 2 * (k + 2) < t.W) :
    (a.mapV φ).determinant t O' k = (a.determinant t O k).map φ ∧
    (b.mapV φ).cofactor t O' k (i, j) = (b.cofactor t O k (i, j)).map φ ∧
    (a.mapV φ).inverse t O' k = (a.inverse t O k).map (Option.map (Mat.mapV φ)) ∧
    (d.mapV φ).divScalar t O'.div (φ s) = (d.divScalar t O.div s).map (Mat.mapV φ) := by
  have hi := i.isLt
  have hj := j.isLt
  have e : ∀ {r c : Nat} (a : Mat T r c), MatRel (fun a b => b = φ a) a (a.mapV φ) := fun a => matRel_fn.2 rfl
  exact ⟨(rel_det H.rel.weak t t rfl k (e a) (by omega)).eq_map,
    (rel_cof H.rel.weak t t rfl k (e b) (i, j) (by omega) ⟨hi, hj⟩ (by simp; omega)).eq_map,
    (rel_inverse H.rel.weak t t k (e a)).eq_mapO,
    (rel_matDivScalar t t (fun h => H.rel.div h rfl hs) (e d)).eq_mapM⟩


/-- C85: which maps qualify.  Every ring homomorphism between exact ring types, and every homomorphism of fields. -/
theorem C85_types :
    (∀ {T U : Type} [Ring T] [Ring U] {O : Ops T} {O' : Ops U}, O.IsRing → O'.IsRing → ∀ f : T →+* U, O.Preserves O' f) ∧
    (∀ {K L : Type} [Field K] [Field L] [DecidableEq K] [DecidableEq L] (f : K →+* L),
      (Ops.exact K).PreservesDiv (Ops.exact L) f) := by
  have h1 : ∀ {T U : Type} [Ring T] [Ring U] {O : Ops T} {O' : Ops U}, O.IsRing → O'.IsRing → ∀ f : T →+* U,
      O.Preserves O' f := fun h h' f =>
    { zero := by rw [h.zero, h'.zero, map_zero]
      one := by rw [h.one, h'.one, map_one]
      add := fun a b => by rw [h.add, h'.add, ← map_add]; rfl
      sub := fun a b => by rw [h.sub, h'.sub, ← map_sub]; rfl
      mul := fun a b => by rw [h.mul, h'.mul, ← map_mul]; rfl
      neg := fun a => by rw [h.neg, h'.neg, ← map_neg]; rfl }
  refine ⟨h1, fun {K L} _ _ _ _ f => { toPreserves := h1 (Ops.exact_isField K).toIsRing (Ops.exact_isField L).toIsRing f
                                       isZero := fun a => by simp [Ops.exact]
                                       div := fun a b h => ?_ }⟩
  have hb : b ≠ 0 := by simpa [Ops.exact] using h
  have hfb : f b ≠ 0 := by simpa using hb
  simp only [Ops.exact, hb, hfb, if_false, ← map_div₀]
  rfl

/-- C85, operations that only move elements: any map at all. -/
theorem C85_moves (φ : T → U) (a : Mat T r c) (s : Mat T n n) (v : Vec T n) (i j : Nat) (x : T) (hc : c < t.W)
    (hn : n < t.W) :
    (a.mapV φ).transposed t = (a.transposed t).map (Mat.mapV φ) ∧
    (s.mapV φ).transpose t = ((s.transpose t).1, (s.transpose t).2.mapV φ) ∧
    (a.mapV φ).index (i, j) = (a.index (i, j)).map φ ∧
    (a.mapV φ).indexSet (i, j) (φ x) = (a.indexSet (i, j) x).map (Mat.mapV φ) ∧
    (v.mapV φ).index i = (v.index i).map φ ∧
    (a.mapV φ).clone t (fun y => (pure y : Res U)) = (a.clone t (fun y => (pure y : Res T))).map (Mat.mapV φ) := by
  have e : MatRel (fun a b => b = φ a) a (a.mapV φ) := matRel_fn.2 rfl
  refine ⟨?_, ?_, (rel_index e (i, j)).eq_map, (rel_indexSet e (i, j) rfl).eq_mapM, (rel_vecIndex (vecRel_fn.2 rfl) i).eq_map, ?_⟩
  · rw [transposed_eq t a hc, transposed_eq t (a.mapV φ) hc]
    refine congrArg Except.ok (Mat.ext_get fun i j => ?_)
    simp
  · rw [Mat.transpose, Mat.transpose, transposed_eq t s hn, transposed_eq t (s.mapV φ) hn]
    refine Prod.ext rfl (Mat.ext_get fun i j => ?_)
    simp
  · rw [Mat.clone_ok, Mat.clone_ok]; rfl

/-- C85, comparisons: a map that preserves the comparison of elements commutes with `max`, `min`, `clamp` and
`clamped`. -/
theorem C85_order {cmp : T → T → Ordering} {cmp' : U → U → Ordering} (hφ : ∀ x y, cmp' (φ x) (φ y) = cmp x y)
    (v : Vec T n) (a : Mat T n n) (b : Mat T r c) (lo hi : T) :
    (v.mapV φ).max cmp' = (v.max cmp).map φ ∧ (v.mapV φ).min cmp' = (v.min cmp).map φ ∧
    (a.mapV φ).max cmp' = (a.max cmp).map φ ∧ (a.mapV φ).min cmp' = (a.min cmp).map φ ∧
    (v.mapV φ).clamped t cmp' (φ lo) (φ hi) = (v.clamped t cmp lo hi).map (Vec.mapV φ) ∧
    (b.mapV φ).clamped t cmp' (φ lo) (φ hi) = (b.clamped t cmp lo hi).map (Mat.mapV φ) ∧
    (v.mapV φ).clamp cmp' (φ lo) (φ hi) = (v.clamp cmp lo hi).mapV φ ∧
    (b.mapV φ).clamp cmp' (φ lo) (φ hi) = (b.clamp cmp lo hi).mapV φ := by
  have hmax : ∀ l : List T, stdMax cmp' (l.map φ) = (stdMax cmp l).map φ := by
    rintro (_ | ⟨x, l⟩)
    · rfl
    · simp only [stdMax, List.map_cons, Option.map_some, List.foldl_map]
      congr 1
      induction l generalizing x with
      | nil => rfl
      | cons y l ih =>
        simp only [List.foldl_cons, hφ]
        rw [← ih]
        congr 1; split <;> rfl
  have hmin : ∀ l : List T, stdMin cmp' (l.map φ) = (stdMin cmp l).map φ := by
    rintro (_ | ⟨x, l⟩)
    · rfl
    · simp only [stdMin, List.map_cons, Option.map_some, List.foldl_map]
      congr 1
      induction l generalizing x with
      | nil => rfl
      | cons y l ih =>
        simp only [List.foldl_cons, hφ]
        rw [← ih]
        congr 1; split <;> rfl
  have hunw : ∀ o : Option T, (unwrap (o.map φ) : Res U) = (unwrap o : Res T).map φ := by rintro (_ | x) <;> rfl
  have hvmax : ∀ {k : Nat} (v : Vec T k), (v.mapV φ).max cmp' = (v.max cmp).map φ := fun v => by
    rw [Vec.max, Vec.max, Vec.mapV, hmax, hunw]
  have hvmin : ∀ {k : Nat} (v : Vec T k), (v.mapV φ).min cmp' = (v.min cmp).map φ := fun v => by
    rw [Vec.min, Vec.min, Vec.mapV, hmin, hunw]
  have hmapM : ∀ {k : Nat} (f : Vec T k → Res T) (g : Vec U k → Res U) (_ : ∀ v, g (v.mapV φ) = (f v).map φ)
      (l : List (Vec T k)), (l.map (Vec.mapV φ)).mapM g = (l.mapM f).map (List.map φ) := by
    intro k f g h l
    induction l with
    | nil => rfl
    | cons v l ih =>
      rw [List.map_cons, List.mapM_cons, List.mapM_cons, h, ih]
      cases f v with
      | error e => rfl
      | ok x => cases List.mapM f l <;> rfl
  have hcl : ∀ x, cmpMin cmp' (φ hi) (cmpMax cmp' (φ lo) (φ x)) = φ (cmpMin cmp hi (cmpMax cmp lo x)) := by
    intro x
    have : cmpMax cmp' (φ lo) (φ x) = φ (cmpMax cmp lo x) := by
      simp only [cmpMax, hφ]; split <;> rfl
    rw [this]; simp only [cmpMin, hφ]; split <;> rfl
  refine ⟨hvmax v, hvmin v, ?_, ?_, ?_, ?_, ?_, ?_⟩
  · rw [Mat.max, Mat.max, Mat.mapV, Vec.mapV, hmapM _ _ hvmax]
    cases List.mapM (fun row : Vec T n => row.max cmp) a.rows.toList with
    | error e => rfl
    | ok ms => change unwrap (stdMax cmp' (ms.map φ)) = (unwrap (stdMax cmp ms) : Res T).map φ; rw [hmax, hunw]
  · rw [Mat.min, Mat.min, Mat.mapV, Vec.mapV, hmapM _ _ hvmin]
    cases List.mapM (fun row : Vec T n => row.min cmp) a.rows.toList with
    | error e => rfl
    | ok ms => change unwrap (stdMin cmp' (ms.map φ)) = (unwrap (stdMin cmp ms) : Res T).map φ; rw [hmin, hunw]
  · rw [vec_clamped_eq, vec_clamped_eq]
    exact congrArg Except.ok (Vec.ext_get fun i => by simp [hcl])
  · rw [mat_clamped_eq, mat_clamped_eq]
    exact congrArg Except.ok (Mat.ext_get fun i j => by simp [hcl])
  · rw [vec_clamp_eq, vec_clamp_eq]
    exact Vec.ext_get fun i => by simp [hcl]
  · rw [mat_clamp_eq, mat_clamp_eq]
    exact Mat.ext_get fun i j => by simp [hcl]

end

/-! Integers are rationals: the integer Fibonacci matrix and its image, cubed. -/
example : Ops.int.Preserves (Ops.exact ℚ) (Int.castRingHom ℚ) :=
  C85_types.1 Ops.int_isRing (Ops.exact_isField ℚ).toIsRing _
example : (⟨⟨[⟨[1, 1], rfl⟩, ⟨[1, 0], rfl⟩], rfl⟩⟩ : Mat Int 2 2).mapV (Int.castRingHom ℚ) =
    ⟨⟨[⟨[1, 1], rfl⟩, ⟨[1, 0], rfl⟩], rfl⟩⟩ := by simp [Mat.mapV, Vec.mapV]
/-! A map that does not preserve panics does not qualify: `u8` arithmetic panics where the integers do not. -/
example : ¬ (Ops.unsigned true 8).Preserves Ops.int uval := fun h => by
  have := h.add 200#8 100#8
  revert this; decide

end Rowcol
