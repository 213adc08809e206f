import Verif.Lemmas.Sim

/-! Relational transport: if corresponding element operations of two types preserve a relation between them, so does
every vector and matrix operation.  Unlike `Verif.Lemmas.Sim` the two types are connected by any relation, and failures
may be required to correspond as well. -/

namespace Rowcol

/-- Both computations return related values, or the first fails and (unless `p` excuses it) the second fails the same
way. -/
def Rel {α β : Type} (p : Prop) (R : α → β → Prop) (x : Res α) (y : Res β) : Prop :=
  (∃ a b, x = .ok a ∧ y = .ok b ∧ R a b) ∨ ∃ e, x = .error e ∧ (p ∨ y = .error e)

namespace Rel
variable {p : Prop} {α β γ δ σ τ ι : Type} {R : α → β → Prop} {S : γ → δ → Prop}

theorem ok {a : α} {b : β} (h : R a b) : Rel p R (.ok a) (.ok b) := .inl ⟨a, b, rfl, rfl, h⟩

theorem fail (e : Fault) : Rel p R (.error e) (.error e) := .inr ⟨e, rfl, .inr rfl⟩

theorem bind {x : Res α} {y : Res β} (h : Rel p R x y) {f : α → Res γ} {g : β → Res δ}
    (hf : ∀ a b, R a b → Rel p S (f a) (g b)) : Rel p S (x >>= f) (y >>= g) := by
  rcases h with ⟨a, b, rfl, rfl, h⟩ | ⟨e, rfl, h⟩
  · exact hf a b h
  · refine .inr ⟨e, rfl, h.imp id ?_⟩
    rintro rfl; rfl

theorem mono {R' : α → β → Prop} {x : Res α} {y : Res β} (h : Rel p R x y) (hR : ∀ a b, R a b → R' a b) :
    Rel p R' x y := h.imp (fun ⟨a, b, h1, h2, h3⟩ => ⟨a, b, h1, h2, hR a b h3⟩) id

theorem map {x : Res α} {y : Res β} (h : Rel p R x y) {f : α → γ} {g : β → δ}
    (hf : ∀ a b, R a b → S (f a) (g b)) : Rel p S (x >>= fun a => pure (f a)) (y >>= fun b => pure (g b)) :=
  h.bind fun a b r => ok (hf a b r)

theorem foldlM {f : σ → ι → Res σ} {g : τ → ι → Res τ} {R : σ → τ → Prop} (l : List ι)
    (h : ∀ i ∈ l, ∀ s s', R s s' → Rel p R (f s i) (g s' i)) {s : σ} {s' : τ} (hs : R s s') :
    Rel p R (l.foldlM f s) (l.foldlM g s') := by
  induction l generalizing s s' with
  | nil => exact ok hs
  | cons i l ih =>
    rw [List.foldlM_cons, List.foldlM_cons]
    exact (h i (by simp) s s' hs).bind fun a b hab => ih (fun j hj => h j (by simp [hj])) hab

theorem ok_left {x : Res α} {y : Res β} (h : Rel p R x y) {a : α} (ha : x = .ok a) : ∃ b, y = .ok b ∧ R a b := by
  rcases h with ⟨a', b, h1, h2, h3⟩ | ⟨e, h1, _⟩
  · rw [ha] at h1; cases h1; exact ⟨b, h2, h3⟩
  · rw [ha] at h1; cases h1

/-- With no excuse for failures and a functional relation, the second computation is the image of the first. -/
theorem eq_map {φ : α → β} {x : Res α} {y : Res β} (h : Rel False (fun a b => b = φ a) x y) : y = x.map φ := by
  rcases h with ⟨a, b, rfl, rfl, rfl⟩ | ⟨e, rfl, h | rfl⟩
  · rfl
  · exact h.elim
  · rfl

end Rel

/-- Elements at equal positions are related. -/
def VecRel {T U : Type} {n : Nat} (R : T → U → Prop) (v : Vec T n) (w : Vec U n) : Prop := ∀ i, R (v.get i) (w.get i)

/-- Entries at equal positions are related. -/
def MatRel {T U : Type} {r c : Nat} (R : T → U → Prop) (a : Mat T r c) (b : Mat U r c) : Prop :=
  ∀ i j, R (a.get i j) (b.get i j)

/-- Both absent, or both present and related. -/
def OptRel {A B : Type} (R : A → B → Prop) : Option A → Option B → Prop
  | none, none => True
  | some a, some b => R a b
  | _, _ => False

section Containers
variable {p : Prop} {T U : Type} {R : T → U → Prop} {n r c : Nat}

theorem rel_vecIndex {v : Vec T n} {w : Vec U n} (h : VecRel R v w) (i : Nat) : Rel p R (v.index i) (w.index i) := by
  by_cases hi : i < n
  · rw [Vec.index_ok _ hi, Vec.index_ok _ hi]; exact .ok (h _)
  · rw [Vec.index_panic _ (by omega), Vec.index_panic _ (by omega)]; exact .fail _

theorem rel_getUnchecked (t t' : Target) {v : Vec T n} {w : Vec U n} (h : VecRel R v w) {i : Nat} (hi : i < n) :
    Rel p R (v.getUnchecked t i) (w.getUnchecked t' i) := by
  rw [Vec.getUnchecked_ok t _ hi, Vec.getUnchecked_ok t' _ hi]; exact .ok (h _)

theorem rel_collect (t t' : Target) (f : Fin n → Res T) (g : Fin n → Res U) (h : ∀ i, Rel p R (f i) (g i)) :
    Rel p (VecRel R) (Vec.collect t n ((List.finRange n).map f)) (Vec.collect t' n ((List.finRange n).map g)) := by
  cases hx : Vec.collect t n ((List.finRange n).map f) with
  | ok v =>
    rw [Vec.collect_finRange_ok_iff] at hx
    have := fun i => (h i).ok_left (hx i)
    choose b hb using this
    exact .inl ⟨v, Vec.ofFn b, rfl, Vec.collect_finRange_ok _ _ _ fun i => (hb i).1, fun i => by
      rw [Vec.get_ofFn]; exact (hb i).2⟩
  | error e =>
    rw [Vec.collect_finRange_error_iff] at hx
    obtain ⟨k, hk, hlt⟩ := hx
    refine .inr ⟨e, rfl, ?_⟩
    rcases h k with ⟨a, b, h1, _⟩ | ⟨e', h1, h2⟩
    · rw [hk] at h1; cases h1
    · rw [hk] at h1; cases h1
      refine h2.imp id fun h2 => ?_
      rw [Vec.collect_finRange_error_iff]
      refine ⟨k, h2, fun i hi => ?_⟩
      obtain ⟨x, hx⟩ := hlt i hi
      obtain ⟨b, hb, _⟩ := (h i).ok_left hx
      exact ⟨b, hb⟩

theorem rel_matCollect (t t' : Target) (f : Fin r → Fin c → Res T) (g : Fin r → Fin c → Res U)
    (h : ∀ i j, Rel p R (f i j) (g i j)) :
    Rel p (MatRel R)
      (do let v ← Vec.collect t r ((List.finRange r).map fun i => Vec.collect t c ((List.finRange c).map (f i)))
          pure (⟨v⟩ : Mat T r c))
      (do let v ← Vec.collect t' r ((List.finRange r).map fun i => Vec.collect t' c ((List.finRange c).map (g i)))
          pure (⟨v⟩ : Mat U r c)) :=
  (rel_collect (R := VecRel R) t t' _ _ fun i => rel_collect t t' _ _ (h i)).map fun _ _ h i j => h i j

theorem rel_index {a : Mat T r c} {b : Mat U r c} (h : MatRel R a b) (q : Nat × Nat) :
    Rel p R (a.index q) (b.index q) := by
  obtain ⟨i, j⟩ := q
  by_cases hq : i < r ∧ j < c
  · rw [Mat.index_ok _ hq.1 hq.2, Mat.index_ok _ hq.1 hq.2]; exact .ok (h _ _)
  · rw [Mat.index_panic _ (by omega), Mat.index_panic _ (by omega)]; exact .fail _

theorem rel_idxStatic (t t' : Target) {a : Mat T r c} {b : Mat U r c} (h : MatRel R a b) {i j : Nat} (hi : i < r)
    (hj : j < c) : Rel p R (a.idxStatic t i j) (b.idxStatic t' i j) := by
  rw [Mat.idxStatic_ok t _ hi hj, Mat.idxStatic_ok t' _ hi hj]; exact .ok (h _ _)

theorem rel_indexSet {a : Mat T r c} {b : Mat U r c} (h : MatRel R a b) (q : Nat × Nat) {x : T} {y : U} (hx : R x y) :
    Rel p (MatRel R) (a.indexSet q x) (b.indexSet q y) := by
  obtain ⟨i, j⟩ := q
  by_cases hq : i < r ∧ j < c
  · rw [Mat.indexSet_ok _ hq.1 hq.2, Mat.indexSet_ok _ hq.1 hq.2]
    refine .ok fun k l => ?_
    rw [Mat.get_put a hq.1, Mat.get_put _ hq.1]
    split
    · exact hx
    · exact h k l
  · rw [Mat.indexSet_panic _ (by omega), Mat.indexSet_panic _ (by omega)]; exact .fail _

end Containers

/-- Corresponding `0`, `1`, `+`, `-`, `*` and negation of `O` and `O'` preserve `R`. -/
structure Ops.RelHom {T U : Type} (p : Prop) (O : Ops T) (O' : Ops U) (R : T → U → Prop) : Prop where
  zero : R O.zero O'.zero
  one : R O.one O'.one
  add : ∀ {a b a' b'}, R a a' → R b b' → Rel p R (O.add a b) (O'.add a' b')
  sub : ∀ {a b a' b'}, R a a' → R b b' → Rel p R (O.sub a b) (O'.sub a' b')
  mul : ∀ {a b a' b'}, R a a' → R b b' → Rel p R (O.mul a b) (O'.mul a' b')
  neg : ∀ {a a'}, R a a' → Rel p R (O.neg a) (O'.neg a')

/-- In addition the zero tests agree, and so do divisions by anything that is not zero. -/
structure Ops.RelDivHom {T U : Type} (p : Prop) (O : Ops T) (O' : Ops U) (R : T → U → Prop) : Prop
    extends Ops.RelHom p O O' R where
  isZero : ∀ {a a'}, R a a' → O'.isZero a' = O.isZero a
  div : ∀ {a b a' b'}, R a a' → R b b' → O.isZero b = false → Rel p R (O.div a b) (O'.div a' b')

/-- A weaker condition, which is enough for determinants and inverses, since they divide by what they found not to be zero:
the zero tests agree, or (if `p` excuses failures) the first test says no and division by the number fails. -/
structure Ops.RelTestHom {T U : Type} (p : Prop) (O : Ops T) (O' : Ops U) (R : T → U → Prop) : Prop
    extends Ops.RelHom p O O' R where
  test : ∀ {a a'}, R a a' → O'.isZero a' = O.isZero a ∨ (p ∧ O.isZero a = false ∧ ∀ x y, O.div x a ≠ .ok y)
  div : ∀ {a b a' b'}, R a a' → R b b' → O.isZero b = false → Rel p R (O.div a b) (O'.div a' b')

theorem Ops.RelDivHom.weak {T U : Type} {p : Prop} {O : Ops T} {O' : Ops U} {R : T → U → Prop} (H : Ops.RelDivHom p O O' R) :
    Ops.RelTestHom p O O' R := ⟨H.toRelHom, fun h => .inl (H.isZero h), H.div⟩

theorem Rel.excused {α β : Type} {p : Prop} {R : α → β → Prop} {x : Res α} {y : Res β} (hp : p) (h : ∀ a, x ≠ .ok a) :
    Rel p R x y := by
  cases x with
  | ok a => exact absurd rfl (h a)
  | error e => exact .inr ⟨e, rfl, .inl hp⟩

theorem bind_ne {α β : Type} {x : Res α} {f : α → Res β} (h : ∀ a b, f a ≠ .ok b) (b : β) : (x >>= f) ≠ .ok b := by
  cases x with
  | ok a => exact h a b
  | error e => exact fun h => by cases h

theorem bind_ne' {α β : Type} {x : Res α} {f : α → Res β} (h : ∀ a, x ≠ .ok a) (b : β) : (x >>= f) ≠ .ok b := by
  cases x with
  | ok a => exact absurd rfl (h a)
  | error e => exact fun h => by cases h

section Hom
variable {p : Prop} {T U : Type} {O : Ops T} {O' : Ops U} {R : T → U → Prop} (H : Ops.RelHom p O O' R) {n r c l : Nat}
  (t t' : Target)
include H

/-! ### Vectors -/

theorem rel_mulFold {ι : Type} (is : List ι) {f g : ι → T} {f' g' : ι → U} (hf : ∀ i, R (f i) (f' i))
    (hg : ∀ i, R (g i) (g' i)) :
    Rel p R (mulFold O (is.map fun i => (f i, g i))) (mulFold O' (is.map fun i => (f' i, g' i))) := by
  unfold mulFold
  rw [List.foldlM_map, List.foldlM_map]
  exact .foldlM _ (fun i _ s s' hs => (H.mul (hf i) (hg i)).bind fun q q' hq => H.add hs hq) H.zero

theorem rel_dot {a b : Vec T n} {a' b' : Vec U n} (ha : VecRel R a a') (hb : VecRel R b b') :
    Rel p R (a.dot O b) (a'.dot O' b') := by
  rw [Vec.dot, Vec.dot, Vec.zip_eq, Vec.zip_eq]
  exact rel_mulFold H _ ha hb

theorem rel_vecSum {v : Vec T n} {v' : Vec U n} (hv : VecRel R v v') : Rel p R (v.sum O) (v'.sum O') := by
  rw [Vec.sum, Vec.sum, Vec.toList_eq v, Vec.toList_eq v', List.foldlM_map, List.foldlM_map]
  exact .foldlM _ (fun i _ s s' hs => H.add hs (hv i)) H.zero

theorem rel_cross {a b : Vec T 3} {a' b' : Vec U 3} (ha : VecRel R a a') (hb : VecRel R b b') :
    Rel p (VecRel R) (a.cross t O b) (a'.cross t' O' b') := by
  have g : ∀ {v : Vec T 3} {v' : Vec U 3} (_ : VecRel R v v') (i : Nat) (_ : i < 3),
      Rel p R (v.getUnchecked t i) (v'.getUnchecked t' i) := fun h i hi => rel_getUnchecked t t' h hi
  unfold Vec.cross
  refine (g ha _ (by omega)).bind fun _ _ h1 => (g hb _ (by omega)).bind fun _ _ h2 => (H.mul h1 h2).bind fun _ _ x1 =>
    (g ha _ (by omega)).bind fun _ _ h1 => (g hb _ (by omega)).bind fun _ _ h2 => (H.mul h1 h2).bind fun _ _ x2 =>
    (H.sub x1 x2).bind fun _ _ hx =>
    (g ha _ (by omega)).bind fun _ _ h1 => (g hb _ (by omega)).bind fun _ _ h2 => (H.mul h1 h2).bind fun _ _ x1 =>
    (g ha _ (by omega)).bind fun _ _ h1 => (g hb _ (by omega)).bind fun _ _ h2 => (H.mul h1 h2).bind fun _ _ x2 =>
    (H.sub x1 x2).bind fun _ _ hy =>
    (g ha _ (by omega)).bind fun _ _ h1 => (g hb _ (by omega)).bind fun _ _ h2 => (H.mul h1 h2).bind fun _ _ x1 =>
    (g ha _ (by omega)).bind fun _ _ h1 => (g hb _ (by omega)).bind fun _ _ h2 => (H.mul h1 h2).bind fun _ _ x2 =>
    (H.sub x1 x2).bind fun _ _ hz => .ok fun i => ?_
  fin_cases i
  · exact hx
  · exact hy
  · exact hz

omit H in
theorem rel_vecOp {f : T → T → Res T} {g : U → U → Res U} (h : ∀ {a b a' b'}, R a a' → R b b' → Rel p R (f a b) (g a' b'))
    {op op'} (hop : op ∈ vecForms (n := n) t f) (hop' : op' ∈ vecForms (n := n) t' g)
    {a b : Vec T n} {a' b' : Vec U n} (ha : VecRel R a a') (hb : VecRel R b b') :
    Rel p (VecRel R) (op a b) (op' a' b') := by
  rw [vecForms_eq t f op hop, vecForms_eq t' g op' hop']
  exact rel_collect t t' _ _ fun i => h (ha i) (hb i)

omit H in
theorem rel_vecScalar {f : T → T → Res T} {g : U → U → Res U} {s : T} {s' : U}
    (h : ∀ {a a'}, R a a' → Rel p R (f a s) (g a' s')) {a : Vec T n} {a' : Vec U n} (ha : VecRel R a a') :
    Rel p (VecRel R) (a.mulScalar t f s) (a'.mulScalar t' g s') := by
  rw [Vec.mulScalar, Vec.mulScalar, Vec.toList_eq a, Vec.toList_eq a', List.map_map, List.map_map]
  exact rel_collect t t' _ _ fun i => h (ha i)

omit H in
theorem rel_vecDivScalar {f : T → T → Res T} {g : U → U → Res U} {s : T} {s' : U}
    (h : ∀ {a a'}, R a a' → Rel p R (f a s) (g a' s')) {a : Vec T n} {a' : Vec U n} (ha : VecRel R a a') :
    Rel p (VecRel R) (a.divScalar t f s) (a'.divScalar t' g s') := by
  rw [Vec.divScalar, Vec.divScalar, Vec.toList_eq a, Vec.toList_eq a', List.map_map, List.map_map]
  exact rel_collect t t' _ _ fun i => h (ha i)

omit H in
theorem rel_vecNeg {f : T → Res T} {g : U → Res U} (h : ∀ {a a'}, R a a' → Rel p R (f a) (g a')) {a : Vec T n}
    {a' : Vec U n} (ha : VecRel R a a') : Rel p (VecRel R) (a.neg t f) (a'.neg t' g) := by
  rw [Vec.neg, Vec.neg, Vec.toList_eq a, Vec.toList_eq a', List.map_map, List.map_map]
  exact rel_collect t t' _ _ fun i => h (ha i)

/-! ### Matrices -/

omit H in
theorem rel_matOp {f : T → T → Res T} {g : U → U → Res U} (h : ∀ {a b a' b'}, R a a' → R b b' → Rel p R (f a b) (g a' b'))
    {op op'} (hop : op ∈ matForms (r := r) (c := c) t f) (hop' : op' ∈ matForms (r := r) (c := c) t' g)
    {a b : Mat T r c} {a' b' : Mat U r c} (ha : MatRel R a a') (hb : MatRel R b b') :
    Rel p (MatRel R) (op a b) (op' a' b') := by
  rw [matForms_eq t f op hop, matForms_eq t' g op' hop']
  exact rel_matCollect t t' _ _ fun i j => h (ha i j) (hb i j)

omit H in
theorem rel_matScalar {f : T → T → Res T} {g : U → U → Res U} {s : T} {s' : U}
    (h : ∀ {a a'}, R a a' → Rel p R (f a s) (g a' s')) {a : Mat T r c} {a' : Mat U r c} (ha : MatRel R a a') :
    Rel p (MatRel R) (a.mulScalar t f s) (a'.mulScalar t' g s') := by
  rw [Mat.mulScalar, Mat.mulScalar]; simp only [Vec.mulScalar]; rw [matScalar_eq, matScalar_eq]
  exact rel_matCollect t t' _ _ fun i j => h (ha i j)

omit H in
theorem rel_matDivScalar {f : T → T → Res T} {g : U → U → Res U} {s : T} {s' : U}
    (h : ∀ {a a'}, R a a' → Rel p R (f a s) (g a' s')) {a : Mat T r c} {a' : Mat U r c} (ha : MatRel R a a') :
    Rel p (MatRel R) (a.divScalar t f s) (a'.divScalar t' g s') := by
  rw [Mat.divScalar, Mat.divScalar]; simp only [Vec.divScalar]; rw [matScalar_eq, matScalar_eq]
  exact rel_matCollect t t' _ _ fun i j => h (ha i j)

omit H in
theorem rel_matNeg {f : T → Res T} {g : U → Res U} (h : ∀ {a a'}, R a a' → Rel p R (f a) (g a')) {a : Mat T r c}
    {a' : Mat U r c} (ha : MatRel R a a') : Rel p (MatRel R) (a.neg t f) (a'.neg t' g) := by
  rw [Mat.neg, Mat.neg]; simp only [Vec.neg]; rw [matScalar_eq, matScalar_eq]
  exact rel_matCollect t t' _ _ fun i j => h (ha i j)

theorem rel_matSum {a : Mat T r c} {a' : Mat U r c} (ha : MatRel R a a') : Rel p R (a.sum O) (a'.sum O') := by
  rw [Mat.sum, Mat.sum, Vec.toList_eq a.rows, Vec.toList_eq a'.rows, List.foldlM_map, List.foldlM_map]
  exact .foldlM _ (fun i _ s s' hs => (rel_vecSum H (ha i)).bind fun _ _ h => H.add hs h) H.zero

theorem rel_mul (hW : t'.W = t.W) {op op'} (hop : op ∈ mulForms (l := l) (n := n) (c := c) t O)
    (hop' : op' ∈ mulForms (l := l) (n := n) (c := c) t' O') {a : Mat T l n} {b : Mat T n c} {a' : Mat U l n}
    {b' : Mat U n c} (ha : MatRel R a a') (hb : MatRel R b b') (hl : l < t.W) (hn : n < t.W) (hc : c < t.W) :
    Rel p (MatRel R) (op a b) (op' a' b') := by
  rw [mulForms_eq t O op hop a b hl hn hc, mulForms_eq t' O' op' hop' _ _ (hW ▸ hl) (hW ▸ hn) (hW ▸ hc)]
  exact rel_matCollect t t' _ _ fun i j => rel_mulFold H _ (fun k => ha i k) fun k => hb k j

theorem rel_mulVec (hW : t'.W = t.W) {a : Mat T r c} {v : Vec T c} {a' : Mat U r c} {v' : Vec U c} (ha : MatRel R a a')
    (hv : VecRel R v v') (hr : r < t.W) : Rel p (VecRel R) (a.mulVec t O v) (a'.mulVec t' O' v') := by
  rw [Mat.mulVec, Mat.mulVec, drain_rowsRef t a hr, drain_rowsRef t' a' (hW ▸ hr)]
  simp only [res_ok_bind, rowsOf, List.map_map]
  refine rel_collect t t' _ _ fun i => ?_
  simp only [Function.comp_def, Vec.zip_eq, Vec.get_ofFn]
  exact rel_mulFold H _ (fun k => ha i k) hv

theorem rel_mulVecRef {a : Mat T r c} {v : Vec T c} {a' : Mat U r c} {v' : Vec U c} (ha : MatRel R a a')
    (hv : VecRel R v v') : Rel p (VecRel R) (a.mulVecRef t O v) (a'.mulVecRef t' O' v') := by
  rw [Mat.mulVecRef, Mat.mulVecRef, rowsOf_eq a, rowsOf_eq a']
  simp only [rowsOf, List.map_map]
  refine rel_collect t t' _ _ fun i => ?_
  simp only [Function.comp_def, Vec.zip_eq, Vec.get_ofFn]
  exact rel_mulFold H _ (fun k => ha i k) hv

theorem rel_identity (n : Nat) : Rel p (MatRel R) (Mat.identity t O n) (Mat.identity t' O' n) := by
  rw [Mat.identity, Mat.identity, Mat.generate_ok t _ (fun i j => if i = j then O.one else O.zero) (by
    intro i j; simp [Fin.ext_iff]), Mat.generate_ok t' _ (fun i j => if i = j then O'.one else O'.zero) (by
    intro i j; simp [Fin.ext_iff])]
  refine .ok fun i j => ?_
  rw [Mat.get_ofFn, Mat.get_ofFn]
  split
  · exact H.one
  · exact H.zero

omit H in
theorem rel_powStrip {A B : Type} {Q : A → B → Prop} {f : A → A → Res A} {g : B → B → Res B}
    (h : ∀ {a b a' b'}, Q a a' → Q b b' → Rel p Q (f a b) (g a' b')) {base : A} {base' : B} (hb : Q base base') (exp : Nat) :
    Rel p (fun x y => Q x.1 y.1 ∧ x.2 = y.2) (powStrip f base exp) (powStrip g base' exp) := by
  induction exp using Nat.strongRecOn generalizing base base' with
  | _ exp ih =>
    rw [powStrip, powStrip]
    split
    · exact (h hb hb).bind fun b b' hb => ih _ (by omega) hb
    · exact .ok ⟨hb, rfl⟩

omit H in
theorem rel_powLoop {A B : Type} {Q : A → B → Prop} {f : A → A → Res A} {g : B → B → Res B}
    (h : ∀ {a b a' b'}, Q a a' → Q b b' → Rel p Q (f a b) (g a' b')) {acc base : A} {acc' base' : B} (ha : Q acc acc')
    (hb : Q base base') (exp : Nat) : Rel p Q (powLoop f acc base exp) (powLoop g acc' base' exp) := by
  induction exp using Nat.strongRecOn generalizing acc base acc' base' with
  | _ exp ih =>
    rw [powLoop, powLoop]
    split
    · refine (h hb hb).bind fun b b' hb => ?_
      by_cases ho : exp / 2 % 2 = 1
      · simp only [ho, if_true]
        exact (h ha hb).bind fun _ _ ha => ih _ (by omega) ha hb
      · simp only [ho, if_false]
        exact ih _ (by omega) ha hb
    · exact .ok ha

omit H in
theorem rel_numPow {A B : Type} {Q : A → B → Prop} {f : A → A → Res A} {g : B → B → Res B} {one : Res A} {one' : Res B}
    (h1 : Rel p Q one one')
    (h : ∀ {a b a' b'}, Q a a' → Q b b' → Rel p Q (f a b) (g a' b')) {base : A} {base' : B} (hb : Q base base') (exp : Nat) :
    Rel p Q (numPow one f base exp) (numPow one' g base' exp) := by
  unfold numPow
  split
  · exact h1
  · refine (rel_powStrip h hb exp).bind fun x y ⟨hb, he⟩ => ?_
    obtain ⟨b, e⟩ := x
    obtain ⟨b', e'⟩ := y
    simp only at hb he
    subst he
    simp only
    split
    · exact .ok hb
    · exact rel_powLoop h hb hb _

theorem rel_pow (hW : t'.W = t.W) {a : Mat T n n} {a' : Mat U n n} (ha : MatRel R a a') (k : Nat) (hn : n < t.W) :
    Rel p (MatRel R) (a.pow t O k) (a'.pow t' O' k) := by
  rw [Mat.pow, Mat.pow, Mat.clone_ok, Mat.clone_ok]
  exact rel_numPow (rel_identity H t t' n)
    (fun h1 h2 => rel_mul H t t' hW (by simp [mulForms]) (by simp [mulForms]) h1 h2 hn hn hn) ha k

/-! ### Determinant, cofactor, inverse -/

theorem rel_det2 {a : Mat T 2 2} {a' : Mat U 2 2} (ha : MatRel R a a') : Rel p R (a.det2 t O) (a'.det2 t' O') := by
  unfold Mat.det2
  exact (rel_idxStatic t t' ha (by omega) (by omega)).bind fun _ _ h1 =>
    (rel_idxStatic t t' ha (by omega) (by omega)).bind fun _ _ h2 => (H.mul h1 h2).bind fun _ _ hx =>
    (rel_idxStatic t t' ha (by omega) (by omega)).bind fun _ _ h1 =>
    (rel_idxStatic t t' ha (by omega) (by omega)).bind fun _ _ h2 => (H.mul h1 h2).bind fun _ _ hy => H.sub hx hy

theorem rel_det3Term {a : Mat T 3 3} {a' : Mat U 3 3} (ha : MatRel R a a') {i j k : Nat} (hi : i < 3) (hj : j < 3)
    (hk : k < 3) : Rel p R (a.det3Term t O i j k) (a'.det3Term t' O' i j k) := by
  unfold Mat.det3Term
  exact (rel_idxStatic t t' ha (by omega) hi).bind fun _ _ h1 =>
    (rel_idxStatic t t' ha (by omega) hj).bind fun _ _ h2 => (H.mul h1 h2).bind fun _ _ h3 =>
    (rel_idxStatic t t' ha (by omega) hk).bind fun _ _ h4 => H.mul h3 h4

theorem rel_det3 {a : Mat T 3 3} {a' : Mat U 3 3} (ha : MatRel R a a') : Rel p R (a.det3 t O) (a'.det3 t' O') := by
  have g : ∀ (i j k : Nat) (_ : i < 3) (_ : j < 3) (_ : k < 3), Rel p R (a.det3Term t O i j k)
    (a'.det3Term t' O' i j k) := fun i j k hi hj hk => rel_det3Term H t t' ha hi hj hk
  unfold Mat.det3
  exact (g _ _ _ (by omega) (by omega) (by omega)).bind fun _ _ h1 =>
    (g _ _ _ (by omega) (by omega) (by omega)).bind fun _ _ h2 =>
    (H.add h1 h2).bind fun _ _ h1 => (g _ _ _ (by omega) (by omega) (by omega)).bind fun _ _ h2 =>
    (H.add h1 h2).bind fun _ _ h1 => (g _ _ _ (by omega) (by omega) (by omega)).bind fun _ _ h2 =>
    (H.sub h1 h2).bind fun _ _ h1 => (g _ _ _ (by omega) (by omega) (by omega)).bind fun _ _ h2 =>
    (H.sub h1 h2).bind fun _ _ h1 => (g _ _ _ (by omega) (by omega) (by omega)).bind fun _ _ h2 => H.sub h1 h2

theorem rel_det_small (k : Nat) (hk : k ≤ 2) {a : Mat T (k + 1) (k + 1)} {a' : Mat U (k + 1) (k + 1)}
    (ha : MatRel R a a') : Rel p R (a.determinant t O k) (a'.determinant t' O' k) := by
  match k, hk with
  | 0, _ => exact rel_idxStatic t t' ha (by omega) (by omega)
  | 1, _ => exact rel_det2 H t t' ha
  | 2, _ => exact rel_det3 H t t' ha

theorem rel_cofSign (hW : t'.W = t.W) (i j : Nat) (hij : i + j < t.W) :
    Rel p R (Mat.cofSign t O i j) (Mat.cofSign t' O' i j) := by
  unfold Mat.cofSign
  rw [uadd_ok t hij, uadd_ok t' (hW ▸ hij)]
  simp only [res_ok_bind]
  split
  · exact .ok H.one
  · exact H.neg H.one

omit H in
theorem rel_minor (hW : t'.W = t.W) {a : Mat T (n + 1) (n + 1)} {a' : Mat U (n + 1) (n + 1)} (ha : MatRel R a a')
    (i j : Nat) (hi : i < n + 1) (hj : j < n + 1) (hn : n + 1 < t.W) :
    Rel p (MatRel R) (a.minor t i j) (a'.minor t' i j) := by
  rw [minor_eq t a ⟨i, hi⟩ ⟨j, hj⟩ hn, minor_eq t' a' ⟨i, hi⟩ ⟨j, hj⟩ (hW ▸ hn)]
  refine .ok fun k l => ?_
  simpa using ha _ _

theorem rel_cofGen (hW : t'.W = t.W) {det : Mat T n n → Res T} {det' : Mat U n n → Res U}
    (hd : ∀ {b b'}, MatRel R b b' → Rel p R (det b) (det' b')) {a : Mat T (n + 1) (n + 1)} {a' : Mat U (n + 1) (n + 1)}
    (ha : MatRel R a a') (q : Nat × Nat) (hn : n + 1 < t.W) (hp : q.1 + q.2 < t.W) :
    Rel p R (Mat.cofGen t O det a q) (Mat.cofGen t' O' det' a' q) := by
  unfold Mat.cofGen
  split
  · rename_i h
    exact (rel_minor t t' hW ha _ _ h.1 h.2 hn).bind fun b b' hb => (rel_cofSign H t t' hW _ _ hp).bind fun s s' hs =>
      (hd hb).bind fun d d' hd => H.mul hs hd
  · exact .fail _

theorem rel_cof_small (hW : t'.W = t.W) (k : Nat) (hk : k ≤ 1) {a : Mat T (k + 2) (k + 2)} {a' : Mat U (k + 2) (k + 2)}
    (ha : MatRel R a a') (q : Nat × Nat) (hn : k + 2 < t.W)
    (hp : q.1 < k + 2 ∧ q.2 < k + 2) (hp' : q.1 + q.2 < t.W) :
    Rel p R (a.cofactor t O k q) (a'.cofactor t' O' k q) := by
  match k, hk with
  | 0, _ =>
    change Rel p R (a.cof2 t O q) (a'.cof2 t' O' q)
    unfold Mat.cof2
    rw [usub_ok t (by omega), usub_ok t (by omega), usub_ok t' (by omega), usub_ok t' (by omega)]
    exact (rel_cofSign H t t' hW _ _ hp').bind fun s s' hs => (rel_index ha _).bind fun x x' hx => H.mul hs hx
  | 1, _ =>
    change Rel p R (a.cof3 t O q) (a'.cof3 t' O' q)
    unfold Mat.cof3
    rw [if_pos (by omega), if_pos (by omega)]
    exact (rel_cofSign H t t' hW _ _ hp').bind fun s s' hs => (rel_minor t t' hW ha _ _ hp.1 hp.2 hn).bind fun b b' hb =>
      (rel_det2 H t t' hb).bind fun d d' hd => H.mul hs hd

end Hom

section DivHom
variable {p : Prop} {T U : Type} {O : Ops T} {O' : Ops U} {R : T → U → Prop} (H : Ops.RelTestHom p O O' R) {n : Nat}
  (t t' : Target)
include H

theorem rel_elimRow {m : Mat T n n} {m' : Mat U n n} (hm : MatRel R m m') (i j : Nat) {d : T} {d' : U} (hd : R d d') :
    Rel p (MatRel R) (Mat.elimRow O m i j d) (Mat.elimRow O' m' i j d') := by
  unfold Mat.elimRow
  refine .foldlM _ (fun k _ s s' hs => ?_) hm
  exact (rel_index hs _).bind fun _ _ h1 => (rel_index hs _).bind fun _ _ h2 => (H.mul h2 hd).bind fun _ _ h3 =>
    (H.sub h1 h3).bind fun _ _ h4 => rel_indexSet hs _ h4

theorem rel_elimCol (i : Nat) (js : List Nat) {m : Mat T n n} {m' : Mat U n n} (hm : MatRel R m m') :
    Rel p (OptRel (MatRel R)) (Mat.elimCol O i js m) (Mat.elimCol O' i js m') := by
  induction js generalizing m m' with
  | nil => exact .ok hm
  | cons j js ih =>
    unfold Mat.elimCol
    rcases rel_index (p := p) hm (i, i) with ⟨q, q', e1, e2, hq⟩ | ⟨e, e1, e2⟩
    · rw [e1, e2]
      simp only [res_ok_bind]
      rcases H.test hq with ht | ⟨hp, ht, hd⟩
      swap
      · exact .excused hp (by rw [if_neg (by simp [ht])]; exact bind_ne fun x => bind_ne' (hd x))
      rw [ht]
      by_cases hz : O.isZero q = true
      · rw [if_pos hz, if_pos hz]; exact .ok trivial
      · rw [if_neg hz, if_neg hz]
        exact (rel_index hm (j, i)).bind fun x x' hx =>
          (H.div hx hq (by simpa using hz)).bind fun d d' hd => (rel_elimRow H hm i j hd).bind fun _ _ h => ih h
    · rw [e1]
      refine .inr ⟨e, rfl, e2.imp id fun e2 => ?_⟩
      rw [e2]; rfl

theorem rel_elimAll (is : List Nat) {m : Mat T n n} {m' : Mat U n n} (hm : MatRel R m m') :
    Rel p (OptRel (MatRel R)) (Mat.elimAll O is m) (Mat.elimAll O' is m') := by
  induction is generalizing m m' with
  | nil => exact .ok hm
  | cons i is ih =>
    unfold Mat.elimAll
    refine (rel_elimCol H i _ hm).bind fun o o' h => ?_
    cases o <;> cases o'
    · exact .ok trivial
    · exact h.elim
    · exact h.elim
    · exact ih h

theorem rel_detGen {cof : Nat × Nat → Res T} {cof' : Nat × Nat → Res U}
    (hc : ∀ i < n, Rel p R (cof (i, 0)) (cof' (i, 0))) {a : Mat T n n} {a' : Mat U n n} (ha : MatRel R a a') :
    Rel p R (Mat.detGen t O cof a) (Mat.detGen t' O' cof' a') := by
  unfold Mat.detGen
  rw [Mat.clone_ok, Mat.clone_ok]
  refine (rel_elimAll H (List.range n) ha).bind fun o o' h => ?_
  cases o <;> cases o'
  · refine .foldlM _ (fun i hi s s' hs => ?_) H.zero
    exact (rel_index ha _).bind fun x x' hx => (hc i (List.mem_range.1 hi)).bind
      fun y y' hy => (H.mul hx hy).bind fun _ _ h => H.add hs h
  · exact h.elim
  · exact h.elim
  · refine .foldlM _ (fun i hi s s' hs => ?_) H.one
    exact (rel_index h _).bind fun x x' hx => H.mul hs hx

theorem rel_det (hW : t'.W = t.W) (k : Nat) {a : Mat T (k + 1) (k + 1)} {a' : Mat U (k + 1) (k + 1)} (ha : MatRel R a a')
    (hk : k + 1 < t.W) : Rel p R (a.determinant t O k) (a'.determinant t' O' k) := by
  revert a a' ha
  induction k with
  | zero => intro a a' ha; exact rel_det_small H.toRelHom t t' 0 (by omega) ha
  | succ k ih =>
    match k, ih with
    | 0, _ => intro a a' ha; exact rel_det_small H.toRelHom t t' 1 (by omega) ha
    | 1, _ => intro a a' ha; exact rel_det_small H.toRelHom t t' 2 (by omega) ha
    | k + 2, ih =>
      intro a a' ha
      exact rel_detGen H t t' (fun i hi => rel_cofGen H.toRelHom t t' hW (fun hb => ih (by omega) hb) ha (i, 0) hk
        (by simp; omega)) ha

theorem rel_cof (hW : t'.W = t.W) (k : Nat) {a : Mat T (k + 2) (k + 2)} {a' : Mat U (k + 2) (k + 2)} (ha : MatRel R a a')
    (q : Nat × Nat) (hk : k + 2 < t.W) (hp : q.1 < k + 2 ∧ q.2 < k + 2) (hp' : q.1 + q.2 < t.W) :
    Rel p R (a.cofactor t O k q) (a'.cofactor t' O' k q) := by
  match k with
  | 0 => exact rel_cof_small H.toRelHom t t' hW 0 (by omega) ha q hk hp hp'
  | 1 => exact rel_cof_small H.toRelHom t t' hW 1 (by omega) ha q hk hp hp'
  | k + 2 => exact rel_cofGen H.toRelHom t t' hW (fun hb => rel_det H t t' hW _ hb (by omega)) ha q hk hp'

omit H in
theorem rel_new (m : Nat) {rows : Vec (Vec T m) n} {rows' : Vec (Vec U m) n} (h : VecRel (VecRel R) rows rows') :
    Rel p (MatRel R) (Mat.new t rows) (Mat.new t' rows') := by
  unfold Mat.new
  rw [Vec.collect_pure t n _ rows.length_eq, Vec.collect_pure t' n _ rows'.length_eq]
  exact .ok fun i j => h i j

theorem rel_ms {a : Mat T 3 3} {a' : Mat U 3 3} (ha : MatRel R a a') (p1 q u v : Nat × Nat) (h : p1.1 < 3 ∧ p1.2 < 3 ∧
    q.1 < 3 ∧ q.2 < 3 ∧ u.1 < 3 ∧ u.2 < 3 ∧ v.1 < 3 ∧ v.2 < 3) : Rel p R (a.ms t O p1 q u v) (a'.ms t' O' p1 q u v) := by
  unfold Mat.ms
  exact (rel_idxStatic t t' ha h.1 h.2.1).bind fun _ _ h1 => (rel_idxStatic t t' ha h.2.2.1 h.2.2.2.1).bind fun _ _ h2 =>
    (H.mul h1 h2).bind fun _ _ hx => (rel_idxStatic t t' ha h.2.2.2.2.1 h.2.2.2.2.2.1).bind fun _ _ h1 =>
    (rel_idxStatic t t' ha h.2.2.2.2.2.2.1 h.2.2.2.2.2.2.2).bind fun _ _ h2 => (H.mul h1 h2).bind fun _ _ hy => H.sub hx hy

theorem rel_gjScale (i : Nat) {x : T} {x' : U} (hx : R x x') {s : Mat T n n × Mat T n n} {s' : Mat U n n × Mat U n n}
    (hs : MatRel R s.1 s'.1 ∧ MatRel R s.2 s'.2) :
    Rel p (fun s s' => MatRel R s.1 s'.1 ∧ MatRel R s.2 s'.2) (Mat.gjScale O i x s) (Mat.gjScale O' i x' s') := by
  unfold Mat.gjScale
  refine .foldlM (R := fun (s : Mat T n n × Mat T n n) (s' : Mat U n n × Mat U n n) => MatRel R s.1 s'.1 ∧ MatRel R s.2 s'.2) _ (fun k _ s s' hs => ?_) hs
  exact (rel_index hs.1 _).bind fun _ _ h1 => (H.mul h1 hx).bind fun _ _ h2 => (rel_indexSet hs.1 _ h2).bind fun _ _ h3 =>
    (rel_index hs.2 _).bind fun _ _ h4 => (H.mul h4 hx).bind fun _ _ h5 => (rel_indexSet hs.2 _ h5).bind fun _ _ h6 =>
    .ok ⟨h3, h6⟩

theorem rel_gjRow (i j : Nat) {x : T} {x' : U} (hx : R x x') {s : Mat T n n × Mat T n n} {s' : Mat U n n × Mat U n n}
    (hs : MatRel R s.1 s'.1 ∧ MatRel R s.2 s'.2) :
    Rel p (fun s s' => MatRel R s.1 s'.1 ∧ MatRel R s.2 s'.2) (Mat.gjRow O i j x s) (Mat.gjRow O' i j x' s') := by
  unfold Mat.gjRow
  refine .foldlM (R := fun (s : Mat T n n × Mat T n n) (s' : Mat U n n × Mat U n n) => MatRel R s.1 s'.1 ∧ MatRel R s.2 s'.2) _ (fun k _ s s' hs => ?_) hs
  exact (rel_index hs.1 _).bind fun _ _ h1 => (rel_index hs.1 _).bind fun _ _ h2 => (H.mul h2 hx).bind fun _ _ h3 =>
    (H.sub h1 h3).bind fun _ _ h4 => (rel_indexSet hs.1 _ h4).bind fun _ _ h5 =>
    (rel_index hs.2 _).bind fun _ _ h1 => (rel_index hs.2 _).bind fun _ _ h2 => (H.mul h2 hx).bind fun _ _ h3 =>
    (H.sub h1 h3).bind fun _ _ h4 => (rel_indexSet hs.2 _ h4).bind fun _ _ h6 => .ok ⟨h5, h6⟩

theorem rel_gjClear (i : Nat) {s : Mat T n n × Mat T n n} {s' : Mat U n n × Mat U n n}
    (hs : MatRel R s.1 s'.1 ∧ MatRel R s.2 s'.2) :
    Rel p (fun s s' => MatRel R s.1 s'.1 ∧ MatRel R s.2 s'.2) (Mat.gjClear O i s) (Mat.gjClear O' i s') := by
  unfold Mat.gjClear
  refine .foldlM (R := fun (s : Mat T n n × Mat T n n) (s' : Mat U n n × Mat U n n) => MatRel R s.1 s'.1 ∧ MatRel R s.2 s'.2) _ (fun j _ s s' hs => ?_) hs
  split
  · exact .ok hs
  · exact (rel_index hs.1 _).bind fun _ _ h => rel_gjRow H _ _ h hs

theorem rel_gjLoop (is : List Nat) {s : Mat T n n × Mat T n n} {s' : Mat U n n × Mat U n n}
    (hs : MatRel R s.1 s'.1 ∧ MatRel R s.2 s'.2) :
    Rel p (OptRel fun s s' => MatRel R s.1 s'.1 ∧ MatRel R s.2 s'.2) (Mat.gjLoop O is s) (Mat.gjLoop O' is s') := by
  induction is generalizing s s' with
  | nil => exact .ok hs
  | cons i is ih =>
    unfold Mat.gjLoop
    refine (rel_index hs.1 _).bind fun d d' hd => ?_
    rcases H.test hd with ht | ⟨hp, ht, hd⟩
    swap
    · exact .excused hp (by rw [if_neg (by simp [ht])]; exact bind_ne' (hd _))
    rw [ht]
    by_cases hz : O.isZero d = true
    · rw [if_pos hz, if_pos hz]; exact .ok trivial
    · rw [if_neg hz, if_neg hz]
      exact (H.div H.one hd (by simpa using hz)).bind fun _ _ h => (rel_gjScale H i h hs).bind fun _ _ hs =>
        (rel_gjClear H i hs).bind fun _ _ hs => ih hs

theorem rel_invGen {a : Mat T n n} {a' : Mat U n n} (ha : MatRel R a a') :
    Rel p (OptRel (MatRel R)) (Mat.invGen t O a) (Mat.invGen t' O' a') := by
  unfold Mat.invGen
  rw [Mat.clone_ok, Mat.clone_ok]
  refine (rel_identity H.toRelHom t t' n).bind fun e e' he => (rel_gjLoop H _ (s := (a, e)) (s' := (a', e')) ⟨ha, he⟩).bind
    fun o o' h => ?_
  cases o <;> cases o'
  · exact .ok trivial
  · exact h.elim
  · exact h.elim
  · exact .ok h.2

theorem rel_inverse (k : Nat) {a : Mat T (k + 1) (k + 1)} {a' : Mat U (k + 1) (k + 1)} (ha : MatRel R a a') :
    Rel p (OptRel (MatRel R)) (a.inverse t O k) (a'.inverse t' O' k) := by
  have g : ∀ {m : Nat} {b : Mat T m m} {b' : Mat U m m} (_ : MatRel R b b') (i j : Nat) (_ : i < m) (_ : j < m),
    Rel p R (b.idxStatic t i j) (b'.idxStatic t' i j) := fun h i j hi hj => rel_idxStatic t t' h hi hj
  match k with
  | 0 =>
    change Rel p _ (Mat.inv1 t O a) (Mat.inv1 t' O' a')
    unfold Mat.inv1
    refine (g ha 0 0 (by omega) (by omega)).bind fun d d' hd => ?_
    rcases H.test hd with ht | ⟨hp, ht, hd⟩
    swap
    · exact .excused hp (by rw [if_neg (by simp [ht])]; exact bind_ne' (hd _))
    rw [ht]
    by_cases hz : O.isZero d = true
    · rw [if_pos hz, if_pos hz]; exact .ok trivial
    · rw [if_neg hz, if_neg hz]
      refine (H.div H.one hd (by simpa using hz)).bind fun x x' hx => ?_
      refine (rel_new t t' 1 (R := R) fun i j => ?_).bind fun b b' hb => .ok hb
      fin_cases i; fin_cases j; exact hx
  | 1 =>
    change Rel p _ (Mat.inv2 t O a) (Mat.inv2 t' O' a')
    unfold Mat.inv2
    refine (rel_det2 H.toRelHom t t' ha).bind fun d d' hd => ?_
    rcases H.test hd with ht | ⟨hp, ht, hd⟩
    swap
    · exact .excused hp (by
        rw [if_neg (by simp [ht])]
        exact bind_ne fun _ => bind_ne fun _ => bind_ne fun _ => bind_ne fun _ => bind_ne fun _ => bind_ne fun _ =>
          bind_ne fun _ => bind_ne' fun w hw => hd _ _ ((C19_mat_ok t O.div O.neg _ _ w w).2.1.1 hw 0 0))
    rw [ht]
    by_cases hz : O.isZero d = true
    · rw [if_pos hz, if_pos hz]; exact .ok trivial
    · rw [if_neg hz, if_neg hz]
      refine (g ha _ _ (by omega) (by omega)).bind fun _ _ h00 => (g ha _ _ (by omega) (by omega)).bind fun _ _ h =>
        (H.neg h).bind fun _ _ h01 => (g ha _ _ (by omega) (by omega)).bind fun _ _ h => (H.neg h).bind fun _ _ h10 =>
        (g ha _ _ (by omega) (by omega)).bind fun _ _ h11 => (rel_new t t' 2 (R := R) fun i j => ?_).bind fun b b' hb =>
        (rel_matDivScalar t t' (fun h => H.div h hd (by simpa using hz)) hb).bind fun _ _ h => .ok h
      fin_cases i <;> fin_cases j
      exacts [h00, h01, h10, h11]
  | 2 =>
    change Rel p _ (Mat.inv3 t O a) (Mat.inv3 t' O' a')
    unfold Mat.inv3
    refine (rel_det3 H.toRelHom t t' ha).bind fun d d' hd => ?_
    rcases H.test hd with ht | ⟨hp, ht, hd⟩
    swap
    · exact .excused hp (by
        rw [if_neg (by simp [ht])]
        exact bind_ne fun _ => bind_ne fun _ => bind_ne fun _ => bind_ne fun _ => bind_ne fun _ => bind_ne fun _ =>
          bind_ne fun _ => bind_ne fun _ => bind_ne fun _ => bind_ne fun _ =>
          bind_ne' fun w hw => hd _ _ ((C19_mat_ok t O.div O.neg _ _ w w).2.1.1 hw 0 0))
    rw [ht]
    by_cases hz : O.isZero d = true
    · rw [if_pos hz, if_pos hz]; exact .ok trivial
    · rw [if_neg hz, if_neg hz]
      have m : ∀ p1 q u v, (p1.1 < 3 ∧ p1.2 < 3 ∧ q.1 < 3 ∧ q.2 < 3 ∧ u.1 < 3 ∧ u.2 < 3 ∧ v.1 < 3 ∧ v.2 < 3) →
        Rel p R (a.ms t O p1 q u v) (a'.ms t' O' p1 q u v) := fun p1 q u v h => rel_ms H t t' ha p1 q u v h
      refine (m _ _ _ _ (by simp)).bind fun _ _ h00 => (m _ _ _ _ (by simp)).bind fun _ _ h01 =>
        (m _ _ _ _ (by simp)).bind fun _ _ h02 => (m _ _ _ _ (by simp)).bind fun _ _ h10 =>
        (m _ _ _ _ (by simp)).bind fun _ _ h11 => (m _ _ _ _ (by simp)).bind fun _ _ h12 =>
        (m _ _ _ _ (by simp)).bind fun _ _ h20 => (m _ _ _ _ (by simp)).bind fun _ _ h21 =>
        (m _ _ _ _ (by simp)).bind fun _ _ h22 => (rel_new t t' 3 (R := R) fun i j => ?_).bind fun b b' hb =>
        (rel_matDivScalar t t' (fun h => H.div h hd (by simpa using hz)) hb).bind fun _ _ h => .ok h
      fin_cases i <;> fin_cases j
      exacts [h00, h01, h02, h10, h11, h12, h20, h21, h22]
  | k + 3 => exact rel_invGen H t t' ha

end DivHom
end Rowcol
