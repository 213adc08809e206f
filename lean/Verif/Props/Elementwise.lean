import Verif.Lemmas.Loops
import Verif.Arith
import Mathlib.Tactic.Ring
import Mathlib.Algebra.Module.Basic

/-! # C18-C22: elementwise arithmetic -/

namespace Rowcol

variable {m : Type → Type} [RustM m] {T U V : Type} {n r c : Nat}

/-! ## C18 -/

/-- The four by-value/by-reference forms of a vector operation. -/
def vecForms (t : Target) (f : T → U → m V) : List (Vec T n → Vec U n → m (Vec V n)) :=
  [Vec.opVV t f, Vec.opVR t f, Vec.opRV t f, Vec.opRR t f]

/-- The four by-value/by-reference forms of a matrix operation. -/
def matForms (t : Target) (f : T → T → m V) : List (Mat T r c → Mat T r c → m (Mat V r c)) :=
  [Mat.opVV t f, Mat.opVR t f, Mat.opRV t f, Mat.opRR t f]

theorem vecForms_eq (t : Target) (f : T → U → m V) (op) (hop : op ∈ vecForms (n := n) t f) (a : Vec T n) (b : Vec U n) :
    op a b = Vec.collect t n ((List.finRange n).map fun i => f (a.get i) (b.get i)) := by
  simp only [vecForms, List.mem_cons, List.not_mem_nil, or_false] at hop
  rcases hop with rfl | rfl | rfl | rfl <;>
    simp [Vec.opVV, Vec.opVR, Vec.opRV, Vec.opRR, Vec.zip_eq, Function.comp_def]

theorem matForms_eq (t : Target) (f : T → T → m V) (op) (hop : op ∈ matForms (r := r) (c := c) t f) (a b : Mat T r c) :
    op a b = (do
      let v ← Vec.collect t r ((List.finRange r).map fun i =>
        Vec.collect t c ((List.finRange c).map fun j => f (a.get i j) (b.get i j)))
      pure (⟨v⟩ : Mat V r c)) := by
  simp only [matForms, List.mem_cons, List.not_mem_nil, or_false] at hop
  rcases hop with rfl | rfl | rfl | rfl <;>
    simp [Mat.opVV, Mat.opVR, Mat.opRV, Mat.opRR, Vec.opVV, Vec.opVR, Vec.opRV, Vec.opRR, Vec.zip_eq,
      Function.comp_def, Mat.get]

/-- C18, vectors, effects: every form performs the element operation once per index, in index order. -/
theorem C18_vec_order (t : Target) (f : T → U → m V) (op) (hop : op ∈ vecForms (n := n) t f) (a : Vec T n) (b : Vec U n) :
    Vec.toList <$> op a b = (List.finRange n).mapM fun i => f (a.get i) (b.get i) := by
  rw [vecForms_eq t f op hop, Vec.collect_finRange_toList]

/-- C18, vectors: the result is `w` exactly when each `a[i] op b[i]` is `w[i]`. -/
theorem C18_vec_ok (t : Target) (f : T → U → Res V) (op) (hop : op ∈ vecForms (n := n) t f) (a : Vec T n) (b : Vec U n)
    (w : Vec V n) : op a b = .ok w ↔ ∀ i, f (a.get i) (b.get i) = .ok (w.get i) := by
  rw [vecForms_eq t f op hop, Vec.collect_finRange_ok_iff]

/-- C18, vectors: the operation fails exactly with the first failing element operation. -/
theorem C18_vec_panic (t : Target) (f : T → U → Res V) (op) (hop : op ∈ vecForms (n := n) t f) (a : Vec T n) (b : Vec U n)
    (e : Fault) : op a b = .error e ↔
      ∃ k, f (a.get k) (b.get k) = .error e ∧ ∀ i < k, ∃ x, f (a.get i) (b.get i) = .ok x := by
  rw [vecForms_eq t f op hop, Vec.collect_finRange_error_iff]

/-- C18, vectors: the four forms agree. -/
theorem C18_vec_forms_agree (t : Target) (f : T → U → m V) (op op') (hop : op ∈ vecForms (n := n) t f)
    (hop' : op' ∈ vecForms (n := n) t f) (a : Vec T n) (b : Vec U n) : op a b = op' a b := by
  rw [vecForms_eq t f op hop, vecForms_eq t f op' hop']

/-- C18, matrices, effects: row-major order. -/
theorem C18_mat_order (t : Target) (f : T → T → m V) (op) (hop : op ∈ matForms (r := r) (c := c) t f) (a b : Mat T r c) :
    Mat.toLists <$> op a b =
      (List.finRange r).mapM fun i => (List.finRange c).mapM fun j => f (a.get i j) (b.get i j) := by
  rw [matForms_eq t f op hop]
  exact Mat.collect_toLists t r c (List.finRange r) (fun _ => List.finRange c)
    (fun i j => f (a.get i j) (b.get i j)) (by simp) (by simp)

/-- C18, matrices: the result is `w` exactly when each `a[(i,j)] op b[(i,j)]` is `w[(i,j)]`. -/
theorem C18_mat_ok (t : Target) (f : T → T → Res V) (op) (hop : op ∈ matForms (r := r) (c := c) t f) (a b : Mat T r c)
    (w : Mat V r c) : op a b = .ok w ↔ ∀ i j, f (a.get i j) (b.get i j) = .ok (w.get i j) := by
  rw [matForms_eq t f op hop, Mat.collect_ok_iff]

/-- C18, matrices: the first failing element operation in row-major order decides. -/
theorem C18_mat_panic (t : Target) (f : T → T → Res V) (op) (hop : op ∈ matForms (r := r) (c := c) t f) (a b : Mat T r c)
    (e : Fault) : op a b = .error e ↔ ∃ i j, f (a.get i j) (b.get i j) = .error e ∧
      ∀ i' j', (i' < i ∨ (i' = i ∧ j' < j)) → ∃ x, f (a.get i' j') (b.get i' j') = .ok x := by
  rw [matForms_eq t f op hop, Mat.collect_error_iff]

/-- C18, matrices: the four forms agree. -/
theorem C18_mat_forms_agree (t : Target) (f : T → T → m V) (op op') (hop : op ∈ matForms (r := r) (c := c) t f)
    (hop' : op' ∈ matForms (r := r) (c := c) t f) (a b : Mat T r c) : op a b = op' a b := by
  rw [matForms_eq t f op hop, matForms_eq t f op' hop']

example : Vec.opRV (m := Res) ⟨true, true, 2 ^ 64⟩ Ops.nat.sub (⟨[5, 7, 9], rfl⟩ : Vec Nat 3) ⟨[1, 2, 3], rfl⟩ =
    .ok ⟨[4, 5, 6], rfl⟩ := rfl
example : Vec.opRV (m := Res) ⟨true, true, 2 ^ 64⟩ Ops.nat.sub (⟨[5, 1, 9], rfl⟩ : Vec Nat 3) ⟨[1, 2, 3], rfl⟩ =
    .error .panic := rfl

/-! ## C19 -/

/-- C19, vectors: multiplication and division by a scalar, and negation, element by element in index order. -/
theorem C19_vec_order (t : Target) (f : T → U → m V) (g : T → m V) (a : Vec T n) (s : U) :
    Vec.toList <$> a.mulScalar t f s = (List.finRange n).mapM (fun i => f (a.get i) s) ∧
    Vec.toList <$> a.divScalar t f s = (List.finRange n).mapM (fun i => f (a.get i) s) ∧
    Vec.toList <$> a.neg t g = (List.finRange n).mapM (fun i => g (a.get i)) := by
  refine ⟨?_, ?_, ?_⟩
  · rw [Vec.mulScalar, Vec.toList_eq, List.map_map]; exact Vec.collect_finRange_toList t _
  · rw [Vec.divScalar, Vec.toList_eq, List.map_map]; exact Vec.collect_finRange_toList t _
  · rw [Vec.neg, Vec.toList_eq, List.map_map]; exact Vec.collect_finRange_toList t _

/-- C19, vectors: values. -/
theorem C19_vec_ok (t : Target) (f : T → U → Res V) (g : T → Res V) (a : Vec T n) (s : U) (w : Vec V n) :
    (a.mulScalar t f s = .ok w ↔ ∀ i, f (a.get i) s = .ok (w.get i)) ∧
    (a.divScalar t f s = .ok w ↔ ∀ i, f (a.get i) s = .ok (w.get i)) ∧
    (a.neg t g = .ok w ↔ ∀ i, g (a.get i) = .ok (w.get i)) := by
  refine ⟨?_, ?_, ?_⟩
  · rw [Vec.mulScalar, Vec.toList_eq, List.map_map]; exact Vec.collect_finRange_ok_iff t _ w
  · rw [Vec.divScalar, Vec.toList_eq, List.map_map]; exact Vec.collect_finRange_ok_iff t _ w
  · rw [Vec.neg, Vec.toList_eq, List.map_map]; exact Vec.collect_finRange_ok_iff t _ w

theorem matScalar_eq (t : Target) (a : Mat T r c) (f : T → m V) :
    (do let v ← Vec.collect t r (a.rows.toList.map fun row : Vec T c => Vec.collect t c (row.toList.map f))
        pure (⟨v⟩ : Mat V r c) : m (Mat V r c)) =
      (do let v ← Vec.collect t r ((List.finRange r).map fun i =>
            Vec.collect t c ((List.finRange c).map fun j => f (a.get i j)))
          pure (⟨v⟩ : Mat V r c)) := by
  rw [Vec.toList_eq a.rows, List.map_map]
  simp only [Function.comp_def, Mat.get]
  congr
  funext i
  rw [Vec.toList_eq (a.rows.get i), List.map_map]
  rfl

/-- C19, matrices, effects: row-major order. -/
theorem C19_mat_order (t : Target) (f : T → U → m T) (g : T → m V) (a : Mat T r c) (s : U) :
    Mat.toLists <$> a.mulScalar t f s = (List.finRange r).mapM (fun i => (List.finRange c).mapM fun j => f (a.get i j) s) ∧
    Mat.toLists <$> a.divScalar t f s = (List.finRange r).mapM (fun i => (List.finRange c).mapM fun j => f (a.get i j) s) ∧
    Mat.toLists <$> a.neg t g = (List.finRange r).mapM (fun i => (List.finRange c).mapM fun j => g (a.get i j)) := by
  refine ⟨?_, ?_, ?_⟩
  · rw [Mat.mulScalar]; simp only [Vec.mulScalar]; rw [matScalar_eq]
    exact Mat.collect_toLists t r c (List.finRange r) (fun _ => List.finRange c)
      (fun i j => f (a.get i j) s) (by simp) (by simp)
  · rw [Mat.divScalar]; simp only [Vec.divScalar]; rw [matScalar_eq]
    exact Mat.collect_toLists t r c (List.finRange r) (fun _ => List.finRange c)
      (fun i j => f (a.get i j) s) (by simp) (by simp)
  · rw [Mat.neg]; simp only [Vec.neg]; rw [matScalar_eq]
    exact Mat.collect_toLists t r c (List.finRange r) (fun _ => List.finRange c)
      (fun i j => g (a.get i j)) (by simp) (by simp)

/-- C19, matrices: values. -/
theorem C19_mat_ok (t : Target) (f : T → U → Res T) (g : T → Res V) (a : Mat T r c) (s : U) (w : Mat T r c)
    (w' : Mat V r c) :
    (a.mulScalar t f s = .ok w ↔ ∀ i j, f (a.get i j) s = .ok (w.get i j)) ∧
    (a.divScalar t f s = .ok w ↔ ∀ i j, f (a.get i j) s = .ok (w.get i j)) ∧
    (a.neg t g = .ok w' ↔ ∀ i j, g (a.get i j) = .ok (w'.get i j)) := by
  refine ⟨?_, ?_, ?_⟩
  · rw [Mat.mulScalar]; simp only [Vec.mulScalar]; rw [matScalar_eq, Mat.collect_ok_iff]
  · rw [Mat.divScalar]; simp only [Vec.divScalar]; rw [matScalar_eq, Mat.collect_ok_iff]
  · rw [Mat.neg]; simp only [Vec.neg]; rw [matScalar_eq, Mat.collect_ok_iff]

example : (⟨[2, 4, 6], rfl⟩ : Vec Int 3).divScalar ⟨true, true, 2 ^ 64⟩ Ops.int.div 2 = .ok ⟨[1, 2, 3], rfl⟩ := rfl

/-! ## C20 -/

/-- C20, vectors: if the operator returns `w`, the compound assignment ends normally with value `w`. -/
theorem C20_vec_assign (t : Target) (f : T → U → Res T) (a : Vec T n) (b : Vec U n) (s : U) (w : Vec T n) :
    (Vec.opVV t f a b = .ok w → a.addAssign f b = (.ok (), w) ∧ a.subAssign f b = (.ok (), w)) ∧
    (a.mulScalar t f s = .ok w → a.mulAssign f s = (.ok (), w)) ∧
    (a.divScalar t f s = .ok w → a.divAssign f s = (.ok (), w)) := by
  refine ⟨fun h => ?_, fun h => ?_, fun h => ?_⟩
  · have h' := (C18_vec_ok t f _ (by simp [vecForms]) a b w).1 h
    have := Vec.addAssign_ok f a b w.get h'
    rw [Vec.ofFn_get] at this
    exact ⟨this, this⟩
  · have h' := (C19_vec_ok t f (fun x => .ok x) a s w).1.1 h
    have := Vec.mulAssign_ok f a s w.get h'
    rwa [Vec.ofFn_get] at this
  · have h' := (C19_vec_ok t f (fun x => .ok x) a s w).2.1.1 h
    have := Vec.mulAssign_ok f a s w.get h'
    rw [Vec.ofFn_get] at this
    exact this

/-- C20, matrices. -/
theorem C20_mat_assign (t : Target) (f : T → T → Res T) (a b : Mat T r c) (s : T) (w : Mat T r c) :
    (Mat.opVV t f a b = .ok w → a.addAssign f b = (.ok (), w) ∧ a.subAssign f b = (.ok (), w)) ∧
    (a.mulScalar t f s = .ok w → a.mulAssignScalar f s = (.ok (), w)) ∧
    (a.divScalar t f s = .ok w → a.divAssignScalar f s = (.ok (), w)) := by
  have forEach' : (∀ i j, f (a.get i j) s = .ok (w.get i j)) → Mat.forEach (fun e => assign f e s) a = (.ok (), w) := by
    intro h
    have := Mat.forEach_ok (fun e => assign f e s) a w.get (fun i j => by simp [assign, h i j])
    rwa [Mat.ofFn_get] at this
  refine ⟨fun h => ?_, fun h => ?_, fun h => ?_⟩
  · have h' := (C18_mat_ok t f _ (by simp [matForms]) a b w).1 h
    have := Mat.addAssign_ok f a b w.get h'
    rw [Mat.ofFn_get] at this
    exact ⟨this, this⟩
  · exact forEach' ((C19_mat_ok t f (fun x => .ok x) a s w w).1.1 h)
  · exact forEach' ((C19_mat_ok t f (fun x => .ok x) a s w w).2.1.1 h)

example : (⟨[1, 2, 3], rfl⟩ : Vec Int 3).subAssign Ops.int.sub ⟨[4, 5, 6], rfl⟩ = (.ok (), ⟨[-3, -3, -3], rfl⟩) := rfl

/-! ## C21 -/

/-- C21, vectors: when the element operation fails at position `k`, the assignment fails with that fault, the
elements before `k` hold the new values, the others the old ones. -/
theorem C21_vec_assign_panic (f : T → U → Res T) (a : Vec T n) (b : Vec U n) (k : Fin n) (e : Fault) (g : Fin n → T)
    (hlt : ∀ i < k, f (a.get i) (b.get i) = .ok (g i)) (hk : f (a.get k) (b.get k) = .error e) :
    ∃ w : Vec T n, a.addAssign f b = (.error e, w) ∧ a.subAssign f b = (.error e, w) ∧
      (∀ i < k, w.get i = g i) ∧ ∀ i ≥ k, w.get i = a.get i := by
  refine ⟨_, Vec.addAssign_error f a b k e g hlt hk, Vec.addAssign_error f a b k e g hlt hk, ?_, ?_⟩
  · intro i hi; simp [hi]
  · intro i hi; simp [Fin.not_lt.2 hi]

/-- C21, vectors and scalars. -/
theorem C21_vec_scalar_assign_panic (f : T → U → Res T) (a : Vec T n) (s : U) (k : Fin n) (e : Fault) (g : Fin n → T)
    (hlt : ∀ i < k, f (a.get i) s = .ok (g i)) (hk : f (a.get k) s = .error e) :
    ∃ w : Vec T n, a.mulAssign f s = (.error e, w) ∧ a.divAssign f s = (.error e, w) ∧
      (∀ i < k, w.get i = g i) ∧ ∀ i ≥ k, w.get i = a.get i := by
  refine ⟨_, Vec.mulAssign_error f a s k e g hlt hk, Vec.mulAssign_error f a s k e g hlt hk, ?_, ?_⟩
  · intro i hi; simp [hi]
  · intro i hi; simp [Fin.not_lt.2 hi]

/-- C21, matrices: positions before `(k, l)` in row-major order hold the new values, the others the old ones. -/
theorem C21_mat_assign_panic (f : T → U → Res T) (a : Mat T r c) (b : Mat U r c) (k : Fin r) (l : Fin c) (e : Fault)
    (g : Fin r → Fin c → T)
    (hlt : ∀ i j, (i < k ∨ (i = k ∧ j < l)) → f (a.get i j) (b.get i j) = .ok (g i j))
    (hk : f (a.get k l) (b.get k l) = .error e) :
    ∃ w : Mat T r c, a.addAssign f b = (.error e, w) ∧ a.subAssign f b = (.error e, w) ∧
      ∀ i j, w.get i j = if i < k ∨ (i = k ∧ j < l) then g i j else a.get i j := by
  refine ⟨_, Mat.addAssign_error f a b k l e g hlt hk, Mat.addAssign_error f a b k l e g hlt hk, ?_⟩
  intro i j; simp

/-- C21, matrices and scalars. -/
theorem C21_mat_scalar_assign_panic (f : T → U → Res T) (a : Mat T r c) (s : U) (k : Fin r) (l : Fin c) (e : Fault)
    (g : Fin r → Fin c → T)
    (hlt : ∀ i j, (i < k ∨ (i = k ∧ j < l)) → f (a.get i j) s = .ok (g i j))
    (hk : f (a.get k l) s = .error e) :
    ∃ w : Mat T r c, a.mulAssignScalar f s = (.error e, w) ∧ a.divAssignScalar f s = (.error e, w) ∧
      ∀ i j, w.get i j = if i < k ∨ (i = k ∧ j < l) then g i j else a.get i j := by
  have key := Mat.forEach_error (fun x => assign f x s) a k l e g (fun i j h => by simp [assign, hlt i j h])
    (by simp [assign, hk])
  refine ⟨_, key, key, ?_⟩
  intro i j; simp

example : (⟨[5, 1, 9], rfl⟩ : Vec Nat 3).subAssign Ops.nat.sub ⟨[1, 2, 3], rfl⟩ = (.error .panic, ⟨[4, 1, 9], rfl⟩) := rfl
example : (⟨⟨[⟨[9, 8], rfl⟩, ⟨[3, 6], rfl⟩], rfl⟩⟩ : Mat Nat 2 2).subAssign Ops.nat.sub
    ⟨⟨[⟨[1, 2], rfl⟩, ⟨[4, 5], rfl⟩], rfl⟩⟩ = (.error .panic, ⟨⟨[⟨[8, 6], rfl⟩, ⟨[3, 6], rfl⟩], rfl⟩⟩) := rfl

/-! ## C22 -/

section Module
variable {R : Type} [CommRing R] (O : Ops R) (hO : O.IsRing) (t : Target)
include hO

theorem vecAdd (a b : Vec R n) : Vec.opVV t O.add a b = .ok (Vec.ofFn fun i => a.get i + b.get i) := by
  rw [C18_vec_ok t O.add _ (by simp [vecForms])]; simp [hO.add]

theorem vecSub (a b : Vec R n) : Vec.opVV t O.sub a b = .ok (Vec.ofFn fun i => a.get i - b.get i) := by
  rw [C18_vec_ok t O.sub _ (by simp [vecForms])]; simp [hO.sub]

theorem vecNeg (a : Vec R n) : a.neg t O.neg = .ok (Vec.ofFn fun i => -a.get i) := by
  rw [(C19_vec_ok t (fun x (_ : Unit) => .ok x) O.neg a () _).2.2]; simp [hO.neg]

theorem vecSmul (a : Vec R n) (s : R) : a.mulScalar t O.mul s = .ok (Vec.ofFn fun i => a.get i * s) := by
  rw [(C19_vec_ok t O.mul O.neg a s _).1]; simp [hO.mul]

omit hO [CommRing R] in
theorem vecZero (z : R) : Vec.zero t n z = .ok (Vec.ofFn fun _ => z) := by
  unfold Vec.zero Vec.generate
  rw [Vec.range_eq, List.map_map]
  exact Vec.collect_finRange_ok t _ _ (fun _ => rfl)

/-- C22, vectors: `+` is associative and commutative with neutral element `zero()`, `a - b = a + (-b)`,
`a + (-a) = zero()`, and multiplication by scalars is associative and distributes. -/
theorem C22_vec_module (a b c' : Vec R n) (s s' : R) :
    (do let x ← Vec.opVV t O.add a b; Vec.opVV t O.add x c') =
      (do let y ← Vec.opVV t O.add b c'; Vec.opVV t O.add a y) ∧
    Vec.opVV t O.add a b = Vec.opVV t O.add b a ∧
    (do let z ← Vec.zero t n O.zero; Vec.opVV t O.add a z) = .ok a ∧
    Vec.opVV t O.sub a b = (do let y ← b.neg t O.neg; Vec.opVV t O.add a y) ∧
    (do let y ← a.neg t O.neg; Vec.opVV t O.add a y) = Vec.zero t n O.zero ∧
    (do let x ← Vec.opVV t O.add a b; x.mulScalar t O.mul s) =
      (do let x ← a.mulScalar t O.mul s; let y ← b.mulScalar t O.mul s; Vec.opVV t O.add x y) ∧
    (do let k ← O.add s s'; a.mulScalar t O.mul k) =
      (do let x ← a.mulScalar t O.mul s; let y ← a.mulScalar t O.mul s'; Vec.opVV t O.add x y) ∧
    (do let x ← a.mulScalar t O.mul s; x.mulScalar t O.mul s') =
      (do let k ← O.mul s s'; a.mulScalar t O.mul k) ∧
    a.mulScalar t O.mul O.one = .ok a := by
  simp only [vecAdd O hO, vecSub O hO, vecNeg O hO, vecSmul O hO, vecZero, hO.add, hO.mul, hO.zero, hO.one,
    res_ok_bind, Vec.get_ofFn, Except.ok.injEq]
  refine ⟨?_, ?_, ?_, ?_, ?_, ?_, ?_, ?_, ?_⟩ <;> apply Vec.ext_get <;> intro i <;> simp only [Vec.get_ofFn] <;> ring

theorem matAdd (a b : Mat R r c) : Mat.opVV t O.add a b = .ok (Mat.ofFn fun i j => a.get i j + b.get i j) := by
  rw [C18_mat_ok t O.add _ (by simp [matForms])]; simp [hO.add]

theorem matSub (a b : Mat R r c) : Mat.opVV t O.sub a b = .ok (Mat.ofFn fun i j => a.get i j - b.get i j) := by
  rw [C18_mat_ok t O.sub _ (by simp [matForms])]; simp [hO.sub]

theorem matNeg (a : Mat R r c) : a.neg t O.neg = .ok (Mat.ofFn fun i j => -a.get i j) := by
  rw [(C19_mat_ok t (fun x (_ : Unit) => .ok x) O.neg a () a _).2.2]; simp [hO.neg]

theorem matSmul (a : Mat R r c) (s : R) : a.mulScalar t O.mul s = .ok (Mat.ofFn fun i j => a.get i j * s) := by
  rw [(C19_mat_ok t O.mul O.neg a s _ a).1]; simp [hO.mul]

omit hO [CommRing R] in
theorem matZero (z : R) : Mat.zero t r c z = .ok (Mat.ofFn fun _ _ => z) := by
  unfold Mat.zero Mat.generate Vec.generate
  simp only [Vec.range_eq, List.map_map]
  exact Mat.collect_ok t (fun _ _ => .ok z) _ (fun _ _ => rfl)

/-- C22, matrices. -/
theorem C22_mat_module (a b c' : Mat R r c) (s s' : R) :
    (do let x ← Mat.opVV t O.add a b; Mat.opVV t O.add x c') =
      (do let y ← Mat.opVV t O.add b c'; Mat.opVV t O.add a y) ∧
    Mat.opVV t O.add a b = Mat.opVV t O.add b a ∧
    (do let z ← Mat.zero t r c O.zero; Mat.opVV t O.add a z) = .ok a ∧
    Mat.opVV t O.sub a b = (do let y ← b.neg t O.neg; Mat.opVV t O.add a y) ∧
    (do let y ← a.neg t O.neg; Mat.opVV t O.add a y) = Mat.zero t r c O.zero ∧
    (do let x ← Mat.opVV t O.add a b; x.mulScalar t O.mul s) =
      (do let x ← a.mulScalar t O.mul s; let y ← b.mulScalar t O.mul s; Mat.opVV t O.add x y) ∧
    (do let k ← O.add s s'; a.mulScalar t O.mul k) =
      (do let x ← a.mulScalar t O.mul s; let y ← a.mulScalar t O.mul s'; Mat.opVV t O.add x y) ∧
    (do let x ← a.mulScalar t O.mul s; x.mulScalar t O.mul s') =
      (do let k ← O.mul s s'; a.mulScalar t O.mul k) ∧
    a.mulScalar t O.mul O.one = .ok a := by
  simp only [matAdd O hO, matSub O hO, matNeg O hO, matSmul O hO, matZero, hO.add, hO.mul, hO.zero, hO.one,
    res_ok_bind, Mat.get_ofFn, Except.ok.injEq]
  refine ⟨?_, ?_, ?_, ?_, ?_, ?_, ?_, ?_, ?_⟩ <;> apply Mat.ext_get <;> intro i j <;> simp only [Mat.get_ofFn] <;> ring

end Module

example : Ops.int.IsRing := Ops.int_isRing

end Rowcol
