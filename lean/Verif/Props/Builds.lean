import Verif.Props.MachInt

/-! # C76: builds with and without checks -/

namespace Rowcol

variable {n r c l w : Nat}

/-! ### Operations that involve no arithmetic: every build does the same -/

section Any
variable {m : Type → Type} [RustM m] {T U V : Type}

theorem fill_rest (n : Nat) (xs : List (m T)) (h : n ≤ xs.length) :
    Vec.fill Iter.ofList n xs = (do let p ← Vec.fill Iter.ofList n xs; pure (p.1, xs.drop n) : m (Vec T n × List (m T))) := by
  induction n generalizing xs with
  | zero => simp [Vec.fill]
  | succ n ih =>
    cases xs with
    | nil => simp at h
    | cons a as =>
      have h' : n ≤ as.length := by simpa using h
      have := ih as h'
      simp only [Vec.fill, Iter.ofList, bind_assoc, pure_bind, List.drop_succ_cons]
      congr; funext x
      simp only [Iter.ofList] at this
      conv_lhs => rw [this]
      simp only [bind_assoc, pure_bind]

theorem collect_indep (t t' : Target) (n : Nat) (xs : List (m T)) (h : xs.length = n) :
    Vec.collect t n xs = Vec.collect t' n xs := by
  have key : ∀ t : Target, Vec.collect t n xs = (do let p ← Vec.fill Iter.ofList n xs; pure p.1) := by
    intro t
    unfold Vec.collect Vec.fromIter
    rw [fill_rest n xs (by omega)]
    simp only [bind_assoc, pure_bind]
    rw [← h, List.drop_length]
    simp [Iter.ofList]
  rw [key t, key t']

/-- C76: construction, copying, mapping and elementwise operations do the same in every build, whatever closures and
element operations do. -/
theorem C76_generic (t t' : Target) (f : Nat → m T) (g : Nat × Nat → m T) (cl : T → m T) (h : Nat × Nat → T → m U)
    (e : T → U → m V) (e' : T → T → m V) (v : Vec T n) (u : Vec U n) (a b : Mat T r c) :
    (Vec.generate t n f = Vec.generate t' n f) ∧
    (Mat.generate t r c g = Mat.generate t' r c g) ∧
    (v.clone t cl = v.clone t' cl) ∧
    (a.clone t cl = a.clone t' cl) ∧
    (a.map t h = a.map t' h) ∧
    (Vec.opVV t e v u = Vec.opVV t' e v u) ∧
    (Mat.opVV t e' a b = Mat.opVV t' e' a b) := by
  have vg : ∀ (n : Nat) (f : Nat → m T), Vec.generate t n f = Vec.generate t' n f := fun n f =>
    collect_indep t t' n _ (by simp)
  have vc : ∀ {n : Nat} (v : Vec T n), v.clone t cl = v.clone t' cl := fun v =>
    collect_indep t t' _ _ (by simp [v.length_eq])
  refine ⟨vg n f, ?_, vc v, ?_, ?_, ?_, ?_⟩
  · unfold Mat.generate
    rw [collect_indep t t' r _ (by simp)]
    simp only [vg]
  · unfold Mat.clone
    rw [show a.rows.clone t (fun row => row.clone t cl) = a.rows.clone t' (fun row => row.clone t' cl) by
      unfold Vec.clone
      rw [collect_indep t t' r _ (by simp [a.rows.length_eq])]
      congr; funext row
      exact vc row]
  · unfold Mat.map
    rw [collect_indep t t' r _ (by simp [a.rows.length_eq])]
    congr; funext p
    exact collect_indep t t' c _ (by simp [p.1.length_eq])
  · exact collect_indep t t' n _ (by simp [v.length_eq, u.length_eq])
  · unfold Mat.opVV
    simp only [Vec.opVV]
    rw [collect_indep t t' r _ (by simp [a.rows.length_eq, b.rows.length_eq])]
    congr; funext p
    exact collect_indep t t' c _ (by simp [p.1.length_eq, p.2.length_eq])
end Any

/-- C76: collecting from any user-defined iterator: whenever a build with debug assertions returns a vector, every build
returns that vector. -/
theorem C76_collect {T σ : Type} (t t' : Target) (it : Iter Res T σ) (s : σ) (v : Vec T n) (ht : t.debugAssertions = true)
    (h : Vec.fromIter t n it s = .ok v) : Vec.fromIter t' n it s = .ok v := by
  unfold Vec.fromIter at h ⊢
  rcases hf : Vec.fill it n s with e | p
  · rw [hf] at h; cases h
  · rw [hf] at h
    simp only [res_ok_bind, ht, if_true] at h ⊢
    rcases hc : it.count p.2 with e | k
    · rw [hc] at h; cases h
    · rw [hc] at h
      simp only [res_ok_bind] at h ⊢
      by_cases hk : k = 0
      · simp only [hk, ne_eq, not_true_eq_false, if_false] at h ⊢
        split <;> exact h
      · simp [hk] at h

/-! ### Integer arithmetic: with checks the same or a panic -/

theorem fitS_builds (w : Nat) (z : Int) : ExactOrPanic id (fitS true w z) (fitS false w z) := by
  unfold fitS
  split
  · exact .panic _
  · simp only [Bool.false_eq_true, false_and, if_false]; exact .ok _

theorem fitU_builds (w : Nat) (z : Int) : ExactOrPanic id (fitU true w z) (fitU false w z) := by
  unfold fitU
  split
  · exact .panic _
  · simp only [Bool.false_eq_true, false_and, if_false]; exact .ok _

theorem exactOrPanic_refl {α : Type} {x : Res α} (h : x ≠ .error .ub) : ExactOrPanic id x x := by
  rcases x with e | a
  · cases e with
    | panic => exact .panic _
    | ub => exact absurd rfl h
  · exact .ok a

/-- C76: every operation of an integer type in a build with overflow checks panics or returns what it returns in a build
without them. -/
theorem C76_types :
    (∀ w, (Ops.signed true w).DivHom (Ops.signed false w) id) ∧
    (∀ w, (Ops.unsigned true w).DivHom (Ops.unsigned false w) id) := by
  refine ⟨fun w => ?_, fun w => ?_⟩
  · exact {
      zero := rfl, one := rfl
      add := fun a b => fitS_builds _ _
      sub := fun a b => fitS_builds _ _
      mul := fun a b => fitS_builds _ _
      neg := fun a => fitS_builds _ _
      isZero := fun a => rfl
      div := fun a b hb => exactOrPanic_refl (by
        simp only [Ops.signed, fitS]; split
        · simp
        · split <;> simp) }
  · exact {
      zero := rfl, one := rfl
      add := fun a b => fitU_builds _ _
      sub := fun a b => fitU_builds _ _
      mul := fun a b => fitU_builds _ _
      neg := fun a => fitU_builds _ _
      isZero := fun a => rfl
      div := fun a b hb => exactOrPanic_refl (by
        simp only [Ops.unsigned, fitU]; split
        · simp
        · split <;> simp) }

/-- The computation `x` panics or returns a value that `y` returns too. -/
def PanicsOrAgrees {α : Type} (x y : Res α) : Prop := x = .error .panic ∨ ∃ v, x = .ok v ∧ y = .ok v

theorem ExactOrPanic.agrees {α : Type} {f : α → α} (hf : ∀ a, f a = a) {x y : Res α} (h : ExactOrPanic f x y) :
    PanicsOrAgrees x y := by
  rcases h with h | ⟨a, h1, h2⟩
  · exact .inl h
  · exact .inr ⟨a, h1, by rw [h2, hf]⟩

section
variable {T : Type} {O O' : Ops T} (H : O.DivHom O' id) (t t' : Target) (hW : t'.W = t.W)
include H

/-- C76, vectors: `t` with `O` is the build with checks, `t'` with `O'` the one without. -/
theorem C76_vec (a b : Vec T n) (x y : Vec T 3) (s : T) :
    PanicsOrAgrees (Vec.opVV t O.add a b) (Vec.opVV t' O'.add a b) ∧
    PanicsOrAgrees (Vec.opVV t O.sub a b) (Vec.opVV t' O'.sub a b) ∧
    PanicsOrAgrees (a.mulScalar t O.mul s) (a.mulScalar t' O'.mul s) ∧
    PanicsOrAgrees (a.neg t O.neg) (a.neg t' O'.neg) ∧
    PanicsOrAgrees (a.sum O) (a.sum O') ∧
    PanicsOrAgrees (a.dot O b) (a.dot O' b) ∧
    PanicsOrAgrees (x.cross t O y) (x.cross t' O' y) := by
  have e : ∀ {n : Nat} (v : Vec T n), v.mapV id = v := fun v => Vec.ext_get fun i => by simp
  have h1 := sim_vecOp t t' H.add a b
  have h2 := sim_vecOp t t' H.sub a b
  have h3 := sim_vecScalar t t' (s := s) (fun x => H.mul x s) a
  have h4 := sim_vecNeg t t' H.neg a
  have h5 := sim_vecSum H.toHom a
  have h6 := sim_dot H.toHom a b
  have h7 := sim_cross H.toHom t t' x y
  simp only [e] at h1 h2 h3 h4 h5 h6 h7
  exact ⟨h1.agrees e, h2.agrees e, h3.agrees e, h4.agrees e, h5.agrees fun _ => rfl, h6.agrees fun _ => rfl, h7.agrees e⟩

/-- C76, matrices. -/
theorem C76_mat (a b : Mat T r c) (s : T) :
    PanicsOrAgrees (Mat.opVV t O.add a b) (Mat.opVV t' O'.add a b) ∧
    PanicsOrAgrees (Mat.opVV t O.sub a b) (Mat.opVV t' O'.sub a b) ∧
    PanicsOrAgrees (a.mulScalar t O.mul s) (a.mulScalar t' O'.mul s) ∧
    (O.isZero s = false → PanicsOrAgrees (a.divScalar t O.div s) (a.divScalar t' O'.div s)) ∧
    PanicsOrAgrees (a.neg t O.neg) (a.neg t' O'.neg) ∧
    PanicsOrAgrees (a.sum O) (a.sum O') := by
  have e : ∀ a : Mat T r c, a.mapV id = a := fun a => Mat.ext_get fun i j => by simp
  have h1 := sim_matOp t t' H.add a b
  have h2 := sim_matOp t t' H.sub a b
  have h3 := sim_matScalar t t' (s := s) (fun x => H.mul x s) a
  have h4 := fun hs => sim_matDivScalar t t' (s := s) (fun x => H.div x s hs) a
  have h5 := sim_matNeg t t' H.neg a
  have h6 := sim_matSum H.toHom a
  simp only [e] at h1 h2 h3 h4 h5 h6
  exact ⟨h1.agrees e, h2.agrees e, h3.agrees e, fun hs => (h4 hs).agrees e, h5.agrees e, h6.agrees fun _ => rfl⟩

include hW

/-- C76, products and powers. -/
theorem C76_products (a : Mat T l n) (b : Mat T n c) (v : Vec T n) (p : Mat T n n) (k : Nat)
    (hl : l < t.W) (hn : n < t.W) (hc : c < t.W) :
    PanicsOrAgrees (a.mulVV t O b) (a.mulVV t' O' b) ∧
    PanicsOrAgrees (a.mulVec t O v) (a.mulVec t' O' v) ∧
    PanicsOrAgrees (a.mulVecRef t O v) (a.mulVecRef t' O' v) ∧
    PanicsOrAgrees (p.pow t O k) (p.pow t' O' k) := by
  have e : ∀ {r c : Nat} (a : Mat T r c), a.mapV id = a := fun a => Mat.ext_get fun i j => by simp
  have ev : ∀ {n : Nat} (v : Vec T n), v.mapV id = v := fun v => Vec.ext_get fun i => by simp
  have h1 := sim_mul H.toHom t t' hW a b hl hn hc
  have h2 := sim_mulVec H.toHom t t' hW a v hl
  have h3 := sim_mulVecRef H.toHom t t' a v
  have h4 := sim_pow H.toHom t t' hW p k hn
  simp only [e, ev] at h1 h2 h3 h4
  exact ⟨h1.agrees e, h2.agrees ev, h3.agrees ev, h4.agrees e⟩

/-- C76, `determinant`, `cofactor` and `inverse`, at every size. -/
theorem C76_linear_algebra (k : Nat) (a : Mat T (k + 1) (k + 1)) (b : Mat T (k + 2) (k + 2)) (i j : Fin (k + 2))
    (hk : 2 * (k + 2) < t.W) :
    PanicsOrAgrees (a.determinant t O k) (a.determinant t' O' k) ∧
    PanicsOrAgrees (a.inverse t O k) (a.inverse t' O' k) ∧
    PanicsOrAgrees (b.cofactor t O k (i, j)) (b.cofactor t' O' k (i, j)) := by
  have hi := i.isLt
  have hj := j.isLt
  have e : ∀ {r c : Nat} (a : Mat T r c), a.mapV id = a := fun a => Mat.ext_get fun i j => by simp
  have h1 := sim_det H t t' hW k a (by omega)
  have h2 := sim_inverse H t t' k a
  have h3 := sim_cof H t t' hW k b (i, j) (by omega) ⟨hi, hj⟩ (by simp; omega)
  simp only [e] at h1 h2 h3
  exact ⟨h1.agrees fun _ => rfl, h2.agrees (fun o => by cases o <;> simp [e]), h3.agrees fun _ => rfl⟩

end

example : (Ops.signed true 32).DivHom (Ops.signed false 32) id := C76_types.1 32
/-! The debug build panics where the release build wraps around. -/
example : (⟨[100#8, 28#8], rfl⟩ : Vec (BitVec 8) 2).sum (Ops.signed true 8) = .error .panic ∧
    (⟨[100#8, 28#8], rfl⟩ : Vec (BitVec 8) 2).sum (Ops.signed false 8) = .ok 128#8 := by decide

end Rowcol
