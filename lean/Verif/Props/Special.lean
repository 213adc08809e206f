import Verif.Props.Ieee
import Verif.Lemmas.GJFree

/-! # C88: NaN and other special values -/

namespace Rowcol

/-- `P` marks values that an operation never loses: any operation with such an operand gives such a result, and none of
them counts as zero.  (`P x := x is NaN` for `f32`/`f64`.) -/
structure Ops.Poison {F : Type} (O : Ops F) (P : F → Prop) : Prop where
  add : ∀ {a b z}, O.add a b = .ok z → P a ∨ P b → P z
  sub : ∀ {a b z}, O.sub a b = .ok z → P a ∨ P b → P z
  mul : ∀ {a b z}, O.mul a b = .ok z → P a ∨ P b → P z
  div : ∀ {a b z}, O.div a b = .ok z → P a ∨ P b → P z
  neg : ∀ {a z}, O.neg a = .ok z → P a → P z
  isZero : ∀ {a}, P a → O.isZero a = false

/-- NaN. -/
theorem ieee_poison (f : FloatFormat) : (Ops.ieee f).Poison (· = .nan) where
  add := by
    rintro a b _ ⟨⟩ h
    cases a <;> cases b <;> simp only [Fl.add, reduceCtorEq, or_self, or_true, true_or] at h ⊢
  sub := by
    rintro a b _ ⟨⟩ h
    rcases h with rfl | rfl
    · rfl
    · cases a <;> rfl
  mul := by
    rintro a b _ ⟨⟩ h
    cases a <;> cases b <;> simp only [Fl.mul, reduceCtorEq, or_self, or_true, true_or] at h ⊢
  div := by
    rintro a b _ ⟨⟩ h
    cases a <;> cases b <;> simp only [Fl.div, reduceCtorEq, or_self, or_true, true_or] at h ⊢
  neg := by rintro a _ ⟨⟩ rfl; rfl
  isZero := by rintro a rfl; rfl

/-- Marks: an operation gives a marked result if an operand is marked. -/
def Ops.marks : Ops Bool where
  zero := false
  one := false
  add a b := .ok (a || b)
  sub a b := .ok (a || b)
  mul a b := .ok (a || b)
  div a b := .ok (a || b)
  neg a := .ok a
  isZero _ := false

section
variable {F : Type} {O : Ops F} {P : F → Prop} (H : O.Poison P) {n r c l : Nat} (t : Target)
include H

theorem Ops.Poison.rel : Ops.RelHom True O Ops.marks (fun x b => b = true → P x) where
  zero := by simp [Ops.marks]
  one := by simp [Ops.marks]
  add {a b a' b'} ha hb := rel_of_ok fun z hz h => H.add hz (by
    rcases Bool.or_eq_true_iff.1 h with h | h
    · exact .inl (ha h)
    · exact .inr (hb h))
  sub {a b a' b'} ha hb := rel_of_ok fun z hz h => H.sub hz (by
    rcases Bool.or_eq_true_iff.1 h with h | h
    · exact .inl (ha h)
    · exact .inr (hb h))
  mul {a b a' b'} ha hb := rel_of_ok fun z hz h => H.mul hz (by
    rcases Bool.or_eq_true_iff.1 h with h | h
    · exact .inl (ha h)
    · exact .inr (hb h))
  neg {a a'} ha := rel_of_ok fun z hz h => H.neg hz (ha h)

theorem poison_fold {ι : Type} (l : List ι) (g : ι → Res F) {x z : F}
    (hz : l.foldlM (fun acc i => do let s ← g i; O.add acc s) x = .ok z)
    (h : P x ∨ ∃ i ∈ l, ∀ s, g i = .ok s → P s) : P z := by
  induction l generalizing x with
  | nil => cases hz; simpa using h
  | cons i l ih =>
    rw [List.foldlM_cons, bind_ok_iff] at hz
    obtain ⟨y, hy, hz⟩ := hz
    rw [bind_ok_iff] at hy
    obtain ⟨s, hs, hy⟩ := hy
    refine ih hz ?_
    rcases h with h | ⟨j, hj, h⟩
    · exact .inl (H.add hy (.inl h))
    · rcases List.mem_cons.1 hj with rfl | hj
      · exact .inl (H.add hy (.inr (h s hs)))
      · exact .inr ⟨j, hj, h⟩

theorem poison_mulFold (p q : Fin n → F) {z : F} (hz : mulFold O ((List.finRange n).map fun k => (p k, q k)) = .ok z)
    (h : ∃ k, P (p k) ∨ P (q k)) : P z := by
  rw [mulFold, List.foldlM_map] at hz
  obtain ⟨k, hk⟩ := h
  exact poison_fold H _ (fun i => O.mul (p i) (q i)) hz (.inr ⟨k, List.mem_finRange k, fun s hs => H.mul hs hk⟩)

theorem poison_prod {ι : Type} (l : List ι) (g : ι → F) {x z : F} (hz : l.foldlM (fun acc i => O.mul acc (g i)) x = .ok z)
    (h : P x ∨ ∃ i ∈ l, P (g i)) : P z := by
  induction l generalizing x with
  | nil => cases hz; simpa using h
  | cons i l ih =>
    rw [List.foldlM_cons, bind_ok_iff] at hz
    obtain ⟨y, hy, hz⟩ := hz
    refine ih hz ?_
    rcases h with h | ⟨j, hj, h⟩
    · exact .inl (H.mul hy (.inl h))
    · rcases List.mem_cons.1 hj with rfl | hj
      · exact .inl (H.mul hy (.inr h))
      · exact .inr ⟨j, hj, h⟩

/-- C88, vectors: a NaN element makes `sum` and `dot` NaN. -/
theorem C88_vec (v w : Vec F n) {z : F} :
    (v.sum O = .ok z → (∃ i, P (v.get i)) → P z) ∧
    (v.dot O w = .ok z → (∃ i, P (v.get i) ∨ P (w.get i)) → P z) := by
  refine ⟨fun hz h => ?_, fun hz h => ?_⟩
  · rw [Vec.sum, Vec.toList_eq, List.foldlM_map] at hz
    obtain ⟨i, hi⟩ := h
    exact poison_fold H _ (fun i => .ok (v.get i)) hz (.inr ⟨i, List.mem_finRange i, by rintro _ ⟨⟩; exact hi⟩)
  · rw [Vec.dot, Vec.zip_eq] at hz
    exact poison_mulFold H _ _ hz h

/-- C88, `cross`: component `i` is NaN if one of the four elements it is made of is. -/
theorem C88_cross (a b w : Vec F 3) (hw : a.cross t O b = .ok w) (i : Fin 3)
    (h : P (a.get (i + 1)) ∨ P (a.get (i + 2)) ∨ P (b.get (i + 1)) ∨ P (b.get (i + 2))) : P (w.get i) := by
  classical
  have h0 : (0 : Nat) < 3 := by omega
  have h1 : (1 : Nat) < 3 := by omega
  have h2 : (2 : Nat) < 3 := by omega
  have e : ∀ v : Vec F 3, VecRel (fun x (b : Bool) => b = true → P x) v (v.mapV fun x => decide (P x)) := fun v i => by simp
  obtain ⟨k, hk, hR⟩ := (rel_cross H.rel t t (e a) (e b)).ok_left hw
  simp only [Vec.cross, Vec.getUnchecked_ok t _ h0, Vec.getUnchecked_ok t _ h1, Vec.getUnchecked_ok t _ h2,
    res_ok_bind, Ops.marks, res_pure, Except.ok.injEq, Vec.get_mapV] at hk
  refine hR i ?_
  have hg : k.get i = ((decide (P (a.get (i + 1))) || decide (P (b.get (i + 2)))) ||
      (decide (P (a.get (i + 2))) || decide (P (b.get (i + 1))))) := by
    rw [← hk]; fin_cases i <;> rfl
  rw [hg]
  simp only [Bool.or_eq_true, decide_eq_true_eq]
  tauto

/-- C88, matrices: a NaN element makes `sum` NaN; in a product, row `i` of the left and column `j` of the right operand
decide about entry `(i, j)`; the same for a matrix times a vector. -/
theorem C88_mat (a : Mat F l n) (b : Mat F n c) (v : Vec F n) (hl : l < t.W) (hn : n < t.W) (hc : c < t.W) :
    (∀ z, a.sum O = .ok z → (∃ i j, P (a.get i j)) → P z) ∧
    (∀ op ∈ mulForms (l := l) (n := n) (c := c) t O, ∀ w, op a b = .ok w → ∀ i j,
      (∃ k, P (a.get i k) ∨ P (b.get k j)) → P (w.get i j)) ∧
    (∀ w, a.mulVec t O v = .ok w ∨ a.mulVecRef t O v = .ok w → ∀ i, (∃ k, P (a.get i k) ∨ P (v.get k)) → P (w.get i)) := by
  refine ⟨fun z hz h => ?_, fun op hop w hw i j h => ?_, fun w hw i h => ?_⟩
  · rw [Mat.sum, Vec.toList_eq, List.foldlM_map] at hz
    obtain ⟨i, j, hi⟩ := h
    exact poison_fold H _ (fun i => (a.rows.get i).sum O) hz (.inr ⟨i, List.mem_finRange i, fun s hs =>
      (C88_vec H (a.rows.get i) (a.rows.get i)).1 hs ⟨j, hi⟩⟩)
  · have := (C41_mul_entries t O op hop a b hl hn hc w).1 hw i j
    rw [← mulFold_mulSum] at this
    exact poison_mulFold H _ _ this h
  · have e : mulFold O ((Vec.ofFn fun j => a.get i j).toList.zip v.toList) =
        mulFold O ((List.finRange n).map fun j => (a.get i j, v.get j)) := by rw [Vec.zip_eq]; simp
    refine poison_mulFold H _ _ (e.symm.trans ?_) h
    rcases hw with hw | hw
    · rw [Mat.mulVec, drain_rowsRef t a hl] at hw
      simp only [res_ok_bind, rowsOf, List.map_map] at hw
      exact (Vec.collect_finRange_ok_iff t _ w).1 hw i
    · rw [Mat.mulVecRef, rowsOf_eq a] at hw
      simp only [rowsOf, List.map_map] at hw
      exact (Vec.collect_finRange_ok_iff t _ w).1 hw i

/-- C88, elementwise operations: an element is NaN if an operand is. -/
theorem C88_elementwise (a b w : Mat F r c) (s : F) :
    (∀ op ∈ matForms t O.add, op a b = .ok w → ∀ i j, P (a.get i j) ∨ P (b.get i j) → P (w.get i j)) ∧
    (∀ op ∈ matForms t O.sub, op a b = .ok w → ∀ i j, P (a.get i j) ∨ P (b.get i j) → P (w.get i j)) ∧
    (a.mulScalar t O.mul s = .ok w → ∀ i j, P (a.get i j) ∨ P s → P (w.get i j)) ∧
    (a.divScalar t O.div s = .ok w → ∀ i j, P (a.get i j) ∨ P s → P (w.get i j)) ∧
    (a.neg t O.neg = .ok w → ∀ i j, P (a.get i j) → P (w.get i j)) := by
  refine ⟨fun op hop h i j => ?_, fun op hop h i j => ?_, fun h i j => ?_, fun h i j => ?_, fun h i j => ?_⟩
  · exact H.add ((C18_mat_ok t O.add op hop a b w).1 h i j)
  · exact H.sub ((C18_mat_ok t O.sub op hop a b w).1 h i j)
  · exact H.mul ((C19_mat_ok t O.mul O.neg a s w w).1.1 h i j)
  · exact H.div ((C19_mat_ok t O.div O.neg a s w w).2.1.1 h i j)
  · exact H.neg ((C19_mat_ok t O.mul O.neg a s w w).2.2.1 h i j)

/-- C88, elementwise operations of vectors. -/
theorem C88_elementwise_vec (a b w : Vec F n) (s : F) :
    (∀ op ∈ vecForms t O.add, op a b = .ok w → ∀ i, P (a.get i) ∨ P (b.get i) → P (w.get i)) ∧
    (∀ op ∈ vecForms t O.sub, op a b = .ok w → ∀ i, P (a.get i) ∨ P (b.get i) → P (w.get i)) ∧
    (a.mulScalar t O.mul s = .ok w → ∀ i, P (a.get i) ∨ P s → P (w.get i)) ∧
    (a.divScalar t O.div s = .ok w → ∀ i, P (a.get i) ∨ P s → P (w.get i)) ∧
    (a.neg t O.neg = .ok w → ∀ i, P (a.get i) → P (w.get i)) := by
  refine ⟨fun op hop h i => ?_, fun op hop h i => ?_, fun h i => ?_, fun h i => ?_, fun h i => ?_⟩
  · exact H.add ((C18_vec_ok t O.add op hop a b w).1 h i)
  · exact H.sub ((C18_vec_ok t O.sub op hop a b w).1 h i)
  · exact H.mul ((C19_vec_ok t O.mul O.neg a s w).1.1 h i)
  · exact H.div ((C19_vec_ok t O.div O.neg a s w).2.1.1 h i)
  · exact H.neg ((C19_vec_ok t O.mul O.neg a s w).2.2.1 h i)

theorem poison_det_small (k : Nat) (hk : k < 3) (a : Mat F (k + 1) (k + 1)) {z : F} (hz : a.determinant t O k = .ok z)
    (h : ∃ i j, P (a.get i j)) : P z := by
  classical
  obtain ⟨b, hb, hR⟩ := (rel_det_small H.rel t t k (by omega)
    (show MatRel (fun x (b : Bool) => b = true → P x) a (a.mapV fun x => decide (P x)) from fun i j => by simp)).ok_left hz
  refine hR ?_
  obtain ⟨i, j, hij⟩ := h
  generalize hm : (a.mapV fun x => decide (P x)) = m at hb
  have hij : m.get i j = true := by rw [← hm, Mat.get_mapV]; simpa using hij
  match k, hk with
  | 0, _ =>
    simp only [Mat.determinant, Mat.det1, Mat.idxStatic_ok t _ (show 0 < 1 by omega) (show 0 < 1 by omega)] at hb
    cases hb
    fin_cases i; fin_cases j; exact hij
  | 1, _ =>
    simp only [Mat.determinant, Mat.det2, Mat.idxStatic_ok t _ (show 0 < 2 by omega) (show 0 < 2 by omega),
      Mat.idxStatic_ok t _ (show 0 < 2 by omega) (show 1 < 2 by omega),
      Mat.idxStatic_ok t _ (show 1 < 2 by omega) (show 0 < 2 by omega),
      Mat.idxStatic_ok t _ (show 1 < 2 by omega) (show 1 < 2 by omega), res_ok_bind, Ops.marks, Except.ok.injEq] at hb
    rw [← hb]
    fin_cases i <;> fin_cases j <;> simp_all
  | 2, _ =>
    have e : ∀ i j k : Fin 3, m.det3Term t Ops.marks i j k = .ok (m.get 0 i || m.get 1 j || m.get 2 k) := fun i j k => by
      simp only [Mat.det3Term, Mat.idxStatic_ok t _ (show 0 < 3 by omega) i.isLt,
        Mat.idxStatic_ok t _ (show 1 < 3 by omega) j.isLt,
        Mat.idxStatic_ok t _ (show 2 < 3 by omega) k.isLt, res_ok_bind, Ops.marks]
      rfl
    have h1 := e 0 1 2
    have h2 := e 1 2 0
    have h3 := e 2 0 1
    have h4 := e 2 1 0
    have h5 := e 1 0 2
    have h6 := e 0 2 1
    simp only [Fin.val_zero, Fin.val_one, Fin.val_two] at h1 h2 h3 h4 h5 h6
    rw [Mat.determinant, Mat.det3, h1, h2, h3, h4, h5, h6] at hb
    simp only [res_ok_bind, Ops.marks, Except.ok.injEq] at hb
    rw [← hb]
    fin_cases i <;> fin_cases j <;> simp_all

theorem poison_cofGen {det : Mat F n n → Res F} (hd : ∀ b z, det b = .ok z → (∃ i j, P (b.get i j)) → P z)
    (a : Mat F (n + 1) (n + 1)) (hn : n + 1 < t.W) (i j : Fin (n + 1)) {z : F} (hz : Mat.cofGen t O det a (i, j) = .ok z)
    (h : ∃ p q, p ≠ i ∧ q ≠ j ∧ P (a.get p q)) : P z := by
  obtain ⟨p, q, hp, hq, h⟩ := h
  rw [Mat.cofGen, if_pos ⟨i.isLt, j.isLt⟩, minor_eq t a i j hn] at hz
  simp only [res_ok_bind] at hz
  rw [bind_ok_iff] at hz
  obtain ⟨s, _, hz⟩ := hz
  rw [bind_ok_iff] at hz
  obtain ⟨d, hdd, hz⟩ := hz
  refine H.mul hz (.inr (hd _ _ hdd ?_))
  obtain ⟨p', rfl⟩ := Fin.exists_succAbove_eq hp
  obtain ⟨q', rfl⟩ := Fin.exists_succAbove_eq hq
  exact ⟨p', q', by simpa using h⟩

/-- Before stage `i` of the elimination: the NaN is still where it was, and from the stage of its row or column on there is
one on the diagonal. -/
def ElimPoison (P : F → Prop) (p q : Fin n) (i : Nat) (m : Mat F n n) : Prop :=
  P (m.get p q) ∧ (Min.min p.val q.val < i → P (m.get (Max.max p q) (Max.max p q)))

theorem elimPoison_step (p q : Fin n) (i : Fin n) (m m' : Mat F n n) (hm : ElimPoison P p q i m)
    (hr : ∀ j : Fin n, i < j → RowStep O m m' i j) (hs : ∀ a : Fin n, a ≤ i → ∀ k, m'.get a k = m.get a k) :
    ElimPoison P p q (i + 1) m' := by
  -- entries are never cured
  have keep : ∀ j k, P (m.get j k) → P (m'.get j k) := by
    intro j k h
    rcases le_or_gt j i with hj | hj
    · rw [hs j hj k]; exact h
    · obtain ⟨d, _, hk⟩ := hr j hj
      obtain ⟨x, _, hx⟩ := hk k
      exact H.sub hx (.inl h)
  refine ⟨keep _ _ hm.1, fun hi => ?_⟩
  rcases Nat.lt_or_ge (Min.min p.val q.val) i.val with hlt | hge
  · exact keep _ _ (hm.2 hlt)
  · have hmin : Min.min p.val q.val = i.val := by omega
    rcases lt_trichotomy p q with hpq | rfl | hpq
    · -- the row of the NaN is subtracted from row `q`
      have hv : p.val < q.val := hpq
      obtain rfl : p = i := Fin.ext (by omega)
      obtain ⟨d, _, hk⟩ := hr q hpq
      obtain ⟨x, hx, hy⟩ := hk q
      rw [max_eq_right hpq.le]
      exact H.sub hy (.inr (H.mul hx (.inl hm.1)))
    · rw [max_self]; exact keep _ _ hm.1
    · -- the quotient for the row of the NaN is NaN
      have hv : q.val < p.val := hpq
      obtain rfl : q = i := Fin.ext (by omega)
      obtain ⟨d, hd, hk⟩ := hr p hpq
      obtain ⟨x, hx, hy⟩ := hk p
      rw [max_eq_left hpq.le]
      exact H.sub hy (.inr (H.mul hx (.inr (H.div hd (.inl hm.1)))))

/-- C88, `determinant`, every size: a NaN anywhere makes the result NaN. -/
theorem C88_determinant (k : Nat) (hW : k + 1 < t.W) (a : Mat F (k + 1) (k + 1)) {z : F} (hz : a.determinant t O k = .ok z)
    (h : ∃ i j, P (a.get i j)) : P z := by
  induction k generalizing z with
  | zero => exact poison_det_small H t 0 (by omega) a hz h
  | succ k ih =>
    match k, ih, a, hz, h with
    | 0, _, a, hz, h => exact poison_det_small H t 1 (by omega) a hz h
    | 1, _, a, hz, h => exact poison_det_small H t 2 (by omega) a hz h
    | k + 2, ih, a, hz, h =>
      obtain ⟨p, q, hpq⟩ := h
      rw [Mat.determinant, Mat.detGen, Mat.clone_ok] at hz
      simp only [res_ok_bind] at hz
      rw [bind_ok_iff] at hz
      obtain ⟨o, h1, h2⟩ := hz
      rw [List.range_eq_range'] at h1
      obtain ⟨_, e2⟩ := elimAll_free (ElimPoison P p q)
        (fun i m m' hm _ hr hs => elimPoison_step H p q i m m' hm hr hs) (k + 4) 0 (by omega) ⟨hpq, by omega⟩ h1
      cases o with
      | some m =>
        have hd := (e2 m rfl).2 (by omega)
        have h3 : (List.finRange (k + 4)).foldlM (fun acc i => O.mul acc (m.get i i)) O.one = .ok z := by
          have hr : List.range (k + 4) = (List.finRange (k + 4)).map fun i => i.val := by simp
          simp only [hr, List.foldlM_map] at h2
          rw [← h2]
          congr 1
          funext acc i
          rw [Mat.index_ok _ i.isLt i.isLt]; rfl
        exact poison_prod H _ _ h3 (.inr ⟨_, List.mem_finRange _, hd⟩)
      | none =>
        obtain ⟨cf, hc, hs⟩ := expansion_free _ a h2
        refine poison_mulFold H _ _ hs ?_
        by_cases hq : q = 0
        · subst hq; exact ⟨p, .inl hpq⟩
        · obtain ⟨i, hi⟩ : ∃ i : Fin (k + 4), p ≠ i := ⟨if p = 0 then 1 else 0, by split <;> simp_all⟩
          refine ⟨i, .inr ?_⟩
          exact poison_cofGen H t (fun b z hz h => ih (by omega) b hz h) a (by omega) i 0 (hc i) ⟨p, q, hi, hq, hpq⟩

/-- C88, `cofactor`, every size: a NaN outside the row and the column that are left out makes the cofactor NaN. -/
theorem C88_cofactor (k : Nat) (hW : k + 2 < t.W) (a : Mat F (k + 2) (k + 2)) (i j : Fin (k + 2)) {z : F}
    (hz : a.cofactor t O k (i, j) = .ok z) (h : ∃ p q, p ≠ i ∧ q ≠ j ∧ P (a.get p q)) : P z := by
  match k, a, i, j, hz, h with
  | 0, a, i, j, hz, h =>
    obtain ⟨p, q, hp, hq, h⟩ := h
    rw [Mat.cofactor, Mat.cof2, bind_ok_iff] at hz
    obtain ⟨s, _, hz⟩ := hz
    have u : ∀ i : Fin 2, usub t 1 i = .ok (1 - i.val) := fun i => by rw [usub, if_pos (by omega)]
    simp only [u, res_ok_bind] at hz
    rw [Mat.index_ok _ (show 1 - i.val < 2 by omega) (show 1 - j.val < 2 by omega)] at hz
    refine H.mul hz (.inr ?_)
    have : ∀ i p : Fin 2, p ≠ i → (⟨1 - i.val, by omega⟩ : Fin 2) = p := fun i p h => by
      have : p.val ≠ i.val := fun e => h (Fin.ext e)
      exact Fin.ext (by simp only; omega)
    rw [this i p hp, this j q hq]; exact h
  | 1, a, i, j, hz, h =>
    refine poison_cofGen H t (det := Mat.det2 t O) (fun b z hz h => poison_det_small H t 1 (by omega) b hz h) a hW i j ?_ h
    rw [Mat.cofactor, Mat.cof3, if_pos ⟨i.isLt, j.isLt⟩, minor_eq t a i j hW] at hz
    rw [Mat.cofGen, if_pos ⟨i.isLt, j.isLt⟩, minor_eq t a i j hW]
    simpa using hz
  | k + 2, a, i, j, hz, h =>
    exact poison_cofGen H t (fun b z hz h => C88_determinant H t _ (by omega) b hz h) a hW i j hz h

theorem gj_keep {i : Fin n} {s s' : Mat F n n × Mat F n n} (hs : GJStage O i s s') (j k : Fin n) :
    (P (s.1.get j k) → P (s'.1.get j k)) ∧ (P (s.2.get j k) → P (s'.2.get j k)) := by
  by_cases hj : j = i
  · subst hj
    obtain ⟨rcp, _, h⟩ := hs.scale
    exact ⟨fun hp => H.mul (h k).1 (.inl hp), fun hp => H.mul (h k).2 (.inl hp)⟩
  · obtain ⟨⟨x, _, hx⟩, ⟨y, _, hy⟩⟩ := hs.clear j hj k
    exact ⟨fun hp => H.sub hx (.inl hp), fun hp => H.sub hy (.inl hp)⟩

/-- A NaN pivot spoils everything. -/
theorem gj_pivot {i : Fin n} {s s' : Mat F n n × Mat F n n} (hs : GJStage O i s s') (h : P (s.1.get i i)) (j k : Fin n) :
    P (s'.1.get j k) ∧ P (s'.2.get j k) := by
  obtain ⟨rcp, hr, hk⟩ := hs.scale
  have hrow : ∀ k, P (s'.1.get i k) ∧ P (s'.2.get i k) := fun k =>
    ⟨H.mul (hk k).1 (.inr (H.div hr (.inr h))), H.mul (hk k).2 (.inr (H.div hr (.inr h)))⟩
  by_cases hj : j = i
  · subst hj; exact hrow k
  · obtain ⟨⟨x, hx, hx'⟩, ⟨y, hy, hy'⟩⟩ := hs.clear j hj k
    exact ⟨H.sub hx' (.inr (H.mul hx (.inl (hrow k).1))), H.sub hy' (.inr (H.mul hy (.inl (hrow k).2)))⟩

/-- Before stage `i` of the Gauss-Jordan loop: the NaN is still there; from the stage of its row on its column is NaN, from
the stage of its column on its row is NaN; after both everything is. -/
def GJPoison (P : F → Prop) (p q : Fin n) (i : Nat) (s : Mat F n n × Mat F n n) : Prop :=
  P (s.1.get p q) ∧ (p < q → p.val < i → ∀ j, P (s.1.get j q)) ∧ (q < p → q.val < i → ∀ k, P (s.1.get p k)) ∧
    (Max.max p.val q.val < i → ∀ j k, P (s.1.get j k) ∧ P (s.2.get j k))

theorem gjPoison_step (p q : Fin n) (i : Fin n) (s s' : Mat F n n × Mat F n n) (hm : GJPoison P p q i s)
    (hs : GJStage O i s s') : GJPoison P p q (i + 1) s' := by
  obtain ⟨h1, h2, h3, h4⟩ := hm
  have hpq := (gj_keep H hs p q).1 h1
  refine ⟨hpq, fun hlt hi j => ?_, fun hlt hi k => ?_, fun hi j k => ?_⟩
  · rcases Nat.lt_or_ge p.val i.val with h | h
    · exact (gj_keep H hs j q).1 (h2 hlt h j)
    · obtain rfl : p = i := Fin.ext (by omega)
      by_cases hj : j = p
      · subst hj; exact hpq
      · obtain ⟨⟨x, hx, hx'⟩, _⟩ := hs.clear j hj q
        exact H.sub hx' (.inr (H.mul hx (.inl hpq)))
  · rcases Nat.lt_or_ge q.val i.val with h | h
    · exact (gj_keep H hs p k).1 (h3 hlt h k)
    · obtain rfl : q = i := Fin.ext (by omega)
      obtain ⟨⟨x, hx, hx'⟩, _⟩ := hs.clear p hlt.ne' k
      exact H.sub hx' (.inr (H.mul hx (.inr h1)))
  · rcases Nat.lt_or_ge (Max.max p.val q.val) i.val with h | h
    · exact ⟨(gj_keep H hs j k).1 (h4 h j k).1, (gj_keep H hs j k).2 (h4 h j k).2⟩
    · refine gj_pivot H hs ?_ j k
      rcases lt_trichotomy p q with hlt | rfl | hlt
      · have hv : p.val < q.val := hlt
        obtain rfl : q = i := Fin.ext (by omega)
        exact h2 hlt hv q
      · obtain rfl : p = i := Fin.ext (by omega)
        exact h1
      · have hv : q.val < p.val := hlt
        obtain rfl : p = i := Fin.ext (by omega)
        exact h3 hlt hv p

/-- C88, `inverse`, every size: a NaN anywhere makes every element of the inverse NaN, if there is one. -/
theorem C88_inverse (k : Nat) (a : Mat F (k + 1) (k + 1)) {o} (ho : a.inverse t O k = .ok o) (h : ∃ i j, P (a.get i j)) :
    ∀ w, o = some w → ∀ i j, P (w.get i j) := by
  intro w hw i j
  rw [hw] at ho
  clear hw o
  match k, a, w, ho, h, i, j with
  | 0, a, w, ho, h, i, j =>
    have hd := poison_det_small H t 0 (by omega) a
      (show a.determinant t O 0 = Except.ok _ from Mat.idxStatic_ok t a (show 0 < 1 by omega) (show 0 < 1 by omega)) h
    simp only [Mat.inverse, Mat.inv1, Mat.idxStatic_ok t a (show 0 < 1 by omega) (show 0 < 1 by omega), res_ok_bind] at ho
    rw [if_neg (by rw [H.isZero hd]; simp), bind_ok_iff] at ho
    obtain ⟨x, hx, ho⟩ := ho
    obtain ⟨b, hb, e⟩ := C35_new t (⟨[⟨[x], rfl⟩], rfl⟩ : Vec (Vec F 1) 1)
    rw [hb] at ho
    cases ho
    have := H.div hx (.inr hd)
    fin_cases i; fin_cases j
    have e0 := e.1 0 0
    exact e0 ▸ this
  | 1, a, w, ho, h, i, j =>
    rw [Mat.inverse, Mat.inv2, bind_ok_iff] at ho
    obtain ⟨d, hd, ho⟩ := ho
    have hp := poison_det_small H t 1 (by omega) a hd h
    rw [if_neg (by rw [H.isZero hp]; simp)] at ho
    simp only [bind_ok_iff] at ho
    obtain ⟨_, _, _, _, _, _, _, _, _, _, _, _, _, _, b', hb', e⟩ := ho
    cases e
    exact H.div ((C19_mat_ok t O.div O.neg _ d w w).2.1.1 hb' i j) (.inr hp)
  | 2, a, w, ho, h, i, j =>
    rw [Mat.inverse, Mat.inv3, bind_ok_iff] at ho
    obtain ⟨d, hd, ho⟩ := ho
    have hp := poison_det_small H t 2 (by omega) a hd h
    rw [if_neg (by rw [H.isZero hp]; simp)] at ho
    simp only [bind_ok_iff] at ho
    obtain ⟨_, _, _, _, _, _, _, _, _, _, _, _, _, _, _, _, _, _, _, _, b', hb', e⟩ := ho
    cases e
    exact H.div ((C19_mat_ok t O.div O.neg _ d w w).2.1.1 hb' i j) (.inr hp)
  | k + 3, a, w, ho, h, i, j =>
    obtain ⟨p, q, hpq⟩ := h
    rw [Mat.inverse, Mat.invGen, Mat.clone_ok] at ho
    simp only [res_ok_bind] at ho
    rw [bind_ok_iff] at ho
    obtain ⟨b, _, ho⟩ := ho
    rw [bind_ok_iff] at ho
    obtain ⟨o, h1, h2⟩ := ho
    rw [List.range_eq_range'] at h1
    obtain ⟨_, e2⟩ := gjLoop_free (GJPoison P p q) (fun i s s' hm hs => gjPoison_step H p q i s s' hm hs) (k + 4) 0 (by omega)
      ⟨hpq, fun _ h => absurd h (by omega), fun _ h => absurd h (by omega), fun h => absurd h (by omega)⟩ h1
    cases o with
    | none => cases h2
    | some s =>
      cases h2
      exact ((e2 s rfl).2.2.2 (by omega) i j).2

/-- C88, `inverse` from size 4 on: a zero at the top left means `None` whatever else the matrix contains, a NaN there means
an all-NaN `Some`. -/
theorem C88_inverse_first (k : Nat) (a : Mat F (k + 4) (k + 4)) {o} (ho : a.inverse t O (k + 3) = .ok o) :
    (O.isZero (a.get 0 0) = true → o = none) ∧ (P (a.get 0 0) → ∃ w, o = some w ∧ ∀ i j, P (w.get i j)) := by
  have ho' := ho
  rw [Mat.inverse, Mat.invGen, Mat.clone_ok] at ho
  simp only [res_ok_bind] at ho
  rw [bind_ok_iff] at ho
  obtain ⟨b, _, ho⟩ := ho
  rw [bind_ok_iff] at ho
  obtain ⟨o1, h1, h2⟩ := ho
  rw [List.range_eq_range'] at h1
  refine ⟨fun hz => ?_, fun hp => ?_⟩
  · rw [List.range'_succ, Mat.gjLoop, Mat.index_ok _ (show 0 < k + 4 by omega) (show 0 < k + 4 by omega)] at h1
    simp only [res_ok_bind] at h1
    rw [if_pos (by exact hz)] at h1
    cases h1; cases h2; rfl
  · obtain ⟨e1, _⟩ := gjLoop_free (GJPoison P 0 0) (fun i s s' hm hs => gjPoison_step H 0 0 i s s' hm hs) (k + 4) 0 (by omega)
      ⟨hp, fun _ h => absurd h (by omega), fun _ h => absurd h (by omega), fun h => absurd h (by omega)⟩ h1
    cases o with
    | some w => exact ⟨w, rfl, C88_inverse H t _ a ho' ⟨0, 0, hp⟩ w rfl⟩
    | none =>
      exfalso
      cases o1 with
      | some s => cases h2
      | none =>
        obtain ⟨i, q, hq, hz⟩ := e1 rfl
        have : P (q.1.get i i) := by
          by_cases hi : i = 0
          · subst hi; exact hq.1
          · exact (hq.2.2.2 (by simpa using Nat.pos_of_ne_zero fun h => hi (Fin.ext h)) i i).1
        rw [H.isZero this] at hz
        cases hz

/-- C88, `pow`: a NaN stays where it is in the first power, fills its row and its column in the square and the whole matrix
from the cube on. -/
theorem C88_pow (a : Mat F n n) (k : Nat) (hn : n < t.W) {w : Mat F n n} (hw : a.pow t O k = .ok w) (p q : Fin n)
    (h : P (a.get p q)) :
    (1 ≤ k → P (w.get p q)) ∧ (2 ≤ k → ∀ i, P (w.get p i) ∧ P (w.get i q)) ∧ (3 ≤ k → ∀ i j, P (w.get i j)) := by
  by_cases hk : k = 0
  · subst hk; omega
  rw [Mat.pow, Mat.clone_ok] at hw
  simp only [res_ok_bind] at hw
  have hR := rel_numPow (p := True) (Q := fun (M : Mat F n n) (e : Nat) =>
      1 ≤ e ∧ P (M.get p q) ∧ (2 ≤ e → ∀ i, P (M.get p i) ∧ P (M.get i q)) ∧ (3 ≤ e → ∀ i j, P (M.get i j)))
    (f := Mat.mulVV t O) (g := fun x y => .ok (x + y)) (one := .ok a) (one' := .ok 1)
    (.ok ⟨le_rfl, h, by omega, by omega⟩) (by
      rintro M N e e' ⟨m0, m1, m2, m3⟩ ⟨n0, n1, n2, n3⟩
      refine rel_of_ok fun W hW => ?_
      have ent : ∀ i j, (∃ k, P (M.get i k) ∨ P (N.get k j)) → P (W.get i j) := fun i j h =>
        (C88_mat H t M N (Vec.ofFn fun i => M.get i i) hn hn hn).2.1 _ (by simp [mulForms]) W hW i j h
      refine ⟨by omega, ent p q ⟨q, .inl m1⟩, fun _ i => ⟨ent p i ⟨q, .inl m1⟩, ent i q ⟨p, .inr n1⟩⟩, fun h3 i j => ?_⟩
      by_cases he : 2 ≤ e
      · exact ent i j ⟨q, .inl (m2 he i).2⟩
      · exact ent i j ⟨p, .inr (n2 (by omega) j).1⟩)
    (base := a) (base' := 1) ⟨le_rfl, h, by omega, by omega⟩ k
  have e1 : numPow (.ok a) (Mat.mulVV t O) a k = .ok w := by rw [numPow, if_neg hk] at hw ⊢; exact hw
  obtain ⟨e, he, _, hQ⟩ := hR.ok_left e1
  obtain ⟨e', he', hq⟩ := numPow_eq (fun x : Nat => Multiplicative.ofAdd x) (fun x y => (.ok (x + y) : Res Nat))
    (fun x y => ⟨_, rfl, rfl⟩) (.ok 0) ⟨0, rfl, rfl⟩ 1 k
  rw [numPow, if_neg hk] at he he'
  rw [he] at he'
  cases he'
  have : e = k := by
    have := congrArg Multiplicative.toAdd hq
    simpa using this
  subst this
  exact ⟨fun _ => hQ.1, hQ.2⟩

/-- C88, `norm` and `normalized`. -/
theorem C88_norm (sqrt : F → F) (powi : F → Int → F) (hs : ∀ x, P x → P (sqrt x)) (hp : ∀ x e, P x → P (powi x e))
    (v : Vec F n) (h : ∃ i, P (v.get i)) :
    (∀ z, v.norm O sqrt powi = .ok z → P z) ∧ (∀ w, v.normalized t O sqrt powi = .ok w → ∀ i, P (w.get i)) := by
  have key : ∀ z, v.norm O sqrt powi = .ok z → P z := by
    intro z hz
    rw [Vec.norm, bind_ok_iff] at hz
    obtain ⟨y, hy, hz⟩ := hz
    cases hz
    rw [Vec.toList_eq, List.map_map, List.foldlM_map] at hy
    obtain ⟨i, hi⟩ := h
    exact hs _ (poison_fold H _ (fun i => .ok (powi (v.get i) 2)) hy
      (.inr ⟨i, List.mem_finRange i, by rintro _ ⟨⟩; exact hp _ _ hi⟩))
  refine ⟨key, fun w hw i => ?_⟩
  rw [Vec.normalized, Vec.clone_ok, res_ok_bind, bind_ok_iff] at hw
  obtain ⟨d, hd, hw⟩ := hw
  exact H.div ((C19_vec_ok t O.div O.neg v d w).2.1.1 hw i) (.inr (key d hd))

end

/-! ### `f32` and `f64` -/

section
variable {f : FloatFormat} {n r c l : Nat} (t : Target)

theorem ieee_total (f : FloatFormat) : (Ops.ieee f).TotalExceptDivZero where
  add _ _ := ⟨_, rfl⟩
  sub _ _ := ⟨_, rfl⟩
  mul _ _ := ⟨_, rfl⟩
  neg _ := ⟨_, rfl⟩
  div _ _ _ := ⟨_, rfl⟩

/-- Sizes 1, 2 and 3 have no inverse only if the computed determinant counts as zero. -/
theorem inverse_small_none {F : Type} {O : Ops F} (t : Target) (k : Nat) (hk : k < 3) (a : Mat F (k + 1) (k + 1))
    (h : a.inverse t O k = .ok none) : ∃ d, a.determinant t O k = .ok d ∧ O.isZero d = true := by
  match k, hk, a, h with
  | 0, _, a, h =>
    refine ⟨_, Mat.idxStatic_ok t a (show 0 < 1 by omega) (show 0 < 1 by omega), ?_⟩
    simp only [Mat.inverse, Mat.inv1, Mat.idxStatic_ok t a (show 0 < 1 by omega) (show 0 < 1 by omega), res_ok_bind] at h
    by_contra h0
    rw [if_neg h0, bind_ok_iff] at h
    obtain ⟨_, _, h⟩ := h
    rw [bind_ok_iff] at h
    obtain ⟨_, _, h⟩ := h
    cases h
  | 1, _, a, h =>
    rw [Mat.inverse, Mat.inv2, bind_ok_iff] at h
    obtain ⟨d, hd, h⟩ := h
    refine ⟨d, hd, ?_⟩
    by_contra h0
    rw [if_neg h0] at h
    simp only [bind_ok_iff] at h
    obtain ⟨_, _, _, _, _, _, _, _, _, _, _, _, _, _, _, _, e⟩ := h
    cases e
  | 2, _, a, h =>
    rw [Mat.inverse, Mat.inv3, bind_ok_iff] at h
    obtain ⟨d, hd, h⟩ := h
    refine ⟨d, hd, ?_⟩
    by_contra h0
    rw [if_neg h0] at h
    simp only [bind_ok_iff] at h
    obtain ⟨_, _, _, _, _, _, _, _, _, _, _, _, _, _, _, _, _, _, _, _, _, _, e⟩ := h
    cases e

/-- C88, floats: the determinant of a matrix with a NaN is NaN; sizes up to 3 have an "inverse", all NaN; from size 4 on
there is none or it is all NaN. -/
theorem C88_nan (k : Nat) (hW : k + 1 < t.W) (a : Mat (Fl f) (k + 1) (k + 1)) (h : ∃ i j, a.get i j = .nan) :
    a.determinant t (Ops.ieee f) k = .ok .nan ∧
    (a.inverse t (Ops.ieee f) k = .ok (some (Mat.ofFn fun _ _ => .nan)) ∨
      3 ≤ k ∧ a.inverse t (Ops.ieee f) k = .ok none) := by
  have hd : a.determinant t (Ops.ieee f) k = .ok .nan := by
    obtain ⟨d, hd⟩ := C52_determinant_total (ieee_total f) t k a hW
    rw [hd, C88_determinant (ieee_poison f) t k hW a hd h]
  refine ⟨hd, ?_⟩
  obtain ⟨o, ho⟩ := C52_inverse_total (ieee_total f) t k a
  cases o with
  | some w =>
    refine .inl ?_
    rw [ho]
    congr 2
    refine Mat.ext_get fun i j => ?_
    rw [Mat.get_ofFn]
    exact C88_inverse (ieee_poison f) t k a ho h w rfl i j
  | none =>
    by_cases hk : 3 ≤ k
    · exact .inr ⟨hk, ho⟩
    · obtain ⟨d, h1, h2⟩ := inverse_small_none t k (by omega) a ho
      cases hd.symm.trans h1
      cases h2

/-- `w` is a copy of the finite number `v`, except that `-0` has become `+0`. -/
def Fl.Copies (w v : Fl f) : Prop := w.IsFinite ∧ w.val = v.val ∧ w ≠ .negZero

theorem add_copies {x y : Fl f} (hx : x.IsFinite) (hy : y.IsFinite) (h0 : x ≠ .negZero) (h : x.val = 0 ∨ y.val = 0) :
    (x.add y).IsFinite ∧ (x.add y).val = x.val + y.val ∧ x.add y ≠ .negZero := by
  have hr : f.rnd (x.val + y.val) = x.val + y.val := f.rnd_rep (by rcases h with h | h <;> simp [h, Fl.rep_val])
  have hm : |f.rnd (x.val + y.val)| ≤ f.max := by rw [hr]; rcases h with h | h <;> simp [h, Fl.abs_val_le]
  have hf : (x.add y).IsFinite := by rw [Fl.add_of_finite hx hy]; exact Fl.round_finite_iff.2 hm
  refine ⟨hf, by rw [(Fl.finite_add hf).2.2, hr], ?_⟩
  rw [Fl.add_of_finite hx hy, Fl.round, dif_pos hm, if_neg]
  · simp
  · rw [hr]
    rintro ⟨e, h1 | ⟨_, h1⟩⟩
    · linarith
    · have ex : x.val = 0 := by rcases h with h | h <;> linarith
      cases x with
      | fin x r hx => simp only [Fl.val] at ex; subst ex; simp [Fl.sign] at h1
      | negZero => exact h0 rfl
      | nan => exact hx
      | inf => exact hx

theorem mul_exact {x y : Fl f} (hx : x.IsFinite) (hy : y.IsFinite) (h : f.Rep (x.val * y.val)) (h' : |x.val * y.val| ≤ f.max) :
    (x.mul y).IsFinite ∧ (x.mul y).val = x.val * y.val := by
  have hr := f.rnd_rep h
  have hf : (x.mul y).IsFinite := by rw [Fl.mul_of_finite hx hy]; exact Fl.round_finite_iff.2 (by rwa [hr])
  exact ⟨hf, by rw [(Fl.finite_mul hf).2.2, hr]⟩

/-- A left to right sum in which only the term `i` is not a zero. -/
theorem fold_copies (g : Fin n → Fl f) (i : Fin n) (hg : ∀ k, (g k).IsFinite) (h0 : ∀ k, k ≠ i → (g k).val = 0)
    (l : List (Fin n)) (hl : l.Nodup) {x : Fl f} (hx : x.IsFinite) (hx0 : x ≠ .negZero) (hxi : i ∈ l → x.val = 0) :
    ∃ z, l.foldlM (fun acc k => (Ops.ieee f).add acc (g k)) x = .ok z ∧ z.IsFinite ∧
      z.val = x.val + (if i ∈ l then (g i).val else 0) ∧ z ≠ .negZero := by
  induction l generalizing x with
  | nil => exact ⟨x, rfl, hx, by simp, hx0⟩
  | cons k l ih =>
    rw [List.nodup_cons] at hl
    obtain ⟨h1, h2, h3⟩ := add_copies hx (hg k) hx0 (by
      by_cases e : k = i
      · exact .inl (hxi (by simp [e]))
      · exact .inr (h0 k e))
    obtain ⟨z, e1, e2, e3, e4⟩ := ih hl.2 h1 h3 (fun hi => by
      have e : k ≠ i := by rintro rfl; exact hl.1 hi
      rw [h2, hxi (by simp [hi]), h0 k e, add_zero])
    refine ⟨z, e1, e2, ?_, e4⟩
    rw [e3, h2]
    by_cases e : k = i
    · subst e; simp [hl.1]
    · rw [h0 k e]; simp [Ne.symm e]

theorem zero_mul_special {x : Fl f} (h : ¬ x.IsFinite) :
    (Ops.ieee f).zero.mul x = .nan ∧ x.mul (Ops.ieee f).zero = .nan := by
  cases x with
  | nan => exact ⟨rfl, rfl⟩
  | inf s => simp [Ops.ieee, Fl.ofInt, Fl.mul, Fl.val]
  | _ => exact absurd trivial h

/-- One line of a product with the identity matrix, the identity on either side. -/
theorem unit_mulFold (v : Fin n → Fl f) (i : Fin n) (p q : Fin n → Fl f)
    (hpq : (p = v ∧ q = fun k => if k = i then (Ops.ieee f).one else (Ops.ieee f).zero) ∨
      (q = v ∧ p = fun k => if k = i then (Ops.ieee f).one else (Ops.ieee f).zero)) :
    ∃ z, mulFold (Ops.ieee f) ((List.finRange n).map fun k => (p k, q k)) = .ok z ∧
      ((∀ k, (v k).IsFinite) → z.Copies (v i)) ∧ (∀ k, k ≠ i → ¬ (v k).IsFinite → z = .nan) := by
  obtain ⟨z, hz, _⟩ := ieee_mulFold p q
  refine ⟨z, hz, fun hv => ?_, fun k hk hn => ?_⟩
  · rw [mulFold, List.foldlM_map] at hz
    have hg : ∀ k, ((p k).mul (q k)).IsFinite ∧ ((p k).mul (q k)).val = if k = i then (v k).val else 0 := by
      intro k
      have e0 : (Ops.ieee f).zero.val = 0 := by simp [Ops.ieee, Fl.ofInt, Fl.val]
      have e1 : (Ops.ieee f).one.val = 1 := by simp [Ops.ieee, Fl.ofInt, Fl.val]
      have hb := (Fl.abs_val_le (v k))
      have hm : 0 ≤ f.max := (abs_nonneg _).trans hb
      rcases hpq with ⟨rfl, rfl⟩ | ⟨rfl, rfl⟩ <;> by_cases e : k = i <;> simp only [e, if_true, if_false]
      · obtain ⟨a, b⟩ := mul_exact (x := p i) (y := (Ops.ieee f).one) (hv i) trivial (by rw [e1, mul_one]; exact Fl.rep_val _)
          (by rw [e1, mul_one]; exact Fl.abs_val_le _)
        exact ⟨a, by rw [b, e1, mul_one]⟩
      · obtain ⟨a, b⟩ := mul_exact (x := p k) (y := (Ops.ieee f).zero) (hv k) trivial (by rw [e0, mul_zero]; exact .zero f)
          (by rw [e0, mul_zero, abs_zero]; exact hm)
        exact ⟨a, by rw [b, e0, mul_zero]⟩
      · obtain ⟨a, b⟩ := mul_exact (x := (Ops.ieee f).one) (y := q i) trivial (hv i) (by rw [e1, one_mul]; exact Fl.rep_val _)
          (by rw [e1, one_mul]; exact Fl.abs_val_le _)
        exact ⟨a, by rw [b, e1, one_mul]⟩
      · obtain ⟨a, b⟩ := mul_exact (x := (Ops.ieee f).zero) (y := q k) trivial (hv k) (by rw [e0, zero_mul]; exact .zero f)
          (by rw [e0, zero_mul, abs_zero]; exact hm)
        exact ⟨a, by rw [b, e0, zero_mul]⟩
    obtain ⟨z', e1, e2, e3, e4⟩ := fold_copies (fun k => (p k).mul (q k)) i (fun k => (hg k).1)
      (fun k hk => by rw [(hg k).2, if_neg hk]) (List.finRange n) (List.nodup_finRange n) (x := (Ops.ieee f).zero) trivial
      (by simp [Ops.ieee, Fl.ofInt]) (fun _ => by simp [Ops.ieee, Fl.ofInt, Fl.val])
    have : z = z' := Except.ok.inj (hz.symm.trans e1)
    subst this
    refine ⟨e2, ?_, e4⟩
    rw [e3, if_pos (List.mem_finRange i), (hg i).2, if_pos rfl]; simp [Ops.ieee, Fl.ofInt, Fl.val]
  · rw [mulFold, List.foldlM_map] at hz
    refine poison_fold (ieee_poison f) _ (fun i => (Ops.ieee f).mul (p i) (q i)) hz (.inr ⟨k, List.mem_finRange k, ?_⟩)
    rintro s ⟨⟩
    rcases hpq with ⟨rfl, rfl⟩ | ⟨rfl, rfl⟩
    · simp only [if_neg hk]; exact (zero_mul_special hn).2
    · simp only [if_neg hk]; exact (zero_mul_special hn).1

theorem identity_get (O : Ops (Fl f)) : Mat.identity t O n = .ok (Mat.ofFn fun i j => if i = j then O.one else O.zero) := by
  rw [Mat.identity, Mat.generate_ok t _ (fun i j => if i = j then O.one else O.zero) (by
        intro i j; simp [Fin.ext_iff])]

/-- C88, floats: multiplying with `Matrix::identity()` copies rows and columns of finite numbers (`-0` becomes `+0`), but an
infinity or a NaN makes the other entries of its column (identity on the left) or row (on the right) NaN. -/
theorem C88_identity (a : Mat (Fl f) r c) (v : Vec (Fl f) c) (hr : r < t.W) (hc : c < t.W) :
    ∃ I J, Mat.identity t (Ops.ieee f) r = .ok I ∧ Mat.identity t (Ops.ieee f) c = .ok J ∧
    (∀ op ∈ mulForms (l := r) (n := r) (c := c) t (Ops.ieee f), ∃ w, op I a = .ok w ∧ ∀ i j,
      ((∀ k, (a.get k j).IsFinite) → (w.get i j).Copies (a.get i j)) ∧
      (∀ k, k ≠ i → ¬ (a.get k j).IsFinite → w.get i j = .nan)) ∧
    (∀ op ∈ mulForms (l := r) (n := c) (c := c) t (Ops.ieee f), ∃ w, op a J = .ok w ∧ ∀ i j,
      ((∀ k, (a.get i k).IsFinite) → (w.get i j).Copies (a.get i j)) ∧
      (∀ k, k ≠ j → ¬ (a.get i k).IsFinite → w.get i j = .nan)) ∧
    (∃ w, J.mulVec t (Ops.ieee f) v = .ok w ∧ J.mulVecRef t (Ops.ieee f) v = .ok w ∧ ∀ i,
      ((∀ k, (v.get k).IsFinite) → (w.get i).Copies (v.get i)) ∧
      (∀ k, k ≠ i → ¬ (v.get k).IsFinite → w.get i = .nan)) := by
  refine ⟨_, _, identity_get t _, identity_get t _, fun op hop => ?_, fun op hop => ?_, ?_⟩
  · have h := fun i j => unit_mulFold (fun k => a.get k j) i _ _ (.inr ⟨rfl, rfl⟩)
    choose z hz h1 h2 using h
    refine ⟨Mat.ofFn z, (C41_mul_entries t _ op hop _ a hr hr hc _).2 fun i j => ?_, fun i j => ?_⟩
    · rw [← mulFold_mulSum, Mat.get_ofFn, ← hz i j]
      simp only [Mat.get_ofFn, eq_comm]
    · rw [Mat.get_ofFn]; exact ⟨h1 i j, h2 i j⟩
  · have h := fun i j => unit_mulFold (fun k => a.get i k) j _ _ (.inl ⟨rfl, rfl⟩)
    choose z hz h1 h2 using h
    refine ⟨Mat.ofFn z, (C41_mul_entries t _ op hop a _ hr hc hc _).2 fun i j => ?_, fun i j => ?_⟩
    · rw [← mulFold_mulSum, Mat.get_ofFn, ← hz i j]
      simp only [Mat.get_ofFn]
    · rw [Mat.get_ofFn]; exact ⟨h1 i j, h2 i j⟩
  · have h := fun i => unit_mulFold v.get i _ _ (.inr ⟨rfl, rfl⟩)
    choose z hz h1 h2 using h
    obtain ⟨w, e1, e2, _⟩ := C87_mul_vec t (Mat.ofFn fun i j => if i = j then (Ops.ieee f).one else (Ops.ieee f).zero) v hc
    refine ⟨w, e1, e2, fun i => ?_⟩
    have e3 : w.get i = z i := by
      rw [Mat.mulVecRef, rowsOf_eq (Mat.ofFn fun i j => if i = j then (Ops.ieee f).one else (Ops.ieee f).zero)] at e2
      simp only [rowsOf, List.map_map] at e2
      have := (Vec.collect_finRange_ok_iff t _ w).1 e2 i
      refine Except.ok.inj (this.symm.trans (Eq.trans ?_ (hz i)))
      rw [Function.comp, Vec.zip_eq]
      simp only [Mat.get_ofFn, Vec.get_ofFn, eq_comm]
    rw [e3]
    exact ⟨h1 i, h2 i⟩

/-! Concrete cases. -/

/-- `0.0` of `f64`. -/
noncomputable abbrev z64 : Fl .f64 := (Ops.ieee .f64).zero
/-- `1.0` of `f64`. -/
noncomputable abbrev o64 : Fl .f64 := (Ops.ieee .f64).one

/-- A 4x4 matrix with a NaN that has no inverse, and one whose inverse is all NaN: the result depends on where zeros are met
before the NaN. -/
example (w : Fin 4 → Fin 4 → Fl .f64) (_ : w 3 3 = .nan) :
    (w 0 0 = z64 → (Mat.ofFn w).inverse ⟨true, true, 2 ^ 64⟩ (Ops.ieee .f64) 3 = .ok none) ∧
    (w 0 0 = .nan → (Mat.ofFn w).inverse ⟨true, true, 2 ^ 64⟩ (Ops.ieee .f64) 3 = .ok (some (Mat.ofFn fun _ _ => .nan))) := by
  obtain ⟨o, ho⟩ := C52_inverse_total (ieee_total .f64) ⟨true, true, 2 ^ 64⟩ 3 (Mat.ofFn w)
  obtain ⟨h1, h2⟩ := C88_inverse_first (ieee_poison .f64) _ 0 (Mat.ofFn w) ho
  rw [ho]
  refine ⟨fun h => ?_, fun h => ?_⟩
  · rw [h1 (by rw [Mat.get_ofFn]; simp [h, z64, Ops.ieee, Fl.ofInt, Fl.isZero])]
  · obtain ⟨v, rfl, hv⟩ := h2 (by rw [Mat.get_ofFn, h])
    congr 2
    exact Mat.ext_get fun i j => by rw [hv, Mat.get_ofFn]

/-- The identity times `(inf, 1)` is `(inf, NaN)` in its second component. -/
example : ∃ J w, Mat.identity ⟨true, true, 2 ^ 64⟩ (Ops.ieee .f64) 2 = .ok J ∧
    J.mulVec ⟨true, true, 2 ^ 64⟩ (Ops.ieee .f64) ⟨[.inf false, o64], rfl⟩ = .ok w ∧ w.get 1 = .nan := by
  obtain ⟨_, J, _, hJ, _, _, w, h1, _, h2⟩ := C88_identity ⟨true, true, 2 ^ 64⟩ (Mat.ofFn fun (_ : Fin 2) (_ : Fin 2) => z64)
    ⟨[.inf false, o64], rfl⟩ (by norm_num) (by norm_num)
  exact ⟨J, w, hJ, h1, (h2 1).2 0 (by decide) id⟩

end
end Rowcol
