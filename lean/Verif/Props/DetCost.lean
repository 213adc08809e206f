import Verif.Props.Counts
import Verif.Lemmas.ElimFree
import Verif.Props.Inv

/-! # C92: the cost of determinants, cofactors and inverses -/

namespace Rowcol

variable {T : Type} {O : Ops T} {n : Nat}

section field
variable [Field T] (hO : O.IsField)
include hO

omit hO in
theorem lead_succ_det {m : Mat T n n} {i : Nat} (hi : i < n) (h : ∀ a b : Fin n, b.val < i → b < a → m.get a b = 0) :
    (lead m.toMatrix (i + 1) hi).det = ∏ q : Fin (i + 1), m.get (q.castLE hi) (q.castLE hi) := by
  rw [Matrix.det_of_isUpperTriangular]
  · rfl
  · intro a b hab
    have hab' : b.val < a.val := hab
    exact h _ _ (by simp only [Fin.val_castLE]; omega) hab

/-- The elimination runs to the end exactly when the leading minors of all orders below `n` are nonzero. -/
theorem elimAll_some_iff (a : Mat T n n) :
    (∃ m, Mat.elimAll O (List.range n) a = .ok (some m)) ↔
      ∀ l, ∀ hl : l ≤ n, 0 < l → l < n → (lead a.toMatrix l hl).det ≠ 0 := by
  have hspec := elimAll_spec hO n 0 (by omega) a.toMatrix (fun _ b h => absurd h (by omega))
  rw [← List.range_eq_range', Mat.ofMatrix_toMatrix] at hspec
  obtain ⟨o, ho⟩ : ∃ o, Mat.elimAll O (List.range n) a = .ok o := by
    rcases hspec with h | ⟨M', h, _⟩
    · exact ⟨_, h⟩
    · exact ⟨_, h⟩
  have ho' := ho
  rw [List.range_eq_range'] at ho'
  have key := elimAll_free (O := O) (fun i m =>
      (∀ a b : Fin n, b.val < i → b < a → m.get a b = 0) ∧
      (∀ l, ∀ hl : l ≤ n, (lead m.toMatrix l hl).det = (lead a.toMatrix l hl).det) ∧
      ∀ q : Fin n, q.val < i → q.val + 1 < n → m.get q q ≠ 0) ?_ n 0 (by omega)
      ⟨fun _ b h => absurd h (by omega), fun _ _ => rfl, fun q h => absurd h (by omega)⟩ ho'
  · obtain ⟨k1, k2⟩ := key
    cases o with
    | none =>
      obtain ⟨i, m, hi, ⟨e1, e2, e3⟩, hz⟩ := k1 rfl
      constructor
      · rintro ⟨m', hm'⟩
        cases ho.symm.trans hm'
      · intro h
        refine absurd ?_ (h (i + 1) i.isLt (by omega) hi)
        rw [← e2, lead_succ_det i.isLt e1]
        exact Finset.prod_eq_zero (Finset.mem_univ (Fin.last i)) ((hO.isZero _).1 hz)
    | some m =>
      obtain ⟨e1, e2, e3⟩ := k2 m rfl
      refine ⟨fun _ l hl h0 hn => ?_, fun _ => ⟨m, ho⟩⟩
      obtain ⟨i, rfl⟩ : ∃ i, l = i + 1 := ⟨l - 1, by omega⟩
      rw [← e2, lead_succ_det hl (fun a b hb hab => e1 a b b.isLt hab)]
      refine Finset.prod_ne_zero_iff.2 fun q _ => e3 _ (q.castLE hl).isLt ?_
      have := q.isLt
      simp only [Fin.val_castLE]; omega
  · rintro i m m' ⟨e1, e2, e3⟩ hpv hstep hsame
    have hd : ∀ j : Fin n, i < j → m.get i i ≠ 0 := fun j hj h => by
      have hij : i.val < j.val := hj
      have := hpv (by have := j.isLt; omega)
      rw [(hO.isZero _).2 h] at this
      cases this
    have hrow : ∀ j : Fin n, i < j → ∀ k, m'.get j k = m.get j k - m.get i k * (m.get j i / m.get i i) := fun j hj k => by
      obtain ⟨d, h1, h2⟩ := hstep j hj
      rw [hO.div _ _ (hd j hj)] at h1
      cases h1
      obtain ⟨p, h3, h4⟩ := h2 k
      rw [hO.mul] at h3
      cases h3
      rw [hO.sub] at h4
      exact (Except.ok.inj h4).symm
    refine ⟨fun x b hb hbx => ?_, fun l hl => ?_, fun q hq hq' => ?_⟩
    · by_cases hx : i < x
      · rw [hrow x hx]
        by_cases hbi : b = i
        · subst hbi
          have := hd x hx
          field_simp; ring
        · have hbi' : b.val ≠ i.val := fun e => hbi (Fin.ext e)
          have hbl : b.val < i.val := by omega
          rw [e1 x b hbl hbx, e1 i b hbl hbl]; ring
      · rw [hsame x (not_lt.1 hx)]
        have h1 : x.val ≤ i.val := not_lt.1 hx
        have h2 : b.val < x.val := hbx
        exact e1 x b (by omega) hbx
    · rw [← e2]
      by_cases hil : i.val < l
      · refine Matrix.det_eq_of_forall_row_eq_smul_add_const
          (fun x : Fin l => if i.val < x.val then -(m.get (x.castLE hl) i / m.get i i) else 0) ⟨i, hil⟩ (by simp) ?_
        intro x y
        simp only [lead, Matrix.submatrix_apply, Mat.toMatrix_apply]
        by_cases hx : i.val < x.val
        · rw [if_pos hx, hrow (x.castLE hl) hx]
          have : Fin.castLE hl ⟨i.val, hil⟩ = i := rfl
          rw [this]; ring
        · rw [if_neg hx, hsame (x.castLE hl) (not_lt.1 hx)]; ring
      · congr 1
        ext x y
        simp only [lead, Matrix.submatrix_apply, Mat.toMatrix_apply]
        exact hsame _ (by have := x.isLt; rw [Fin.le_def]; simp only [Fin.val_castLE]; omega) _
    · have hqi : q ≤ i := by rw [Fin.le_def]; omega
      rw [hsame q hqi]
      by_cases h : q = i
      · subst h
        intro h0
        have := hpv hq'
        rw [(hO.isZero _).2 h0] at this
        cases this
      · have : q.val ≠ i.val := fun e => h (Fin.ext e)
        exact e3 q (by omega) hq'

/-- **C92** (elimination).  Over a field, the determinant of a matrix of size `n ≥ 4` whose leading minors of orders below `n` are
nonzero takes `n^2 (n - 1) / 2 + n` multiplications and `n (n - 1) / 2` divisions. -/
theorem C92_elimination (t : Target) (k : Nat) (hk : 3 ≤ k) (a : Mat T (k + 1) (k + 1))
    (h : ∀ l, ∀ hl : l ≤ k + 1, 0 < l → l < k + 1 → (lead a.toMatrix l hl).det ≠ 0) :
    ∃ P, 2 * P = k * (k + 1) ∧
      Counts ((Elem.counting O).determinant t k a) (a.determinant t O k)
        (calls (clone := (k + 1) * (k + 2) + P * (3 * (k + 1) + 2)) (one := 1) (sub := P * (k + 1))
          (mul := P * (k + 1) + (k + 1)) (div := P) (isZero := P)) := by
  obtain ⟨m, hm⟩ := (elimAll_some_iff hO a).2 h
  obtain ⟨j, rfl⟩ : ∃ j, k = j + 3 := ⟨k - 3, by omega⟩
  refine ⟨(j + 4) * (j + 3) / 2, ?_, ?_⟩
  · rw [mul_comm, tri_two, mul_comm]
  · refine (cost_detGen_some t _ _ a m hm).congr ?_
    simp only [gaussCalls]
    counts

end field

/-- **C92** (cofactors, 2x2 and 3x3). -/
theorem C92_cofactor_small (t : Target) (hW : 4 < t.W) (a : Mat T 2 2) (b : Mat T 3 3) (i j : Fin 2) (p q : Fin 3) :
    Counts ((Elem.counting O).cofactor t 0 a (i, j)) (a.cofactor t O 0 (i, j))
      (calls (clone := 1) (one := 1) (mul := 1) (neg := (i.val + j.val) % 2)) ∧
    Counts ((Elem.counting O).cofactor t 1 b (p, q)) (b.cofactor t O 1 (p, q))
      (calls (clone := 8) (one := 1) (sub := 1) (mul := 3) (neg := (p.val + q.val) % 2)) :=
  ⟨cost_cof2 t a i j (by omega), cost_cof3 t b p q hW⟩

/-- **C92** (cofactors from 4x4): the cost of the determinant of the minor, one multiplication, the sign, and the clones of the minor. -/
theorem C92_cofactor (t : Target) (k : Nat) (a : Mat T (k + 4) (k + 4)) (i j : Fin (k + 4)) (hW : 2 * k + 7 < t.W) (d : Op → Nat)
    (hd : ∀ m, a.minor t i j = .ok m → Counts ((Elem.counting O).determinant t (k + 2) m) (m.determinant t O (k + 2)) d) :
    Counts ((Elem.counting O).cofactor t (k + 2) a (i, j)) (a.cofactor t O (k + 2) (i, j))
      (d + calls (clone := (k + 3) * (k + 3)) (one := 1) (mul := 1) (neg := (i.val + j.val) % 2)) :=
  cost_cofGen (q := True) t _ _ d a i j (by omega) hd

/-! ### Inverse -/

theorem cost_ms (t : Target) (a : Mat T 3 3) (p q u v : Nat × Nat) :
    Counts ((Elem.counting O).ms t a p q u v) (a.ms t O p q u v) (calls (clone := 4) (mul := 2) (sub := 1)) := by
  unfold Elem.ms Mat.ms
  apply CountsIf.congr
  · msteps
  · counts

/-- **C92** (inverse, 1x1). -/
theorem C92_inv1 (t : Target) (a : Mat T 1 1) :
    CountsIf (fun o => o ≠ none) ((Elem.counting O).inverse t 0 a) (a.inverse t O 0)
      (calls (clone := 1) (one := 1) (div := 1) (isZero := 1)) := by
  unfold Elem.inverse Mat.inverse Elem.inv1 Mat.inv1
  apply CountsIf.congr
  · mstep
    mstep
    apply CountsIf.ite_none
    intro _
    msteps
  · counts

/-- **C92** (inverse, 2x2). -/
theorem C92_inv2 (t : Target) (a : Mat T 2 2) :
    CountsIf (fun o => o ≠ none) ((Elem.counting O).inverse t 1 a) (a.inverse t O 1)
      (calls (clone := 14) (mul := 2) (sub := 1) (div := 4) (neg := 2) (isZero := 1)) := by
  unfold Elem.inverse Mat.inverse Elem.inv2 Mat.inv2
  apply CountsIf.congr
  · apply CountsIf.bind (cost_det2 t a); intro _ _
    mstep
    apply CountsIf.ite_none
    intro _
    msteps
    apply CountsIf.bind (c1 := calls (clone := 6) (div := 4))
    · exact (C91_div_scalar (r := 2) (c := 2) t _ _)
    intro _ _
    msteps
  · counts

/-- **C92** (inverse, 3x3). -/
theorem C92_inv3 (t : Target) (a : Mat T 3 3) :
    CountsIf (fun o => o ≠ none) ((Elem.counting O).inverse t 2 a) (a.inverse t O 2)
      (calls (clone := 66) (add := 2) (mul := 30) (sub := 12) (div := 9) (isZero := 1)) := by
  unfold Elem.inverse Mat.inverse Elem.inv3 Mat.inv3
  apply CountsIf.congr
  · apply CountsIf.bind (cost_det3 t a); intro _ _
    mstep
    apply CountsIf.ite_none
    intro _
    iterate 9 (apply CountsIf.bind (cost_ms t a _ _ _ _); intro _ _)
    mstep
    apply CountsIf.bind (c1 := calls (clone := 12) (div := 9))
    · exact (C91_div_scalar (r := 3) (c := 3) t _ _)
    intro _ _
    msteps
  · counts

theorem cost_gjScale (i : Nat) (rcp : T) (s : Mat T n n × Mat T n n) :
    Counts ((Elem.counting O).gjScale i rcp s) (Mat.gjScale O i rcp s) (calls (clone := 4 * n) (mul := 2 * n)) := by
  unfold Elem.gjScale Mat.gjScale
  apply CountsIf.congr
  · apply CountsIf.foldlM
    intro s j _
    msteps
  · counts

theorem cost_gjRow (i j : Nat) (x : T) (s : Mat T n n × Mat T n n) :
    Counts ((Elem.counting O).gjRow i j x s) (Mat.gjRow O i j x s) (calls (clone := 6 * n) (mul := 2 * n) (sub := 2 * n)) := by
  unfold Elem.gjRow Mat.gjRow
  apply CountsIf.congr
  · apply CountsIf.foldlM
    intro s j _
    msteps
  · counts

theorem cost_gjClear (i : Nat) (hi : i < n) (s : Mat T n n × Mat T n n) :
    Counts ((Elem.counting O).gjClear i s) (Mat.gjClear O i s)
      ((n - 1) • calls (clone := 6 * n + 1) (mul := 2 * n) (sub := 2 * n)) := by
  unfold Elem.gjClear Mat.gjClear
  apply CountsIf.congr
  · apply CountsIf.foldlM' (c := fun j => if i = j then 0 else calls (clone := 6 * n + 1) (mul := 2 * n) (sub := 2 * n))
    intro s j _
    by_cases h : i = j
    · simp only [h, if_true]
      exact CountsIf.pure _
    · simp only [h, if_false]
      apply CountsIf.congr
      · mstep
        exact cost_gjRow _ _ _ _
      · counts
  · rw [sum_range_ite, if_pos hi, zero_add]

theorem cost_gjLoop (is : List Nat) (his : ∀ i ∈ is, i < n) (s : Mat T n n × Mat T n n) :
    CountsIf (fun o => o ≠ none) ((Elem.counting O).gjLoop is s) (Mat.gjLoop O is s)
      (is.length • (calls (clone := 4 * n + 1) (one := 1) (mul := 2 * n) (div := 1) (isZero := 1) +
        (n - 1) • calls (clone := 6 * n + 1) (mul := 2 * n) (sub := 2 * n))) := by
  induction is generalizing s with
  | nil => exact (CountsIf.pure _).congr (by simp)
  | cons i is ih =>
    unfold Elem.gjLoop Mat.gjLoop
    apply CountsIf.congr
    · mstep
      mstep
      apply CountsIf.ite_none
      intro _
      mstep
      mstep
      apply CountsIf.bind (cost_gjScale _ _ _); intro _ _
      apply CountsIf.bind (cost_gjClear _ (his i (by simp)) _); intro s _
      exact ih (fun j hj => his j (by simp [hj])) s
    · counts

/-- **C92** (inverse, from 4x4): when an inverse is returned, `2 n^3` multiplications, `2 n^2 (n - 1)` subtractions and `n` divisions. -/
theorem C92_inverse (t : Target) (k : Nat) (hk : 3 ≤ k) (a : Mat T (k + 1) (k + 1)) :
    CountsIf (fun o => o ≠ none) ((Elem.counting O).inverse t k a) (a.inverse t O k)
      (calls (clone := 6 * (k + 1) ^ 3) (zero := (k + 1) * k) (one := 2 * (k + 1)) (sub := 2 * (k + 1) ^ 2 * k)
        (mul := 2 * (k + 1) ^ 3) (div := k + 1) (isZero := k + 1)) := by
  obtain ⟨j, rfl⟩ : ∃ j, k = j + 3 := ⟨k - 3, by omega⟩
  rw [Elem.inverse, Mat.inverse, Elem.invGen, Mat.invGen, Mat.clone_ok]
  apply CountsIf.congr
  · apply CountsIf.skip (cost_clone' t a)
    apply CountsIf.bind (C91_identity t _); intro b _
    refine CountsIf.bind' (c2 := 0) (cost_gjLoop _ (fun i hi => List.mem_range.1 hi) _) ?_ ?_
    · intro o _
      cases o with
      | none => exact CountsIf.pure _
      | some s => exact CountsIf.pure _
    · intro o w _ hw hq ho
      subst ho
      cases hw
      exact hq rfl
  · counts

/-! ### The hypotheses can be met -/

/-- A 4x4 matrix whose leading minors are nonzero: 28 multiplications. -/
example : ∃ P, 2 * P = 3 * (3 + 1) ∧
    Counts ((Elem.counting (Ops.exact Rat)).determinant ⟨true, true, 2 ^ 64⟩ 3 (Mat.ofMatrix (1 : Matrix (Fin 4) (Fin 4) Rat)))
      ((Mat.ofMatrix (1 : Matrix (Fin 4) (Fin 4) Rat)).determinant ⟨true, true, 2 ^ 64⟩ (Ops.exact Rat) 3)
      (calls (clone := (3 + 1) * (3 + 2) + P * (3 * (3 + 1) + 2)) (one := 1) (sub := P * (3 + 1))
          (mul := P * (3 + 1) + (3 + 1)) (div := P) (isZero := P)) :=
  C92_elimination (Ops.exact_isField Rat) _ 3 (le_refl _) _ (fun l hl _ _ => by
    have : lead (Mat.ofMatrix (1 : Matrix (Fin 4) (Fin 4) Rat)).toMatrix l hl = 1 := by
      ext a b
      simp only [lead, Mat.toMatrix_ofMatrix, Matrix.submatrix_apply, Matrix.one_apply, Fin.ext_iff, Fin.val_castLE]
    rw [this]; simp)

/-- The zero 5x5 matrix of integers: at least 240 multiplications. -/
example : ∃ c : Op → Nat, Counts ((Elem.counting Ops.int).determinant ⟨true, true, 2 ^ 64⟩ 4 (Mat.ofMatrix (0 : Matrix (Fin 5) (Fin 5) Int)))
      ((Mat.ofMatrix (0 : Matrix (Fin 5) (Fin 5) Int)).determinant ⟨true, true, 2 ^ 64⟩ Ops.int 4) c ∧ 2 * 120 ≤ c .mul :=
  C92_zero _ 4 (by omega) _ (by decide) (fun i j => by rw [Mat.get_ofMatrix]; rfl)

end Rowcol
