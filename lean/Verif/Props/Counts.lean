import Verif.Lemmas.Cost
import Verif.Lemmas.Elim
import Verif.Props.Products

/-! # C91, C92: how many element operations the arithmetic performs -/

namespace Rowcol

variable {T : Type} {O : Ops T} {l n r c : Nat}

theorem cost_foldCC (ps : List (T × T)) :
    Counts ((Elem.counting O).foldCC ps) (mulFold O ps)
      (calls (clone := 2 * ps.length) (zero := 1) (add := ps.length) (mul := ps.length)) := by
  unfold Elem.foldCC mulFold
  apply CountsIf.congr
  · cstep
    apply CountsIf.foldlM
    intro acc p _
    csteps
  · counts

theorem cost_foldCR (ps : List (T × T)) :
    Counts ((Elem.counting O).foldCR ps) (mulFold O ps)
      (calls (clone := ps.length) (zero := 1) (add := ps.length) (mul := ps.length)) := by
  unfold Elem.foldCR mulFold
  apply CountsIf.congr
  · cstep
    apply CountsIf.foldlM
    intro acc p _
    csteps
  · counts

theorem cost_foldVec (ps : List (T × T)) :
    Counts ((Elem.counting O).foldVec ps) (mulFold O ps)
      (calls (clone := 2 * ps.length) (zero := 1) (add := ps.length) (mul := ps.length)) := by
  unfold Elem.foldVec mulFold
  apply CountsIf.congr
  · cstep
    apply CountsIf.foldlM
    intro acc p _
    csteps
  · counts

theorem cost_foldVecRef (ps : List (T × T)) :
    Counts ((Elem.counting O).foldVecRef ps) (mulFold O ps)
      (calls (zero := 1) (add := ps.length) (mul := ps.length)) := by
  unfold Elem.foldVecRef mulFold
  apply CountsIf.congr
  · cstep
    apply CountsIf.foldlM
    intro acc p _
    csteps
  · counts

/-- **C91** (dot product). -/
theorem C91_dot (a b : Vec T n) :
    Counts ((Elem.counting O).dot a b) (a.dot O b) (calls (clone := 2 * n) (zero := 1) (add := n) (mul := n)) :=
  (cost_foldCC _).congr (by simp [Vec.length_eq])

/-- **C91** (sum of a vector). -/
theorem C91_vec_sum (v : Vec T n) :
    Counts ((Elem.counting O).vecSum v) (v.sum O) (calls (clone := n) (zero := 1) (add := n)) := by
  unfold Elem.vecSum Vec.sum
  apply CountsIf.congr
  · cstep
    apply CountsIf.foldlM
    intro acc p _
    csteps
  · counts

/-- **C91** (sum of a matrix): one addition of zero per row more than a single fold would make. -/
theorem C91_mat_sum (a : Mat T r c) :
    Counts ((Elem.counting O).matSum a) (a.sum O) (calls (clone := r * c) (zero := r + 1) (add := r * (c + 1))) := by
  unfold Elem.matSum Mat.sum
  apply CountsIf.congr
  · cstep
    apply CountsIf.foldlM
    intro acc row _
    apply CountsIf.bind (C91_vec_sum row)
    intro s _
    csteps
  · counts

theorem cost_crossComp (t : Target) (a b : Vec T 3) (i j : Nat) :
    Counts ((Elem.counting O).crossComp t a b i j) (do
      let x ← O.mul (← a.getUnchecked t i) (← b.getUnchecked t j)
      let y ← O.mul (← a.getUnchecked t j) (← b.getUnchecked t i)
      O.sub x y) (calls (clone := 4) (mul := 2) (sub := 1)) := by
  unfold Elem.crossComp
  apply CountsIf.congr
  · csteps
  · counts

/-- **C91** (cross product). -/
theorem C91_cross (t : Target) (a b : Vec T 3) :
    Counts ((Elem.counting O).cross t a b) (a.cross t O b) (calls (clone := 12) (mul := 6) (sub := 3)) := by
  have h : a.cross t O b = (do
      let x ← (do
        let x ← O.mul (← a.getUnchecked t 1) (← b.getUnchecked t 2)
        let y ← O.mul (← a.getUnchecked t 2) (← b.getUnchecked t 1)
        O.sub x y)
      let y ← (do
        let x ← O.mul (← a.getUnchecked t 2) (← b.getUnchecked t 0)
        let y ← O.mul (← a.getUnchecked t 0) (← b.getUnchecked t 2)
        O.sub x y)
      let z ← (do
        let x ← O.mul (← a.getUnchecked t 0) (← b.getUnchecked t 1)
        let y ← O.mul (← a.getUnchecked t 1) (← b.getUnchecked t 0)
        O.sub x y)
      pure ⟨[x, y, z], rfl⟩) := by
    simp [Vec.cross]
  rw [h]
  apply CountsIf.congr
  · apply CountsIf.bind (cost_crossComp t a b 1 2); intro x _
    apply CountsIf.bind (cost_crossComp t a b 2 0); intro y _
    apply CountsIf.bind (cost_crossComp t a b 0 1); intro z _
    csteps
  · counts

theorem cost_mulWith (t : Target) (fold : List (T × T) → StM (Op → Nat) T) (k : Op → Nat)
    (hf : ∀ ps : List (T × T), ps.length = n → Counts (fold ps) (mulFold O ps) k) (a : Mat T l n) (b : Mat T n c)
    (hl : l < t.W) (hn : n < t.W) (hc : c < t.W) :
    Counts (Elem.mulWith t fold a b) (a.mulVV t O b) ((l * c) • k) := by
  unfold Elem.mulWith Mat.mulVV
  refine (CountsIf.bind (CountsIf.lift _) (c2 := (l * c) • k) fun lrows h1 => ?_).congr (zero_add _)
  rw [drain_rowsRef t a hl] at h1
  cases h1
  refine (CountsIf.bind (c1 := l • c • k) (c2 := 0) (CountsIf.collect t _ (rowsOf_length a) fun lrow _ => ?_)
    fun v _ => CountsIf.pure _).congr (by rw [add_zero, mul_smul])
  refine (CountsIf.bind (CountsIf.lift _) (c2 := c • k) fun rcols h2 => ?_).congr (zero_add _)
  rw [drain_colsRef t b hc] at h2
  cases h2
  refine CountsIf.collect t _ (colItersOf_length b) fun rcol h3 => ?_
  refine (CountsIf.bind (CountsIf.lift _) (c2 := k) fun col h4 => hf _ ?_).congr (zero_add _)
  obtain ⟨j, hj, rfl⟩ := List.mem_map.1 h3
  have h5 := drain_inner t b hn ⟨j, List.mem_range.1 hj⟩
  rw [h5] at h4
  cases h4
  simp [colOf_length, Vec.length_eq]

/-- **C91** (matrix products, right operand by value). -/
theorem C91_mul (t : Target) (a : Mat T l n) (b : Mat T n c) (hl : l < t.W) (hn : n < t.W) (hc : c < t.W) :
    Counts ((Elem.counting O).mulVV t a b) (a.mulVV t O b)
      (calls (clone := l * c * (2 * n)) (zero := l * c) (add := l * c * n) (mul := l * c * n)) :=
  (cost_mulWith t _ (calls (clone := 2 * n) (zero := 1) (add := n) (mul := n))
    (fun ps h => by rw [← h]; exact cost_foldCC ps) a b hl hn hc).congr (by counts)

/-- **C91** (matrix products, right operand by reference): half the clones. -/
theorem C91_mul_ref (t : Target) (a : Mat T l n) (b : Mat T n c) (hl : l < t.W) (hn : n < t.W) (hc : c < t.W) :
    Counts ((Elem.counting O).mulRR t a b) (a.mulRR t O b)
      (calls (clone := l * c * n) (zero := l * c) (add := l * c * n) (mul := l * c * n)) :=
  (cost_mulWith t _ (calls (clone := n) (zero := 1) (add := n) (mul := n))
    (fun ps h => by rw [← h]; exact cost_foldCR ps) a b hl hn hc).congr (by counts)

/-- **C91** (matrix times vector). -/
theorem C91_mul_vec (t : Target) (a : Mat T r c) (v : Vec T c) (hr : r < t.W) :
    Counts ((Elem.counting O).mulVec t a v) (a.mulVec t O v)
      (calls (clone := r * (2 * c)) (zero := r) (add := r * c) (mul := r * c)) := by
  unfold Elem.mulVec Mat.mulVec
  apply CountsIf.congr
  · apply CountsIf.bind (CountsIf.lift _)
    intro rows h
    rw [drain_rowsRef t a hr] at h
    cases h
    apply CountsIf.collect t _ (rowsOf_length a)
    intro row _
    apply (cost_foldVec _).congr
    simp only [List.length_zip, Vec.length_eq, Nat.min_self]
    rfl
  · counts

/-- **C91** (matrix times reference to a vector): no clones. -/
theorem C91_mul_vec_ref (t : Target) (a : Mat T r c) (v : Vec T c) :
    Counts ((Elem.counting O).mulVecRef t a v) (a.mulVecRef t O v)
      (calls (zero := r) (add := r * c) (mul := r * c)) := by
  unfold Elem.mulVecRef Mat.mulVecRef
  apply CountsIf.congr
  · apply CountsIf.collect t _ a.rows.length_eq
    intro row _
    apply (cost_foldVecRef _).congr
    simp only [List.length_zip, Vec.length_eq, Nat.min_self]
    rfl
  · counts

/-- **C91** (division by a scalar): the divisor is cloned once per row and once per element. -/
theorem C91_div_scalar (t : Target) (a : Mat T r c) (s : T) :
    Counts ((Elem.counting O).divScalar t a s) (a.divScalar t O.div s) (calls (clone := r * (c + 1)) (div := r * c)) := by
  unfold Elem.divScalar Mat.divScalar
  apply CountsIf.congr
  · apply CountsIf.bind
    · apply CountsIf.collect t _ a.rows.length_eq
      intro row _
      cstep
      apply CountsIf.collect t _ row.length_eq
      intro e _
      csteps
    · intro v _
      csteps
  · counts

theorem cost_clone (t : Target) (a : Mat T r c) :
    Counts (a.clone t (Elem.counting O).clone) (a.clone t fun x => (pure x : Res T)) (calls (clone := r * c)) := by
  unfold Mat.clone Vec.clone
  apply CountsIf.congr
  · apply CountsIf.bind
    · apply CountsIf.collect t _ a.rows.length_eq
      intro row _
      apply CountsIf.collect t _ row.length_eq
      intro e _
      exact CountsIf.clone e
    · intro v _
      csteps
  · counts

theorem cost_clone' (t : Target) (a : Mat T r c) :
    Counts (a.clone t (Elem.counting O).clone) (.ok a) (calls (clone := r * c)) := by
  have := cost_clone (O := O) t a
  rwa [Mat.clone_ok] at this

theorem sum_range_ite (A B : Op → Nat) (n i : Nat) :
    ((List.range n).map fun j => if i = j then A else B).sum = if i < n then A + (n - 1) • B else n • B := by
  induction n with
  | zero => simp
  | succ n ih =>
    rw [List.range_succ, List.map_append, List.sum_append, ih]
    simp only [List.map_cons, List.map_nil, List.sum_cons, List.sum_nil, add_zero, Nat.add_sub_cancel]
    rcases Nat.lt_trichotomy i n with h | h | h
    · rw [if_pos h, if_neg (by omega), if_pos (by omega), add_assoc, ← succ_nsmul]
      congr 2; omega
    · subst h
      rw [if_neg (by omega), if_pos rfl, if_pos (by omega), add_comm]
    · rw [if_neg (by omega), if_neg (by omega), if_neg (by omega), ← succ_nsmul]

/-- **C91** (identity matrix). -/
theorem C91_identity (t : Target) (n : Nat) :
    Counts ((Elem.counting O).identity t n) (Mat.identity t O n) (calls (zero := n * (n - 1)) (one := n)) := by
  unfold Elem.identity Mat.identity Mat.generate Vec.generate
  apply CountsIf.congr
  · apply CountsIf.bind
    · apply CountsIf.collect' (c := fun i => calls (zero := n - 1) (one := 1)) t _ (by simp)
      intro i hi
      have hi' : i < n := List.mem_range.1 hi
      apply CountsIf.congr
      · apply CountsIf.collect' (c := fun j => if i = j then calls (one := 1) else calls (zero := 1)) t _ (by simp)
        intro j _
        by_cases h : i = j
        · simp only [h, if_true]; exact CountsIf.one.congr (by counts)
        · simp only [h, if_false]; exact CountsIf.zero.congr (by counts)
      · rw [sum_range_ite _ _ n i, if_pos hi']
        counts
    · intro v _
      csteps
  · counts

/-! ### Determinant -/

theorem cost_idx (t : Target) (a : Mat T r c) (i j : Nat) :
    Counts ((Elem.counting O).idx t a i j) (a.idxStatic t i j) (calls (clone := 1)) := by
  unfold Elem.idx
  apply CountsIf.congr
  · have := CountsIf.bind (CountsIf.lift (P := fun _ => True) (a.idxStatic t i j))
      (f := (Elem.counting O).clone) (g := pure) fun v _ => CountsIf.clone (P := fun _ => True) v
    rw [bind_pure] at this
    exact this
  · counts

theorem cost_get (a : Mat T r c) (i j : Nat) :
    Counts ((Elem.counting O).get a i j) (a.index (i, j)) (calls (clone := 1)) := by
  unfold Elem.get
  apply CountsIf.congr
  · have := CountsIf.bind (CountsIf.lift (P := fun _ => True) (a.index (i, j)))
      (f := (Elem.counting O).clone) (g := pure) fun v _ => CountsIf.clone (P := fun _ => True) v
    rw [bind_pure] at this
    exact this
  · counts

/-- One step of a count, with matrix accesses. -/
macro "mstep" : tactic => `(tactic| first
  | cstep
  | with_reducible exact cost_idx _ _ _ _
  | with_reducible exact cost_get _ _ _
  | with_reducible (apply CountsIf.bind; exact cost_idx _ _ _ _; intro _ _)
  | with_reducible (apply CountsIf.bind; exact cost_get _ _ _; intro _ _))

/-- All simple steps of a count, with matrix accesses. -/
macro "msteps" : tactic => `(tactic| repeat mstep)

theorem cost_det2 (t : Target) (a : Mat T 2 2) :
    Counts ((Elem.counting O).det2 t a) (a.det2 t O) (calls (clone := 4) (mul := 2) (sub := 1)) := by
  unfold Elem.det2 Mat.det2
  apply CountsIf.congr
  · msteps
  · counts

theorem cost_det3Term (t : Target) (a : Mat T 3 3) (i j k : Nat) :
    Counts ((Elem.counting O).det3Term t a i j k) (a.det3Term t O i j k) (calls (clone := 3) (mul := 2)) := by
  unfold Elem.det3Term Mat.det3Term
  apply CountsIf.congr
  · msteps
  · counts

theorem cost_det3 (t : Target) (a : Mat T 3 3) :
    Counts ((Elem.counting O).det3 t a) (a.det3 t O) (calls (clone := 18) (mul := 12) (add := 2) (sub := 3)) := by
  unfold Elem.det3 Mat.det3
  apply CountsIf.congr
  · apply CountsIf.bind (cost_det3Term _ _ _ _ _); intro _ _
    apply CountsIf.bind (cost_det3Term _ _ _ _ _); intro _ _
    mstep
    apply CountsIf.bind (cost_det3Term _ _ _ _ _); intro _ _
    mstep
    apply CountsIf.bind (cost_det3Term _ _ _ _ _); intro _ _
    mstep
    apply CountsIf.bind (cost_det3Term _ _ _ _ _); intro _ _
    mstep
    apply CountsIf.bind (cost_det3Term _ _ _ _ _); intro _ _
    msteps
  · counts

theorem cost_elimRow (m : Mat T n n) (i j : Nat) (d : T) :
    Counts ((Elem.counting O).elimRow m i j d) (m.elimRow O i j d) (calls (clone := 3 * n) (mul := n) (sub := n)) := by
  unfold Elem.elimRow Mat.elimRow
  apply CountsIf.congr
  · apply CountsIf.foldlM
    intro m k _
    msteps
  · counts

/-- The calls of one row operation of the elimination. -/
def elimCalls (n : Nat) : Op → Nat := calls (clone := 3 * n + 2) (mul := n) (sub := n) (div := 1) (isZero := 1)

theorem cost_elimCol (i : Nat) (js : List Nat) (m : Mat T n n) :
    CountsIf (fun o => o ≠ none) ((Elem.counting O).elimCol i js m) (Mat.elimCol O i js m) (js.length • elimCalls n) := by
  induction js generalizing m with
  | nil => exact (CountsIf.pure _).congr (by simp)
  | cons j js ih =>
    unfold Elem.elimCol Mat.elimCol
    apply CountsIf.congr
    · mstep
      rename_i x _
      mstep
      apply CountsIf.ite_none
      intro _
      mstep
      mstep
      mstep
      apply CountsIf.bind (cost_elimRow _ _ _ _); intro m' _
      exact ih m'
    · simp only [elimCalls]
      counts

theorem cost_elimAll (is : List Nat) (m : Mat T n n) :
    CountsIf (fun o => o ≠ none) ((Elem.counting O).elimAll is m) (Mat.elimAll O is m)
      ((is.map fun i => n - (i + 1)).sum • elimCalls n) := by
  induction is generalizing m with
  | nil => exact (CountsIf.pure _).congr (by simp)
  | cons i is ih =>
    unfold Elem.elimAll Mat.elimAll
    apply CountsIf.congr
    · refine CountsIf.bind' (c2 := (is.map fun i => n - (i + 1)).sum • elimCalls n) (cost_elimCol i _ m) ?_ ?_
      · intro o _
        cases o with
        | none => exact (CountsIf.pure none).mono (fun _ => Nat.zero_le _) fun v hv => by cases hv; simp
        | some m => exact ih m
      · intro o w _ hw hq ho
        subst ho
        cases hw
        exact hq rfl
    · simp [add_smul]

theorem sum_range_sub (n : Nat) : ((List.range n).map fun i => n - (i + 1)).sum = n * (n - 1) / 2 := by
  have h : ∀ m, ((List.range m).map fun i => m - (i + 1)).sum = ∑ i ∈ Finset.range m, (m - 1 - i) := by
    intro m
    rw [Finset.sum_range, Fin.sum_univ_def, Vec.range_eq, List.map_map]
    congr 1
    apply List.map_congr_left
    intro i _
    simp only [Function.comp]
    omega
  rw [h, Finset.sum_range_reflect (fun i => i) n, Finset.sum_range_id]

/-- The diagonal product. -/
theorem cost_diag (m : Mat T n n) :
    Counts (do
      let o ← (Elem.counting O).one
      (List.range n).foldlM (fun acc i => do
        let x ← (Elem.counting O).get m i i
        (Elem.counting O).mul acc x) o)
      ((List.range n).foldlM (fun acc i => do
        let x ← m.index (i, i)
        O.mul acc x) O.one) (calls (clone := n) (one := 1) (mul := n)) := by
  apply CountsIf.congr
  · mstep
    apply CountsIf.foldlM
    intro acc i _
    msteps
  · counts

/-- The calls of a determinant of size `n ≥ 4` by elimination. -/
def gaussCalls (n : Nat) : Op → Nat :=
  calls (clone := n * n + n + n * (n - 1) / 2 * (3 * n + 2)) (one := 1) (sub := n * (n - 1) / 2 * n)
    (mul := n * (n - 1) / 2 * n + n) (div := n * (n - 1) / 2) (isZero := n * (n - 1) / 2)

theorem cost_detGen_some (t : Target) (cof : Nat × Nat → StM (Op → Nat) T) (cof' : Nat × Nat → Res T) (a m : Mat T n n)
    (h : Mat.elimAll O (List.range n) a = .ok (some m)) :
    Counts ((Elem.counting O).detGen t cof a) (a.detGen t O cof') (gaussCalls n) := by
  unfold Elem.detGen Mat.detGen
  rw [Mat.clone_ok]
  apply CountsIf.congr
  · apply CountsIf.skip (cost_clone' t a)
    refine CountsIf.bind' (c2 := calls (clone := n) (one := 1) (mul := n)) (cost_elimAll _ a) ?_ ?_
    · intro o ho
      cases h.symm.trans ho
      exact cost_diag m
    · intro o w ho _ _
      cases h.symm.trans ho
      simp
  · rw [sum_range_sub]
    simp only [elimCalls, gaussCalls]
    counts

theorem cost_cofSign (t : Target) (i j : Nat) (h : i + j < t.W) :
    Counts ((Elem.counting O).cofSign t i j) (Mat.cofSign t O i j) (calls (one := 1) (neg := (i + j) % 2)) := by
  unfold Elem.cofSign Mat.cofSign
  have hu : uadd t i j = .ok (i + j) := by simp [uadd, h]
  rw [hu]
  change Counts (liftRes (.ok (i + j)) >>= _) (if (i + j) % 2 = 0 then pure O.one else O.neg O.one) _
  apply CountsIf.congr
  · apply CountsIf.skip (CountsIf.lift _) (c2 := calls (one := 1) (neg := (i + j) % 2))
    split
    · rename_i h0
      rw [h0]
      exact CountsIf.one.congr (by counts)
    · rename_i h0
      have h1 : (i + j) % 2 = 1 := by omega
      rw [h1]
      apply CountsIf.congr
      · msteps
      · counts
  · simp

theorem cost_minor (t : Target) (a : Mat T (n + 1) (n + 1)) (i j : Fin (n + 1)) (hn : n + 1 < t.W) :
    Counts ((Elem.counting O).minor t a i j) (a.minor t i j) (calls (clone := n * n)) := by
  unfold Elem.minor Mat.minor
  apply CountsIf.congr
  · apply CountsIf.bind (CountsIf.lift _) (c2 := n • n • one1 .clone + 0)
    intro rows h
    rw [drain_rowsRef t a hn] at h
    cases h
    apply CountsIf.bind
    · apply CountsIf.collect t _ (by rw [rowsOf, zipIdx_filter]; simp)
      intro p _
      apply CountsIf.collect t _ (by rw [Vec.toList_eq, zipIdx_filter]; simp)
      intro q _
      exact CountsIf.clone _
    · intro v _
      msteps
  · counts

theorem cost_cof2 (t : Target) (a : Mat T 2 2) (i j : Fin 2) (h : i.val + j.val < t.W) :
    Counts ((Elem.counting O).cof2 t a (i, j)) (a.cof2 t O (i, j)) (calls (clone := 1) (one := 1) (mul := 1) (neg := (i.val + j.val) % 2)) := by
  unfold Elem.cof2 Mat.cof2
  apply CountsIf.congr
  · apply CountsIf.bind (cost_cofSign t i j h); intro _ _
    msteps
  · counts

theorem cost_cof3 (t : Target) (a : Mat T 3 3) (i j : Fin 3) (hW : 4 < t.W) :
    Counts ((Elem.counting O).cof3 t a (i, j)) (a.cof3 t O (i, j))
      (calls (clone := 8) (one := 1) (sub := 1) (mul := 3) (neg := (i.val + j.val) % 2)) := by
  unfold Elem.cof3 Mat.cof3
  have hi := i.isLt
  have hj := j.isLt
  rw [if_pos ⟨hi, hj⟩, if_pos ⟨hi, hj⟩]
  apply CountsIf.congr
  · apply CountsIf.bind (cost_cofSign t i j (by omega)); intro _ _
    apply CountsIf.bind (cost_minor t a i j (by omega)); intro _ _
    apply CountsIf.bind (cost_det2 t _); intro _ _
    msteps
  · counts

theorem cost_cofGen {q : Prop} (t : Target) (det : Mat T n n → StM (Op → Nat) T) (det' : Mat T n n → Res T) (k : Op → Nat)
    (a : Mat T (n + 1) (n + 1)) (i j : Fin (n + 1)) (hW : 2 * n + 1 < t.W)
    (hd : ∀ m, a.minor t i j = .ok m → CountsIf (fun _ => q) (det m) (det' m) k) :
    CountsIf (fun _ => q) ((Elem.counting O).cofGen t det a (i, j)) (a.cofGen t O det' (i, j))
      (k + calls (clone := n * n) (one := 1) (mul := 1) (neg := (i.val + j.val) % 2)) := by
  unfold Elem.cofGen Mat.cofGen
  have hi := i.isLt
  have hj := j.isLt
  rw [if_pos ⟨hi, hj⟩, if_pos ⟨hi, hj⟩]
  apply CountsIf.congr
  · apply CountsIf.bind (cost_minor t a i j (by omega)); intro m hm
    apply CountsIf.bind (cost_cofSign t i j (by omega)); intro _ _
    apply CountsIf.bindb (hd m hm); intro _ _
    msteps
  · counts

theorem sum_mod_two (n : Nat) : ((List.range n).map fun i => i % 2).sum = n / 2 := by
  induction n with
  | zero => rfl
  | succ n ih => rw [List.range_succ, List.map_append, List.sum_append, ih]; simp; omega

theorem sum_calls_neg (n : Nat) (K : Op → Nat) :
    ((List.range n).map fun i => K + calls (neg := i % 2)).sum = n • K + calls (neg := n / 2) := by
  have : ∀ n, ((List.range n).map fun i => K + calls (neg := i % 2)).sum =
      n • K + calls (neg := ((List.range n).map fun i => i % 2).sum) := by
    intro n
    induction n with
    | zero => counts
    | succ n ih =>
      rw [List.range_succ, List.map_append, List.sum_append, ih, List.map_append, List.sum_append]
      counts
  rw [this, sum_mod_two]

/-- The expansion along the first column. -/
theorem cost_expand {q : Prop} (cof : Nat × Nat → StM (Op → Nat) T) (cof' : Nat × Nat → Res T) (a : Mat T n n) (K : Op → Nat)
    (h : ∀ i < n, CountsIf (fun _ => q) (cof (i, 0)) (cof' (i, 0)) (K + calls (neg := i % 2))) :
    CountsIf (fun _ => q) (do
      let z ← (Elem.counting O).zero
      (List.range n).foldlM (fun acc i => do
        let x ← (Elem.counting O).get a i 0
        let y ← cof (i, 0)
        let p ← (Elem.counting O).mul x y
        (Elem.counting O).add acc p) z)
      ((List.range n).foldlM (fun acc i => do
        let p ← O.mul (← a.index (i, 0)) (← cof' (i, 0))
        O.add acc p) O.zero) (n • K + calls (clone := n) (zero := 1) (add := n) (mul := n) (neg := n / 2)) := by
  apply CountsIf.congr
  · mstep
    apply CountsIf.foldlM' (c := fun i => (K + calls (clone := 1) (add := 1) (mul := 1)) + calls (neg := i % 2))
    intro acc i hi
    apply CountsIf.congr
    · mstep
      apply CountsIf.bindb (h i (List.mem_range.1 hi)); intro _ _
      msteps
    · counts
  · rw [sum_calls_neg]
    counts

/-- At most this many calls for a determinant of size `k + 1`. -/
def detMax : Nat → Op → Nat
  | 0 => calls (clone := 1)
  | 1 => calls (clone := 4) (mul := 2) (sub := 1)
  | 2 => calls (clone := 18) (mul := 12) (add := 2) (sub := 3)
  | k + 3 => calls (clone := (k + 4) * (k + 4)) + ((k + 4) * (k + 3) / 2) • elimCalls (k + 4) +
      (k + 4) • (detMax (k + 2) + calls (clone := (k + 3) * (k + 3) + 1) (zero := 1) (one := 1) (add := 1) (mul := 2) (neg := 1))

theorem cost_detMax (t : Target) (k : Nat) (a : Mat T (k + 1) (k + 1)) (hW : 2 * k + 1 < t.W) :
    CountsLe ((Elem.counting O).determinant t k a) (a.determinant t O k) (detMax k) := by
  induction k with
  | zero => exact CountsIf.weaken (cost_idx t a 0 0)
  | succ k ih =>
    match k, ih with
    | 0, _ => exact CountsIf.weaken (cost_det2 t a)
    | 1, _ => exact CountsIf.weaken (cost_det3 t a)
    | k + 2, ih =>
      unfold Elem.determinant Mat.determinant Elem.detGen Mat.detGen
      rw [Mat.clone_ok]
      apply CountsIf.le (P := fun _ => False)
      · apply CountsIf.skip (cost_clone' t a)
        refine CountsIf.bind' (Q := fun _ => False) (c2 := (k + 4) • (detMax (k + 2) + calls (clone := (k + 3) * (k + 3) + 1) (zero := 1)
          (one := 1) (add := 1) (mul := 2) (neg := 1))) (cost_elimAll _ a) ?_ ?_
        · intro o _
          cases o with
          | some m =>
            refine (CountsIf.weaken (cost_diag m) : CountsLe _ _ _).le ?_
            intro op
            cases op <;> simp [calls] <;> nlinarith
          | none =>
            apply CountsIf.le
            · exact cost_expand (q := False) _ _ a (detMax (k + 2) + calls (clone := (k + 3) * (k + 3)) (one := 1) (mul := 1))
                fun i hi => (cost_cofGen (q := False) t _ _ (detMax (k + 2)) a ⟨i, hi⟩ 0 (by omega) fun m _ => ih m (by omega)).congr (by counts)
            · intro op
              have := Nat.div_le_self (k + 4) 2
              cases op <;> simp [calls, Nat.add_assoc] <;> nlinarith
        · intro _ _ _ _ h; exact h.elim
      · rw [sum_range_sub]
        intro op
        cases op <;> simp [detMax, calls, elimCalls, Nat.add_assoc]

theorem tri_two (k : Nat) : (k + 4) * (k + 3) / 2 * 2 = (k + 4) * (k + 3) := by
  refine Nat.div_mul_cancel ?_
  have := Nat.even_mul_succ_self (k + 3)
  rw [mul_comm]
  exact this.two_dvd

theorem detMax_clone (k : Nat) (hk : 4 ≤ k) : detMax k .clone + 5 * (k + 1) ^ 2 ≤ 13 * (k + 1).factorial := by
  induction k, hk using Nat.le_induction with
  | base => decide
  | succ k hk ih =>
    obtain ⟨j, rfl⟩ : ∃ j, k = j + 2 := ⟨k - 2, by omega⟩
    have h2 := tri_two j
    generalize hP : (j + 4) * (j + 3) / 2 = P at h2
    rw [Nat.factorial_succ]
    have e : detMax (j + 2 + 1) .clone = (j + 4) * (j + 4) + P * (3 * (j + 4) + 2) + (j + 4) * (detMax (j + 2) .clone + ((j + 3) * (j + 3) + 1)) := by
      simp only [detMax, calls, elimCalls, hP, Pi.add_apply, Pi.smul_apply, smul_eq_mul]
      try ring1
    rw [e]
    generalize detMax (j + 2) .clone = D at *
    generalize (j + 2 + 1).factorial = F at *
    have h3 : (j + 4) * (D + 5 * (j + 3) ^ 2) ≤ (j + 4) * (13 * F) := Nat.mul_le_mul_left _ ih
    obtain ⟨i, rfl⟩ : ∃ i, j = i + 2 := ⟨j - 2, by omega⟩
    nlinarith

theorem detMax_mul (k : Nat) (hk : 4 ≤ k) : detMax k .mul + (k + 1) ^ 2 ≤ 5 * (k + 1).factorial := by
  induction k, hk using Nat.le_induction with
  | base => decide
  | succ k hk ih =>
    obtain ⟨j, rfl⟩ : ∃ j, k = j + 2 := ⟨k - 2, by omega⟩
    have h2 := tri_two j
    generalize hP : (j + 4) * (j + 3) / 2 = P at h2
    rw [Nat.factorial_succ]
    have e : detMax (j + 2 + 1) .mul = P * (j + 4) + (j + 4) * (detMax (j + 2) .mul + 2) := by
      simp only [detMax, calls, elimCalls, hP, Pi.add_apply, Pi.smul_apply, smul_eq_mul]
      try ring1
    rw [e]
    generalize detMax (j + 2) .mul = D at *
    generalize (j + 2 + 1).factorial = F at *
    have h3 : (j + 4) * (D + (j + 3) ^ 2) ≤ (j + 4) * (5 * F) := Nat.mul_le_mul_left _ ih
    obtain ⟨i, rfl⟩ : ∃ i, j = i + 2 := ⟨j - 2, by omega⟩
    nlinarith

theorem detMax_le_clone (k : Nat) (op : Op) : detMax k op ≤ detMax k .clone := by
  induction k with
  | zero => cases op <;> decide
  | succ k ih =>
    match k, ih with
    | 0, _ => cases op <;> decide
    | 1, _ => cases op <;> decide
    | k + 2, ih =>
      have : (k + 4) * detMax (k + 2) op ≤ (k + 4) * detMax (k + 2) .clone := Nat.mul_le_mul_left _ ih
      generalize hP : (k + 4) * (k + 3) / 2 = P
      have h0 : 0 ≤ P * k := Nat.zero_le _
      have h1 : 0 ≤ k * k := Nat.zero_le _
      have h2 : 0 ≤ k * k * k := Nat.zero_le _
      cases op <;> simp only [detMax, calls, elimCalls, hP, Pi.add_apply, Pi.smul_apply, smul_eq_mul, le_refl] <;>
        generalize (detMax (k + 2)) = D at * <;> nlinarith

/-- **C92** (upper bound).  A determinant of size `n` makes at most `13 n!` calls of any element operation and at most `5 n!`
multiplications, for every matrix and element type, also when it panics. -/
theorem C92_upper (t : Target) (k : Nat) (a : Mat T (k + 1) (k + 1)) (hW : 2 * k + 1 < t.W) :
    ∃ c : Op → Nat, CountsLe ((Elem.counting O).determinant t k a) (a.determinant t O k) c ∧
      c .mul ≤ 5 * (k + 1).factorial ∧ ∀ op, c op ≤ 13 * (k + 1).factorial := by
  refine ⟨detMax k, cost_detMax t k a hW, ?_, fun op => (detMax_le_clone k op).trans ?_⟩
  · match k with
    | 0 => decide
    | 1 => decide
    | 2 => decide
    | 3 => decide
    | k + 4 => have := detMax_mul (k + 4) (by omega); omega
  · match k with
    | 0 => decide
    | 1 => decide
    | 2 => decide
    | 3 => decide
    | k + 4 => have := detMax_clone (k + 4) (by omega); omega

/-- The calls of the determinant of a zero matrix of size `k + 1`. -/
def zeroCalls : Nat → Op → Nat
  | 0 => calls (clone := 1)
  | 1 => calls (clone := 4) (mul := 2) (sub := 1)
  | 2 => calls (clone := 18) (mul := 12) (add := 2) (sub := 3)
  | k + 3 => (k + 4) • (zeroCalls (k + 2) + calls (clone := (k + 3) * (k + 3)) (one := 1) (mul := 1)) +
      calls (clone := (k + 4) * (k + 4) + (k + 4)) (zero := 1) (add := k + 4) (mul := k + 4) (neg := (k + 4) / 2) (isZero := 1)

theorem cost_zero (t : Target) (k : Nat) (a : Mat T (k + 1) (k + 1)) (hW : 2 * k + 1 < t.W)
    (hz : ∀ i j, O.isZero (a.get i j) = true) :
    Counts ((Elem.counting O).determinant t k a) (a.determinant t O k) (zeroCalls k) := by
  induction k with
  | zero => exact cost_idx t a 0 0
  | succ k ih =>
    match k, ih with
    | 0, _ => exact cost_det2 t a
    | 1, _ => exact cost_det3 t a
    | k + 2, ih =>
      unfold Elem.determinant Mat.determinant Elem.detGen Mat.detGen
      rw [Mat.clone_ok]
      apply CountsIf.congr
      · apply CountsIf.skip (cost_clone' t a)
        have hi : a.index (0, 0) = .ok (a.get 0 0) := Mat.index_ok _ (Nat.succ_pos _) (Nat.succ_pos _)
        have h1 : Mat.elimAll O (List.range (k + 3 + 1)) a = .ok none := by
          rw [List.range_succ_eq_map, Mat.elimAll, show k + 3 + 1 - (0 + 1) = k + 3 by omega, List.range'_succ, Mat.elimCol, hi]
          simp [hz]
        have h2 : Counts ((Elem.counting O).elimAll (List.range (k + 3 + 1)) a) (.ok none) (one1 .isZero) := by
          rw [List.range_succ_eq_map, Elem.elimAll, show k + 3 + 1 - (0 + 1) = k + 3 by omega, List.range'_succ, Elem.elimCol, hi]
          apply CountsIf.congr
          · apply CountsIf.skip (v := none)
            · apply CountsIf.skip (CountsIf.lift _)
              mstep
              rw [hz, if_pos rfl]
              exact CountsIf.pure none
            · exact CountsIf.pure none
          · counts
        apply CountsIf.bind' (P := fun _ => True) (c1 := one1 .isZero)
        · rw [h1]; exact h2
        · intro o ho
          cases h1.symm.trans ho
          exact cost_expand (q := True) _ _ a (zeroCalls (k + 2) + calls (clone := (k + 3) * (k + 3)) (one := 1) (mul := 1))
            fun i hi => (cost_cofGen (q := True) t _ _ (zeroCalls (k + 2)) a ⟨i, hi⟩ 0 (by omega) fun m hm => ih m (by omega) (by
              have hm' := minor_eq t a ⟨i, hi⟩ 0 (by omega)
              cases hm.symm.trans hm'
              intro x y
              rw [Mat.get_ofMatrix]
              exact hz _ _)).congr (by counts)
        · intro _ _ _ _ _; trivial
      · simp only [zeroCalls]
        counts

/-- **C92** (lower bound).  The determinant of a zero matrix of size `n ≥ 3` makes at least `2 n!` multiplications: the expansion
along the first column tests no entry for zero before it descends. -/
theorem C92_zero (t : Target) (k : Nat) (hk : 2 ≤ k) (a : Mat T (k + 1) (k + 1)) (hW : 2 * k + 1 < t.W)
    (hz : ∀ i j, O.isZero (a.get i j) = true) :
    ∃ c : Op → Nat, Counts ((Elem.counting O).determinant t k a) (a.determinant t O k) c ∧ 2 * (k + 1).factorial ≤ c .mul := by
  refine ⟨zeroCalls k, cost_zero t k a hW hz, ?_⟩
  clear hW hz a
  induction k, hk using Nat.le_induction with
  | base => decide
  | succ k hk ih =>
    obtain ⟨j, rfl⟩ : ∃ j, k = j + 2 := ⟨k - 2, by omega⟩
    rw [Nat.factorial_succ]
    have e : zeroCalls (j + 2 + 1) .mul = (j + 4) * (zeroCalls (j + 2) .mul + 2) := by
      simp only [zeroCalls, calls, Pi.add_apply, Pi.smul_apply, smul_eq_mul]; ring
    rw [e]
    generalize zeroCalls (j + 2) .mul = D at *
    generalize (j + 2 + 1).factorial = F at *
    nlinarith

/-! ### The hypotheses can be met -/

/-- A 2x3 times a 3x4 matrix of integers: 24 multiplications; by reference 24 clones instead of 48. -/
example (a : Mat Int 2 3) (b : Mat Int 3 4) :
    Counts ((Elem.counting Ops.int).mulVV ⟨true, true, 2 ^ 64⟩ a b) (a.mulVV ⟨true, true, 2 ^ 64⟩ Ops.int b)
      (calls (clone := 48) (zero := 8) (add := 24) (mul := 24)) ∧
    Counts ((Elem.counting Ops.int).mulRR ⟨true, true, 2 ^ 64⟩ a b) (a.mulRR ⟨true, true, 2 ^ 64⟩ Ops.int b)
      (calls (clone := 24) (zero := 8) (add := 24) (mul := 24)) :=
  ⟨C91_mul _ a b (by decide) (by decide) (by decide), C91_mul_ref _ a b (by decide) (by decide) (by decide)⟩

/-- A determinant of size 5: at most 600 multiplications. -/
example (a : Mat Int 5 5) : ∃ c : Op → Nat,
    CountsLe ((Elem.counting Ops.int).determinant ⟨true, true, 2 ^ 64⟩ 4 a) (a.determinant ⟨true, true, 2 ^ 64⟩ Ops.int 4) c ∧
      c .mul ≤ 5 * (4 + 1).factorial ∧ ∀ op, c op ≤ 13 * (4 + 1).factorial :=
  C92_upper _ 4 a (by decide)

end Rowcol
