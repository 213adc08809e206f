import Verif.Props.Effects

/-! # C90: effects of the determinant, the cofactors and the inverse, at every size

As in `Verif/Props/Effects.lean`: equations between programs, for arbitrary element operations. -/

namespace Rowcol

variable {m : Type → Type} [RustM m] {T : Type} {l n r c : Nat} (E : Elem m T)

namespace Spec

/-- A square table. -/
abbrev Table (n : Nat) (T : Type) := Fin n → Fin n → T

/-- The table with entry `(i, j)` replaced. -/
def setAt (M : Table n T) (i j : Fin n) (x : T) : Table n T := fun p q => if p = i ∧ q = j then x else M p q

/-- Row `j` minus `d` times row `i`, from left to right; each entry is taken when it is needed. -/
def subtractRow (i j : Fin n) (d : T) (M : Table n T) : m (Table n T) :=
  (List.finRange n).foldlM (fun M k => do
    let x ← E.clone (M j k)
    let y ← E.clone (M i k)
    let d ← E.clone d
    let p ← E.mul y d
    let z ← E.sub x p
    pure (setAt M j k z)) M

/-- Clear the entries `(j, i)`, in the given order of the pairs `(i, j)`; `none` as soon as a pivot is zero. -/
def clearEntries : List (Fin n × Fin n) → Table n T → m (Option (Table n T))
  | [], M => pure (some M)
  | (i, j) :: ps, M => do
    if ← E.isZero (M i i) then pure none
    else do
      let x ← E.clone (M j i)
      let y ← E.clone (M i i)
      let d ← E.div x y
      let M ← subtractRow E i j d M
      clearEntries ps M

/-- The pairs `i < j`, by columns `i`. -/
def belowDiagonal (n : Nat) : List (Fin n × Fin n) :=
  (List.finRange n).flatMap fun i => ((List.finRange n).filter fun j => i < j).map fun j => (i, j)

/-- Gauss-Jordan elimination of a table and a second table: for each column, divide the row by the pivot (a multiplication with
the reciprocal), then subtract its multiples from all other rows; `none` as soon as a pivot is zero. -/
def gaussJordan : List (Fin n) → Table n T → Table n T → m (Option (Table n T))
  | [], _, N => pure (some N)
  | i :: is, M, N => do
    let d ← E.clone (M i i)
    if ← E.isZero d then pure none
    else do
      let o ← E.one
      let rcp ← E.div o d
      let (M, N) ← (List.finRange n).foldlM (fun (s : Table n T × Table n T) j => do
        let x ← E.clone (s.1 i j)
        let q ← E.clone rcp
        let x ← E.mul x q
        let y ← E.clone (s.2 i j)
        let q ← E.clone rcp
        let y ← E.mul y q
        pure (setAt s.1 i j x, setAt s.2 i j y)) (M, N)
      let (M, N) ← ((List.finRange n).filter (· ≠ i)).foldlM (fun (s : Table n T × Table n T) j => do
        let a ← E.clone (s.1 j i)
        (List.finRange n).foldlM (fun (s : Table n T × Table n T) k => do
          let x ← E.clone (s.1 j k)
          let y ← E.clone (s.1 i k)
          let q ← E.clone a
          let p ← E.mul y q
          let x ← E.sub x p
          let u ← E.clone (s.2 j k)
          let v ← E.clone (s.2 i k)
          let q ← E.clone a
          let p ← E.mul v q
          let u ← E.sub u p
          pure (setAt s.1 j k x, setAt s.2 j k u)) s) (M, N)
      gaussJordan is M N

end Spec
open Spec

theorem elem_get (a : Mat T r c) (i : Fin r) (j : Fin c) : E.get a i j = E.clone (a.get i j) := by
  simp only [Elem.get, Mat.index_ok a i.isLt j.isLt, liftRes_ok, pure_bind, Fin.eta]

theorem get_put_fin (a : Mat T n n) (i j : Fin n) (x : T) : (a.put i j x).get = setAt a.get i j x := by
  funext p q
  rw [Mat.get_put a i.isLt]
  simp [setAt, Fin.ext_iff]

theorem map_foldlM' {α σ τ : Type} (φ : σ → τ) (f : σ → α → m σ) (g : τ → α → m τ) (l : List α)
    (h : ∀ s, ∀ x ∈ l, φ <$> f s x = g (φ s) x) (s : σ) : φ <$> l.foldlM f s = l.foldlM g (φ s) := by
  induction l generalizing s with
  | nil => simp
  | cons x l ih =>
    simp only [List.foldlM_cons, map_bind]
    rw [← h s x (by simp), bind_map_left]
    exact bind_congr fun s' => ih (fun s y hy => h s y (by simp [hy])) s'

theorem map_bind_of {σ τ α : Type} (φ : σ → τ) (x : m σ) (y : m τ) (h : φ <$> x = y) (k : τ → m α) :
    (x >>= fun s => k (φ s)) = y >>= k := by rw [← h, bind_map_left]

theorem map_elimRow (mat : Mat T n n) (i j : Fin n) (d : T) :
    Mat.get <$> E.elimRow mat i j d = subtractRow E i j d mat.get := by
  rw [Elem.elimRow, ← List.map_coe_finRange_eq_range, List.foldlM_map, subtractRow]
  refine map_foldlM' Mat.get _ _ _ (fun s k _ => ?_) mat
  simp only [elem_get, map_bind, Mat.indexSet_ok _ j.isLt k.isLt, liftRes_ok, map_pure, get_put_fin]

theorem clearEntries_append (ps qs : List (Fin n × Fin n)) (M : Table n T) :
    clearEntries E (ps ++ qs) M = (do
      match ← clearEntries E ps M with
      | none => pure none
      | some M => clearEntries E qs M) := by
  induction ps generalizing M with
  | nil => simp [clearEntries]
  | cons p ps ih =>
    obtain ⟨i, j⟩ := p
    simp only [List.cons_append, clearEntries, bind_assoc]
    refine bind_congr fun b => ?_
    cases b
    · simp only [Bool.false_eq_true, if_false, bind_assoc, ih]
    · simp

theorem elimCol_eq (i : Fin n) (js : List (Fin n)) (mat : Mat T n n) :
    Option.map Mat.get <$> E.elimCol i (js.map Fin.val) mat = clearEntries E (js.map fun j => (i, j)) mat.get := by
  induction js generalizing mat with
  | nil => simp [Elem.elimCol, clearEntries]
  | cons j js ih =>
    simp only [List.map_cons, Elem.elimCol, clearEntries, Mat.index_ok mat i.isLt i.isLt, liftRes_ok, pure_bind, map_bind, Fin.eta]
    refine bind_congr fun b => ?_
    cases b
    · simp only [Bool.false_eq_true, if_false, map_bind, elem_get]
      refine bind_congr fun x => bind_congr fun y => bind_congr fun d => ?_
      rw [← map_elimRow, bind_map_left]
      exact bind_congr fun mat' => ih mat'
    · simp

theorem range'_eq (i : Fin n) :
    List.range' (i.val + 1) (n - (i.val + 1)) = ((List.finRange n).filter fun j => i < j).map Fin.val := by
  have h : ((List.finRange n).filter fun j => i < j).map Fin.val = (List.range n).filter fun j => i.val < j := by
    rw [← List.map_coe_finRange_eq_range, List.filter_map]; rfl
  rw [h]
  apply List.Perm.eq_of_pairwise (le := (· < ·))
  · intro a b _ _ h1 h2; omega
  · exact List.pairwise_lt_range'
  · exact (List.pairwise_lt_range).filter _
  · refine (List.perm_ext_iff_of_nodup (List.nodup_range') (List.nodup_range.filter _)).2 fun a => ?_
    simp only [List.mem_range'_1, List.mem_filter, List.mem_range, decide_eq_true_eq]
    omega

theorem elimAll_eq (is : List (Fin n)) (mat : Mat T n n) :
    Option.map Mat.get <$> E.elimAll (is.map Fin.val) mat =
      clearEntries E (is.flatMap fun i => ((List.finRange n).filter fun j => i < j).map fun j => (i, j)) mat.get := by
  induction is generalizing mat with
  | nil => simp [Elem.elimAll, clearEntries]
  | cons i is ih =>
    simp only [List.map_cons, Elem.elimAll, List.flatMap_cons]
    rw [clearEntries_append, ← elimCol_eq, bind_map_left, range'_eq, map_bind]
    refine bind_congr fun o => ?_
    cases o with
    | none => simp
    | some mat' => exact ih mat'

/-- **C90** (determinant from 4x4): the matrix is cloned; the entries below the diagonal are cleared one by one, by columns, each
after a test of its pivot; the diagonal is multiplied up.  If a pivot is zero, the work is thrown away and the determinant is
computed from the first column of the original, with a cofactor for each entry, zero or not. -/
theorem C90_determinant (t : Target) (k : Nat) (a : Mat T (k + 4) (k + 4)) :
    E.determinant t (k + 3) a = (do
      let mat ← a.clone t E.clone
      match ← clearEntries E (belowDiagonal (k + 4)) mat.get with
      | none => do
        let z ← E.zero
        (List.finRange (k + 4)).foldlM (fun acc i => do
          let x ← E.clone (a.get i 0)
          let y ← E.cofactor t (k + 2) a (i, 0)
          let p ← E.mul x y
          E.add acc p) z
      | some M => do
        let o ← E.one
        (List.finRange (k + 4)).foldlM (fun acc i => do
          let x ← E.clone (M i i)
          E.mul acc x) o) := by
  rw [Elem.determinant, Elem.detGen]
  refine bind_congr fun mat => ?_
  rw [belowDiagonal, ← elimAll_eq, List.map_coe_finRange_eq_range, bind_map_left]
  refine bind_congr fun o => ?_
  cases o with
  | none =>
    simp only [Option.map_none]
    refine bind_congr fun z => ?_
    rw [← List.map_coe_finRange_eq_range, List.foldlM_map]
    have : ∀ i : Fin (k + 4), E.get a i 0 = E.clone (a.get i 0) := fun i => elem_get E a i 0
    simp only [this]
    rfl
  | some mat' =>
    simp only [Option.map_some]
    refine bind_congr fun z => ?_
    rw [← List.map_coe_finRange_eq_range, List.foldlM_map]
    simp only [elem_get]

theorem map_gjLoop (is : List (Fin n)) (s : Mat T n n × Mat T n n) :
    Option.map (fun s => s.2.get) <$> E.gjLoop (is.map Fin.val) s = gaussJordan E is s.1.get s.2.get := by
  let φ : Mat T n n × Mat T n n → Table n T × Table n T := fun s => (s.1.get, s.2.get)
  induction is generalizing s with
  | nil => simp [Elem.gjLoop, gaussJordan]
  | cons i is ih =>
    simp only [List.map_cons, Elem.gjLoop, gaussJordan, elem_get, map_bind]
    refine bind_congr fun d => bind_congr fun b => ?_
    cases b
    · simp only [Bool.false_eq_true, if_false, map_bind]
      refine bind_congr fun o => bind_congr fun rcp => ?_
      have h1 : φ <$> E.gjScale i rcp s = (List.finRange n).foldlM (fun (s : Table n T × Table n T) j => do
          let x ← E.clone (s.1 i j)
          let q ← E.clone rcp
          let x ← E.mul x q
          let y ← E.clone (s.2 i j)
          let q ← E.clone rcp
          let y ← E.mul y q
          pure (setAt s.1 i j x, setAt s.2 i j y)) (φ s) := by
        rw [Elem.gjScale, ← List.map_coe_finRange_eq_range, List.foldlM_map]
        refine map_foldlM' φ _ _ _ (fun s j _ => ?_) s
        simp only [elem_get, map_bind, Mat.indexSet_ok _ i.isLt j.isLt, liftRes_ok, pure_bind, map_pure, get_put_fin, φ]
      rw [← h1, bind_map_left]
      refine bind_congr fun s' => ?_
      have h2 : φ <$> E.gjClear i s' = ((List.finRange n).filter (· ≠ i)).foldlM (fun (s : Table n T × Table n T) j => do
          let a ← E.clone (s.1 j i)
          (List.finRange n).foldlM (fun (s : Table n T × Table n T) k => do
            let x ← E.clone (s.1 j k)
            let y ← E.clone (s.1 i k)
            let q ← E.clone a
            let p ← E.mul y q
            let x ← E.sub x p
            let u ← E.clone (s.2 j k)
            let v ← E.clone (s.2 i k)
            let q ← E.clone a
            let p ← E.mul v q
            let u ← E.sub u p
            pure (setAt s.1 j k x, setAt s.2 j k u)) s) (φ s') := by
        rw [Elem.gjClear, ← List.map_coe_finRange_eq_range, List.foldlM_map]
        have hf : ∀ (js : List (Fin n)) (s : Mat T n n × Mat T n n),
            js.foldlM (fun (s : Mat T n n × Mat T n n) (j : Fin n) => (do
              if i.val = j.val then pure s
              else do
                let a ← E.get s.1 j i
                E.gjRow i j a s : m _)) s =
            (js.filter (· ≠ i)).foldlM (fun (s : Mat T n n × Mat T n n) (j : Fin n) => do
                let a ← E.get s.1 j i
                E.gjRow i j a s) s := by
          intro js
          induction js with
          | nil => simp
          | cons j js ihj =>
            intro s
            by_cases hj : j = i
            · subst hj; simp [ihj]
            · have : ¬ i.val = j.val := fun h => hj (Fin.ext h.symm)
              simp [hj, this, ihj]
        rw [hf]
        refine map_foldlM' φ _ _ _ (fun s j _ => ?_) s'
        simp only [elem_get, map_bind]
        refine bind_congr fun a => ?_
        rw [Elem.gjRow, ← List.map_coe_finRange_eq_range, List.foldlM_map]
        refine map_foldlM' φ _ _ _ (fun s k _ => ?_) s
        simp only [elem_get, map_bind, Mat.indexSet_ok _ j.isLt k.isLt, liftRes_ok, pure_bind, map_pure, get_put_fin, φ]
      show _ = (do let (M, N) ← _; gaussJordan E is M N)
      rw [← h2, bind_map_left]
      exact bind_congr fun s'' => ih s''
    · simp

/-- **C90** (inverse from 4x4): the matrix is cloned, an identity matrix made, and both go through Gauss-Jordan elimination. -/
theorem C90_inverse (t : Target) (k : Nat) (a : Mat T (k + 4) (k + 4)) :
    Option.map Mat.get <$> E.inverse t (k + 3) a = (do
      let mat ← a.clone t E.clone
      let inv ← E.identity t (k + 4)
      gaussJordan E (List.finRange (k + 4)) mat.get inv.get) := by
  rw [Elem.inverse, Elem.invGen, map_bind]
  refine bind_congr fun mat => ?_
  rw [map_bind]
  refine bind_congr fun inv => ?_
  rw [← map_gjLoop E _ (mat, inv), List.map_coe_finRange_eq_range, map_bind]
  rw [← bind_pure_comp]
  refine bind_congr fun o => ?_
  cases o <;> simp

/-- **C90** (cofactor of a 2x2 matrix): the sign, then the opposite entry. -/
theorem C90_cofactor2 (t : Target) (hW : 2 < t.W) (a : Mat T 2 2) (i j : Fin 2) :
    E.cofactor t 0 a (i, j) = (do
      let sgn ← (if i = j then E.one else do
        let o ← E.one
        E.neg o)
      let x ← E.clone (a.get i.rev j.rev)
      E.mul sgn x) := by
  have hu : uadd t i j = .ok (i.val + j.val) := by
    have := i.isLt; have := j.isLt
    simp only [uadd]; rw [if_pos (by omega)]
  have hs : ∀ i : Fin 2, usub t 1 i = .ok i.rev.val := by
    intro i
    have := i.isLt
    simp only [usub, Fin.val_rev]; rw [if_pos (by omega)]; congr 1; omega
  simp only [Elem.cofactor, Elem.cof2, Elem.cofSign, hu, hs, liftRes_ok, pure_bind, elem_get]
  have : ((i.val + j.val) % 2 = 0) = (i = j) := by fin_cases i <;> fin_cases j <;> simp
  simp only [this]

/-- **C90** (cofactor of a 3x3 matrix): the sign comes before the minor. -/
theorem C90_cofactor3 (t : Target) (hW : 4 < t.W) (a : Mat T 3 3) (i j : Fin 3) :
    E.cofactor t 1 a (i, j) = (do
      let sgn ← (if (i.val + j.val) % 2 = 0 then E.one else do
        let o ← E.one
        E.neg o)
      let arr ← E.minor t a i j
      let d ← E.determinant t 1 arr
      E.mul sgn d) := by
  have hu : uadd t i j = .ok (i.val + j.val) := by
    have := i.isLt; have := j.isLt
    simp only [uadd]; rw [if_pos (by omega)]
  rw [Elem.cofactor, Elem.cof3, if_pos ⟨i.isLt, j.isLt⟩]
  simp only [Elem.cofSign, hu, liftRes_ok, pure_bind, Elem.determinant]

/-- **C90** (cofactor, bad index, from 3x3): a panic before any call. -/
theorem C90_cofactor_bad (t : Target) (k : Nat) (a : Mat T (k + 3) (k + 3)) (i j : Nat) (h : k + 3 ≤ i ∨ k + 3 ≤ j) :
    E.cofactor t (k + 1) a (i, j) = fault .panic := by
  cases k with
  | zero => rw [Elem.cofactor, Elem.cof3, if_neg (by simp; omega)]
  | succ k => rw [Elem.cofactor, Elem.cofGen, if_neg (by simp; omega)]

theorem Mat.new_ok (t : Target) (rows : Vec (Vec T c) r) : Mat.new t rows = .ok ⟨rows⟩ := by
  unfold Mat.new
  rw [Vec.collect_pure t r _ rows.length_eq]
  rfl

theorem divScalar_toLists (t : Target) (a : Mat T r c) (s : T) :
    Mat.toLists <$> E.divScalar t a s = a.toLists.mapM fun row => (do
      let s ← E.clone s
      row.mapM fun e => do
        let s ← E.clone s
        E.div e s) := by
  rw [C90_div_scalar, Mat.toLists, Vec.toList_eq a.rows, List.map_map, List.mapM_map]
  apply mapM_congr
  intro i _
  refine bind_congr fun s => ?_
  simp only [Function.comp_def]
  rw [Vec.toList_eq, List.mapM_map]
  rfl

/-- **C90** (inverse of a 1x1 matrix). -/
theorem C90_inverse1 (t : Target) (a : Mat T 1 1) :
    Option.map Mat.toLists <$> E.inverse t 0 a = (do
      let d ← E.clone (a.get 0 0)
      if ← E.isZero d then pure none
      else do
        let o ← E.one
        let x ← E.div o d
        pure (some [[x]])) := by
  have h : E.idx t a 0 0 = E.clone (a.get 0 0) := by
    simp [Elem.idx, Mat.idxStatic_ok t a Nat.zero_lt_one Nat.zero_lt_one, liftRes_ok]
  simp only [Elem.inverse, Elem.inv1, h, map_bind]
  refine bind_congr fun d => bind_congr fun b => ?_
  cases b
  · simp only [Bool.false_eq_true, if_false, map_bind]
    refine bind_congr fun o => bind_congr fun x => ?_
    rw [Mat.new_ok]; simp [liftRes_ok, Mat.toLists]
  · simp

/-- **C90** (inverse of a 2x2 matrix): the determinant, the adjugate, then the divisions. -/
theorem C90_inverse2 (t : Target) (a : Mat T 2 2) :
    Option.map Mat.toLists <$> E.inverse t 1 a = (do
      let det ← E.determinant t 1 a
      if ← E.isZero det then pure none
      else do
        let x ← E.clone (a.get 1 1)
        let y ← E.clone (a.get 0 1)
        let y ← E.neg y
        let z ← E.clone (a.get 1 0)
        let z ← E.neg z
        let w ← E.clone (a.get 0 0)
        let rows ← [[x, y], [z, w]].mapM fun row => (do
          let s ← E.clone det
          row.mapM fun e => do
            let s ← E.clone s
            E.div e s)
        pure (some rows)) := by
  have h : ∀ i j : Fin 2, E.idx t a i j = E.clone (a.get i j) := by
    intro i j
    simp only [Elem.idx, Mat.idxStatic_ok t a i.isLt j.isLt, liftRes_ok, pure_bind, Fin.eta]
  simp only [Elem.inverse, Elem.inv2, Elem.determinant, map_bind, show E.idx t a 0 0 = _ from h 0 0, show E.idx t a 1 1 = _ from h 1 1,
    show E.idx t a 1 0 = _ from h 1 0, show E.idx t a 0 1 = _ from h 0 1]
  refine bind_congr fun d => bind_congr fun b => ?_
  cases b
  · simp only [Bool.false_eq_true, if_false, map_bind]
    refine bind_congr fun x => bind_congr fun y => bind_congr fun y => bind_congr fun z => bind_congr fun z => bind_congr fun w => ?_
    rw [Mat.new_ok, liftRes_ok, pure_bind]
    have := divScalar_toLists E t (⟨⟨[⟨[x, y], rfl⟩, ⟨[z, w], rfl⟩], rfl⟩⟩ : Mat T 2 2) d
    rw [Mat.toLists] at this
    simp only [List.map_cons, List.map_nil] at this
    rw [← this, bind_map_left]
    refine bind_congr fun s => ?_
    simp
  · simp

/-- **C90** (inverse of a 3x3 matrix): the determinant, the nine 2x2 minors of the adjugate in row-major order, then the
divisions. -/
theorem C90_inverse3 (t : Target) (a : Mat T 3 3) :
    Option.map Mat.toLists <$> E.inverse t 2 a = (do
      let det ← E.determinant t 2 a
      if ← E.isZero det then pure none
      else do
        let ms : Fin 3 → Fin 3 → Fin 3 → Fin 3 → Fin 3 → Fin 3 → Fin 3 → Fin 3 → m T := fun i j k l p q u v => do
          let x ← E.clone (a.get i j)
          let y ← E.clone (a.get k l)
          let x ← E.mul x y
          let z ← E.clone (a.get p q)
          let w ← E.clone (a.get u v)
          let z ← E.mul z w
          E.sub x z
        let x00 ← ms 1 1 2 2 1 2 2 1
        let x01 ← ms 0 2 2 1 0 1 2 2
        let x02 ← ms 0 1 1 2 0 2 1 1
        let x10 ← ms 1 2 2 0 1 0 2 2
        let x11 ← ms 0 0 2 2 0 2 2 0
        let x12 ← ms 0 2 1 0 0 0 1 2
        let x20 ← ms 1 0 2 1 1 1 2 0
        let x21 ← ms 0 1 2 0 0 0 2 1
        let x22 ← ms 0 0 1 1 0 1 1 0
        let rows ← [[x00, x01, x02], [x10, x11, x12], [x20, x21, x22]].mapM fun row => (do
          let s ← E.clone det
          row.mapM fun e => do
            let s ← E.clone s
            E.div e s)
        pure (some rows)) := by
  have h : ∀ i j : Fin 3, E.idx t a i j = E.clone (a.get i j) := by
    intro i j
    simp only [Elem.idx, Mat.idxStatic_ok t a i.isLt j.isLt, liftRes_ok, pure_bind, Fin.eta]
  have h00 := h 0 0; have h01 := h 0 1; have h02 := h 0 2; have h10 := h 1 0; have h11 := h 1 1
  have h12 := h 1 2; have h20 := h 2 0; have h21 := h 2 1; have h22 := h 2 2
  simp only [Fin.isValue, Fin.val_zero, Fin.val_one, Fin.val_two] at h00 h01 h02 h10 h11 h12 h20 h21 h22
  simp only [Elem.inverse, Elem.inv3, Elem.determinant, map_bind]
  refine bind_congr fun d => bind_congr fun b => ?_
  cases b
  · simp only [Bool.false_eq_true, if_false, map_bind, Elem.ms, h00, h01, h02, h10, h11, h12, h20, h21, h22]
    refine bind_congr fun x00 => bind_congr fun x01 => bind_congr fun x02 => bind_congr fun x10 => bind_congr fun x11 =>
      bind_congr fun x12 => bind_congr fun x20 => bind_congr fun x21 => bind_congr fun x22 => ?_
    rw [Mat.new_ok, liftRes_ok, pure_bind]
    have := divScalar_toLists E t (⟨⟨[⟨[x00, x01, x02], rfl⟩, ⟨[x10, x11, x12], rfl⟩, ⟨[x20, x21, x22], rfl⟩], rfl⟩⟩ : Mat T 3 3) d
    rw [Mat.toLists] at this
    simp only [List.map_cons, List.map_nil] at this
    rw [← this, bind_map_left]
    refine bind_congr fun s => ?_
    simp
  · simp

/-! ### The hypotheses can be met -/

example : belowDiagonal 4 = [(0, 1), (0, 2), (0, 3), (1, 2), (1, 3), (2, 3)] := by decide

example (E : Elem (StM (List Nat)) Int) (a : Mat Int 2 2) :
    E.cofactor ⟨true, true, 2 ^ 64⟩ 0 a ((0 : Fin 2), (1 : Fin 2)) = (do
      let o ← E.one
      let sgn ← E.neg o
      let x ← E.clone (a.get 1 0)
      E.mul sgn x) := by
  have := C90_cofactor2 E ⟨true, true, 2 ^ 64⟩ (by decide) a 0 1
  rw [if_neg (by decide), bind_assoc] at this
  exact this

example (E : Elem (StM (List Nat)) Int) (a : Mat Int 5 5) :
    E.cofactor ⟨true, true, 2 ^ 64⟩ 3 a (5, 0) = fault .panic := C90_cofactor_bad E _ 2 a 5 0 (by decide)

end Rowcol
