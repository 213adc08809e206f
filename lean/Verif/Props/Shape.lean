import Verif.Props.Products
import Verif.Props.Collect
import Verif.Lemmas.Order
import Mathlib.Algebra.BigOperators.Group.Finset.Sigma
import Verif.Complex
import Mathlib.LinearAlgebra.Matrix.ConjTranspose

/-! # C26 (transposes), C36-C38, C47, C66: diagonal, map/all/any, transposition, conjugation, approximate equality -/

namespace Rowcol
open Spec

variable {m : Type → Type} [RustM m] {T U V : Type} {n r c l : Nat}

/-! ## C36 -/

theorem run_mapM_range {S α : Type} (f : Nat → StM S α) (st : Nat → S) (x : Nat → α) (n : Nat)
    (h : ∀ i < n, (f i).run (st i) = (.ok (x i), st (i + 1))) :
    ((List.range n).mapM f).run (st 0) = (.ok ((List.range n).map x), st n) := by
  induction n with
  | zero => rfl
  | succ n ih =>
    rw [List.range_succ, List.mapM_append, StM.run_bind_ok (ih fun i hi => h i (by omega))]
    have h1 : ([n].mapM f).run (st n) = (.ok [x n], st (n + 1)) := by
      rw [List.mapM_cons, StM.run_bind_ok (h n (by omega))]; rfl
    rw [StM.run_bind_ok h1]
    simp

theorem diag_run (zero : T) (es : List T) (r c : Nat) (hes : es.length = Nat.min r c) (d : Nat → T)
    (hd : ∀ k, k < Nat.min r c → es[k]? = some (d k)) :
    ((List.range r).mapM (fun i => (List.range c).mapM fun j => Mat.diagStep zero (i, j))).run es =
      (.ok ((List.range r).map fun i => (List.range c).map fun j => if i = j then d i else zero), []) := by
  have hmin : Nat.min r c = min r c := rfl
  have row : ∀ i < r, ((List.range c).mapM (fun j => Mat.diagStep zero (i, j))).run (es.drop (min i c)) =
      (.ok ((List.range c).map fun j => if i = j then d i else zero), es.drop (min (i + 1) c)) := by
    intro i hi
    have := run_mapM_range (fun j => Mat.diagStep zero (i, j)) (fun j => es.drop (min i c + if i < j then 1 else 0))
      (fun j => if i = j then d i else zero) c (by
        intro j hj
        by_cases hij : i = j
        · subst hij
          have hlt : i < es.length := by rw [hes, hmin]; omega
          have e1 : es.drop (min i c) = d i :: es.drop (i + 1) := by
            rw [show min i c = i by omega, List.drop_eq_getElem_cons hlt]
            have := hd i (by rw [hmin]; omega)
            rw [List.getElem?_eq_getElem hlt] at this
            simp only [Option.some.injEq] at this
            rw [this]
          simp only [Nat.lt_irrefl, if_false, Nat.add_zero, if_true, Nat.lt_succ_self, Mat.diagStep]
          rw [StM.run_bind_ok (StM.run_mget _), e1]
          simp only
          rw [StM.run_bind_ok (StM.run_set _ _), StM.run_pure, show min i c + 1 = i + 1 by omega]
        · have h1 : (if i < j then 1 else 0 : Nat) = if i < j + 1 then 1 else 0 := by
            by_cases h : i < j
            · rw [if_pos h, if_pos (by omega)]
            · rw [if_neg h, if_neg (by omega)]
          simp only [Mat.diagStep, hij, if_false, StM.run_pure, h1])
    simp only [Nat.not_lt_zero, if_false, Nat.add_zero] at this
    rw [this]
    congr 2
    by_cases h : i < c
    · rw [if_pos h]; omega
    · rw [if_neg h]; omega
  have := run_mapM_range (fun i => (List.range c).mapM fun j => Mat.diagStep zero (i, j)) (fun i => es.drop (min i c))
    (fun i => (List.range c).map fun j => if i = j then d i else zero) r row
  simp only [Nat.zero_min, List.drop_zero] at this
  rw [this]
  congr 1
  exact List.drop_eq_nil_of_le (by rw [hes, hmin])

theorem Mat.toLists_ofFn (f : Fin r → Fin c → T) :
    (Mat.ofFn f).toLists = (List.finRange r).map fun i => (List.finRange c).map (f i) := by
  unfold Mat.toLists Mat.ofFn
  rw [Vec.toList_ofFn, List.map_map]
  apply List.map_congr_left; intro i _
  simp only [Function.comp, Vec.toList_ofFn]

/-- C36: `diag` puts the given elements on the diagonal and zero elsewhere, for every shape; it uses all of them
and does not panic. -/
theorem C36_diag (t : Target) (zero : T) (elems : Vec T (Nat.min r c)) :
    ∃ a : Mat T r c, Mat.diag t zero elems = (.ok a, []) ∧
      (∀ i j, i.val ≠ j.val → a.get i j = zero) ∧
      ∀ (i : Fin r) (j : Fin c) (h : i.val = j.val),
        a.get i j = elems.get ⟨i, (Nat.lt_min).2 ⟨i.isLt, h ▸ j.isLt⟩⟩ := by
  let d : Nat → T := fun k => if h : k < Nat.min r c then elems.get ⟨k, h⟩ else zero
  have hd : ∀ k, k < Nat.min r c → elems.toList[k]? = some (d k) := by
    intro k hk
    rw [Vec.getElem_toList elems k hk]; simp only [d, hk, dite_true]
  refine ⟨Mat.ofFn fun i j => if i.val = j.val then d i else zero, ?_, ?_, ?_⟩
  · have h1 := C06_mat_generate t r c (Mat.diagStep zero)
    have h2 := diag_run zero elems.toList r c elems.length_eq d hd
    rw [← h1, StM.run_map] at h2
    unfold Mat.diag
    generalize hg : (Mat.generate t r c (Mat.diagStep zero) : StM (List T) (Mat T r c)).run elems.toList = q at h2 ⊢
    obtain ⟨q1, q2⟩ := q
    cases q1 with
    | error e => cases (Prod.mk.inj h2).1
    | ok a =>
      have h3 := Except.ok.inj (Prod.mk.inj h2).1
      have h4 := (Prod.mk.inj h2).2
      subst h4
      refine congrArg (fun b => (Except.ok b, ([] : List T))) (Mat.toLists_injective ?_)
      rw [h3, Mat.toLists_ofFn, Vec.range_eq r, List.map_map]
      apply List.map_congr_left; intro i _
      simp only [Function.comp]
      rw [Vec.range_eq c, List.map_map]; rfl
  · intro i j h; rw [Mat.get_ofFn, if_neg h]
  · intro i j h
    rw [Mat.get_ofFn, if_pos h]
    have : i.val < Nat.min r c := (Nat.lt_min).2 ⟨i.isLt, h ▸ j.isLt⟩
    simp only [d, this, dite_true]

example : Mat.diag (r := 2) (c := 3) ⟨true, true, 2 ^ 64⟩ 0 (⟨[7, 8], rfl⟩ : Vec Int 2) =
    (.ok ⟨⟨[⟨[7, 0, 0], rfl⟩, ⟨[0, 8, 0], rfl⟩], rfl⟩⟩, []) := rfl

/-! ## C37 -/

/-- C37, map: the closure is called once per entry in row-major order with the entry's index, the results have the
same shape (any effects). -/
theorem C37_map (t : Target) (f : Nat × Nat → T → m U) (a : Mat T r c) :
    Mat.toLists <$> a.map t f =
      (List.finRange r).mapM fun i => (List.finRange c).mapM fun j => f (i.val, j.val) (a.get i j) := by
  unfold Mat.map
  rw [Vec.zipIdx_eq a.rows, List.map_map]
  simp only [Function.comp_def, Vec.zipIdx_eq, List.map_map]
  exact Mat.collect_toLists t r c (List.finRange r) (fun _ => List.finRange c)
    (fun i j => f (i.val, j.val) (a.get i j)) (by simp) (by simp)

/-- C37, map with a closure that does not fail: entry `(i, j)` is `f((i, j), a[(i, j)])`. -/
theorem C37_map_ok (t : Target) (f : Nat × Nat → T → Res U) (g : Fin r → Fin c → U) (a : Mat T r c)
    (h : ∀ i j, f (i.val, j.val) (a.get i j) = .ok (g i j)) :
    ∃ b : Mat U r c, a.map t f = .ok b ∧ ∀ i j, b.get i j = g i j := by
  refine ⟨Mat.ofFn g, ?_, by simp⟩
  unfold Mat.map
  rw [Vec.zipIdx_eq a.rows, List.map_map]
  simp only [Function.comp_def, Vec.zipIdx_eq, List.map_map]
  exact Mat.collect_ok t (fun i j => f (i.val, j.val) (a.get i j)) g h

/-- The indexed entries of a matrix in row-major order. -/
def Spec.entries (a : Mat T r c) : List ((Nat × Nat) × T) :=
  (List.finRange r).flatMap fun i => (List.finRange c).map fun j => ((i.val, j.val), a.get i j)

theorem allM_append (p : T → m Bool) (l₁ l₂ : List T) :
    (l₁ ++ l₂).allM p = (do if ← l₁.allM p then l₂.allM p else pure false) := by
  induction l₁ with
  | nil => simp [List.allM]
  | cons x xs ih =>
    simp only [List.cons_append, List.allM, ih, bind_assoc]
    congr 1; funext b
    cases b <;> simp

theorem anyM_append (p : T → m Bool) (l₁ l₂ : List T) :
    (l₁ ++ l₂).anyM p = (do if ← l₁.anyM p then pure true else l₂.anyM p) := by
  induction l₁ with
  | nil => simp [List.anyM]
  | cons x xs ih =>
    simp only [List.cons_append, List.anyM, ih, bind_assoc]
    congr 1; funext b
    cases b <;> simp

theorem allM_map {α : Type} (p : T → m Bool) (f : α → T) (l : List α) : (l.map f).allM p = l.allM fun x => p (f x) := by
  induction l with
  | nil => rfl
  | cons x xs ih => simp only [List.map_cons, List.allM, ih]

theorem anyM_map {α : Type} (p : T → m Bool) (f : α → T) (l : List α) : (l.map f).anyM p = l.anyM fun x => p (f x) := by
  induction l with
  | nil => rfl
  | cons x xs ih => simp only [List.map_cons, List.anyM, ih]

theorem allM_flatMap {α : Type} (p : T → m Bool) (f : α → List T) (l : List α) :
    (l.flatMap f).allM p = l.allM fun x => (f x).allM p := by
  induction l with
  | nil => rfl
  | cons x xs ih =>
    rw [List.flatMap_cons, allM_append, ih]
    simp only [List.allM]
    congr 1; funext b; cases b <;> rfl

theorem anyM_flatMap {α : Type} (p : T → m Bool) (f : α → List T) (l : List α) :
    (l.flatMap f).anyM p = l.anyM fun x => (f x).anyM p := by
  induction l with
  | nil => rfl
  | cons x xs ih =>
    rw [List.flatMap_cons, anyM_append, ih]
    simp only [List.anyM]
    congr 1; funext b; cases b <;> rfl

theorem all_eq_entries (pred : Nat × Nat → T → m Bool) (a : Mat T r c) :
    a.all pred = (entries a).allM fun p => pred p.1 p.2 := by
  unfold Mat.all entries
  rw [allM_flatMap, Vec.zipIdx_eq a.rows, allM_map]
  simp only [Vec.zipIdx_eq, allM_map]; rfl

theorem any_eq_entries (pred : Nat × Nat → T → m Bool) (a : Mat T r c) :
    a.any pred = (entries a).anyM fun p => pred p.1 p.2 := by
  unfold Mat.any entries
  rw [anyM_flatMap, Vec.zipIdx_eq a.rows, anyM_map]
  simp only [Vec.zipIdx_eq, anyM_map]; rfl

theorem allM_run_true {S α : Type} (p : α → StM S Bool) {s s' : S} {xs : List α} {bs : List Bool}
    (h : Calls p s xs bs s') (hb : ∀ b ∈ bs, b = true) (ys : List α) :
    ((xs ++ ys).allM p).run s = (ys.allM p).run s' := by
  induction h with
  | nil s => rfl
  | @cons s i x s' is xs s'' h1 _ ih =>
    rw [List.cons_append, List.allM, StM.run_bind_ok h1]
    rw [hb x (by simp)]
    exact ih fun b hb' => hb b (by simp [hb'])

theorem anyM_run_false {S α : Type} (p : α → StM S Bool) {s s' : S} {xs : List α} {bs : List Bool}
    (h : Calls p s xs bs s') (hb : ∀ b ∈ bs, b = false) (ys : List α) :
    ((xs ++ ys).anyM p).run s = (ys.anyM p).run s' := by
  induction h with
  | nil s => rfl
  | @cons s i x s' is xs s'' h1 _ ih =>
    rw [List.cons_append, List.anyM, StM.run_bind_ok h1]
    rw [hb x (by simp)]
    exact ih fun b hb' => hb b (by simp [hb'])

/-- C37, all, stateful predicate: it is called on the indexed entries in row-major order; if all calls return `true`
the result is `true`; at the first `false` the result is `false` and no further call is made; a panic propagates. -/
theorem C37_all {S : Type} (pred : Nat × Nat → T → StM S Bool) (a : Mat T r c) (s s' : S) (bs : List Bool)
    (hb : ∀ b ∈ bs, b = true) :
    (Calls (fun p => pred p.1 p.2) s (entries a) bs s' → (a.all pred).run s = (.ok true, s')) ∧
    (∀ before p after s'', entries a = before ++ p :: after → Calls (fun p => pred p.1 p.2) s before bs s' →
      (pred p.1 p.2).run s' = (.ok false, s'') → (a.all pred).run s = (.ok false, s'')) ∧
    (∀ before p after s'' e, entries a = before ++ p :: after → Calls (fun p => pred p.1 p.2) s before bs s' →
      (pred p.1 p.2).run s' = (.error e, s'') → (a.all pred).run s = (.error e, s'')) := by
  rw [all_eq_entries]
  refine ⟨?_, ?_, ?_⟩
  · intro h
    have := allM_run_true _ h hb []
    rw [List.append_nil] at this
    rw [this]; rfl
  · intro before p after s'' he h hp
    rw [he, allM_run_true _ h hb, List.allM, StM.run_bind_ok hp]; rfl
  · intro before p after s'' e he h hp
    rw [he, allM_run_true _ h hb, List.allM, StM.run_bind_error hp]

/-- C37, any, stateful predicate: dual to `C37_all`. -/
theorem C37_any {S : Type} (pred : Nat × Nat → T → StM S Bool) (a : Mat T r c) (s s' : S) (bs : List Bool)
    (hb : ∀ b ∈ bs, b = false) :
    (Calls (fun p => pred p.1 p.2) s (entries a) bs s' → (a.any pred).run s = (.ok false, s')) ∧
    (∀ before p after s'', entries a = before ++ p :: after → Calls (fun p => pred p.1 p.2) s before bs s' →
      (pred p.1 p.2).run s' = (.ok true, s'') → (a.any pred).run s = (.ok true, s'')) ∧
    (∀ before p after s'' e, entries a = before ++ p :: after → Calls (fun p => pred p.1 p.2) s before bs s' →
      (pred p.1 p.2).run s' = (.error e, s'') → (a.any pred).run s = (.error e, s'')) := by
  rw [any_eq_entries]
  refine ⟨?_, ?_, ?_⟩
  · intro h
    have := anyM_run_false _ h hb []
    rw [List.append_nil] at this
    rw [this]; rfl
  · intro before p after s'' he h hp
    rw [he, anyM_run_false _ h hb, List.anyM, StM.run_bind_ok hp]; rfl
  · intro before p after s'' e he h hp
    rw [he, anyM_run_false _ h hb, List.anyM, StM.run_bind_error hp]

/-- C37 for pure predicates: conjunction and disjunction over all entries. -/
theorem C37_all_any_pure (p : Nat × Nat → T → Bool) (a : Mat T r c) :
    (∃ b, a.all (m := Res) (fun i x => .ok (p i x)) = .ok b ∧ (b = true ↔ ∀ i j, p (i.val, j.val) (a.get i j) = true)) ∧
    (∃ b, a.any (m := Res) (fun i x => .ok (p i x)) = .ok b ∧ (b = true ↔ ∃ i j, p (i.val, j.val) (a.get i j) = true)) := by
  rw [all_eq_entries, any_eq_entries]
  have h1 : ∀ l : List ((Nat × Nat) × T), l.allM (m := Res) (fun q => .ok (p q.1 q.2)) = .ok (l.all fun q => p q.1 q.2) := by
    intro l
    induction l with
    | nil => rfl
    | cons x xs ih =>
      simp only [List.allM, res_ok_bind, ih, List.all_cons]
      cases p x.1 x.2 <;> rfl
  have h2 : ∀ l : List ((Nat × Nat) × T), l.anyM (m := Res) (fun q => .ok (p q.1 q.2)) = .ok (l.any fun q => p q.1 q.2) := by
    intro l
    induction l with
    | nil => rfl
    | cons x xs ih =>
      simp only [List.anyM, res_ok_bind, ih, List.any_cons]
      cases p x.1 x.2 <;> rfl
  refine ⟨⟨_, h1 _, ?_⟩, ⟨_, h2 _, ?_⟩⟩
  · simp only [entries, List.all_flatMap, List.all_map, List.all_eq_true, List.mem_finRange, forall_const, Function.comp]
  · simp only [entries, List.any_flatMap, List.any_map, List.any_eq_true, List.mem_finRange, true_and, Function.comp]

/-- A predicate that logs its indices and accepts small entries. -/
def smallLog (p : Nat × Nat) (x : Nat) : StM (List (Nat × Nat)) Bool := do
  modify (· ++ [p])
  pure (x < 5)

example : Calls (fun p => smallLog p.1 p.2) [] [((0, 0), 1), ((0, 1), 2)] [true, true] [(0, 0), (0, 1)] ∧
    entries (⟨⟨[⟨[1, 2], rfl⟩, ⟨[9, 4], rfl⟩], rfl⟩⟩ : Mat Nat 2 2) = [((0, 0), 1), ((0, 1), 2)] ++ ((1, 0), 9) :: [((1, 1), 4)] ∧
    (smallLog (1, 0) 9).run [(0, 0), (0, 1)] = (.ok false, [(0, 0), (0, 1), (1, 0)]) :=
  ⟨.cons rfl (.cons rfl (.nil _)), rfl, rfl⟩

/-! ## C38 -/

/-- C38: `transposed` never panics and swaps indices. -/
theorem C38_transposed (t : Target) (a : Mat T r c) (hc : c < t.W) :
    ∃ b, a.transposed t = .ok b ∧ ∀ i j, b.get j i = a.get i j :=
  ⟨_, transposed_eq t a hc, fun i j => by rw [Mat.get_ofMatrix]; rfl⟩

/-- C38: transposing twice is the identity. -/
theorem C38_involutive (t : Target) (a : Mat T r c) (hr : r < t.W) (hc : c < t.W) :
    (do let b ← a.transposed t; b.transposed t) = .ok a := by
  rw [transposed_eq t a hc, res_ok_bind, transposed_eq t _ hr, Mat.toMatrix_ofMatrix, Matrix.transpose_transpose,
    Mat.ofMatrix_toMatrix]

/-- C38: the in-place `transpose` leaves what `transposed` returns. -/
theorem C38_in_place (t : Target) (a : Mat T n n) (hn : n < t.W) :
    ∃ b, a.transpose t = (.ok (), b) ∧ a.transposed t = .ok b := by
  refine ⟨Mat.ofMatrix a.toMatrix.transpose, ?_, transposed_eq t a hn⟩
  rw [Mat.transpose, transposed_eq t a hn]

/-- C38: transposition commutes with addition and with scaling. -/
theorem C38_linear [Semiring T] {O : Ops T} (hO : O.IsSemiring) (t : Target) (a b : Mat T r c) (s : T) (hc : c < t.W) :
    (do let x ← Mat.opVV t O.add a b; x.transposed t) =
      (do let x ← a.transposed t; let y ← b.transposed t; Mat.opVV t O.add x y) ∧
    (do let x ← a.mulScalar t O.mul s; x.transposed t) = (do let x ← a.transposed t; x.mulScalar t O.mul s) := by
  simp only [transposed_eq t _ hc, matAdd' hO t, matSmul' hO t, res_ok_bind, Mat.toMatrix_ofMatrix, Matrix.transpose_add,
    true_and, Except.ok.injEq]
  apply Mat.ext_get; intro i j
  simp [Matrix.transpose_apply]

example : (⟨⟨[⟨[1, 2, 3], rfl⟩, ⟨[4, 5, 6], rfl⟩], rfl⟩⟩ : Mat Nat 2 3).transposed ⟨true, true, 2 ^ 64⟩ =
    .ok ⟨⟨[⟨[1, 4], rfl⟩, ⟨[2, 5], rfl⟩, ⟨[3, 6], rfl⟩], rfl⟩⟩ := rfl

/-- C26: a matrix and its transpose have the same sum. -/
theorem C26_sum_transposed [Semiring T] {O : Ops T} (hO : O.IsSemiring) (t : Target) (a : Mat T r c) (hc : c < t.W) :
    (do let b ← a.transposed t; b.sum O) = a.sum O := by
  rw [transposed_eq t a hc, res_ok_bind, C26_mat_sum hO, C26_mat_sum hO]
  simp only [Mat.get_ofMatrix, Matrix.transpose_apply, Mat.toMatrix_apply]
  rw [Finset.sum_comm]

/-! ## C66 -/

/-- C66: approximate equality holds exactly when it holds for every pair of corresponding entries; never panics. -/
theorem C66_approx_eq (t : Target) (req : T → T → Bool) (a b : Mat T r c) (hr : r < t.W) :
    ∃ x, a.approxEq t req b = .ok x ∧ (x = true ↔ ∀ i j, req (a.get i j) (b.get i j) = true) := by
  have hfold : ∀ (l : List Bool) (x : Bool), l.foldl (fun x y => x && y) x = (x && l.all id) := by
    intro l
    induction l with
    | nil => intro x; simp
    | cons y ys ih => intro x; rw [List.foldl_cons, ih]; simp [Bool.and_assoc]
  unfold Mat.approxEq
  rw [drain_rowsRef t a hr, drain_rowsRef t b hr]
  simp only [res_ok_bind, res_pure]
  refine ⟨_, rfl, ?_⟩
  rw [hfold, rowsOf, rowsOf, List.zip_map', List.map_map]
  simp only [Bool.true_and, List.all_map, List.all_eq_true, List.mem_finRange, forall_const, Function.comp, id]
  refine forall_congr' fun i => ?_
  rw [Vec.zip_eq]
  simp

example : (⟨⟨[⟨[10, 20], rfl⟩], rfl⟩⟩ : Mat Int 1 2).approxEq ⟨true, true, 2 ^ 64⟩ (fun x y => decide ((x - y).natAbs ≤ 1))
    ⟨⟨[⟨[11, 20], rfl⟩], rfl⟩⟩ = .ok true := rfl

/-! ## C47 -/

/-- Complex conjugation of one number. -/
def Spec.conj [Neg T] (z : Mat.Cpx T) : Mat.Cpx T := ⟨z.re, -z.im⟩

theorem conjugate_eq [Ring T] {O : Ops T} (hO : O.IsRing) (t : Target) (a : Mat (Mat.Cpx T) r c) :
    a.conjugate t O.neg = .ok (Mat.ofFn fun i j => conj (a.get i j)) := by
  unfold Mat.conjugate
  rw [Mat.clone_ok t a, res_ok_bind]
  obtain ⟨b, h1, h2⟩ := C37_map_ok t (fun (_ : Nat × Nat) (z : Mat.Cpx T) => (do
    let i ← O.neg z.im
    pure ⟨z.re, i⟩ : Res (Mat.Cpx T))) (fun i j => conj (a.get i j)) a (fun i j => by rw [hO.neg]; rfl)
  rw [h1]
  congr 1
  exact Mat.ext_get fun i j => by rw [h2, Mat.get_ofFn]

/-- C47: `conjugate` negates the imaginary part of every entry, never panics (over a ring). -/
theorem C47_conjugate [Ring T] {O : Ops T} (hO : O.IsRing) (t : Target) (a : Mat (Mat.Cpx T) r c) :
    ∃ b, a.conjugate t O.neg = .ok b ∧ ∀ i j, (b.get i j).re = (a.get i j).re ∧ (b.get i j).im = -(a.get i j).im :=
  ⟨_, conjugate_eq hO t a, fun i j => by rw [Mat.get_ofFn]; exact ⟨rfl, rfl⟩⟩

/-- C47: conjugating twice is the identity, and a matrix with real entries is unchanged. -/
theorem C47_involution_real [Ring T] {O : Ops T} (hO : O.IsRing) (t : Target) (a : Mat (Mat.Cpx T) r c) :
    (do let b ← a.conjugate t O.neg; b.conjugate t O.neg) = .ok a ∧
    ((∀ i j, (a.get i j).im = 0) → a.conjugate t O.neg = .ok a) := by
  simp only [conjugate_eq hO, res_ok_bind, Except.ok.injEq]
  refine ⟨Mat.ext_get fun i j => ?_, fun h => Mat.ext_get fun i j => ?_⟩
  · simp [conj]
  · rw [Mat.get_ofFn, conj, h i j, neg_zero]; rw [← h i j]

theorem conj_mulSum [CommRing T] {O : Ops T} (hO : O.IsRing) (n : Nat) (f g : Fin n → Mat.Cpx T) :
    ∃ z, mulSum (Ops.complex O) n f g = .ok z ∧
      mulSum (Ops.complex O) n (fun k => conj (f k)) (fun k => conj (g k)) = .ok (conj z) := by
  induction n with
  | zero => exact ⟨_, rfl, by simp [mulSum, Ops.complex, conj, hO.zero]⟩
  | succ n ih =>
    obtain ⟨z, h1, h2⟩ := ih (fun k => f k.castSucc) (fun k => g k.castSucc)
    refine ⟨⟨z.re + ((f (Fin.last n)).re * (g (Fin.last n)).re - (f (Fin.last n)).im * (g (Fin.last n)).im),
      z.im + ((f (Fin.last n)).re * (g (Fin.last n)).im + (f (Fin.last n)).im * (g (Fin.last n)).re)⟩, ?_, ?_⟩
    · rw [mulSum, h1]
      simp only [res_ok_bind, Ops.complex, hO.mul, hO.sub, hO.add, res_pure]
    · rw [mulSum, h2]
      simp only [res_ok_bind, Ops.complex, hO.mul, hO.sub, hO.add, res_pure, conj, Except.ok.injEq, Mat.Cpx.mk.injEq]
      constructor <;> ring

/-- C47: conjugation is additive and multiplicative (with `num`'s complex arithmetic over a commutative ring). -/
theorem C47_hom [CommRing T] {O : Ops T} (hO : O.IsRing) (t : Target) (a a' : Mat (Mat.Cpx T) l n) (b : Mat (Mat.Cpx T) n c)
    (hl : l < t.W) (hn : n < t.W) (hc : c < t.W) :
    (do let s ← Mat.opVV t (Ops.complex O).add a a'; s.conjugate t O.neg) =
      (do let x ← a.conjugate t O.neg; let y ← a'.conjugate t O.neg; Mat.opVV t (Ops.complex O).add x y) ∧
    (do let p ← a.mulVV t (Ops.complex O) b; p.conjugate t O.neg) =
      (do let x ← a.conjugate t O.neg; let y ← b.conjugate t O.neg; x.mulVV t (Ops.complex O) y) := by
  have hadd : ∀ a a' : Mat (Mat.Cpx T) l n, Mat.opVV t (Ops.complex O).add a a' =
      .ok (Mat.ofFn fun i j => ⟨(a.get i j).re + (a'.get i j).re, (a.get i j).im + (a'.get i j).im⟩) := by
    intro a a'
    rw [C18_mat_ok t (Ops.complex O).add _ (by simp [matForms])]
    intro i j
    rw [Mat.get_ofFn]
    simp only [Ops.complex, hO.add, res_ok_bind, res_pure]
  simp only [conjugate_eq hO, res_ok_bind, hadd, Except.ok.injEq]
  refine ⟨Mat.ext_get fun i j => ?_, ?_⟩
  · simp only [Mat.get_ofFn, conj, Mat.Cpx.mk.injEq, true_and]; ring
  · have hex : ∀ i j, ∃ z, mulSum (Ops.complex O) n (fun k => a.get i k) (fun k => b.get k j) = .ok z ∧
        mulSum (Ops.complex O) n (fun k => conj (a.get i k)) (fun k => conj (b.get k j)) = .ok (conj z) :=
      fun i j => conj_mulSum hO n _ _
    choose z hz1 hz2 using hex
    have e1 : a.mulVV t (Ops.complex O) b = .ok (Mat.ofFn z) := by
      rw [C41_mul_entries t (Ops.complex O) _ (by simp [mulForms]) a b hl hn hc]; simpa using hz1
    rw [e1, res_ok_bind, eq_comm, C41_mul_entries t (Ops.complex O) _ (by simp [mulForms]) _ _ hl hn hc]
    simpa using hz2

example : (⟨⟨[⟨[⟨1, 2⟩, ⟨3, -4⟩], rfl⟩], rfl⟩⟩ : Mat (Mat.Cpx Int) 1 2).conjugate ⟨true, true, 2 ^ 64⟩ Ops.int.neg =
    .ok ⟨⟨[⟨[⟨1, -2⟩, ⟨3, 4⟩], rfl⟩], rfl⟩⟩ := rfl

end Rowcol
