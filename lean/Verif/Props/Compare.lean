import Verif.Model.Compare
import Verif.Props.Order
import Verif.Lemmas.Mul

/-! # C94: comparisons with user-defined element comparisons -/

namespace Rowcol
open Spec

namespace Spec

/-- A conjunction that stops at the first `false`: what asking the questions `qs` in order, starting in state `s`, returns and the
state it leaves.  `true` means that all questions were asked and answered `true`; `false` that all questions before some `q` were
answered `true` and `q`, the last question asked, `false`; a fault comes from the last question asked, too. -/
def Conj {ι S : Type} (ask : ι → StM S Bool) (qs : List ι) (s : S) : Res Bool → S → Prop
  | .ok true, s' => Calls ask s qs (List.replicate qs.length true) s'
  | .ok false, s' => ∃ pre q post, qs = pre ++ q :: post ∧
      Calls ask s (pre ++ [q]) (List.replicate pre.length true ++ [false]) s'
  | .error f, s' => ∃ pre q post s1, qs = pre ++ q :: post ∧
      Calls ask s pre (List.replicate pre.length true) s1 ∧ (ask q).run s1 = (.error f, s')

/-- The steps `R` in order, each starting in the state the one before has left. -/
inductive Chain {ι α S : Type} (R : ι → S → α → S → Prop) : S → List ι → List α → S → Prop
  | nil (s) : Chain R s [] [] s
  | cons {s i x s' is xs s''} : R i s x s' → Chain R s' is xs s'' → Chain R s (i :: is) (x :: xs) s''

/-- Counting comparisons and clones: `gt` answers as the order `cmp` does and adds one to the first counter. -/
def countGt {T : Type} (cmp : T → T → Ordering) (a b : T) : StM (Nat × Nat) Bool := do
  modify fun s => (s.1 + 1, s.2)
  pure (decide (cmp a b = .gt))

/-- A clone that adds one to the second counter. -/
def countClone {T : Type} (x : T) : StM (Nat × Nat) T := do
  modify fun s => (s.1, s.2 + 1)
  pure x

end Spec

variable {S T U E : Type} {n r c : Nat}

theorem stdAllM_append {m : Type → Type} [RustM m] {α : Type} (p : α → m Bool) (l k : List α) :
    stdAllM p (l ++ k) = (do if ← stdAllM p l then stdAllM p k else pure false) := by
  induction l with
  | nil => simp [stdAllM]
  | cons x xs ih =>
    simp only [List.cons_append, stdAllM, ih, bind_assoc]
    refine bind_congr fun b => ?_
    cases b <;> simp

theorem stdAllM_flatten {m : Type → Type} [RustM m] {α : Type} (p : α → m Bool) (L : List (List α)) :
    stdAllM (fun l => stdAllM p l) L = stdAllM p L.flatten := by
  induction L with
  | nil => rfl
  | cons x xs ih => rw [List.flatten_cons, stdAllM_append, stdAllM, ih]

theorem stdAllM_map {m : Type → Type} [RustM m] {α β : Type} (p : β → m Bool) (f : α → β) (l : List α) :
    stdAllM p (l.map f) = stdAllM (fun x => p (f x)) l := by
  induction l with
  | nil => rfl
  | cons x xs ih => simp only [List.map_cons, stdAllM, ih]

theorem sliceEqM_zip {m : Type → Type} [RustM m] (e : T → U → m Bool) (l : List T) (k : List U) (h : l.length = k.length) :
    sliceEqM e l k = stdAllM (fun p => e p.1 p.2) (l.zip k) := by
  induction l generalizing k with
  | nil => cases k with
    | nil => rfl
    | cons => simp at h
  | cons x xs ih => cases k with
    | nil => simp at h
    | cons y ys => rw [sliceEqM, List.zip_cons_cons, stdAllM, ih ys (by simpa using h)]

theorem stdAllM_calls {ι : Type} {ask : ι → StM S Bool} {pre rest : List ι} {s s1 : S}
    (h : Calls ask s pre (List.replicate pre.length true) s1) :
    (stdAllM ask (pre ++ rest)).run s = (stdAllM ask rest).run s1 := by
  induction pre generalizing s with
  | nil => cases h; rfl
  | cons q qs ih =>
    rw [List.length_cons, List.replicate_succ] at h
    cases h with
    | cons h1 h2 =>
      rw [List.cons_append, stdAllM, StM.run_bind_ok h1]
      exact ih h2

theorem calls_append {ι α : Type} {f : ι → StM S α} {l k : List ι} {xs ys : List α} {s s1 s2 : S}
    (h : Calls f s l xs s1) (g : Calls f s1 k ys s2) : Calls f s (l ++ k) (xs ++ ys) s2 := by
  induction h with
  | nil => exact g
  | cons h1 _ ih => exact .cons h1 (ih g)

theorem calls_snoc {ι α : Type} {f : ι → StM S α} {l : List ι} {q : ι} {xs : List α} {y : α} {s s2 : S}
    (h : Calls f s (l ++ [q]) (xs ++ [y]) s2) : ∃ s1, Calls f s l xs s1 ∧ (f q).run s1 = (.ok y, s2) := by
  induction l generalizing s xs with
  | nil =>
    cases xs with
    | nil =>
      cases h with
      | cons h1 h2 => cases h2; exact ⟨s, .nil _, h1⟩
    | cons x xs =>
      cases h with
      | cons h1 h2 => cases xs <;> cases h2
  | cons a l ih =>
    cases xs with
    | nil =>
      cases h with
      | cons h1 h2 => cases l <;> cases h2
    | cons x xs =>
      cases h with
      | cons h1 h2 =>
        obtain ⟨s1, h3, h4⟩ := ih h2
        exact ⟨s1, .cons h1 h3, h4⟩

theorem stdAllM_conj {ι : Type} (ask : ι → StM S Bool) (qs : List ι) (s : S) (res : Res Bool) (s' : S) :
    (stdAllM ask qs).run s = (res, s') ↔ Conj ask qs s res s' := by
  constructor
  · intro h
    induction qs generalizing s with
    | nil =>
      cases h
      exact .nil _
    | cons q qs ih =>
      rw [stdAllM, StM.run_bind] at h
      rcases e : (ask q).run s with ⟨_ | b, s1⟩
      · rw [e] at h
        cases h
        exact ⟨[], q, qs, s, rfl, .nil _, e⟩
      · rw [e] at h
        cases b with
        | false => cases h; exact ⟨[], q, qs, rfl, .cons e (.nil _)⟩
        | true =>
          have h := ih s1 h
          rcases res with f | _ | _
          · obtain ⟨pre, q', post, s2, h1, h2, h3⟩ := h
            exact ⟨q :: pre, q', post, s2, by rw [h1]; rfl, .cons e h2, h3⟩
          · obtain ⟨pre, q', post, h1, h2⟩ := h
            exact ⟨q :: pre, q', post, by rw [h1]; rfl, .cons e h2⟩
          · exact .cons e h
  · intro h
    rcases res with f | _ | _
    · obtain ⟨pre, q, post, s1, rfl, h2, h3⟩ := h
      rw [stdAllM_calls h2, stdAllM, StM.run_bind_error h3]
    · obtain ⟨pre, q, post, rfl, h2⟩ := h
      obtain ⟨s1, h3, h4⟩ := calls_snoc h2
      rw [stdAllM_calls h3, stdAllM, StM.run_bind_ok h4]
      rfl
    · have := stdAllM_calls (rest := []) h
      rw [List.append_nil] at this
      rw [this]; rfl

/-- The positions of an `r × c` matrix in row-major order. -/
def positions (r c : Nat) : List (Fin r × Fin c) :=
  (List.finRange r).flatMap fun i => (List.finRange c).map fun j => (i, j)

/-- C94, `==` of vectors: the elements are compared in index order, each pair once, with the element of the left vector on the
left; the first `false` decides, and nothing is compared after it.  A panicking comparison stops it as well. -/
theorem C94_vec_eq (e : T → U → StM S Bool) (a : Vec T n) (b : Vec U n) (s : S) (res : Res Bool) (s' : S) :
    (a.eqM e b).run s = (res, s') ↔ Conj (fun i : Fin n => e (a.get i) (b.get i)) (List.finRange n) s res s' := by
  rw [← stdAllM_conj, Vec.eqM, sliceEqM_zip _ _ _ (by rw [a.length_eq, b.length_eq]), Vec.zip_eq, stdAllM_map]

/-- C94, `==` of matrices: the same over the entries in row-major order. -/
theorem C94_mat_eq (e : T → T → StM S Bool) (a b : Mat T r c) (s : S) (res : Res Bool) (s' : S) :
    (a.eqM e b).run s = (res, s') ↔
      Conj (fun p : Fin r × Fin c => e (a.get p.1 p.2) (b.get p.1 p.2)) (positions r c) s res s' := by
  have h : a.eqM e b = stdAllM (fun p : Fin r × Fin c => e (a.get p.1 p.2) (b.get p.1 p.2)) (positions r c) := by
    rw [positions, List.flatMap_def, ← stdAllM_flatten, stdAllM_map, Mat.eqM, Vec.eqM,
      sliceEqM_zip _ _ _ (by rw [a.rows.length_eq, b.rows.length_eq]), Vec.zip_eq, stdAllM_map]
    congr 1
    funext i
    rw [Vec.eqM, sliceEqM_zip _ _ _ (by rw [Vec.length_eq, Vec.length_eq]), Vec.zip_eq, stdAllM_map, stdAllM_map]
    rfl
  rw [h, stdAllM_conj]

/-- C94, `is_zero`: the same over the elements of a vector or the entries of a matrix in row-major order. -/
theorem C94_is_zero (isz : T → StM S Bool) (v : Vec T n) (a : Mat T r c) (s : S) (res : Res Bool) (s' : S) :
    ((v.isZeroM isz).run s = (res, s') ↔ Conj (fun i : Fin n => isz (v.get i)) (List.finRange n) s res s') ∧
    ((a.isZeroM isz).run s = (res, s') ↔ Conj (fun p : Fin r × Fin c => isz (a.get p.1 p.2)) (positions r c) s res s') := by
  refine ⟨?_, ?_⟩
  · rw [← stdAllM_conj, Vec.isZeroM, Vec.toList_eq, stdAllM_map]
  · have h : a.isZeroM isz = stdAllM (fun p : Fin r × Fin c => isz (a.get p.1 p.2)) (positions r c) := by
      rw [positions, List.flatMap_def, ← stdAllM_flatten, stdAllM_map, Mat.isZeroM, Vec.toList_eq, stdAllM_map]
      congr 1
      funext i
      rw [Vec.toList_eq, stdAllM_map, stdAllM_map]
      rfl
    rw [h, stdAllM_conj]

/-! ### Approximate equality -/

theorem foldAnd_run {ι : Type} (f : ι → StM S Bool) (is : List ι) (x : Bool) (s : S) (res : Res Bool) (s' : S) :
    (is.foldlM (fun x i => do let y ← f i; pure (x && y)) x).run s = (res, s') ↔
      match res with
      | .ok b => ∃ bs, Calls f s is bs s' ∧ b = (x && bs.all id)
      | .error e => ∃ pre q post bs s1, is = pre ++ q :: post ∧ Calls f s pre bs s1 ∧ (f q).run s1 = (.error e, s') := by
  induction is generalizing x s with
  | nil =>
    constructor
    · intro h
      cases h
      exact ⟨[], .nil _, by simp⟩
    · intro h
      rcases res with e | b
      · obtain ⟨pre, q, post, bs, s1, h, _⟩ := h; simp at h
      · obtain ⟨bs, h, rfl⟩ := h
        cases h
        simp
  | cons i is ih =>
    rw [List.foldlM_cons, bind_assoc, StM.run_bind]
    rcases e1 : (f i).run s with ⟨e | y, s1⟩
    · constructor
      · intro h
        cases h
        exact ⟨[], i, is, [], s, rfl, .nil _, e1⟩
      · intro h
        rcases res with e' | b
        · obtain ⟨pre, q, post, bs, s2, h, h2, h3⟩ := h
          cases pre with
          | nil =>
            simp only [List.nil_append, List.cons.injEq] at h
            obtain ⟨rfl, rfl⟩ := h
            cases h2
            rw [e1] at h3; exact h3
          | cons p pre =>
            simp only [List.cons_append, List.cons.injEq] at h
            obtain ⟨rfl, rfl⟩ := h
            cases h2 with
            | cons h4 h5 => rw [e1] at h4; cases h4
        · obtain ⟨bs, h, rfl⟩ := h
          cases h with
          | cons h4 h5 => rw [e1] at h4; cases h4
    · simp only [pure_bind]
      rw [ih]
      rcases res with e' | b
      · constructor
        · rintro ⟨pre, q, post, bs, s2, rfl, h2, h3⟩
          exact ⟨i :: pre, q, post, y :: bs, s2, rfl, .cons e1 h2, h3⟩
        · rintro ⟨pre, q, post, bs, s2, h, h2, h3⟩
          cases pre with
          | nil =>
            simp only [List.nil_append, List.cons.injEq] at h
            obtain ⟨rfl, rfl⟩ := h
            cases h2
            rw [e1] at h3; cases h3
          | cons p pre =>
            simp only [List.cons_append, List.cons.injEq] at h
            obtain ⟨rfl, rfl⟩ := h
            cases h2 with
            | cons h4 h5 =>
              rw [e1] at h4
              cases h4
              exact ⟨pre, q, post, _, s2, rfl, h5, h3⟩
      · constructor
        · rintro ⟨bs, h, rfl⟩
          exact ⟨y :: bs, .cons e1 h, by simp [Bool.and_assoc]⟩
        · rintro ⟨bs, h, rfl⟩
          cases h with
          | cons h4 h5 =>
            rw [e1] at h4
            cases h4
            exact ⟨_, h5, by simp [Bool.and_assoc]⟩

theorem chain_calls {ι α : Type} (f : ι → StM S α) (R : ι → S → α → S → Prop)
    (h : ∀ i s x s', (f i).run s = (.ok x, s') ↔ R i s x s') (s : S) (is : List ι) (xs : List α) (s' : S) :
    Calls f s is xs s' ↔ Chain R s is xs s' := by
  constructor
  · intro g
    induction g with
    | nil => exact .nil _
    | cons h1 _ ih => exact .cons ((h _ _ _ _).1 h1) ih
  · intro g
    induction g with
    | nil => exact .nil _
    | cons h1 _ ih => exact .cons ((h _ _ _ _).2 h1) ih

theorem approxEqM_run (t : Target) (hW : r < t.W) (req : T → T → StM S Bool) (a b : Mat T r c) (s : S) (res : Res Bool) (s' : S) :
    (a.approxEqM t req b).run s = (res, s') ↔
      match res with
      | .ok x => ∃ bs, Chain (fun (i : Fin r) s y s' => Conj (fun j => req (a.get i j) (b.get i j)) (List.finRange c) s (.ok y) s')
          s (List.finRange r) bs s' ∧ x = bs.all id
      | .error f => ∃ pre i post bs s1, List.finRange r = pre ++ i :: post ∧
          Chain (fun (i : Fin r) s y s' => Conj (fun j => req (a.get i j) (b.get i j)) (List.finRange c) s (.ok y) s') s pre bs s1 ∧
          Conj (fun j => req (a.get i j) (b.get i j)) (List.finRange c) s1 (.error f) s' := by
  have h : a.approxEqM t req b = (List.finRange r).foldlM (fun x i => do
      let y ← stdAllM (fun j => req (a.get i j) (b.get i j)) (List.finRange c)
      pure (x && y)) true := by
    unfold Mat.approxEqM
    rw [drain_rowsRef t _ hW, drain_rowsRef t _ hW]
    simp only [liftRes_ok, pure_bind]
    rw [← rowsOf_eq, ← rowsOf_eq, Vec.zip_eq, List.foldlM_map]
    congr 1
    funext x i
    rw [Vec.zip_eq, stdAllM_map]
    rfl
  rw [h, foldAnd_run]
  have hc := chain_calls (fun i : Fin r => stdAllM (fun j => req (a.get i j) (b.get i j)) (List.finRange c))
    (fun (i : Fin r) s y s' => Conj (fun j => req (a.get i j) (b.get i j)) (List.finRange c) s (.ok y) s')
    (fun i s x s' => stdAllM_conj _ _ _ _ _)
  rcases res with f | x
  · simp only [hc, stdAllM_conj]
  · simp only [hc, Bool.true_and]

/-- C94, `relative_eq`: every row is compared, even after a row has been found to differ, but the comparison of a row stops at its
first `false`; before each comparison the two tolerances are cloned, `epsilon` first.  The result is `true` if all rows agree. -/
theorem C94_relative_eq (t : Target) (hW : r < t.W) (clE : E → StM S E) (req : T → T → E → E → StM S Bool) (a b : Mat T r c)
    (eps rel : E) (s : S) (res : Res Bool) (s' : S) :
    let ask (i : Fin r) (j : Fin c) : StM S Bool := (do
      let e ← clE eps
      let f ← clE rel
      req (a.get i j) (b.get i j) e f)
    let row (i : Fin r) (s : S) (y : Bool) (s' : S) : Prop := Conj (ask i) (List.finRange c) s (.ok y) s'
    (a.relativeEqM t clE req b eps rel).run s = (res, s') ↔
      match res with
      | .ok x => ∃ bs, Chain row s (List.finRange r) bs s' ∧ x = bs.all id
      | .error f => ∃ pre i post bs s1, List.finRange r = pre ++ i :: post ∧ Chain row s pre bs s1 ∧
          Conj (ask i) (List.finRange c) s1 (.error f) s' :=
  approxEqM_run t hW _ a b s res s'

/-- C94, `ulps_eq`: the same with one clone of `epsilon` before each comparison. -/
theorem C94_ulps_eq (t : Target) (hW : r < t.W) (clE : E → StM S E) (ueq : T → T → E → Nat → StM S Bool) (a b : Mat T r c)
    (eps : E) (ulps : Nat) (s : S) (res : Res Bool) (s' : S) :
    let ask (i : Fin r) (j : Fin c) : StM S Bool := (do
      let e ← clE eps
      ueq (a.get i j) (b.get i j) e ulps)
    let row (i : Fin r) (s : S) (y : Bool) (s' : S) : Prop := Conj (ask i) (List.finRange c) s (.ok y) s'
    (a.ulpsEqM t clE ueq b eps ulps).run s = (res, s') ↔
      match res with
      | .ok x => ∃ bs, Chain row s (List.finRange r) bs s' ∧ x = bs.all id
      | .error f => ∃ pre i post bs s1, List.finRange r = pre ++ i :: post ∧ Chain row s pre bs s1 ∧
          Conj (ask i) (List.finRange c) s1 (.error f) s' :=
  approxEqM_run t hW _ a b s res s'

/-! ### Maximum and minimum -/

theorem Vec.toList_cons (v : Vec T (n + 1)) :
    v.toList = v.get 0 :: (List.finRange n).map fun i => v.get i.succ := by
  rw [Vec.toList_eq, List.finRange_succ, List.map_cons, List.map_map]; rfl

/-- C94, `max` and `min` of vectors: starting with the first element, each further element is compared once, in index order, with
the current champion, which is the left operand: "is the champion greater?".  `max` keeps the champion if so, `min` replaces it
if so.  The element chosen is cloned once, at the end. -/
theorem C94_vec_max {m : Type → Type} [RustM m] (gt : T → T → m Bool) (cl : T → m T) (v : Vec T (n + 1)) :
    v.maxM gt cl = (do
      let w ← (List.finRange n).foldlM (fun best i => do
        if ← gt best (v.get i.succ) then pure best else pure (v.get i.succ)) (v.get 0)
      cl w) ∧
    v.minM gt cl = (do
      let w ← (List.finRange n).foldlM (fun best i => do
        if ← gt best (v.get i.succ) then pure (v.get i.succ) else pure best) (v.get 0)
      cl w) := by
  refine ⟨?_, ?_⟩
  · unfold Vec.maxM
    rw [Vec.toList_cons, List.map_cons, List.map_map, stdMaxM]
    simp only [pure_bind, bind_assoc, List.foldlM_map, Function.comp_def]
  · unfold Vec.minM
    rw [Vec.toList_cons, List.map_cons, List.map_map, stdMinM]
    simp only [pure_bind, bind_assoc, List.foldlM_map, Function.comp_def]

/-- C94, `max` and `min` of matrices: the maximum of a row, cloned, is computed just before it is compared with the champion of the
rows before. -/
theorem C94_mat_max {m : Type → Type} [RustM m] (gt : T → T → m Bool) (cl : T → m T) (a : Mat T (n + 1) (n + 1)) :
    a.maxM gt cl = (do
      let w ← (a.rows.get 0).maxM gt cl
      (List.finRange n).foldlM (fun best i => do
        let y ← (a.rows.get i.succ).maxM gt cl
        if ← gt best y then pure best else pure y) w) ∧
    a.minM gt cl = (do
      let w ← (a.rows.get 0).minM gt cl
      (List.finRange n).foldlM (fun best i => do
        let y ← (a.rows.get i.succ).minM gt cl
        if ← gt best y then pure y else pure best) w) := by
  refine ⟨?_, ?_⟩
  · unfold Mat.maxM
    rw [Vec.toList_cons, List.map_cons, List.map_map, stdMaxM]
    simp only [pure_bind, bind_assoc, List.foldlM_map, Function.comp_def, unwrap, bind_pure]
  · unfold Mat.minM
    rw [Vec.toList_cons, List.map_cons, List.map_map, stdMinM]
    simp only [pure_bind, bind_assoc, List.foldlM_map, Function.comp_def, unwrap, bind_pure]

theorem countGt_fold (cmp : T → T → Ordering) (p q : T → T → T) (l : List T) (b : T) (i j : Nat) :
    (l.foldlM (fun best x => do if ← countGt cmp best x then pure (p best x) else pure (q best x)) b).run (i, j) =
      (.ok (l.foldl (fun best x => if cmp best x = .gt then p best x else q best x) b), (i + l.length, j)) := by
  induction l generalizing b i with
  | nil => rfl
  | cons x xs ih =>
    have h : (do if ← countGt cmp b x then pure (p b x) else pure (q b x) : StM (Nat × Nat) T).run (i, j) =
        (.ok (if cmp b x = .gt then p b x else q b x), (i + 1, j)) := by
      by_cases g : cmp b x = .gt
      · simp only [countGt, g, decide_true, if_true]; rfl
      · simp only [countGt, g, decide_false, if_false]; rfl
    rw [List.foldlM_cons, StM.run_bind_ok h, ih, List.foldl_cons, List.length_cons]
    congr 2
    omega

theorem Vec.max_cons (cmp : T → T → Ordering) (v : Vec T (n + 1)) :
    v.max cmp = .ok ((List.finRange n).foldl (fun best i => if cmp best (v.get i.succ) = .gt then best else v.get i.succ) (v.get 0)) ∧
    v.min cmp = .ok ((List.finRange n).foldl (fun best i => if cmp best (v.get i.succ) = .gt then v.get i.succ else best) (v.get 0)) := by
  refine ⟨?_, ?_⟩
  · rw [Vec.max, Vec.toList_cons, stdMax, unwrap, List.foldl_map]
    simp only [ne_eq, ite_not]; rfl
  · rw [Vec.min, Vec.toList_cons, stdMin, unwrap, List.foldl_map]; rfl

/-- C94, how often: `max` and `min` of a vector of `n + 1` elements compare `n` times and clone once. -/
theorem C94_vec_max_counts (cmp : T → T → Ordering) (v : Vec T (n + 1)) (i j : Nat) :
    (∃ x, v.max cmp = .ok x ∧ (v.maxM (countGt cmp) countClone).run (i, j) = (.ok x, (i + n, j + 1))) ∧
    (∃ x, v.min cmp = .ok x ∧ (v.minM (countGt cmp) countClone).run (i, j) = (.ok x, (i + n, j + 1))) := by
  refine ⟨⟨_, (v.max_cons cmp).1, ?_⟩, ⟨_, (v.max_cons cmp).2, ?_⟩⟩
  · rw [(C94_vec_max _ _ v).1]
    have h := countGt_fold cmp (fun b _ => b) (fun _ x => x) ((List.finRange n).map fun i => v.get i.succ) (v.get 0) i j
    rw [List.foldlM_map, List.foldl_map, List.length_map, List.length_finRange] at h
    rw [StM.run_bind_ok h]; rfl
  · rw [(C94_vec_max _ _ v).2]
    have h := countGt_fold cmp (fun _ x => x) (fun b _ => b) ((List.finRange n).map fun i => v.get i.succ) (v.get 0) i j
    rw [List.foldlM_map, List.foldl_map, List.length_map, List.length_finRange] at h
    rw [StM.run_bind_ok h]; rfl

theorem row_fold_count {k d : Nat} (cmp : T → T → Ordering) (p q : T → T → T) (f : Fin k → StM (Nat × Nat) T) (g : Fin k → T)
    (hf : ∀ l i j, (f l).run (i, j) = (.ok (g l), (i + d, j + 1))) (ls : List (Fin k)) (b : T) (i j : Nat) :
    (ls.foldlM (fun best l => do
        let y ← f l
        if ← countGt cmp best y then pure (p best y) else pure (q best y)) b).run (i, j) =
      (.ok (ls.foldl (fun best l => if cmp best (g l) = .gt then p best (g l) else q best (g l)) b),
        (i + ls.length * (d + 1), j + ls.length)) := by
  induction ls generalizing b i j with
  | nil => simp
  | cons l ls ih =>
    have h := countGt_fold cmp p q [g l] b (i + d) (j + 1)
    rw [List.foldlM_cons] at h
    simp only [List.foldlM_nil, bind_pure, List.foldl_cons, List.foldl_nil, List.length_cons, List.length_nil] at h
    have h2 : (do
        let y ← f l
        if ← countGt cmp b y then pure (p b y) else pure (q b y) : StM (Nat × Nat) T).run (i, j) = _ :=
      (StM.run_bind_ok (hf l i j)).trans h
    rw [List.foldlM_cons, StM.run_bind_ok h2, ih, List.foldl_cons, List.length_cons]
    congr 2 <;> ring

/-- C94, how often: `max` and `min` of a matrix of size `n + 1` compare `(n + 1)² - 1` times and clone `n + 1` times, once per row. -/
theorem C94_mat_max_counts (cmp : T → T → Ordering) (a : Mat T (n + 1) (n + 1)) (i j : Nat) :
    (∃ x, a.max cmp = .ok x ∧
      (a.maxM (countGt cmp) countClone).run (i, j) = (.ok x, (i + ((n + 1) * (n + 1) - 1), j + (n + 1)))) ∧
    (∃ x, a.min cmp = .ok x ∧
      (a.minM (countGt cmp) countClone).run (i, j) = (.ok x, (i + ((n + 1) * (n + 1) - 1), j + (n + 1)))) := by
  have hn : (n + 1) * (n + 1) - 1 = n + n * (n + 1) := by
    rw [show (n + 1) * (n + 1) = n + n * (n + 1) + 1 by ring, Nat.add_sub_cancel]
  refine ⟨?_, ?_⟩
  · choose g hg hr using fun (l : Fin (n + 1)) (i j : Nat) => (C94_vec_max_counts cmp (a.rows.get l) i j).1
    have hg' : ∀ l i j, g l i j = g l 0 0 := fun l i j => Except.ok.inj ((hg l i j).symm.trans (hg l 0 0))
    refine ⟨(List.finRange n).foldl (fun best i => if cmp best (g i.succ 0 0) = .gt then best else g i.succ 0 0) (g 0 0 0), ?_, ?_⟩
    · have hm : a.rows.toList.mapM (fun row => row.max cmp) = .ok ((List.finRange (n + 1)).map fun l => g l 0 0) := by
        rw [Vec.toList_eq, List.mapM_map]
        exact mapM_ok _ _ _ fun l _ => hg l 0 0
      rw [Mat.max, hm, res_ok_bind, List.finRange_succ, List.map_cons, List.map_map, stdMax, unwrap, List.foldl_map]
      simp only [ne_eq, ite_not]; rfl
    · rw [(C94_mat_max _ _ a).1]
      have h0 := hr 0 i j
      rw [hg'] at h0
      rw [StM.run_bind_ok h0]
      have h := row_fold_count cmp (fun b _ => b) (fun _ x => x) (fun l : Fin n => (a.rows.get l.succ).maxM (countGt cmp) countClone)
        (fun l => g l.succ 0 0) (fun l i j => by rw [hr, hg']) (List.finRange n) (g 0 0 0) (i + n) (j + 1)
      rw [h, hn, List.length_finRange]
      congr 2 <;> ring
  · choose g hg hr using fun (l : Fin (n + 1)) (i j : Nat) => (C94_vec_max_counts cmp (a.rows.get l) i j).2
    have hg' : ∀ l i j, g l i j = g l 0 0 := fun l i j => Except.ok.inj ((hg l i j).symm.trans (hg l 0 0))
    refine ⟨(List.finRange n).foldl (fun best i => if cmp best (g i.succ 0 0) = .gt then g i.succ 0 0 else best) (g 0 0 0), ?_, ?_⟩
    · have hm : a.rows.toList.mapM (fun row => row.min cmp) = .ok ((List.finRange (n + 1)).map fun l => g l 0 0) := by
        rw [Vec.toList_eq, List.mapM_map]
        exact mapM_ok _ _ _ fun l _ => hg l 0 0
      rw [Mat.min, hm, res_ok_bind, List.finRange_succ, List.map_cons, List.map_map, stdMin, unwrap, List.foldl_map]
      rfl
    · rw [(C94_mat_max _ _ a).2]
      have h0 := hr 0 i j
      rw [hg'] at h0
      rw [StM.run_bind_ok h0]
      have h := row_fold_count cmp (fun _ x => x) (fun b _ => b) (fun l : Fin n => (a.rows.get l.succ).minM (countGt cmp) countClone)
        (fun l => g l.succ 0 0) (fun l i j => by rw [hr, hg']) (List.finRange n) (g 0 0 0) (i + n) (j + 1)
      rw [h, hn, List.length_finRange]
      congr 2 <;> ring

/-! ### Clamping -/

theorem clampElemM_eq {m : Type → Type} [RustM m] (gt : T → T → m Bool) (cl : T → m T) (lo hi x : T) :
    clampElemM gt cl lo hi x = (do
      let below ← gt lo x
      let y := if below then lo else x
      let inside ← gt hi y
      cl (if inside then y else hi)) := by
  unfold clampElemM
  simp only [bind_assoc]
  refine bind_congr fun b => ?_
  cases b
  · simp only [Bool.false_eq_true, if_false, pure_bind]
    refine bind_congr fun d => ?_
    cases d <;> simp
  · simp only [if_true, pure_bind]
    refine bind_congr fun d => ?_
    cases d <;> simp

/-- C94, `clamped` of vectors and matrices: the elements in order; for each, "is `min` greater than the element?", then "is `max`
greater than what that leaves?", then one clone of the outcome. -/
theorem C94_clamped {m : Type → Type} [RustM m] (t : Target) (gt : T → T → m Bool) (cl : T → m T) (v : Vec T n) (a : Mat T r c)
    (lo hi : T) :
    let one (x : T) : m T := (do
      let below ← gt lo x
      let y := if below then lo else x
      let inside ← gt hi y
      cl (if inside then y else hi))
    Vec.toList <$> v.clampedM t gt cl lo hi = (List.finRange n).mapM (fun i => one (v.get i)) ∧
    Mat.toLists <$> a.clampedM t gt cl lo hi =
      (List.finRange r).mapM fun i => (List.finRange c).mapM fun j : Fin c => one (a.get i j) := by
  intro one
  have ho : clampElemM gt cl lo hi = one := funext fun x => clampElemM_eq gt cl lo hi x
  refine ⟨?_, ?_⟩
  · rw [Vec.clampedM, ho, Vec.collect_toList _ _ _ (by simp [v.length_eq]), mapM_map', Vec.toList_eq, List.mapM_map]
    rfl
  · unfold Mat.clampedM
    rw [ho, Mat.collect_toLists t r c a.rows.toList Vec.toList (fun _ => one) a.rows.length_eq (fun x _ => x.length_eq),
      Vec.toList_eq, List.mapM_map]
    congr 1
    funext i
    rw [Function.comp_apply, Vec.toList_eq, List.mapM_map]
    rfl

theorem forMutM_run (e : T → StM S T) (l : List T) (s : S) :
    (∀ ys s', forMutM (assignM e) l s = ((.ok (), ys), s') ↔ Calls e s l ys s') ∧
    (∀ f ys s', forMutM (assignM e) l s = ((.error f, ys), s') ↔
      ∃ pre x post news s1, l = pre ++ x :: post ∧ Calls e s pre news s1 ∧ (e x).run s1 = (.error f, s') ∧
        ys = news ++ x :: post) := by
  induction l generalizing s with
  | nil =>
    refine ⟨fun ys s' => ⟨?_, ?_⟩, fun f ys s' => ⟨?_, ?_⟩⟩
    · intro h; cases h; exact .nil _
    · intro h; cases h; rfl
    · intro h; cases h
    · rintro ⟨pre, x, post, news, s1, h, _⟩; simp at h
  | cons x xs ih =>
    rw [forMutM, assignM]
    rcases e1 : (e x).run s with ⟨f0 | y, s1⟩
    · refine ⟨fun ys s' => ⟨?_, ?_⟩, fun f ys s' => ⟨?_, ?_⟩⟩
      · intro h; cases h
      · intro h
        cases h with
        | cons h1 h2 => rw [e1] at h1; cases h1
      · intro h; cases h
        exact ⟨[], x, xs, [], s, rfl, .nil _, e1, rfl⟩
      · rintro ⟨pre, x', post, news, s2, h, h2, h3, rfl⟩
        cases pre with
        | nil =>
          simp only [List.nil_append, List.cons.injEq] at h
          obtain ⟨rfl, rfl⟩ := h
          cases h2
          rw [e1] at h3
          cases h3
          rfl
        | cons p pre =>
          simp only [List.cons_append, List.cons.injEq] at h
          obtain ⟨rfl, rfl⟩ := h
          cases h2 with
          | cons h4 h5 => rw [e1] at h4; cases h4
    · dsimp only
      refine ⟨fun ys s' => ⟨?_, ?_⟩, fun f ys s' => ⟨?_, ?_⟩⟩
      · intro h
        rcases e2 : forMutM (assignM e) xs s1 with ⟨⟨r0, zs⟩, s2⟩
        rw [e2] at h
        cases h
        exact .cons e1 (((ih s1).1 _ _).1 e2)
      · intro h
        cases h with
        | cons h1 h2 =>
          rw [e1] at h1
          cases h1
          rw [((ih s1).1 _ _).2 h2]
      · intro h
        rcases e2 : forMutM (assignM e) xs s1 with ⟨⟨r0, zs⟩, s2⟩
        rw [e2] at h
        cases h
        obtain ⟨pre, x', post, news, s3, rfl, h2, h3, rfl⟩ := ((ih s1).2 _ _ _).1 e2
        exact ⟨x :: pre, x', post, y :: news, s3, rfl, .cons e1 h2, h3, rfl⟩
      · rintro ⟨pre, x', post, news, s2, h, h2, h3, rfl⟩
        cases pre with
        | nil =>
          simp only [List.nil_append, List.cons.injEq] at h
          obtain ⟨rfl, rfl⟩ := h
          cases h2
          rw [e1] at h3
          cases h3
        | cons p pre =>
          simp only [List.cons_append, List.cons.injEq] at h
          obtain ⟨rfl, rfl⟩ := h
          cases h2 with
          | cons h4 h5 =>
            rw [e1] at h4
            cases h4
            rw [((ih _).2 _ _ _).2 ⟨pre, x', post, _, s2, rfl, h5, h3, rfl⟩]
            rfl

theorem forMutM_append {B : Type} (body : B → S → (Res Unit × B) × S) (l k : List B) (s : S) :
    forMutM body (l ++ k) s = match forMutM body l s with
      | ((.ok (), ys), s1) => ((( forMutM body k s1).1.1, ys ++ (forMutM body k s1).1.2), (forMutM body k s1).2)
      | ((.error f, ys), s1) => ((.error f, ys ++ k), s1) := by
  induction l generalizing s with
  | nil => rfl
  | cons x xs ih =>
    rw [List.cons_append, forMutM, forMutM]
    rcases body x s with ⟨⟨f | u, y⟩, s1⟩
    · rfl
    · dsimp only
      rw [ih]
      rcases forMutM body xs s1 with ⟨⟨f | u, y⟩, s1⟩ <;> rfl

theorem clampM_flat (gt : T → T → StM S Bool) (cl : T → StM S T) (lo hi : T) (rows : List (Vec T c)) (s : S) :
    forMutM (assignM (clampElemM gt cl lo hi)) (rows.map Vec.toList).flatten s =
      (((forMutM (Mat.clampRowM gt cl lo hi) rows s).1.1,
        ((forMutM (Mat.clampRowM gt cl lo hi) rows s).1.2.map Vec.toList).flatten),
        (forMutM (Mat.clampRowM gt cl lo hi) rows s).2) := by
  induction rows generalizing s with
  | nil => rfl
  | cons row rows ih =>
    have h : forMutM (assignM (clampElemM gt cl lo hi)) row.toList s =
      (((Mat.clampRowM gt cl lo hi row s).1.1, (Mat.clampRowM gt cl lo hi row s).1.2.toList), (Mat.clampRowM gt cl lo hi row s).2) := rfl
    rw [List.map_cons, List.flatten_cons, forMutM_append, forMutM, h]
    rcases Mat.clampRowM gt cl lo hi row s with ⟨⟨f | u, y⟩, s1⟩
    · rfl
    · simp only [ih, List.map_cons, List.flatten_cons]

theorem Mat.flatten_injective {a b : Mat T r c} (h : a.toLists.flatten = b.toLists.flatten) : a = b := by
  apply Mat.toLists_injective
  rw [List.eq_iff_flatten_eq]
  refine ⟨h, ?_⟩
  simp only [Mat.toLists, List.map_map, Function.comp_def, Vec.length_eq, List.map_const']

/-- C94, `clamp` in place: the elements in order, each replaced by what `clamped` computes for it.  If a comparison or clone panics
on some element, the elements before it are the new ones, it and those after it are untouched, and nothing is called after it. -/
theorem C94_clamp (gt : T → T → StM S Bool) (cl : T → StM S T) (v : Vec T n) (lo hi : T) (s : S) :
    let one (x : T) : StM S T := (do
      let below ← gt lo x
      let y := if below then lo else x
      let inside ← gt hi y
      cl (if inside then y else hi))
    (∀ w s', v.clampM gt cl lo hi s = ((.ok (), w), s') ↔ Calls one s v.toList w.toList s') ∧
    (∀ f w s', v.clampM gt cl lo hi s = ((.error f, w), s') ↔
      ∃ before x after news s1, v.toList = before ++ x :: after ∧ Calls one s before news s1 ∧ (one x).run s1 = (.error f, s') ∧
        w.toList = news ++ x :: after) := by
  intro one
  have ho : clampElemM gt cl lo hi = one := funext fun x => clampElemM_eq gt cl lo hi x
  have h := forMutM_run one v.toList s
  have key : ∀ res w s', v.clampM gt cl lo hi s = ((res, w), s') ↔ forMutM (assignM one) v.toList s = ((res, w.toList), s') := by
    intro res w s'
    rw [← ho]
    have hv : forMutM (assignM (clampElemM gt cl lo hi)) v.toList s = (((v.clampM gt cl lo hi s).1.1,
      (v.clampM gt cl lo hi s).1.2.toList), (v.clampM gt cl lo hi s).2) := rfl
    rw [hv]
    rcases v.clampM gt cl lo hi s with ⟨⟨r0, ys⟩, s2⟩
    simp only [Prod.mk.injEq]
    exact ⟨fun ⟨⟨h1, h2⟩, h3⟩ => ⟨⟨h1, by rw [← h2]⟩, h3⟩, fun ⟨⟨h1, h2⟩, h3⟩ => ⟨⟨h1, Vec.toList_injective h2⟩, h3⟩⟩
  exact ⟨fun w s' => (key _ _ _).trans (h.1 _ _), fun f w s' => (key _ _ _).trans (h.2 _ _ _)⟩

/-- C94, `clamp` of matrices in place: the same over the entries in row-major order. -/
theorem C94_mat_clamp (gt : T → T → StM S Bool) (cl : T → StM S T) (a : Mat T r c) (lo hi : T) (s : S) :
    let one (x : T) : StM S T := (do
      let below ← gt lo x
      let y := if below then lo else x
      let inside ← gt hi y
      cl (if inside then y else hi))
    (∀ w s', a.clampM gt cl lo hi s = ((.ok (), w), s') ↔ Calls one s a.toLists.flatten w.toLists.flatten s') ∧
    (∀ f w s', a.clampM gt cl lo hi s = ((.error f, w), s') ↔
      ∃ before x after news s1, a.toLists.flatten = before ++ x :: after ∧ Calls one s before news s1 ∧
        (one x).run s1 = (.error f, s') ∧ w.toLists.flatten = news ++ x :: after) := by
  intro one
  have ho : clampElemM gt cl lo hi = one := funext fun x => clampElemM_eq gt cl lo hi x
  have h := forMutM_run one a.toLists.flatten s
  have key : ∀ res w s', a.clampM gt cl lo hi s = ((res, w), s') ↔
      forMutM (assignM one) a.toLists.flatten s = ((res, w.toLists.flatten), s') := by
    intro res w s'
    rw [← ho, Mat.toLists, clampM_flat]
    unfold Mat.clampM
    simp only [Prod.mk.injEq]
    constructor
    · rintro ⟨⟨h1, h2⟩, h3⟩
      exact ⟨⟨h1, by rw [← h2]; rfl⟩, h3⟩
    · rintro ⟨⟨h1, h2⟩, h3⟩
      exact ⟨⟨h1, Mat.flatten_injective h2⟩, h3⟩
  exact ⟨fun w s' => (key _ _ _).trans (h.1 _ _), fun f w s' => (key _ _ _).trans (h.2 _ _ _)⟩

/-! ### Comparisons without effects -/

theorem stdAllM_pure {m : Type → Type} [RustM m] {α : Type} (p : α → Bool) (l : List α) :
    stdAllM (fun x => (pure (p x) : m Bool)) l = pure (l.all p) := by
  induction l with
  | nil => rfl
  | cons x xs ih => rw [stdAllM, ih, pure_bind, List.all_cons]; cases p x <;> rfl

theorem sliceEqM_pure {m : Type → Type} [RustM m] (e : T → U → Bool) (l : List T) (k : List U) :
    sliceEqM (fun x y => (pure (e x y) : m Bool)) l k = pure (sliceEq e l k) := by
  induction l generalizing k with
  | nil => cases k <;> rfl
  | cons x xs ih =>
    cases k with
    | nil => rfl
    | cons y ys => rw [sliceEqM, ih, pure_bind, sliceEq]; cases e x y <;> rfl

theorem collect_pure_map {m : Type → Type} [RustM m] {α β : Type} (t : Target) (f : α → β) (l : List α) (h : l.length = n) :
    Vec.collect t n (l.map fun x => (pure (f x) : m β)) = pure ⟨l.map f, by rw [List.length_map, h]⟩ := by
  rw [← Vec.collect_pure t n (l.map f) (by rw [List.length_map, h]), List.map_map]
  rfl

theorem Mat.max_eq (cmp : T → T → Ordering) (g : Fin (n + 1) → T) (a : Mat T (n + 1) (n + 1))
    (h : ∀ l, (a.rows.get l).max cmp = .ok (g l)) :
    a.max cmp = .ok ((List.finRange n).foldl (fun best i => if cmp best (g i.succ) = .gt then best else g i.succ) (g 0)) := by
  have hm : a.rows.toList.mapM (fun row => row.max cmp) = .ok ((List.finRange (n + 1)).map g) := by
    rw [Vec.toList_eq, List.mapM_map]
    exact mapM_ok _ _ _ fun l _ => h l
  rw [Mat.max, hm, res_ok_bind, List.finRange_succ, List.map_cons, List.map_map, stdMax, unwrap, List.foldl_map]
  simp only [ne_eq, ite_not]; rfl

theorem Mat.min_eq (cmp : T → T → Ordering) (g : Fin (n + 1) → T) (a : Mat T (n + 1) (n + 1))
    (h : ∀ l, (a.rows.get l).min cmp = .ok (g l)) :
    a.min cmp = .ok ((List.finRange n).foldl (fun best i => if cmp best (g i.succ) = .gt then g i.succ else best) (g 0)) := by
  have hm : a.rows.toList.mapM (fun row => row.min cmp) = .ok ((List.finRange (n + 1)).map g) := by
    rw [Vec.toList_eq, List.mapM_map]
    exact mapM_ok _ _ _ fun l _ => h l
  rw [Mat.min, hm, res_ok_bind, List.finRange_succ, List.map_cons, List.map_map, stdMin, unwrap, List.foldl_map]
  rfl

/-- C94, comparisons without effects and silent clones: the operations are those of C27, C29 and C30, whatever the monad. -/
theorem C94_pure {m : Type → Type} [RustM m] (t : Target) (v w : Vec T n) (a b : Mat T r c) (x : Vec T (n + 1))
    (d : Mat T (n + 1) (n + 1)) (e : T → T → Bool) (isz : T → Bool) (cmp : T → T → Ordering) (lo hi : T) :
    let gt (x y : T) : m Bool := pure (decide (cmp x y = .gt))
    v.eqM (fun x y => (pure (e x y) : m Bool)) w = pure (v.eq e w) ∧
    a.eqM (fun x y => (pure (e x y) : m Bool)) b = pure (a.eq e b) ∧
    v.isZeroM (fun x => (pure (isz x) : m Bool)) = pure (v.isZero isz) ∧
    a.isZeroM (fun x => (pure (isz x) : m Bool)) = pure (a.isZero isz) ∧
    (r < t.W → a.approxEqM t (fun x y => (pure (e x y) : m Bool)) b = liftRes (a.approxEq t e b)) ∧
    x.maxM gt pure = liftRes (x.max cmp) ∧ x.minM gt pure = liftRes (x.min cmp) ∧
    d.maxM gt pure = liftRes (d.max cmp) ∧ d.minM gt pure = liftRes (d.min cmp) ∧
    v.clampedM t gt pure lo hi = liftRes (v.clamped t cmp lo hi) ∧
    a.clampedM t gt pure lo hi = liftRes (a.clamped t cmp lo hi) := by
  intro gt
  have hv : ∀ {n : Nat} (v : Vec T (n + 1)), v.maxM gt pure = pure (f := m)
        ((List.finRange n).foldl (fun best i => if cmp best (v.get i.succ) = .gt then best else v.get i.succ) (v.get 0)) ∧
      v.minM gt pure = pure (f := m)
        ((List.finRange n).foldl (fun best i => if cmp best (v.get i.succ) = .gt then v.get i.succ else best) (v.get 0)) := by
    intro n v
    rw [(C94_vec_max _ _ v).1, (C94_vec_max _ _ v).2]
    simp only [gt, pure_bind, decide_eq_true_eq, ← apply_ite pure, List.foldlM_pure, and_self]
  have hc : clampElemM gt pure lo hi = fun x => (pure (cmpMin cmp hi (cmpMax cmp lo x)) : m T) := by
    funext x
    rw [clampElemM_eq]
    simp only [gt, pure_bind, decide_eq_true_eq]
    rfl
  refine ⟨?_, ?_, ?_, ?_, ?_, ?_, ?_, ?_, ?_, ?_, ?_⟩
  · exact sliceEqM_pure e _ _
  · rw [Mat.eqM]
    simp only [Vec.eqM, sliceEqM_pure]
    rfl
  · exact stdAllM_pure isz _
  · rw [Mat.isZeroM]
    simp only [stdAllM_pure]
    rfl
  · intro hW
    rw [Mat.approxEqM, Mat.approxEq, drain_rowsRef t _ hW, drain_rowsRef t _ hW]
    simp only [liftRes_ok, pure_bind, res_ok_bind, stdAllM_pure, List.foldlM_pure, List.foldl_map, res_pure]
  · rw [(hv x).1, (x.max_cons cmp).1, liftRes_ok]
  · rw [(hv x).2, (x.max_cons cmp).2, liftRes_ok]
  · rw [(C94_mat_max gt pure d).1, Mat.max_eq cmp (fun l => _) d fun l => ((d.rows.get l).max_cons cmp).1]
    simp only [(hv _).1, pure_bind, gt, decide_eq_true_eq, ← apply_ite pure, List.foldlM_pure, liftRes_ok]
  · rw [(C94_mat_max gt pure d).2, Mat.min_eq cmp (fun l => _) d fun l => ((d.rows.get l).max_cons cmp).2]
    simp only [(hv _).2, pure_bind, gt, decide_eq_true_eq, ← apply_ite pure, List.foldlM_pure, liftRes_ok]
  · rw [Vec.clampedM, Vec.clamped, hc, collect_pure_map t _ _ v.length_eq, collect_pure_map t _ _ v.length_eq]
    rfl
  · rw [Mat.clampedM, Mat.clamped, hc]
    simp only [fun row : Vec T c => collect_pure_map (m := m) t (fun x => cmpMin cmp hi (cmpMax cmp lo x)) row.toList row.length_eq,
      fun row : Vec T c => collect_pure_map (m := Res) t (fun x => cmpMin cmp hi (cmpMax cmp lo x)) row.toList row.length_eq]
    rw [collect_pure_map t _ _ a.rows.length_eq, collect_pure_map t _ _ a.rows.length_eq, pure_bind]
    rfl

/-! ### Examples -/

/-- An equality that logs the pairs it is asked about. -/
def loggedEq (x y : Nat) : StM (List (Nat × Nat)) Bool := do
  modify (· ++ [(x, y)])
  pure (x == y)

/-- The same, refusing to compare anything with `7`. -/
def pickyEq (x y : Nat) : StM (List (Nat × Nat)) Bool := do
  modify (· ++ [(x, y)])
  if x = 7 then fault .panic else pure (x == y)

def cmpA : Vec Nat 3 := ⟨[1, 2, 3], rfl⟩
def cmpB : Vec Nat 3 := ⟨[1, 5, 3], rfl⟩
def cmpC : Mat Nat 2 2 := ⟨⟨[⟨[1, 7], rfl⟩, ⟨[3, 4], rfl⟩], rfl⟩⟩
def cmpD : Mat Nat 2 2 := ⟨⟨[⟨[2, 7], rfl⟩, ⟨[3, 4], rfl⟩], rfl⟩⟩

/-- The comparison stops after the second pair. -/
example : (cmpA.eqM loggedEq cmpB).run [] = (.ok false, [(1, 1), (2, 5)]) := rfl
example : Conj (fun i => loggedEq (cmpA.get i) (cmpB.get i)) (List.finRange 3) [] (.ok false) [(1, 1), (2, 5)] :=
  (C94_vec_eq _ _ _ _ _ _).1 rfl

/-- `7` is never asked about, because the first pair differs; with itself, the second question panics. -/
example : (cmpC.eqM pickyEq cmpD).run [] = (.ok false, [(1, 2)]) := rfl
example : (cmpC.eqM pickyEq cmpC).run [] = (.error .panic, [(1, 1), (7, 7)]) := rfl

/-- `is_zero` stops at the first element that is not zero. -/
example : (cmpD.isZeroM fun x => loggedEq x 0).run [] = (.ok false, [(2, 0)]) := rfl

/-- `relative_eq` skips the rest of the first row, which differs, and compares the second row all the same. -/
example : (cmpC.relativeEqM ⟨true, true, 2 ^ 16⟩ pure (fun x y _ _ => loggedEq x y) cmpD 0 0).run [] =
    (.ok false, [(1, 2), (3, 3), (4, 4)]) := rfl

/-- Three comparisons and two clones for the maximum of a `2 × 2` matrix. -/
example : (cmpC.maxM (countGt fun x y => compare x y) countClone).run (0, 0) = (.ok 7, (3, 2)) := rfl

/-- `clamp(2, 5)` interrupted at the second entry, whose comparison with `2` panics: the first entry is already new. -/
example : cmpC.clampM (S := Nat) (fun x y => do
      modify (· + 1)
      if y = 7 then fault .panic else pure (decide (x > y))) pure 2 5 0 =
    ((.error .panic, ⟨⟨[⟨[2, 7], rfl⟩, ⟨[3, 4], rfl⟩], rfl⟩⟩), 3) := rfl

end Rowcol
