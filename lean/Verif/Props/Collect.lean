import Verif.Lemmas.MapM
import Verif.Lemmas.StM

/-! # C01, C03, C06, C33: collecting, generating, cloning -/

namespace Rowcol
open Spec

variable {m : Type → Type} [RustM m] {T : Type}

/-! ## C01 -/

/-- C01 (items produced by arbitrary effectful computations): collecting exactly `n` computations runs each
of them once, in order, and returns their results in that order, in every build. -/
theorem C01_collect_exact (t : Target) (n : Nat) (l : List (m T)) (h : l.length = n) :
    Vec.toList <$> Vec.collect t n l = l.mapM id :=
  Vec.collect_toList t n l h

example : Vec.collect (m := Res) ⟨true, true, 2 ^ 64⟩ 3 [.ok 10, .ok 20, .ok 30] = .ok ⟨[10, 20, 30], rfl⟩ := rfl

theorem fill_yields {σ : Type} (it : Iter Res T σ) {s s' : σ} {xs : List T} (h : Yields it s xs s') :
    Vec.fill it xs.length s = .ok (⟨xs, rfl⟩, s') := by
  induction h with
  | nil s => rfl
  | cons h1 _ ih => simp only [List.length_cons, Vec.fill, h1, res_ok_bind, ih]; rfl

/-- C01 (any user-defined iterator): if the iterator yields exactly the `n` items `xs` and then reports that
nothing is left, collecting returns exactly `xs`. -/
theorem C01_collect_exact_iter {σ : Type} (t : Target) (n : Nat) (it : Iter Res T σ) (s s' : σ) (xs : List T)
    (hx : xs.length = n) (hy : Yields it s xs s') (hc : it.count s' = .ok 0) :
    Vec.fromIter t n it s = .ok ⟨xs, hx⟩ := by
  subst hx
  unfold Vec.fromIter
  rw [fill_yields it hy]
  simp only [res_ok_bind, hc]
  split <;> rfl

/-- A counting iterator meets the hypotheses of `C01_collect_exact_iter`. -/
def countTo (n : Nat) : Iter Res Nat Nat where
  next s := .ok (if s < n then (some s, s + 1) else (none, s))
  count s := .ok (n - s)

example : Yields (countTo 3) 1 [1, 2] 3 ∧ (countTo 3).count 3 = .ok 0 :=
  ⟨.cons rfl (.cons rfl (.nil _)), rfl⟩

/-! ## C02 (control flow; the drops are in `Verif.Props.Memory`) -/

/-- C02 (control flow): with too few items every available item is requested, then it panics, in every build. -/
theorem C02_collect_short (t : Target) (n : Nat) (l : List (m T)) (h : l.length < n) :
    Vec.collect t n l = (do let _ ← l.mapM id; fault .panic : m (Vec T n)) :=
  Vec.collect_short t n l h

/-- C02 (any user-defined iterator that ends early). -/
theorem C02_collect_short_iter {σ : Type} (t : Target) (n : Nat) (it : Iter Res T σ) (s s' s'' : σ) (xs : List T)
    (hx : xs.length < n) (hy : Yields it s xs s') (hn : it.next s' = .ok (none, s'')) :
    Vec.fromIter t n it s = .error .panic := by
  have : Vec.fill it n s = .error .panic := by
    induction hy generalizing n with
    | nil s =>
      cases n with
      | zero => simp at hx
      | succ n => simp [Vec.fill, hn]
    | cons h1 _ ih =>
      cases n with
      | zero => simp at hx
      | succ n =>
        simp only [Vec.fill, h1, res_ok_bind]
        rw [ih n (by simpa using hx) hn]; rfl
  unfold Vec.fromIter
  rw [this]; rfl

example : Yields (countTo 3) 1 [1, 2] 3 ∧ (countTo 3).next 3 = .ok (none, 3) :=
  ⟨.cons rfl (.cons rfl (.nil _)), rfl⟩

/-! ## C03 -/

/-- C03, debug assertions on: too many items panic (after all items were requested). -/
theorem C03_collect_long_debug (t : Target) (n : Nat) (l : List (m T)) (h : n < l.length)
    (ht : t.debugAssertions = true) :
    Vec.collect t n l = (do let _ ← l.mapM id; fault .panic : m (Vec T n)) :=
  Vec.collect_long_debug t n l h ht

/-- C03, debug assertions off: the first `n` items, and only those are requested. -/
theorem C03_collect_long_release (t : Target) (n : Nat) (l : List (m T)) (h : n < l.length)
    (ht : t.debugAssertions = false) :
    Vec.toList <$> Vec.collect t n l = (l.take n).mapM id :=
  Vec.collect_long_release t n l h ht

/-- C03 for any user-defined iterator: what happens depends on what `count()` reports after the first `n`. -/
theorem C03_collect_long_iter {σ : Type} (t : Target) (n k : Nat) (it : Iter Res T σ) (s s' : σ) (xs : List T)
    (hx : xs.length = n) (hy : Yields it s xs s') (hc : it.count s' = .ok (k + 1)) :
    Vec.fromIter t n it s = if t.debugAssertions then .error .panic else .ok ⟨xs, hx⟩ := by
  subst hx
  unfold Vec.fromIter
  rw [fill_yields it hy]
  simp only [res_ok_bind, hc]
  split <;> simp

example : Vec.collect (m := Res) ⟨true, true, 2 ^ 64⟩ 2 [.ok 10, .ok 20, .ok 30] = .error .panic := rfl
example : Vec.collect (m := Res) ⟨false, false, 2 ^ 64⟩ 2 [.ok 10, .ok 20, .ok 30] = .ok ⟨[10, 20], rfl⟩ := rfl
example : Yields (countTo 3) 0 [0, 1] 2 ∧ (countTo 3).count 2 = .ok (0 + 1) :=
  ⟨.cons rfl (.cons rfl (.nil _)), rfl⟩

/-! ## C06 -/

/-- C06 for vectors: `generate` is the in-order traversal of the indices `0, 1, .., n-1`. -/
theorem C06_vec_generate (t : Target) (n : Nat) (f : Nat → m T) :
    Vec.toList <$> Vec.generate t n f = (List.range n).mapM f := by
  unfold Vec.generate
  rw [Vec.collect_toList _ _ _ (by simp), mapM_map']

/-- C06 for matrices: row-major traversal of the index pairs. -/
theorem C06_mat_generate (t : Target) (r c : Nat) (f : Nat × Nat → m T) :
    Mat.toLists <$> Mat.generate t r c f =
      (List.range r).mapM fun i => (List.range c).mapM fun j => f (i, j) := by
  unfold Mat.generate Vec.generate
  exact Mat.collect_toLists t r c (List.range r) (fun _ => List.range c) (fun i j => f (i, j)) (by simp) (by simp)

theorem run_mapM_ok {S ι : Type} (f : ι → StM S T) {s s' : S} {is : List ι} {xs : List T}
    (h : Calls f s is xs s') : (is.mapM f).run s = (.ok xs, s') := by
  induction h with
  | nil s => rfl
  | cons h1 _ ih =>
    rw [List.mapM_cons, StM.run_bind_ok h1, StM.run_bind_ok ih]; rfl

theorem run_mapM_error {S ι : Type} (f : ι → StM S T) {s s' s'' : S} {is : List ι} {k : ι} {rest : List ι}
    {xs : List T} {e : Fault} (h : Calls f s is xs s') (hk : (f k).run s' = (.error e, s'')) :
    ((is ++ k :: rest).mapM f).run s = (.error e, s'') := by
  induction h with
  | nil s => rw [List.nil_append, List.mapM_cons, StM.run_bind_error hk]
  | cons h1 _ ih =>
    rw [List.cons_append, List.mapM_cons, StM.run_bind_ok h1, StM.run_bind_error (ih hk)]

/-- C06, successful stateful closure: one call per index in ascending order, element `i` is the `i`-th result. -/
theorem C06_vec_generate_calls {S : Type} (t : Target) (n : Nat) (f : Nat → StM S T) (s s' : S) (xs : List T)
    (h : Calls f s (List.range n) xs s') :
    ((Vec.toList <$> Vec.generate t n f : StM S (List T)).run s) = (.ok xs, s') := by
  rw [C06_vec_generate]; exact run_mapM_ok f h

/-- C06, panicking closure: if the call for index `k` panics, that panic propagates and no later call is made
(the closure's state is the one that call left). -/
theorem C06_vec_generate_panic {S : Type} (t : Target) (n k : Nat) (hk : k < n) (f : Nat → StM S T)
    (s s' s'' : S) (xs : List T) (e : Fault)
    (h : Calls f s (List.range k) xs s') (hp : (f k).run s' = (.error e, s'')) :
    ((Vec.toList <$> Vec.generate t n f : StM S (List T)).run s) = (.error e, s'') := by
  rw [C06_vec_generate]
  have : List.range n = List.range k ++ k :: List.range' (k + 1) (n - k - 1) := by
    apply List.ext_getElem
    · simp; omega
    · intro i h1 h2
      simp only [List.length_range] at h1
      rw [List.getElem_append]
      split
      · simp
      · rename_i h3
        simp only [List.length_range, Nat.not_lt] at h3
        simp only [List.getElem_range, List.length_range]
        obtain ⟨d, rfl⟩ := Nat.exists_eq_add_of_le h3
        cases d with
        | zero => simp
        | succ d => simp [Nat.add_sub_cancel_left]; omega
  rw [this]; exact run_mapM_error f h hp

theorem rowMajor_mapM {r c : Nat} (f : Nat × Nat → m T) :
    List.flatten <$> ((List.range r).mapM fun i => (List.range c).mapM fun j => f (i, j)) =
      (rowMajor r c).mapM f := by
  unfold rowMajor
  generalize List.range r = l
  induction l with
  | nil => simp
  | cons a as ih =>
    simp only [List.flatMap_cons, List.mapM_cons, List.mapM_append, map_bind, map_pure, List.flatten_cons]
    rw [show (List.map (fun j => (a, j)) (List.range c)).mapM f = (List.range c).mapM (fun j => f (a, j)) from by
      rw [← mapM_map' _ f, ← mapM_map' (List.range c) (fun j => f (a, j)), List.map_map]; rfl]
    rw [← ih]
    simp [Functor.map_map]

/-- C06 for matrices, successful stateful closure: one call per index pair in row-major order. -/
theorem C06_mat_generate_calls {S : Type} (t : Target) (r c : Nat) (f : Nat × Nat → StM S T) (s s' : S)
    (xs : List T) (h : Calls f s (rowMajor r c) xs s') :
    ((List.flatten <$> Mat.toLists <$> Mat.generate t r c f : StM S (List T)).run s) = (.ok xs, s') := by
  rw [C06_mat_generate, rowMajor_mapM]; exact run_mapM_ok f h

/-- C06 for matrices, panicking closure: the panic propagates and stops further calls. -/
theorem C06_mat_generate_panic {S : Type} (t : Target) (r c : Nat) (f : Nat × Nat → StM S T)
    (s s' s'' : S) (before after : List (Nat × Nat)) (p : Nat × Nat) (xs : List T) (e : Fault)
    (hs : rowMajor r c = before ++ p :: after)
    (h : Calls f s before xs s') (hp : (f p).run s' = (.error e, s'')) :
    ((List.flatten <$> Mat.toLists <$> Mat.generate t r c f : StM S (List T)).run s) = (.error e, s'') := by
  rw [C06_mat_generate, rowMajor_mapM, hs]; exact run_mapM_error f h hp

/-- A closure that logs its argument and panics at 2. -/
def logging (i : Nat) : StM (List Nat) Nat := do
  modify (· ++ [i])
  if i = 2 then fault .panic else pure (10 * i)

example : Calls logging [] (List.range 2) [0, 10] [0, 1] := .cons rfl (.cons rfl (.nil _))
example : (logging 2).run [0, 1] = (.error .panic, [0, 1, 2]) := rfl
example : rowMajor 2 3 = [(0, 0), (0, 1)] ++ (0, 2) :: [(1, 0), (1, 1), (1, 2)] := rfl

/-! ## C33 -/

/-- C33 for vectors: `clone` calls the element's `clone` once per element, in order. -/
theorem C33_vec_clone {n : Nat} (t : Target) (cl : T → m T) (v : Vec T n) :
    Vec.toList <$> v.clone t cl = v.toList.mapM cl := by
  unfold Vec.clone
  rw [Vec.collect_toList _ _ _ (by simp [v.length_eq]), mapM_map']

/-- C33 for matrices. -/
theorem C33_mat_clone {r c : Nat} (t : Target) (cl : T → m T) (a : Mat T r c) :
    Mat.toLists <$> a.clone t cl = a.rows.toList.mapM fun row => row.toList.mapM cl := by
  unfold Mat.clone Vec.clone
  exact Mat.collect_toLists t r c a.rows.toList Vec.toList (fun _ => cl) a.rows.length_eq
    (fun x _ => x.length_eq)

/-- C33: with an element `clone` that copies, `clone` of a vector is the vector. -/
theorem C33_vec_clone_id {n : Nat} (t : Target) (v : Vec T n) : v.clone t (pure : T → m T) = pure v := by
  unfold Vec.clone
  rw [Vec.collect_pure t n v.toList v.length_eq]

/-- C33: with an element `clone` that copies, `clone` of a matrix is the matrix. -/
theorem C33_mat_clone_id {r c : Nat} (t : Target) (a : Mat T r c) : a.clone t (pure : T → m T) = pure a := by
  unfold Mat.clone
  rw [show (fun row : Vec T c => row.clone t (pure : T → m T)) = (fun row => pure row) from
    funext fun row => C33_vec_clone_id t row, C33_vec_clone_id]
  simp

example : (⟨[1, 2, 3], rfl⟩ : Vec Nat 3).clone (m := Res) ⟨true, true, 2 ^ 64⟩ pure = .ok ⟨[1, 2, 3], rfl⟩ := rfl

end Rowcol
