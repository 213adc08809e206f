import Verif.Lemmas.Order
import Verif.Lemmas.StM

/-! # C27-C29: maximum, minimum, clamping -/

namespace Rowcol
open Spec

variable {T : Type} {n r c : Nat}

/-- The usual comparison of integers, used in the examples. -/
def intCmp (a b : Int) : Ordering := compare a b

theorem intCmp_laws : OrdLaws intCmp where
  swap a b := by
    unfold intCmp
    rcases lt_trichotomy a b with h | h | h
    · rw [compare_lt_iff_lt.2 h, compare_gt_iff_gt.2 h]; rfl
    · rw [h, compare_eq_iff_eq.2 rfl]; rfl
    · rw [compare_gt_iff_gt.2 h, compare_lt_iff_lt.2 h]; rfl
  trans a b c h1 h2 := by
    unfold intCmp at *
    rw [ne_eq, compare_gt_iff_gt] at *
    omega

/-- Comparison by absolute value: a total preorder in which different values can be `Equal`. -/
def absCmp (a b : Int) : Ordering := compare a.natAbs b.natAbs

theorem absCmp_laws : OrdLaws absCmp where
  swap a b := by
    unfold absCmp
    rcases lt_trichotomy a.natAbs b.natAbs with h | h | h
    · rw [compare_lt_iff_lt.2 h, compare_gt_iff_gt.2 h]; rfl
    · rw [h, compare_eq_iff_eq.2 rfl]; rfl
    · rw [compare_gt_iff_gt.2 h, compare_lt_iff_lt.2 h]; rfl
  trans a b c h1 h2 := by
    unfold absCmp at *
    rw [ne_eq, compare_gt_iff_gt] at *
    omega

/-! ## C27 -/

theorem LastMax.vec {cmp : T → T → Ordering} (h : OrdLaws cmp) (v : Vec T n) {x : T} (hx : LastMax cmp v.toList x) :
    ∃ k : Fin n, v.get k = x ∧ (∀ i, cmp (v.get i) x ≠ .gt) ∧ ∀ i > k, cmp (v.get i) x = .lt := by
  obtain ⟨pre, post, e, h1, h2⟩ := hx
  obtain ⟨k, k1, k2, k3⟩ := v.split_get e
  refine ⟨k, k1, ?_, fun i hi => h2 _ (k3 i hi)⟩
  intro i
  rcases lt_trichotomy i k with hi | rfl | hi
  · exact h1 _ (k2 i hi)
  · rw [k1, h.refl]; simp
  · rw [h2 _ (k3 i hi)]; simp

theorem FirstMax.vec {cmp : T → T → Ordering} (h : OrdLaws cmp) (v : Vec T n) {x : T} (hx : FirstMax cmp v.toList x) :
    ∃ k : Fin n, v.get k = x ∧ (∀ i, cmp (v.get i) x ≠ .gt) ∧ ∀ i < k, cmp (v.get i) x = .lt := by
  obtain ⟨pre, post, e, h1, h2⟩ := hx
  obtain ⟨k, k1, k2, k3⟩ := v.split_get e
  refine ⟨k, k1, ?_, fun i hi => h1 _ (k2 i hi)⟩
  intro i
  rcases lt_trichotomy i k with hi | rfl | hi
  · rw [h1 _ (k2 i hi)]; simp
  · rw [k1, h.refl]; simp
  · exact h2 _ (k3 i hi)

theorem LastMax.mat {cmp : T → T → Ordering} (h : OrdLaws cmp) (a : Mat T r c) {x : T}
    (hx : LastMax cmp a.toLists.flatten x) :
    ∃ (k : Fin r) (l : Fin c), a.get k l = x ∧ (∀ i j, cmp (a.get i j) x ≠ .gt) ∧
      ∀ i j, PosLt k l i j → cmp (a.get i j) x = .lt := by
  obtain ⟨pre, post, e, h1, h2⟩ := hx
  obtain ⟨k, l, k1, k2, k3⟩ := a.split_get e
  refine ⟨k, l, k1, ?_, fun i j hi => h2 _ (k3 i j hi)⟩
  intro i j
  rcases posLt_tri i j k l with hi | ⟨rfl, rfl⟩ | hi
  · exact h1 _ (k2 i j hi)
  · rw [k1, h.refl]; simp
  · rw [h2 _ (k3 i j hi)]; simp

theorem FirstMax.mat {cmp : T → T → Ordering} (h : OrdLaws cmp) (a : Mat T r c) {x : T}
    (hx : FirstMax cmp a.toLists.flatten x) :
    ∃ (k : Fin r) (l : Fin c), a.get k l = x ∧ (∀ i j, cmp (a.get i j) x ≠ .gt) ∧
      ∀ i j, PosLt i j k l → cmp (a.get i j) x = .lt := by
  obtain ⟨pre, post, e, h1, h2⟩ := hx
  obtain ⟨k, l, k1, k2, k3⟩ := a.split_get e
  refine ⟨k, l, k1, ?_, fun i j hi => h1 _ (k2 i j hi)⟩
  intro i j
  rcases posLt_tri i j k l with hi | ⟨rfl, rfl⟩ | hi
  · rw [h1 _ (k2 i j hi)]; simp
  · rw [k1, h.refl]; simp
  · exact h2 _ (k3 i j hi)

theorem Vec.toList_ne_nil (v : Vec T (n + 1)) : v.toList ≠ [] := by
  intro h; have := v.length_eq; rw [h] at this; simp at this

/-- C27 for vectors of length at least one: `max` returns the last of the greatest elements. -/
theorem C27_vec_max {cmp : T → T → Ordering} (h : OrdLaws cmp) (v : Vec T (n + 1)) :
    ∃ k, v.max cmp = .ok (v.get k) ∧ (∀ i, cmp (v.get i) (v.get k) ≠ .gt) ∧ ∀ i > k, cmp (v.get i) (v.get k) = .lt := by
  obtain ⟨x, h1, h2⟩ := stdMax_spec h v.toList v.toList_ne_nil
  obtain ⟨k, rfl, h4, h5⟩ := h2.vec h v
  exact ⟨k, by simp [Vec.max, h1, unwrap], h4, h5⟩

/-- C27 for vectors of length at least one: `min` returns the first of the least elements. -/
theorem C27_vec_min {cmp : T → T → Ordering} (h : OrdLaws cmp) (v : Vec T (n + 1)) :
    ∃ k, v.min cmp = .ok (v.get k) ∧ (∀ i, cmp (v.get k) (v.get i) ≠ .gt) ∧ ∀ i < k, cmp (v.get k) (v.get i) = .lt := by
  obtain ⟨x, h1, h2⟩ := stdMin_spec h v.toList v.toList_ne_nil
  obtain ⟨k, rfl, h4, h5⟩ := h2.vec h.flip v
  exact ⟨k, by simp [Vec.min, h1, unwrap], h4, h5⟩

theorem mapM_res_split {α β : Type} {l : List α} {g : α → Res β} {ys : List β} (h : l.mapM g = .ok ys)
    {p q : List β} {y : β} (hs : ys = p ++ y :: q) :
    ∃ l1 x l2, l = l1 ++ x :: l2 ∧ g x = .ok y ∧ (∀ z ∈ l1, ∃ w ∈ p, g z = .ok w) ∧ ∀ z ∈ l2, ∃ w ∈ q, g z = .ok w := by
  rw [mapM_ok_iff, hs, List.map_append, List.map_cons] at h
  obtain ⟨l1, l2', e1, e2, e3⟩ := List.map_eq_append_iff.1 h
  obtain ⟨x, l2, e4, e5, e6⟩ := List.map_eq_cons_iff.1 e3
  subst e4
  refine ⟨l1, x, l2, e1, e5, ?_, ?_⟩
  · intro z hz
    have : g z ∈ l1.map g := List.mem_map_of_mem hz
    rw [e2] at this
    obtain ⟨w, hw, hw'⟩ := List.mem_map.1 this
    exact ⟨w, hw, hw'.symm⟩
  · intro z hz
    have : g z ∈ l2.map g := List.mem_map_of_mem hz
    rw [e6] at this
    obtain ⟨w, hw, hw'⟩ := List.mem_map.1 this
    exact ⟨w, hw, hw'.symm⟩

theorem flatten_map_split {l1 l2 : List (Vec T n)} {row : Vec T n} {p q : List T} {x : T}
    (e : row.toList = p ++ x :: q) : ((l1 ++ row :: l2).map Vec.toList).flatten =
      ((l1.map Vec.toList).flatten ++ p) ++ x :: (q ++ (l2.map Vec.toList).flatten) := by
  simp [e]

/-- C27 for square matrices of size at least one: `max` returns the last greatest entry in row-major order. -/
theorem C27_mat_max {cmp : T → T → Ordering} (h : OrdLaws cmp) (a : Mat T (n + 1) (n + 1)) :
    ∃ k l, a.max cmp = .ok (a.get k l) ∧ (∀ i j, cmp (a.get i j) (a.get k l) ≠ .gt) ∧
      ∀ i j, PosLt k l i j → cmp (a.get i j) (a.get k l) = .lt := by
  have hrow : ∀ row : Vec T (n + 1), ∃ x, row.max cmp = .ok x ∧ LastMax cmp row.toList x := fun row => by
    obtain ⟨x, h1, h2⟩ := stdMax_spec h row.toList row.toList_ne_nil
    exact ⟨x, by simp [Vec.max, h1, unwrap], h2⟩
  choose mx hmx hlast using hrow
  have hms := mapM_ok a.rows.toList (fun row => row.max cmp) mx (fun x _ => hmx x)
  obtain ⟨x, h1, pre, post, h2, h3, h4⟩ := stdMax_spec h (a.rows.toList.map mx)
    (by simpa using a.rows.toList_ne_nil)
  obtain ⟨l1, row, l2, e1, e2, e3, e4⟩ := mapM_res_split hms h2
  rw [hmx row] at e2
  obtain rfl : mx row = x := by simpa using e2
  have hmax : a.max cmp = .ok (mx row) := by
    simp only [Mat.max, hms, res_ok_bind, h1]; rfl
  obtain ⟨p, q, e5, e6, e7⟩ := hlast row
  have hle : ∀ z : Vec T (n + 1), ∀ y ∈ z.toList, cmp y (mx z) ≠ .gt := by
    intro z y hy
    obtain ⟨p, q, e5, e6, e7⟩ := hlast z
    rw [e5] at hy
    rcases List.mem_append.1 hy with hy | hy
    · exact e6 y hy
    · rcases List.mem_cons.1 hy with hy | hy
      · rw [← hy, h.refl]; simp
      · rw [e7 y hy]; simp
  have key : LastMax cmp a.toLists.flatten (mx row) := by
    refine ⟨_, _, by rw [Mat.toLists, e1]; exact flatten_map_split e5, ?_, ?_⟩
    · intro y hy
      rcases List.mem_append.1 hy with hy | hy
      · obtain ⟨L, hL, hy⟩ := List.mem_flatten.1 hy
        obtain ⟨z, hz, rfl⟩ := List.mem_map.1 hL
        obtain ⟨w, hw, hw'⟩ := e3 z hz
        rw [hmx z] at hw'
        obtain rfl : mx z = w := by simpa using hw'
        exact h.trans _ _ _ (hle z y hy) (h3 _ hw)
      · exact e6 y hy
    · intro y hy
      rcases List.mem_append.1 hy with hy | hy
      · exact e7 y hy
      · obtain ⟨L, hL, hy⟩ := List.mem_flatten.1 hy
        obtain ⟨z, hz, rfl⟩ := List.mem_map.1 hL
        obtain ⟨w, hw, hw'⟩ := e4 z hz
        rw [hmx z] at hw'
        obtain rfl : mx z = w := by simpa using hw'
        exact h.lt_of_le_of_lt (hle z y hy) (h4 _ hw)
  obtain ⟨k, l, k1, k2, k3⟩ := key.mat h a
  rw [← k1] at k2 k3 hmax
  exact ⟨k, l, hmax, k2, k3⟩

/-- C27 for square matrices of size at least one: `min` returns the first least entry in row-major order. -/
theorem C27_mat_min {cmp : T → T → Ordering} (h : OrdLaws cmp) (a : Mat T (n + 1) (n + 1)) :
    ∃ k l, a.min cmp = .ok (a.get k l) ∧ (∀ i j, cmp (a.get k l) (a.get i j) ≠ .gt) ∧
      ∀ i j, PosLt i j k l → cmp (a.get k l) (a.get i j) = .lt := by
  have hrow : ∀ row : Vec T (n + 1), ∃ x, row.min cmp = .ok x ∧ FirstMax (fun a b => cmp b a) row.toList x := fun row => by
    obtain ⟨x, h1, h2⟩ := stdMin_spec h row.toList row.toList_ne_nil
    exact ⟨x, by simp [Vec.min, h1, unwrap], h2⟩
  choose mx hmx hlast using hrow
  have hms := mapM_ok a.rows.toList (fun row => row.min cmp) mx (fun x _ => hmx x)
  obtain ⟨x, h1, pre, post, h2, h3, h4⟩ := stdMin_spec h (a.rows.toList.map mx)
    (by simpa using a.rows.toList_ne_nil)
  obtain ⟨l1, row, l2, e1, e2, e3, e4⟩ := mapM_res_split hms h2
  rw [hmx row] at e2
  obtain rfl : mx row = x := by simpa using e2
  have hmax : a.min cmp = .ok (mx row) := by
    simp only [Mat.min, hms, res_ok_bind, h1]; rfl
  obtain ⟨p, q, e5, e6, e7⟩ := hlast row
  have hle : ∀ z : Vec T (n + 1), ∀ y ∈ z.toList, cmp (mx z) y ≠ .gt := by
    intro z y hy
    obtain ⟨p, q, e5, e6, e7⟩ := hlast z
    rw [e5] at hy
    rcases List.mem_append.1 hy with hy | hy
    · have e8 : cmp (mx z) y = .lt := e6 y hy
      rw [e8]; simp
    · rcases List.mem_cons.1 hy with hy | hy
      · rw [← hy, h.refl]; simp
      · exact e7 y hy
  have key : FirstMax (fun a b => cmp b a) a.toLists.flatten (mx row) := by
    refine ⟨_, _, by rw [Mat.toLists, e1]; exact flatten_map_split e5, ?_, ?_⟩
    · intro y hy
      rcases List.mem_append.1 hy with hy | hy
      · obtain ⟨L, hL, hy⟩ := List.mem_flatten.1 hy
        obtain ⟨z, hz, rfl⟩ := List.mem_map.1 hL
        obtain ⟨w, hw, hw'⟩ := e3 z hz
        rw [hmx z] at hw'
        obtain rfl : mx z = w := by simpa using hw'
        exact h.lt_of_lt_of_le (h3 _ hw) (hle z y hy)
      · exact e6 y hy
    · intro y hy
      rcases List.mem_append.1 hy with hy | hy
      · exact e7 y hy
      · obtain ⟨L, hL, hy⟩ := List.mem_flatten.1 hy
        obtain ⟨z, hz, rfl⟩ := List.mem_map.1 hL
        obtain ⟨w, hw, hw'⟩ := e4 z hz
        rw [hmx z] at hw'
        obtain rfl : mx z = w := by simpa using hw'
        exact h.trans _ _ _ (h4 _ hw) (hle z y hy)
  obtain ⟨k, l, k1, k2, k3⟩ := key.mat h.flip a
  rw [← k1] at k2 k3 hmax
  exact ⟨k, l, hmax, k2, k3⟩

example : (⟨[3, -5, 5, 1], rfl⟩ : Vec Int 4).max absCmp = .ok 5 ∧ (⟨[3, 1, -5, -1], rfl⟩ : Vec Int 4).min absCmp = .ok 1 :=
  ⟨rfl, rfl⟩
example : (⟨⟨[⟨[1, 7], rfl⟩, ⟨[-7, 4], rfl⟩], rfl⟩⟩ : Mat Int 2 2).max absCmp = .ok (-7) := rfl

/-! ## C28 -/

/-- C28 for vectors: with a comparator that is a total preorder, `max_by` returns the first of the greatest elements. -/
theorem C28_vec_max_by {comp : T → T → Ordering} (h : OrdLaws comp) (v : Vec T (n + 1)) :
    ∃ k, v.maxBy (m := Res) (fun a b => .ok (comp a b)) = .ok (v.get k) ∧
      (∀ i, comp (v.get i) (v.get k) ≠ .gt) ∧ ∀ i < k, comp (v.get i) (v.get k) = .lt := by
  unfold Vec.maxBy
  split
  · rename_i e; exact absurd e v.toList_ne_nil
  · rename_i st it e
    obtain ⟨x, h1, h2⟩ := maxByLoop_spec h it st
    rw [← e] at h2
    obtain ⟨k, rfl, h3, h4⟩ := h2.vec h v
    exact ⟨k, h1, h3, h4⟩

/-- C28 for vectors: `min_by` returns the first of the least elements. -/
theorem C28_vec_min_by {comp : T → T → Ordering} (h : OrdLaws comp) (v : Vec T (n + 1)) :
    ∃ k, v.minBy (m := Res) (fun a b => .ok (comp a b)) = .ok (v.get k) ∧
      (∀ i, comp (v.get k) (v.get i) ≠ .gt) ∧ ∀ i < k, comp (v.get k) (v.get i) = .lt :=
  C28_vec_max_by h.flip v

theorem mat_maxBy_eq {m : Type → Type} [RustM m] (comp : T → T → m Ordering) (a : Mat T n n) :
    a.maxBy comp = match a.toLists.flatten with
      | [] => fault .panic
      | st :: it => Vec.maxByLoop comp st it := by
  have e : a.rows.toList.foldlM (fun st row => row.toList.foldlM (Mat.maxByStep comp) st) none =
      a.toLists.flatten.foldlM (Mat.maxByStep comp) none := by
    rw [← foldlM_flatten, Mat.toLists, List.foldlM_map]
  have loop : ∀ (it : List T) (st : T), it.foldlM (Mat.maxByStep comp) (some st) = some <$> Vec.maxByLoop comp st it := by
    intro it
    induction it with
    | nil => intro st; simp [Vec.maxByLoop]
    | cons y ys ih =>
      intro st
      simp only [List.foldlM_cons, Mat.maxByStep, Vec.maxByLoop, bind_assoc, pure_bind, map_bind]
      congr 1; funext o
      split <;> exact ih _
  rw [Mat.maxBy, e]
  cases a.toLists.flatten with
  | nil => simp [unwrap]
  | cons st it =>
    simp only [List.foldlM_cons, Mat.maxByStep, pure_bind, loop]
    simp [unwrap]

theorem flatten_ne_nil (a : Mat T (n + 1) (n + 1)) : a.toLists.flatten ≠ [] := by
  intro h
  rw [List.flatten_eq_nil_iff] at h
  cases hr : a.rows.toList with
  | nil => exact a.rows.toList_ne_nil hr
  | cons row rows => exact row.toList_ne_nil (h _ (by simp [Mat.toLists, hr]))

/-- C28 for square matrices of size at least one. -/
theorem C28_mat_max_by {comp : T → T → Ordering} (h : OrdLaws comp) (a : Mat T (n + 1) (n + 1)) :
    ∃ k l, a.maxBy (m := Res) (fun x y => .ok (comp x y)) = .ok (a.get k l) ∧
      (∀ i j, comp (a.get i j) (a.get k l) ≠ .gt) ∧ ∀ i j, PosLt i j k l → comp (a.get i j) (a.get k l) = .lt := by
  rw [mat_maxBy_eq]
  split
  · rename_i e; exact absurd e (flatten_ne_nil a)
  · rename_i st it e
    obtain ⟨x, h1, h2⟩ := maxByLoop_spec h it st
    rw [← e] at h2
    obtain ⟨k, l, rfl, h3, h4⟩ := h2.mat h a
    exact ⟨k, l, h1, h3, h4⟩

theorem C28_mat_min_by {comp : T → T → Ordering} (h : OrdLaws comp) (a : Mat T (n + 1) (n + 1)) :
    ∃ k l, a.minBy (m := Res) (fun x y => .ok (comp x y)) = .ok (a.get k l) ∧
      (∀ i j, comp (a.get k l) (a.get i j) ≠ .gt) ∧ ∀ i j, PosLt i j k l → comp (a.get k l) (a.get i j) = .lt :=
  C28_mat_max_by h.flip a

/-- A comparator that may do anything and may keep state; `logged` records the pairs it is called with. -/
def logged {S : Type} (comp : T → T → StM S Ordering) (a b : T) : StM (S × List (T × T)) Ordering :=
  fun s => ((comp a b s.1).1, ((comp a b s.1).2, s.2 ++ [(a, b)]))

theorem maxByLoop_logged {S : Type} (comp : T → T → StM S Ordering) (it : List T) (st : T) (s : S) (log : List (T × T))
    (hc : ∀ a b s, ∃ o s', (comp a b).run s = (.ok o, s')) :
    ∃ x s' log', (Vec.maxByLoop (logged comp) st it).run (s, log) = (.ok x, (s', log ++ log')) ∧
      x ∈ st :: it ∧ log'.map Prod.fst = it := by
  induction it generalizing st s log with
  | nil => exact ⟨st, s, [], by simp [Vec.maxByLoop], by simp, rfl⟩
  | cons y ys ih =>
    obtain ⟨o, s1, h1⟩ := hc y st s
    have h1' : (logged comp y st).run (s, log) = (.ok o, (s1, log ++ [(y, st)])) := by
      have h1 : comp y st s = (.ok o, s1) := h1
      show logged comp y st (s, log) = _
      simp [logged, h1]
    obtain ⟨x, s', log', h2, h3, h4⟩ := ih (if o = .gt then y else st) s1 (log ++ [(y, st)])
    refine ⟨x, s', (y, st) :: log', ?_, ?_, by simp [h4]⟩
    · rw [Vec.maxByLoop, StM.run_bind_ok h1', h2]; simp
    · rcases List.mem_cons.1 h3 with h3 | h3
      · rw [h3]; split <;> simp
      · simp [h3]

/-- C28, any comparator (stateful, not necessarily an order, as long as it does not panic): `max_by` returns one of
the elements and calls the comparator exactly `n` times for `n + 1` elements, on the elements `1, 2, .., n` in order
(each compared with the current champion). -/
theorem C28_vec_calls {S : Type} (comp : T → T → StM S Ordering) (hc : ∀ a b s, ∃ o s', (comp a b).run s = (.ok o, s'))
    (v : Vec T (n + 1)) (s : S) :
    ∃ k s' log, (v.maxBy (logged comp)).run (s, []) = (.ok (v.get k), (s', log)) ∧
      log.map Prod.fst = v.toList.tail ∧ log.length = n := by
  unfold Vec.maxBy
  split
  · rename_i e; exact absurd e v.toList_ne_nil
  · rename_i st it e
    obtain ⟨x, s', log, h1, h2, h3⟩ := maxByLoop_logged comp it st s [] hc
    rw [← e] at h2
    obtain ⟨i, hi, hx⟩ := List.getElem_of_mem h2
    refine ⟨⟨i, by rw [← v.length_eq]; exact hi⟩, s', log, ?_, ?_, ?_⟩
    · rw [h1, ← hx]; rfl
    · rw [h3, e]; rfl
    · have h4 := v.length_eq
      have h5 := congrArg List.length h3
      rw [e] at h4
      simp at h4 h5; omega

theorem maxByLoop_foldlM {m : Type → Type} [RustM m] (comp : T → T → m Ordering) (it : List T) (st : T) :
    Vec.maxByLoop comp st it = it.foldlM (fun st v => do
      let o ← comp v st
      pure (if o = .gt then v else st)) st := by
  induction it generalizing st with
  | nil => rfl
  | cons y ys ih => simp only [Vec.maxByLoop, ih, List.foldlM_cons, bind_assoc, pure_bind]

/-- C28, comparators with any effects (counting, panicking, not an order): starting with the first element, each further
element is compared once, in index order, with the current champion, and replaces it exactly if the answer is `Greater`.
`max_by` passes the element first, `min_by` the champion.  A panic of the comparator stops the search. -/
theorem C28_vec_effects {m : Type → Type} [RustM m] (comp : T → T → m Ordering) (v : Vec T (n + 1)) :
    v.maxBy comp = (List.finRange n).foldlM (fun best i => do
      let o ← comp (v.get i.succ) best
      pure (if o = .gt then v.get i.succ else best)) (v.get 0) ∧
    v.minBy comp = (List.finRange n).foldlM (fun best i => do
      let o ← comp best (v.get i.succ)
      pure (if o = .gt then v.get i.succ else best)) (v.get 0) := by
  have h : ∀ comp : T → T → m Ordering, v.maxBy comp = (List.finRange n).foldlM (fun best i => do
      let o ← comp (v.get i.succ) best
      pure (if o = .gt then v.get i.succ else best)) (v.get 0) := by
    intro comp
    have e : v.toList = v.get 0 :: (List.finRange n).map fun i => v.get i.succ := by
      rw [Vec.toList_eq, List.finRange_succ, List.map_cons, List.map_map]; rfl
    unfold Vec.maxBy
    rw [e]
    simp only [maxByLoop_foldlM, List.foldlM_map]
  exact ⟨h comp, h fun a b => comp b a⟩

/-- C28, matrices, comparators with any effects: the same, over the entries in row-major order. -/
theorem C28_mat_effects {m : Type → Type} [RustM m] (comp : T → T → m Ordering) (a : Mat T (n + 1) (n + 1)) (x : T) (xs : List T)
    (h : (List.finRange (n + 1)).flatMap (fun i => (List.finRange (n + 1)).map fun j => a.get i j) = x :: xs) :
    a.maxBy comp = xs.foldlM (fun best v => do
      let o ← comp v best
      pure (if o = .gt then v else best)) x ∧
    a.minBy comp = xs.foldlM (fun best v => do
      let o ← comp best v
      pure (if o = .gt then v else best)) x := by
  have e : a.toLists.flatten = x :: xs := by
    rw [← h, Mat.toLists, Vec.toList_eq, List.map_map, ← List.flatMap_def]
    simp only [Function.comp_def, Vec.toList_eq]; rfl
  refine ⟨?_, ?_⟩
  · rw [mat_maxBy_eq, e]; exact maxByLoop_foldlM comp xs x
  · rw [Mat.minBy, mat_maxBy_eq, e]; exact maxByLoop_foldlM (fun a b => comp b a) xs x

/-- C28, matrices, any non-panicking comparator: an entry is returned, after exactly `(n+1)² - 1` calls. -/
theorem C28_mat_calls {S : Type} (comp : T → T → StM S Ordering) (hc : ∀ a b s, ∃ o s', (comp a b).run s = (.ok o, s'))
    (a : Mat T (n + 1) (n + 1)) (s : S) :
    ∃ x s' log, (a.maxBy (logged comp)).run (s, []) = (.ok x, (s', log)) ∧ (∃ k l, a.get k l = x) ∧
      log.map Prod.fst = a.toLists.flatten.tail ∧ log.length = (n + 1) * (n + 1) - 1 := by
  rw [mat_maxBy_eq]
  split
  · rename_i e; exact absurd e (flatten_ne_nil a)
  · rename_i st it e
    obtain ⟨x, s', log, h1, h2, h3⟩ := maxByLoop_logged comp it st s [] hc
    refine ⟨x, s', log, by simpa using h1, ?_, by rw [h3, e]; rfl, ?_⟩
    · rw [← e] at h2
      obtain ⟨pre, post, hs⟩ := List.append_of_mem h2
      obtain ⟨k, l, h4, _⟩ := a.split_get hs
      exact ⟨k, l, h4⟩
    · have h5 := congrArg List.length h3
      have h6 : a.toLists.flatten.length = (n + 1) * (n + 1) := by
        rw [List.length_flatten, Mat.toLists, List.map_map]
        rw [show (List.length ∘ Vec.toList : Vec T (n + 1) → Nat) = fun _ => n + 1 from funext fun v => v.length_eq]
        simp [a.rows.length_eq]
      rw [e] at h6
      simp only [List.length_map, List.length_cons] at h5 h6
      omega

example : (⟨[-1, 2, -3, 3], rfl⟩ : Vec Int 4).maxBy (m := Res) (fun a b => .ok (absCmp a b)) = .ok (-3) := rfl
example : (⟨[-1, 2, 1, 3], rfl⟩ : Vec Int 4).minBy (m := Res) (fun a b => .ok (absCmp a b)) = .ok (-1) := rfl

/-! ## C29 -/

/-- What clamping must do to one element, for `lo ≤ hi`: the result is within the bounds, is (up to `Equal`) the
element itself if that is within the bounds, `lo` if it is smaller and `hi` if it is larger. -/
structure Spec.Clamped (cmp : T → T → Ordering) (lo hi x y : T) : Prop where
  ge_lo : cmp lo y ≠ .gt
  le_hi : cmp y hi ≠ .gt
  inside : cmp lo x ≠ .gt → cmp x hi ≠ .gt → cmp y x = .eq
  inside_strict : cmp lo x ≠ .gt → cmp x hi = .lt → y = x
  below : cmp x lo = .lt → cmp y lo = .eq
  below_strict : cmp x lo = .lt → cmp lo hi = .lt → y = lo
  above : cmp x hi = .gt → y = hi

theorem clamp_spec {cmp : T → T → Ordering} (h : OrdLaws cmp) (lo hi x : T) (hle : cmp lo hi ≠ .gt) :
    Clamped cmp lo hi x (cmpMin cmp hi (cmpMax cmp lo x)) := by
  have hswap : ∀ {a b}, cmp a b = .gt → cmp b a = .lt := fun hh => (h.gt_iff _ _).1 hh
  have hle' : ∀ {a b}, cmp a b ≠ .gt → cmp b a ≠ .lt := fun hh hc => hh ((h.lt_iff _ _).1 hc)
  by_cases h1 : cmp lo x = .gt
  · rw [show cmpMax cmp lo x = lo by simp [cmpMax, h1]]
    have h1' := hswap h1
    by_cases h2 : cmp hi lo = .gt
    · rw [show cmpMin cmp hi lo = lo by simp [cmpMin, h2]]
      have h2' := hswap h2
      exact ⟨by simp [h.refl], hle, fun hc => absurd h1 hc, fun hc => absurd h1 hc, fun _ => h.refl _, fun _ _ => rfl,
        fun hx => by
          have := h.lt_of_lt_of_le h1' hle
          rw [hx] at this; simp at this⟩
    · rw [show cmpMin cmp hi lo = hi by simp [cmpMin, h2]]
      have heq : cmp hi lo = .eq := by
        have := hle' hle
        cases e : cmp hi lo <;> simp_all
      exact ⟨hle, by simp [h.refl], fun hc => absurd h1 hc, fun hc => absurd h1 hc, fun _ => heq,
        fun _ hlt => by rw [(h.eq_iff _ _).1 heq] at hlt; simp at hlt, fun _ => rfl⟩
  · rw [show cmpMax cmp lo x = x by simp [cmpMax, h1]]
    by_cases h2 : cmp hi x = .gt
    · rw [show cmpMin cmp hi x = x by simp [cmpMin, h2]]
      have h2' := hswap h2
      exact ⟨h1, by simp [h2'], fun _ _ => h.refl _, fun _ _ => rfl,
        fun hx => absurd ((h.lt_iff _ _).1 hx) h1, fun hx => absurd ((h.lt_iff _ _).1 hx) h1,
        fun hx => by rw [h2'] at hx; simp at hx⟩
    · rw [show cmpMin cmp hi x = hi by simp [cmpMin, h2]]
      refine ⟨hle, by simp [h.refl], fun _ hx => ?_, fun _ hx => absurd ((h.lt_iff _ _).1 hx) h2,
        fun hx => absurd ((h.lt_iff _ _).1 hx) h1, fun hx => absurd ((h.lt_iff _ _).1 hx) h1, fun _ => rfl⟩
      have := hle' hx
      cases e : cmp hi x <;> simp_all

theorem clamp_crossed {cmp : T → T → Ordering} (h : OrdLaws cmp) (lo hi x : T) (hgt : cmp lo hi = .gt) :
    cmpMin cmp hi (cmpMax cmp lo x) = hi := by
  have h1 : cmp hi lo = .lt := (h.gt_iff _ _).1 hgt
  have h2 : cmp lo (cmpMax cmp lo x) ≠ .gt := by
    unfold cmpMax; split
    · simp [h.refl]
    · assumption
  have := h.lt_of_lt_of_le h1 h2
  simp [cmpMin, this]

theorem vec_clamped_eq (t : Target) (cmp : T → T → Ordering) (v : Vec T n) (lo hi : T) :
    v.clamped t cmp lo hi = .ok (Vec.ofFn fun i => cmpMin cmp hi (cmpMax cmp lo (v.get i))) := by
  unfold Vec.clamped
  rw [Vec.toList_eq v, List.map_map]
  exact Vec.collect_finRange_ok t _ _ (fun i => rfl)

theorem vec_clamp_eq (cmp : T → T → Ordering) (v : Vec T n) (lo hi : T) :
    v.clamp cmp lo hi = Vec.ofFn fun i => cmpMin cmp hi (cmpMax cmp lo (v.get i)) := by
  have key := forMut_ofFn_ok n (fun x => (.ok (), cmpMin cmp hi (cmpMax cmp lo x))) v.get
    (fun i => cmpMin cmp hi (cmpMax cmp lo (v.get i))) (fun i => rfl)
  rw [← Vec.toList_eq_ofFn] at key
  apply Vec.ext
  simp only [Vec.clamp, key]; rfl

theorem mat_clamped_eq (t : Target) (cmp : T → T → Ordering) (a : Mat T r c) (lo hi : T) :
    a.clamped t cmp lo hi = .ok (Mat.ofFn fun i j => cmpMin cmp hi (cmpMax cmp lo (a.get i j))) := by
  unfold Mat.clamped
  rw [Vec.collect_map_ok t r a.rows.toList _
    (fun row => Vec.ofFn fun j => cmpMin cmp hi (cmpMax cmp lo (row.get j))) a.rows.length_eq]
  · simp only [res_ok_bind, res_pure, Except.ok.injEq]
    apply Mat.ext_get; intro i j
    rw [Mat.get_ofFn]
    simp [Mat.get, Vec.get, Vec.ofFn]
  · intro row _; exact vec_clamped_eq t cmp row lo hi

theorem mat_clamp_eq (cmp : T → T → Ordering) (a : Mat T r c) (lo hi : T) :
    a.clamp cmp lo hi = Mat.ofFn fun i j => cmpMin cmp hi (cmpMax cmp lo (a.get i j)) := by
  rw [Mat.clamp, Mat.forEach_ok _ a (fun i j => cmpMin cmp hi (cmpMax cmp lo (a.get i j))) (fun _ _ => rfl)]

/-- C29 for vectors, `lo ≤ hi`: `clamped` never fails, `clamp` in place gives the same, every element is clamped. -/
theorem C29_vec_clamp {cmp : T → T → Ordering} (h : OrdLaws cmp) (t : Target) (v : Vec T n) (lo hi : T)
    (hle : cmp lo hi ≠ .gt) :
    ∃ w, v.clamped t cmp lo hi = .ok w ∧ v.clamp cmp lo hi = w ∧ ∀ i, Clamped cmp lo hi (v.get i) (w.get i) :=
  ⟨_, vec_clamped_eq t cmp v lo hi, vec_clamp_eq cmp v lo hi, fun i => by
    rw [Vec.get_ofFn]; exact clamp_spec h lo hi _ hle⟩

/-- C29 for matrices. -/
theorem C29_mat_clamp {cmp : T → T → Ordering} (h : OrdLaws cmp) (t : Target) (a : Mat T r c) (lo hi : T)
    (hle : cmp lo hi ≠ .gt) :
    ∃ w, a.clamped t cmp lo hi = .ok w ∧ a.clamp cmp lo hi = w ∧ ∀ i j, Clamped cmp lo hi (a.get i j) (w.get i j) :=
  ⟨_, mat_clamped_eq t cmp a lo hi, mat_clamp_eq cmp a lo hi, fun i j => by
    rw [Mat.get_ofFn]; exact clamp_spec h lo hi _ hle⟩

/-- C29: with crossed bounds (`lo > hi`) every element becomes `hi`. -/
theorem C29_crossed {cmp : T → T → Ordering} (h : OrdLaws cmp) (t : Target) (v : Vec T n) (a : Mat T r c) (lo hi : T)
    (hgt : cmp lo hi = .gt) :
    (∃ w, v.clamped t cmp lo hi = .ok w ∧ v.clamp cmp lo hi = w ∧ ∀ i, w.get i = hi) ∧
    (∃ w, a.clamped t cmp lo hi = .ok w ∧ a.clamp cmp lo hi = w ∧ ∀ i j, w.get i j = hi) :=
  ⟨⟨_, vec_clamped_eq t cmp v lo hi, vec_clamp_eq cmp v lo hi, fun i => by
    rw [Vec.get_ofFn]; exact clamp_crossed h lo hi _ hgt⟩,
   ⟨_, mat_clamped_eq t cmp a lo hi, mat_clamp_eq cmp a lo hi, fun i j => by
    rw [Mat.get_ofFn]; exact clamp_crossed h lo hi _ hgt⟩⟩

theorem clamp_idem {cmp : T → T → Ordering} (h : OrdLaws cmp) (lo hi x : T) :
    cmpMin cmp hi (cmpMax cmp lo (cmpMin cmp hi (cmpMax cmp lo x))) = cmpMin cmp hi (cmpMax cmp lo x) := by
  by_cases hgt : cmp lo hi = .gt
  · rw [clamp_crossed h lo hi _ hgt, clamp_crossed h lo hi _ hgt]
  · have h1 := clamp_spec h lo hi x hgt
    generalize hy : cmpMin cmp hi (cmpMax cmp lo x) = y at h1 ⊢
    have h2 := clamp_spec h lo hi y hgt
    by_cases hlt : cmp y hi = .lt
    · exact h2.inside_strict h1.ge_lo hlt
    · -- `y` is `hi` up to `Equal`, and then it is `hi` itself
      have e : cmp hi y ≠ .gt := fun hc => hlt ((h.gt_iff _ _).1 hc)
      have e1 : y = hi := by
        by_contra hne
        rw [← hy] at hne
        unfold cmpMin at hne hy
        split at hy
        · rename_i h3
          exact e (by rw [← hy]; exact h3)
        · rename_i h3; rw [if_neg h3] at hne; exact hne rfl
      have e2 : cmpMax cmp lo y = y := by simp [cmpMax, h1.ge_lo]
      rw [e2, e1]; simp [cmpMin, h.refl]

/-- C29: clamping twice is clamping once (for any bounds). -/
theorem C29_idempotent {cmp : T → T → Ordering} (h : OrdLaws cmp) (v : Vec T n) (a : Mat T r c) (lo hi : T) :
    (v.clamp cmp lo hi).clamp cmp lo hi = v.clamp cmp lo hi ∧ (a.clamp cmp lo hi).clamp cmp lo hi = a.clamp cmp lo hi := by
  refine ⟨?_, ?_⟩
  · rw [vec_clamp_eq, vec_clamp_eq]
    apply Vec.ext_get; intro i
    simp only [Vec.get_ofFn, clamp_idem h]
  · rw [mat_clamp_eq, mat_clamp_eq]
    apply Mat.ext_get; intro i j
    simp only [Mat.get_ofFn, clamp_idem h]

example : intCmp 2 6 ≠ .gt ∧ intCmp 6 2 = .gt ∧
    (⟨[1, 5, 8], rfl⟩ : Vec Int 3).clamped ⟨true, true, 2 ^ 64⟩ intCmp 2 6 = .ok ⟨[2, 5, 6], rfl⟩ := ⟨by decide, by decide, rfl⟩

end Rowcol
