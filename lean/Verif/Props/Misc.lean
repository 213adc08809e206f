import Verif.Props.Products
import Verif.Props.Collect

/-! # C30-C32, C34: equality, constants, Debug -/

namespace Rowcol
open Spec

variable {m : Type → Type} [RustM m] {T U V : Type} {n r c l : Nat}

/-! ## C30 -/

theorem sliceEq_iff (e : T → U → Bool) (n : Nat) (f : Fin n → T) (g : Fin n → U) :
    sliceEq e (List.ofFn f) (List.ofFn g) = true ↔ ∀ i, e (f i) (g i) = true := by
  induction n with
  | zero => simp [sliceEq]
  | succ n ih => simp [List.ofFn_succ, sliceEq, ih, Fin.forall_fin_succ]

/-- C30 for vectors (elements possibly of different types). -/
theorem C30_vec_eq (e : T → U → Bool) (a : Vec T n) (b : Vec U n) :
    a.eq e b = true ↔ ∀ i, e (a.get i) (b.get i) = true := by
  rw [Vec.eq, Vec.toList_eq_ofFn a, Vec.toList_eq_ofFn b, sliceEq_iff]

/-- C30 for matrices. -/
theorem C30_mat_eq (e : T → T → Bool) (a b : Mat T r c) :
    a.eq e b = true ↔ ∀ i j, e (a.get i j) (b.get i j) = true := by
  unfold Mat.eq
  rw [C30_vec_eq]
  simp only [C30_vec_eq]; rfl

/-- C30: with a lawful element equality, `==` decides equality of vectors and matrices. -/
theorem C30_lawful (e : T → T → Bool) (he : ∀ x y, e x y = true ↔ x = y) (v w : Vec T n) (a b : Mat T r c) :
    (v.eq e w = true ↔ v = w) ∧ (a.eq e b = true ↔ a = b) := by
  rw [C30_vec_eq, C30_mat_eq]
  simp only [he]
  exact ⟨⟨Vec.ext_get, fun h _ => by rw [h]⟩, ⟨Mat.ext_get, fun h _ _ => by rw [h]⟩⟩

/-- C30: `==` on vectors and matrices is symmetric and transitive if it is so on elements. -/
theorem C30_equivalence (e : T → T → Bool) (v w x : Vec T n) (a b d : Mat T r c)
    (hs : ∀ x y, e x y = true → e y x = true) (ht : ∀ x y z, e x y = true → e y z = true → e x z = true) :
    (v.eq e w = true → w.eq e v = true) ∧ (v.eq e w = true → w.eq e x = true → v.eq e x = true) ∧
    (a.eq e b = true → b.eq e a = true) ∧ (a.eq e b = true → b.eq e d = true → a.eq e d = true) := by
  simp only [C30_vec_eq, C30_mat_eq]
  exact ⟨fun h i => hs _ _ (h i), fun h h' i => ht _ _ _ (h i) (h' i), fun h i j => hs _ _ (h i j),
    fun h h' i j => ht _ _ _ (h i j) (h' i j)⟩

example : (⟨[1, 2], rfl⟩ : Vec Int 2).eq (· == ·) (⟨[1, 2], rfl⟩ : Vec Int 2) = true ∧
    (⟨[1, 2], rfl⟩ : Vec Int 2).eq (· == ·) (⟨[1, 3], rfl⟩ : Vec Int 2) = false := ⟨rfl, rfl⟩

/-! ## C31

`impl Eq for Vector<T, N> where T: PartialEq` (src/vector.rs:209-214) and the same for matrices
(src/matrix/mod.rs:295-301): the bound is `PartialEq`, not `Eq`. -/

/-- C31 holds when the element equality is reflexive (`T: Eq`).  What is missing: the impls do not require it, and
then the property is false, see `C31_false`. -/
theorem C31_eq_refl_partial (e : T → T → Bool) (he : ∀ x, e x x = true) (v : Vec T n) (a : Mat T r c) :
    v.eq e v = true ∧ a.eq e a = true := by
  rw [C30_vec_eq, C30_mat_eq]
  exact ⟨fun i => he _, fun i j => he _⟩

/-- C31 is false of the code: a vector or matrix with one element that is not equal to itself (such as a NaN) is not
equal to itself, although its type implements `Eq`. -/
theorem C31_false (e : T → T → Bool) (v : Vec T n) (a : Mat T r c) :
    ((∃ i, e (v.get i) (v.get i) = false) → v.eq e v = false) ∧
    ((∃ i j, e (a.get i j) (a.get i j) = false) → a.eq e a = false) := by
  refine ⟨?_, ?_⟩
  · rintro ⟨i, hi⟩
    rw [Bool.eq_false_iff, ne_eq, C30_vec_eq]
    intro h; rw [h i] at hi; simp at hi
  · rintro ⟨i, j, hi⟩
    rw [Bool.eq_false_iff, ne_eq, C30_mat_eq]
    intro h; rw [h i j] at hi; simp at hi

/-- Floats with NaN: `none` is not equal to itself. -/
def nanEq : Option Int → Option Int → Bool
  | some a, some b => a == b
  | _, _ => false

example : nanEq none none = false ∧ (⟨[some 1, none], rfl⟩ : Vec (Option Int) 2).eq nanEq ⟨[some 1, none], rfl⟩ = false :=
  ⟨rfl, rfl⟩

/-! ## C32 -/

theorem vec_const (t : Target) (x : T) : Vec.generate t n (fun _ => (.ok x : Res T)) = .ok (Vec.ofFn fun _ => x) :=
  Vec.generate_ok t _ _ fun _ => rfl

theorem mat_const (t : Target) (x : T) : Mat.generate t r c (fun _ => (.ok x : Res T)) = .ok (Mat.ofFn fun _ _ => x) :=
  Mat.generate_ok t _ _ fun _ _ => rfl

/-- C32 for vectors: the constants fill the vector. -/
theorem C32_vec_const (t : Target) (x : T) :
    (∃ v : Vec T n, Vec.zero t n x = .ok v ∧ ∀ i, v.get i = x) ∧
    (∃ v : Vec T n, Vec.default t n (.ok x : Res T) = .ok v ∧ ∀ i, v.get i = x) ∧
    (∃ v : Vec T n, Vec.minValue t n x = .ok v ∧ ∀ i, v.get i = x) ∧
    (∃ v : Vec T n, Vec.maxValue t n x = .ok v ∧ ∀ i, v.get i = x) :=
  ⟨⟨_, vec_const t x, by simp⟩, ⟨_, vec_const t x, by simp⟩, ⟨_, vec_const t x, by simp⟩, ⟨_, vec_const t x, by simp⟩⟩

/-- C32 for matrices. -/
theorem C32_mat_const (t : Target) (x : T) :
    (∃ a : Mat T r c, Mat.zero t r c x = .ok a ∧ ∀ i j, a.get i j = x) ∧
    (∃ a : Mat T r c, Mat.default t r c (.ok x : Res T) = .ok a ∧ ∀ i j, a.get i j = x) ∧
    (∃ a : Mat T r c, Mat.minValue t r c x = .ok a ∧ ∀ i j, a.get i j = x) ∧
    (∃ a : Mat T r c, Mat.maxValue t r c x = .ok a ∧ ∀ i j, a.get i j = x) := by
  refine ⟨⟨_, mat_const t x, by simp⟩, ?_, ⟨_, mat_const t x, by simp⟩, ⟨_, mat_const t x, by simp⟩⟩
  refine ⟨Mat.ofFn fun _ _ => x, ?_, by simp⟩
  unfold Mat.default Vec.default
  rw [vec_const t x, vec_const t]; rfl

/-- C32: `is_zero` holds exactly when every entry is zero. -/
theorem C32_is_zero (isz : T → Bool) (v : Vec T n) (a : Mat T r c) :
    (v.isZero isz = true ↔ ∀ i, isz (v.get i) = true) ∧ (a.isZero isz = true ↔ ∀ i j, isz (a.get i j) = true) := by
  have hv : ∀ {k : Nat} (v : Vec T k), v.toList.all isz = true ↔ ∀ i, isz (v.get i) = true := by
    intro k v
    rw [Vec.toList_eq v]; simp
  refine ⟨hv v, ?_⟩
  rw [Mat.isZero, Vec.toList_eq a.rows]
  simp only [List.all_map, List.all_eq_true, List.mem_finRange, forall_const, Function.comp]
  exact forall_congr' fun i => by rw [← List.all_eq_true]; exact hv (a.rows.get i)

/-- C32: `zero()` satisfies `is_zero()`. -/
theorem C32_zero_is_zero (t : Target) (isz : T → Bool) (z : T) (hz : isz z = true) :
    (Vec.zero t n z).map (Vec.isZero isz) = .ok true ∧ (Mat.zero t r c z).map (Mat.isZero isz) = .ok true := by
  obtain ⟨⟨v, h1, h2⟩, _⟩ := C32_vec_const (n := n) t z
  obtain ⟨⟨a, h3, h4⟩, _⟩ := C32_mat_const (r := r) (c := c) t z
  rw [h1, h3]
  refine ⟨congrArg Except.ok ?_, congrArg Except.ok ?_⟩
  · exact ((C32_is_zero isz v a).1).2 fun i => by rw [h2]; exact hz
  · exact ((C32_is_zero isz v a).2).2 fun i j => by rw [h4]; exact hz

/-- C32: `default` calls the element's `default` once per entry. -/
theorem C32_default_calls (t : Target) (d : m T) :
    Vec.toList <$> Vec.default t n d = (List.range n).mapM (fun _ => d) ∧
    Mat.toLists <$> Mat.default t r c d = (List.range r).mapM fun _ => (List.range c).mapM fun _ => d := by
  refine ⟨C06_vec_generate t n _, ?_⟩
  rw [show (Mat.default t r c d : m (Mat T r c)) = Mat.generate t r c (fun _ => d) from rfl, C06_mat_generate]

example : (⟨[0, 0], rfl⟩ : Vec Int 2).isZero (· == 0) = true ∧ (⟨[0, 5], rfl⟩ : Vec Int 2).isZero (· == 0) = false := ⟨rfl, rfl⟩

/-! ## C34 -/

/-- The list output of Rust's `{:?}`: elements separated by `", "` in brackets. -/
def Spec.listText : List String → String
  | [] => "[]"
  | s :: ss => "[" ++ s ++ String.join (ss.map fun x => ", " ++ x) ++ "]"

theorem debugList_eq (d : T → String) (l : List T) : debugList d l = listText (l.map d) := by
  have key : ∀ (ss : List String) (s : String), String.intercalate ", " (s :: ss) = s ++ String.join (ss.map fun x => ", " ++ x) := by
    intro ss
    induction ss with
    | nil => intro s; simp
    | cons x xs ih => intro s; simp [ih]; simp [String.append_assoc]
  unfold debugList
  cases l with
  | nil => simp [listText]
  | cons a as => rw [List.map_cons, key, listText]; simp [String.append_assoc]

/-- C34 for vectors: `Vector[e0, e1, ...]`. -/
theorem C34_vec_debug (d : T → String) (v : Vec T n) :
    v.debug d = "Vector" ++ listText ((List.finRange n).map fun i => d (v.get i)) := by
  rw [Vec.debug, debugList_eq, Vec.toList_eq, List.map_map]; rfl

theorem debugRows_last (d : T → String) (L : List (Vec T c)) (k : Nat) (last : Vec T c) :
    Mat.debugRows d (k + L.length) ((L ++ [last]).zipIdx k) =
      String.join (L.map fun row => debugList d row.toList ++ ", ") ++ debugList d last.toList := by
  induction L generalizing k with
  | nil => simp [Mat.debugRows]
  | cons row L ih =>
    have h1 : k ≠ k + (row :: L).length := by simp
    have h2 : k + (row :: L).length = (k + 1) + L.length := by simp; omega
    rw [List.cons_append, List.zipIdx_cons, Mat.debugRows, if_pos h1, h2, ih (k + 1)]
    simp [String.append_assoc]

theorem listText_snoc (L : List String) (s : String) :
    listText (L ++ [s]) = "[" ++ (String.join (L.map fun x => x ++ ", ") ++ s) ++ "]" := by
  have shift : ∀ (L : List String) (x : String), x ++ String.join ((L ++ [s]).map fun x => ", " ++ x) =
      String.join ((x :: L).map fun x => x ++ ", ") ++ s := by
    intro L
    induction L with
    | nil => intro x; simp [String.append_assoc]
    | cons y ys ih =>
      intro x
      rw [List.map_cons (l := y :: ys), String.join_cons, String.append_assoc, ← ih y]
      simp [String.append_assoc]
  cases L with
  | nil => simp [listText]
  | cons x xs =>
    rw [List.cons_append]
    simp only [listText]
    rw [← shift xs x]
    simp only [String.append_assoc]

/-- C34 for matrices with at least one row: `Matrix[[..], [..], ...]`, no panic in any build.  What is missing: with
zero rows it panics when overflow is checked, see `C34_false`. -/
theorem C34_mat_debug_partial (t : Target) (d : T → String) (a : Mat T (r + 1) c) :
    a.debug t d = .ok ("Matrix" ++ listText ((List.finRange (r + 1)).map fun i =>
      listText ((List.finRange c).map fun j => d (a.get i j)))) := by
  have hl := a.rows.length_eq
  have hne := List.ne_nil_of_length_eq_add_one hl
  obtain ⟨L, last, hL⟩ : ∃ L last, a.rows.toList = L ++ [last] :=
    ⟨_, _, (List.dropLast_append_getLast hne).symm⟩
  have hlen : L.length = r := by rw [hL] at hl; simpa using hl
  have e := debugRows_last d L 0 last
  rw [Nat.zero_add, hlen] at e
  have hrows : (List.finRange (r + 1)).map (fun i => listText ((List.finRange c).map fun j => d (a.get i j))) =
      (L ++ [last]).map fun row => debugList d row.toList := by
    rw [← hL, Vec.toList_eq a.rows, List.map_map]
    apply List.map_congr_left; intro i _
    simp only [Function.comp, debugList_eq]
    rw [Vec.toList_eq (a.rows.get i), List.map_map]; rfl
  have hu : usub t (Vec.len a.rows) 1 = .ok r := by simp [usub, Vec.len]
  rw [Mat.debug, hu, hrows]
  simp only [res_ok_bind, res_pure, hL, e, Except.ok.injEq]
  rw [List.map_append, List.map_cons, List.map_nil, listText_snoc, List.map_map]
  rw [show ("Matrix[" : String) = "Matrix" ++ "[" from rfl]
  simp only [String.append_assoc, Function.comp_def]

/-- C34 is false for matrices without rows: `self.0.len() - 1` underflows, so a build with overflow checks panics;
other builds print `Matrix[]`. -/
theorem C34_false (t : Target) (d : T → String) (a : Mat T 0 c) :
    a.debug t d = if t.overflowChecks then .error .panic else .ok "Matrix[]" := by
  have h : a.rows.toList = [] := List.length_eq_zero_iff.1 a.rows.length_eq
  unfold Mat.debug
  simp only [usub, Vec.len, h]
  cases t.overflowChecks
  · rfl
  · rfl

example : (⟨⟨[⟨[1, 2], rfl⟩, ⟨[3, 4], rfl⟩], rfl⟩⟩ : Mat Nat 2 2).debug ⟨true, true, 2 ^ 64⟩ toString =
    .ok "Matrix[[1, 2], [3, 4]]" := by decide +kernel
example : (⟨⟨[], rfl⟩⟩ : Mat Nat 0 2).debug ⟨true, true, 2 ^ 64⟩ toString = .error .panic := rfl

end Rowcol
