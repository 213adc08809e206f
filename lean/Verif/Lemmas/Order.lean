import Verif.Lemmas.Loops
import Mathlib.Data.List.Basic
import Mathlib.Order.Fin.Basic

/-! Lemmas on comparison functions, on the maximum of a list, and on positions of a matrix. -/

namespace Rowcol

/-- The laws of `Ord::cmp`: a total preorder (`Equal` need not mean identical). -/
structure Spec.OrdLaws {T : Type} (cmp : T → T → Ordering) : Prop where
  swap : ∀ a b, cmp b a = (cmp a b).swap
  trans : ∀ a b c, cmp a b ≠ .gt → cmp b c ≠ .gt → cmp a c ≠ .gt

namespace Spec.OrdLaws
variable {T : Type} {cmp : T → T → Ordering} (h : OrdLaws cmp)
include h

theorem refl (a : T) : cmp a a = .eq := by
  have := h.swap a a
  cases e : cmp a a <;> simp_all

theorem gt_iff (a b : T) : cmp a b = .gt ↔ cmp b a = .lt := by
  rw [h.swap a b]; cases cmp a b <;> simp

theorem lt_iff (a b : T) : cmp a b = .lt ↔ cmp b a = .gt := by
  rw [h.swap a b]; cases cmp a b <;> simp

theorem eq_iff (a b : T) : cmp a b = .eq ↔ cmp b a = .eq := by
  rw [h.swap a b]; cases cmp a b <;> simp

theorem lt_of_lt_of_le {a b c : T} (h1 : cmp a b = .lt) (h2 : cmp b c ≠ .gt) : cmp a c = .lt := by
  have h3 := h.trans a b c (by rw [h1]; simp) h2
  cases e : cmp a c with
  | lt => rfl
  | gt => exact absurd e h3
  | eq =>
    have := h.trans b c a h2 (by rw [(h.eq_iff a c).1 e]; simp)
    exact absurd ((h.lt_iff a b).1 h1) this

theorem lt_of_le_of_lt {a b c : T} (h1 : cmp a b ≠ .gt) (h2 : cmp b c = .lt) : cmp a c = .lt := by
  have h3 := h.trans a b c h1 (by rw [h2]; simp)
  cases e : cmp a c with
  | lt => rfl
  | gt => exact absurd e h3
  | eq =>
    have := h.trans c a b (by rw [(h.eq_iff a c).1 e]; simp) h1
    exact absurd ((h.lt_iff b c).1 h2) this

/-- The reversed order. -/
theorem flip : OrdLaws (fun a b => cmp b a) where
  swap a b := h.swap b a
  trans a b c h1 h2 := h.trans c b a h2 h1

end Spec.OrdLaws

open Spec

variable {T : Type}

/-- The shape of `l` around its last maximum `x`. -/
def LastMax (cmp : T → T → Ordering) (l : List T) (x : T) : Prop :=
  ∃ pre post, l = pre ++ x :: post ∧ (∀ y ∈ pre, cmp y x ≠ .gt) ∧ ∀ y ∈ post, cmp y x = .lt

/-- The shape of `l` around its first maximum `x`. -/
def FirstMax (cmp : T → T → Ordering) (l : List T) (x : T) : Prop :=
  ∃ pre post, l = pre ++ x :: post ∧ (∀ y ∈ pre, cmp y x = .lt) ∧ ∀ y ∈ post, cmp y x ≠ .gt

theorem LastMax.snoc {cmp : T → T → Ordering} (h : OrdLaws cmp) {l : List T} {x : T} (hx : LastMax cmp l x) (y : T) :
    LastMax cmp (l ++ [y]) (if cmp x y ≠ .gt then y else x) := by
  obtain ⟨pre, post, rfl, h1, h2⟩ := hx
  by_cases hy : cmp x y ≠ .gt
  · rw [if_pos hy]
    refine ⟨pre ++ x :: post, [], by simp, ?_, by simp⟩
    intro z hz
    rcases List.mem_append.1 hz with hz | hz
    · exact h.trans _ _ _ (h1 z hz) hy
    · rcases List.mem_cons.1 hz with rfl | hz
      · exact hy
      · exact h.trans _ _ _ (by rw [h2 z hz]; simp) hy
  · rw [if_neg hy]
    refine ⟨pre, post ++ [y], by simp, h1, ?_⟩
    intro z hz
    rcases List.mem_append.1 hz with hz | hz
    · exact h2 z hz
    · rw [List.mem_singleton.1 hz]; exact (h.gt_iff x y).1 (not_not.1 hy)

theorem FirstMax.snoc {cmp : T → T → Ordering} (h : OrdLaws cmp) {l : List T} {x : T} (hx : FirstMax cmp l x) (y : T) :
    FirstMax cmp (l ++ [y]) (if cmp y x = .gt then y else x) := by
  obtain ⟨pre, post, rfl, h1, h2⟩ := hx
  by_cases hy : cmp y x = .gt
  · rw [if_pos hy]
    have hxy := (h.gt_iff y x).1 hy
    refine ⟨pre ++ x :: post, [], by simp, ?_, by simp⟩
    intro z hz
    rcases List.mem_append.1 hz with hz | hz
    · exact h.lt_of_lt_of_le (h1 z hz) (by rw [hxy]; simp)
    · rcases List.mem_cons.1 hz with rfl | hz
      · exact hxy
      · exact h.lt_of_le_of_lt (h2 z hz) hxy
  · rw [if_neg hy]
    refine ⟨pre, post ++ [y], by simp, h1, ?_⟩
    intro z hz
    rcases List.mem_append.1 hz with hz | hz
    · exact h2 z hz
    · rw [List.mem_singleton.1 hz]; exact hy

theorem stdMax_spec {cmp : T → T → Ordering} (h : OrdLaws cmp) (l : List T) (hl : l ≠ []) :
    ∃ x, stdMax cmp l = some x ∧ LastMax cmp l x := by
  cases l with
  | nil => exact absurd rfl hl
  | cons a as =>
    refine ⟨_, rfl, ?_⟩
    have : ∀ (xs pre : List T) (acc : T), LastMax cmp pre acc →
        LastMax cmp (pre ++ xs) (xs.foldl (fun acc y => if cmp acc y ≠ .gt then y else acc) acc) := by
      intro xs
      induction xs with
      | nil => intro pre acc hp; simpa using hp
      | cons y ys ih =>
        intro pre acc hp
        have := ih (pre ++ [y]) _ (hp.snoc h y)
        simpa using this
    simpa using this as [a] a ⟨[], [], rfl, by simp, by simp⟩

theorem stdMin_spec {cmp : T → T → Ordering} (h : OrdLaws cmp) (l : List T) (hl : l ≠ []) :
    ∃ x, stdMin cmp l = some x ∧ FirstMax (fun a b => cmp b a) l x := by
  cases l with
  | nil => exact absurd rfl hl
  | cons a as =>
    refine ⟨_, rfl, ?_⟩
    have : ∀ (xs pre : List T) (acc : T), FirstMax (fun a b => cmp b a) pre acc →
        FirstMax (fun a b => cmp b a) (pre ++ xs) (xs.foldl (fun acc y => if cmp acc y = .gt then y else acc) acc) := by
      intro xs
      induction xs with
      | nil => intro pre acc hp; simpa using hp
      | cons y ys ih =>
        intro pre acc hp
        have := ih (pre ++ [y]) _ (hp.snoc h.flip y)
        simpa using this
    simpa using this as [a] a ⟨[], [], rfl, by simp, by simp⟩

theorem maxByLoop_spec {comp : T → T → Ordering} (h : OrdLaws comp) (as : List T) (a : T) :
    ∃ x, Vec.maxByLoop (m := Res) (fun x y => .ok (comp x y)) a as = .ok x ∧ FirstMax comp (a :: as) x := by
  have : ∀ (xs pre : List T) (acc : T), FirstMax comp pre acc →
      ∃ x, Vec.maxByLoop (m := Res) (fun x y => .ok (comp x y)) acc xs = .ok x ∧ FirstMax comp (pre ++ xs) x := by
    intro xs
    induction xs with
    | nil => intro pre acc hp; exact ⟨acc, rfl, by simpa using hp⟩
    | cons y ys ih =>
      intro pre acc hp
      obtain ⟨x, h1, h2⟩ := ih (pre ++ [y]) _ (hp.snoc h y)
      exact ⟨x, by simpa [Vec.maxByLoop] using h1, by simpa using h2⟩
  exact this as [a] a ⟨[], [], rfl, by simp, by simp⟩

/-! ### Positions -/

theorem Vec.split_get {n : Nat} (v : Vec T n) {pre post : List T} {x : T} (h : v.toList = pre ++ x :: post) :
    ∃ k : Fin n, v.get k = x ∧ (∀ i < k, v.get i ∈ pre) ∧ ∀ i > k, v.get i ∈ post := by
  have hlen := v.length_eq
  have hk : pre.length < n := by rw [← hlen, h]; simp
  have hget : ∀ (i : Fin n), v.get i = (pre ++ x :: post)[i.val]'(by rw [← h, hlen]; exact i.isLt) := by
    intro i; simp [Vec.get, h]
  refine ⟨⟨pre.length, hk⟩, ?_, ?_, ?_⟩
  · rw [hget]; simp
  · intro i hi
    have hi' : i.val < pre.length := hi
    rw [hget, List.getElem_append_left hi']
    exact List.getElem_mem _
  · intro i hi
    have hi' : pre.length < i.val := hi
    rw [hget, List.getElem_append_right (Nat.le_of_lt hi')]
    have hl2 : i.val - pre.length - 1 < post.length := by
      have h2 : i.val < pre.length + (post.length + 1) := by
        have h5 := i.isLt
        have h6 : n = pre.length + (post.length + 1) := by rw [← hlen, h]; simp
        omega
      omega
    rw [List.getElem_cons]
    split
    · omega
    · exact List.getElem_mem _

/-- Row-major (lexicographic) order of positions. -/
def PosLt {r c : Nat} (i : Fin r) (j : Fin c) (k : Fin r) (l : Fin c) : Prop := i < k ∨ (i = k ∧ j < l)

theorem posLt_tri {r c : Nat} (i : Fin r) (j : Fin c) (k : Fin r) (l : Fin c) :
    PosLt i j k l ∨ (i = k ∧ j = l) ∨ PosLt k l i j := by
  unfold PosLt
  rcases lt_trichotomy i k with h | h | h
  · exact Or.inl (Or.inl h)
  · rcases lt_trichotomy j l with h' | h' | h'
    · exact Or.inl (Or.inr ⟨h, h'⟩)
    · exact Or.inr (Or.inl ⟨h, h'⟩)
    · exact Or.inr (Or.inr (Or.inr ⟨h.symm, h'⟩))
  · exact Or.inr (Or.inr (Or.inl h))

theorem flatten_split {L : List (List T)} {pre post : List T} {x : T} (h : L.flatten = pre ++ x :: post) :
    ∃ L1 p q L2, L = L1 ++ (p ++ x :: q) :: L2 ∧ pre = L1.flatten ++ p ∧ post = q ++ L2.flatten := by
  induction L generalizing pre with
  | nil => simp at h
  | cons a L ih =>
    rw [List.flatten_cons] at h
    rcases List.append_eq_append_iff.1 h with ⟨as, h1, h2⟩ | ⟨bs, h1, h2⟩
    · obtain ⟨L1, p, q, L2, e1, e2, e3⟩ := ih h2
      exact ⟨a :: L1, p, q, L2, by simp [e1], by simp [h1, e2], e3⟩
    · cases bs with
      | nil =>
        simp only [List.append_nil, List.nil_append] at h1 h2
        obtain ⟨L1, p, q, L2, e1, e2, e3⟩ := ih (pre := []) (by simpa using h2.symm)
        exact ⟨a :: L1, p, q, L2, by simp [e1], by
          have := List.append_eq_nil_iff.1 e2.symm
          simp [h1, this.1, this.2], e3⟩
      | cons b bs =>
        simp only [List.cons_append, List.cons.injEq] at h2
        exact ⟨[], pre, bs, L, by simp [h1, h2.1], by simp, h2.2⟩

theorem Mat.split_get {r c : Nat} (a : Mat T r c) {pre post : List T} {x : T}
    (h : a.toLists.flatten = pre ++ x :: post) :
    ∃ (k : Fin r) (l : Fin c), a.get k l = x ∧ (∀ i j, PosLt i j k l → a.get i j ∈ pre) ∧
      ∀ i j, PosLt k l i j → a.get i j ∈ post := by
  obtain ⟨L1, p, q, L2, h1, h2, h3⟩ := flatten_split h
  obtain ⟨R1, R2', e1, e2, e3⟩ := List.map_eq_append_iff.1 h1
  obtain ⟨row, R2, e4, e5, e6⟩ := List.map_eq_cons_iff.1 e3
  subst e4
  obtain ⟨k, hk1, hk2, hk3⟩ := Vec.split_get a.rows e1
  obtain ⟨l, hl1, hl2, hl3⟩ := Vec.split_get row e5
  refine ⟨k, l, by rw [Mat.get, hk1, hl1], ?_, ?_⟩
  · rintro i j (hi | ⟨rfl, hj⟩)
    · rw [h2, ← e2]
      refine List.mem_append_left _ (List.mem_flatten.2 ⟨_, List.mem_map_of_mem (hk2 i hi), ?_⟩)
      exact List.getElem_mem _
    · rw [h2]; refine List.mem_append_right _ ?_
      rw [Mat.get, hk1]; exact hl2 j hj
  · rintro i j (hi | ⟨rfl, hj⟩)
    · rw [h3, ← e6]
      refine List.mem_append_right _ (List.mem_flatten.2 ⟨_, List.mem_map_of_mem (hk3 i hi), ?_⟩)
      exact List.getElem_mem _
    · rw [h3]; refine List.mem_append_left _ ?_
      rw [Mat.get, hk1]; exact hl3 j hj

theorem foldlM_flatten {m : Type → Type} [RustM m] {S : Type} (f : S → T → m S) (L : List (List T)) (s : S) :
    L.foldlM (fun st row => row.foldlM f st) s = L.flatten.foldlM f s := by
  induction L generalizing s with
  | nil => simp
  | cons a L ih => simp [ih]

end Rowcol
