import Verif.Lemmas.Order
import Verif.Lemmas.StM
import Verif.Model.Display
import Mathlib.Data.List.FinRange
import Mathlib.Algebra.BigOperators.Fin

/-! What the two loops of `Display for Matrix` compute. -/

namespace Rowcol

namespace Spec

/-- The greatest of some numbers (0 if there are none). -/
def greatest (l : List Nat) : Nat := l.foldl max 0

end Spec

open Spec

theorem foldl_max_init (l : List Nat) (k : Nat) : l.foldl max k = max k (l.foldl max 0) := by
  induction l generalizing k with
  | nil => simp
  | cons a l ih => rw [List.foldl_cons, List.foldl_cons, ih, ih (max 0 a)]; omega

theorem greatest_cons (a : Nat) (l : List Nat) : greatest (a :: l) = max a (greatest l) := by
  rw [greatest, List.foldl_cons, foldl_max_init]; simp [greatest]

theorem le_greatest {l : List Nat} {x : Nat} (h : x ∈ l) : x ≤ greatest l := by
  induction l with
  | nil => simp at h
  | cons a l ih =>
    rw [greatest_cons]
    rcases List.mem_cons.1 h with rfl | h
    · omega
    · have := ih h; omega

theorem greatest_mem (l : List Nat) : greatest l = 0 ∨ greatest l ∈ l := by
  induction l with
  | nil => left; rfl
  | cons a l ih =>
    rw [greatest_cons]
    rcases Nat.le_total (greatest l) a with h | h
    · right; rw [Nat.max_eq_left h]; simp
    · rw [Nat.max_eq_right h]
      rcases ih with h' | h'
      · left; exact h'
      · right; simp [h']

theorem stdMax_eq_greatest (l : List Nat) : (stdMax compare l).getD 0 = greatest l := by
  cases l with
  | nil => rfl
  | cons a l =>
    have : ∀ (l : List Nat) (a : Nat), l.foldl (fun acc y => if compare acc y ≠ .gt then y else acc) a = l.foldl max a := by
      intro l
      induction l with
      | nil => intro a; rfl
      | cons b l ih =>
        intro a
        rw [List.foldl_cons, List.foldl_cons, ih]
        congr 1
        split
        · rename_i h
          have : ¬ b < a := by rwa [Ne, Nat.compare_eq_gt] at h
          omega
        · rename_i h
          have : b < a := by
            rw [Ne, Nat.compare_eq_gt] at h
            exact Decidable.not_not.1 h
          omega
    simp only [stdMax, Option.getD_some]
    rw [this, greatest, List.foldl_cons]; simp

namespace Mat
variable {T : Type} {r c : Nat}

/-- Sizes given by functions. -/
def sz (w : Fin c → Nat) (h : Fin r → Nat) : Sizes r c := ⟨Vec.ofFn w, Vec.ofFn h⟩

theorem bump_ofFn {n : Nat} (w : Fin n → Nat) (j : Fin n) (k : Nat) :
    bump (Vec.ofFn w) j k = .ok (Vec.ofFn (Function.update w j (Max.max (w j) k))) := by
  unfold bump
  rw [Vec.index_ok _ j.isLt]
  simp only [res_ok_bind, Fin.eta, Vec.get_ofFn]
  split
  · rename_i h
    rw [Vec.indexSet_ok _ j.isLt]
    congr 1
    apply Vec.ext_get
    intro i
    rw [Vec.get_put, Vec.get_ofFn, Vec.get_ofFn]
    by_cases hi : i = j
    · subst hi; simp; omega
    · rw [Function.update_of_ne hi, if_neg (fun h => hi (Fin.ext h))]
  · rename_i h
    change Except.ok _ = _
    congr 1
    apply Vec.ext_get
    intro i
    rw [Vec.get_ofFn, Vec.get_ofFn]
    by_cases hi : i = j
    · subst hi; simp; omega
    · rw [Function.update_of_ne hi]

variable (lines : List Char → List (List Char)) (cw : Char → Nat) (render : T → List Char) (a : Mat T r c)

/-- The widest line of an entry. -/
def entryW (i : Fin r) (j : Fin c) : Nat := greatest ((lines (render (a.get i j))).map (strLen cw))

/-- The number of lines of an entry. -/
def entryH (i : Fin r) (j : Fin c) : Nat := (lines (render (a.get i j))).length

theorem renderStep_run (i : Fin r) (j : Fin c) (w : Fin c → Nat) (h : Fin r → Nat) :
    (renderStep lines cw render a i j).run (sz w h) =
      (.ok (render (a.get i j), entryW lines cw render a i j),
        sz (Function.update w j (Max.max (w j) (entryW lines cw render a i j)))
          (Function.update h i (Max.max (h i) (entryH lines render a i j)))) := by
  unfold renderStep
  rw [Mat.index_ok a i.isLt j.isLt, StM.run_bind_ok (StM.run_liftRes_ok _ _)]
  simp only [Fin.eta]
  rw [StM.run_bind_ok (StM.run_mget _), stdMax_eq_greatest]
  simp only [sz]
  rw [bump_ofFn, StM.run_bind_ok (StM.run_liftRes_ok _ _), StM.run_bind_ok (StM.run_set _ _),
    StM.run_bind_ok (StM.run_mget _)]
  simp only
  rw [bump_ofFn, StM.run_bind_ok (StM.run_liftRes_ok _ _), StM.run_bind_ok (StM.run_set _ _)]
  rfl

end Mat

/-- A stateful loop whose every step succeeds. -/
theorem run_mapM_fold {S ι α : Type} (f : ι → StM S α) (g : ι → α) (step : S → ι → S) (is : List ι) (s : S)
    (h : ∀ i ∈ is, ∀ s, (f i).run s = (.ok (g i), step s i)) :
    (is.mapM f).run s = (.ok (is.map g), is.foldl step s) := by
  induction is generalizing s with
  | nil => rfl
  | cons i is ih =>
    rw [List.mapM_cons, StM.run_bind_ok (h i (by simp) s), StM.run_bind_ok (ih _ fun j hj => h j (by simp [hj]))]
    rfl

theorem collect_run {S T : Type} {n : Nat} (t : Target) (l : List (StM S T)) (s s' : S) (xs : List T)
    (hl : l.length = n) (hx : xs.length = n) (h : (l.mapM id).run s = (.ok xs, s')) :
    (Vec.collect t n l).run s = (.ok ⟨xs, hx⟩, s') := by
  have h1 := congrArg (fun x : StM S (List T) => x.run s) (Vec.collect_toList t n l hl)
  simp only [h, StM.run_map] at h1
  rcases hr : (Vec.collect t n l).run s with ⟨res, s1⟩
  rw [hr] at h1
  cases res with
  | error e => exact absurd (Prod.mk.inj h1).1 (by simp)
  | ok v =>
    have h2 := Except.ok.inj (Prod.mk.inj h1).1
    have h3 := (Prod.mk.inj h1).2
    subst h3
    have h4 : v = ⟨xs, hx⟩ := Vec.ext h2
    rw [h4]

theorem foldl_update_nodup {ι : Type} [DecidableEq ι] (F : ι → Nat → Nat) (js : List ι) (hn : js.Nodup) (w : ι → Nat) :
    js.foldl (fun w j => Function.update w j (F j (w j))) w = fun j => if j ∈ js then F j (w j) else w j := by
  induction js generalizing w with
  | nil => simp
  | cons a js ih =>
    rw [List.nodup_cons] at hn
    rw [List.foldl_cons, ih hn.2]
    funext j
    by_cases hj : j = a
    · subst hj; simp [hn.1]
    · simp [hj]

theorem foldl_update_one {ι κ : Type} [DecidableEq ι] (G : κ → Nat) (i : ι) (js : List κ) (h : ι → Nat) :
    js.foldl (fun h j => Function.update h i (Max.max (h i) (G j))) h =
      Function.update h i (Max.max (h i) (greatest (js.map G))) := by
  induction js generalizing h with
  | nil => simp [greatest]
  | cons a js ih =>
    rw [List.foldl_cons, ih, List.map_cons, greatest_cons]
    simp only [Function.update_self, Function.update_idem]
    congr 1; omega

namespace Mat
variable {T : Type} {r c : Nat}
variable (lines : List Char → List (List Char)) (cw : Char → Nat) (render : T → List Char) (a : Mat T r c)

theorem renderRow_run (t : Target) (i : Fin r) (w : Fin c → Nat) (h : Fin r → Nat) :
    (Vec.collect t c ((List.range c).map fun j => renderStep lines cw render a i j)).run (sz w h) =
      (.ok (Vec.ofFn fun j => (render (a.get i j), entryW lines cw render a i j)),
        sz (fun j => Max.max (w j) (entryW lines cw render a i j))
          (Function.update h i (Max.max (h i) (greatest ((List.finRange c).map fun j => entryH lines render a i j))))) := by
  have h1 : (((List.range c).map fun j => renderStep lines cw render a i j).mapM id).run (sz w h) =
      (.ok ((List.finRange c).map fun j => (render (a.get i j), entryW lines cw render a i j)),
        sz (fun j => Max.max (w j) (entryW lines cw render a i j))
          (Function.update h i (Max.max (h i) (greatest ((List.finRange c).map fun j => entryH lines render a i j))))) := by
    rw [mapM_map', Vec.range_eq]
    have h2 : ∀ (js : List (Fin c)) (w : Fin c → Nat) (h : Fin r → Nat),
        ((js.map Fin.val).mapM fun j => renderStep lines cw render a i j).run (sz w h) =
        (.ok (js.map fun j => (render (a.get i j), entryW lines cw render a i j)),
          sz (js.foldl (fun w j => Function.update w j (Max.max (w j) (entryW lines cw render a i j))) w)
            (js.foldl (fun h j => Function.update h i (Max.max (h i) (entryH lines render a i j))) h)) := by
      intro js
      induction js with
      | nil => intro w h; rfl
      | cons j js ih =>
        intro w h
        rw [List.map_cons, List.mapM_cons, StM.run_bind_ok (renderStep_run lines cw render a i j w h),
          StM.run_bind_ok (ih _ _)]
        rfl
    rw [h2, foldl_update_one, foldl_update_nodup (fun j x => Max.max x (entryW lines cw render a i j)) _ (List.nodup_finRange c)]
    simp
  rw [collect_run t _ _ _ _ (by simp) (by simp) h1]
  congr 2
  apply Vec.ext
  rw [Vec.toList_ofFn]

/-- The widths of the columns. -/
def colW (j : Fin c) : Nat := greatest ((List.finRange r).map fun i => entryW lines cw render a i j)

/-- The number of text lines of the rows. -/
def rowH (i : Fin r) : Nat := greatest ((List.finRange c).map fun j => entryH lines render a i j)

theorem renderAll_run (t : Target) :
    (renderAll t lines cw render a).run (sz (fun _ => 0) (fun _ => 0)) =
      (.ok (Vec.ofFn fun i => Vec.ofFn fun j => (render (a.get i j), entryW lines cw render a i j)),
        sz (colW lines cw render a) (rowH lines render a)) := by
  unfold renderAll
  have h2 : ∀ (is : List (Fin r)) (w : Fin c → Nat) (h : Fin r → Nat),
      ((is.map Fin.val).mapM fun i => Vec.collect t c ((List.range c).map fun j => renderStep lines cw render a i j)).run (sz w h) =
      (.ok (is.map fun i => Vec.ofFn fun j => (render (a.get i j), entryW lines cw render a i j)),
        sz (fun j => Max.max (w j) (greatest (is.map fun i => entryW lines cw render a i j)))
          (is.foldl (fun h i => Function.update h i (Max.max (h i) (rowH lines render a i))) h)) := by
    intro is
    induction is with
    | nil => intro w h; simp [greatest]
    | cons i is ih =>
      intro w h
      rw [List.map_cons, List.mapM_cons, StM.run_bind_ok (renderRow_run lines cw render a t i w h), StM.run_bind_ok (ih _ _)]
      simp only [List.map_cons, List.foldl_cons, greatest_cons]
      rw [StM.run_pure]
      congr 2
      funext j
      omega
  have h1 : (((List.range r).map fun i => Vec.collect t c ((List.range c).map fun j => renderStep lines cw render a i j)).mapM id).run
      (sz (fun _ => 0) (fun _ => 0)) =
      (.ok ((List.finRange r).map fun i => Vec.ofFn fun j => (render (a.get i j), entryW lines cw render a i j)),
        sz (colW lines cw render a) (rowH lines render a)) := by
    rw [mapM_map', Vec.range_eq r, h2,
      foldl_update_nodup (fun i x => Max.max x (rowH lines render a i)) _ (List.nodup_finRange r)]
    congr 2
    funext i; simp
  rw [collect_run t _ _ _ _ (by simp) (by simp) h1]
  congr 2
  apply Vec.ext
  rw [Vec.toList_ofFn]

end Mat
end Rowcol
