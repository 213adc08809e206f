import Verif.Lemmas.Index

/-! Vectors and matrices given by their entries; pointwise characterisation of `collect`. -/

namespace Rowcol

namespace Vec
variable {m : Type → Type} [RustM m] {T U V : Type} {n : Nat}

def ofFn (f : Fin n → T) : Vec T n := ⟨List.ofFn f, by simp⟩

@[simp] theorem get_ofFn (f : Fin n → T) (i : Fin n) : (ofFn f).get i = f i := by simp [get, ofFn]

theorem toList_ofFn (f : Fin n → T) : (ofFn f).toList = (List.finRange n).map f := by
  apply List.ext_getElem (by simp [ofFn])
  intro i h1 h2
  simp [ofFn]

theorem toList_eq (v : Vec T n) : v.toList = (List.finRange n).map v.get := by
  apply List.ext_getElem (by simp [v.length_eq])
  intro i h1 h2
  simp [get]

@[simp] theorem ofFn_get (v : Vec T n) : ofFn v.get = v := by apply Vec.ext_get; simp

theorem zip_eq (a : Vec T n) (b : Vec U n) :
    a.toList.zip b.toList = (List.finRange n).map fun i => (a.get i, b.get i) := by
  rw [toList_eq a, toList_eq b, List.zip_map', ]

theorem zipIdx_eq (a : Vec T n) : a.toList.zipIdx = (List.finRange n).map fun i => (a.get i, i.val) := by
  apply List.ext_getElem (by simp [a.length_eq])
  intro i h1 h2
  simp [get]

theorem range_eq (n : Nat) : List.range n = (List.finRange n).map Fin.val := by
  apply List.ext_getElem (by simp)
  intro i h1 h2
  simp

theorem collect_finRange_toList (t : Target) (f : Fin n → m T) :
    toList <$> collect t n ((List.finRange n).map f) = (List.finRange n).mapM f := by
  rw [collect_toList _ _ _ (by simp), mapM_map']

theorem collect_finRange_ok_iff (t : Target) (f : Fin n → Res T) (v : Vec T n) :
    collect t n ((List.finRange n).map f) = .ok v ↔ ∀ i, f i = .ok (v.get i) := by
  rw [collect_ok_iff _ _ _ (by simp), toList_eq v, List.map_map, List.map_inj_left]
  simp

theorem collect_finRange_ok (t : Target) (f : Fin n → Res T) (g : Fin n → T) (h : ∀ i, f i = .ok (g i)) :
    collect t n ((List.finRange n).map f) = .ok (ofFn g) := by
  rw [collect_finRange_ok_iff]; simpa using h

theorem collect_finRange_error_iff (t : Target) (f : Fin n → Res T) (e : Fault) :
    collect t n ((List.finRange n).map f) = .error e ↔
      ∃ k, f k = .error e ∧ ∀ i < k, ∃ x, f i = .ok x := by
  rw [collect_error_iff _ _ _ (by simp)]
  constructor
  · rintro ⟨xs, rest, h⟩
    have hl := congrArg List.length h
    simp at hl
    have hk : xs.length < n := by omega
    refine ⟨⟨xs.length, hk⟩, ?_, ?_⟩
    · have := congrArg (fun l => l[xs.length]?) h
      simpa [hk] using this
    · intro i hi
      have hi' : i.val < xs.length := hi
      have := congrArg (fun l => l[i.val]?) h
      rw [List.getElem?_append_left (by simpa using hi')] at this
      simp [hi'] at this
      exact ⟨_, this⟩
  · rintro ⟨k, hk, hlt⟩
    have : ∀ (j : Nat) (hj : j ≤ n), (∀ i : Fin n, i.val < j → ∃ x, f i = .ok x) →
        ∃ xs : List T, ((List.finRange n).map f).take j = xs.map .ok := by
      intro j
      induction j with
      | zero => intro _ _; exact ⟨[], by simp⟩
      | succ j ih =>
        intro hj h
        obtain ⟨xs, hxs⟩ := ih (by omega) (fun i hi => h i (by omega))
        obtain ⟨x, hx⟩ := h ⟨j, hj⟩ (by simp)
        refine ⟨xs ++ [x], ?_⟩
        rw [List.take_add_one, hxs]
        have : j < n := hj
        simp [this, hx]
    obtain ⟨xs, hxs⟩ := this k.val (Nat.le_of_lt k.isLt) (fun i hi => hlt i hi)
    refine ⟨xs, ((List.finRange n).map f).drop (k.val + 1), ?_⟩
    have hd : ((List.finRange n).map f).drop k.val = .error e :: ((List.finRange n).map f).drop (k.val + 1) := by
      rw [List.drop_eq_getElem_cons (by simp)]
      simp [hk]
    rw [← hd, ← hxs, List.take_append_drop]

end Vec

namespace Mat
variable {T U V : Type} {r c : Nat}

def ofFn (f : Fin r → Fin c → T) : Mat T r c := ⟨Vec.ofFn fun i => Vec.ofFn (f i)⟩

@[simp] theorem get_ofFn (f : Fin r → Fin c → T) (i : Fin r) (j : Fin c) : (ofFn f).get i j = f i j := by
  simp [get, ofFn]

@[simp] theorem ofFn_get (a : Mat T r c) : ofFn a.get = a := by apply Mat.ext_get; simp

theorem ext_iff_get {a b : Mat T r c} : a = b ↔ ∀ i j, a.get i j = b.get i j :=
  ⟨fun h _ _ => by rw [h], ext_get⟩

theorem collect_ok_iff (t : Target) (f : Fin r → Fin c → Res T) (a : Mat T r c) :
    (do let v ← Vec.collect t r ((List.finRange r).map fun i => Vec.collect t c ((List.finRange c).map (f i)))
        pure (⟨v⟩ : Mat T r c) : Res (Mat T r c)) = .ok a ↔ ∀ i j, f i j = .ok (a.get i j) := by
  have : ∀ x : Res (Vec (Vec T c) r), (do let v ← x; pure (⟨v⟩ : Mat T r c) : Res (Mat T r c)) = .ok a ↔
      x = .ok a.rows := by
    intro x; cases x <;> simp [Mat.ext_iff]
  rw [this, Vec.collect_finRange_ok_iff]
  constructor
  · intro h i j; exact (Vec.collect_finRange_ok_iff t (f i) _).1 (h i) j
  · intro h i; exact (Vec.collect_finRange_ok_iff t (f i) _).2 (h i)

theorem collect_ok (t : Target) (f : Fin r → Fin c → Res T) (g : Fin r → Fin c → T) (h : ∀ i j, f i j = .ok (g i j)) :
    (do let v ← Vec.collect t r ((List.finRange r).map fun i => Vec.collect t c ((List.finRange c).map (f i)))
        pure (⟨v⟩ : Mat T r c) : Res (Mat T r c)) = .ok (ofFn g) := by
  rw [collect_ok_iff]; simpa using h

/-- The first fault in row-major order is the fault of the whole. -/
theorem collect_error_iff (t : Target) (f : Fin r → Fin c → Res T) (e : Fault) :
    (do let v ← Vec.collect t r ((List.finRange r).map fun i => Vec.collect t c ((List.finRange c).map (f i)))
        pure (⟨v⟩ : Mat T r c) : Res (Mat T r c)) = .error e ↔
      ∃ i j, f i j = .error e ∧ ∀ i' j', (i' < i ∨ (i' = i ∧ j' < j)) → ∃ x, f i' j' = .ok x := by
  have : ∀ x : Res (Vec (Vec T c) r), (do let v ← x; pure (⟨v⟩ : Mat T r c) : Res (Mat T r c)) = .error e ↔
      x = .error e := by
    intro x; cases x <;> simp
  rw [this, Vec.collect_finRange_error_iff]
  constructor
  · rintro ⟨i, hi, hlt⟩
    obtain ⟨j, hj, hjl⟩ := (Vec.collect_finRange_error_iff t (f i) e).1 hi
    refine ⟨i, j, hj, ?_⟩
    rintro i' j' (h | ⟨rfl, h⟩)
    · obtain ⟨v, hv⟩ := hlt i' h
      exact ⟨_, (Vec.collect_finRange_ok_iff t (f i') v).1 hv j'⟩
    · exact hjl j' h
  · rintro ⟨i, j, hij, h⟩
    refine ⟨i, (Vec.collect_finRange_error_iff t (f i) e).2 ⟨j, hij, fun j' hj' => h i j' (.inr ⟨rfl, hj'⟩)⟩, ?_⟩
    intro i' hi'
    have : ∀ j', ∃ x, f i' j' = .ok x := fun j' => h i' j' (.inl hi')
    refine ⟨Vec.ofFn fun j' => Classical.choose (this j'), ?_⟩
    rw [Vec.collect_finRange_ok_iff]
    intro j'
    rw [Vec.get_ofFn]
    exact Classical.choose_spec (this j')

end Mat
end Rowcol
