import Verif.Lemmas.Collect
import Verif.Spec

/-! Helper lemmas: `mapM` in fault monads, pointwise characterisations of `collect`. -/

namespace Rowcol

theorem map_mapM {m : Type → Type} [RustM m] {α β γ : Type} (l : List α) (g : α → m β) (f : β → γ) :
    List.map f <$> l.mapM g = l.mapM (fun x => f <$> g x) := by
  induction l with
  | nil => simp
  | cons a as ih =>
    simp only [List.mapM_cons, map_bind, map_pure, List.map_cons, bind_map_left]
    congr; funext x
    rw [← ih]
    simp [Functor.map_map]

theorem mapM_map' {m : Type → Type} [RustM m] {α β : Type} (l : List α) (g : α → m β) :
    (l.map g).mapM id = l.mapM g := by
  induction l with
  | nil => simp
  | cons a as ih => simp [ih]

theorem mapM_congr {m : Type → Type} [RustM m] {α β : Type} (l : List α) (f g : α → m β) (h : ∀ x ∈ l, f x = g x) :
    l.mapM f = l.mapM g := by
  induction l with
  | nil => simp
  | cons a as ih =>
    simp only [List.mapM_cons]
    rw [h a (by simp), ih (fun x hx => h x (by simp [hx]))]

theorem mapM_ok_iff {α β : Type} (l : List α) (g : α → Res β) (xs : List β) :
    l.mapM g = .ok xs ↔ l.map g = xs.map .ok := by
  induction l generalizing xs with
  | nil => cases xs <;> simp
  | cons a as ih =>
    simp only [List.mapM_cons, List.map_cons]
    cases ha : g a with
    | error e => cases xs <;> simp
    | ok x =>
      cases xs with
      | nil =>
        simp only [res_ok_bind, List.map_nil, reduceCtorEq, iff_false]
        cases as.mapM g <;> simp
      | cons y ys =>
        simp only [res_ok_bind, List.map_cons, List.cons.injEq, Except.ok.injEq]
        rw [← ih]
        cases as.mapM g <;> simp

theorem mapM_error_iff {α β : Type} (l : List α) (g : α → Res β) (e : Fault) :
    l.mapM g = .error e ↔ ∃ (xs : List β) (rest : List (Res β)), l.map g = xs.map .ok ++ .error e :: rest := by
  induction l with
  | nil => simp
  | cons a as ih =>
    simp only [List.mapM_cons, List.map_cons]
    cases ha : g a with
    | error e' =>
      simp only [res_error_bind, Except.error.injEq]
      constructor
      · rintro rfl; exact ⟨[], _, rfl⟩
      · rintro ⟨xs, rest, h⟩
        cases xs <;> simp at h
        exact h.1
    | ok x =>
      simp only [res_ok_bind]
      constructor
      · intro h
        have : as.mapM g = .error e := by cases h' : as.mapM g <;> simp_all
        obtain ⟨xs, rest, h⟩ := ih.1 this
        exact ⟨x :: xs, rest, by simp [h]⟩
      · rintro ⟨xs, rest, h⟩
        cases xs with
        | nil => simp at h
        | cons y ys =>
          simp at h
          rw [ih.2 ⟨ys, rest, h.2⟩]; rfl

/-- In `Res`, a traversal of total steps succeeds. -/
theorem mapM_ok {α β : Type} (l : List α) (g : α → Res β) (f : α → β) (h : ∀ x ∈ l, g x = .ok (f x)) :
    l.mapM g = .ok (l.map f) := by
  rw [mapM_ok_iff]
  simp only [List.map_map]
  exact List.map_congr_left (by simpa using h)

theorem Vec.collect_ok_iff {T : Type} (t : Target) (n : Nat) (l : List (Res T)) (h : l.length = n) (v : Vec T n) :
    Vec.collect t n l = .ok v ↔ l = v.toList.map .ok := by
  have h1 := Vec.collect_toList t n l h
  have h2 := mapM_ok_iff l id v.toList
  simp only [List.map_id] at h2
  rw [← h2, ← h1]
  cases Vec.collect t n l with
  | error e => simp
  | ok w => simp [Vec.ext_iff]

theorem Vec.collect_error_iff {T : Type} (t : Target) (n : Nat) (l : List (Res T)) (h : l.length = n) (e : Fault) :
    Vec.collect t n l = .error e ↔ ∃ (xs : List T) (rest : List (Res T)), l = xs.map .ok ++ .error e :: rest := by
  have h1 := Vec.collect_toList t n l h
  have h2 := mapM_error_iff l id e
  simp only [List.map_id] at h2
  rw [← h2, ← h1]
  cases Vec.collect t n l <;> simp

theorem Vec.collect_map_ok {T U : Type} (t : Target) (n : Nat) (l : List U) (g : U → Res T) (f : U → T)
    (h : l.length = n) (hg : ∀ x ∈ l, g x = .ok (f x)) :
    Vec.collect t n (l.map g) = .ok ⟨l.map f, by simp [h]⟩ := by
  rw [Vec.collect_ok_iff _ _ _ (by simp [h])]
  simp only [List.map_map]
  exact List.map_congr_left (by simpa using hg)

theorem Vec.getElem_toList {T : Type} {n : Nat} (v : Vec T n) (i : Nat) (h : i < n) :
    v.toList[i]? = some (v.get ⟨i, h⟩) := by
  rw [List.getElem?_eq_getElem (by rw [v.length_eq]; exact h)]; rfl

theorem Vec.ext_get {T : Type} {n : Nat} {v w : Vec T n} (h : ∀ i, v.get i = w.get i) : v = w := by
  apply Vec.ext
  apply List.ext_getElem (by rw [v.length_eq, w.length_eq])
  intro i h1 h2
  exact h ⟨i, by rw [← v.length_eq]; exact h1⟩

theorem Mat.toLists_injective {T : Type} {r c : Nat} {a b : Mat T r c} (h : a.toLists = b.toLists) : a = b := by
  apply Mat.ext; apply Vec.ext
  have : ∀ (x y : List (Vec T c)), x.map Vec.toList = y.map Vec.toList → x = y := by
    intro x
    induction x with
    | nil => intro y h; cases y <;> simp_all
    | cons v vs ih =>
      intro y h
      cases y with
      | nil => simp at h
      | cons w ws =>
        simp at h
        rw [Vec.ext h.1, ih ws h.2]
  exact this _ _ h

theorem Mat.ext_get {T : Type} {r c : Nat} {a b : Mat T r c} (h : ∀ i j, a.get i j = b.get i j) : a = b := by
  apply Mat.ext
  apply Vec.ext_get; intro i; apply Vec.ext_get; intro j; exact h i j

/-- Collecting rows of collected entries. -/
theorem Mat.collect_toLists {m : Type → Type} [RustM m] {T α β : Type} (t : Target) (r c : Nat) (l : List α)
    (g : α → List β) (f : α → β → m T) (hl : l.length = r) (hg : ∀ x ∈ l, (g x).length = c) :
    Mat.toLists <$> (do
      let v ← Vec.collect t r (l.map fun x => Vec.collect t c ((g x).map (f x)))
      pure (⟨v⟩ : Mat T r c)) = l.mapM (fun x => (g x).mapM (f x)) := by
  have h1 := Vec.collect_toList t r (l.map fun x => Vec.collect t c ((g x).map (f x))) (by simp [hl])
  simp only [bind_pure_comp, Functor.map_map, Mat.toLists]
  have h2 := congrArg (fun q => List.map Vec.toList <$> q) h1
  simp only [Functor.map_map] at h2
  rw [h2, mapM_map', map_mapM]
  apply mapM_congr
  intro x hx
  rw [Vec.collect_toList _ _ _ (by simp [hg x hx]), mapM_map']

end Rowcol
