import Verif.Lemmas.OfFn

/-! Helper lemmas about the in-place loops `forMut` and `forMutZip`. -/

namespace Rowcol

variable {T U : Type}

theorem forMutZip_ofFn_ok (n : Nat) (body : T → U → Res Unit × T) (a g : Fin n → T) (b : Fin n → U)
    (h : ∀ i, body (a i) (b i) = (.ok (), g i)) :
    forMutZip body (List.ofFn a) (List.ofFn b) = (.ok (), List.ofFn g) := by
  induction n with
  | zero => simp [forMutZip]
  | succ n ih =>
    simp only [List.ofFn_succ, forMutZip, h 0]
    rw [ih (fun i => a i.succ) (fun i => g i.succ) (fun i => b i.succ) (fun i => h i.succ)]

theorem forMutZip_ofFn_error (n : Nat) (body : T → U → Res Unit × T) (a g : Fin n → T) (b : Fin n → U)
    (k : Fin n) (e : Fault) (y : T)
    (h : ∀ i < k, body (a i) (b i) = (.ok (), g i)) (hk : body (a k) (b k) = (.error e, y)) :
    forMutZip body (List.ofFn a) (List.ofFn b) =
      (.error e, List.ofFn fun i => if i < k then g i else if i = k then y else a i) := by
  induction n with
  | zero => exact k.elim0
  | succ n ih =>
    simp only [List.ofFn_succ, forMutZip]
    cases k using Fin.cases with
    | zero => rw [hk]; simp [Fin.succ_ne_zero]
    | succ k =>
      rw [h 0 (Fin.succ_pos k)]
      rw [ih (fun i => a i.succ) (fun i => g i.succ) (fun i => b i.succ) k
        (fun i hi => h i.succ (Fin.succ_lt_succ_iff.2 hi)) hk]
      simp

theorem forMut_eq_zip (body : T → Res Unit × T) (l : List T) :
    forMut body l = forMutZip (fun x (_ : Unit) => body x) l (List.replicate l.length ()) := by
  induction l with
  | nil => rfl
  | cons a as ih =>
    simp only [List.length_cons, List.replicate_succ, forMut, forMutZip]
    rw [← ih]

theorem forMut_ofFn_ok (n : Nat) (body : T → Res Unit × T) (a g : Fin n → T)
    (h : ∀ i, body (a i) = (.ok (), g i)) :
    forMut body (List.ofFn a) = (.ok (), List.ofFn g) := by
  rw [forMut_eq_zip]
  have := forMutZip_ofFn_ok n (fun x (_ : Unit) => body x) a g (fun _ => ()) h
  rw [← this, show List.replicate (List.ofFn a).length () = List.ofFn (fun _ : Fin n => ()) from by
    apply List.ext_getElem <;> simp]

theorem forMut_ofFn_error (n : Nat) (body : T → Res Unit × T) (a g : Fin n → T) (k : Fin n) (e : Fault) (y : T)
    (h : ∀ i < k, body (a i) = (.ok (), g i)) (hk : body (a k) = (.error e, y)) :
    forMut body (List.ofFn a) = (.error e, List.ofFn fun i => if i < k then g i else if i = k then y else a i) := by
  rw [forMut_eq_zip]
  have := forMutZip_ofFn_error n (fun x (_ : Unit) => body x) a g (fun _ => ()) k e y h hk
  rw [← this, show List.replicate (List.ofFn a).length () = List.ofFn (fun _ : Fin n => ()) from by
    apply List.ext_getElem <;> simp]

theorem Vec.toList_eq_ofFn {n : Nat} (v : Vec T n) : v.toList = List.ofFn v.get := by
  conv => lhs; rw [← Vec.ofFn_get v]
  rfl

namespace Vec
variable {n : Nat} {V : Type}

theorem addAssign_ok (f : T → U → Res T) (a : Vec T n) (b : Vec U n) (g : Fin n → T)
    (h : ∀ i, f (a.get i) (b.get i) = .ok (g i)) : addAssign f a b = (.ok (), ofFn g) := by
  have key := forMutZip_ofFn_ok n (assign f) a.get g b.get (fun i => by simp [assign, h i])
  rw [← toList_eq_ofFn, ← toList_eq_ofFn] at key
  simp only [addAssign, key]; rfl

theorem addAssign_error (f : T → U → Res T) (a : Vec T n) (b : Vec U n) (k : Fin n) (e : Fault) (g : Fin n → T)
    (h : ∀ i < k, f (a.get i) (b.get i) = .ok (g i)) (hk : f (a.get k) (b.get k) = .error e) :
    addAssign f a b = (.error e, ofFn fun i => if i < k then g i else a.get i) := by
  have key := forMutZip_ofFn_error n (assign f) a.get g b.get k e (a.get k) (fun i hi => by simp [assign, h i hi])
    (by simp [assign, hk])
  rw [← toList_eq_ofFn, ← toList_eq_ofFn] at key
  simp only [addAssign, key]
  have : (fun i => if i < k then g i else if i = k then a.get k else a.get i) =
      fun i => if i < k then g i else a.get i := by
    funext i
    by_cases h2 : i = k
    · subst h2; simp
    · simp [h2]
  simp only [this]; rfl

theorem mulAssign_ok (f : T → U → Res T) (a : Vec T n) (s : U) (g : Fin n → T)
    (h : ∀ i, f (a.get i) s = .ok (g i)) : mulAssign f a s = (.ok (), ofFn g) := by
  have key := forMut_ofFn_ok n (fun e => assign f e s) a.get g (fun i => by simp [assign, h i])
  rw [← toList_eq_ofFn] at key
  simp only [mulAssign, key]; rfl

theorem mulAssign_error (f : T → U → Res T) (a : Vec T n) (s : U) (k : Fin n) (e : Fault) (g : Fin n → T)
    (h : ∀ i < k, f (a.get i) s = .ok (g i)) (hk : f (a.get k) s = .error e) :
    mulAssign f a s = (.error e, ofFn fun i => if i < k then g i else a.get i) := by
  have key := forMut_ofFn_error n (fun e => assign f e s) a.get g k e (a.get k) (fun i hi => by simp [assign, h i hi])
    (by simp [assign, hk])
  rw [← toList_eq_ofFn] at key
  simp only [mulAssign, key]
  have : (fun i => if i < k then g i else if i = k then a.get k else a.get i) =
      fun i => if i < k then g i else a.get i := by
    funext i
    by_cases h2 : i = k
    · subst h2; simp
    · simp [h2]
  simp only [this]; rfl

end Vec

namespace Mat
variable {r c : Nat}

theorem rowAssign_eq (f : T → U → Res T) (x : Vec T c) (y : Vec U c) : rowAssign f x y = x.addAssign f y := rfl

theorem addAssign_ok (f : T → U → Res T) (a : Mat T r c) (b : Mat U r c) (g : Fin r → Fin c → T)
    (h : ∀ i j, f (a.get i j) (b.get i j) = .ok (g i j)) : addAssign f a b = (.ok (), ofFn g) := by
  have key := forMutZip_ofFn_ok r (rowAssign f) a.rows.get (fun i => Vec.ofFn (g i)) b.rows.get
    (fun i => by rw [rowAssign_eq]; exact Vec.addAssign_ok f _ _ (g i) (h i))
  rw [← Vec.toList_eq_ofFn, ← Vec.toList_eq_ofFn] at key
  simp only [addAssign, key]; rfl

theorem addAssign_error (f : T → U → Res T) (a : Mat T r c) (b : Mat U r c) (k : Fin r) (l : Fin c) (e : Fault)
    (g : Fin r → Fin c → T)
    (h : ∀ i j, (i < k ∨ (i = k ∧ j < l)) → f (a.get i j) (b.get i j) = .ok (g i j))
    (hk : f (a.get k l) (b.get k l) = .error e) :
    addAssign f a b =
      (.error e, ofFn fun i j => if i < k ∨ (i = k ∧ j < l) then g i j else a.get i j) := by
  have key := forMutZip_ofFn_error r (rowAssign f) a.rows.get (fun i => Vec.ofFn (g i)) b.rows.get k e
    (Vec.ofFn fun j => if j < l then g k j else a.get k j)
    (fun i hi => by rw [rowAssign_eq]; exact Vec.addAssign_ok f _ _ (g i) (fun j => h i j (.inl hi)))
    (by rw [rowAssign_eq]; exact Vec.addAssign_error f _ _ l e (g k) (fun j hj => h k j (.inr ⟨rfl, hj⟩)) hk)
  rw [← Vec.toList_eq_ofFn, ← Vec.toList_eq_ofFn] at key
  simp only [addAssign, key]
  refine Prod.ext rfl ?_
  apply ext_get
  intro i j
  simp only [get_ofFn]
  simp only [get]
  rw [show ∀ (x : Fin r → Vec T c) (hx), (⟨List.ofFn x, hx⟩ : Vec (Vec T c) r).get i = x i from
    fun x hx => Vec.get_ofFn x i]
  rcases Nat.lt_trichotomy i.val k.val with hik | hik | hik
  · have h1 : i < k := hik
    simp [h1]
  · have h1 : i = k := Fin.ext hik
    subst h1; simp
  · have h1 : ¬ i < k := fun h => by have : i.val < k.val := h; omega
    have h2 : i ≠ k := fun h => by simp [h] at hik
    simp [h1, h2]

theorem forEach_ok (body : T → Res Unit × T) (a : Mat T r c) (g : Fin r → Fin c → T)
    (h : ∀ i j, body (a.get i j) = (.ok (), g i j)) : forEach body a = (.ok (), ofFn g) := by
  have hrow : ∀ i, rowMut body (a.rows.get i) = (.ok (), Vec.ofFn (g i)) := by
    intro i
    have := forMut_ofFn_ok c body (a.rows.get i).get (g i) (h i)
    rw [← Vec.toList_eq_ofFn] at this
    simp only [rowMut, this]; rfl
  have key := forMut_ofFn_ok r (rowMut body) a.rows.get (fun i => Vec.ofFn (g i)) hrow
  rw [← Vec.toList_eq_ofFn] at key
  simp only [forEach, key]; rfl

theorem forEach_error (body : T → Res Unit × T) (a : Mat T r c) (k : Fin r) (l : Fin c) (e : Fault)
    (g : Fin r → Fin c → T)
    (h : ∀ i j, (i < k ∨ (i = k ∧ j < l)) → body (a.get i j) = (.ok (), g i j))
    (hk : body (a.get k l) = (.error e, a.get k l)) :
    forEach body a = (.error e, ofFn fun i j => if i < k ∨ (i = k ∧ j < l) then g i j else a.get i j) := by
  have hrow : ∀ i < k, rowMut body (a.rows.get i) = (.ok (), Vec.ofFn (g i)) := by
    intro i hi
    have := forMut_ofFn_ok c body (a.rows.get i).get (g i) (fun j => h i j (.inl hi))
    rw [← Vec.toList_eq_ofFn] at this
    simp only [rowMut, this]; rfl
  have hrowk : rowMut body (a.rows.get k) = (.error e, Vec.ofFn fun j => if j < l then g k j else a.get k j) := by
    have := forMut_ofFn_error c body (a.rows.get k).get (g k) l e (a.get k l)
      (fun j hj => h k j (.inr ⟨rfl, hj⟩)) hk
    rw [← Vec.toList_eq_ofFn] at this
    simp only [rowMut, this]
    refine Prod.ext rfl ?_
    apply Vec.ext_get
    intro j
    rw [Vec.get_ofFn, show ∀ (x : Fin c → T) (hx), (⟨List.ofFn x, hx⟩ : Vec T c).get j = x j from
      fun x hx => Vec.get_ofFn x j]
    by_cases h2 : j = l
    · subst h2; simp
    · simp [h2, get]
  have key := forMut_ofFn_error r (rowMut body) a.rows.get (fun i => Vec.ofFn (g i)) k e _ hrow hrowk
  rw [← Vec.toList_eq_ofFn] at key
  simp only [forEach, key]
  refine Prod.ext rfl ?_
  apply ext_get
  intro i j
  simp only [get_ofFn]
  simp only [get]
  rw [show ∀ (x : Fin r → Vec T c) (hx), (⟨List.ofFn x, hx⟩ : Vec (Vec T c) r).get i = x i from
    fun x hx => Vec.get_ofFn x i]
  rcases Nat.lt_trichotomy i.val k.val with hik | hik | hik
  · have h1 : i < k := hik
    simp [h1]
  · have h1 : i = k := Fin.ext hik
    subst h1; simp
  · have h1 : ¬ i < k := fun h => by have : i.val < k.val := h; omega
    have h2 : i ≠ k := fun h => by simp [h] at hik
    simp [h1, h2]

end Mat
end Rowcol
