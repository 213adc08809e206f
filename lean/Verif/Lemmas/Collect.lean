import Verif.Model.Mat

/-! Helper lemmas about `fill`, `fromIter` and `collect`. -/

namespace Rowcol

attribute [simp] RustM.fault_bind

@[simp] theorem fault_map {m : Type → Type} [RustM m] {α β : Type} (e : Fault) (f : α → β) :
    f <$> (fault e : m α) = fault e := by
  rw [map_eq_pure_bind, RustM.fault_bind]

theorem fault_ite_bind {m : Type → Type} [RustM m] {α β : Type} (c : Prop) [Decidable c] (e : Fault) (y : m α)
    (f : α → m β) : (if c then fault e else y) >>= f = if c then fault e else y >>= f := by
  split <;> simp

@[simp] theorem liftRes_ok {m : Type → Type} [RustM m] {α : Type} (a : α) :
    (liftRes (.ok a) : m α) = pure a := rfl

@[simp] theorem liftRes_error {m : Type → Type} [RustM m] {α : Type} (e : Fault) :
    (liftRes (.error e) : m α) = fault e := rfl

@[simp] theorem res_pure {α : Type} (a : α) : (pure a : Res α) = .ok a := rfl
@[simp] theorem res_fault {α : Type} (e : Fault) : (fault e : Res α) = .error e := rfl
@[simp] theorem res_ok_bind {α β : Type} (a : α) (f : α → Res β) : (Except.ok a : Res α) >>= f = f a := rfl
@[simp] theorem res_error_bind {α β : Type} (e : Fault) (f : α → Res β) :
    (Except.error e : Res α) >>= f = .error e := rfl
@[simp] theorem res_ok_map {α β : Type} (a : α) (f : α → β) : f <$> (Except.ok a : Res α) = .ok (f a) := rfl
@[simp] theorem res_error_map {α β : Type} (e : Fault) (f : α → β) :
    f <$> (Except.error e : Res α) = .error e := rfl

namespace Vec
variable {m : Type → Type} [RustM m] {T : Type}

theorem toList_injective {n : Nat} {v w : Vec T n} (h : v.toList = w.toList) : v = w := Vec.ext h

@[simp] theorem cons_toList {n : Nat} (x : T) (v : Vec T n) : (cons x v).toList = x :: v.toList := rfl

/-- Filling from a list of computations at least as long as needed runs the first `n` in order. -/
theorem fill_ofList (n : Nat) (l : List (m T)) (h : n ≤ l.length) :
    (fun p : Vec T n × List (m T) => (p.1.toList, p.2)) <$> fill Iter.ofList n l =
      (fun xs => (xs, l.drop n)) <$> (l.take n).mapM id := by
  induction n generalizing l with
  | zero => simp [fill, nil]
  | succ n ih =>
    cases l with
    | nil => simp at h
    | cons a as =>
      have h' : n ≤ as.length := by simpa using h
      have := ih as h'
      simp only [fill, Iter.ofList, bind_assoc, pure_bind, map_bind, List.take_succ_cons,
        List.mapM_cons, id_eq, List.drop_succ_cons, map_pure, cons_toList]
      congr; funext x
      have e : ∀ (q : m (Vec T n × List (m T))) (r : m (List T)),
          (fun p : Vec T n × List (m T) => (p.1.toList, p.2)) <$> q = (fun xs => (xs, as.drop n)) <$> r →
          (do let p ← q; pure (x :: p.1.toList, p.2)) = (do let xs ← r; pure (x :: xs, as.drop n)) := by
        intro q r hq
        have : (fun p : List T × List (m T) => (x :: p.1, p.2)) <$>
            ((fun p : Vec T n × List (m T) => (p.1.toList, p.2)) <$> q) =
            (fun p : List T × List (m T) => (x :: p.1, p.2)) <$> ((fun xs => (xs, as.drop n)) <$> r) := by
          rw [hq]
        simpa [Functor.map_map] using this
      exact e _ _ this

/-- Filling from a shorter list runs all computations, then panics. -/
theorem fill_ofList_short (n : Nat) (l : List (m T)) (h : l.length < n) :
    fill Iter.ofList n l = (do let _ ← l.mapM id; fault .panic : m (Vec T n × List (m T))) := by
  induction n generalizing l with
  | zero => simp at h
  | succ n ih =>
    cases l with
    | nil => simp [fill, Iter.ofList]
    | cons a as =>
      have h' : as.length < n := by simpa using h
      simp only [fill, Iter.ofList, bind_assoc, pure_bind, List.mapM_cons, id_eq]
      congr; funext x
      have := ih as h'
      simp only [Iter.ofList] at this
      rw [this]
      simp

theorem bind_toList {n : Nat} {α : Type} (x : m (Vec T n)) (f : List T → m α) :
    (do let v ← x; f v.toList) = (do let l ← toList <$> x; f l) := by simp

/-- Collecting exactly `n` computations runs them in order. -/
theorem collect_toList (t : Target) (n : Nat) (l : List (m T)) (h : l.length = n) :
    toList <$> collect t n l = l.mapM id := by
  subst h
  have hf := fill_ofList l.length l (Nat.le_refl _)
  simp only [List.take_length, List.drop_length] at hf
  have : ∀ (g : List T → List (m T) → m (List T)),
      (do let p ← fill Iter.ofList l.length l; g p.1.toList p.2) = (do let xs ← l.mapM id; g xs []) := by
    intro g
    have := congrArg (fun q => q >>= fun p : List T × List (m T) => g p.1 p.2) hf
    simpa using this
  have key := this (fun xs rest => do
    if t.debugAssertions then do
      let c ← Iter.ofList.count rest
      if c ≠ 0 then fault .panic else pure xs
    else pure xs)
  unfold collect fromIter
  simp only [map_bind]
  refine Eq.trans ?_ (key.trans (by simp [Iter.ofList]))
  congr; funext a
  split
  · simp only [map_bind]; congr; funext c; split <;> simp
  · simp

theorem collect_pure (t : Target) (n : Nat) (xs : List T) (h : xs.length = n) :
    collect t n (xs.map (pure : T → m T)) = pure ⟨xs, h⟩ := by
  subst h
  have hfill : ∀ (xs : List T), fill Iter.ofList xs.length (xs.map (pure : T → m T)) =
      (pure (⟨xs, rfl⟩, []) : m (Vec T xs.length × List (m T))) := by
    intro xs
    induction xs with
    | nil => rfl
    | cons x xs ih =>
      simp only [List.length_cons, List.map_cons, fill, Iter.ofList, pure_bind]
      simp only [Iter.ofList] at ih
      rw [ih]; simp [cons]
  unfold collect fromIter
  rw [hfill]
  simp [Iter.ofList]

end Vec
end Rowcol

namespace Rowcol.Vec
variable {m : Type → Type} [RustM m] {T : Type}

theorem collect_short (t : Target) (n : Nat) (l : List (m T)) (h : l.length < n) :
    collect t n l = (do let _ ← l.mapM id; fault .panic : m (Vec T n)) := by
  unfold collect fromIter
  rw [fill_ofList_short n l h]
  simp

theorem collect_long_release (t : Target) (n : Nat) (l : List (m T)) (h : n < l.length)
    (ht : t.debugAssertions = false) :
    toList <$> collect t n l = (l.take n).mapM id := by
  have hf := congrArg (fun q => Prod.fst <$> q) (fill_ofList n l (Nat.le_of_lt h))
  simp only [Functor.map_map, id_map'] at hf
  unfold collect fromIter
  simpa [ht] using hf

theorem collect_long_debug (t : Target) (n : Nat) (l : List (m T)) (h : n < l.length)
    (ht : t.debugAssertions = true) :
    collect t n l = (do let _ ← l.mapM id; fault .panic : m (Vec T n)) := by
  have hf := fill_ofList n l (Nat.le_of_lt h)
  have key : ∀ (g : List (m T) → m (Vec T n)), 
      (do let p ← fill Iter.ofList n l; g p.2) = (do let _ ← (l.take n).mapM id; g (l.drop n)) := by
    intro g
    have := congrArg (fun q => q >>= fun p : List T × List (m T) => g p.2) hf
    simpa using this
  unfold collect fromIter
  have hl : ∀ (k : Nat) (l' : List (m T)), l'.length = k → k ≠ 0 → ∀ (v : Vec T n),
      (do let c ← Iter.ofList.count l'; if c ≠ 0 then fault .panic else pure v : m (Vec T n)) =
      (do let _ ← l'.mapM id; fault .panic) := by
    intro k
    induction k with
    | zero => intro _ _ h; exact absurd rfl h
    | succ k ih =>
      intro l' hl' _ v
      cases l' with
      | nil => simp at hl'
      | cons a as =>
        simp [Iter.ofList]
  have : (fun (p : Vec T n × List (m T)) => if t.debugAssertions = true then do
      let c ← Iter.ofList.count p.2
      if c ≠ 0 then fault .panic else pure p.1
      else pure p.1) = fun p => (do
      let c ← Iter.ofList.count p.2
      if c ≠ 0 then fault .panic else pure p.1) := by funext p; simp [ht]
  -- the remaining list after filling is `l.drop n`
  have h4 : ∀ (n : Nat) (l : List (m T)), n ≤ l.length → ∀ {β : Type} (g : Vec T n × List (m T) → m β),
      fill Iter.ofList n l >>= g = fill Iter.ofList n l >>= fun p => g (p.1, l.drop n) := by
    intro n
    induction n with
    | zero => intro l _ β g; simp [fill]
    | succ n ih =>
      intro l hl β g
      cases l with
      | nil => simp at hl
      | cons a as =>
        have hl' : n ≤ as.length := by simpa using hl
        simp only [fill, bind_assoc, Iter.ofList, pure_bind, List.drop_succ_cons]
        congr; funext x
        have := ih as hl' (fun p => g (cons x p.1, p.2))
        simp only [Iter.ofList] at this
        exact this
  rw [show (do
      let __discr ← fill Iter.ofList n l
      match __discr with
      | (v, s) =>
        if t.debugAssertions = true then do
          let c ← Iter.ofList.count s
          if c ≠ 0 then fault .panic else pure v
        else pure v) = fill Iter.ofList n l >>= (fun p => (do
      let c ← Iter.ofList.count p.2
      if c ≠ 0 then fault .panic else pure p.1)) from by rw [← this]]
  rw [h4 n l (Nat.le_of_lt h)]
  have h5 : (fun p : Vec T n × List (m T) => (do
      let c ← Iter.ofList.count (p.1, l.drop n).2
      if c ≠ 0 then fault .panic else pure (p.1, l.drop n).1 : m (Vec T n))) =
      fun p => (do let _ ← (l.drop n).mapM id; fault .panic) := by
    funext p
    exact hl _ (l.drop n) rfl (by simp; omega) p.1
  rw [h5, key (fun _ => (do let _ ← (l.drop n).mapM id; fault .panic))]
  have e : l.mapM id = (l.take n ++ l.drop n).mapM (id : m T → m T) := by rw [List.take_append_drop]
  rw [e, List.mapM_append]
  simp

end Rowcol.Vec
