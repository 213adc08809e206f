import Verif.Lemmas.Collect

/-! Running stateful programs step by step. -/

namespace Rowcol.StM
variable {S α β : Type}

theorem run_bind (x : StM S α) (f : α → StM S β) (s : S) :
    (x >>= f).run s = match x.run s with
      | (.ok a, s') => (f a).run s'
      | (.error e, s') => (.error e, s') := by
  rw [ExceptT.run_bind]
  change StateT.run (_ >>= _) s = _
  rw [StateT.run_bind]
  change (do let p ← (x.run s : Id _); _) = _
  rcases x.run s with ⟨r, s'⟩
  cases r <;> rfl

theorem run_bind_ok {x : StM S α} {f : α → StM S β} {s s' : S} {a : α} (h : x.run s = (.ok a, s')) :
    (x >>= f).run s = (f a).run s' := by rw [run_bind, h]

theorem run_bind_error {x : StM S α} {f : α → StM S β} {s s' : S} {e : Fault} (h : x.run s = (.error e, s')) :
    (x >>= f).run s = (.error e, s') := by rw [run_bind, h]

@[simp] theorem run_pure (a : α) (s : S) : (pure a : StM S α).run s = (.ok a, s) := rfl
@[simp] theorem run_fault (e : Fault) (s : S) : (fault e : StM S α).run s = (.error e, s) := rfl
@[simp] theorem run_get (s : S) : (get : StM S S).run s = (.ok s, s) := rfl
@[simp] theorem run_mget (s : S) : (MonadState.get : StM S S).run s = (.ok s, s) := rfl
@[simp] theorem run_set (s s' : S) : (set s' : StM S Unit).run s = (.ok (), s') := rfl
@[simp] theorem run_liftRes_ok (a : α) (s : S) : (liftRes (.ok a) : StM S α).run s = (.ok a, s) := rfl
@[simp] theorem run_liftRes_error (e : Fault) (s : S) : (liftRes (.error e) : StM S α).run s = (.error e, s) := rfl

theorem run_map (f : α → β) (x : StM S α) (s : S) :
    (f <$> x).run s = match x.run s with
      | (.ok a, s') => (.ok (f a), s')
      | (.error e, s') => (.error e, s') := by
  rw [map_eq_pure_bind, run_bind]
  rcases x.run s with ⟨r, s'⟩
  cases r <;> rfl

end Rowcol.StM
