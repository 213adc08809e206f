import Verif.Props.Own

/-! # C77: exactly which uses of the owning iterator are memory safe

No restriction on the history: `nth` arguments may be any `usize`, destructors may panic, both build modes. -/

namespace Rowcol

variable {T : Type} {n : Nat}

open Spec

namespace Spec

/-- The histories of calls (the client catches panics and goes on; finally the iterator is dropped) that are harmless.
`m` elements were taken or skipped at the front so far, `q` are still to come.
* `next()` and `len()` are always fine;
* `next_back()` is fine unless the iterator is exhausted and something was taken at the front;
* `nth(k)` with `m + k` representable is fine if it skips at most what is left and only elements whose destructors do
  not panic;
* `nth(k)` with `m + k` not representable is fine if overflow checks are on (it panics and has no other effect). -/
def Harmless (t : Target) (boom : T → Bool) (m : Nat) (q : List T) : List OwnCall → Prop
  | [] => True
  | .next :: h => Harmless t boom (m + min 1 q.length) q.tail h
  | .nextBack :: h => (q = [] → m = 0) ∧ Harmless t boom m q.dropLast h
  | .nth k :: h =>
    (m + k < t.W ∧ k ≤ q.length ∧ (∀ x ∈ q.take k, boom x = false) ∧
      Harmless t boom (m + min (k + 1) q.length) (q.drop (k + 1)) h) ∨
    (t.W ≤ m + k ∧ t.overflowChecks = true ∧ Harmless t boom m q h)
  | .len :: h => Harmless t boom m q h

/-- A double-ended queue whose `nth` panics without effect when `m + k` is not representable: the answers, all skipped
elements, what is left. -/
def queueRunW (W : Nat) (m : Nat) (q : List T) : List OwnCall → List (Out T) × List T × List T
  | [] => ([], [], q)
  | .next :: h =>
    let r := queueRunW W (m + min 1 q.length) q.tail h
    (.item q.head? :: r.1, r.2)
  | .nextBack :: h =>
    let r := queueRunW W m q.dropLast h
    (.item q.getLast? :: r.1, r.2)
  | .nth k :: h =>
    if m + k < W then
      let r := queueRunW W (m + min (k + 1) q.length) (q.drop (k + 1)) h
      (.item (q.drop k).head? :: r.1, q.take k ++ r.2.1, r.2.2)
    else
      let r := queueRunW W m q h
      (.fault .panic :: r.1, r.2)
  | .len :: h =>
    let r := queueRunW W m q h
    (.size q.length :: r.1, r.2)

end Spec

namespace OwnIt

/-- A violation happened, or every slot up to and including the next one to be handed out is already gone while the
iterator still believes it holds that one. -/
def Poisoned (s : OwnIt T) : Prop :=
  s.mem.viols ≠ [] ∨ (s.next < s.back ∧ ∀ i ≤ s.next, ∃ x, s.mem.slots[i]? = some (.gone x))

theorem viols_ne_of_prefix {a b : List Viol} (h : a <+: b) (ha : a ≠ []) : b ≠ [] := by
  intro hb; rw [hb, List.prefix_nil] at h; exact ha h

theorem read_gone (s : Mem T) (i : Nat) (x : T) (h : s.slots[i]? = some (.gone x)) : ((Mem.read i).run s).2.viols ≠ [] := by
  unfold Mem.read
  rw [StM.run_bind_ok (StM.run_get _), h]
  simp only
  rw [StM.run_bind_ok (StM.run_set _ _)]
  simp

theorem dropInPlace_gone (boom : T → Bool) (s : Mem T) (i : Nat) (x : T) (h : s.slots[i]? = some (.gone x)) :
    ((Mem.dropInPlace boom i).run s).2.viols ≠ [] := by
  unfold Mem.dropInPlace
  rw [StM.run_bind_ok (StM.run_get _), h]
  simp only
  rw [StM.run_bind_ok (StM.run_set _ _)]
  cases boom x <;> simp

theorem dropRange_gone (boom : T → Bool) (s : Mem T) (i k : Nat) (hk : 0 < k) (x : T) (h : s.slots[i]? = some (.gone x)) :
    ((Mem.dropRange boom i k).run s).2.viols ≠ [] := by
  obtain ⟨k, rfl⟩ : ∃ j, k = j + 1 := ⟨k - 1, by omega⟩
  have h1 := dropInPlace_gone boom s i x h
  rw [Mem.dropRange, StM.run_bind]
  rcases hr : (Mem.dropInPlace boom i).run s with ⟨r, s'⟩
  rw [hr] at h1
  cases r with
  | error e => exact h1
  | ok u => exact viols_ne_of_prefix (mono_dropRange boom (i + 1) k s') h1

theorem poisoned_next (t : Target) (s : OwnIt T) (h : Poisoned s) : Poisoned ((nextOp t).run s).2 := by
  rcases h with h | ⟨h1, h2⟩
  · exact .inl (viols_ne_of_prefix (monoI_next t s) h)
  · unfold nextOp
    rw [StM.run_bind_ok (StM.run_get _), StM.run_bind]
    cases debugAssert t (decide (s.back ≤ s.mem.slots.length)) with
    | error e => exact .inr ⟨h1, h2⟩
    | ok u =>
      simp only [StM.run_liftRes_ok]
      rw [if_pos h1, StM.run_bind]
      cases uadd t s.next 1 with
      | error e => exact .inr ⟨h1, h2⟩
      | ok nx =>
        simp only [StM.run_liftRes_ok]
        rw [StM.run_bind_ok (StM.run_set _ _), StM.run_bind, onMem_run]
        obtain ⟨x, hx⟩ := h2 s.next (Nat.le_refl _)
        have := read_gone s.mem s.next x hx
        left
        cases ((Mem.read s.next).run s.mem).1 <;> exact this

theorem poisoned_nextBack (t : Target) (s : OwnIt T) (h : Poisoned s) : Poisoned ((nextBackOp t).run s).2 := by
  rcases h with h | ⟨h1, h2⟩
  · exact .inl (viols_ne_of_prefix (monoI_nextBack t s) h)
  · unfold nextBackOp
    rw [StM.run_bind_ok (StM.run_get _), StM.run_bind]
    cases debugAssert t (decide (s.back ≤ s.mem.slots.length)) with
    | error e => exact .inr ⟨h1, h2⟩
    | ok u =>
      simp only [StM.run_liftRes_ok]
      rw [if_pos (show s.back > 0 by omega), usub_ok t (show 1 ≤ s.back by omega), StM.run_bind_ok (StM.run_liftRes_ok _ _),
        StM.run_bind_ok (StM.run_set _ _), StM.run_bind, onMem_run]
      have key : Poisoned ({ mem := ((Mem.read (s.back - 1)).run s.mem).2, next := s.next, back := s.back - 1 } : OwnIt T) := by
        by_cases hb : s.back - 1 = s.next
        · obtain ⟨x, hx⟩ := h2 s.next (Nat.le_refl _)
          left
          rw [hb]
          exact read_gone s.mem s.next x hx
        · unfold Mem.read
          rw [StM.run_bind_ok (StM.run_get _)]
          cases hs : s.mem.slots[s.back - 1]? with
          | none => left; simp only; rw [StM.run_bind_ok (StM.run_set _ _)]; simp
          | some x =>
            cases x with
            | uninit => left; simp only; rw [StM.run_bind_ok (StM.run_set _ _)]; simp
            | gone x => left; simp only; rw [StM.run_bind_ok (StM.run_set _ _)]; simp
            | live x =>
              right
              simp only
              rw [StM.run_bind_ok (StM.run_set _ _)]
              refine ⟨show s.next < s.back - 1 by omega, fun i hi => ?_⟩
              obtain ⟨y, hy⟩ := h2 i hi
              have hi' : i ≤ s.next := hi
              exact ⟨y, by rw [StM.run_pure]; simp only; rw [List.getElem?_set_ne (by omega), hy]⟩
      cases ((Mem.read (s.back - 1)).run s.mem).1 <;> exact key

theorem poisoned_nth (t : Target) (boom : T → Bool) (k : Nat) (s : OwnIt T) (h : Poisoned s) :
    Poisoned ((nthOp t boom k).run s).2 := by
  rcases h with h | ⟨h1, h2⟩
  · exact .inl (viols_ne_of_prefix (monoI_nth t boom k s) h)
  · unfold nthOp
    rw [StM.run_bind_ok (StM.run_get _), StM.run_bind]
    cases he : uadd t s.next k with
    | error e => exact .inr ⟨h1, h2⟩
    | ok e =>
      simp only [StM.run_liftRes_ok]
      rw [StM.run_bind, onMem_run]
      by_cases hle : e ≤ s.next
      · have e0 : e - s.next = 0 := by omega
        rw [e0]
        simp only [Mem.dropRange, StM.run_pure]
        rw [StM.run_bind_ok (StM.run_get _), he, StM.run_bind_ok (StM.run_liftRes_ok _ _), StM.run_bind_ok (StM.run_set _ _)]
        exact poisoned_next t _ (.inr ⟨by simp only; omega, fun i hi => h2 i (by simp only at hi; omega)⟩)
      · obtain ⟨x, hx⟩ := h2 s.next (Nat.le_refl _)
        have hv := dropRange_gone boom s.mem s.next (e - s.next) (by omega) x hx
        left
        cases ((Mem.dropRange boom s.next (e - s.next)).run s.mem).1 with
        | error e => exact hv
        | ok u =>
          simp only
          refine viols_ne_of_prefix ?_ hv
          refine monoI_getThen _ (fun s => ?_) { s with mem := ((Mem.dropRange boom s.next (e - s.next)).run s.mem).2 }
          rw [StM.run_bind]
          cases uadd t s.next k with
          | error e => exact List.prefix_refl _
          | ok nx =>
            simp only [StM.run_liftRes_ok]
            rw [StM.run_bind_ok (StM.run_set _ _)]
            exact monoI_next t { s with next := nx }

theorem poisoned_call (t : Target) (boom : T → Bool) (c : OwnCall) (s : OwnIt T) (h : Poisoned s) :
    Poisoned ((call t boom c).run s).2 := by
  have key : ∀ {α : Type} (f : α → Out T) (x : StM (OwnIt T) α), Poisoned (x.run s).2 → Poisoned ((f <$> x).run s).2 := by
    intro α f x hx
    rw [StM.run_map]
    rcases hr : x.run s with ⟨r, s'⟩
    rw [hr] at hx
    cases r <;> exact hx
  cases c with
  | next => exact key _ _ (poisoned_next t s h)
  | nextBack => exact key _ _ (poisoned_nextBack t s h)
  | nth k => exact key _ _ (poisoned_nth t boom k s h)
  | len =>
    refine key _ _ ?_
    unfold lenOp
    rw [StM.run_bind_ok (StM.run_get _)]
    cases usub t s.back s.next <;> exact h

theorem poisoned_run (t : Target) (boom : T → Bool) (h : List OwnCall) (s : OwnIt T) (hp : Poisoned s) :
    Poisoned (run t boom h s).2 := by
  induction h generalizing s with
  | nil => exact hp
  | cons c h ih =>
    have h1 := poisoned_call t boom c s hp
    rw [run]
    rcases hr : (call t boom c).run s with ⟨r, s'⟩
    rw [hr] at h1
    match r with
    | .ok o => exact ih s' h1
    | .error .panic => exact ih s' h1
    | .error .ub => exact h1

theorem poisoned_drop (boom : T → Bool) (s : OwnIt T) (hp : Poisoned s) : ((dropOp boom).run s).2.mem.viols ≠ [] := by
  rcases hp with h | ⟨h1, h2⟩
  · exact viols_ne_of_prefix (monoI_drop boom s) h
  · obtain ⟨x, hx⟩ := h2 s.next (Nat.le_refl _)
    unfold dropOp
    rw [StM.run_bind_ok (StM.run_get _), onMem_run]
    exact dropRange_gone boom s.mem s.next (s.back - s.next) (by omega) x hx

theorem poisoned_runDrop (t : Target) (boom : T → Bool) (c : OwnCall) (h : List OwnCall) (s : OwnIt T)
    (hp : Poisoned ((call t boom c).run s).2) : (runDrop t boom (c :: h) s).2.mem.viols ≠ [] := by
  unfold runDrop
  apply poisoned_drop
  rw [run]
  rcases hr : (call t boom c).run s with ⟨r, s'⟩
  rw [hr] at hp
  match r with
  | .ok o => exact poisoned_run t boom h s' hp
  | .error .panic => exact poisoned_run t boom h s' hp
  | .error .ub => exact hp

theorem run_cons_panic (t : Target) (boom : T → Bool) (c : OwnCall) (h : List OwnCall) (s s' : OwnIt T)
    (hc : (call t boom c).run s = (.error .panic, s')) :
    run t boom (c :: h) s = (.fault .panic :: (run t boom h s').1, (run t boom h s').2) := by
  rw [run, hc]

theorem nth_overflow_checked (t : Target) (boom : T → Bool) (k : Nat) (s : OwnIt T) (h : t.W ≤ s.next + k)
    (ho : t.overflowChecks = true) : (call t boom (.nth k)).run s = (.error .panic, s) := by
  have : uadd t s.next k = .error .panic := by simp [uadd, Nat.not_lt.2 h, ho]
  rw [call, StM.run_map]
  unfold nthOp
  rw [StM.run_bind_ok (StM.run_get _), this, StM.run_bind_error (StM.run_liftRes_error _ _)]

/-- Without overflow checks such an `nth` reads an element that is already gone. -/
theorem nth_overflow_wrap (t : Target) (boom : T → Bool) (k : Nat) (F q B D : List T) (hF : F.length + q.length < t.W)
    (h : t.W ≤ F.length + k) (hk : k < t.W) (ho : t.overflowChecks = false) :
    ((call t boom (.nth k)).run (mkIt F q B D)).2.mem.viols ≠ [] := by
  have hmod : (F.length + k) % t.W < F.length := by
    rw [Nat.mod_eq_sub_mod h, Nat.mod_eq_of_lt (by omega)]; omega
  have hu : uadd t F.length k = .ok ((F.length + k) % t.W) := by simp [uadd, Nat.not_lt.2 h, ho]
  generalize (F.length + k) % t.W = e at hmod hu
  have e0 : e - F.length = 0 := by omega
  have hn : (nthOp t boom k).run (mkIt F q B D) = (nextOp t).run { mkIt F q B D with next := e } := by
    unfold nthOp
    rw [StM.run_bind_ok (StM.run_get _)]
    change ((liftRes (uadd t F.length k) : StM (OwnIt T) Nat) >>= _).run _ = _
    rw [hu, StM.run_bind_ok (StM.run_liftRes_ok _ _)]
    change ((onMem (Mem.dropRange boom F.length (e - F.length))) >>= _).run _ = _
    have hd0 : (onMem (Mem.dropRange boom F.length 0)).run (mkIt F q B D) = (.ok (), mkIt F q B D) := rfl
    rw [e0, StM.run_bind_ok hd0, StM.run_bind_ok (StM.run_get _)]
    change ((liftRes (uadd t F.length k) : StM (OwnIt T) Nat) >>= _).run _ = _
    rw [hu, StM.run_bind_ok (StM.run_liftRes_ok _ _), StM.run_bind_ok (StM.run_set _ _)]
  have hx : ((nextOp t).run { mkIt F q B D with next := e }).2.mem.viols ≠ [] := by
    unfold nextOp
    rw [StM.run_bind_ok (StM.run_get _)]
    have hd := debugAssert_mk t F q B D
    change ((liftRes (debugAssert t ((mkIt F q B D).back ≤ (mkIt F q B D).mem.slots.length)) : StM (OwnIt T) Unit) >>= _).run _ |>.2.mem.viols ≠ []
    rw [hd, StM.run_bind_ok (StM.run_liftRes_ok _ _)]
    have hlt : e < (mkIt F q B D).back := by simp only [mkIt]; omega
    simp only
    rw [if_pos hlt, uadd_ok t (by omega), StM.run_bind_ok (StM.run_liftRes_ok _ _), StM.run_bind_ok (StM.run_set _ _),
      StM.run_bind, onMem_run]
    have hs : (mkMem F q B D).slots[e]? = some (.gone F[e]) := by
      simp only [mkMem, List.append_assoc]
      rw [List.getElem?_append_left (by simpa using hmod)]
      simp [hmod]
    have := read_gone (mkMem F q B D) e _ hs
    have em : (mkIt F q B D).mem = mkMem F q B D := rfl
    simp only [em]
    cases ((Mem.read e).run (mkMem F q B D)).1 <;> exact this
  rw [call, StM.run_map, hn]
  rcases hr : (nextOp t).run { mkIt F q B D with next := e } with ⟨r, s'⟩
  rw [hr] at hx
  cases r <;> exact hx

theorem runDrop_cons_ok (t : Target) (boom : T → Bool) (c : OwnCall) (h : List OwnCall) (s s' : OwnIt T) (o : Out T)
    (hc : (call t boom c).run s = (.ok o, s')) : (runDrop t boom (c :: h) s).2 = (runDrop t boom h s').2 := by
  unfold runDrop; rw [run_cons_ok t boom c h s s' o hc]

theorem runDrop_cons_panic (t : Target) (boom : T → Bool) (c : OwnCall) (h : List OwnCall) (s s' : OwnIt T)
    (hc : (call t boom c).run s = (.error .panic, s')) : (runDrop t boom (c :: h) s).2 = (runDrop t boom h s').2 := by
  unfold runDrop; rw [run_cons_panic t boom c h s s' hc]

/-- A safe history is harmless. -/
theorem harmless_of_safe (t : Target) (boom : T → Bool) (h : List OwnCall) (F q B D : List T)
    (hW : F.length + q.length < t.W) (hk : ∀ k, OwnCall.nth k ∈ h → k < t.W)
    (hv : (runDrop t boom h (mkIt F q B D)).2.mem.viols = []) : Harmless t boom F.length q h := by
  induction h generalizing F q B D with
  | nil => trivial
  | cons c h ih =>
    have hk' : ∀ k, OwnCall.nth k ∈ h → k < t.W := fun k hm => hk k (by simp [hm])
    cases c with
    | next =>
      cases q with
      | nil =>
        rw [runDrop_cons_ok t boom .next h _ _ _ (call_next t _ (next_nil t F B D))] at hv
        exact ih F [] B D hW hk' hv
      | cons x q =>
        rw [runDrop_cons_ok t boom .next h _ _ _ (call_next t _ (next_cons t F q B D x (by simp at hW; omega)))] at hv
        have := ih (F ++ [x]) q B D (by simp at hW ⊢; omega) hk' hv
        simpa [Harmless] using this
    | nextBack =>
      rcases List.eq_nil_or_concat q with rfl | ⟨p, x, rfl⟩
      · rcases List.eq_nil_or_concat F with rfl | ⟨G, x, rfl⟩
        · rw [runDrop_cons_ok t boom .nextBack h _ _ _ (call_nextBack t _ (nextBack_nil t B D))] at hv
          exact ⟨fun _ => rfl, ih [] [] B D hW hk' hv⟩
        · exfalso
          refine poisoned_runDrop t boom .nextBack h _ (.inl ?_) hv
          rw [List.concat_eq_append, call_nextBack t _ (nextBack_stale t G B D x)]
          simp
      · rw [List.concat_eq_append] at hW hv ⊢
        rw [runDrop_cons_ok t boom .nextBack h _ _ _ (call_nextBack t _ (nextBack_snoc t F p B D x))] at hv
        refine ⟨by simp, ?_⟩
        have := ih F p (x :: B) D (by simp at hW ⊢; omega) hk' hv
        simpa using this
    | nth k =>
      by_cases hov : F.length + k < t.W
      · left
        have hbm : ∀ x ∈ q.take k, boom x = false := by
          rcases firstBoom boom (q.take k) with h1 | ⟨p, x, s, hq, h2, h3⟩
          · exact h1
          · exfalso
            have hpk : p.length < k := by
              have := congrArg List.length hq
              simp at this; omega
            have e : q = p ++ x :: (s ++ q.drop k) := by
              rw [← List.cons_append, ← List.append_assoc, ← hq, List.take_append_drop]
            have hn := nth_panic t boom F p x (s ++ q.drop k) B D k h2 h3 hpk hov
            rw [← e] at hn
            refine poisoned_runDrop t boom (.nth k) h _ (.inr ?_) hv
            rw [call, StM.run_map, hn]
            refine ⟨?_, fun i hi => ?_⟩
            · simp only
              have := congrArg List.length e
              simp at this; omega
            · simp only at hi
              simp only [mkMem, List.append_assoc]
              have hlt : i < (F ++ p ++ [x]).length := by simp; omega
              refine ⟨(F ++ p ++ [x])[i], ?_⟩
              rw [List.getElem?_append_left (by simpa using hlt)]
              simp only [← List.append_assoc]
              rw [List.getElem?_map, List.getElem?_eq_getElem hlt]; rfl
        have hle : k ≤ q.length := by
          by_contra hgt
          refine poisoned_runDrop t boom (.nth k) h _ (.inl ?_) hv
          rw [call, StM.run_map]
          have := nth_beyond t boom F q B D (by rwa [List.take_of_length_le (by omega)] at hbm) k (by omega) hov
          rcases hr : (nthOp t boom k).run (mkIt F q B D) with ⟨r, s'⟩
          rw [hr] at this
          cases r <;> exact this
        refine ⟨hov, hle, hbm, ?_⟩
        have hlen : (q.take k).length = k := by simp [hle]
        have hn := nth_ok t boom F (q.take k) (q.drop k) B D hbm (by rw [hlen]; omega)
        rw [hlen, List.take_append_drop] at hn
        cases hq : q.drop k with
        | nil =>
          rw [hq, next_nil] at hn
          rw [runDrop_cons_ok t boom (.nth k) h _ _ _ (call_nth t _ k hn)] at hv
          have hd : q.drop (k + 1) = [] := by rw [← List.tail_drop, hq]; rfl
          have hkq : k = q.length := by
            have := congrArg List.length hq
            simp at this; omega
          have := ih _ _ _ _ (by rw [List.length_append, hlen, List.length_nil]; omega) hk' hv
          rw [List.length_append, hlen] at this
          rw [hd, show min (k + 1) q.length = k by omega]
          exact this
        | cons x p =>
          have hp : k + 1 + p.length = q.length := by
            have := congrArg List.length hq
            simp at this; omega
          rw [hq, next_cons t _ p B _ x (by rw [List.length_append, hlen]; omega)] at hn
          rw [runDrop_cons_ok t boom (.nth k) h _ _ _ (call_nth t _ k hn)] at hv
          have hd : q.drop (k + 1) = p := by rw [← List.tail_drop, hq]; rfl
          have := ih _ _ _ _ (by simp only [List.length_append, hlen, List.length_cons, List.length_nil]; omega) hk' hv
          rw [List.length_append, List.length_append, hlen, List.length_singleton] at this
          rw [hd, show min (k + 1) q.length = k + 1 by omega, ← Nat.add_assoc]
          exact this
      · right
        cases ho : t.overflowChecks with
        | true =>
          rw [runDrop_cons_panic t boom (.nth k) h _ _ (nth_overflow_checked t boom k _ (by simp only [mkIt]; omega) ho)] at hv
          exact ⟨by omega, rfl, ih F q B D hW hk' hv⟩
        | false =>
          exact absurd hv (poisoned_runDrop t boom (.nth k) h _ (.inl
            (nth_overflow_wrap t boom k F q B D hW (by omega) (hk k (by simp)) ho)))
    | len =>
      rw [runDrop_cons_ok t boom .len h _ _ _ (call_len t _ (len_mk t F q B D))] at hv
      exact ih F q B D hW hk' hv

/-- A harmless history is answered by the queue, and keeps the memory in order. -/
theorem run_harmless (t : Target) (boom : T → Bool) (h : List OwnCall) (F q B D : List T)
    (hW : F.length + q.length < t.W) (hh : Harmless t boom F.length q h) :
    ∃ F' B', run t boom h (mkIt F q B D) = ((queueRunW t.W F.length q h).1,
      mkIt F' (queueRunW t.W F.length q h).2.2 B' (D ++ (queueRunW t.W F.length q h).2.1)) := by
  induction h generalizing F q B D with
  | nil => exact ⟨F, B, by simp [run, queueRunW]⟩
  | cons c h ih =>
    cases c with
    | next =>
      cases q with
      | nil =>
        rw [run_cons_ok t boom .next h _ _ _ (call_next t boom (next_nil t F B D))]
        obtain ⟨F', B', h1⟩ := ih F [] B D hW hh
        exact ⟨F', B', by rw [h1]; rfl⟩
      | cons x q =>
        rw [run_cons_ok t boom .next h _ _ _ (call_next t boom (next_cons t F q B D x (by simp at hW; omega)))]
        have e1 : min 1 (x :: q).length = 1 := by simp
        simp only [Harmless, e1, List.tail_cons] at hh
        obtain ⟨F', B', h1⟩ := ih (F ++ [x]) q B D (by simp at hW ⊢; omega) (by simpa using hh)
        rw [List.length_append, List.length_singleton] at h1
        exact ⟨F', B', by rw [h1]; simp only [queueRunW, e1, List.tail_cons, List.head?_cons]⟩
    | nextBack =>
      rcases List.eq_nil_or_concat q with rfl | ⟨p, x, rfl⟩
      · have hF : F = [] := by simpa using hh.1 rfl
        subst hF
        rw [run_cons_ok t boom .nextBack h _ _ _ (call_nextBack t boom (nextBack_nil t B D))]
        obtain ⟨F', B', h1⟩ := ih [] [] B D hW hh.2
        exact ⟨F', B', by rw [h1]; rfl⟩
      · rw [List.concat_eq_append] at hh hW ⊢
        rw [run_cons_ok t boom .nextBack h _ _ _ (call_nextBack t boom (nextBack_snoc t F p B D x))]
        obtain ⟨F', B', h1⟩ := ih F p (x :: B) D (by simp at hW ⊢; omega) (by simpa using hh.2)
        exact ⟨F', B', by rw [h1]; simp [queueRunW]⟩
    | nth k =>
      rcases hh with ⟨hov, hle, hbm, hh⟩ | ⟨hov, ho, hh⟩
      · have hlen : (q.take k).length = k := by simp [hle]
        have hn := nth_ok t boom F (q.take k) (q.drop k) B D hbm (by rw [hlen]; omega)
        rw [hlen, List.take_append_drop] at hn
        cases hq : q.drop k with
        | nil =>
          rw [hq, next_nil] at hn
          rw [run_cons_ok t boom (.nth k) h _ _ _ (call_nth t boom k hn)]
          have hd : q.drop (k + 1) = [] := by rw [← List.tail_drop, hq]; rfl
          have hkq : k = q.length := by
            have := congrArg List.length hq
            simp at this; omega
          have em : min (k + 1) q.length = k := by omega
          rw [hd, em] at hh
          obtain ⟨F', B', h1⟩ := ih (F ++ q.take k) [] B (D ++ q.take k) (by rw [List.length_append, hlen, List.length_nil]; omega)
            (by rw [List.length_append, hlen]; exact hh)
          rw [List.length_append, hlen] at h1
          refine ⟨F', B', ?_⟩
          rw [h1]
          simp only [queueRunW, if_pos hov, hd, em, hq, List.head?_nil, List.append_assoc]
        | cons x p =>
          have hp : k + 1 + p.length = q.length := by
            have := congrArg List.length hq
            simp at this; omega
          rw [hq, next_cons t _ p B _ x (by rw [List.length_append, hlen]; omega)] at hn
          rw [run_cons_ok t boom (.nth k) h _ _ _ (call_nth t boom k hn)]
          have hd : q.drop (k + 1) = p := by rw [← List.tail_drop, hq]; rfl
          have em : min (k + 1) q.length = k + 1 := by omega
          rw [hd, em, ← Nat.add_assoc] at hh
          obtain ⟨F', B', h1⟩ := ih (F ++ q.take k ++ [x]) p B (D ++ q.take k)
            (by simp only [List.length_append, hlen, List.length_cons, List.length_nil]; omega)
            (by rw [List.length_append, List.length_append, hlen, List.length_singleton]; exact hh)
          rw [List.length_append, List.length_append, hlen, List.length_singleton] at h1
          refine ⟨F', B', ?_⟩
          rw [h1]
          simp only [queueRunW, if_pos hov, hd, em, hq, List.head?_cons, List.append_assoc, Nat.add_assoc]
      · rw [run_cons_panic t boom (.nth k) h _ _ (nth_overflow_checked t boom k _ (by simp only [mkIt]; omega) ho)]
        obtain ⟨F', B', h1⟩ := ih F q B D hW hh
        refine ⟨F', B', ?_⟩
        rw [h1]
        simp only [queueRunW, if_neg (Nat.not_lt.2 hov)]
    | len =>
      rw [run_cons_ok t boom .len h _ _ _ (call_len t boom (len_mk t F q B D))]
      obtain ⟨F', B', h1⟩ := ih F q B D hW hh
      exact ⟨F', B', by rw [h1]; rfl⟩

end OwnIt

/-- Nothing is lost or duplicated by the queue. -/
theorem queueRunW_perm (W m : Nat) (q : List T) (h : List OwnCall) :
    (yielded (queueRunW W m q h).1 ++ ((queueRunW W m q h).2.1 ++ (queueRunW W m q h).2.2)).Perm q := by
  induction h generalizing m q with
  | nil => exact List.Perm.refl _
  | cons c h ih =>
    cases c with
    | next =>
      have := ih (m + min 1 q.length) q.tail
      cases q with
      | nil => exact this
      | cons x q => exact this.cons x
    | nextBack =>
      have := ih m q.dropLast
      rcases List.eq_nil_or_concat q with rfl | ⟨p, x, rfl⟩
      · exact this
      · rw [List.concat_eq_append] at this ⊢
        simp only [queueRunW, List.dropLast_concat, List.getLast?_append, List.getLast?_singleton, Option.some_or, yielded] at this ⊢
        exact (this.cons x).trans (List.perm_append_singleton x p).symm
    | nth k =>
      simp only [queueRunW]
      split
      · have := ih (m + min (k + 1) q.length) (q.drop (k + 1))
        cases hq : q.drop k with
        | nil =>
          have hd : q.drop (k + 1) = [] := by rw [← List.tail_drop, hq]; rfl
          have ht : q.take k = q := by
            conv_rhs => rw [← List.take_append_drop k q, hq, List.append_nil]
          rw [hd] at this ⊢
          simp only [List.head?_nil, yielded, ht]
          refine (List.Perm.trans ?_ (List.Perm.append_left q this)).trans (by simp)
          rw [List.append_assoc]
          exact List.perm_append_comm_assoc _ _ _
        | cons x p =>
          have hd : q.drop (k + 1) = p := by rw [← List.tail_drop, hq]; rfl
          rw [hd] at this ⊢
          simp only [List.head?_cons, yielded]
          have e : q = q.take k ++ x :: p := by rw [← hq, List.take_append_drop]
          refine List.Perm.trans ?_ (List.Perm.trans (List.Perm.append_left (q.take k) (this.cons x)) (List.Perm.of_eq e.symm))
          rw [List.append_assoc, ← List.cons_append]
          exact List.perm_append_comm_assoc _ _ _
      · exact ih m q
    | len => exact ih m q

/-- C77: a use of `v.into_iter()` - any history of calls, the client catching panics and going on, then dropping the
iterator - is free of invalid memory accesses **if and only if** it is harmless; every `usize` is allowed as the
argument of `nth`, any destructor may panic, every build. -/
theorem C77_safe_iff (t : Target) (boom : T → Bool) (v : Vec T n) (hn : n < t.W) (h : List OwnCall)
    (hk : ∀ k, OwnCall.nth k ∈ h → k < t.W) :
    (OwnIt.runDrop t boom h (OwnIt.intoIter v)).2.mem.viols = [] ↔ Harmless t boom 0 v.toList h := by
  rw [OwnIt.intoIter_mk]
  have hW : ([] : List T).length + v.toList.length < t.W := by simp [v.length_eq, hn]
  constructor
  · exact OwnIt.harmless_of_safe t boom h [] v.toList [] [] hW hk
  · intro hh
    obtain ⟨F', B', h1⟩ := OwnIt.run_harmless t boom h [] v.toList [] [] hW hh
    unfold OwnIt.runDrop
    rw [h1]
    simp only
    rcases firstBoom boom (queueRunW t.W ([] : List T).length v.toList h).2.2 with hq | ⟨p, x, s, hq, h2, h3⟩
    · rw [OwnIt.drop_ok _ _ _ _ _ hq]; rfl
    · rw [hq, OwnIt.drop_panic boom _ p x s _ _ h2 h3]; rfl

/-- C77: in a harmless use the calls answer like a double-ended queue (an unrepresentable `nth` panics without any
effect), and the elements handed out and those destroyed are among the original ones, each at most once - exactly once if
the destructors of those still held at the end do not panic. -/
theorem C77_harmless (t : Target) (boom : T → Bool) (v : Vec T n) (hn : n < t.W) (h : List OwnCall)
    (hh : Harmless t boom 0 v.toList h) :
    (OwnIt.runDrop t boom h (OwnIt.intoIter v)).1 = (queueRunW t.W 0 v.toList h).1 ∧
    (yielded (OwnIt.runDrop t boom h (OwnIt.intoIter v)).1 ++
      (OwnIt.runDrop t boom h (OwnIt.intoIter v)).2.mem.drops).Subperm v.toList ∧
    ((∀ x ∈ (queueRunW t.W 0 v.toList h).2.2, boom x = false) →
      (yielded (OwnIt.runDrop t boom h (OwnIt.intoIter v)).1 ++
        (OwnIt.runDrop t boom h (OwnIt.intoIter v)).2.mem.drops).Perm v.toList) := by
  have hp := queueRunW_perm t.W 0 v.toList h
  have hW : ([] : List T).length + v.toList.length < t.W := by simp [v.length_eq, hn]
  obtain ⟨F', B', h1⟩ := OwnIt.run_harmless t boom h [] v.toList [] [] hW hh
  rw [OwnIt.intoIter_mk]
  unfold OwnIt.runDrop
  rw [h1]
  simp only [List.length_nil, List.nil_append]
  refine ⟨trivial, ?_⟩
  rcases firstBoom boom (queueRunW t.W 0 v.toList h).2.2 with hq | ⟨p, x, s, hq, h2, h3⟩
  · rw [OwnIt.drop_ok _ _ _ _ _ hq]
    exact ⟨hp.subperm, fun _ => hp⟩
  · refine ⟨?_, fun h' => absurd (h' x (by rw [hq]; simp)) (by simp [h3])⟩
    rw [hq, OwnIt.drop_panic boom _ p x s _ _ h2 h3]
    refine List.Subperm.trans (List.Sublist.subperm ?_) hp.subperm
    rw [hq]
    simp only [mkMem, List.append_assoc]
    refine List.Sublist.append_left (List.Sublist.append_left (List.Sublist.append_left ?_ _) _) _
    simp

/-- A harmless history with a skip, an unrepresentable `nth` and calls after exhaustion; element 5 has a panicking
destructor; and harmful ones. -/
example : Harmless ⟨true, true, 2 ^ 16⟩ (fun x => x == 5) 0 [1, 2, 3, 4, 5]
    [.next, .nth 1, .nth 65535, .nextBack, .len, .next, .next] := by
  simp [Harmless]
example : ¬ Harmless ⟨false, false, 2 ^ 16⟩ (fun x => x == 5) 0 [1, 2, 3, 4, 5] [.next, .nth 65535] := by
  simp [Harmless]
example : ¬ Harmless ⟨true, true, 2 ^ 16⟩ (fun x => x == 2) 0 [1, 2, 3, 4, 5] [.nth 2] := by
  simp [Harmless]

end Rowcol
