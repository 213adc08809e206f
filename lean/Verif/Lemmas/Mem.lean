import Verif.Lemmas.StM
import Verif.Lemmas.Cursor
import Verif.Model.Mem

/-! The owning iterator's memory: what each operation does in every reachable state, and that violations are never
forgotten. -/

namespace Rowcol

variable {T : Type}

/-- An array whose elements `F` (front) and `B` (back) are moved out or dropped, `q` still live. -/
def mkMem (F q B D : List T) : Mem T where
  slots := F.map .gone ++ q.map .live ++ B.map .gone
  drops := D
  viols := []

/-- The owning iterator with such an array. -/
def mkIt (F q B D : List T) : OwnIt T := ⟨mkMem F q B D, F.length, F.length + q.length⟩

theorem mkMem_slot_live (F q B D : List T) (x : T) :
    (mkMem F (x :: q) B D).slots[F.length]? = some (.live x) := by
  simp [mkMem]

theorem mkMem_set_front (F q B D : List T) (x : T) :
    (mkMem F (x :: q) B D).slots.set F.length (.gone x) = (mkMem (F ++ [x]) q B D).slots := by
  simp [mkMem]

theorem mkMem_slot_back (F q B D : List T) (x : T) :
    (mkMem F (q ++ [x]) B D).slots[F.length + q.length]? = some (.live x) := by
  simp [mkMem]

theorem mkMem_set_back (F q B D : List T) (x : T) :
    (mkMem F (q ++ [x]) B D).slots.set (F.length + q.length) (.gone x) = (mkMem F q (x :: B) D).slots := by
  simp [mkMem]

theorem read_live (F q B D : List T) (x : T) :
    (Mem.read F.length).run (mkMem F (x :: q) B D) = (.ok x, mkMem (F ++ [x]) q B D) := by
  unfold Mem.read
  rw [StM.run_bind_ok (StM.run_get _), mkMem_slot_live]
  simp only
  rw [StM.run_bind_ok (StM.run_set _ _), StM.run_pure, mkMem_set_front]; rfl

theorem read_back (F q B D : List T) (x : T) :
    (Mem.read (F.length + q.length)).run (mkMem F (q ++ [x]) B D) = (.ok x, mkMem F q (x :: B) D) := by
  unfold Mem.read
  rw [StM.run_bind_ok (StM.run_get _), mkMem_slot_back]
  simp only
  rw [StM.run_bind_ok (StM.run_set _ _), StM.run_pure, mkMem_set_back]; rfl

theorem dropInPlace_live (boom : T → Bool) (F q B D : List T) (x : T) :
    (Mem.dropInPlace boom F.length).run (mkMem F (x :: q) B D) =
      (if boom x then .error .panic else .ok (), mkMem (F ++ [x]) q B (D ++ [x])) := by
  unfold Mem.dropInPlace
  rw [StM.run_bind_ok (StM.run_get _), mkMem_slot_live]
  simp only
  rw [StM.run_bind_ok (StM.run_set _ _), mkMem_set_front]
  split <;> rfl

/-- Dropping the front part of the live elements, no destructor panicking. -/
theorem dropRange_ok (boom : T → Bool) (q1 q2 F B D : List T) (h : ∀ x ∈ q1, boom x = false) :
    (Mem.dropRange boom F.length q1.length).run (mkMem F (q1 ++ q2) B D) = (.ok (), mkMem (F ++ q1) q2 B (D ++ q1)) := by
  induction q1 generalizing F D with
  | nil => simp [Mem.dropRange]
  | cons x q1 ih =>
    rw [List.length_cons, Mem.dropRange, List.cons_append]
    have hx : boom x = false := h x (by simp)
    have h1 := dropInPlace_live boom F (q1 ++ q2) B D x
    rw [hx, if_neg (by simp)] at h1
    rw [StM.run_bind_ok h1]
    have := ih (F ++ [x]) (D ++ [x]) (fun y hy => h y (by simp [hy]))
    simpa using this

/-- Dropping live elements until a destructor panics. -/
theorem dropRange_panic (boom : T → Bool) (p : List T) (x : T) (q F B D : List T) (k : Nat)
    (h : ∀ y ∈ p, boom y = false) (hx : boom x = true) (hk : p.length < k) :
    (Mem.dropRange boom F.length k).run (mkMem F (p ++ x :: q) B D) =
      (.error .panic, mkMem (F ++ p ++ [x]) q B (D ++ p ++ [x])) := by
  induction p generalizing F D k with
  | nil =>
    obtain ⟨k, rfl⟩ : ∃ j, k = j + 1 := ⟨k - 1, by simp at hk; omega⟩
    rw [Mem.dropRange, List.nil_append]
    have h1 := dropInPlace_live boom F q B D x
    rw [hx, if_pos rfl] at h1
    rw [StM.run_bind_error h1]; simp
  | cons y p ih =>
    obtain ⟨k, rfl⟩ : ∃ j, k = j + 1 := ⟨k - 1, by omega⟩
    rw [Mem.dropRange, List.cons_append]
    have hy : boom y = false := h y (by simp)
    have h1 := dropInPlace_live boom F (p ++ x :: q) B D y
    rw [hy, if_neg (by simp)] at h1
    rw [StM.run_bind_ok h1]
    have := ih (F ++ [y]) (D ++ [y]) k (fun z hz => h z (by simp [hz])) (by simpa using hk)
    simpa using this

namespace OwnIt

theorem onMem_run {α : Type} (x : StM (Mem T) α) (s : OwnIt T) :
    (onMem x).run s = ((x.run s.mem).1, { s with mem := (x.run s.mem).2 }) := rfl

theorem debugAssert_mk (t : Target) (F q B D : List T) :
    debugAssert t ((mkIt F q B D).back ≤ (mkIt F q B D).mem.slots.length) = .ok () := by
  have : (mkIt F q B D).back ≤ (mkIt F q B D).mem.slots.length := by simp [mkIt, mkMem]
  simp [debugAssert, this]

theorem next_cons (t : Target) (F q B D : List T) (x : T) (hW : F.length + 1 < t.W) :
    (nextOp t).run (mkIt F (x :: q) B D) = (.ok (some x), mkIt (F ++ [x]) q B D) := by
  unfold nextOp
  rw [StM.run_bind_ok (StM.run_get _), debugAssert_mk]
  rw [StM.run_bind_ok (StM.run_liftRes_ok _ _)]
  have h1 : (mkIt F (x :: q) B D).next < (mkIt F (x :: q) B D).back := by simp [mkIt]
  rw [if_pos h1]
  have h2 : uadd t (mkIt F (x :: q) B D).next 1 = .ok (F.length + 1) := uadd_ok t hW
  rw [h2, StM.run_bind_ok (StM.run_liftRes_ok _ _), StM.run_bind_ok (StM.run_set _ _)]
  have h3 : (onMem (Mem.read (mkIt F (x :: q) B D).next)).run { mkIt F (x :: q) B D with next := F.length + 1 } =
      (.ok x, mkIt (F ++ [x]) q B D) := by
    rw [onMem_run]
    simp only [mkIt, read_live]
    simp only [List.length_append, List.length_cons, List.length_nil]
    congr 2; omega
  rw [StM.run_bind_ok h3]; rfl

theorem next_nil (t : Target) (F B D : List T) :
    (nextOp t).run (mkIt F [] B D) = (.ok none, mkIt F [] B D) := by
  unfold nextOp
  rw [StM.run_bind_ok (StM.run_get _), debugAssert_mk, StM.run_bind_ok (StM.run_liftRes_ok _ _)]
  have h1 : ¬ (mkIt F ([] : List T) B D).next < (mkIt F [] B D).back := by simp [mkIt]
  rw [if_neg h1]; rfl

theorem nextBack_snoc (t : Target) (F q B D : List T) (x : T) :
    (nextBackOp t).run (mkIt F (q ++ [x]) B D) = (.ok (some x), mkIt F q (x :: B) D) := by
  unfold nextBackOp
  rw [StM.run_bind_ok (StM.run_get _), debugAssert_mk, StM.run_bind_ok (StM.run_liftRes_ok _ _)]
  have h1 : (mkIt F (q ++ [x]) B D).back > 0 := by simp only [mkIt, List.length_append, List.length_cons]; omega
  rw [if_pos h1]
  have h2 : usub t (mkIt F (q ++ [x]) B D).back 1 = .ok (F.length + q.length) := by
    rw [usub_ok t h1]; simp only [mkIt, List.length_append, List.length_cons, List.length_nil]
    congr 1
  rw [h2, StM.run_bind_ok (StM.run_liftRes_ok _ _), StM.run_bind_ok (StM.run_set _ _)]
  have h3 : (onMem (Mem.read (F.length + q.length))).run { mkIt F (q ++ [x]) B D with back := F.length + q.length } =
      (.ok x, mkIt F q (x :: B) D) := by
    rw [onMem_run]
    simp only [mkIt, read_back]
  rw [StM.run_bind_ok h3]; rfl

theorem nextBack_nil (t : Target) (B D : List T) :
    (nextBackOp t).run (mkIt [] [] B D) = (.ok none, mkIt [] [] B D) := by
  unfold nextBackOp
  rw [StM.run_bind_ok (StM.run_get _), debugAssert_mk, StM.run_bind_ok (StM.run_liftRes_ok _ _)]
  have h1 : ¬ (mkIt ([] : List T) [] B D).back > 0 := by simp [mkIt]
  rw [if_neg h1]; rfl

/-- The defect: everything was yielded, something from the front; `next_back()` reads a moved-out slot. -/
theorem nextBack_stale (t : Target) (F B D : List T) (x : T) :
    (nextBackOp t).run (mkIt (F ++ [x]) [] B D) =
      (.ok (some x), { mem := { mkMem (F ++ [x]) [] B D with viols := [Viol.readGone F.length] },
                       next := F.length + 1, back := F.length }) := by
  unfold nextBackOp
  rw [StM.run_bind_ok (StM.run_get _), debugAssert_mk, StM.run_bind_ok (StM.run_liftRes_ok _ _)]
  have h1 : (mkIt (F ++ [x]) [] B D).back > 0 := by simp [mkIt]
  rw [if_pos h1]
  have h2 : usub t (mkIt (F ++ [x]) [] B D).back 1 = .ok F.length := by
    rw [usub_ok t h1]; simp [mkIt]
  rw [h2, StM.run_bind_ok (StM.run_liftRes_ok _ _), StM.run_bind_ok (StM.run_set _ _)]
  have hs : (mkMem (F ++ [x]) [] B D).slots[F.length]? = some (.gone x) := by simp [mkMem]
  have h3 : (onMem (Mem.read F.length)).run { mkIt (F ++ [x]) [] B D with back := F.length } =
      (.ok x, { mem := { mkMem (F ++ [x]) [] B D with viols := [Viol.readGone F.length] },
                next := F.length + 1, back := F.length }) := by
    rw [onMem_run]
    have : (Mem.read F.length).run (mkMem (F ++ [x]) [] B D) =
        (.ok x, { mkMem (F ++ [x]) [] B D with viols := [Viol.readGone F.length] }) := by
      unfold Mem.read
      rw [StM.run_bind_ok (StM.run_get _), hs]
      rfl
    simp only [mkIt, this]
    simp
  rw [StM.run_bind_ok h3]; rfl

theorem len_mk (t : Target) (F q B D : List T) :
    (lenOp t).run (mkIt F q B D) = (.ok q.length, mkIt F q B D) := by
  unfold lenOp
  rw [StM.run_bind_ok (StM.run_get _)]
  have : usub t (mkIt F q B D).back (mkIt F q B D).next = .ok q.length := by
    rw [usub_ok t (by simp [mkIt])]; simp [mkIt]
  rw [this]; rfl

/-- `nth` within range, skipped destructors not panicking: skip, then `next()`. -/
theorem nth_ok (t : Target) (boom : T → Bool) (F q1 q2 B D : List T) (h : ∀ x ∈ q1, boom x = false)
    (hW : F.length + q1.length < t.W) :
    (nthOp t boom q1.length).run (mkIt F (q1 ++ q2) B D) = (nextOp t).run (mkIt (F ++ q1) q2 B (D ++ q1)) := by
  unfold nthOp
  rw [StM.run_bind_ok (StM.run_get _)]
  have h1 : uadd t (mkIt F (q1 ++ q2) B D).next q1.length = .ok (F.length + q1.length) := uadd_ok t hW
  rw [h1, StM.run_bind_ok (StM.run_liftRes_ok _ _)]
  have h2 : (onMem (Mem.dropRange boom (mkIt F (q1 ++ q2) B D).next (F.length + q1.length - (mkIt F (q1 ++ q2) B D).next))).run
      (mkIt F (q1 ++ q2) B D) = (.ok (), { mem := mkMem (F ++ q1) q2 B (D ++ q1), next := F.length, back := F.length + (q1 ++ q2).length }) := by
    have e : F.length + q1.length - (mkIt F (q1 ++ q2) B D).next = q1.length := by simp [mkIt]
    rw [onMem_run, e]
    simp only [mkIt, dropRange_ok boom q1 q2 F B D h]
  rw [StM.run_bind_ok h2, StM.run_bind_ok (StM.run_get _)]
  simp only
  rw [uadd_ok t hW, StM.run_bind_ok (StM.run_liftRes_ok _ _), StM.run_bind_ok (StM.run_set _ _)]
  simp [mkIt, Nat.add_assoc]

/-- `nth` whose skipping meets a panicking destructor: `next` is not advanced. -/
theorem nth_panic (t : Target) (boom : T → Bool) (F p : List T) (x : T) (q B D : List T) (k : Nat)
    (h : ∀ y ∈ p, boom y = false) (hx : boom x = true) (hk : p.length < k) (hW : F.length + k < t.W) :
    (nthOp t boom k).run (mkIt F (p ++ x :: q) B D) =
      (.error .panic, { mem := mkMem (F ++ p ++ [x]) q B (D ++ p ++ [x]), next := F.length,
                        back := F.length + (p ++ x :: q).length }) := by
  unfold nthOp
  rw [StM.run_bind_ok (StM.run_get _)]
  have h1 : uadd t (mkIt F (p ++ x :: q) B D).next k = .ok (F.length + k) := uadd_ok t hW
  rw [h1, StM.run_bind_ok (StM.run_liftRes_ok _ _)]
  apply StM.run_bind_error
  have e : F.length + k - (mkIt F (p ++ x :: q) B D).next = k := by simp [mkIt]
  rw [onMem_run, e]
  simp only [mkIt, dropRange_panic boom p x q F B D k h hx hk]

theorem drop_ok (boom : T → Bool) (F q B D : List T) (h : ∀ x ∈ q, boom x = false) :
    (dropOp boom).run (mkIt F q B D) =
      (.ok (), { mem := mkMem (F ++ q) [] B (D ++ q), next := F.length, back := F.length + q.length }) := by
  unfold dropOp
  rw [StM.run_bind_ok (StM.run_get _), onMem_run]
  have := dropRange_ok boom q [] F B D h
  rw [List.append_nil] at this
  simp only [mkIt, Nat.add_sub_cancel_left, this]

theorem drop_panic (boom : T → Bool) (F p : List T) (x : T) (q B D : List T)
    (h : ∀ y ∈ p, boom y = false) (hx : boom x = true) :
    (dropOp boom).run (mkIt F (p ++ x :: q) B D) =
      (.error .panic, { mem := mkMem (F ++ p ++ [x]) q B (D ++ p ++ [x]), next := F.length,
                        back := F.length + (p ++ x :: q).length }) := by
  unfold dropOp
  rw [StM.run_bind_ok (StM.run_get _), onMem_run]
  have := dropRange_panic boom p x q F B D (p ++ x :: q).length h hx (by simp)
  simp only [mkIt, Nat.add_sub_cancel_left, this]

theorem intoIter_mk {n : Nat} (v : Vec T n) : intoIter v = mkIt [] v.toList [] [] := by
  simp [intoIter, mkIt, mkMem, v.length_eq]

end OwnIt

/-! ### Violations are never forgotten -/

/-- The operation only adds to the log of violations. -/
def Mono {α : Type} (x : StM (Mem T) α) : Prop := ∀ s, s.viols <+: (x.run s).2.viols

/-- The same for operations on the iterator. -/
def MonoI {α : Type} (x : StM (OwnIt T) α) : Prop := ∀ s, s.mem.viols <+: (x.run s).2.mem.viols

theorem MonoI.bind {α β : Type} {x : StM (OwnIt T) α} {f : α → StM (OwnIt T) β} (hx : MonoI x) (hf : ∀ a, MonoI (f a)) :
    MonoI (x >>= f) := by
  intro s
  rw [StM.run_bind]
  have := hx s
  rcases hr : x.run s with ⟨r, s'⟩
  rw [hr] at this
  cases r with
  | ok a => exact this.trans (hf a s')
  | error e => exact this

theorem Mono.bind {α β : Type} {x : StM (Mem T) α} {f : α → StM (Mem T) β} (hx : Mono x) (hf : ∀ a, Mono (f a)) :
    Mono (x >>= f) := by
  intro s
  rw [StM.run_bind]
  have := hx s
  rcases hr : x.run s with ⟨r, s'⟩
  rw [hr] at this
  cases r with
  | ok a => exact this.trans (hf a s')
  | error e => exact this

theorem MonoI.pure {α : Type} (a : α) : MonoI (Pure.pure a : StM (OwnIt T) α) := fun _ => List.prefix_refl _
theorem MonoI.liftRes {α : Type} (r : Res α) : MonoI (Rowcol.liftRes r : StM (OwnIt T) α) := by
  intro s; cases r <;> exact List.prefix_refl _
theorem MonoI.onMem {α : Type} {x : StM (Mem T) α} (hx : Mono x) : MonoI (OwnIt.onMem x) := fun s => hx s.mem

theorem mono_read (i : Nat) : Mono (Mem.read (T := T) i) := by
  intro s
  unfold Mem.read
  rw [StM.run_bind_ok (StM.run_get _)]
  cases s.slots[i]? with
  | none => exact List.prefix_append _ _
  | some x => cases x with
    | uninit => exact List.prefix_append _ _
    | live x => exact List.prefix_refl _
    | gone x => exact List.prefix_append _ _

theorem mono_dropInPlace (boom : T → Bool) (i : Nat) : Mono (Mem.dropInPlace boom i) := by
  intro s
  unfold Mem.dropInPlace
  rw [StM.run_bind_ok (StM.run_get _)]
  cases s.slots[i]? with
  | none => exact List.prefix_append _ _
  | some x => cases x with
    | uninit => exact List.prefix_append _ _
    | live x =>
      simp only
      rw [StM.run_bind_ok (StM.run_set _ _)]
      split <;> exact List.prefix_refl _
    | gone x =>
      simp only
      rw [StM.run_bind_ok (StM.run_set _ _)]
      split <;> exact List.prefix_append _ _

theorem mono_dropRange (boom : T → Bool) (lo k : Nat) : Mono (Mem.dropRange boom lo k) := by
  induction k generalizing lo with
  | zero => exact fun _ => List.prefix_refl _
  | succ k ih => exact Mono.bind (mono_dropInPlace boom lo) fun _ => ih (lo + 1)

/-- The log of destructor calls only grows. -/
def MonoD {α : Type} (x : StM (Mem T) α) : Prop := ∀ s, s.drops <+: (x.run s).2.drops

theorem monoD_dropInPlace (boom : T → Bool) (i : Nat) : MonoD (Mem.dropInPlace boom i) := by
  intro s
  unfold Mem.dropInPlace
  rw [StM.run_bind_ok (StM.run_get _)]
  cases s.slots[i]? with
  | none => exact List.prefix_refl _
  | some x => cases x with
    | uninit => exact List.prefix_refl _
    | live x =>
      simp only
      rw [StM.run_bind_ok (StM.run_set _ _)]
      split <;> exact List.prefix_append _ _
    | gone x =>
      simp only
      rw [StM.run_bind_ok (StM.run_set _ _)]
      split <;> exact List.prefix_append _ _

theorem monoD_dropRange (boom : T → Bool) (lo k : Nat) : MonoD (Mem.dropRange boom lo k) := by
  induction k generalizing lo with
  | zero => exact fun _ => List.prefix_refl _
  | succ k ih =>
    intro s
    rw [Mem.dropRange, StM.run_bind]
    have := monoD_dropInPlace boom lo s
    rcases hr : (Mem.dropInPlace boom lo).run s with ⟨r, s'⟩
    rw [hr] at this
    cases r with
    | ok a => exact this.trans (ih (lo + 1) s')
    | error e => exact this

/-- Either no destructor of `q` panics, or there is a first one that does. -/
theorem firstBoom (boom : T → Bool) (q : List T) :
    (∀ x ∈ q, boom x = false) ∨ ∃ p x s, q = p ++ x :: s ∧ (∀ y ∈ p, boom y = false) ∧ boom x = true := by
  induction q with
  | nil => left; simp
  | cons x q ih =>
    cases hx : boom x with
    | true => exact Or.inr ⟨[], x, q, rfl, by simp, hx⟩
    | false =>
      rcases ih with h | ⟨p, y, s, rfl, h1, h2⟩
      · left; intro z hz; rcases List.mem_cons.1 hz with rfl | hz
        · exact hx
        · exact h z hz
      · exact Or.inr ⟨x :: p, y, s, rfl, fun z hz => by
          rcases List.mem_cons.1 hz with rfl | hz
          · exact hx
          · exact h1 z hz, h2⟩

namespace OwnIt

theorem monoI_getThen {α : Type} (f : OwnIt T → StM (OwnIt T) α) (h : ∀ s, s.mem.viols <+: ((f s).run s).2.mem.viols) :
    MonoI (get >>= f) := by
  intro s
  rw [StM.run_bind_ok (StM.run_get _)]
  exact h s

theorem monoI_next (t : Target) : MonoI (nextOp (T := T) t) := by
  apply monoI_getThen
  intro s
  rw [StM.run_bind]
  cases h : debugAssert t (decide (s.back ≤ s.mem.slots.length)) with
  | error e => exact List.prefix_refl _
  | ok u =>
    simp only [StM.run_liftRes_ok]
    split
    · rw [StM.run_bind]
      cases uadd t s.next 1 with
      | error e => exact List.prefix_refl _
      | ok nx =>
        simp only [StM.run_liftRes_ok]
        rw [StM.run_bind_ok (StM.run_set _ _)]
        exact (MonoI.onMem (mono_read s.next)).bind (fun x => MonoI.pure (some x)) { s with next := nx }
    · exact List.prefix_refl _

theorem monoI_nextBack (t : Target) : MonoI (nextBackOp (T := T) t) := by
  apply monoI_getThen
  intro s
  rw [StM.run_bind]
  cases h : debugAssert t (decide (s.back ≤ s.mem.slots.length)) with
  | error e => exact List.prefix_refl _
  | ok u =>
    simp only [StM.run_liftRes_ok]
    split
    · rw [StM.run_bind]
      cases usub t s.back 1 with
      | error e => exact List.prefix_refl _
      | ok b =>
        simp only [StM.run_liftRes_ok]
        rw [StM.run_bind_ok (StM.run_set _ _)]
        exact (MonoI.onMem (mono_read b)).bind (fun x => MonoI.pure (some x)) { s with back := b }
    · exact List.prefix_refl _

theorem monoI_nth (t : Target) (boom : T → Bool) (k : Nat) : MonoI (nthOp t boom k) := by
  apply monoI_getThen
  intro s
  refine MonoI.bind (MonoI.liftRes _) (fun e => ?_) s
  refine MonoI.bind (MonoI.onMem (mono_dropRange boom _ _)) (fun _ => ?_)
  apply monoI_getThen
  intro s
  rw [StM.run_bind]
  cases uadd t s.next k with
  | error e => exact List.prefix_refl _
  | ok nx =>
    simp only [StM.run_liftRes_ok]
    rw [StM.run_bind_ok (StM.run_set _ _)]
    exact monoI_next t { s with next := nx }

theorem monoI_drop (boom : T → Bool) : MonoI (dropOp boom) := by
  apply monoI_getThen
  intro s
  exact MonoI.onMem (mono_dropRange boom _ _) s

theorem monoI_len (t : Target) : MonoI (lenOp (T := T) t) := by
  apply monoI_getThen
  intro s
  exact MonoI.liftRes _ s

theorem monoI_map {α β : Type} (f : α → β) {x : StM (OwnIt T) α} (hx : MonoI x) : MonoI (f <$> x) := by
  rw [map_eq_pure_bind]; exact hx.bind fun a => MonoI.pure _

theorem monoI_call (t : Target) (boom : T → Bool) (c : OwnCall) : MonoI (call t boom c) := by
  cases c with
  | next => exact monoI_map _ (monoI_next t)
  | nextBack => exact monoI_map _ (monoI_nextBack t)
  | nth k => exact monoI_map _ (monoI_nth t boom k)
  | len => exact monoI_map _ (monoI_len t)

theorem mono_run (t : Target) (boom : T → Bool) (h : List OwnCall) (s : OwnIt T) :
    s.mem.viols <+: (run t boom h s).2.mem.viols := by
  induction h generalizing s with
  | nil => exact List.prefix_refl _
  | cons c cs ih =>
    rw [run]
    have := monoI_call t boom c s
    rcases hr : (call t boom c).run s with ⟨r, s'⟩
    rw [hr] at this
    match r with
    | .ok o => exact this.trans (ih s')
    | .error .panic => exact this.trans (ih s')
    | .error .ub => exact this

theorem mono_runDrop (t : Target) (boom : T → Bool) (h : List OwnCall) (s : OwnIt T) :
    (run t boom h s).2.mem.viols <+: (runDrop t boom h s).2.mem.viols := monoI_drop boom _

end OwnIt
end Rowcol
