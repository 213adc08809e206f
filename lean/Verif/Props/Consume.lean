import Verif.Lemmas.Mem
import Verif.Lemmas.MapM
import Mathlib.Tactic.Conv

/-! # C70: consuming operations `a op b`, `v * s`, `v / s`, `-v` are panic-safe

`zipOp`/`mapOp` run the loop on the owning iterators and then drop those, whether or not the element operation panicked.
The element operation receives ownership of its arguments. -/

namespace Rowcol

variable {T U V : Type} {n : Nat}

namespace OwnIt

theorem onFst_run {α : Type} {x : StM (OwnIt T) α} {a a' : OwnIt T} {r : Res α} (b : OwnIt U) (h : x.run a = (r, a')) :
    (onFst (U := U) x).run (a, b) = (r, (a', b)) := by
  change (match x.run a with | (r, a) => (r, (a, b))) = _
  rw [h]

theorem onSnd_run {α : Type} {x : StM (OwnIt U) α} {b b' : OwnIt U} {r : Res α} (a : OwnIt T) (h : x.run b = (r, b')) :
    (onSnd (T := T) x).run (a, b) = (r, (a, b')) := by
  change (match x.run b with | (r, b) => (r, (a, b))) = _
  rw [h]

theorem zipNext_run (t : Target) (f : T → U → Res V) (F q D : List T) (G p E : List U) (x : T) (y : U)
    (hF : F.length + 1 < t.W) (hG : G.length + 1 < t.W) :
    (zipNext t f).run (mkIt F (x :: q) [] D, mkIt G (y :: p) [] E) =
      (some <$> f x y, (mkIt (F ++ [x]) q [] D, mkIt (G ++ [y]) p [] E)) := by
  unfold zipNext
  rw [StM.run_bind_ok (onFst_run _ (next_cons t F q [] D x hF))]
  simp only
  rw [StM.run_bind_ok (onSnd_run _ (next_cons t G p [] E y hG))]
  simp only
  cases f x y with
  | ok z => rfl
  | error e => rfl

theorem zipFill_ok (t : Target) (f : T → U → Res V) (q : List T) (p : List U) (zs : List V) (F D : List T) (G E : List U)
    (hl : q.length = p.length) (hf : (q.zip p).mapM (fun x => f x.1 x.2) = .ok zs)
    (hF : F.length + q.length < t.W) (hG : G.length + p.length < t.W) :
    (zipFill t f q.length).run (mkIt F q [] D, mkIt G p [] E) =
      (.ok zs, (mkIt (F ++ q) [] [] D, mkIt (G ++ p) [] [] E)) := by
  induction q generalizing p zs F G with
  | nil =>
    cases p with
    | nil => simp [zipFill] at hf ⊢; rw [hf]
    | cons y p => simp at hl
  | cons x q ih =>
    cases p with
    | nil => simp at hl
    | cons y p =>
      rw [List.zip_cons_cons, List.mapM_cons] at hf
      cases hz : f x y with
      | error e => rw [hz] at hf; simp at hf
      | ok z =>
        rw [hz] at hf
        cases hw : (q.zip p).mapM (fun x => f x.1 x.2) with
        | error e => rw [hw] at hf; simp at hf
        | ok ws =>
          rw [hw] at hf
          simp at hf
          subst hf
          rw [List.length_cons, zipFill]
          have h1 := zipNext_run t f F q D G p E x y (by simp at hF; omega) (by simp at hG; omega)
          rw [hz] at h1
          rw [StM.run_bind_ok h1]
          simp only
          rw [StM.run_bind_ok (ih p ws (F ++ [x]) (G ++ [y]) (by simpa using hl) hw (by simp at hF ⊢; omega) (by simp at hG ⊢; omega))]
          simp

theorem zipFill_error (t : Target) (f : T → U → Res V) (q q' : List T) (p p' : List U) (x : T) (y : U) (e : Fault)
    (F D : List T) (G E : List U) (k : Nat) (hk : q.length < k)
    (hl : q.length = p.length) (hf : ∃ zs, (q.zip p).mapM (fun x => f x.1 x.2) = .ok zs) (he : f x y = .error e)
    (hF : F.length + q.length + 1 < t.W) (hG : G.length + p.length + 1 < t.W) :
    (zipFill t f k).run (mkIt F (q ++ x :: q') [] D, mkIt G (p ++ y :: p') [] E) =
      (.error e, (mkIt (F ++ q ++ [x]) q' [] D, mkIt (G ++ p ++ [y]) p' [] E)) := by
  induction q generalizing p F G k with
  | nil =>
    cases p with
    | cons y p => simp at hl
    | nil =>
      obtain ⟨k, rfl⟩ : ∃ j, k = j + 1 := ⟨k - 1, by simp at hk; omega⟩
      rw [List.nil_append, List.nil_append, zipFill]
      have h1 := zipNext_run t f F q' D G p' E x y (by simp at hF; omega) (by simp at hG; omega)
      rw [he] at h1
      rw [StM.run_bind_error h1]
      simp
  | cons z q ih =>
    cases p with
    | nil => simp at hl
    | cons w p =>
      obtain ⟨k, rfl⟩ : ∃ j, k = j + 1 := ⟨k - 1, by omega⟩
      obtain ⟨zs, hf⟩ := hf
      rw [List.zip_cons_cons, List.mapM_cons] at hf
      cases hz : f z w with
      | error e => rw [hz] at hf; simp at hf
      | ok v =>
        rw [hz] at hf
        cases hw : (q.zip p).mapM (fun x => f x.1 x.2) with
        | error e => rw [hw] at hf; simp at hf
        | ok ws =>
          rw [List.cons_append, List.cons_append, zipFill]
          have h1 := zipNext_run t f F (q ++ x :: q') D G (p ++ y :: p') E z w (by simp at hF; omega) (by simp at hG; omega)
          rw [hz] at h1
          rw [StM.run_bind_ok h1]
          simp only
          have := ih p (F ++ [z]) (G ++ [w]) k (by simpa using hk) (by simpa using hl) ⟨ws, hw⟩
            (by simp at hF ⊢; omega) (by simp at hG ⊢; omega)
          rw [StM.run_bind_error this]
          simp

theorem mapFill_ok (t : Target) (f : T → Res V) (q : List T) (zs : List V) (F D : List T)
    (hf : q.mapM f = .ok zs) (hF : F.length + q.length < t.W) :
    (mapFill t f q.length).run (mkIt F q [] D) = (.ok zs, mkIt (F ++ q) [] [] D) := by
  induction q generalizing zs F with
  | nil => simp [mapFill] at hf ⊢; rw [hf]
  | cons x q ih =>
    rw [List.mapM_cons] at hf
    cases hz : f x with
    | error e => rw [hz] at hf; simp at hf
    | ok z =>
      rw [hz] at hf
      cases hw : q.mapM f with
      | error e => rw [hw] at hf; simp at hf
      | ok ws =>
        rw [hw] at hf
        simp at hf
        subst hf
        rw [List.length_cons, mapFill, StM.run_bind_ok (next_cons t F q [] D x (by simp at hF; omega))]
        simp only
        rw [hz, StM.run_bind_ok (StM.run_liftRes_ok _ _),
          StM.run_bind_ok (ih ws (F ++ [x]) hw (by simp at hF ⊢; omega))]
        simp

theorem mapFill_error (t : Target) (f : T → Res V) (q q' : List T) (x : T) (e : Fault) (F D : List T) (k : Nat)
    (hk : q.length < k) (hf : ∃ zs, q.mapM f = .ok zs) (he : f x = .error e) (hF : F.length + q.length + 1 < t.W) :
    (mapFill t f k).run (mkIt F (q ++ x :: q') [] D) = (.error e, mkIt (F ++ q ++ [x]) q' [] D) := by
  induction q generalizing F k with
  | nil =>
    obtain ⟨k, rfl⟩ : ∃ j, k = j + 1 := ⟨k - 1, by simp at hk; omega⟩
    rw [List.nil_append, mapFill, StM.run_bind_ok (next_cons t F q' [] D x (by simp at hF; omega))]
    simp only
    rw [he, StM.run_bind_error (StM.run_liftRes_error _ _)]
    simp
  | cons z q ih =>
    obtain ⟨k, rfl⟩ : ∃ j, k = j + 1 := ⟨k - 1, by omega⟩
    obtain ⟨zs, hf⟩ := hf
    rw [List.mapM_cons] at hf
    cases hz : f z with
    | error e => rw [hz] at hf; simp at hf
    | ok v =>
      rw [hz] at hf
      cases hw : q.mapM f with
      | error e => rw [hw] at hf; simp at hf
      | ok ws =>
        rw [List.cons_append, mapFill,
          StM.run_bind_ok (next_cons t F (q ++ x :: q') [] D z (by simp at hF; omega))]
        simp only
        have := ih (F ++ [z]) k (by simpa using hk) ⟨ws, hw⟩ (by simp at hF ⊢; omega)
        rw [hz, StM.run_bind_ok (StM.run_liftRes_ok _ _), StM.run_bind_error this]
        simp

end OwnIt

/-- What is known about an owning iterator after the operation: exactly `drops` were dropped (in that order), no invalid
access happened, and the slots hold moved-out or dropped values only (nothing is left behind live). -/
structure Clean (s : OwnIt T) (all drops : List T) : Prop where
  drops : s.mem.drops = drops
  viols : s.mem.viols = []
  slots : s.mem.slots = all.map .gone

theorem clean_drop (F q : List T) :
    Clean (((OwnIt.dropOp fun _ => false).run (mkIt F q [] [])).2) (F ++ q) q := by
  rw [OwnIt.drop_ok _ _ _ _ _ (by simp)]
  exact ⟨by simp [mkMem], rfl, by simp [mkMem]⟩

/-- C70 (binary operation, no panic): the result is the list of element results; every element of both operands was
moved into the element operation and none is dropped by the crate. -/
theorem C70_zip_ok (t : Target) (hn : n < t.W) (f : T → U → Res V) (a : Vec T n) (b : Vec U n) (zs : List V)
    (h : (a.toList.zip b.toList).mapM (fun x => f x.1 x.2) = .ok zs) :
    (OwnIt.zipOp t f a b).1 = .ok zs ∧ Clean (OwnIt.zipOp t f a b).2.1 a.toList [] ∧
    Clean (OwnIt.zipOp t f a b).2.2 b.toList [] := by
  have ha := a.length_eq
  have hb := b.length_eq
  unfold OwnIt.zipOp
  rw [OwnIt.intoIter_mk, OwnIt.intoIter_mk]
  have := OwnIt.zipFill_ok t f a.toList b.toList zs [] [] [] [] (by rw [ha, hb]) h (by simp [ha, hn]) (by simp [hb, hn])
  rw [ha] at this
  rw [this]
  refine ⟨rfl, ?_, ?_⟩
  · have := clean_drop a.toList []; rwa [List.append_nil] at this
  · have := clean_drop b.toList []; rwa [List.append_nil] at this

/-- C70 (binary operation, the element operation panics on element `k`): the panic propagates; the operands' elements
`0..=k` were moved into the element operation and are not dropped by the crate; each later element of both operands is
dropped exactly once; no invalid access. -/
theorem C70_zip_panic (t : Target) (hn : n < t.W) (f : T → U → Res V) (a : Vec T n) (b : Vec U n) (k : Nat) (hk : k < n)
    (e : Fault) (hok : ∀ i (h : i < k), ∃ z, f (a.get ⟨i, by omega⟩) (b.get ⟨i, by omega⟩) = .ok z)
    (he : f (a.get ⟨k, hk⟩) (b.get ⟨k, hk⟩) = .error e) :
    (OwnIt.zipOp t f a b).1 = .error e ∧ Clean (OwnIt.zipOp t f a b).2.1 a.toList (a.toList.drop (k + 1)) ∧
    Clean (OwnIt.zipOp t f a b).2.2 b.toList (b.toList.drop (k + 1)) := by
  have ha := a.length_eq
  have hb := b.length_eq
  have ea : a.toList = a.toList.take k ++ a.get ⟨k, hk⟩ :: a.toList.drop (k + 1) := by
    conv_lhs => rw [← List.take_append_drop k a.toList]
    rw [List.drop_eq_getElem_cons (by omega)]; rfl
  have eb : b.toList = b.toList.take k ++ b.get ⟨k, hk⟩ :: b.toList.drop (k + 1) := by
    conv_lhs => rw [← List.take_append_drop k b.toList]
    rw [List.drop_eq_getElem_cons (by omega)]; rfl
  have hz : ∃ zs, ((a.toList.take k).zip (b.toList.take k)).mapM (fun x => f x.1 x.2) = .ok zs := by
    have : ∀ (l : List (T × U)), (∀ x ∈ l, ∃ z, f x.1 x.2 = .ok z) → ∃ zs, l.mapM (fun x => f x.1 x.2) = .ok zs := by
      intro l
      induction l with
      | nil => intro _; exact ⟨[], rfl⟩
      | cons x l ih =>
        intro h
        obtain ⟨z, h1⟩ := h x (by simp)
        obtain ⟨zs, h2⟩ := ih (fun y hy => h y (by simp [hy]))
        exact ⟨z :: zs, by rw [List.mapM_cons, h1, h2]; rfl⟩
    apply this
    intro x hx
    obtain ⟨i, hi, rfl⟩ := List.mem_iff_getElem.1 hx
    simp at hi
    rw [List.getElem_zip, List.getElem_take, List.getElem_take]
    exact hok i (by omega)
  unfold OwnIt.zipOp
  rw [OwnIt.intoIter_mk, OwnIt.intoIter_mk]
  have := OwnIt.zipFill_error t f (a.toList.take k) (a.toList.drop (k + 1)) (b.toList.take k) (b.toList.drop (k + 1))
    (a.get ⟨k, hk⟩) (b.get ⟨k, hk⟩) e [] [] [] [] n (by simp [ha]; omega) (by simp [ha, hb]) hz he
    (by simp [ha]; omega) (by simp [hb]; omega)
  rw [← ea, ← eb] at this
  rw [this]
  refine ⟨rfl, ?_, ?_⟩
  · have := clean_drop ([] ++ a.toList.take k ++ [a.get ⟨k, hk⟩]) (a.toList.drop (k + 1))
    rwa [List.nil_append, List.append_assoc, List.singleton_append, ← ea] at this
  · have := clean_drop ([] ++ b.toList.take k ++ [b.get ⟨k, hk⟩]) (b.toList.drop (k + 1))
    rwa [List.nil_append, List.append_assoc, List.singleton_append, ← eb] at this

/-- C70 (unary operation, no panic). -/
theorem C70_map_ok (t : Target) (hn : n < t.W) (f : T → Res V) (a : Vec T n) (zs : List V)
    (h : a.toList.mapM f = .ok zs) :
    (OwnIt.mapOp t f a).1 = .ok zs ∧ Clean (OwnIt.mapOp t f a).2 a.toList [] := by
  have ha := a.length_eq
  unfold OwnIt.mapOp
  rw [OwnIt.intoIter_mk]
  have := OwnIt.mapFill_ok t f a.toList zs [] [] h (by simp [ha, hn])
  rw [ha] at this
  rw [this]
  exact ⟨rfl, by have := clean_drop a.toList []; rwa [List.append_nil] at this⟩

/-- C70 (unary operation `v * s`, `v / s`, `-v`; the element operation panics on element `k`). -/
theorem C70_map_panic (t : Target) (hn : n < t.W) (f : T → Res V) (a : Vec T n) (k : Nat) (hk : k < n)
    (e : Fault) (hok : ∀ i (h : i < k), ∃ z, f (a.get ⟨i, by omega⟩) = .ok z)
    (he : f (a.get ⟨k, hk⟩) = .error e) :
    (OwnIt.mapOp t f a).1 = .error e ∧ Clean (OwnIt.mapOp t f a).2 a.toList (a.toList.drop (k + 1)) := by
  have ha := a.length_eq
  have ea : a.toList = a.toList.take k ++ a.get ⟨k, hk⟩ :: a.toList.drop (k + 1) := by
    conv_lhs => rw [← List.take_append_drop k a.toList]
    rw [List.drop_eq_getElem_cons (by omega)]; rfl
  have hz : ∃ zs, (a.toList.take k).mapM f = .ok zs := by
    have : ∀ (l : List T), (∀ x ∈ l, ∃ z, f x = .ok z) → ∃ zs, l.mapM f = .ok zs := by
      intro l
      induction l with
      | nil => intro _; exact ⟨[], rfl⟩
      | cons x l ih =>
        intro h
        obtain ⟨z, h1⟩ := h x (by simp)
        obtain ⟨zs, h2⟩ := ih (fun y hy => h y (by simp [hy]))
        exact ⟨z :: zs, by rw [List.mapM_cons, h1, h2]; rfl⟩
    apply this
    intro x hx
    obtain ⟨i, hi, rfl⟩ := List.mem_iff_getElem.1 hx
    simp at hi
    rw [List.getElem_take]
    exact hok i (by omega)
  unfold OwnIt.mapOp
  rw [OwnIt.intoIter_mk]
  have := OwnIt.mapFill_error t f (a.toList.take k) (a.toList.drop (k + 1)) (a.get ⟨k, hk⟩) e [] [] n
    (by simp [ha]; omega) hz he (by simp [ha]; omega)
  rw [← ea] at this
  rw [this]
  refine ⟨rfl, ?_⟩
  have := clean_drop ([] ++ a.toList.take k ++ [a.get ⟨k, hk⟩]) (a.toList.drop (k + 1))
  rwa [List.nil_append, List.append_assoc, List.singleton_append, ← ea] at this

/-- An element operation that panics from 10 on. -/
def addBelow10 (x y : Nat) : Res Nat := if x + y < 10 then .ok (x + y) else .error .panic

/-- A panic at element 1 of 4. -/
example : (OwnIt.zipOp ⟨true, true, 2 ^ 64⟩ addBelow10 (⟨[1, 5, 3, 4], rfl⟩ : Vec Nat 4) (⟨[2, 6, 7, 8], rfl⟩ : Vec Nat 4)).1 =
      .error .panic ∧
    (OwnIt.zipOp ⟨true, true, 2 ^ 64⟩ addBelow10 (⟨[1, 5, 3, 4], rfl⟩ : Vec Nat 4) (⟨[2, 6, 7, 8], rfl⟩ : Vec Nat 4)).2.2.mem.drops =
      [7, 8] := by
  have := C70_zip_panic ⟨true, true, 2 ^ 64⟩ (by decide) addBelow10 (⟨[1, 5, 3, 4], rfl⟩ : Vec Nat 4)
    (⟨[2, 6, 7, 8], rfl⟩ : Vec Nat 4) 1 (by decide) .panic (fun i h => ⟨3, by
      have : i = 0 := by omega
      subst this; rfl⟩) rfl
  exact ⟨this.1, this.2.2.drops⟩

end Rowcol
