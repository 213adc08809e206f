import Verif.Model.Consume
import Verif.Props.Consume

/-! # C78, C79: operations that consume vectors and matrices, element operations with effects and panics -/

namespace Rowcol

variable {T U V L X Y : Type} {n r c : Nat}

namespace Spec

/-- Hand the items of a list to `g`, one after the other, until it panics: how it ended, the state of `g`, and the items
that were never handed over. -/
def handOver (g : X → StM L V) : List X → L → Res (List V) × L × List X
  | [], l => (.ok [], l, [])
  | x :: xs, l =>
    match (g x).run l with
    | (.error e, l') => (.error e, l', xs)
    | (.ok z, l') =>
      match handOver g xs l' with
      | (.ok zs, l'', rest) => (.ok (z :: zs), l'', rest)
      | (.error e, l'', rest) => (.error e, l'', rest)

/-- The elements of a matrix with their positions, in row-major order. -/
def cells (a : Mat T r c) : List (T × (Nat × Nat)) :=
  (a.rows.toList.zipIdx.map fun p => p.1.toList.zipIdx.map fun q => (q.1, (p.2, q.2))).flatten

/-- The pairs of corresponding elements of two matrices, in row-major order. -/
def cellPairs (a : Mat T r c) (b : Mat U r c) : List (T × U) :=
  ((a.rows.toList.zip b.rows.toList).map fun p => p.1.toList.zip p.2.toList).flatten

/-- `a op= b` for corresponding elements, one pair after the other, until `op=` panics: how it ended, what is left on the
left, the state of the element operation, and the right-hand elements never handed over. -/
def assignAll (body : T → U → L → Res Unit × T × L) : List (T × U) → L → Res Unit × List T × L × List U
  | [], l => (.ok (), [], l, [])
  | p :: ps, l =>
    match body p.1 p.2 l with
    | (.error e, a, l') => (.error e, a :: ps.map Prod.fst, l', ps.map Prod.snd)
    | (.ok (), a, l') => match assignAll body ps l' with | (res, as, l'', rest) => (res, a :: as, l'', rest)

end Spec

open Spec

/-- `handOver` is `mapM`, plus the items left over. -/
theorem handOver_mapM (g : X → StM L V) (xs : List X) (l : L) :
    (xs.mapM g).run l = ((handOver g xs l).1, (handOver g xs l).2.1) := by
  induction xs generalizing l with
  | nil => rfl
  | cons x xs ih =>
    rw [List.mapM_cons, handOver]
    rcases hx : (g x).run l with ⟨r, l1⟩
    cases r with
    | error e => rw [StM.run_bind_error hx]
    | ok z =>
      rw [StM.run_bind_ok hx]
      have h1 := ih l1
      rcases hr : handOver g xs l1 with ⟨r, l2, rest⟩
      rw [hr] at h1
      cases r with
      | error e => rw [StM.run_bind_error h1]; simp only [hr]
      | ok zs => rw [StM.run_bind_ok h1]; simp only [hr]; rfl

theorem handOver_ok (g : X → StM L V) (xs : List X) (l l' : L) (zs : List V) (rest : List X)
    (h : handOver g xs l = (.ok zs, l', rest)) : rest = [] := by
  induction xs generalizing l l' zs rest with
  | nil => exact (Prod.mk.inj (Prod.mk.inj h).2).2.symm
  | cons x xs ih =>
    rw [handOver] at h
    rcases hx : (g x).run l with ⟨r, l1⟩
    rw [hx] at h
    cases r with
    | error e => simp at h
    | ok z =>
      simp only at h
      rcases hr : handOver g xs l1 with ⟨r, l2, rest'⟩
      rw [hr] at h
      cases r with
      | error e => simp at h
      | ok ws =>
        simp only [Prod.mk.injEq] at h
        rw [← h.2.2]
        exact ih l1 l2 ws rest' hr

/-- What is never handed over is a suffix of the items. -/
theorem handOver_suffix (g : X → StM L V) (xs : List X) (l : L) : ∃ pre, xs = pre ++ (handOver g xs l).2.2 := by
  induction xs generalizing l with
  | nil => exact ⟨[], rfl⟩
  | cons x xs ih =>
    rw [handOver]
    rcases hx : (g x).run l with ⟨r, l1⟩
    cases r with
    | error e => exact ⟨[x], rfl⟩
    | ok z =>
      obtain ⟨pre, hp⟩ := ih l1
      simp only
      rcases hr : handOver g xs l1 with ⟨r, l2, rest'⟩
      rw [hr] at hp
      cases r <;> exact ⟨x :: pre, by simp only [List.cons_append]; rw [← hp]⟩

theorem handOver_append (g : X → StM L V) (xs ys : List X) (l : L) :
    handOver g (xs ++ ys) l = match handOver g xs l with
      | (.error e, l', rest) => (.error e, l', rest ++ ys)
      | (.ok zs, l', _) =>
        match handOver g ys l' with
        | (.ok ws, l'', rest) => (.ok (zs ++ ws), l'', rest)
        | (.error e, l'', rest) => (.error e, l'', rest) := by
  induction xs generalizing l with
  | nil =>
    simp only [List.nil_append, handOver]
    rcases handOver g ys l with ⟨r, l', rest⟩
    cases r <;> rfl
  | cons x xs ih =>
    rw [List.cons_append, handOver, handOver]
    rcases hx : (g x).run l with ⟨r, l1⟩
    cases r with
    | error e => rfl
    | ok z =>
      simp only
      rw [ih]
      rcases handOver g xs l1 with ⟨r, l2, rest⟩
      cases r with
      | error e => rfl
      | ok zs =>
        simp only
        rcases handOver g ys l2 with ⟨r, l3, rest⟩
        cases r <;> rfl

/-- If the items before position `k` go through and the item at `k` does not, the later ones are left over. -/
theorem handOver_at (g : X → StM L V) (pre post : List X) (x : X) (l l1 l2 : L) (zs : List V) (e : Fault)
    (h1 : (pre.mapM g).run l = (.ok zs, l1)) (h2 : (g x).run l1 = (.error e, l2)) :
    handOver g (pre ++ x :: post) l = (.error e, l2, post) := by
  rw [handOver_append]
  rw [handOver_mapM] at h1
  rcases hr : handOver g pre l with ⟨r, l', rest⟩
  rw [hr] at h1
  obtain ⟨rfl, rfl⟩ := Prod.mk.inj h1
  simp only
  rw [handOver, h2]

/-- A relabelling of the items. -/
theorem handOver_map (g : X → StM L V) (f : Y → X) (ys : List Y) (l : L) :
    handOver g (ys.map f) l = ((handOver (fun y => g (f y)) ys l).1, (handOver (fun y => g (f y)) ys l).2.1,
      (handOver (fun y => g (f y)) ys l).2.2.map f) := by
  induction ys generalizing l with
  | nil => rfl
  | cons y ys ih =>
    rw [List.map_cons, handOver, handOver]
    rcases hx : (g (f y)).run l with ⟨r, l1⟩
    cases r with
    | error e => rfl
    | ok z =>
      simp only
      rw [ih]
      rcases handOver (fun y => g (f y)) ys l1 with ⟨r, l2, rest⟩
      cases r <;> rfl

theorem Vec.ext_toList {a b : Vec T n} (h : a.toList = b.toList) : a = b := by
  cases a; cases b; cases h; rfl

theorem onLeft_run {S α : Type} (x : StM S α) (s : S) (l : L) :
    (onLeft x : StM (S × L) α).run (s, l) = ((x.run s).1, ((x.run s).2, l)) := rfl

theorem onRight_run {S α : Type} (x : StM L α) (s : S) (l : L) :
    (onRight x : StM (S × L) α).run (s, l) = ((x.run l).1, (s, (x.run l).2)) := rfl

namespace OwnIt

theorem feed_run (t : Target) (f : Nat → T → StM L V) (q F : List T) (i : Nat) (l : L) (hW : F.length + q.length < t.W) :
    ∃ F', (feed t f i q.length).run (mkIt F q [] [], l) =
      ((handOver (fun p : T × Nat => f p.2 p.1) (q.zipIdx i) l).1,
        (mkIt F' ((handOver (fun p : T × Nat => f p.2 p.1) (q.zipIdx i) l).2.2.map Prod.fst) [] [],
          (handOver (fun p : T × Nat => f p.2 p.1) (q.zipIdx i) l).2.1)) ∧
      F' ++ (handOver (fun p : T × Nat => f p.2 p.1) (q.zipIdx i) l).2.2.map Prod.fst = F ++ q := by
  induction q generalizing F i l with
  | nil => exact ⟨F, rfl, rfl⟩
  | cons x q ih =>
    rw [List.length_cons, feed, List.zipIdx_cons, handOver]
    have h1 : (onLeft (nextOp t) : StM (OwnIt T × L) (Option T)).run (mkIt F (x :: q) [] [], l) =
        (.ok (some x), (mkIt (F ++ [x]) q [] [], l)) := by
      rw [onLeft_run, next_cons t F q [] [] x (by simp at hW; omega)]
    rw [StM.run_bind_ok h1]
    simp only
    rcases hx : (f i x).run l with ⟨res, l1⟩
    have h2 : (onRight (f i x) : StM (OwnIt T × L) V).run (mkIt (F ++ [x]) q [] [], l) = (res, (mkIt (F ++ [x]) q [] [], l1)) := by
      rw [onRight_run, hx]
    cases res with
    | error e =>
      rw [StM.run_bind_error h2]
      have hfst : List.map Prod.fst (q.zipIdx (i + 1)) = q := List.zipIdx_map_fst _ _
      refine ⟨F ++ [x], ?_, ?_⟩
      · simp only [hfst]
      · simp only [hfst, List.append_assoc, List.singleton_append]
    | ok z =>
      rw [StM.run_bind_ok h2]
      simp only
      obtain ⟨F', h3, h4⟩ := ih (F ++ [x]) (i + 1) l1 (by simp at hW ⊢; omega)
      rcases hr : handOver (fun p : T × Nat => f p.2 p.1) (q.zipIdx (i + 1)) l1 with ⟨res, l2, rest⟩
      rw [hr] at h3 h4
      simp only at h3 h4
      cases res with
      | error e =>
        rw [StM.run_bind_error h3]
        exact ⟨F', rfl, by simp only; rw [h4]; simp⟩
      | ok zs =>
        rw [StM.run_bind_ok h3]
        exact ⟨F', rfl, by simp only; rw [h4]; simp⟩

end OwnIt

/-- C78 (vectors): consuming a vector hands its elements over in order, each once, until the element operation panics;
the outcome and the effects are those of calling it on the elements in order; exactly the elements never handed over are
destroyed by the crate, each once, in order; no invalid access.  Every build. -/
theorem C78_vector (t : Target) (f : Nat → T → StM L V) (v : Vec T n) (l : L) (hn : n < t.W) :
    (OwnIt.consume t f v l).1 = (handOver (fun p => f p.2 p.1) v.toList.zipIdx l).1 ∧
    (OwnIt.consume t f v l).2.1 = (handOver (fun p => f p.2 p.1) v.toList.zipIdx l).2.1 ∧
    Clean (OwnIt.consume t f v l).2.2 v.toList ((handOver (fun p => f p.2 p.1) v.toList.zipIdx l).2.2.map Prod.fst) := by
  have hv := v.length_eq
  obtain ⟨F', h1, h2⟩ := OwnIt.feed_run t f v.toList [] 0 l (by simp [hv, hn])
  rw [hv] at h1
  rw [List.nil_append] at h2
  unfold OwnIt.consume
  rw [OwnIt.intoIter_mk]
  rcases hr : handOver (fun p : T × Nat => f p.2 p.1) v.toList.zipIdx l with ⟨res, l', rest⟩
  rw [hr] at h1 h2
  simp only at h1 h2
  cases res with
  | error e =>
    rw [StM.run_bind_error h1]
    refine ⟨rfl, rfl, ?_⟩
    have := clean_drop F' (rest.map Prod.fst)
    rwa [h2] at this
  | ok zs =>
    have h0 := handOver_ok _ _ _ _ _ _ hr
    subst h0
    rw [List.map_nil] at h1 h2
    rw [StM.run_bind_ok h1]
    have h3 : (OwnIt.countZero t : StM (OwnIt T × L) Unit).run (mkIt F' [] [] [], l') = (.ok (), (mkIt F' [] [] [], l')) := by
      unfold OwnIt.countZero
      split
      · have : (onLeft (OwnIt.nextOp t) : StM (OwnIt T × L) (Option T)).run (mkIt F' [] [] [], l') =
            (.ok none, (mkIt F' [] [] [], l')) := by
          rw [onLeft_run, OwnIt.next_nil]
        rw [StM.run_bind_ok this]; rfl
      · rfl
    rw [StM.run_bind_ok h3]
    refine ⟨rfl, rfl, ?_⟩
    have := clean_drop F' []
    rwa [h2] at this

namespace OwnIt

/-- How one row of a matrix operation acts. -/
theorem consumeRow_run (t : Target) (hc : c < t.W) (f : Nat × Nat → T → StM L V) (i : Nat) (row : Vec T c) (l : L) (log : DropLog T) (cs : List (T × (Nat × Nat)))
    (hcs : cs = row.toList.zipIdx.map fun q => (q.1, (i, q.2))) :
    (consumeRow t f i row).run (l, log) = ((handOver (fun p => f p.2 p.1) cs l).1, ((handOver (fun p => f p.2 p.1) cs l).2.1,
      ⟨log.drops ++ (handOver (fun p => f p.2 p.1) cs l).2.2.map Prod.fst, log.viols⟩)) := by
  obtain ⟨h1, h2, h3⟩ := C78_vector t (fun j x => f (i, j) x) row l hc
  subst hcs
  rw [handOver_map]
  have h3' := h3.drops
  have h4' := h3.viols
  have h0 : (consumeRow t f i row).run (l, log) = ((consume t (fun j x => f (i, j) x) row l).1,
      ((consume t (fun j x => f (i, j) x) row l).2.1, ⟨log.drops ++ (consume t (fun j x => f (i, j) x) row l).2.2.mem.drops,
        log.viols ++ (consume t (fun j x => f (i, j) x) row l).2.2.mem.viols⟩)) := rfl
  rw [h0, h1, h2, h3', h4', List.append_nil]
  simp only [List.map_map]
  rfl

/-- The rows of a matrix handed over one by one, each element by element, against all elements handed over at once. -/
theorem handOver_rows (t : Target) (hc : c < t.W) (f : Nat × Nat → T → StM L V) (rows : List (Vec T c × Nat)) (l : L) (log : DropLog T) (cs : List (T × (Nat × Nat)))
    (hcs : cs = (rows.map fun p => p.1.toList.zipIdx.map fun q => (q.1, (p.2, q.2))).flatten) :
    (handOver (fun p : Vec T c × Nat => consumeRow t f p.2 p.1) rows (l, log)).1.map List.flatten =
      (handOver (fun p => f p.2 p.1) cs l).1 ∧
    (handOver (fun p : Vec T c × Nat => consumeRow t f p.2 p.1) rows (l, log)).2.1.1 = (handOver (fun p => f p.2 p.1) cs l).2.1 ∧
    (handOver (fun p : Vec T c × Nat => consumeRow t f p.2 p.1) rows (l, log)).2.1.2.drops ++
      ((handOver (fun p : Vec T c × Nat => consumeRow t f p.2 p.1) rows (l, log)).2.2.map fun p => p.1.toList).flatten =
      log.drops ++ (handOver (fun p => f p.2 p.1) cs l).2.2.map Prod.fst ∧
    (handOver (fun p : Vec T c × Nat => consumeRow t f p.2 p.1) rows (l, log)).2.1.2.viols = log.viols := by
  induction rows generalizing l log cs with
  | nil => subst hcs; exact ⟨rfl, rfl, by simp [handOver], rfl⟩
  | cons p rows ih =>
    subst hcs
    rw [List.map_cons, List.flatten_cons, handOver, handOver_append, consumeRow_run t hc f p.2 p.1 l log _ rfl]
    rcases hr : handOver (fun p : T × (Nat × Nat) => f p.2 p.1) (p.1.toList.zipIdx.map fun q => (q.1, (p.2, q.2))) l with ⟨res, l1, rest⟩
    cases res with
    | error e =>
      simp only [hr]
      refine ⟨rfl, trivial, ?_, trivial⟩
      rw [List.map_append, List.append_assoc]
      congr 2
      rw [List.map_flatten, List.map_map]
      congr 1
      apply List.map_congr_left
      intro x _
      simp only [Function.comp, List.map_map]
      conv_lhs => rw [← List.zipIdx_map_fst 0 x.1.toList]
      rfl
    | ok zs =>
      have h0 := handOver_ok _ _ _ _ _ _ hr
      subst h0
      simp only [hr, List.map_nil, List.append_nil]
      obtain ⟨i1, i2, i3, i4⟩ := ih l1 log _ rfl
      rcases hr1 : handOver (fun p : Vec T c × Nat => consumeRow t f p.2 p.1) rows (l1, log) with ⟨res1, s1, rest1⟩
      rcases hr2 : handOver (fun p : T × (Nat × Nat) => f p.2 p.1)
        (rows.map fun p => p.1.toList.zipIdx.map fun q => (q.1, (p.2, q.2))).flatten l1 with ⟨res2, l2, rest2⟩
      rw [hr1, hr2] at i1 i2 i3
      rw [hr1] at i4
      simp only at i1 i2 i3 i4
      cases res1 with
      | error e =>
        cases res2 with
        | error e' => simp only [hr2]; exact ⟨i1, i2, i3, i4⟩
        | ok ws => cases i1
      | ok ws' =>
        cases res2 with
        | error e' => cases i1
        | ok ws =>
          have := Except.ok.inj i1
          simp only [hr2]
          refine ⟨?_, i2, i3, i4⟩
          simp only [Except.map, List.flatten_cons, this]

end OwnIt

/-- C78 (matrices): `map`, negation, scalar operations and `+`/`-` with one operand by value hand the elements over in
row-major order, each once, until the element operation panics; the outcome and the effects are those of calling it on
the elements in that order; exactly the elements never handed over - the rest of that row and all later rows - are
destroyed by the crate, each once, in order; no invalid access.  Every build. -/
theorem C78_matrix (t : Target) (f : Nat × Nat → T → StM L V) (a : Mat T r c) (l : L) (hr : r < t.W) (hc : c < t.W) :
    (OwnIt.consumeMat t f a l).1.map List.flatten = (handOver (fun p => f p.2 p.1) (cells a) l).1 ∧
    (OwnIt.consumeMat t f a l).2.1 = (handOver (fun p => f p.2 p.1) (cells a) l).2.1 ∧
    (OwnIt.consumeMat t f a l).2.2.drops = (handOver (fun p => f p.2 p.1) (cells a) l).2.2.map Prod.fst ∧
    (OwnIt.consumeMat t f a l).2.2.viols = [] := by
  obtain ⟨h1, h2, h3⟩ := C78_vector t (OwnIt.consumeRow t f) a.rows (l, ⟨[], []⟩) hr
  obtain ⟨i1, i2, i3, i4⟩ := OwnIt.handOver_rows t hc f
    a.rows.toList.zipIdx l ⟨[], []⟩ (cells a) rfl
  unfold OwnIt.consumeMat
  rcases hk : OwnIt.consume t (OwnIt.consumeRow t f) a.rows (l, ⟨[], []⟩) with ⟨res, ⟨l', log⟩, it⟩
  rw [hk] at h1 h2 h3
  simp only at h1 h2 h3 ⊢
  rw [← h1] at i1
  rw [← h2] at i2 i3 i4
  refine ⟨i1, i2, ?_, ?_⟩
  · rw [h3.drops, List.map_map]
    exact i3
  · rw [h3.viols, List.append_nil]; exact i4

/-! ### Two operands by value -/

namespace OwnIt

theorem onLL_run {S R α : Type} (x : StM S α) (s s' : S) (b : R) (l : L) (res : Res α) (h : x.run s = (res, s')) :
    (onLeft (onLeft x) : StM ((S × R) × L) α).run ((s, b), l) = (res, ((s', b), l)) := by
  rw [onLeft_run, onLeft_run, h]

theorem onLR_run {S R α : Type} (x : StM R α) (s : S) (b b' : R) (l : L) (res : Res α) (h : x.run b = (res, b')) :
    (onLeft (onRight x) : StM ((S × R) × L) α).run ((s, b), l) = (res, ((s, b'), l)) := by
  rw [onLeft_run, onRight_run, h]

theorem feed2_run (t : Target) (f : T → U → StM L V) (q F : List T) (p G : List U) (l : L) (hl : q.length = p.length)
    (hF : F.length + q.length < t.W) (hG : G.length + p.length < t.W) :
    ∃ F' G', (feed2 t f q.length).run ((mkIt F q [] [], mkIt G p [] []), l) =
      ((handOver (fun x : T × U => f x.1 x.2) (q.zip p) l).1,
        ((mkIt F' ((handOver (fun x : T × U => f x.1 x.2) (q.zip p) l).2.2.map Prod.fst) [] [],
          mkIt G' ((handOver (fun x : T × U => f x.1 x.2) (q.zip p) l).2.2.map Prod.snd) [] []),
          (handOver (fun x : T × U => f x.1 x.2) (q.zip p) l).2.1)) ∧
      F' ++ (handOver (fun x : T × U => f x.1 x.2) (q.zip p) l).2.2.map Prod.fst = F ++ q ∧
      G' ++ (handOver (fun x : T × U => f x.1 x.2) (q.zip p) l).2.2.map Prod.snd = G ++ p := by
  induction q generalizing p F G l with
  | nil =>
    cases p with
    | nil => exact ⟨F, G, rfl, rfl, rfl⟩
    | cons y p => simp at hl
  | cons x q ih =>
    cases p with
    | nil => simp at hl
    | cons y p =>
      have hl' : q.length = p.length := by simpa using hl
      rw [List.length_cons, feed2, List.zip_cons_cons, handOver]
      rw [StM.run_bind_ok (onLL_run (nextOp t) _ _ _ l _ (next_cons t F q [] [] x (by simp at hF; omega)))]
      simp only
      rw [StM.run_bind_ok (onLR_run (nextOp t) _ _ _ l _ (next_cons t G p [] [] y (by simp at hG; omega)))]
      simp only
      rcases hx : (f x y).run l with ⟨res, l1⟩
      have h2 : (onRight (f x y) : StM ((OwnIt T × OwnIt U) × L) V).run
          ((mkIt (F ++ [x]) q [] [], mkIt (G ++ [y]) p [] []), l) =
          (res, ((mkIt (F ++ [x]) q [] [], mkIt (G ++ [y]) p [] []), l1)) := by
        rw [onRight_run, hx]
      have hf : List.map Prod.fst (q.zip p) = q := List.map_fst_zip (Nat.le_of_eq hl')
      have hs : List.map Prod.snd (q.zip p) = p := List.map_snd_zip (Nat.le_of_eq hl'.symm)
      cases res with
      | error e =>
        rw [StM.run_bind_error h2]
        exact ⟨F ++ [x], G ++ [y], by simp only [hf, hs], by simp only [hf, List.append_assoc, List.singleton_append],
          by simp only [hs, List.append_assoc, List.singleton_append]⟩
      | ok z =>
        rw [StM.run_bind_ok h2]
        simp only
        obtain ⟨F', G', h3, h4, h5⟩ := ih (F ++ [x]) p (G ++ [y]) l1 hl' (by simp at hF ⊢; omega) (by simp at hG ⊢; omega)
        rcases hr : handOver (fun x : T × U => f x.1 x.2) (q.zip p) l1 with ⟨res, l2, rest⟩
        rw [hr] at h3 h4 h5
        simp only at h3 h4 h5
        cases res with
        | error e =>
          rw [StM.run_bind_error h3]
          exact ⟨F', G', rfl, by simp only; rw [h4]; simp, by simp only; rw [h5]; simp⟩
        | ok zs =>
          rw [StM.run_bind_ok h3]
          exact ⟨F', G', rfl, by simp only; rw [h4]; simp, by simp only; rw [h5]; simp⟩

end OwnIt

/-- C78 (two vectors): `a + b`, `a - b` with both operands by value: corresponding elements are handed over pair by pair
until the element operation panics; exactly the elements of both operands never handed over are destroyed by the crate,
each once, in order; no invalid access.  Every build. -/
theorem C78_two_vectors (t : Target) (f : T → U → StM L V) (a : Vec T n) (b : Vec U n) (l : L) (hn : n < t.W) :
    (OwnIt.consume2 t f a b l).1 = (handOver (fun x => f x.1 x.2) (a.toList.zip b.toList) l).1 ∧
    (OwnIt.consume2 t f a b l).2.1 = (handOver (fun x => f x.1 x.2) (a.toList.zip b.toList) l).2.1 ∧
    Clean (OwnIt.consume2 t f a b l).2.2.1 a.toList
      ((handOver (fun x => f x.1 x.2) (a.toList.zip b.toList) l).2.2.map Prod.fst) ∧
    Clean (OwnIt.consume2 t f a b l).2.2.2 b.toList
      ((handOver (fun x => f x.1 x.2) (a.toList.zip b.toList) l).2.2.map Prod.snd) := by
  have ha := a.length_eq
  have hb := b.length_eq
  obtain ⟨F', G', h1, h2, h3⟩ := OwnIt.feed2_run t f a.toList [] b.toList [] l (by rw [ha, hb]) (by simp [ha, hn])
    (by simp [hb, hn])
  rw [ha] at h1
  rw [List.nil_append] at h2 h3
  unfold OwnIt.consume2
  rw [OwnIt.intoIter_mk, OwnIt.intoIter_mk]
  rcases hr : handOver (fun x : T × U => f x.1 x.2) (a.toList.zip b.toList) l with ⟨res, l', rest⟩
  rw [hr] at h1 h2 h3
  simp only at h1 h2 h3
  cases res with
  | error e =>
    rw [StM.run_bind_error h1]
    refine ⟨rfl, rfl, ?_, ?_⟩
    · have := clean_drop F' (rest.map Prod.fst); rwa [h2] at this
    · have := clean_drop G' (rest.map Prod.snd); rwa [h3] at this
  | ok zs =>
    have h0 := handOver_ok _ _ _ _ _ _ hr
    subst h0
    rw [List.map_nil] at h1 h2
    rw [List.map_nil] at h1 h3
    rw [StM.run_bind_ok h1]
    have h4 : (OwnIt.countZero2 t : StM ((OwnIt T × OwnIt U) × L) Unit).run ((mkIt F' [] [] [], mkIt G' [] [] []), l') =
        (.ok (), ((mkIt F' [] [] [], mkIt G' [] [] []), l')) := by
      unfold OwnIt.countZero2
      split
      · rw [StM.run_bind_ok (OwnIt.onLL_run (OwnIt.nextOp t) _ _ _ l' _ (OwnIt.next_nil t F' [] []))]; rfl
      · rfl
    rw [StM.run_bind_ok h4]
    refine ⟨rfl, rfl, ?_, ?_⟩
    · have := clean_drop F' []; rwa [h2] at this
    · have := clean_drop G' []; rwa [h3] at this

namespace OwnIt

theorem consumeRow2_run (t : Target) (hc : c < t.W) (f : T → U → StM L V) (x : Vec T c) (y : Vec U c) (l : L)
    (la : DropLog T) (lb : DropLog U) (cs : List (T × U)) (hcs : cs = x.toList.zip y.toList) :
    (consumeRow2 t f x y).run (l, la, lb) = ((handOver (fun p => f p.1 p.2) cs l).1, ((handOver (fun p => f p.1 p.2) cs l).2.1,
      ⟨la.drops ++ (handOver (fun p => f p.1 p.2) cs l).2.2.map Prod.fst, la.viols⟩,
      ⟨lb.drops ++ (handOver (fun p => f p.1 p.2) cs l).2.2.map Prod.snd, lb.viols⟩)) := by
  subst hcs
  obtain ⟨h1, h2, h3, h4⟩ := C78_two_vectors t f x y l hc
  have h0 : (consumeRow2 t f x y).run (l, la, lb) = ((consume2 t f x y l).1, ((consume2 t f x y l).2.1,
      ⟨la.drops ++ (consume2 t f x y l).2.2.1.mem.drops, la.viols ++ (consume2 t f x y l).2.2.1.mem.viols⟩,
      ⟨lb.drops ++ (consume2 t f x y l).2.2.2.mem.drops, lb.viols ++ (consume2 t f x y l).2.2.2.mem.viols⟩)) := rfl
  rw [h0, h1, h2, h3.drops, h3.viols, h4.drops, h4.viols, List.append_nil, List.append_nil]

theorem map_fst_cellPairs (rows : List (Vec T c × Vec U c)) :
    (rows.map fun p => p.1.toList.zip p.2.toList).flatten.map Prod.fst = (rows.map fun p => p.1.toList).flatten := by
  induction rows with
  | nil => rfl
  | cons p rows ih =>
    rw [List.map_cons, List.map_cons, List.flatten_cons, List.flatten_cons, List.map_append, ih,
      List.map_fst_zip (Nat.le_of_eq (p.1.length_eq.trans p.2.length_eq.symm))]

theorem map_snd_cellPairs (rows : List (Vec T c × Vec U c)) :
    (rows.map fun p => p.1.toList.zip p.2.toList).flatten.map Prod.snd = (rows.map fun p => p.2.toList).flatten := by
  induction rows with
  | nil => rfl
  | cons p rows ih =>
    rw [List.map_cons, List.map_cons, List.flatten_cons, List.flatten_cons, List.map_append, ih,
      List.map_snd_zip (Nat.le_of_eq (p.2.length_eq.trans p.1.length_eq.symm))]

theorem handOver_rows2 (t : Target) (hc : c < t.W) (f : T → U → StM L V) (rows : List (Vec T c × Vec U c)) (l : L)
    (la : DropLog T) (lb : DropLog U) (cs : List (T × U)) (hcs : cs = (rows.map fun p => p.1.toList.zip p.2.toList).flatten) :
    (handOver (fun p : Vec T c × Vec U c => consumeRow2 t f p.1 p.2) rows (l, la, lb)).1.map List.flatten =
      (handOver (fun p => f p.1 p.2) cs l).1 ∧
    (handOver (fun p : Vec T c × Vec U c => consumeRow2 t f p.1 p.2) rows (l, la, lb)).2.1.1 =
      (handOver (fun p => f p.1 p.2) cs l).2.1 ∧
    (handOver (fun p : Vec T c × Vec U c => consumeRow2 t f p.1 p.2) rows (l, la, lb)).2.1.2.1.drops ++
      ((handOver (fun p : Vec T c × Vec U c => consumeRow2 t f p.1 p.2) rows (l, la, lb)).2.2.map fun p => p.1.toList).flatten =
      la.drops ++ (handOver (fun p => f p.1 p.2) cs l).2.2.map Prod.fst ∧
    (handOver (fun p : Vec T c × Vec U c => consumeRow2 t f p.1 p.2) rows (l, la, lb)).2.1.2.2.drops ++
      ((handOver (fun p : Vec T c × Vec U c => consumeRow2 t f p.1 p.2) rows (l, la, lb)).2.2.map fun p => p.2.toList).flatten =
      lb.drops ++ (handOver (fun p => f p.1 p.2) cs l).2.2.map Prod.snd ∧
    (handOver (fun p : Vec T c × Vec U c => consumeRow2 t f p.1 p.2) rows (l, la, lb)).2.1.2.1.viols = la.viols ∧
    (handOver (fun p : Vec T c × Vec U c => consumeRow2 t f p.1 p.2) rows (l, la, lb)).2.1.2.2.viols = lb.viols := by
  induction rows generalizing l la lb cs with
  | nil => subst hcs; exact ⟨rfl, rfl, by simp [handOver], by simp [handOver], rfl, rfl⟩
  | cons p rows ih =>
    subst hcs
    rw [List.map_cons, List.flatten_cons, handOver, handOver_append, consumeRow2_run t hc f p.1 p.2 l la lb _ rfl]
    rcases hr : handOver (fun p : T × U => f p.1 p.2) (p.1.toList.zip p.2.toList) l with ⟨res, l1, rest⟩
    cases res with
    | error e =>
      simp only
      refine ⟨rfl, trivial, ?_, ?_, trivial, trivial⟩
      · rw [List.map_append, map_fst_cellPairs, List.append_assoc]
      · rw [List.map_append, map_snd_cellPairs, List.append_assoc]
    | ok zs =>
      have h0 := handOver_ok _ _ _ _ _ _ hr
      subst h0
      simp only [List.map_nil, List.append_nil]
      obtain ⟨i1, i2, i3, i4, i5, i6⟩ := ih l1 la lb _ rfl
      rcases hr1 : handOver (fun p : Vec T c × Vec U c => consumeRow2 t f p.1 p.2) rows (l1, la, lb) with ⟨res1, s1, rest1⟩
      rcases hr2 : handOver (fun p : T × U => f p.1 p.2)
        (rows.map fun p => p.1.toList.zip p.2.toList).flatten l1 with ⟨res2, l2, rest2⟩
      rw [hr1, hr2] at i1 i2 i3 i4
      rw [hr1] at i5 i6
      simp only at i1 i2 i3 i4 i5 i6
      cases res1 with
      | error e =>
        cases res2 with
        | error e' => simp only [hr2]; exact ⟨i1, i2, i3, i4, i5, i6⟩
        | ok ws => cases i1
      | ok ws' =>
        cases res2 with
        | error e' => cases i1
        | ok ws =>
          have := Except.ok.inj i1
          simp only [hr2]
          refine ⟨?_, i2, i3, i4, i5, i6⟩
          simp only [Except.map, List.flatten_cons, this]

end OwnIt

/-- C78 (two matrices): the same for `a + b`, `a - b` of matrices by value, in row-major order. -/
theorem C78_two_matrices (t : Target) (f : T → U → StM L V) (a : Mat T r c) (b : Mat U r c) (l : L) (hr : r < t.W) (hc : c < t.W) :
    (OwnIt.consumeMat2 t f a b l).1.map List.flatten = (handOver (fun p => f p.1 p.2) (cellPairs a b) l).1 ∧
    (OwnIt.consumeMat2 t f a b l).2.1 = (handOver (fun p => f p.1 p.2) (cellPairs a b) l).2.1 ∧
    (OwnIt.consumeMat2 t f a b l).2.2.1.drops = (handOver (fun p => f p.1 p.2) (cellPairs a b) l).2.2.map Prod.fst ∧
    (OwnIt.consumeMat2 t f a b l).2.2.2.drops = (handOver (fun p => f p.1 p.2) (cellPairs a b) l).2.2.map Prod.snd ∧
    (OwnIt.consumeMat2 t f a b l).2.2.1.viols = [] ∧ (OwnIt.consumeMat2 t f a b l).2.2.2.viols = [] := by
  obtain ⟨h1, h2, h3, h4⟩ := C78_two_vectors t (OwnIt.consumeRow2 t f) a.rows b.rows (l, ⟨[], []⟩, ⟨[], []⟩) hr
  obtain ⟨i1, i2, i3, i4, i5, i6⟩ := OwnIt.handOver_rows2 t hc f (a.rows.toList.zip b.rows.toList) l ⟨[], []⟩ ⟨[], []⟩
    (cellPairs a b) rfl
  unfold OwnIt.consumeMat2
  rcases hk : OwnIt.consume2 t (OwnIt.consumeRow2 t f) a.rows b.rows (l, ⟨[], []⟩, ⟨[], []⟩) with ⟨res, ⟨l', la, lb⟩, ia, ib⟩
  rw [hk] at h1 h2 h3 h4
  simp only at h1 h2 h3 h4 ⊢
  rw [← h1] at i1
  rw [← h2] at i2 i3 i4 i5 i6
  refine ⟨i1, i2, ?_, ?_, ?_, ?_⟩
  · rw [h3.drops, List.map_map]; exact i3
  · rw [h4.drops, List.map_map]; exact i4
  · rw [h3.viols, List.append_nil]; exact i5
  · rw [h4.viols, List.append_nil]; exact i6

/-- C78, read off positions: if the element operation accepts the elements of `a` up to some position and panics there, the
elements behind that position are destroyed by the crate. -/
theorem C78_vector_panic_at (t : Target) (f : Nat → T → StM L V) (v : Vec T n) (hn : n < t.W) (pre post : List (T × Nat)) (x : T × Nat)
    (hv : v.toList.zipIdx = pre ++ x :: post) (l l1 l2 : L) (zs : List V) (e : Fault)
    (h1 : (pre.mapM fun p => f p.2 p.1).run l = (.ok zs, l1)) (h2 : (f x.2 x.1).run l1 = (.error e, l2)) :
    (OwnIt.consume t f v l).1 = .error e ∧ (OwnIt.consume t f v l).2.1 = l2 ∧
      Clean (OwnIt.consume t f v l).2.2 v.toList (post.map Prod.fst) := by
  obtain ⟨i1, i2, i3⟩ := C78_vector t f v l hn
  rw [hv, handOver_at (fun p : T × Nat => f p.2 p.1) pre post x l l1 l2 zs e h1 h2] at i1 i2 i3
  exact ⟨i1, i2, i3⟩

/-! A closure that counts its calls and panics on the third element: the first three elements were handed over, the
other two are destroyed. -/

deriving instance DecidableEq for Except

def boom3 : Nat → Nat → StM Nat Nat := fun _ x => do modify (· + 1); if x = 30 then fault .panic else pure (x + 1)

example : (OwnIt.consume ⟨true, true, 2 ^ 64⟩ boom3 (⟨[10, 20, 30, 40, 50], rfl⟩ : Vec Nat 5) 0).1 = .error .panic := by decide +kernel
example : (OwnIt.consume ⟨true, true, 2 ^ 64⟩ boom3 (⟨[10, 20, 30, 40, 50], rfl⟩ : Vec Nat 5) 0).2.1 = 3 := by decide +kernel
example : (OwnIt.consume ⟨true, true, 2 ^ 64⟩ boom3 (⟨[10, 20, 30, 40, 50], rfl⟩ : Vec Nat 5) 0).2.2.mem.drops = [40, 50] := by decide +kernel
example : (OwnIt.consumeMat ⟨true, true, 2 ^ 64⟩ (fun p x => boom3 p.1 x)
    (⟨⟨[⟨[10, 20], rfl⟩, ⟨[30, 40], rfl⟩, ⟨[50, 60], rfl⟩], rfl⟩⟩ : Mat Nat 3 2) 0).2.2.drops = [40, 50, 60] := by decide +kernel
example : (OwnIt.consumeMat ⟨true, true, 2 ^ 64⟩ (fun p x => boom3 p.1 x)
    (⟨⟨[⟨[10, 20], rfl⟩, ⟨[31, 40], rfl⟩], rfl⟩⟩ : Mat Nat 2 2) 0).1 = .ok [[11, 21], [32, 41]] := by decide +kernel

/-! ### Assigning operators -/

namespace OwnIt

theorem forZipOwn_run (t : Target) (body : T → U → L → Res Unit × T × L) (as : List T) (p G : List U) (l : L)
    (hl : as.length = p.length) (hG : G.length + p.length < t.W) :
    ∃ G', forZipOwn t body as (mkIt G p [] [], l) =
      ((assignAll body (as.zip p) l).1, (assignAll body (as.zip p) l).2.1,
        mkIt G' (assignAll body (as.zip p) l).2.2.2 [] [], (assignAll body (as.zip p) l).2.2.1) ∧
      G' ++ (assignAll body (as.zip p) l).2.2.2 = G ++ p := by
  induction as generalizing p G l with
  | nil =>
    cases p with
    | nil => exact ⟨G, rfl, rfl⟩
    | cons y p => simp at hl
  | cons x as ih =>
    cases p with
    | nil => simp at hl
    | cons y p =>
      have hl' : as.length = p.length := by simpa using hl
      rw [forZipOwn, next_cons t G p [] [] y (by simp at hG; omega), List.zip_cons_cons, assignAll]
      simp only
      have hf : List.map Prod.fst (as.zip p) = as := List.map_fst_zip (Nat.le_of_eq hl')
      have hs : List.map Prod.snd (as.zip p) = p := List.map_snd_zip (Nat.le_of_eq hl'.symm)
      rcases hx : body x y l with ⟨res, x', l1⟩
      cases res with
      | error e => exact ⟨G ++ [y], by simp only [hf, hs], by simp only [hs, List.append_assoc, List.singleton_append]⟩
      | ok u =>
        obtain ⟨G', h1, h2⟩ := ih p (G ++ [y]) l1 hl' (by simp at hG ⊢; omega)
        simp only
        rw [h1]
        exact ⟨G', rfl, by rw [h2]; simp⟩

theorem assignAll_append (body : T → U → L → Res Unit × T × L) (xs ys : List (T × U)) (l : L) :
    assignAll body (xs ++ ys) l = match assignAll body xs l with
      | (.error e, as, l', rest) => (.error e, as ++ ys.map Prod.fst, l', rest ++ ys.map Prod.snd)
      | (.ok (), as, l', _) =>
        match assignAll body ys l' with
        | (res, bs, l'', rest) => (res, as ++ bs, l'', rest) := by
  induction xs generalizing l with
  | nil => rfl
  | cons p xs ih =>
    rw [List.cons_append, assignAll, assignAll]
    rcases hx : body p.1 p.2 l with ⟨r, a, l1⟩
    cases r with
    | error e => simp
    | ok u =>
      simp only
      rw [ih]
      rcases assignAll body xs l1 with ⟨r, as, l2, rest⟩
      cases r with
      | error e => rfl
      | ok u =>
        simp only
        rcases assignAll body ys l2 with ⟨r, bs, l3, rest⟩
        rfl

theorem assignAll_ok (body : T → U → L → Res Unit × T × L) (xs : List (T × U)) (l l' : L) (as : List T) (rest : List U)
    (h : assignAll body xs l = (.ok (), as, l', rest)) : rest = [] := by
  induction xs generalizing l l' as rest with
  | nil => exact (Prod.mk.inj (Prod.mk.inj (Prod.mk.inj h).2).2).2.symm
  | cons p xs ih =>
    rw [assignAll] at h
    rcases hx : body p.1 p.2 l with ⟨r, a, l1⟩
    rw [hx] at h
    cases r with
    | error e => simp at h
    | ok u =>
      simp only at h
      rcases hr : assignAll body xs l1 with ⟨r, bs, l2, rest'⟩
      rw [hr] at h
      simp only [Prod.mk.injEq] at h
      obtain ⟨rfl, -, -, rfl⟩ := h
      exact ih _ _ _ _ hr

end OwnIt

/-- C79 (vectors): `a += b`, `a -= b`, where the element operation may have effects, may modify `*a` and may then panic: how
it ends, what is left in `a` and the effects are those of the element operation applied to the corresponding elements in
order; exactly the elements of `b` never handed over are destroyed by the crate, each once, in order; no invalid access. -/
theorem C79_vector (t : Target) (body : T → U → L → Res Unit × T × L) (a : Vec T n) (b : Vec U n) (l : L) (hn : n < t.W) :
    (OwnIt.assignOwn t body a b l).1 = (assignAll body (a.toList.zip b.toList) l).1 ∧
    (OwnIt.assignOwn t body a b l).2.1.toList = (assignAll body (a.toList.zip b.toList) l).2.1 ∧
    (OwnIt.assignOwn t body a b l).2.2.1 = (assignAll body (a.toList.zip b.toList) l).2.2.1 ∧
    Clean (OwnIt.assignOwn t body a b l).2.2.2 b.toList (assignAll body (a.toList.zip b.toList) l).2.2.2 := by
  obtain ⟨G', h1, h2⟩ := OwnIt.forZipOwn_run t body a.toList b.toList [] l (by rw [a.length_eq, b.length_eq])
    (by simp [b.length_eq, hn])
  rw [List.nil_append] at h2
  have key := clean_drop G' (assignAll body (a.toList.zip b.toList) l).2.2.2
  rw [h2] at key
  unfold OwnIt.assignOwn
  simp only [OwnIt.intoIter_mk, h1]
  exact ⟨trivial, trivial, trivial, key⟩

namespace OwnIt

theorem assignRow_run (t : Target) (hc : c < t.W) (body : T → U → L → Res Unit × T × L) (x : Vec T c) (y : Vec U c) (l : L)
    (log : DropLog U) :
    ∃ x' : Vec T c, x'.toList = (assignAll body (x.toList.zip y.toList) l).2.1 ∧
    assignRow t body x y (l, log) = ((assignAll body (x.toList.zip y.toList) l).1, x', ((assignAll body (x.toList.zip y.toList) l).2.2.1,
      ⟨log.drops ++ (assignAll body (x.toList.zip y.toList) l).2.2.2, log.viols⟩)) := by
  obtain ⟨h1, h2, h3, h4⟩ := C79_vector t body x y l hc
  refine ⟨_, h2, ?_⟩
  have h0 : assignRow t body x y (l, log) = ((assignOwn t body x y l).1, (assignOwn t body x y l).2.1,
    ((assignOwn t body x y l).2.2.1, ⟨log.drops ++ (assignOwn t body x y l).2.2.2.mem.drops,
      log.viols ++ (assignOwn t body x y l).2.2.2.mem.viols⟩)) := rfl
  rw [h0, h1, h3, h4.drops, h4.viols, List.append_nil]

theorem assignAll_rows (t : Target) (hc : c < t.W) (body : T → U → L → Res Unit × T × L) (rows : List (Vec T c × Vec U c)) (l : L)
    (log : DropLog U) (cs : List (T × U)) (hcs : cs = (rows.map fun p => p.1.toList.zip p.2.toList).flatten) :
    (assignAll (assignRow t body) rows (l, log)).1 = (assignAll body cs l).1 ∧
    ((assignAll (assignRow t body) rows (l, log)).2.1.map Vec.toList).flatten = (assignAll body cs l).2.1 ∧
    (assignAll (assignRow t body) rows (l, log)).2.2.1.1 = (assignAll body cs l).2.2.1 ∧
    (assignAll (assignRow t body) rows (l, log)).2.2.1.2.drops ++
      ((assignAll (assignRow t body) rows (l, log)).2.2.2.map Vec.toList).flatten = log.drops ++ (assignAll body cs l).2.2.2 ∧
    (assignAll (assignRow t body) rows (l, log)).2.2.1.2.viols = log.viols := by
  induction rows generalizing l log cs with
  | nil => subst hcs; exact ⟨rfl, rfl, rfl, by simp [assignAll], rfl⟩
  | cons p rows ih =>
    subst hcs
    obtain ⟨x', hx', hrow⟩ := assignRow_run t hc body p.1 p.2 l log
    rcases hr : assignAll body (p.1.toList.zip p.2.toList) l with ⟨res, as, l1, rest⟩
    rw [hr] at hx' hrow
    rw [List.map_cons, List.flatten_cons, assignAll, assignAll_append, hrow, hr]
    cases res with
    | error e =>
      simp only
      refine ⟨trivial, ?_, trivial, ?_, trivial⟩
      · rw [map_fst_cellPairs, List.map_cons, List.flatten_cons, hx']; simp [List.map_map, Function.comp_def]
      · rw [map_snd_cellPairs, List.append_assoc]; simp [List.map_map, Function.comp_def]
    | ok u =>
      have h0 := assignAll_ok _ _ _ _ _ _ hr
      subst h0
      simp only [List.append_nil]
      obtain ⟨i1, i2, i3, i4, i5⟩ := ih l1 log _ rfl
      rcases hr1 : assignAll (assignRow t body) rows (l1, log) with ⟨res1, as1, s1, rest1⟩
      rcases hr2 : assignAll body (rows.map fun p => p.1.toList.zip p.2.toList).flatten l1 with ⟨res2, as2, l2, rest2⟩
      rw [hr1, hr2] at i1 i2 i3 i4
      rw [hr1] at i5
      simp only [hr2] at i1 i2 i3 i4 i5 ⊢
      exact ⟨i1, by rw [List.map_cons, List.flatten_cons, hx', i2], i3, i4, i5⟩

end OwnIt

/-- C79 (matrices): the same for matrices, in row-major order; the elements destroyed are the rest of the row of `b` in
which the panic happened and the later rows. -/
theorem C79_matrix (t : Target) (body : T → U → L → Res Unit × T × L) (a : Mat T r c) (b : Mat U r c) (l : L) (hr : r < t.W)
    (hc : c < t.W) :
    (OwnIt.assignOwnMat t body a b l).1 = (assignAll body (cellPairs a b) l).1 ∧
    ((OwnIt.assignOwnMat t body a b l).2.1.rows.toList.map Vec.toList).flatten = (assignAll body (cellPairs a b) l).2.1 ∧
    (OwnIt.assignOwnMat t body a b l).2.2.1 = (assignAll body (cellPairs a b) l).2.2.1 ∧
    (OwnIt.assignOwnMat t body a b l).2.2.2.drops = (assignAll body (cellPairs a b) l).2.2.2 ∧
    (OwnIt.assignOwnMat t body a b l).2.2.2.viols = [] := by
  obtain ⟨h1, h2, h3, h4⟩ := C79_vector t (OwnIt.assignRow t body) a.rows b.rows (l, ⟨[], []⟩) hr
  obtain ⟨i1, i2, i3, i4, i5⟩ := OwnIt.assignAll_rows t hc body (a.rows.toList.zip b.rows.toList) l ⟨[], []⟩ (cellPairs a b) rfl
  have h0 : OwnIt.assignOwnMat t body a b l = ((OwnIt.assignOwn t (OwnIt.assignRow t body) a.rows b.rows (l, ⟨[], []⟩)).1,
    ⟨(OwnIt.assignOwn t (OwnIt.assignRow t body) a.rows b.rows (l, ⟨[], []⟩)).2.1⟩,
    (OwnIt.assignOwn t (OwnIt.assignRow t body) a.rows b.rows (l, ⟨[], []⟩)).2.2.1.1,
    ⟨(OwnIt.assignOwn t (OwnIt.assignRow t body) a.rows b.rows (l, ⟨[], []⟩)).2.2.1.2.drops ++
      ((OwnIt.assignOwn t (OwnIt.assignRow t body) a.rows b.rows (l, ⟨[], []⟩)).2.2.2.mem.drops.map Vec.toList).flatten,
     (OwnIt.assignOwn t (OwnIt.assignRow t body) a.rows b.rows (l, ⟨[], []⟩)).2.2.1.2.viols ++
      (OwnIt.assignOwn t (OwnIt.assignRow t body) a.rows b.rows (l, ⟨[], []⟩)).2.2.2.mem.viols⟩) := rfl
  rw [h0]
  refine ⟨h1.trans i1, ?_, ?_, ?_, ?_⟩
  · rw [h2]; exact i2
  · rw [h3]; exact i3
  · rw [h3, h4.drops]; exact i4
  · rw [h3, h4.viols, List.append_nil]; exact i5

/-- An element operation without effects of its own that leaves `*a` alone when it panics. -/
def Spec.plain (f : T → U → Res T) (a : T) (b : U) (_ : Unit) : Res Unit × T × Unit :=
  match f a b with
  | .ok a' => (.ok (), a', ())
  | .error e => (.error e, a, ())

theorem assignAll_forMutZip (body : T → U → L → Res Unit × T × L) (g : T → U → Res Unit × T)
    (hg : ∀ a b l, (body a b l).1 = (g a b).1 ∧ (body a b l).2.1 = (g a b).2) (as : List T) (bs : List U) (l : L)
    (hl : as.length = bs.length) :
    (assignAll body (as.zip bs) l).1 = (forMutZip g as bs).1 ∧ (assignAll body (as.zip bs) l).2.1 = (forMutZip g as bs).2 := by
  induction as generalizing bs l with
  | nil => cases bs with | nil => exact ⟨rfl, rfl⟩ | cons b bs => simp at hl
  | cons a as ih =>
    cases bs with
    | nil => simp at hl
    | cons b bs =>
      have hl' : as.length = bs.length := by simpa using hl
      rw [List.zip_cons_cons, assignAll, forMutZip]
      obtain ⟨g1, g2⟩ := hg a b l
      rcases hb : body a b l with ⟨res, a', l'⟩
      rcases hg' : g a b with ⟨res', a''⟩
      rw [hb, hg'] at g1 g2
      simp only at g1 g2
      subst g1 g2
      cases res with
      | ok u => obtain ⟨i1, i2⟩ := ih bs l' hl'; exact ⟨i1, by simp only; rw [i2]⟩
      | error e => exact ⟨rfl, by simp only [List.map_fst_zip (Nat.le_of_eq hl')]⟩

theorem plain_assign (f : T → U → Res T) (a : T) (b : U) (l : Unit) :
    (plain f a b l).1 = (assign f a b).1 ∧ (plain f a b l).2.1 = (assign f a b).2 := by
  unfold plain assign
  cases f a b <;> exact ⟨rfl, rfl⟩

/-- C79: for plain element operations this is the `a += b` / `a -= b` of C20 and C21. -/
theorem C79_vector_value (t : Target) (f : T → U → Res T) (a : Vec T n) (b : Vec U n) (hn : n < t.W) :
    ((OwnIt.assignOwn t (plain f) a b ()).1, (OwnIt.assignOwn t (plain f) a b ()).2.1) = a.addAssign f b ∧
    ((OwnIt.assignOwn t (plain f) a b ()).1, (OwnIt.assignOwn t (plain f) a b ()).2.1) = a.subAssign f b := by
  obtain ⟨h1, h2, -, -⟩ := C79_vector t (plain f) a b () hn
  obtain ⟨i1, i2⟩ := assignAll_forMutZip (plain f) (assign f) (plain_assign f) a.toList b.toList () (by rw [a.length_eq, b.length_eq])
  have : ((OwnIt.assignOwn t (plain f) a b ()).1, (OwnIt.assignOwn t (plain f) a b ()).2.1) = a.addAssign f b :=
    Prod.ext (h1.trans i1) (Vec.ext_toList (h2.trans i2))
  exact ⟨this, this⟩

theorem C79_matrix_value (t : Target) (f : T → U → Res T) (a : Mat T r c) (b : Mat U r c) (hr : r < t.W) (hc : c < t.W) :
    ((OwnIt.assignOwnMat t (plain f) a b ()).1, (OwnIt.assignOwnMat t (plain f) a b ()).2.1) = a.addAssign f b ∧
    ((OwnIt.assignOwnMat t (plain f) a b ()).1, (OwnIt.assignOwnMat t (plain f) a b ()).2.1) = a.subAssign f b := by
  obtain ⟨h1, h2, -, -⟩ := C79_vector t (OwnIt.assignRow t (plain f)) a.rows b.rows ((), ⟨[], []⟩) hr
  obtain ⟨i1, i2⟩ := assignAll_forMutZip (OwnIt.assignRow t (plain f)) (Mat.rowAssign f) (fun x y s => by
    obtain ⟨x', hx, hr⟩ := OwnIt.assignRow_run t hc (plain f) x y s.1 s.2
    obtain ⟨j1, j2⟩ := assignAll_forMutZip (plain f) (assign f) (plain_assign f) x.toList y.toList () (by
      rw [x.length_eq, y.length_eq])
    have hr' : OwnIt.assignRow t (plain f) x y s = _ := hr
    rw [hr']
    exact ⟨j1, Vec.ext_toList (hx.trans j2)⟩) a.rows.toList b.rows.toList ((), ⟨[], []⟩)
    (by rw [a.rows.length_eq, b.rows.length_eq])
  have : ((OwnIt.assignOwnMat t (plain f) a b ()).1, (OwnIt.assignOwnMat t (plain f) a b ()).2.1) = a.addAssign f b := by
    refine Prod.ext (h1.trans i1) ?_
    have h3 : (OwnIt.assignOwnMat t (plain f) a b ()).2.1 =
      ⟨(OwnIt.assignOwn t (OwnIt.assignRow t (plain f)) a.rows b.rows ((), ⟨[], []⟩)).2.1⟩ := rfl
    rw [h3]
    exact congrArg Mat.mk (Vec.ext_toList (b := (a.addAssign f b).2.rows) (h2.trans i2))
  exact ⟨this, this⟩

/-! The third element panics after it was modified. -/

def boomAssign (a b : Nat) (l : Nat) : Res Unit × Nat × Nat := if b = 30 then (.error .panic, 999, l + 1) else (.ok (), a + b, l + 1)

example : (OwnIt.assignOwn ⟨true, true, 2 ^ 64⟩ boomAssign (⟨[1, 2, 3, 4], rfl⟩ : Vec Nat 4) (⟨[10, 20, 30, 40], rfl⟩ : Vec Nat 4) 0).2.1.toList =
  [11, 22, 999, 4] := by decide +kernel
example : (OwnIt.assignOwn ⟨true, true, 2 ^ 64⟩ boomAssign (⟨[1, 2, 3, 4], rfl⟩ : Vec Nat 4) (⟨[10, 20, 30, 40], rfl⟩ : Vec Nat 4) 0).2.2.2.mem.drops =
  [40] := by decide +kernel
example : (OwnIt.assignOwnMat ⟨true, true, 2 ^ 64⟩ boomAssign (⟨⟨[⟨[1, 2], rfl⟩, ⟨[3, 4], rfl⟩], rfl⟩⟩ : Mat Nat 2 2)
    (⟨⟨[⟨[10, 30], rfl⟩, ⟨[50, 60], rfl⟩], rfl⟩⟩ : Mat Nat 2 2) 0).2.2.2.drops = [50, 60] := by decide +kernel

end Rowcol
