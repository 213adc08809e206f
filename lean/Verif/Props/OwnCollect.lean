import Verif.Model.OwnCollect
import Verif.Props.Own
import Verif.Props.Ownership
import Verif.Props.Chunks

/-! # C111, C112: collecting what is left of a used owning iterator -/

namespace Rowcol

variable {T : Type} {n : Nat}

namespace Spec

/-- What collecting the list `q` into a vector of length `m` must give: all of `q` if it has length `m`, a panic if there is too
little; with surplus a panic in debug builds, the first `m` elements in others. -/
def collected (t : Target) (m : Nat) (q : List T) : Res (List T) :=
  if q.length = m then .ok q
  else if q.length < m then .error .panic
  else if t.debugAssertions then .error .panic
  else .ok (q.take m)

end Spec

open Spec

namespace Owner

/-- The iterator after dropping what is left of it. -/
theorem drop_it (F q B D : List T) : ((OwnIt.dropOp fun _ => false).run (mkIt F q B D)).2.mem.drops = D ++ q ∧
    ((OwnIt.dropOp fun _ => false).run (mkIt F q B D)).2.mem.viols = [] := by
  rw [OwnIt.drop_ok (fun _ => false) F q B D (by simp)]; simp [mkMem]

theorem collectOwn_mk (t : Target) (m : Nat) (F q B D : List T) (hF : F.length + q.length < t.W) :
    (collectOwn t m (mkIt F q B D)).1 = collected t m q ∧
    (collectOwn t m (mkIt F q B D)).2.1 = (if q.length < m then q else []) ∧
    (collectOwn t m (mkIt F q B D)).2.2.mem.drops = D ++ q.drop m ∧
    (collectOwn t m (mkIt F q B D)).2.2.mem.viols = [] := by
  unfold collectOwn
  rw [pull_run t m F q B D hF]
  by_cases hm : m ≤ q.length
  · rw [if_pos hm]
    have hlt : ¬ q.length < m := by omega
    obtain ⟨d1, d2⟩ := drop_it (F ++ q.take m) (q.drop m) B D
    by_cases he : q.length = m
    · have e1 : q.take m = q := by rw [← he, List.take_length]
      have e2 : q.drop m = [] := by rw [← he, List.drop_length]
      rw [e1] at d1 d2
      cases hd : t.debugAssertions with
      | false => simp [collected, d1, d2, he, e1]
      | true => simp [OwnIt.len_mk, collected, d1, d2, he, e1]
    · cases hd : t.debugAssertions with
      | false => simp [collected, d1, d2, hlt, he, hd]
      | true =>
        have : ¬ q.length ≤ m := by omega
        simp [OwnIt.len_mk, collected, d1, d2, hlt, he, hd, this, Nat.sub_eq_zero_iff_le]
  · rw [if_neg hm]
    obtain ⟨d1, d2⟩ := drop_it (F ++ q) [] B D
    have h1 : q.length < m := by omega
    have h2 : q.length ≠ m := by omega
    simp [collected, d1, d2, h1, h2, List.drop_eq_nil_of_le (by omega : q.length ≤ m)]

/-! ### From the back -/

/-- The iterator after reading everything down to index `F.length`, the elements `G` after it a second time: `next` stays where it
was, and every such reading is an invalid access. -/
def stale (F G B D : List T) : OwnIt T :=
  { mem := { mkMem (F ++ G) [] B D with viols := ((List.range G.length).map fun i => Viol.readGone (F.length + G.length - 1 - i)) },
    next := F.length + G.length, back := F.length }

theorem stale_nil (F B D : List T) : stale F [] B D = mkIt F [] B D := by
  simp [stale, mkIt, mkMem]

theorem stale_step (t : Target) (F G B D : List T) (x : T) :
    (OwnIt.nextBackOp t).run (stale (F ++ [x]) G B D) = (.ok (some x), stale F (x :: G) B D) := by
  unfold OwnIt.nextBackOp
  have h0 : debugAssert t ((stale (F ++ [x]) G B D).back ≤ (stale (F ++ [x]) G B D).mem.slots.length) = .ok () := by
    have : (stale (F ++ [x]) G B D).back ≤ (stale (F ++ [x]) G B D).mem.slots.length := by
      simp only [stale, mkMem, List.length_append, List.length_map, List.length_cons, List.length_nil]; omega
    simp [debugAssert, this]
  rw [StM.run_bind_ok (StM.run_get _), h0, StM.run_bind_ok (StM.run_liftRes_ok _ _)]
  have h1 : (stale (F ++ [x]) G B D).back > 0 := by simp [stale]
  rw [if_pos h1]
  have h2 : usub t (stale (F ++ [x]) G B D).back 1 = .ok F.length := by
    rw [usub_ok t h1]; simp [stale]
  rw [h2, StM.run_bind_ok (StM.run_liftRes_ok _ _), StM.run_bind_ok (StM.run_set _ _)]
  have hs : (stale (F ++ [x]) G B D).mem.slots[F.length]? = some (.gone x) := by simp [stale, mkMem]
  have h3 : (OwnIt.onMem (Mem.read F.length)).run { stale (F ++ [x]) G B D with back := F.length } =
      (.ok x, stale F (x :: G) B D) := by
    rw [OwnIt.onMem_run]
    have : (Mem.read F.length).run (stale (F ++ [x]) G B D).mem =
        (.ok x, { (stale (F ++ [x]) G B D).mem with viols := (stale (F ++ [x]) G B D).mem.viols ++ [Viol.readGone F.length] }) := by
      unfold Mem.read
      rw [StM.run_bind_ok (StM.run_get _), hs]
      rfl
    simp only [this]
    simp only [stale, mkMem, List.length_append, List.length_cons, List.length_nil, List.range_succ, List.map_append, List.map_cons,
      List.map_nil, List.append_assoc, List.cons_append, List.nil_append]
    have e2 : F.length + (G.length + 1) - 1 - G.length = F.length := by omega
    have e3 : F.length + (0 + 1) + G.length = F.length + (G.length + 1) := by omega
    simp only [e2, e3]
  rw [StM.run_bind_ok h3]; rfl

theorem stale_end (t : Target) (G B D : List T) :
    (OwnIt.nextBackOp t).run (stale [] G B D) = (.ok none, stale [] G B D) := by
  unfold OwnIt.nextBackOp
  have h0 : debugAssert t ((stale [] G B D).back ≤ (stale [] G B D).mem.slots.length) = .ok () := by
    simp [debugAssert, stale]
  rw [StM.run_bind_ok (StM.run_get _), h0, StM.run_bind_ok (StM.run_liftRes_ok _ _)]
  have h1 : ¬ (stale [] G B D).back > 0 := by simp [stale]
  rw [if_neg h1]; rfl

/-- Dropping such an iterator drops nothing. -/
theorem stale_drop (F G B D : List T) : ((OwnIt.dropOp fun _ => false).run (stale F G B D)).2 = stale F G B D := by
  unfold OwnIt.dropOp
  rw [StM.run_bind_ok (StM.run_get _)]
  have : (stale F G B D).back - (stale F G B D).next = 0 := by simp [stale]
  rw [this]
  rfl

theorem pullBack_stale (t : Target) (m : Nat) (F G B D : List T) :
    (pullBack t m).run (stale F G B D) =
      (if m ≤ F.length then (.ok ((F.reverse).take m, true), stale (F.take (F.length - m)) (F.drop (F.length - m) ++ G) B D)
       else (.ok (F.reverse, false), stale [] (F ++ G) B D)) := by
  induction m generalizing F G with
  | zero => simp [pullBack]
  | succ m ih =>
    rw [pullBack]
    rcases List.eq_nil_or_concat F with rfl | ⟨p, x, rfl⟩
    · rw [StM.run_bind_ok (stale_end t G B D)]; simp
    · rw [List.concat_eq_append, StM.run_bind_ok (stale_step t p G B D x)]
      simp only
      have := ih p (x :: G)
      by_cases hm : m ≤ p.length
      · rw [if_pos hm] at this
        rw [StM.run_bind_ok this, if_pos (by simpa using hm)]
        have e1 : (p ++ [x]).length - (m + 1) = p.length - m := by simp
        rw [e1, List.take_append_of_le_length (by omega), List.drop_append_of_le_length (by omega)]
        simp
      · rw [if_neg hm] at this
        rw [StM.run_bind_ok this, if_neg (by simpa using hm)]
        simp

theorem countBack_stale (t : Target) (m : Nat) (F G B D : List T) (hm : F.length < m) :
    (countBack t m).run (stale F G B D) = (.ok F.reverse, stale [] (F ++ G) B D) := by
  induction m generalizing F G with
  | zero => omega
  | succ m ih =>
    rw [countBack]
    rcases List.eq_nil_or_concat F with rfl | ⟨p, x, rfl⟩
    · rw [StM.run_bind_ok (stale_end t G B D)]; simp
    · rw [List.concat_eq_append] at hm ⊢
      rw [StM.run_bind_ok (stale_step t p G B D x)]
      simp only
      rw [StM.run_bind_ok (ih p (x :: G) (by simp at hm; omega))]
      simp

theorem pullBack_run (t : Target) (m : Nat) (F q B D : List T) :
    (pullBack t m).run (mkIt F q B D) =
      (if m ≤ q.length then (.ok ((q.reverse).take m, true), mkIt F (q.take (q.length - m)) (q.drop (q.length - m) ++ B) D)
       else if m ≤ F.length + q.length then
        (.ok (((F ++ q).reverse).take m, true), stale (F.take (F.length + q.length - m)) (F.drop (F.length + q.length - m)) (q ++ B) D)
       else (.ok ((F ++ q).reverse, false), stale [] F (q ++ B) D)) := by
  induction m generalizing q B with
  | zero => simp [pullBack]
  | succ m ih =>
    rcases List.eq_nil_or_concat q with rfl | ⟨p, x, rfl⟩
    · rw [← stale_nil, pullBack_stale]
      by_cases hm : m + 1 ≤ F.length <;> simp [hm]
    · rw [pullBack, List.concat_eq_append, StM.run_bind_ok (OwnIt.nextBack_snoc t F p B D x)]
      simp only
      have := ih p (x :: B)
      by_cases hm : m ≤ p.length
      · rw [if_pos hm] at this
        rw [StM.run_bind_ok this, if_pos (by simpa using hm)]
        have e1 : (p ++ [x]).length - (m + 1) = p.length - m := by simp
        rw [e1, List.take_append_of_le_length (by omega), List.drop_append_of_le_length (by omega)]
        simp
      · rw [if_neg hm] at this
        rw [if_neg (by simpa using hm)]
        by_cases hm2 : m ≤ F.length + p.length
        · rw [if_pos hm2] at this
          rw [StM.run_bind_ok this, if_pos (by simp; omega)]
          have e1 : F.length + (p ++ [x]).length - (m + 1) = F.length + p.length - m := by simp; omega
          rw [e1]
          simp
        · rw [if_neg hm2] at this
          rw [StM.run_bind_ok this, if_neg (by simp; omega)]
          simp

theorem countBack_run (t : Target) (m : Nat) (F q B D : List T) (hm : F.length + q.length < m) :
    (countBack t m).run (mkIt F q B D) = (.ok (F ++ q).reverse, stale [] F (q ++ B) D) := by
  induction m generalizing q B with
  | zero => omega
  | succ m ih =>
    rcases List.eq_nil_or_concat q with rfl | ⟨p, x, rfl⟩
    · rw [← stale_nil, countBack_stale t _ F [] B D (by simpa using hm)]; simp
    · rw [List.concat_eq_append] at hm ⊢
      rw [countBack, StM.run_bind_ok (OwnIt.nextBack_snoc t F p B D x)]
      simp only
      rw [StM.run_bind_ok (ih p (x :: B) (by simp at hm; omega))]
      simp

theorem stale_drops (F G B D : List T) : (stale F G B D).mem.drops = D := rfl

theorem stale_viols (F G B D : List T) : (stale F G B D).mem.viols =
    (List.range G.length).map fun i => Viol.readGone (F.length + G.length - 1 - i) := rfl

theorem stale_viols_nil (F G B D : List T) : (stale F G B D).mem.viols = [] ↔ G = [] := by
  rw [stale_viols, List.map_eq_nil_iff, List.range_eq_nil, List.length_eq_zero_iff]

/-- What collecting backwards does in every state an iterator that was used properly can be in. -/
theorem collectRev_mk (t : Target) (m : Nat) (F q B D : List T) :
    collectRev t m (mkIt F q B D) =
      if m ≤ q.length then
        if t.debugAssertions then
          (if m = F.length + q.length then .ok q.reverse else .error .panic,
            (F ++ q.take (q.length - m)).reverse, stale [] F (q ++ B) D)
        else (.ok (q.reverse.take m), [], ((OwnIt.dropOp fun _ => false).run
          (mkIt F (q.take (q.length - m)) (q.drop (q.length - m) ++ B) D)).2)
      else if m ≤ F.length + q.length then
        if t.debugAssertions then
          (if m = F.length + q.length then .ok (F ++ q).reverse else .error .panic,
            (F.take (F.length + q.length - m)).reverse, stale [] F (q ++ B) D)
        else (.ok ((F ++ q).reverse.take m), [],
          stale (F.take (F.length + q.length - m)) (F.drop (F.length + q.length - m)) (q ++ B) D)
      else (.error .panic, (F ++ q).reverse, stale [] F (q ++ B) D) := by
  unfold collectRev
  rw [pullBack_run]
  by_cases h1 : m ≤ q.length
  · rw [if_pos h1, if_pos h1]
    simp only
    cases hd : t.debugAssertions with
    | false => simp
    | true =>
      simp only [if_true]
      rw [countBack_run _ _ _ _ _ _ (by
        simp only [mkIt, mkMem, List.length_append, List.length_map, List.length_take, List.length_drop]; omega)]
      simp only [stale_drop]
      have e : (F ++ q.take (q.length - m)).reverse = [] ↔ m = F.length + q.length := by
        rw [List.reverse_eq_nil_iff, List.append_eq_nil_iff, List.take_eq_nil_iff]
        constructor
        · rintro ⟨rfl, h | rfl⟩
          · simp only [List.length_nil]; omega
          · simp at h1 ⊢; exact h1
        · intro h
          have : F = [] := List.eq_nil_of_length_eq_zero (by omega)
          exact ⟨this, .inl (by omega)⟩
      have e3 : q.drop (q.length - m) = q.drop (q.length - m) := rfl
      have e4 : q.take (q.length - m) ++ (q.drop (q.length - m) ++ B) = q ++ B := by
        rw [← List.append_assoc, List.take_append_drop]
      rw [e4]
      by_cases he : m = F.length + q.length
      · rw [if_pos (e.2 he), if_pos he]
        have : m = q.length := by omega
        rw [this, List.take_of_length_le (by simp)]
      · rw [if_neg (fun h => he (e.1 h)), if_neg he]
  · rw [if_neg h1, if_neg h1]
    by_cases h2 : m ≤ F.length + q.length
    · rw [if_pos h2, if_pos h2]
      simp only
      cases hd : t.debugAssertions with
      | false => simp [stale_drop]
      | true =>
        simp only [if_true]
        rw [countBack_stale _ _ _ _ _ _ (by
          simp only [stale, mkMem, List.length_append, List.length_map, List.length_take, List.length_drop]; omega)]
        simp only [stale_drop, List.take_append_drop]
        have e : (F.take (F.length + q.length - m)).reverse = [] ↔ m = F.length + q.length := by
          rw [List.reverse_eq_nil_iff, List.take_eq_nil_iff]
          constructor
          · rintro (h | rfl)
            · omega
            · simp at h1 h2; omega
          · intro h; left; omega
        by_cases he : m = F.length + q.length
        · rw [if_pos (e.2 he), if_pos he, List.take_of_length_le (by simp; omega)]
        · rw [if_neg (fun h => he (e.1 h)), if_neg he]
    · rw [if_neg h2, if_neg h2]
      simp only [stale_drop]

end Owner

open Owner

/-- What a proper use of `v.into_iter()` leaves behind. -/
theorem used (t : Target) (v : Vec T n) (hn : n < t.W) (h : List OwnCall) (hc : Compliant false v.toList h) :
    ∃ B', OwnIt.run t (fun _ => false) h (OwnIt.intoIter v) =
      ((queueRun v.toList h).1, mkIt (fronts v.toList h) (queueRun v.toList h).2.2 B' (queueRun v.toList h).2.1) ∧
      (fronts v.toList h).length + (queueRun v.toList h).2.2.length ≤ n := by
  obtain ⟨F', B', h1, h2, h3⟩ := OwnIt.run_compliant t (fun _ => false) h [] v.toList [] [] (by simpa using hc)
    (by simp [v.length_eq, hn]) (by simp)
  rw [List.nil_append] at h3
  subst h3
  refine ⟨B', ?_, by simpa [v.length_eq] using h2⟩
  rw [OwnIt.intoIter_mk, h1, List.nil_append]

theorem chunkRun_used {I : Nat} (t : Target) (hI : 0 < I) (h : List ChunkCall) (cs : List (Vec T I)) (F B D : List T)
    (hW : F.length + cs.length * I < t.W) :
    ∃ F' B', OwnIt.chunkRun t I h (mkIt F (OwnIt.flat cs) B D) =
      ((chunkQueue cs h).1, mkIt F' (OwnIt.flat (chunkQueue cs h).2) B' D) ∧
      F'.length + (chunkQueue cs h).2.length * I ≤ F.length + cs.length * I := by
  induction h generalizing cs F B with
  | nil => exact ⟨F, B, rfl, Nat.le_refl _⟩
  | cons c h ih =>
    cases c with
    | next =>
      cases cs with
      | nil =>
        rw [OwnIt.chunkRun_cons_ok t .next h _ _ _ (by rw [OwnIt.chunkCall, StM.run_map, show OwnIt.flat ([] : List (Vec T I)) = [] from rfl, OwnIt.chunkNext_nil])]
        obtain ⟨F', B', h1, h2⟩ := ih [] F B hW
        exact ⟨F', B', by rw [show mkIt F [] B D = mkIt F (OwnIt.flat ([] : List (Vec T I))) B D from rfl, h1]; rfl, h2⟩
      | cons v cs =>
        have hl : F.length + I + cs.length * I < t.W := by
          rw [List.length_cons, Nat.add_mul, Nat.one_mul] at hW; omega
        have h0 := OwnIt.chunkNext_cons t hI v (OwnIt.flat cs) F B D (by omega)
        rw [OwnIt.chunkRun_cons_ok t .next h (mkIt F (OwnIt.flat (v :: cs)) B D) _ _ (by
          rw [OwnIt.chunkCall, StM.run_map, show OwnIt.flat (v :: cs) = v.toList ++ OwnIt.flat cs from rfl, h0])]
        obtain ⟨F', B', h1, h2⟩ := ih cs (F ++ v.toList) B (by rw [List.length_append, v.length_eq]; omega)
        refine ⟨F', B', by rw [h1]; rfl, Nat.le_trans h2 ?_⟩
        rw [List.length_append, v.length_eq, List.length_cons, Nat.add_mul, Nat.one_mul]; omega
    | nextBack =>
      rcases List.eq_nil_or_concat cs with rfl | ⟨cs, v, rfl⟩
      · rw [OwnIt.chunkRun_cons_ok t .nextBack h _ _ _ (by rw [OwnIt.chunkCall, StM.run_map, show OwnIt.flat ([] : List (Vec T I)) = [] from rfl, OwnIt.chunkNextBack_nil])]
        obtain ⟨F', B', h1, h2⟩ := ih [] F B hW
        exact ⟨F', B', by rw [show mkIt F [] B D = mkIt F (OwnIt.flat ([] : List (Vec T I))) B D from rfl, h1]; rfl, h2⟩
      · rw [List.concat_eq_append] at hW ⊢
        have h0 := OwnIt.chunkNextBack_snoc t hI v (OwnIt.flat cs) F B D
        have e : OwnIt.flat (cs ++ [v]) = OwnIt.flat cs ++ v.toList := by simp [OwnIt.flat]
        rw [OwnIt.chunkRun_cons_ok t .nextBack h (mkIt F (OwnIt.flat (cs ++ [v])) B D) _ _ (by
          rw [OwnIt.chunkCall, StM.run_map, e, h0])]
        obtain ⟨F', B', h1, h2⟩ := ih cs F (v.toList ++ B) (by
          rw [List.length_append, List.length_singleton, Nat.add_mul, Nat.one_mul] at hW; omega)
        refine ⟨F', B', by rw [h1]; simp [chunkQueue, chunkStep], ?_⟩
        rw [List.length_append, List.length_singleton, Nat.add_mul, Nat.one_mul]
        simp only [chunkQueue, chunkStep, List.dropLast_concat]
        omega
    | len =>
      rw [OwnIt.chunkRun_cons_ok t .len h _ _ _ (by rw [OwnIt.chunkCall, StM.run_map, OwnIt.chunkLen_mk t hI])]
      obtain ⟨F', B', h1, h2⟩ := ih cs F B hW
      exact ⟨F', B', by rw [h1]; rfl, h2⟩

theorem chunkIter_next {I : Nat} (t : Target) (hI : 0 < I) (fuel : Nat) (v : Vec T I) (cs : List (Vec T I)) (F B D : List T)
    (hW : F.length + I < t.W) : ((OwnIt.chunkIter t I fuel).next ()).run (mkIt F (OwnIt.flat (v :: cs)) B D) =
      (.ok (some v, ()), mkIt (F ++ v.toList) (OwnIt.flat cs) B D) := by
  change (OwnIt.chunkNext t I >>= fun o => pure (o, ())).run _ = _
  rw [show OwnIt.flat (v :: cs) = v.toList ++ OwnIt.flat cs from rfl,
    StM.run_bind_ok (OwnIt.chunkNext_cons t hI v (OwnIt.flat cs) F B D hW)]
  rfl

theorem fill_used {I : Nat} (t : Target) (hI : 0 < I) (fuel m : Nat) (cs : List (Vec T I)) (F B D : List T)
    (hW : F.length + cs.length * I < t.W) :
    (m ≤ cs.length → ∃ w : Vec (Vec T I) m, w.toList = cs.take m ∧
      (Vec.fill (OwnIt.chunkIter t I fuel) m ()).run (mkIt F (OwnIt.flat cs) B D) =
        (.ok (w, ()), mkIt (F ++ OwnIt.flat (cs.take m)) (OwnIt.flat (cs.drop m)) B D)) ∧
    (cs.length < m → (Vec.fill (OwnIt.chunkIter t I fuel) m ()).run (mkIt F (OwnIt.flat cs) B D) =
        (.error .panic, mkIt (F ++ OwnIt.flat cs) [] B D)) := by
  induction m generalizing cs F with
  | zero => exact ⟨fun _ => ⟨Vec.nil, by simp [Vec.nil], by simp [Vec.fill, OwnIt.flat]⟩, fun h => absurd h (by omega)⟩
  | succ m ih =>
    cases cs with
    | nil =>
      refine ⟨fun h => absurd h (by simp), fun _ => ?_⟩
      rw [Vec.fill]
      have : ((OwnIt.chunkIter t I fuel).next ()).run (mkIt F (OwnIt.flat ([] : List (Vec T I))) B D) = (.ok (none, ()), mkIt F [] B D) := by
        change (OwnIt.chunkNext t I >>= fun o => pure (o, ())).run (mkIt F [] B D) = _
        rw [StM.run_bind_ok (OwnIt.chunkNext_nil t I _ _ _)]; rfl
      rw [StM.run_bind_ok this]
      simp [OwnIt.flat]
    | cons v cs =>
      have hl : F.length + I + cs.length * I < t.W := by
        rw [List.length_cons, Nat.add_mul, Nat.one_mul] at hW; omega
      obtain ⟨i1, i2⟩ := ih cs (F ++ v.toList) (by rw [List.length_append, v.length_eq]; omega)
      rw [Vec.fill]
      rw [StM.run_bind_ok (chunkIter_next t hI fuel v cs F B D (by omega))]
      simp only
      refine ⟨fun h => ?_, fun h => ?_⟩
      · obtain ⟨w, e1, e2⟩ := i1 (by simpa using h)
        refine ⟨Vec.cons v w, by simp [Vec.cons, e1], ?_⟩
        rw [StM.run_bind_ok e2]
        simp [OwnIt.flat]
      · rw [StM.run_bind_error (i2 (by simpa using h))]
        simp [OwnIt.flat]

theorem count_used {I : Nat} (t : Target) (hI : 0 < I) (fuel : Nat) (cs : List (Vec T I)) (F B D : List T)
    (hW : F.length + cs.length * I < t.W) (hf : cs.length < fuel) :
    (OwnIt.chunkIter.go t I fuel).run (mkIt F (OwnIt.flat cs) B D) = (.ok cs.length, mkIt (F ++ OwnIt.flat cs) [] B D) := by
  induction fuel generalizing cs F with
  | zero => omega
  | succ fuel ih =>
    rw [OwnIt.chunkIter.go]
    cases cs with
    | nil =>
      rw [show OwnIt.flat ([] : List (Vec T I)) = [] from rfl, StM.run_bind_ok (OwnIt.chunkNext_nil t I _ _ _)]; simp
    | cons v cs =>
      have hl : F.length + I + cs.length * I < t.W := by
        rw [List.length_cons, Nat.add_mul, Nat.one_mul] at hW; omega
      rw [show OwnIt.flat (v :: cs) = v.toList ++ OwnIt.flat cs from rfl,
        StM.run_bind_ok (OwnIt.chunkNext_cons t hI v (OwnIt.flat cs) F B D (by omega))]
      simp only
      rw [StM.run_bind_ok (ih cs (F ++ v.toList) (by rw [List.length_append, v.length_eq]; omega) (by simpa using hf))]
      simp

theorem fromIter_chunks {I : Nat} (t : Target) (hI : 0 < I) (m fuel : Nat) (cs : List (Vec T I)) (F B D : List T)
    (hW : F.length + cs.length * I < t.W) (hf : cs.length < fuel) :
    Vec.toList <$> ((Vec.fromIter t m (OwnIt.chunkIter t I fuel) ()).run (mkIt F (OwnIt.flat cs) B D)).1 = collected t m cs ∧
    ((Vec.fromIter t m (OwnIt.chunkIter t I fuel) ()).run (mkIt F (OwnIt.flat cs) B D)).2.mem.viols = [] := by
  obtain ⟨i1, i2⟩ := fill_used t hI fuel m cs F B D hW
  unfold Vec.fromIter
  by_cases hm : m ≤ cs.length
  · obtain ⟨w, e1, e2⟩ := i1 hm
    rw [StM.run_bind_ok e2]
    simp only
    unfold collected
    cases hd : t.debugAssertions with
    | false =>
      simp only [Bool.false_eq_true, if_false]
      refine ⟨?_, rfl⟩
      change Except.ok w.toList = _
      rw [e1, if_neg (by omega : ¬ cs.length < m)]
      by_cases he : cs.length = m
      · rw [if_pos he, ← he, List.take_length]
      · rw [if_neg he]
    | true =>
      simp only [if_true]
      have hc : ((OwnIt.chunkIter t I fuel).count ()).run (mkIt (F ++ OwnIt.flat (cs.take m)) (OwnIt.flat (cs.drop m)) B D) =
          (.ok (cs.drop m).length, mkIt (F ++ OwnIt.flat (cs.take m) ++ OwnIt.flat (cs.drop m)) [] B D) := by
        change (OwnIt.chunkIter.go t I fuel).run _ = _
        refine count_used t hI fuel (cs.drop m) _ B D ?_ (by simp; omega)
        rw [List.length_append, OwnIt.flat_length, Nat.add_assoc, ← Nat.add_mul]
        have : (cs.take m).length + (cs.drop m).length = cs.length := by simp; omega
        rw [this]; exact hW
      rw [StM.run_bind_ok hc]
      by_cases he : cs.length = m
      · have hz : (cs.drop m).length = 0 := by simp; omega
        rw [if_neg (by rw [hz]; simp), if_pos he]
        refine ⟨?_, rfl⟩
        change Except.ok w.toList = _
        rw [e1, ← he, List.take_length]
      · have hz : (cs.drop m).length ≠ 0 := by simp; omega
        rw [if_pos hz, if_neg he, if_neg (by omega : ¬ cs.length < m)]
        exact ⟨rfl, rfl⟩
  · rw [StM.run_bind_error (i2 (by omega))]
    unfold collected
    rw [if_neg (by omega), if_pos (by omega : cs.length < m)]
    exact ⟨rfl, rfl⟩

/-! ## C111 -/

/-- C111: after any proper use of `v.into_iter()`, collecting what is left into a vector of length `m` gives exactly what is left
if that is the right number, panics if it is too little, and with surplus panics in debug builds and takes the first `m` in others.
No invalid access happens; if it is too little what was received is destroyed, surplus is destroyed with the iterator. -/
theorem C111_collect (t : Target) (v : Vec T n) (hn : n < t.W) (h : List OwnCall) (hc : Compliant false v.toList h) (m : Nat) :
    let left := (queueRun v.toList h).2.2
    let r := collectOwn t m (OwnIt.run t (fun _ => false) h (OwnIt.intoIter v)).2
    r.1 = collected t m left ∧
    r.2.1 = (if left.length < m then left else []) ∧
    r.2.2.mem.drops = (queueRun v.toList h).2.1 ++ left.drop m ∧
    r.2.2.mem.viols = [] := by
  obtain ⟨B', h1, h2⟩ := used t v hn h hc
  intro left r
  have := collectOwn_mk t m (fronts v.toList h) left B' (queueRun v.toList h).2.1 (by
    have : left.length = (queueRun v.toList h).2.2.length := rfl
    omega)
  rw [show r = collectOwn t m (mkIt (fronts v.toList h) left B' (queueRun v.toList h).2.1) by simp only [r, h1]; rfl]
  exact this

/-- C111: every element of `v` ends up in exactly one place: handed out before, in the new vector, destroyed, or - only when a
debug build panics over surplus - leaked. -/
theorem C111_every_element (t : Target) (v : Vec T n) (hn : n < t.W) (h : List OwnCall) (hc : Compliant false v.toList h) (m : Nat) :
    let r := collectOwn t m (OwnIt.run t (fun _ => false) h (OwnIt.intoIter v)).2
    ∃ kept leaked, (r.1 = .ok kept ∧ leaked = [] ∨
        r.1 = .error .panic ∧ kept = [] ∧ (leaked = [] ∨ t.debugAssertions = true ∧ m < (queueRun v.toList h).2.2.length)) ∧
      (yielded (OwnIt.run t (fun _ => false) h (OwnIt.intoIter v)).1 ++ kept ++ (r.2.1 ++ r.2.2.mem.drops) ++ leaked).Perm v.toList := by
  intro r
  obtain ⟨e1, e2, e3, -⟩ := C111_collect t v hn h hc m
  obtain ⟨B', h1, -⟩ := used t v hn h hc
  have hp := queueRun_perm v.toList h
  change r.1 = _ at e1
  change r.2.1 = _ at e2
  change r.2.2.mem.drops = _ at e3
  rw [h1]
  simp only
  rw [e1, e2, e3]
  clear_value r
  generalize hY : yielded (queueRun v.toList h).1 = Y at hp ⊢
  generalize hS : (queueRun v.toList h).2.1 = S at hp ⊢
  generalize hq : (queueRun v.toList h).2.2 = q at hp ⊢
  have fin : ∀ kept dead leaked : List T, (kept ++ (dead ++ leaked)).Perm q →
      (Y ++ kept ++ (dead ++ S) ++ leaked).Perm v.toList := fun kept dead leaked hk => by
    refine .trans ?_ hp
    rw [List.append_assoc, List.append_assoc]
    refine List.Perm.append_left Y ?_
    refine .trans ?_ (List.Perm.append_left S hk)
    classical
    rw [List.perm_iff_count]; intro a; simp only [List.count_append]; omega
  unfold collected
  by_cases he : q.length = m
  · rw [if_pos he]
    refine ⟨q, [], .inl ⟨rfl, rfl⟩, ?_⟩
    have hl : ¬ q.length < m := by omega
    rw [if_neg hl, ← he, List.drop_length, List.append_nil S]
    exact fin q [] [] (by simp)
  · by_cases hl : q.length < m
    · rw [if_neg he, if_pos hl, if_pos hl]
      refine ⟨[], [], .inr ⟨rfl, rfl, .inl rfl⟩, ?_⟩
      rw [List.drop_eq_nil_of_le (by omega), List.append_nil S]
      exact fin [] q [] (by simp)
    · rw [if_neg he, if_neg hl, if_neg hl, List.nil_append]
      have key : (q.take m ++ (q.drop m ++ [])).Perm q := by simp
      cases hd : t.debugAssertions with
      | true =>
        refine ⟨[], q.take m, .inr ⟨rfl, rfl, .inr ⟨rfl, by omega⟩⟩, ?_⟩
        have := fin [] (q.drop m) (q.take m) (by
          classical
          rw [List.perm_iff_count]; intro a
          conv_rhs => rw [← List.take_append_drop m q]
          simp only [List.count_append, List.count_nil]; omega)
        refine .trans ?_ this
        classical
        rw [List.perm_iff_count]; intro a; simp only [List.count_append]; omega
      | false =>
        refine ⟨q.take m, [], .inl ⟨rfl, rfl⟩, ?_⟩
        refine .trans ?_ (fin (q.take m) (q.drop m) [] key)
        classical
        rw [List.perm_iff_count]; intro a; simp only [List.count_append]; omega

/-- C111: `v.into_iter().collect()` is `v`; nothing is destroyed. -/
theorem C111_round_trip (t : Target) (v : Vec T n) (hn : n < t.W) :
    (collectOwn t n (OwnIt.intoIter v)).1 = .ok v.toList ∧
    (collectOwn t n (OwnIt.intoIter v)).2.1 = [] ∧
    (collectOwn t n (OwnIt.intoIter v)).2.2.mem.drops = [] ∧
    (collectOwn t n (OwnIt.intoIter v)).2.2.mem.viols = [] := by
  have := C111_collect t v hn [] trivial n
  have hl := v.length_eq
  simp only [queueRun, OwnIt.run, collected, hl, if_true, Nat.lt_irrefl, if_false, List.nil_append] at this
  rwa [List.drop_eq_nil_of_le (by omega)] at this

/-- C111: `Matrix::from` in steps: after any use of `v.into_chunks::<I>()`, collecting the chunks left into a vector of `m` chunks
follows the same rules, and no invalid access happens. -/
theorem C111_chunks (t : Target) (I : Nat) (hI : 0 < I) (hd : I ∣ n) (v : Vec T n) (hn : n < t.W) (h : List ChunkCall) (m : Nat) :
    let left := (chunkQueue (chunksOf I v hd) h).2
    let r := (Vec.fromIter t m (OwnIt.chunkIter t I (n + 1)) ()).run (OwnIt.chunkRun t I h (OwnIt.intoIter v)).2
    Vec.toList <$> r.1 = collected t m left ∧ r.2.mem.viols = [] := by
  have hlen : (chunksOf I v hd).length * I = n := by
    simp only [chunksOf, List.length_ofFn, Nat.div_mul_cancel hd]
  obtain ⟨F', B', h1, h2⟩ := chunkRun_used t hI h (chunksOf I v hd) [] [] [] (by simp [hlen, hn])
  intro left r
  rw [flat_chunksOf, ← OwnIt.intoIter_mk] at h1
  rw [show r = (Vec.fromIter t m (OwnIt.chunkIter t I (n + 1)) ()).run (mkIt F' (OwnIt.flat left) B' []) by simp only [r, h1]; rfl]
  have h2' : F'.length + left.length * I ≤ n := by simpa [hlen] using h2
  have hle : left.length ≤ n := by
    have := Nat.le_mul_of_pos_right left.length hI
    omega
  exact fromIter_chunks t hI m (n + 1) left F' B' [] (by omega) (by omega)

/-! ## C112 -/

/-- C112, the part that holds: if nothing left at the front so far - or the build has no debug assertions and no more is wanted than
is left - collecting backwards gives what is left in reverse, with the same rules for too little and surplus, and no invalid access.
Missing: debug builds after something left at the front, and asking for more than is left then, where the claim is false
(`C112_false`, `C112_exact`). -/
theorem C112_reverse_partial (t : Target) (v : Vec T n) (hn : n < t.W) (h : List OwnCall) (hc : Compliant false v.toList h) (m : Nat)
    (hs : fronts v.toList h = [] ∨ t.debugAssertions = false ∧ m ≤ (queueRun v.toList h).2.2.length) :
    let left := (queueRun v.toList h).2.2
    let r := collectRev t m (OwnIt.run t (fun _ => false) h (OwnIt.intoIter v)).2
    r.1 = collected t m left.reverse ∧
    r.2.1 = (if left.length < m then left.reverse
      else if t.debugAssertions then (left.take (left.length - m)).reverse else []) ∧
    r.2.2.mem.drops = (queueRun v.toList h).2.1 ++ (if t.debugAssertions then [] else left.take (left.length - m)) ∧
    r.2.2.mem.viols = [] := by
  obtain ⟨B', h1, -⟩ := used t v hn h hc
  intro left r
  rw [show r = collectRev t m (mkIt (fronts v.toList h) left B' (queueRun v.toList h).2.1) by simp only [r, h1]; rfl]
  change _ ∨ _ ∧ m ≤ left.length at hs
  clear_value r left
  generalize fronts v.toList h = F at hs ⊢
  generalize (queueRun v.toList h).2.1 = D
  rw [collectRev_mk]
  have hlen : left.reverse.length = left.length := by simp
  by_cases hm : m ≤ left.length
  · rw [if_pos hm]
    cases hd : t.debugAssertions with
    | false =>
      obtain ⟨d1, d2⟩ := drop_it F (left.take (left.length - m)) (left.drop (left.length - m) ++ B') D
      simp only [Bool.false_eq_true, if_false]
      refine ⟨?_, by rw [if_neg (by omega)], d1, d2⟩
      unfold collected
      rw [hlen, hd]
      by_cases he : left.length = m
      · rw [if_pos he, ← he, List.take_of_length_le (by simp)]
      · rw [if_neg he, if_neg (by omega)]; simp
    | true =>
      rw [hd] at hs
      have hF : F = [] := by
        rcases hs with h | h
        · exact h
        · exact absurd h.1 (by simp)
      subst hF
      simp only [if_true, List.length_nil, Nat.zero_add, List.nil_append]
      unfold collected
      rw [hlen, hd]
      by_cases he : left.length = m
      · subst he; simp [stale, mkMem]
      · rw [if_neg (Ne.symm he), if_neg he, if_neg (by omega)]
        simp [stale, mkMem, hm]
  · have hF : F = [] := by
      rcases hs with h | h
      · exact h
      · exact absurd h.2 hm
    subst hF
    rw [if_neg hm]
    simp only [List.length_nil, Nat.zero_add, if_neg hm]
    unfold collected
    rw [hlen, if_neg (by omega), if_pos (by omega), if_pos (by omega)]
    simp [stale, mkMem]
    omega

/-- C112, exactly when collecting backwards is memory safe: nothing left at the front so far, or there are no debug assertions and no
more is wanted than is left. -/
theorem C112_exact (t : Target) (v : Vec T n) (hn : n < t.W) (h : List OwnCall) (hc : Compliant false v.toList h) (m : Nat) :
    (collectRev t m (OwnIt.run t (fun _ => false) h (OwnIt.intoIter v)).2).2.2.mem.viols = [] ↔
      fronts v.toList h = [] ∨ t.debugAssertions = false ∧ m ≤ (queueRun v.toList h).2.2.length := by
  refine ⟨fun hv => ?_, fun hs => (C112_reverse_partial t v hn h hc m hs).2.2.2⟩
  obtain ⟨B', h1, -⟩ := used t v hn h hc
  rw [h1] at hv
  revert hv
  generalize fronts v.toList h = F
  generalize (queueRun v.toList h).2.1 = D
  generalize (queueRun v.toList h).2.2 = q
  intro hv
  simp only [collectRev_mk] at hv
  by_cases hm : m ≤ q.length
  · rw [if_pos hm] at hv
    cases hd : t.debugAssertions with
    | false => exact .inr ⟨rfl, hm⟩
    | true =>
      rw [hd] at hv
      exact .inl ((stale_viols_nil _ _ _ _).1 hv)
  · rw [if_neg hm] at hv
    left
    by_cases h2 : m ≤ F.length + q.length
    · rw [if_pos h2] at hv
      cases hd : t.debugAssertions with
      | false =>
        rw [hd] at hv
        have := (stale_viols_nil _ _ _ _).1 hv
        rw [List.drop_eq_nil_iff] at this
        exact List.eq_nil_of_length_eq_zero (by omega)
      | true =>
        rw [hd] at hv
        exact (stale_viols_nil _ _ _ _).1 hv
    · rw [if_neg h2] at hv
      exact (stale_viols_nil _ _ _ _).1 hv

/-- C112 is false of the code: in a debug build, for every vector with at least one element, taking one element from the front
and collecting the others backwards - the right number - panics, and destroys the element that was handed out before. -/
theorem C112_false (t : Target) (ht : t.debugAssertions = true) (v : Vec T (n + 1)) (hn : n + 1 < t.W) :
    let s := OwnIt.run t (fun _ => false) [.next] (OwnIt.intoIter v)
    s.1 = [.item (some (v.get 0))] ∧
    (queueRun v.toList [.next]).2.2.length = n ∧
    (collectRev t n s.2).1 = .error .panic ∧
    (collectRev t n s.2).2.1 = [v.get 0] ∧
    (collectRev t n s.2).2.2.mem.viols = [.readGone 0] := by
  intro s
  obtain ⟨B', h1, -⟩ := used t v hn [.next] trivial
  obtain ⟨l, hl⟩ := v
  cases l with
  | nil => simp at hl
  | cons x l =>
    have hl' : l.length = n := by simpa using hl
    subst hl'
    have hs : s = ([.item (some x)], mkIt [x] l B' []) := h1
    clear_value s
    rw [hs]
    refine ⟨rfl, rfl, ?_⟩
    simp only [collectRev_mk, ht, if_pos (Nat.le_refl l.length), if_true]
    rw [if_neg (by simp)]
    refine ⟨rfl, ?_, ?_⟩
    · simp; rfl
    · rw [stale_viols]; rfl

/-- C112 is false of the code also without debug assertions: asking for more than is left, all that was handed out at the front is
handed out a second time. -/
theorem C112_false_release (t : Target) (ht : t.debugAssertions = false) (v : Vec T (n + 1)) (hn : n + 1 < t.W) :
    let s := OwnIt.run t (fun _ => false) [.next] (OwnIt.intoIter v)
    s.1 = [.item (some (v.get 0))] ∧
    (collectRev t (n + 1) s.2).1 = .ok v.toList.reverse ∧
    (collectRev t (n + 1) s.2).2.2.mem.viols = [.readGone 0] := by
  intro s
  obtain ⟨B', h1, -⟩ := used t v hn [.next] trivial
  obtain ⟨l, hl⟩ := v
  cases l with
  | nil => simp at hl
  | cons x l =>
    have hl' : l.length = n := by simpa using hl
    subst hl'
    have hs : s = ([.item (some x)], mkIt [x] l B' []) := h1
    clear_value s
    rw [hs]
    refine ⟨rfl, ?_⟩
    simp only [collectRev_mk, ht, Bool.false_eq_true, if_false]
    rw [if_neg (by omega), if_pos (by simp; omega)]
    refine ⟨?_, ?_⟩
    · simp [List.take_of_length_le]
    · rw [stale_viols]
      have : [x].length + l.length - (l.length + 1) = 0 := by simp; omega
      rw [this]; rfl

/-- C112: `v.into_iter().rev().collect()` is `v` reversed, in every build. -/
theorem C112_fresh (t : Target) (v : Vec T n) (hn : n < t.W) :
    (collectRev t n (OwnIt.intoIter v)).1 = .ok v.toList.reverse ∧
    (collectRev t n (OwnIt.intoIter v)).2.1 = [] ∧
    (collectRev t n (OwnIt.intoIter v)).2.2.mem.drops = [] ∧
    (collectRev t n (OwnIt.intoIter v)).2.2.mem.viols = [] := by
  have := C112_reverse_partial t v hn [] trivial n (.inl rfl)
  have hl := v.length_eq
  simpa [queueRun, OwnIt.run, collected, hl] using this

/-! The hypotheses are met: a vector of four, used at both ends, then collected forwards; used at the front, then collected
backwards in a debug build (a second destruction), and in a release build (fine). -/

example : Compliant false [1, 2, 3, 4] [.next, .nextBack, .len] ∧
    (collectOwn ⟨true, true, 2 ^ 64⟩ 2 (OwnIt.run ⟨true, true, 2 ^ 64⟩ (fun _ => false) [.next, .nextBack, .len]
      (OwnIt.intoIter (⟨[1, 2, 3, 4], rfl⟩ : Vec Nat 4))).2).1.toOption = some [2, 3] :=
  ⟨⟨by simp, trivial⟩, by decide +kernel⟩

example : fronts [1, 2, 3, 4] [.next, .nth 1] = [1, 2, 3] ∧
    (collectRev ⟨true, true, 2 ^ 64⟩ 1 (OwnIt.run ⟨true, true, 2 ^ 64⟩ (fun _ => false) [.next, .nth 1]
      (OwnIt.intoIter (⟨[1, 2, 3, 4], rfl⟩ : Vec Nat 4))).2).2.1 = [3, 2, 1] ∧
    (collectRev ⟨false, false, 2 ^ 64⟩ 1 (OwnIt.run ⟨false, false, 2 ^ 64⟩ (fun _ => false) [.next, .nth 1]
      (OwnIt.intoIter (⟨[1, 2, 3, 4], rfl⟩ : Vec Nat 4))).2).1.toOption = some [4] := by
  decide +kernel

example : (Vec.toList <$> ((Vec.fromIter ⟨true, true, 2 ^ 64⟩ 1 (OwnIt.chunkIter ⟨true, true, 2 ^ 64⟩ 2 5) ()).run
    (OwnIt.chunkRun ⟨true, true, 2 ^ 64⟩ 2 [.nextBack] (OwnIt.intoIter (⟨[1, 2, 3, 4], rfl⟩ : Vec Nat 4))).2).1).toOption.map
      (List.map Vec.toList) = some [[1, 2]] := by
  decide +kernel

end Rowcol
