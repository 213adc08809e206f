import Verif.Lemmas.Mem
import Mathlib.Data.List.Perm.Subperm
import Mathlib.Tactic.ByContra

/-! # C07-C11: the owning iterator `v.into_iter()`

The memory model records every destructor call (`drops`) and every invalid access (`viols`): reading or dropping a
slot outside the array, a moved-out or already dropped slot, or uninitialised memory. -/

namespace Rowcol

variable {T : Type} {n : Nat}

namespace Spec

/-- A double-ended queue: the answer of one call, the elements it skips (and destroys), and what is left. -/
def queueStep (q : List T) : OwnCall → Out T × List T × List T
  | .next => (.item q.head?, [], q.tail)
  | .nextBack => (.item q.getLast?, [], q.dropLast)
  | .nth k => (.item (q.drop k).head?, q.take k, q.drop (k + 1))
  | .len => (.size q.length, [], q)

/-- A history of calls on a double-ended queue: the answers, all skipped elements, what is left. -/
def queueRun (q : List T) : List OwnCall → List (Out T) × List T × List T
  | [] => ([], [], q)
  | c :: h => ((queueStep q c).1 :: (queueRun (queueStep q c).2.2 h).1,
      (queueStep q c).2.1 ++ (queueRun (queueStep q c).2.2 h).2.1, (queueRun (queueStep q c).2.2 h).2.2)

/-- The calls the iterator handles correctly: no `nth` skips more than is left, and `next_back()` is not called on
an exhausted iterator from which something was taken at the front (`f`). -/
def Compliant (f : Bool) (q : List T) : List OwnCall → Prop
  | [] => True
  | .next :: h => Compliant (f || !q.isEmpty) q.tail h
  | .nextBack :: h => (q = [] → f = false) ∧ Compliant f q.dropLast h
  | .nth k :: h => k ≤ q.length ∧ Compliant (f || !q.isEmpty) (q.drop (k + 1)) h
  | .len :: h => Compliant f q h

/-- The elements that left at the front, handed out or skipped. -/
def fronts (q : List T) : List OwnCall → List T
  | [] => []
  | .next :: h => q.take 1 ++ fronts q.tail h
  | .nextBack :: h => fronts q.dropLast h
  | .nth k :: h => q.take (k + 1) ++ fronts (q.drop (k + 1)) h
  | .len :: h => fronts q h

/-- The elements handed to the client. -/
def yielded : List (Out T) → List T
  | [] => []
  | .item (some x) :: os => x :: yielded os
  | _ :: os => yielded os

end Spec

open Spec

/-- Nothing is lost or duplicated by a queue. -/
theorem queueRun_perm (q : List T) (h : List OwnCall) :
    (yielded (queueRun q h).1 ++ ((queueRun q h).2.1 ++ (queueRun q h).2.2)).Perm q := by
  induction h generalizing q with
  | nil => exact List.Perm.refl _
  | cons c h ih =>
    have ih' := ih (queueStep q c).2.2
    simp only [queueRun]
    have step : (yielded [(queueStep q c).1] ++ ((queueStep q c).2.1 ++ (queueStep q c).2.2)).Perm q := by
      cases c with
      | next => cases q <;> simp [queueStep, yielded]
      | nextBack =>
        rcases List.eq_nil_or_concat q with rfl | ⟨p, x, rfl⟩
        · simp [queueStep, yielded]
        · simp only [queueStep, List.concat_eq_append, List.getLast?_append, List.getLast?_singleton, Option.some_or,
            yielded, List.dropLast_concat, List.nil_append]
          exact (List.perm_append_singleton x p).symm
      | nth k =>
        simp only [queueStep]
        have : (yielded [Out.item (q.drop k).head?] ++ q.drop (k + 1)) = q.drop k := by
          rw [← List.tail_drop]
          cases q.drop k <;> rfl
        have e : (yielded [Out.item (q.drop k).head?] ++ (q.take k ++ q.drop (k + 1))).Perm (q.take k ++ q.drop k) := by
          conv_rhs => rw [← this]
          exact List.perm_append_comm_assoc _ _ _
        rwa [List.take_append_drop] at e
      | len => simp [queueStep, yielded]
    have hy : ∀ (o : Out T) (os : List (Out T)), yielded (o :: os) = yielded [o] ++ yielded os := by
      intro o os
      cases o with
      | item o => cases o <;> simp [yielded]
      | size k => simp [yielded]
      | fault e => simp [yielded]
    rw [hy]
    refine List.Perm.trans ?_ step
    have e2 : (yielded [(queueStep q c).1] ++ yielded (queueRun (queueStep q c).2.2 h).1 ++
        ((queueStep q c).2.1 ++ (queueRun (queueStep q c).2.2 h).2.1 ++ (queueRun (queueStep q c).2.2 h).2.2)).Perm
        (yielded [(queueStep q c).1] ++ ((queueStep q c).2.1 ++ (yielded (queueRun (queueStep q c).2.2 h).1 ++
          ((queueRun (queueStep q c).2.2 h).2.1 ++ (queueRun (queueStep q c).2.2 h).2.2)))) := by
      rw [List.append_assoc, List.append_assoc]
      apply List.Perm.append_left
      exact List.perm_append_comm_assoc _ _ _
    exact e2.trans (List.Perm.append_left _ (List.Perm.append_left _ ih'))

namespace OwnIt

theorem run_cons_ok (t : Target) (boom : T → Bool) (c : OwnCall) (h : List OwnCall) (s s' : OwnIt T) (o : Out T)
    (hc : (call t boom c).run s = (.ok o, s')) :
    run t boom (c :: h) s = (o :: (run t boom h s').1, (run t boom h s').2) := by
  rw [run, hc]

theorem call_next (t : Target) (boom : T → Bool) {s s' : OwnIt T} {o : Option T} (h : (nextOp t).run s = (.ok o, s')) :
    (call t boom .next).run s = (.ok (.item o), s') := by rw [call, StM.run_map, h]

theorem call_nextBack (t : Target) (boom : T → Bool) {s s' : OwnIt T} {o : Option T}
    (h : (nextBackOp t).run s = (.ok o, s')) : (call t boom .nextBack).run s = (.ok (.item o), s') := by
  rw [call, StM.run_map, h]

theorem call_nth (t : Target) (boom : T → Bool) (k : Nat) {s s' : OwnIt T} {o : Option T}
    (h : (nthOp t boom k).run s = (.ok o, s')) : (call t boom (.nth k)).run s = (.ok (.item o), s') := by
  rw [call, StM.run_map, h]

theorem call_len (t : Target) (boom : T → Bool) {s s' : OwnIt T} {o : Nat}
    (h : (lenOp t).run s = (.ok o, s')) : (call t boom .len).run s = (.ok (.size o), s') := by
  rw [call, StM.run_map, h]

/-- Every compliant history behaves as the queue does, and keeps the memory in order. -/
theorem run_compliant (t : Target) (boom : T → Bool) (h : List OwnCall) (F q B D : List T)
    (hc : Compliant (!F.isEmpty) q h) (hW : F.length + q.length < t.W)
    (hb : ∀ x ∈ (queueRun q h).2.1, boom x = false) :
    ∃ F' B', run t boom h (mkIt F q B D) =
      ((queueRun q h).1, mkIt F' (queueRun q h).2.2 B' (D ++ (queueRun q h).2.1)) ∧
      F'.length + (queueRun q h).2.2.length ≤ F.length + q.length ∧
      F' = F ++ fronts q h := by
  induction h generalizing F q B D with
  | nil => exact ⟨F, B, by simp [run, queueRun], by simp [queueRun], by simp [fronts]⟩
  | cons c h ih =>
    cases c with
    | next =>
      cases q with
      | nil =>
        rw [run_cons_ok t boom .next h _ _ _ (call_next t boom (next_nil t F B D))]
        obtain ⟨F', B', h1, h2, h3⟩ := ih F [] B D (by simpa [Compliant] using hc) hW (by simpa [queueRun, queueStep] using hb)
        exact ⟨F', B', by simp [queueRun, queueStep, h1], by simpa [queueRun, queueStep] using h2, by simpa [fronts] using h3⟩
      | cons x q =>
        rw [run_cons_ok t boom .next h _ _ _ (call_next t boom (next_cons t F q B D x (by simp at hW; omega)))]
        obtain ⟨F', B', h1, h2, h3⟩ := ih (F ++ [x]) q B D (by cases F <;> simpa [Compliant] using hc) (by simp at hW ⊢; omega)
          (by simpa [queueRun, queueStep] using hb)
        refine ⟨F', B', by simp [queueRun, queueStep, h1], ?_, by simpa [fronts] using h3⟩
        simp only [queueRun, queueStep, List.tail_cons, List.length_cons, List.length_append, List.length_nil] at h2 ⊢
        omega
    | nextBack =>
      rcases List.eq_nil_or_concat q with rfl | ⟨p, x, rfl⟩
      · have hF : F = [] := by
          have := hc.1 rfl
          simpa using this
        subst hF
        rw [run_cons_ok t boom .nextBack h _ _ _ (call_nextBack t boom (nextBack_nil t B D))]
        obtain ⟨F', B', h1, h2, h3⟩ := ih [] [] B D (by simpa [Compliant] using hc.2) hW (by simpa [queueRun, queueStep] using hb)
        exact ⟨F', B', by simp [queueRun, queueStep, h1], by simpa [queueRun, queueStep] using h2, by simpa [fronts] using h3⟩
      · rw [List.concat_eq_append] at hc hW hb ⊢
        rw [run_cons_ok t boom .nextBack h _ _ _ (call_nextBack t boom (nextBack_snoc t F p B D x))]
        obtain ⟨F', B', h1, h2, h3⟩ := ih F p (x :: B) D (by simpa [Compliant] using hc.2) (by simp at hW ⊢; omega)
          (by simpa [queueRun, queueStep] using hb)
        refine ⟨F', B', by simp [queueRun, queueStep, h1], ?_, by simpa [fronts] using h3⟩
        simp only [queueRun, queueStep, List.dropLast_concat, List.length_append, List.length_cons, List.length_nil] at h2 ⊢
        omega
    | nth k =>
      obtain ⟨hk, hc2⟩ := hc
      have hlen : (q.take k).length = k := by simp [hk]
      have hb1 : ∀ x ∈ q.take k, boom x = false := fun x hx => hb x (by simp [queueRun, queueStep, hx])
      have hn := nth_ok t boom F (q.take k) (q.drop k) B D hb1 (by rw [hlen]; omega)
      rw [hlen, List.take_append_drop] at hn
      cases hq : q.drop k with
      | nil =>
        rw [hq, next_nil] at hn
        rw [run_cons_ok t boom (.nth k) h _ _ _ (call_nth t boom k hn)]
        have hd : q.drop (k + 1) = [] := by rw [← List.tail_drop, hq]; rfl
        have hkq : k = q.length := by
          have := congrArg List.length hq
          simp at this; omega
        obtain ⟨F', B', h1, h2, h3⟩ := ih (F ++ q.take k) [] B (D ++ q.take k) (by
            rw [hd] at hc2
            have : (!(F ++ q.take k).isEmpty) = (!F.isEmpty || !q.isEmpty) := by
              rw [hkq, List.take_length]; cases F <;> cases q <;> rfl
            rw [this]; exact hc2)
          (by rw [List.length_append, hlen, List.length_nil]; omega)
          (fun x hx => hb x (by simp only [queueRun, queueStep, hd]; simp [hx]))
        refine ⟨F', B', ?_, ?_, ?_⟩
        · simp only [queueRun, queueStep, hd, hq, List.head?_nil, h1, List.append_assoc]
        · simp only [queueRun, queueStep, hd] at h2 ⊢
          rw [List.length_append, hlen, List.length_nil] at h2
          omega
        · rw [h3, fronts, hd, List.append_assoc, List.take_of_length_le (by omega : q.length ≤ k + 1), hkq, List.take_length]
      | cons x p =>
        have hlt : k < q.length := by
          have := congrArg List.length hq
          simp at this; omega
        rw [hq, next_cons t _ p B _ x (by rw [List.length_append, hlen]; omega)] at hn
        rw [run_cons_ok t boom (.nth k) h _ _ _ (call_nth t boom k hn)]
        have hd : q.drop (k + 1) = p := by rw [← List.tail_drop, hq]; rfl
        have hp : k + 1 + p.length = q.length := by
          have := congrArg List.length hq
          simp at this; omega
        obtain ⟨F', B', h1, h2, h3⟩ := ih (F ++ q.take k ++ [x]) p B (D ++ q.take k) (by
            rw [hd] at hc2
            have : (!(F ++ q.take k ++ [x]).isEmpty) = (!F.isEmpty || !q.isEmpty) := by
              cases q with
              | nil => simp at hlt
              | cons y q => cases F <;> simp
            rw [this]; exact hc2)
          (by simp only [List.length_append, hlen, List.length_cons, List.length_nil]; omega)
          (fun x hx => hb x (by simp only [queueRun, queueStep, hd]; simp [hx]))
        refine ⟨F', B', ?_, ?_, ?_⟩
        · rw [h1]
          simp only [queueRun, queueStep, hd, hq, List.head?_cons, List.append_assoc]
        · simp only [queueRun, queueStep, hd] at h2 ⊢
          simp only [List.length_append, hlen, List.length_cons, List.length_nil] at h2
          omega
        · have e : q.take (k + 1) = q.take k ++ [x] := by
            conv_lhs => rw [← List.take_append_drop k q, hq]
            rw [List.take_append, hlen, List.take_take]; simp
          rw [h3, fronts, hd, e]; simp
    | len =>
      rw [run_cons_ok t boom .len h _ _ _ (call_len t boom (len_mk t F q B D))]
      obtain ⟨F', B', h1, h2, h3⟩ := ih F q B D (by simpa [Compliant] using hc) hW (by simpa [queueRun, queueStep] using hb)
      exact ⟨F', B', by simp [queueRun, queueStep, h1], by simpa [queueRun, queueStep] using h2, by simpa [fronts] using h3⟩

theorem run_intoIter (t : Target) (boom : T → Bool) (h : List OwnCall) (v : Vec T n) (hn : n < t.W)
    (hc : Compliant false v.toList h) (hb : ∀ x ∈ (queueRun v.toList h).2.1, boom x = false) :
    ∃ F' B', run t boom h (intoIter v) =
      ((queueRun v.toList h).1, mkIt F' (queueRun v.toList h).2.2 B' (queueRun v.toList h).2.1) := by
  rw [intoIter_mk]
  obtain ⟨F', B', h1, -⟩ := run_compliant t boom h [] v.toList [] [] (by simpa using hc) (by simp [v.length_eq, hn]) hb
  exact ⟨F', B', by rw [h1, List.nil_append]⟩

end OwnIt

/-! ## C07 -/

/-- A history of `next()`, `len()` and `nth(k)` calls, `k` at most the number of elements left. -/
def FrontOnly (q : List T) : List OwnCall → Prop
  | [] => True
  | .nextBack :: _ => False
  | .nth k :: h => k ≤ q.length ∧ FrontOnly (q.drop (k + 1)) h
  | .next :: h => FrontOnly q.tail h
  | .len :: h => FrontOnly q h

theorem FrontOnly.compliant {q : List T} {h : List OwnCall} (hf : FrontOnly q h) (f : Bool) : Compliant f q h := by
  induction h generalizing q f with
  | nil => trivial
  | cons c h ih =>
    cases c with
    | next => exact ih hf _
    | nextBack => exact hf.elim
    | nth k => exact ⟨hf.1, ih hf.2 _⟩
    | len => exact ih hf _

/-- C07: front-only use answers like a queue holding the elements in order: `next()`/`nth(k)` return them in order,
then `None` for ever, `len()` is the number still to come; no invalid access happens. -/
theorem C07_front_only (t : Target) (v : Vec T n) (hn : n < t.W) (h : List OwnCall) (hf : FrontOnly v.toList h)
    (boom : T → Bool) (hb : ∀ x ∈ v.toList, boom x = false) :
    (OwnIt.run t boom h (OwnIt.intoIter v)).1 = (queueRun v.toList h).1 ∧
    (OwnIt.run t boom h (OwnIt.intoIter v)).2.mem.viols = [] := by
  obtain ⟨F', B', h1⟩ := OwnIt.run_intoIter t boom h v hn (hf.compliant _)
    (fun x hx => hb x ((queueRun_perm v.toList h).mem_iff.1 (by simp [hx])))
  rw [h1]; exact ⟨rfl, rfl⟩

/-- C07: `size_hint()` and `count()` after such a history (or any compliant one) are the number of elements left. -/
theorem C07_size_hint (t : Target) (v : Vec T n) (hn : n < t.W) (h : List OwnCall) (hc : Compliant false v.toList h)
    (boom : T → Bool) (hb : ∀ x ∈ v.toList, boom x = false) :
    ((OwnIt.sizeHintOp t).run (OwnIt.run t boom h (OwnIt.intoIter v)).2).1 =
      .ok ((queueRun v.toList h).2.2.length, some (queueRun v.toList h).2.2.length) ∧
    ((OwnIt.countOp t).run (OwnIt.run t boom h (OwnIt.intoIter v)).2).1 = .ok (queueRun v.toList h).2.2.length := by
  obtain ⟨F', B', h1⟩ := OwnIt.run_intoIter t boom h v hn hc
    (fun x hx => hb x ((queueRun_perm v.toList h).mem_iff.1 (by simp [hx])))
  rw [h1]
  refine ⟨?_, ?_⟩
  · unfold OwnIt.sizeHintOp
    rw [StM.run_bind_ok (OwnIt.len_mk t _ _ _ _)]; rfl
  · unfold OwnIt.countOp
    rw [OwnIt.len_mk]

/-- Repeated `next()` returns the elements in order and then `None` for ever. -/
theorem C07_next_sequence (t : Target) (v : Vec T n) (hn : n < t.W) (j : Nat) :
    (OwnIt.run t (fun _ => false) (List.replicate (n + j) .next) (OwnIt.intoIter v)).1 =
      v.toList.map (fun x => .item (some x)) ++ List.replicate j (.item none) := by
  have key : ∀ (q : List T), (queueRun q (List.replicate (q.length + j) .next)).1 =
      q.map (fun x => Out.item (some x)) ++ List.replicate j (.item none) := by
    intro q
    induction q with
    | nil =>
      simp only [List.length_nil, Nat.zero_add, List.map_nil, List.nil_append]
      induction j with
      | zero => rfl
      | succ j ih => rw [List.replicate_succ, List.replicate_succ, queueRun]; simp only [queueStep, List.tail_nil, ih]; rfl
    | cons x q ih =>
      rw [List.length_cons, show q.length + 1 + j = (q.length + j) + 1 by omega, List.replicate_succ, queueRun]
      simp [queueStep, ih]
  have hf : ∀ (k : Nat) (q : List T), FrontOnly q (List.replicate k .next) := by
    intro k
    induction k with
    | zero => intro q; trivial
    | succ k ih => intro q; exact ih _
  rw [(C07_front_only t v hn _ (hf _ _) (fun _ => false) (by simp)).1]
  have := key v.toList
  rwa [v.length_eq] at this

example : FrontOnly [1, 2, 3, 4] [.len, .nth 1, .len, .next, .nth 1, .next, .len] ∧
    (OwnIt.run ⟨true, true, 2 ^ 64⟩ (fun _ => false) [.len, .nth 1, .len, .next, .nth 1, .next, .len]
      (OwnIt.intoIter (⟨[1, 2, 3, 4], rfl⟩ : Vec Nat 4))).1 =
    [.size 4, .item (some 2), .size 2, .item (some 3), .item none, .item none, .size 0] :=
  ⟨⟨by decide, by decide, trivial⟩, by decide⟩

/-! ## C08 -/

/-- C08, the part that holds: any history of `next()`, `next_back()`, `len()` (and `nth` in range) that never calls
`next_back()` on an exhausted iterator from which something was taken at the front behaves as a double-ended queue.
Missing: that remaining situation, where the claim is false (`C08_false`). -/
theorem C08_mixed_partial (t : Target) (v : Vec T n) (hn : n < t.W) (h : List OwnCall) (hc : Compliant false v.toList h)
    (boom : T → Bool) (hb : ∀ x ∈ v.toList, boom x = false) :
    (OwnIt.run t boom h (OwnIt.intoIter v)).1 = (queueRun v.toList h).1 := by
  obtain ⟨F', B', h1⟩ := OwnIt.run_intoIter t boom h v hn hc
    (fun x hx => hb x ((queueRun_perm v.toList h).mem_iff.1 (by simp [hx])))
  rw [h1]

/-- C08, back-only use is always right. -/
theorem C08_back_only (t : Target) (v : Vec T n) (hn : n < t.W) (h : List OwnCall)
    (hc : ∀ c ∈ h, c = .nextBack ∨ c = .len) :
    (OwnIt.run t (fun _ => false) h (OwnIt.intoIter v)).1 = (queueRun v.toList h).1 ∧
    (OwnIt.run t (fun _ => false) h (OwnIt.intoIter v)).2.mem.viols = [] := by
  have key : ∀ (q : List T), Compliant false q h := by
    induction h with
    | nil => intro q; trivial
    | cons c h ih =>
      intro q
      rcases hc c (by simp) with rfl | rfl
      · exact ⟨fun _ => rfl, ih (fun c hc' => hc c (by simp [hc'])) _⟩
      · exact ih (fun c hc' => hc c (by simp [hc'])) _
  obtain ⟨F', B', h1⟩ := OwnIt.run_intoIter t (fun _ => false) h v hn (key _) (by simp)
  rw [h1]; exact ⟨rfl, rfl⟩

theorem run_backs (t : Target) (boom : T → Bool) (h : List OwnCall) (q F B D : List T) :
    OwnIt.run t boom (List.replicate q.length .nextBack ++ h) (mkIt F q B D) =
      (q.reverse.map (fun x => .item (some x)) ++ (OwnIt.run t boom h (mkIt F [] (q ++ B) D)).1,
        (OwnIt.run t boom h (mkIt F [] (q ++ B) D)).2) := by
  suffices H : ∀ (k : Nat) (q B : List T), q.length = k → OwnIt.run t boom (List.replicate q.length .nextBack ++ h) (mkIt F q B D) =
      (q.reverse.map (fun x => .item (some x)) ++ (OwnIt.run t boom h (mkIt F [] (q ++ B) D)).1,
        (OwnIt.run t boom h (mkIt F [] (q ++ B) D)).2) from H _ q B rfl
  intro k
  induction k with
  | zero =>
    intro q B hq
    obtain rfl := List.length_eq_zero_iff.1 hq
    simp
  | succ k ih =>
    intro q B hq
    rcases List.eq_nil_or_concat q with rfl | ⟨p, x, rfl⟩
    · simp at hq
    · rw [List.concat_eq_append] at hq ⊢
      simp only [List.length_append, List.length_cons, List.length_nil] at hq
      have hp : p.length = k := by omega
      rw [List.length_append, List.length_cons, List.length_nil, List.replicate_succ, List.cons_append,
        OwnIt.run_cons_ok t boom .nextBack _ _ _ _ (OwnIt.call_nextBack t boom (OwnIt.nextBack_snoc t F p B D x)),
        ih p (x :: B) hp]
      simp

/-- C08 does not hold: for every non-empty vector, `next()` followed by `n` calls of `next_back()` yields `n + 1`
elements, the first element twice (and the last access reads a moved-out slot). -/
theorem C08_false (t : Target) (x : T) (q : List T) (hn : q.length + 1 < t.W) (boom : T → Bool) :
    yielded (OwnIt.run t boom (.next :: List.replicate (q.length + 1) .nextBack)
      (OwnIt.intoIter (⟨x :: q, rfl⟩ : Vec T (q.length + 1)))).1 = x :: (q.reverse ++ [x]) ∧
    (OwnIt.run t boom (.next :: List.replicate (q.length + 1) .nextBack)
      (OwnIt.intoIter (⟨x :: q, rfl⟩ : Vec T (q.length + 1)))).2.mem.viols = [.readGone 0] := by
  rw [OwnIt.intoIter_mk,
    OwnIt.run_cons_ok t boom .next _ _ _ _ (OwnIt.call_next t boom (OwnIt.next_cons t [] q [] [] x (by simp; omega))),
    List.replicate_succ', run_backs]
  have hst := OwnIt.nextBack_stale t ([] : List T) (q ++ []) [] x
  rw [List.nil_append]
  rw [List.nil_append] at hst
  rw [OwnIt.run_cons_ok t boom .nextBack [] _ _ _ (OwnIt.call_nextBack t boom hst)]
  refine ⟨?_, rfl⟩
  have hy : ∀ (l : List T) (os : List (Out T)), yielded (l.map (fun x => Out.item (some x)) ++ os) = l ++ yielded os := by
    intro l os
    induction l with
    | nil => rfl
    | cons y l ih => simp [yielded, ih]
  simp only [yielded, hy]
  rfl

example : Compliant false [1, 2, 3] [.next, .nextBack, .len, .nextBack, .next] := by simp [Compliant]

/-! ## C09 -/

namespace OwnIt

/-- `nth` beyond the end violates memory safety. -/
theorem nth_beyond (t : Target) (boom : T → Bool) (F q B D : List T) (hb : ∀ x ∈ q, boom x = false) (k : Nat)
    (hk : q.length < k) (hW : F.length + k < t.W) :
    ((nthOp t boom k).run (mkIt F q B D)).2.mem.viols ≠ [] := by
  have hm : ∀ s : OwnIt T, s.mem.viols ≠ [] → ∀ s' : OwnIt T, s.mem.viols <+: s'.mem.viols → s'.mem.viols ≠ [] := by
    intro s hs s' hp h'
    rw [h', List.prefix_nil] at hp
    exact hs hp
  unfold nthOp
  rw [StM.run_bind_ok (StM.run_get _)]
  have h1 : uadd t (mkIt F q B D).next k = .ok (F.length + k) := uadd_ok t hW
  rw [h1, StM.run_bind_ok (StM.run_liftRes_ok _ _)]
  have e : F.length + k - (mkIt F q B D).next = k := by simp [mkIt]
  rw [e]
  have hd : ((Mem.dropRange boom F.length k).run (mkMem F q B D)).2.viols ≠ [] := by
    have split : ∀ (a b lo : Nat) (s : Mem T), (Mem.dropRange boom lo (a + b)).run s =
        ((Mem.dropRange boom lo a >>= fun _ => Mem.dropRange boom (lo + a) b).run s) := by
      intro a
      induction a with
      | zero => intro b lo s; simp [Mem.dropRange]
      | succ a ih =>
        intro b lo s
        rw [show a + 1 + b = (a + b) + 1 by omega, Mem.dropRange, Mem.dropRange, bind_assoc, StM.run_bind, StM.run_bind]
        rcases (Mem.dropInPlace boom lo).run s with ⟨r, s'⟩
        cases r with
        | ok u => simp only; rw [ih, show lo + 1 + a = lo + (a + 1) by omega]
        | error e => rfl
    obtain ⟨b, rfl⟩ : ∃ b, k = q.length + (b + 1) := ⟨k - q.length - 1, by omega⟩
    rw [split]
    have := dropRange_ok boom q [] F B D hb
    rw [List.append_nil] at this
    rw [StM.run_bind_ok this, Mem.dropRange]
    have hfirst : ((Mem.dropInPlace boom (F.length + q.length)).run (mkMem (F ++ q) [] B (D ++ q))).2.viols ≠ [] := by
      unfold Mem.dropInPlace
      rw [StM.run_bind_ok (StM.run_get _)]
      cases B with
      | nil =>
        have : (mkMem (F ++ q) [] [] (D ++ q)).slots[F.length + q.length]? = none := by simp [mkMem]
        rw [this]; simp only
        rw [StM.run_bind_ok (StM.run_set _ _)]
        simp
      | cons y B =>
        have : (mkMem (F ++ q) [] (y :: B) (D ++ q)).slots[F.length + q.length]? = some (.gone y) := by
          simp [mkMem]
        rw [this]; simp only
        rw [StM.run_bind_ok (StM.run_set _ _)]
        cases boom y <;> simp
    intro h'
    have hp := (Mono.bind (mono_dropInPlace boom (F.length + q.length))
      (fun _ => mono_dropRange boom (F.length + q.length + 1) b))
    rw [StM.run_bind] at h'
    rcases hr : (Mem.dropInPlace boom (F.length + q.length)).run (mkMem (F ++ q) [] B (D ++ q)) with ⟨r, s'⟩
    rw [hr] at h' hfirst
    cases r with
    | ok u =>
      simp only at h' hfirst
      have := mono_dropRange boom (F.length + q.length + 1) b s'
      rw [h', List.prefix_nil] at this
      exact hfirst this
    | error e => exact hfirst h'
  have hon : ((onMem (Mem.dropRange boom (mkIt F q B D).next k)).run (mkIt F q B D)).2.mem.viols ≠ [] := hd
  rw [StM.run_bind]
  rcases hr : (onMem (Mem.dropRange boom (mkIt F q B D).next k)).run (mkIt F q B D) with ⟨r, s'⟩
  rw [hr] at hon
  cases r with
  | error e => exact hon
  | ok u =>
    simp only
    refine hm s' hon _ ?_
    refine monoI_getThen _ (fun s => ?_) s'
    rw [StM.run_bind]
    cases uadd t s.next k with
    | error e => exact List.prefix_refl _
    | ok nx =>
      simp only [StM.run_liftRes_ok]
      rw [StM.run_bind_ok (StM.run_set _ _)]
      exact monoI_next t { s with next := nx }

/-- Histories that are not compliant commit a violation. -/
theorem run_not_compliant (t : Target) (h : List OwnCall) (F q B D : List T)
    (hc : ¬ Compliant (!F.isEmpty) q h) (hW : F.length + q.length < t.W)
    (hk : ∀ k, OwnCall.nth k ∈ h → F.length + q.length + k < t.W) :
    (run t (fun _ => false) h (mkIt F q B D)).2.mem.viols ≠ [] := by
  have after : ∀ (c : OwnCall) (h : List OwnCall) (s : OwnIt T),
      ((call t (fun _ => false) c).run s).2.mem.viols ≠ [] → (run t (fun _ => false) (c :: h) s).2.mem.viols ≠ [] := by
    intro c h s hs h'
    rw [run] at h'
    rcases hr : (call t (fun _ => false) c).run s with ⟨r, s'⟩
    rw [hr] at h' hs
    have hm := mono_run t (fun _ => false) h s'
    match r with
    | .ok o => simp only at h' hs; rw [h', List.prefix_nil] at hm; exact hs hm
    | .error .panic => simp only at h' hs; rw [h', List.prefix_nil] at hm; exact hs hm
    | .error .ub => exact hs h'
  induction h generalizing F q B D with
  | nil => exact absurd trivial hc
  | cons c h ih =>
    cases c with
    | next =>
      cases q with
      | nil =>
        rw [run_cons_ok t _ .next h _ _ _ (call_next t _ (next_nil t F B D))]
        exact ih F [] B D (by simpa [Compliant] using hc) hW (fun k hm => hk k (by simp [hm]))
      | cons x q =>
        rw [run_cons_ok t _ .next h _ _ _ (call_next t _ (next_cons t F q B D x (by simp at hW; omega)))]
        refine ih (F ++ [x]) q B D (by cases F <;> simpa [Compliant] using hc) (by simp at hW ⊢; omega) (fun k hm => ?_)
        have := hk k (by simp [hm])
        simp only [List.length_append, List.length_cons, List.length_nil] at this ⊢
        omega
    | nextBack =>
      rcases List.eq_nil_or_concat q with rfl | ⟨p, x, rfl⟩
      · rcases List.eq_nil_or_concat F with rfl | ⟨G, x, rfl⟩
        · rw [run_cons_ok t _ .nextBack h _ _ _ (call_nextBack t _ (nextBack_nil t B D))]
          exact ih [] [] B D (by simpa [Compliant] using hc) hW (fun k hm => hk k (by simp [hm]))
        · apply after
          rw [List.concat_eq_append, call_nextBack t _ (nextBack_stale t G B D x)]
          simp
      · rw [List.concat_eq_append] at hc hW hk ⊢
        rw [run_cons_ok t _ .nextBack h _ _ _ (call_nextBack t _ (nextBack_snoc t F p B D x))]
        refine ih F p (x :: B) D (by simpa [Compliant] using hc) (by simp at hW ⊢; omega) (fun k hm => ?_)
        have := hk k (by simp [hm])
        simp only [List.length_append, List.length_cons, List.length_nil] at this
        omega
    | nth k =>
      have hkW := hk k (by simp)
      by_cases hle : k ≤ q.length
      · have hlen : (q.take k).length = k := by simp [hle]
        have hn := nth_ok t (fun _ => false) F (q.take k) (q.drop k) B D (by simp) (by rw [hlen]; omega)
        rw [hlen, List.take_append_drop] at hn
        cases hq : q.drop k with
        | nil =>
          rw [hq, next_nil] at hn
          rw [run_cons_ok t _ (.nth k) h _ _ _ (call_nth t _ k hn)]
          have hd : q.drop (k + 1) = [] := by rw [← List.tail_drop, hq]; rfl
          have hkq : k = q.length := by
            have := congrArg List.length hq
            simp at this; omega
          refine ih (F ++ q.take k) [] B (D ++ q.take k) ?_ (by rw [List.length_append, hlen, List.length_nil]; omega) ?_
          · have : (!(F ++ q.take k).isEmpty) = (!F.isEmpty || !q.isEmpty) := by
              rw [hkq, List.take_length]; cases F <;> cases q <;> rfl
            rw [this]
            intro h'
            exact hc ⟨hle, by rw [hd]; exact h'⟩
          · intro j hm
            have := hk j (by simp [hm])
            rw [List.length_append, hlen, List.length_nil]; omega
        | cons x p =>
          have hp : k + 1 + p.length = q.length := by
            have := congrArg List.length hq
            simp at this; omega
          rw [hq, next_cons t _ p B _ x (by rw [List.length_append, hlen]; omega)] at hn
          rw [run_cons_ok t _ (.nth k) h _ _ _ (call_nth t _ k hn)]
          have hd : q.drop (k + 1) = p := by rw [← List.tail_drop, hq]; rfl
          refine ih (F ++ q.take k ++ [x]) p B (D ++ q.take k) ?_
            (by simp only [List.length_append, hlen, List.length_cons, List.length_nil]; omega) ?_
          · have : (!(F ++ q.take k ++ [x]).isEmpty) = (!F.isEmpty || !q.isEmpty) := by
              cases q with
              | nil => simp at hp
              | cons y q => cases F <;> simp
            rw [this]
            intro h'
            exact hc ⟨hle, by rw [hd]; exact h'⟩
          · intro j hm
            have := hk j (by simp [hm])
            simp only [List.length_append, hlen, List.length_cons, List.length_nil]; omega
      · apply after
        rw [call, StM.run_map]
        have := nth_beyond t (fun _ => false) F q B D (by simp) k (by omega) (by omega)
        rcases hr : (nthOp t (fun _ => false) k).run (mkIt F q B D) with ⟨r, s'⟩
        rw [hr] at this
        cases r <;> exact this
    | len =>
      rw [run_cons_ok t _ .len h _ _ _ (call_len t _ (len_mk t F q B D))]
      exact ih F q B D (by simpa [Compliant] using hc) hW (fun k hm => hk k (by simp [hm]))

end OwnIt

/-- C09, exact: (for `nth` arguments that do not overflow `usize`, destructors that do not panic) a history followed
by dropping the iterator is free of invalid accesses exactly when it is compliant. -/
theorem C09_safe_iff (t : Target) (v : Vec T n) (h : List OwnCall) (hn : n < t.W)
    (hk : ∀ k, OwnCall.nth k ∈ h → n + k < t.W) :
    (OwnIt.runDrop t (fun _ => false) h (OwnIt.intoIter v)).2.mem.viols = [] ↔ Compliant false v.toList h := by
  constructor
  · intro hv
    by_contra hc
    have := OwnIt.run_not_compliant t h [] v.toList [] [] (by simpa using hc) (by simp [v.length_eq, hn])
      (by simpa [v.length_eq] using hk)
    rw [← OwnIt.intoIter_mk] at this
    have hm := OwnIt.mono_runDrop t (fun _ => false) h (OwnIt.intoIter v)
    rw [hv, List.prefix_nil] at hm
    exact this hm
  · intro hc
    obtain ⟨F', B', h1⟩ := OwnIt.run_intoIter t (fun _ => false) h v hn hc (by simp)
    unfold OwnIt.runDrop
    rw [h1]
    simp only
    rw [OwnIt.drop_ok _ _ _ _ _ (by simp)]
    rfl

/-- C09, the part that holds: compliant histories commit no invalid access.  Missing: the other histories, for which
the claim is false (`C09_safe_iff`, `C09_false`). -/
theorem C09_safe_partial (t : Target) (v : Vec T n) (h : List OwnCall) (hn : n < t.W)
    (hk : ∀ k, OwnCall.nth k ∈ h → n + k < t.W) (hc : Compliant false v.toList h) :
    (OwnIt.runDrop t (fun _ => false) h (OwnIt.intoIter v)).2.mem.viols = [] := (C09_safe_iff t v h hn hk).2 hc

/-- C09 does not hold: for every vector, `nth(n + 1)` drops a slot outside the array, and for every non-empty one
`next()` followed by `n` times `next_back()` reads a moved-out element. -/
theorem C09_false (t : Target) (v : Vec T n) (hn : 2 * n + 1 < t.W) :
    (OwnIt.runDrop t (fun _ => false) [.nth (n + 1)] (OwnIt.intoIter v)).2.mem.viols ≠ [] ∧
    (0 < n → (OwnIt.runDrop t (fun _ => false) (.next :: List.replicate n .nextBack) (OwnIt.intoIter v)).2.mem.viols ≠ []) := by
  refine ⟨?_, ?_⟩
  · rw [Ne, C09_safe_iff t v _ (by omega) (by simp; omega)]
    simp [Compliant, v.length_eq]
  · intro h0
    rw [Ne, C09_safe_iff t v _ (by omega) (by simp)]
    have : ∀ (k : Nat) (q : List T), q.length < k → ¬ Compliant true q (List.replicate k .nextBack) := by
      intro k
      induction k with
      | zero => intro q hq; omega
      | succ k ih =>
        intro q hq hc
        rw [List.replicate_succ] at hc
        obtain ⟨h1, h2⟩ := hc
        cases q with
        | nil => exact absurd (h1 rfl) (by simp)
        | cons x q => exact ih _ (by simp at hq ⊢; omega) h2
    intro hc
    have hv := v.length_eq
    cases hq : v.toList with
    | nil => rw [hq] at hv; simp at hv; omega
    | cons x q =>
      rw [hq] at hc hv
      simp only [Compliant, List.tail_cons, List.isEmpty_cons, Bool.not_false, Bool.or_true] at hc
      exact this n q (by simp at hv; omega) hc

/-! ## C10 -/

/-- C10: after any compliant history and dropping the iterator, the elements handed out together with the elements
dropped are exactly the original elements, each once, and no invalid access happened. -/
theorem C10_exactly_once (t : Target) (v : Vec T n) (h : List OwnCall) (hn : n < t.W) (hc : Compliant false v.toList h)
    (boom : T → Bool) (hb : ∀ x ∈ v.toList, boom x = false) :
    (yielded (OwnIt.runDrop t boom h (OwnIt.intoIter v)).1 ++
      (OwnIt.runDrop t boom h (OwnIt.intoIter v)).2.mem.drops).Perm v.toList ∧
    (OwnIt.runDrop t boom h (OwnIt.intoIter v)).2.mem.viols = [] := by
  have hp := queueRun_perm v.toList h
  obtain ⟨F', B', h1⟩ := OwnIt.run_intoIter t boom h v hn hc (fun x hx => hb x (hp.mem_iff.1 (by simp [hx])))
  unfold OwnIt.runDrop
  rw [h1]
  simp only
  rw [OwnIt.drop_ok _ _ _ _ _ (fun x hx => hb x (hp.mem_iff.1 (by simp [hx])))]
  exact ⟨hp, rfl⟩

example : Compliant false [1, 2, 3, 4, 5] [.next, .nextBack, .nth 1] ∧
    (OwnIt.runDrop ⟨true, true, 2 ^ 64⟩ (fun _ => false) [.next, .nextBack, .nth 1]
      (OwnIt.intoIter (⟨[1, 2, 3, 4, 5], rfl⟩ : Vec Nat 5))).2.mem.drops = [2, 4] := by
  exact ⟨by simp [Compliant], by decide⟩

/-! ## C11 -/

/-- C11, the part that holds: if no element skipped by `nth` has a panicking destructor, then (whatever happens while
the iterator itself is dropped) no element is dropped twice or dropped after being handed out, and no invalid access
happens.  Missing: `nth` skipping an element whose destructor panics, where the claim is false (`C11_false`). -/
theorem C11_drop_partial (t : Target) (v : Vec T n) (h : List OwnCall) (hn : n < t.W) (hc : Compliant false v.toList h)
    (boom : T → Bool) (hb : ∀ x ∈ (queueRun v.toList h).2.1, boom x = false) :
    (yielded (OwnIt.runDrop t boom h (OwnIt.intoIter v)).1 ++
      (OwnIt.runDrop t boom h (OwnIt.intoIter v)).2.mem.drops).Subperm v.toList ∧
    (OwnIt.runDrop t boom h (OwnIt.intoIter v)).2.mem.viols = [] := by
  have hp := queueRun_perm v.toList h
  obtain ⟨F', B', h1⟩ := OwnIt.run_intoIter t boom h v hn hc hb
  unfold OwnIt.runDrop
  rw [h1]
  simp only
  rcases firstBoom boom (queueRun v.toList h).2.2 with hq | ⟨p, x, s, hq, h2, h3⟩
  · rw [OwnIt.drop_ok _ _ _ _ _ hq]
    exact ⟨hp.subperm, rfl⟩
  · rw [hq, OwnIt.drop_panic boom _ p x s _ _ h2 h3]
    refine ⟨?_, rfl⟩
    refine List.Subperm.trans (List.Sublist.subperm ?_) hp.subperm
    rw [hq]
    simp only [mkMem, List.append_assoc]
    refine List.Sublist.append_left (List.Sublist.append_left (List.Sublist.append_left ?_ _) _) _
    simp

/-- C11 does not hold: if the first element's destructor panics, `nth(1)` panics, and dropping the iterator then drops
that element a second time. -/
theorem C11_false (t : Target) (x : T) (q : List T) (hW : q.length + 1 < t.W) (boom : T → Bool) (hx : boom x = true) :
    (OwnIt.runDrop t boom [.nth 1] (OwnIt.intoIter (⟨x :: q, rfl⟩ : Vec T (q.length + 1)))).1 = [.fault .panic] ∧
    (OwnIt.runDrop t boom [.nth 1] (OwnIt.intoIter (⟨x :: q, rfl⟩ : Vec T (q.length + 1)))).2.mem.drops = [x, x] ∧
    (OwnIt.runDrop t boom [.nth 1] (OwnIt.intoIter (⟨x :: q, rfl⟩ : Vec T (q.length + 1)))).2.mem.viols = [.dropGone 0] := by
  have h1 := OwnIt.nth_panic t boom ([] : List T) [] x q [] [] 1 (by simp) hx (by simp) (by simp; omega)
  simp only [List.nil_append, List.length_nil] at h1
  have hc : (OwnIt.call t boom (.nth 1)).run (OwnIt.intoIter (⟨x :: q, rfl⟩ : Vec T (q.length + 1))) =
      (.error .panic, { mem := mkMem [x] q [] [x], next := 0, back := 0 + (x :: q).length }) := by
    rw [OwnIt.intoIter_mk, OwnIt.call, StM.run_map, h1]
  have hr : OwnIt.run t boom [.nth 1] (OwnIt.intoIter (⟨x :: q, rfl⟩ : Vec T (q.length + 1))) =
      ([.fault .panic], { mem := mkMem [x] q [] [x], next := 0, back := 0 + (x :: q).length }) := by
    rw [OwnIt.run, hc]; rfl
  have hd : (OwnIt.dropOp boom).run { mem := mkMem [x] q [] [x], next := 0, back := 0 + (x :: q).length } =
      (.error .panic, { mem := { mkMem [x] q [] [x] with drops := [x, x], viols := [.dropGone 0] }, next := 0,
                        back := 0 + (x :: q).length }) := by
    unfold OwnIt.dropOp
    rw [StM.run_bind_ok (StM.run_get _), OwnIt.onMem_run]
    simp only [Nat.zero_add, Nat.sub_zero, List.length_cons]
    have : (Mem.dropRange boom 0 (q.length + 1)).run (mkMem [x] q [] [x]) =
        (.error .panic, { mkMem [x] q [] [x] with drops := [x, x], viols := [.dropGone 0] }) := by
      rw [Mem.dropRange]
      apply StM.run_bind_error
      unfold Mem.dropInPlace
      rw [StM.run_bind_ok (StM.run_get _)]
      have hs : (mkMem [x] q [] [x]).slots[0]? = some (.gone x) := by simp [mkMem]
      rw [hs]
      simp only
      rw [StM.run_bind_ok (StM.run_set _ _), hx, if_pos rfl]
      rfl
    rw [this]
  unfold OwnIt.runDrop
  rw [hr]
  simp only
  rw [hd]
  exact ⟨trivial, rfl, rfl⟩

end Rowcol
