import Verif.Lemmas.Mem
import Verif.Lemmas.MapM
import Mathlib.Data.List.OfFn
import Mathlib.Algebra.Order.Ring.Nat
import Mathlib.Tactic.Conv

/-! # C12, C40: `into_chunks` and `Matrix::from(flat vector)` -/

namespace Rowcol

variable {T : Type} {n : Nat}

namespace Spec

/-- A double-ended queue answering the calls of a chunk iterator. -/
def chunkStep {α : Type} (q : List α) : ChunkCall → Out α × List α
  | .next => (.item q.head?, q.tail)
  | .nextBack => (.item q.getLast?, q.dropLast)
  | .len => (.size q.length, q)

def chunkQueue {α : Type} (q : List α) : List ChunkCall → List (Out α) × List α
  | [] => ([], q)
  | c :: h => ((chunkStep q c).1 :: (chunkQueue (chunkStep q c).2 h).1, (chunkQueue (chunkStep q c).2 h).2)

/-- The `n / I` consecutive chunks of `v`: element `i` of chunk `c` is `v[c * I + i]`. -/
def chunksOf (I : Nat) (v : Vec T n) (hI : I ∣ n) : List (Vec T I) :=
  List.ofFn fun c : Fin (n / I) => ⟨List.ofFn fun i : Fin I => v.get ⟨c * I + i, by
    have h1 : (c.val + 1) * I ≤ (n / I) * I := Nat.mul_le_mul_right I c.isLt
    rw [Nat.div_mul_cancel hI] at h1
    have := i.isLt
    rw [Nat.add_mul, Nat.one_mul] at h1; omega⟩, by simp⟩

end Spec

open Spec

namespace OwnIt

theorem fill_take_front (t : Target) (p q F B D : List T) (k : Nat) (hk : p.length ≤ k)
    (hW : F.length + p.length < t.W) :
    (Vec.fill (takeIter (nextOp t)) p.length k).run (mkIt F (p ++ q) B D) =
      (.ok (⟨p, rfl⟩, k - p.length), mkIt (F ++ p) q B D) := by
  induction p generalizing F k with
  | nil => simp [Vec.fill, Vec.nil]
  | cons x p ih =>
    obtain ⟨k, rfl⟩ : ∃ j, k = j + 1 := ⟨k - 1, by simp at hk; omega⟩
    simp only [List.length_cons]
    rw [Vec.fill]
    have h1 : ((takeIter (nextOp t)).next (k + 1)).run (mkIt F (x :: p ++ q) B D) =
        (.ok (some x, k), mkIt (F ++ [x]) (p ++ q) B D) := by
      change (nextOp t >>= fun o => pure (o, k)).run _ = _
      rw [List.cons_append, StM.run_bind_ok (next_cons t F (p ++ q) B D x (by simp at hW; omega))]
      rfl
    rw [StM.run_bind_ok h1]
    simp only
    rw [StM.run_bind_ok (ih (F ++ [x]) k (by simpa using hk) (by simp at hW ⊢; omega))]
    simp [Vec.cons]

theorem fill_take_back (t : Target) (p q F B D : List T) (k : Nat) (hk : p.length ≤ k) :
    (Vec.fill (takeIter (nextBackOp t)) p.length k).run (mkIt F (q ++ p.reverse) B D) =
      (.ok (⟨p, rfl⟩, k - p.length), mkIt F q (p.reverse ++ B) D) := by
  induction p generalizing B k with
  | nil => simp [Vec.fill, Vec.nil]
  | cons x p ih =>
    obtain ⟨k, rfl⟩ : ∃ j, k = j + 1 := ⟨k - 1, by simp at hk; omega⟩
    simp only [List.length_cons]
    rw [Vec.fill]
    have h1 : ((takeIter (nextBackOp t)).next (k + 1)).run (mkIt F (q ++ (x :: p).reverse) B D) =
        (.ok (some x, k), mkIt F (q ++ p.reverse) (x :: B) D) := by
      change (nextBackOp t >>= fun o => pure (o, k)).run _ = _
      rw [List.reverse_cons, ← List.append_assoc, StM.run_bind_ok (nextBack_snoc t F (q ++ p.reverse) B D x)]
      rfl
    rw [StM.run_bind_ok h1]
    simp only
    rw [StM.run_bind_ok (ih (x :: B) k (by simpa using hk))]
    simp [Vec.cons]

theorem fill_rev (t : Target) (p B D : List T) (fuel : Nat) :
    (Vec.fill (revIter t fuel) p.length ()).run (mkIt [] p.reverse B D) =
      (.ok (⟨p, rfl⟩, ()), mkIt [] [] (p.reverse ++ B) D) := by
  induction p generalizing B with
  | nil => simp [Vec.fill, Vec.nil]
  | cons x p ih =>
    simp only [List.length_cons]
    rw [Vec.fill]
    have h1 : ((revIter t fuel).next ()).run (mkIt [] ((x :: p).reverse) B D) =
        (.ok (some x, ()), mkIt [] p.reverse (x :: B) D) := by
      change (nextBackOp t >>= fun o => pure (o, ())).run _ = _
      rw [List.reverse_cons, StM.run_bind_ok (nextBack_snoc t [] p.reverse B D x)]
      rfl
    rw [StM.run_bind_ok h1]
    simp only
    rw [StM.run_bind_ok (ih (x :: B))]
    simp [Vec.cons]

theorem revCollect_eq {I : Nat} (t : Target) (v : Vec T I) :
    revCollect t v = (.ok ⟨v.toList.reverse, by simp [v.length_eq]⟩, mkIt [] [] v.toList []) := by
  obtain ⟨l, rfl⟩ := v
  unfold revCollect
  rw [intoIter_mk]
  simp only
  have h1 := fill_rev t l.reverse [] [] (l.length + 1)
  rw [List.reverse_reverse] at h1
  have h2 : (Vec.fill (revIter t (l.length + 1)) l.length ()).run (mkIt [] l [] []) =
      (.ok (⟨l.reverse, by simp⟩, ()), mkIt [] [] (l ++ []) []) := by
    have e : ∀ (k : Nat) (h : l.reverse.length = k), (Vec.fill (revIter t (l.length + 1)) k ()).run (mkIt [] l [] []) =
      (.ok (⟨l.reverse, h⟩, ()), mkIt [] [] (l ++ []) []) := by
      intro k h; subst h; exact h1
    exact e l.length (by simp)
  unfold Vec.fromIter
  rw [StM.run_bind_ok h2]
  simp only [List.append_nil]
  cases t.debugAssertions
  · rfl
  · simp only [if_true]
    have h3 : ((revIter t (l.length + 1)).count ()).run (mkIt [] [] l []) = (.ok 0, mkIt [] [] l []) := by
      change (revIter.go t (l.length + 1)).run _ = _
      rw [revIter.go, StM.run_bind_ok (nextBack_nil t l [])]
      rfl
    rw [StM.run_bind_ok h3]
    rfl

theorem chunkNext_cons {I : Nat} (t : Target) (hI : 0 < I) (v : Vec T I) (q F B D : List T)
    (hW : F.length + I < t.W) :
    (chunkNext t I).run (mkIt F (v.toList ++ q) B D) = (.ok (some v), mkIt (F ++ v.toList) q B D) := by
  obtain ⟨p, rfl⟩ := v
  unfold chunkNext
  rw [StM.run_bind_ok (len_mk t F (p ++ q) B D)]
  rw [if_neg (by rw [List.length_append]; omega)]
  have h1 := fill_take_front t p q F B D p.length (Nat.le_refl _) hW
  have h2 : (Vec.fromIter t p.length (takeIter (nextOp t)) p.length).run (mkIt F (p ++ q) B D) =
      (.ok ⟨p, rfl⟩, mkIt (F ++ p) q B D) := by
    unfold Vec.fromIter
    rw [StM.run_bind_ok h1]
    simp only [Nat.sub_self]
    cases t.debugAssertions
    · rfl
    · simp only [if_true]
      have h3 : ((takeIter (nextOp t)).count 0).run (mkIt (F ++ p) q B D) = (.ok 0, mkIt (F ++ p) q B D) := by
        change (takeIter.go (nextOp t) 0).run _ = _
        rfl
      rw [StM.run_bind_ok h3]; rfl
  rw [StM.run_bind_ok h2]; rfl

theorem chunkNext_nil (t : Target) (I : Nat) (F B D : List T) :
    (chunkNext t I).run (mkIt F [] B D) = (.ok none, mkIt F [] B D) := by
  unfold chunkNext
  rw [StM.run_bind_ok (len_mk t F [] B D), if_pos (by simp)]; rfl

theorem chunkNextBack_nil (t : Target) (I : Nat) (F B D : List T) :
    (chunkNextBack t I).run (mkIt F [] B D) = (.ok none, mkIt F [] B D) := by
  unfold chunkNextBack
  rw [StM.run_bind_ok (len_mk t F [] B D), if_pos (by simp)]; rfl

theorem chunkNextBack_snoc {I : Nat} (t : Target) (hI : 0 < I) (v : Vec T I) (q F B D : List T) :
    (chunkNextBack t I).run (mkIt F (q ++ v.toList) B D) = (.ok (some v), mkIt F q (v.toList ++ B) D) := by
  obtain ⟨p, rfl⟩ := v
  unfold chunkNextBack
  rw [StM.run_bind_ok (len_mk t F (q ++ p) B D)]
  rw [if_neg (by rw [List.length_append]; omega)]
  have h1 : (Vec.fill (takeIter (nextBackOp t)) p.length p.length).run (mkIt F (q ++ p) B D) =
      (.ok (⟨p.reverse, by simp⟩, 0), mkIt F q (p ++ B) D) := by
    have e : ∀ (k : Nat) (h : p.reverse.length = k), (Vec.fill (takeIter (nextBackOp t)) k k).run (mkIt F (q ++ p) B D) =
        (.ok (⟨p.reverse, h⟩, 0), mkIt F q (p ++ B) D) := by
      intro k h; subst h
      have := fill_take_back t p.reverse q F B D p.reverse.length (Nat.le_refl _)
      rwa [List.reverse_reverse, Nat.sub_self] at this
    exact e p.length (by simp)
  have h2 : (Vec.fromIter t p.length (takeIter (nextBackOp t)) p.length).run (mkIt F (q ++ p) B D) =
      (.ok ⟨p.reverse, by simp⟩, mkIt F q (p ++ B) D) := by
    unfold Vec.fromIter
    rw [StM.run_bind_ok h1]
    simp only
    cases t.debugAssertions
    · rfl
    · simp only [if_true]
      have h3 : ((takeIter (nextBackOp t)).count 0).run (mkIt F q (p ++ B) D) = (.ok 0, mkIt F q (p ++ B) D) := by
        change (takeIter.go (nextBackOp t) 0).run _ = _
        rfl
      rw [StM.run_bind_ok h3]; rfl
  rw [StM.run_bind_ok h2, revCollect_eq]
  simp only [List.reverse_reverse]
  rw [StM.run_bind_ok (StM.run_liftRes_ok _ _)]; rfl

/-- All the elements of a list of chunks. -/
def flat {I : Nat} (cs : List (Vec T I)) : List T := (cs.map Vec.toList).flatten

theorem flat_length {I : Nat} (cs : List (Vec T I)) : (flat cs).length = cs.length * I := by
  induction cs with
  | nil => simp [flat]
  | cons c cs ih =>
    simp only [flat, List.map_cons, List.flatten_cons, List.length_append, List.length_cons] at ih ⊢
    rw [ih, c.length_eq, Nat.add_mul, Nat.one_mul, Nat.add_comm]

theorem chunkLen_mk {I : Nat} (t : Target) (hI : 0 < I) (cs : List (Vec T I)) (F B D : List T) :
    (chunkLen t I).run (mkIt F (flat cs) B D) = (.ok cs.length, mkIt F (flat cs) B D) := by
  unfold chunkLen
  rw [StM.run_bind_ok (len_mk t F (flat cs) B D), if_neg (by omega), flat_length, Nat.mul_div_cancel _ hI]
  rfl

theorem chunkRun_cons_ok {I : Nat} (t : Target) (c : ChunkCall) (h : List ChunkCall) (s s' : OwnIt T) (o : Out (Vec T I))
    (hc : (chunkCall t I c).run s = (.ok o, s')) :
    chunkRun t I (c :: h) s = (o :: (chunkRun t I h s').1, (chunkRun t I h s').2) := by
  rw [chunkRun, hc]

theorem chunkRun_eq {I : Nat} (t : Target) (hI : 0 < I) (h : List ChunkCall) (cs : List (Vec T I)) (F B D : List T)
    (hW : F.length + cs.length * I < t.W) :
    ∃ F' B', chunkRun t I h (mkIt F (flat cs) B D) =
      ((chunkQueue cs h).1, mkIt F' (flat (chunkQueue cs h).2) B' D) := by
  induction h generalizing cs F B with
  | nil => exact ⟨F, B, rfl⟩
  | cons c h ih =>
    cases c with
    | next =>
      cases cs with
      | nil =>
        rw [chunkRun_cons_ok t .next h _ _ _ (by rw [chunkCall, StM.run_map, show flat ([] : List (Vec T I)) = [] from rfl, chunkNext_nil])]
        obtain ⟨F', B', h1⟩ := ih [] F B hW
        exact ⟨F', B', by rw [show mkIt F [] B D = mkIt F (flat ([] : List (Vec T I))) B D from rfl, h1]; rfl⟩
      | cons v cs =>
        have hl : F.length + I + cs.length * I < t.W := by
          rw [List.length_cons, Nat.add_mul, Nat.one_mul] at hW; omega
        have h0 := chunkNext_cons t hI v (flat cs) F B D (by omega)
        rw [chunkRun_cons_ok t .next h (mkIt F (flat (v :: cs)) B D) _ _ (by
          rw [chunkCall, StM.run_map, show flat (v :: cs) = v.toList ++ flat cs from rfl, h0])]
        obtain ⟨F', B', h1⟩ := ih cs (F ++ v.toList) B (by rw [List.length_append, v.length_eq]; omega)
        exact ⟨F', B', by rw [h1]; rfl⟩
    | nextBack =>
      rcases List.eq_nil_or_concat cs with rfl | ⟨cs, v, rfl⟩
      · rw [chunkRun_cons_ok t .nextBack h _ _ _ (by rw [chunkCall, StM.run_map, show flat ([] : List (Vec T I)) = [] from rfl, chunkNextBack_nil])]
        obtain ⟨F', B', h1⟩ := ih [] F B hW
        exact ⟨F', B', by rw [show mkIt F [] B D = mkIt F (flat ([] : List (Vec T I))) B D from rfl, h1]; rfl⟩
      · rw [List.concat_eq_append] at hW ⊢
        have h0 := chunkNextBack_snoc t hI v (flat cs) F B D
        have e : flat (cs ++ [v]) = flat cs ++ v.toList := by simp [flat]
        rw [chunkRun_cons_ok t .nextBack h (mkIt F (flat (cs ++ [v])) B D) _ _ (by
          rw [chunkCall, StM.run_map, e, h0])]
        obtain ⟨F', B', h1⟩ := ih cs F (v.toList ++ B) (by
          rw [List.length_append, List.length_singleton, Nat.add_mul, Nat.one_mul] at hW; omega)
        exact ⟨F', B', by rw [h1]; simp [chunkQueue, chunkStep]⟩
    | len =>
      rw [chunkRun_cons_ok t .len h _ _ _ (by rw [chunkCall, StM.run_map, chunkLen_mk t hI])]
      obtain ⟨F', B', h1⟩ := ih cs F B hW
      exact ⟨F', B', by rw [h1]; rfl⟩

end OwnIt

theorem flat_chunksOf (I : Nat) (v : Vec T n) (hI : I ∣ n) : OwnIt.flat (chunksOf I v hI) = v.toList := by
  have hn : n / I * I = n := Nat.div_mul_cancel hI
  apply List.ext_getElem
  · rw [OwnIt.flat_length, v.length_eq]; simp [chunksOf, hn]
  · intro k h1 h2
    have e : OwnIt.flat (chunksOf I v hI) = List.ofFn fun k : Fin (n / I * I) => v.get ⟨k, by omega⟩ := by
      rw [List.ofFn_mul]
      simp only [OwnIt.flat, chunksOf, List.map_ofFn]
      rfl
    simp only [e, List.getElem_ofFn]
    rfl

/-- C12: for any interleaving of `next()`, `next_back()` and `len()`, `v.into_chunks::<I>()` answers as a double-ended
queue of the `n / I` consecutive chunks of `v` does; it never panics and commits no invalid access; dropping it then
drops exactly the elements of the chunks that are left, in order. -/
theorem C12_chunks (t : Target) (I : Nat) (hI : 0 < I) (hd : I ∣ n) (v : Vec T n) (hn : n < t.W) (h : List ChunkCall) :
    (OwnIt.chunkRun t I h (OwnIt.intoIter v)).1 = (chunkQueue (chunksOf I v hd) h).1 ∧
    (OwnIt.chunkRun t I h (OwnIt.intoIter v)).2.mem.viols = [] ∧
    ((OwnIt.dropOp fun _ => false).run (OwnIt.chunkRun t I h (OwnIt.intoIter v)).2).2.mem.drops =
      ((chunkQueue (chunksOf I v hd) h).2.map Vec.toList).flatten ∧
    ((OwnIt.dropOp fun _ => false).run (OwnIt.chunkRun t I h (OwnIt.intoIter v)).2).2.mem.viols = [] := by
  obtain ⟨F', B', h1⟩ := OwnIt.chunkRun_eq t hI h (chunksOf I v hd) [] [] [] (by
    simp only [chunksOf, List.length_ofFn, Nat.div_mul_cancel hd, List.length_nil, Nat.zero_add]; exact hn)
  rw [OwnIt.intoIter_mk, ← flat_chunksOf I v hd, h1]
  refine ⟨rfl, rfl, ?_, ?_⟩
  · rw [OwnIt.drop_ok _ _ _ _ _ (by simp)]; simp [mkMem, OwnIt.flat]
  · rw [OwnIt.drop_ok _ _ _ _ _ (by simp)]; rfl

/-- C12: `into_chunks::<I>()` starts with `n / I` chunks, and chunk `c` holds `v[c*I .. c*I+I]`. -/
theorem C12_chunk_contents (I : Nat) (hd : I ∣ n) (v : Vec T n) :
    (chunksOf I v hd).length = n / I ∧
    ∀ (c : Nat) (hc : c < (chunksOf I v hd).length) (i : Fin I), c * I + i < n ∧
      v.toList[c * I + i]? = some (((chunksOf I v hd)[c]).get i) := by
  refine ⟨by simp [chunksOf], fun c hc i => ?_⟩
  have hlt : c * I + i < n := by
    have h0 : c < n / I := by simpa [chunksOf] using hc
    have h1 : (c + 1) * I ≤ (n / I) * I := Nat.mul_le_mul_right I h0
    rw [Nat.div_mul_cancel hd, Nat.add_mul, Nat.one_mul] at h1
    have := i.isLt; omega
  refine ⟨hlt, ?_⟩
  rw [List.getElem?_eq_getElem (by rw [v.length_eq]; exact hlt)]
  simp [chunksOf, Vec.get]

/-- C12, the border `I = 0`: the only vector into whose chunks of length 0 one could ask for is the empty one (the bound
`N % I = 0` holds for no other `N`; whether typenum defines `0 % 0` is up to typenum).  Its chunks run out at once, from both
ends, and `len()` always panics, dividing by zero; nothing is read or dropped. -/
theorem C12_zero (t : Target) (v : Vec T 0) (h : List ChunkCall) :
    (OwnIt.chunkRun t 0 h (OwnIt.intoIter v)).1 =
      h.map (fun | .len => .fault .panic | .next => .item none | .nextBack => .item none) ∧
    (OwnIt.chunkRun t 0 h (OwnIt.intoIter v)).2.mem.viols = [] ∧
    (OwnIt.chunkRun t 0 h (OwnIt.intoIter v)).2.mem.drops = [] := by
  have hv : v.toList = [] := List.eq_nil_of_length_eq_zero v.length_eq
  have key : OwnIt.chunkRun t 0 h (mkIt (T := T) [] [] [] []) =
      (h.map (fun | .len => .fault .panic | .next => .item none | .nextBack => .item none), mkIt [] [] [] []) := by
    induction h with
    | nil => rfl
    | cons c h ih =>
      cases c with
      | next =>
        have e : (OwnIt.chunkCall t 0 .next).run (mkIt (T := T) [] [] [] []) = (.ok (.item none), mkIt [] [] [] []) := by
          unfold OwnIt.chunkCall; rw [StM.run_map, OwnIt.chunkNext_nil]
        rw [OwnIt.chunkRun_cons_ok t _ _ _ _ _ e, ih]; rfl
      | nextBack =>
        have e : (OwnIt.chunkCall t 0 .nextBack).run (mkIt (T := T) [] [] [] []) = (.ok (.item none), mkIt [] [] [] []) := by
          unfold OwnIt.chunkCall; rw [StM.run_map, OwnIt.chunkNextBack_nil]
        rw [OwnIt.chunkRun_cons_ok t _ _ _ _ _ e, ih]; rfl
      | len =>
        have e : (OwnIt.chunkCall t 0 .len).run (mkIt (T := T) [] [] [] []) = (.error .panic, mkIt [] [] [] []) := by
          unfold OwnIt.chunkCall OwnIt.chunkLen
          rw [StM.run_map, StM.run_bind_ok (OwnIt.len_mk t [] [] [] []), if_pos rfl]; rfl
        rw [OwnIt.chunkRun, e]
        simp only [ih]; rfl
  rw [OwnIt.intoIter_mk, hv, key]
  exact ⟨rfl, rfl, rfl⟩

example : (OwnIt.chunkRun ⟨true, true, 2 ^ 64⟩ 2 [.nextBack, .len, .next, .next, .nextBack, .len]
      (OwnIt.intoIter (⟨[1, 2, 3, 4], rfl⟩ : Vec Nat 4))).1.length = 6 ∧ 2 ∣ 4 ∧ 0 < 2 := by decide

/-! ## C40 -/

theorem fill_chunks {c : Nat} (t : Target) (hc : 0 < c) (fuel : Nat) (cs : List (Vec T c)) (F D : List T)
    (hW : F.length + cs.length * c < t.W) :
    (Vec.fill (OwnIt.chunkIter t c fuel) cs.length ()).run (mkIt F (OwnIt.flat cs) [] D) =
      (.ok (⟨cs, rfl⟩, ()), mkIt (F ++ OwnIt.flat cs) [] [] D) := by
  induction cs generalizing F with
  | nil => simp [Vec.fill, Vec.nil, OwnIt.flat]
  | cons v cs ih =>
    have hl : F.length + c + cs.length * c < t.W := by
      rw [List.length_cons, Nat.add_mul, Nat.one_mul] at hW; omega
    simp only [List.length_cons]
    rw [Vec.fill]
    have h1 : ((OwnIt.chunkIter t c fuel).next ()).run (mkIt F (OwnIt.flat (v :: cs)) [] D) =
        (.ok (some v, ()), mkIt (F ++ v.toList) (OwnIt.flat cs) [] D) := by
      change (OwnIt.chunkNext t c >>= fun o => pure (o, ())).run _ = _
      rw [show OwnIt.flat (v :: cs) = v.toList ++ OwnIt.flat cs from rfl,
        StM.run_bind_ok (OwnIt.chunkNext_cons t hc v (OwnIt.flat cs) F [] D (by omega))]
      rfl
    rw [StM.run_bind_ok h1]
    simp only
    rw [StM.run_bind_ok (ih (F ++ v.toList) (by rw [List.length_append, v.length_eq]; omega))]
    simp [Vec.cons, OwnIt.flat]

/-- What `Matrix::from(v)` does, including the state of the chunk iterator at its end. -/
theorem fromVector_run {r c : Nat} (t : Target) (hc : 0 < c) (v : Vec T (r * c)) (hn : r * c < t.W) (hd : c ∣ r * c)
    (hlen : (chunksOf c v hd).length = r) :
    Mat.fromVector t v = (.ok ⟨⟨chunksOf c v hd, hlen⟩⟩, mkIt v.toList [] [] []) := by
  have hf := fill_chunks t hc (r * c + 1) (chunksOf c v hd) [] [] (by rw [hlen]; simpa using hn)
  rw [flat_chunksOf, List.nil_append] at hf
  have hf' : (Vec.fill (OwnIt.chunkIter t c (r * c + 1)) r ()).run (mkIt [] v.toList [] []) =
      (.ok (⟨chunksOf c v hd, hlen⟩, ()), mkIt v.toList [] [] []) := by
    have e : ∀ (k : Nat) (h : (chunksOf c v hd).length = k),
        (Vec.fill (OwnIt.chunkIter t c (r * c + 1)) k ()).run (mkIt [] v.toList [] []) =
        (.ok (⟨chunksOf c v hd, h⟩, ()), mkIt v.toList [] [] []) := by
      intro k h; subst h; exact hf
    exact e r hlen
  have hi : (Vec.fromIter t r (OwnIt.chunkIter t c (r * c + 1)) ()).run (mkIt [] v.toList [] []) =
      (.ok ⟨chunksOf c v hd, hlen⟩, mkIt v.toList [] [] []) := by
    unfold Vec.fromIter
    rw [StM.run_bind_ok hf']
    simp only
    cases t.debugAssertions
    · rfl
    · simp only [if_true]
      have h3 : ((OwnIt.chunkIter t c (r * c + 1)).count ()).run (mkIt v.toList [] [] []) =
          (.ok 0, mkIt v.toList [] [] []) := by
        change (OwnIt.chunkIter.go t c (r * c + 1)).run _ = _
        rw [OwnIt.chunkIter.go, StM.run_bind_ok (OwnIt.chunkNext_nil t c _ _ _)]; rfl
      rw [StM.run_bind_ok h3]; rfl
  unfold Mat.fromVector
  rw [OwnIt.intoIter_mk, StM.run_bind_ok hi]; rfl

/-- C40: `Matrix::from(v)` never panics, entry `(i, j)` is `v[i * c + j]`; every element is moved into the matrix: none
is dropped and no invalid access happens. -/
theorem C40_from_vector {r c : Nat} (t : Target) (hc : 0 < c) (v : Vec T (r * c)) (hn : r * c < t.W) :
    ∃ a : Mat T r c, (Mat.fromVector t v).1 = .ok a ∧
      (∀ (i : Fin r) (j : Fin c), v.toList[i * c + j]? = some (a.get i j)) ∧
      (Mat.fromVector t v).2.mem.viols = [] ∧ (Mat.fromVector t v).2.mem.drops = [] := by
  have hd : c ∣ r * c := ⟨r, Nat.mul_comm _ _⟩
  have hlen : (chunksOf c v hd).length = r := by
    rw [(C12_chunk_contents c hd v).1, Nat.mul_div_cancel _ hc]
  refine ⟨⟨⟨chunksOf c v hd, hlen⟩⟩, ?_⟩
  rw [fromVector_run t hc v hn hd hlen]
  refine ⟨rfl, fun i j => ?_, rfl, rfl⟩
  rw [((C12_chunk_contents c hd v).2 i (by rw [hlen]; exact i.isLt) j).2]
  rfl

/-- C40, the border `c = 0` (if the bound `0 % 0 = 0` type-checks at all): a matrix of rows without elements is not built,
except the one without rows; `from` panics in every build, without an invalid access. -/
theorem C40_no_columns {r : Nat} (t : Target) (v : Vec T (r * 0)) :
    (Mat.fromVector t v).1 = (if h : r = 0 then .ok ⟨⟨[], h.symm⟩⟩ else .error .panic) ∧
    (Mat.fromVector t v).2.mem.viols = [] ∧ (Mat.fromVector t v).2.mem.drops = [] := by
  have hv : v.toList = [] := List.eq_nil_of_length_eq_zero v.length_eq
  have hn : ((OwnIt.chunkIter t 0 (r * 0 + 1)).next ()).run (mkIt (T := T) [] [] [] []) = (.ok (none, ()), mkIt [] [] [] []) := by
    change (OwnIt.chunkNext t 0 >>= fun o => pure (o, ())).run _ = _
    rw [StM.run_bind_ok (OwnIt.chunkNext_nil t 0 _ _ _)]; rfl
  have hc : ((OwnIt.chunkIter t 0 (r * 0 + 1)).count ()).run (mkIt (T := T) [] [] [] []) = (.ok 0, mkIt [] [] [] []) := by
    change (OwnIt.chunkIter.go t 0 (r * 0 + 1)).run _ = _
    rw [OwnIt.chunkIter.go, StM.run_bind_ok (OwnIt.chunkNext_nil t 0 _ _ _)]; rfl
  unfold Mat.fromVector
  rw [OwnIt.intoIter_mk, hv]
  cases r with
  | zero =>
    rw [dif_pos rfl]
    have hi : (Vec.fromIter t 0 (OwnIt.chunkIter t 0 (0 * 0 + 1)) ()).run (mkIt (T := T) [] [] [] []) =
        (.ok ⟨[], rfl⟩, mkIt [] [] [] []) := by
      unfold Vec.fromIter
      rw [StM.run_bind_ok (by simp [Vec.fill]; rfl)]
      simp only
      cases t.debugAssertions
      · rfl
      · simp only [if_true]
        rw [StM.run_bind_ok hc]; rfl
    rw [StM.run_bind_ok hi]
    exact ⟨rfl, rfl, rfl⟩
  | succ r =>
    rw [dif_neg (by omega)]
    have hi : (Vec.fromIter t (r + 1) (OwnIt.chunkIter t 0 ((r + 1) * 0 + 1)) ()).run (mkIt (T := T) [] [] [] []) =
        (.error .panic, mkIt [] [] [] []) := by
      unfold Vec.fromIter
      have hf : (Vec.fill (OwnIt.chunkIter t 0 ((r + 1) * 0 + 1)) (r + 1) ()).run (mkIt (T := T) [] [] [] []) =
          (.error .panic, mkIt [] [] [] []) := by
        rw [Vec.fill, StM.run_bind_ok hn]; rfl
      rw [StM.run_bind_error hf]
    rw [StM.run_bind_error hi]
    exact ⟨rfl, rfl, rfl⟩

example (t : Target) : (Mat.fromVector (r := 2) (c := 0) t (⟨[], rfl⟩ : Vec Nat (2 * 0))).1 = .error .panic := (C40_no_columns t _).1

end Rowcol
