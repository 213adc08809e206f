import Verif.Model.Unwind
import Verif.Props.OwnerRefine
import Verif.Props.OwnExact

/-! # C110: whole programs that own elements whose destructors may panic -/

namespace Rowcol
open Spec
namespace Owner

variable {k : Nat}

namespace Spec

/-- The calls that C77 shows to be misuse are avoided (`Proper`), and so are the two calls that mishandle a panicking destructor
(`C110_short_collect`, `C110_nth_skips`): a collection that comes to its end too early having received an element whose destructor
panics, and an `nth` that skips one. -/
def ProperU (boom : Nat → Bool) (t : Target) (σ : State k) : Stmt k → Prop
  | .collect x n src => Proper t σ (.collect x n src) ∧
      (src.length < n → false ∉ src → ∀ e, σ.world.fresh ≤ e → e < σ.world.fresh + src.length → boom e = false)
  | .gather x y n => Proper t σ (.gather x y n) ∧
      (x ≠ y → ∀ s, σ.vars x = .iter s → (slotElems s.mem.slots).length < n → ∀ e ∈ slotElems s.mem.slots, boom e = false)
  | .nth x y i => x ≠ y → ∀ s, σ.vars x = .iter s →
      (i ≤ (slotElems s.mem.slots).length ∧ ∀ e ∈ (slotElems s.mem.slots).take i, boom e = false) ∨
      (t.overflowChecks = true ∧ t.W ≤ s.next + i)
  | p => Proper t σ p

/-- Every call of the program's run is proper; after an abort there are no more calls. -/
def CarefulU (boom : Nat → Bool) (t : Target) : List (Stmt k) → State k → Prop
  | [], _ => True
  | p :: ps, σ => ProperU boom t σ p ∧
      ((execU boom t p σ).1 = .ok ∨ (execU boom t p σ).1 = .panic → CarefulU boom t ps (execU boom t p σ).2)

end Spec

open Spec

/-! ## Destroying lists of elements -/

theorem through_spec (boom : Nat → Bool) (l : List Nat) :
    ∃ d, l = through boom l ++ d ∧ (l.any boom = false → d = []) := by
  induction l with
  | nil => exact ⟨[], rfl, fun _ => rfl⟩
  | cons x l ih =>
    obtain ⟨d, h1, h2⟩ := ih
    rw [through]
    cases hx : boom x with
    | true => exact ⟨l, by simp, fun h => by simp [hx] at h⟩
    | false =>
      refine ⟨d, ?_, fun h => h2 (by simpa [hx] using h)⟩
      simp only [Bool.false_eq_true, if_false, List.cons_append, ← h1]

theorem through_all {boom : Nat → Bool} {l : List Nat} (h : l.any boom = false) : through boom l = l := by
  obtain ⟨d, h1, h2⟩ := through_spec boom l
  rw [h2 h, List.append_nil] at h1
  exact h1.symm

theorem arrayDrop_spec (boom : Nat → Bool) (l : List Nat) :
    ∃ d, l = (arrayDrop boom l).2 ++ d ∧ (arrayDrop boom l).1 ≠ .ub ∧ ((arrayDrop boom l).1 ≠ .abort → d = []) ∧
      ((arrayDrop boom l).1 = .ok ↔ l.any boom = false) := by
  induction l with
  | nil => exact ⟨[], rfl, by simp [arrayDrop], fun _ => rfl, by simp [arrayDrop]⟩
  | cons x l ih =>
    rw [arrayDrop]
    cases hx : boom x with
    | true =>
      obtain ⟨d, h1, h2⟩ := through_spec boom l
      refine ⟨d, ?_, ?_, fun h => ?_, ?_⟩
      · simp only [if_true, List.cons_append, ← h1]
      · simp only [if_true]; split <;> simp
      · apply h2
        simp only [if_true] at h
        cases hb : l.any boom with
        | false => rfl
        | true => rw [hb] at h; simp at h
      · simp only [if_true, List.any_cons, hx, Bool.true_or, Bool.true_eq_false, iff_false]
        split <;> simp
    | false =>
      obtain ⟨d, h1, h2, h3, h4⟩ := ih
      refine ⟨d, ?_, ?_, ?_, ?_⟩
      · simp only [Bool.false_eq_true, if_false, List.cons_append, ← h1]
      · simpa using h2
      · simpa using h3
      · simpa [hx] using h4

/-- The first element whose destructor panics. -/
theorem first_boom (boom : Nat → Bool) (l : List Nat) :
    (∀ x ∈ l, boom x = false) ∨ ∃ p x q, l = p ++ x :: q ∧ (∀ y ∈ p, boom y = false) ∧ boom x = true := by
  induction l with
  | nil => exact .inl (by simp)
  | cons a l ih =>
    cases ha : boom a with
    | true => exact .inr ⟨[], a, l, rfl, by simp, ha⟩
    | false =>
      rcases ih with h | ⟨p, x, q, rfl, h1, h2⟩
      · exact .inl (by simpa [ha] using h)
      · exact .inr ⟨a :: p, x, q, rfl, by simpa [ha] using h1, h2⟩

theorem dropIt_spec (boom : Nat → Bool) (F q B : List Nat) :
    ∃ d, q = ((OwnIt.dropOp boom).run (mkIt F q B [])).2.mem.drops ++ d ∧
      ((OwnIt.dropOp boom).run (mkIt F q B [])).2.mem.viols = [] ∧
      ((((OwnIt.dropOp boom).run (mkIt F q B [])).1 = .ok () ∧ d = []) ∨
        ((OwnIt.dropOp boom).run (mkIt F q B [])).1 = .error .panic) := by
  rcases first_boom boom q with h | ⟨p, x, q, rfl, h1, h2⟩
  · rw [OwnIt.drop_ok boom F q B [] h]
    exact ⟨[], by simp [mkMem], rfl, .inl ⟨rfl, rfl⟩⟩
  · rw [OwnIt.drop_panic boom F p x q B [] h1 h2]
    exact ⟨q, by simp [mkMem], rfl, .inr rfl⟩

theorem destroyed_wf (boom : Nat → Bool) {t : Target} {o : Obj} (h : WF t o) :
    ∃ d, owns o = (o.destroyed boom).2.1 ++ d ∧ (o.destroyed boom).2.2 = [] ∧ (o.destroyed boom).1 ≠ .ub ∧
      ((o.destroyed boom).1 = .ok → d = []) := by
  match o, h with
  | .none, _ => exact ⟨[], rfl, rfl, by simp [Obj.destroyed], fun _ => rfl⟩
  | .elem x, _ => exact ⟨[], rfl, rfl, by simp only [Obj.destroyed]; split <;> simp, fun _ => rfl⟩
  | .vec _ v, _ =>
    obtain ⟨d, h1, h2, h3, -⟩ := arrayDrop_spec boom v.toList
    exact ⟨d, h1, rfl, h2, fun h => h3 (by rw [show (arrayDrop boom v.toList).1 = .ok from h]; simp)⟩
  | .mat _ _ a, _ =>
    obtain ⟨d, h1, h2, h3, -⟩ := arrayDrop_spec boom (a.rows.toList.map Vec.toList).flatten
    exact ⟨d, h1, rfl, h2, fun h => h3 (by rw [show (arrayDrop boom _).1 = .ok from h]; simp)⟩
  | .iter s, ⟨F, q, B, hs, _⟩ =>
    subst hs
    obtain ⟨d, h1, h2, h3⟩ := dropIt_spec boom F q B
    refine ⟨d, by simp only [owns, slotElems_mk]; exact h1, h2, ?_⟩
    simp only [Obj.destroyed]
    rcases h3 with ⟨h3, h4⟩ | h3
    · rw [h3]; exact ⟨by simp [endOf], fun _ => h4⟩
    · rw [h3]; exact ⟨by simp [endOf, Fault.toEnd], by simp [endOf, Fault.toEnd]⟩
  | .chunks I s, ⟨_, F, B, cs, hs, _⟩ =>
    subst hs
    obtain ⟨d, h1, h2, h3⟩ := dropIt_spec boom F (OwnIt.flat cs) B
    refine ⟨d, by simp only [owns, slotElems_mk]; exact h1, h2, ?_⟩
    simp only [Obj.destroyed]
    rcases h3 with ⟨h3, h4⟩ | h3
    · rw [h3]; exact ⟨by simp [endOf], fun _ => h4⟩
    · rw [h3]; exact ⟨by simp [endOf, Fault.toEnd], by simp [endOf, Fault.toEnd]⟩

/-! ## Statements -/

/-- The conclusion for one statement. -/
def FineU (t : Target) (lk : List Nat) (r : End × State k) : Prop :=
  r.1 ≠ .ub ∧ ∃ lk', Good t r.2 lk' [] ∧ (r.1 = .ok → lk' = lk)

variable {boom : Nat → Bool} {t : Target} {σ : State k} {lk : List Nat}

theorem FineU.same (h : Good t σ lk []) : FineU t lk (.ok, σ) := ⟨by simp, lk, h, fun _ => rfl⟩

theorem FineU.bad {e : End} {lk' : List Nat} (he : e ≠ .ub) (he' : e ≠ .ok) (h : Good t σ lk' []) : FineU t lk (e, σ) :=
  ⟨he, lk', h, fun h => absurd h he'⟩

theorem putU_fine {pend : List Nat} (h : Good t σ lk pend) (x : Fin k) (o : Obj) (ho : WF t o)
    (hp : ∀ e, pend.count e = (owns o).count e) : FineU t lk (σ.putU boom x o) := by
  obtain ⟨d, h1, h2, h3, h4⟩ := destroyed_wf boom (h.wf x)
  have hs := h.store x o ho (pend' := owns (σ.vars x)) fun e => by rw [hp]
  have hw := hs.world (w := σ.world.log ((σ.vars x).destroyed boom).2.1 []) (pend' := d ++ []) (Bal.log σ.world _) fun e => by
    rw [h1]; simp only [List.count_append, List.count_nil]; omega
  refine ⟨h3, d ++ lk, ?_, fun h => by rw [h4 h]; rfl⟩
  have := hw.leak
  rw [State.putU, h2]
  exact this

/-- What an element operation given the elements `inp` does, in all cases; what it loses when it panics is leaked. -/
def FairU {X : Type} (inp : X → List Nat) (g : X → StM EWorld Nat) : Prop :=
  ∀ x s, (∃ z s', (g x).run s = (.ok z, s') ∧ Bal s.1 s'.1 (inp x) [z]) ∨
    (∃ s' l, (g x).run s = (.error .panic, s') ∧ Bal s.1 s'.1 (inp x) l)

theorem Beh.fairU (boom : Nat → Bool) (f : Nat × Nat → Beh) {Y : Type} (pos : Y → Nat × Nat) :
    FairU (fun p : Nat × Y => [p.1]) (fun p => (f (pos p.2)).actU boom p.1) := by
  rintro ⟨x, y⟩ s
  simp only
  cases f (pos y) with
  | keep => exact .inl ⟨x, s, rfl, Bal.refl _ _⟩
  | replace =>
    cases hx : boom x with
    | true =>
      refine .inr ⟨s.drop [x] false, [], ?_, fun e => ?_, rfl⟩
      · show (if boom x = true then _ else _) = _
        rw [hx]; rfl
      · simp only [EWorld.drop, List.count_append, List.count_nil]; omega
    | false =>
      refine .inl ⟨s.1.fresh, ({ s.1 with dropped := s.1.dropped ++ [x], fresh := s.1.fresh + 1 }, s.2), ?_, fun e => ?_, rfl⟩
      · show (if boom x = true then _ else _) = _
        rw [hx]; rfl
      · simp only [ind_succ, List.count_append]; omega
  | panic =>
    refine .inr ⟨_, [], rfl, fun e => ?_, rfl⟩
    simp only [EWorld.drop, List.count_append, List.count_nil]; omega

theorem Beh2.fairU (boom : Nat → Bool) (f : Nat → Beh2) :
    FairU (fun p : Nat × Nat => [p.1, p.2]) (fun p => (f p.1).actU boom p.1 p.2) := by
  rintro ⟨x, y⟩ s
  simp only
  cases f x with
  | left =>
    cases hy : boom y with
    | true =>
      refine .inr ⟨s.drop [y, x] (boom x), [], ?_, fun e => ?_, rfl⟩
      · show (if boom y = true then _ else _) = _
        rw [hy]; rfl
      · simp only [EWorld.drop, List.count_append, List.count_cons, List.count_nil]; omega
    | false =>
      refine .inl ⟨x, s.drop [y] s.2, ?_, fun e => ?_, rfl⟩
      · show (if boom y = true then _ else _) = _
        rw [hy]; rfl
      · simp only [EWorld.drop, List.count_append, List.count_cons, List.count_nil]; omega
  | right =>
    cases hx : boom x with
    | true =>
      refine .inr ⟨s.drop [x, y] (boom y), [], ?_, fun e => ?_, rfl⟩
      · show (if boom x = true then _ else _) = _
        rw [hx]; rfl
      · simp only [EWorld.drop, List.count_append, List.count_cons, List.count_nil]; omega
    | false =>
      refine .inl ⟨y, s.drop [x] s.2, ?_, fun e => ?_, rfl⟩
      · show (if boom x = true then _ else _) = _
        rw [hx]; rfl
      · simp only [EWorld.drop, List.count_append, List.count_cons, List.count_nil]; omega
  | replace =>
    cases hx : boom x with
    | true =>
      refine .inr ⟨s.drop [x, y] (boom y), [], ?_, fun e => ?_, rfl⟩
      · show (if boom x = true then _ else _) = _
        rw [hx]; rfl
      · simp only [EWorld.drop, List.count_append, List.count_cons, List.count_nil]; omega
    | false =>
      cases hy : boom y with
      | true =>
        refine .inr ⟨s.drop [x, y] false, [], ?_, fun e => ?_, rfl⟩
        · show (if boom x = true then _ else if boom y = true then _ else _) = _
          rw [hx, hy]; rfl
        · simp only [EWorld.drop, List.count_append, List.count_cons, List.count_nil]; omega
      | false =>
        refine .inl ⟨s.1.fresh, ({ s.1 with dropped := s.1.dropped ++ [x, y], fresh := s.1.fresh + 1 }, s.2), ?_, fun e => ?_, rfl⟩
        · show (if boom x = true then _ else if boom y = true then _ else _) = _
          rw [hx, hy]; rfl
        · simp only [ind_succ, List.count_append, List.count_cons, List.count_nil]; omega
  | panic =>
    obtain ⟨d, h1, -⟩ := through_spec boom [y, x]
    refine .inr ⟨_, d, rfl, fun e => ?_, rfl⟩
    have h2 := congrArg (List.count e) h1
    simp only [EWorld.drop, List.count_append, List.count_cons, List.count_nil] at h2 ⊢; omega

theorem BehA.fairU (boom : Nat → Bool) (f : BehA) (a b : Nat) (s : EWorld) :
    (f.actU boom a b s).1 ≠ .error .ub ∧ Bal s.1 (f.actU boom a b s).2.2.1 [a, b] [(f.actU boom a b s).2.1] := by
  cases f <;> refine ⟨by simp only [BehA.actU]; (try split) <;> simp, fun e => ?_, rfl⟩ <;>
    simp only [BehA.actU, EWorld.drop, ind_succ, List.count_append, List.count_cons, List.count_nil] <;> omega

theorem handOver_balU {X : Type} {inp : X → List Nat} {g : X → StM EWorld Nat} (hg : FairU inp g) (xs : List X) (s : EWorld) :
    (∃ zs s', handOver g xs s = (.ok zs, s', []) ∧ zs.length = xs.length ∧ Bal s.1 s'.1 (xs.flatMap inp) zs) ∨
    (∃ s' rest l, handOver g xs s = (.error .panic, s', rest) ∧ Bal s.1 s'.1 (xs.flatMap inp) (l ++ rest.flatMap inp)) := by
  induction xs generalizing s with
  | nil => exact .inl ⟨[], s, rfl, rfl, Bal.refl _ _⟩
  | cons x xs ih =>
    rcases hg x s with ⟨z, w1, h1, b1⟩ | ⟨w1, l1, h1, b1⟩
    · rcases ih w1 with ⟨zs, w2, h2, hl, b2⟩ | ⟨w2, rest, l, h2, b2⟩
      · refine .inl ⟨z :: zs, w2, ?_, by simp [hl], ?_⟩
        · rw [handOver, h1]; simp only [h2]
        · exact b1.trans b2
      · refine .inr ⟨w2, rest, z :: l, ?_, ?_⟩
        · rw [handOver, h1]; simp only [h2]
        · have := b1.trans b2
          simpa using this
    · refine .inr ⟨w1, xs, l1, ?_, ?_⟩
      · rw [handOver, h1]
      · exact b1.trans (Bal.refl w1.1 (xs.flatMap inp))

theorem assignAll_balU (boom : Nat → Bool) (f : Nat → BehA) (ps : List (Nat × Nat)) (s : EWorld) :
    let r := assignAll (fun e e' => (f e').actU boom e e') ps s
    r.1 ≠ .error .ub ∧ r.2.1.length = ps.length ∧ Bal s.1 r.2.2.1.1 (ps.flatMap fun p => [p.1, p.2]) (r.2.1 ++ r.2.2.2) ∧
      (r.1 = .ok () → r.2.2.2 = []) := by
  induction ps generalizing s with
  | nil => exact ⟨by simp [assignAll], rfl, Bal.refl _ _, fun _ => rfl⟩
  | cons p ps ih =>
    obtain ⟨h1, b1⟩ := BehA.fairU boom (f p.2) p.1 p.2 s
    rw [assignAll]
    rcases hr : (f p.2).actU boom p.1 p.2 s with ⟨r, a, w1⟩
    rw [hr] at h1 b1
    simp only at h1 b1
    cases r with
    | error e =>
      refine ⟨by simpa using h1, by simp, ?_, by simp⟩
      refine (b1.trans (Bal.refl w1.1 (ps.flatMap fun p => [p.1, p.2]))).weaken (fun _ => rfl) fun e => ?_
      simp only [List.count_append, List.count_cons, List.count_nil, count_pairs]; omega
    | ok u =>
      obtain ⟨h2, hl, b2, h3⟩ := ih w1
      simp only
      rcases hs : assignAll (fun e e' => (f e').actU boom e e') ps w1 with ⟨r, as, w2, rest⟩
      rw [hs] at h2 hl b2 h3
      refine ⟨h2, by simpa using hl, ?_, h3⟩
      exact b1.trans b2

/-- After a panic: what unwinding destroys, and what is leaked. -/
theorem unwound_spec (s : EWorld) (d : List Nat) :
    (unwound boom s .panic d []).1 ≠ .ub ∧ (unwound boom s .panic d []).1 ≠ .ok ∧
      ∃ l, Bal s.1 (unwound boom s .panic d []).2 d l := by
  unfold unwound
  simp only
  split
  · exact ⟨by simp, by simp, d, Bal.refl _ _⟩
  · obtain ⟨l, h1, -⟩ := through_spec boom d
    refine ⟨by split <;> simp, by split <;> simp, l, fun e => ?_, by simp [World.log]⟩
    have h2 := congrArg (List.count e) h1
    simp only [World.log, List.count_append] at h2 ⊢; omega

theorem unwound_fine {pend ins outs l d : List Nat} (g : Good t σ lk pend) (s : EWorld) (hb : Bal σ.world s.1 ins outs)
    (hp : ∀ e, pend.count e + outs.count e = ins.count e + (l ++ d).count e) :
    FineU t lk ((unwound boom s .panic d []).1, { σ with world := (unwound boom s .panic d []).2 }) := by
  obtain ⟨h1, h2, l', h3⟩ := unwound_spec (boom := boom) s d
  have g2 := g.world (w := (unwound boom s .panic d []).2) (pend' := (l ++ l') ++ []) (hb.trans h3) fun e => by
    have := hp e
    simp only [List.count_append, List.count_nil] at this ⊢; omega
  exact .bad h1 h2 g2.leak

theorem fineU_map (h : Good t σ lk []) (x y : Fin k) (f : Nat × Nat → Beh) : FineU t lk (execU boom t (.map x y f) σ) := by
  have hw := h.wf x
  cases hx : σ.vars x with
  | none => simp only [execU, hx]; exact .same h
  | elem e => simp only [execU, hx]; exact .same h
  | iter s => simp only [execU, hx]; exact .same h
  | chunks I s => simp only [execU, hx]; exact .same h
  | vec n v =>
    rw [hx] at hw
    have hn : n < t.W := hw
    have g1 : Good t (σ.store x .none) lk v.toList := h.store x .none trivial fun e => by simp [hx, owns]
    obtain ⟨h1, h2, h3⟩ := C78_vector t (fun i e => (f (i, 0)).actU boom e) v (σ.world, false) hn
    have hlen := consume_length t hn (fun i e => (f (i, 0)).actU boom e) v (σ.world, false)
    simp only [execU, hx]
    rcases hc : OwnIt.consume t (fun i e => (f (i, 0)).actU boom e) v (σ.world, false) with ⟨res, s, it⟩
    rw [hc] at h1 h2 h3 hlen
    simp only at h1 h2 h3 hlen
    have e1 : (v.toList.zipIdx.flatMap fun p => [p.1]) = v.toList := by rw [flatMap_fst, List.zipIdx_map_fst]
    rcases handOver_balU (Beh.fairU boom f fun i : Nat => (i, 0)) v.toList.zipIdx (σ.world, false) with
      ⟨zs, w', ho, hl, hb⟩ | ⟨w', rest, l1, ho, hb⟩
    · rw [ho] at h1 h2 h3
      simp only at h1 h2
      subst h1 h2
      simp only [h3.drops, h3.viols]
      rw [e1] at hb
      have g2 := g1.world (w := s.1.log ([] : List Nat) []) (pend' := zs) (hb.log2 []) fun e => by simp only [List.count_append, List.count_nil]; omega
      exact putU_fine g2 y _ (wf_vecOf t zs hn) fun e => by rw [owns_vecOf (hlen zs rfl)]
    · rw [ho] at h1 h2 h3
      simp only at h1 h2
      subst h1 h2
      simp only [h3.drops, h3.viols]
      rw [e1, flatMap_fst] at hb
      exact unwound_fine (l := l1) g1 s hb fun e => by simp only [List.count_append]
  | mat r c a =>
    rw [hx] at hw
    obtain ⟨hr, hcc⟩ : r < t.W ∧ c < t.W := hw
    have g1 : Good t (σ.store x .none) lk (a.rows.toList.map Vec.toList).flatten := h.store x .none trivial fun e => by simp [hx, owns]
    obtain ⟨h1, h2, h3, h4⟩ := C78_matrix t (fun p e => (f p).actU boom e) a (σ.world, false) hr hcc
    have hlen := consumeMat_lengths t hr hcc (fun p e => (f p).actU boom e) a (σ.world, false)
    simp only [execU, hx]
    rcases hc : OwnIt.consumeMat t (fun p e => (f p).actU boom e) a (σ.world, false) with ⟨res, s, it⟩
    rw [hc] at h1 h2 h3 h4 hlen
    simp only at h1 h2 h3 h4 hlen
    have e1 : ((cells a).flatMap fun p => [p.1]) = (a.rows.toList.map Vec.toList).flatten := by
      rw [flatMap_fst, cells, List.map_flatten, List.map_map]
      congr 1
      have : (List.map Prod.fst ∘ fun p : Vec Nat c × Nat => p.1.toList.zipIdx.map fun q => (q.1, (p.2, q.2))) =
          Vec.toList ∘ Prod.fst := by
        funext p
        simp only [Function.comp_apply, List.map_map]
        exact List.zipIdx_map_fst _ _
      rw [this, ← List.map_map, List.zipIdx_map_fst]
    rcases handOver_balU (Beh.fairU boom f (id : Nat × Nat → _)) (cells a) (σ.world, false) with
      ⟨zs, w', ho, hl, hb⟩ | ⟨w', rest, l1, ho, hb⟩
    · simp only [id] at ho
      rw [ho] at h1 h2 h3
      simp only at h1 h2
      cases res with
      | error e => cases h1
      | ok zss =>
        have h1 : zss.flatten = zs := Except.ok.inj h1
        subst h2
        simp only [h3, h4]
        rw [e1] at hb
        have g2 := g1.world (w := s.1.log ([] : List Nat) []) (pend' := zs) (hb.log2 []) fun e => by simp only [List.count_append, List.count_nil]; omega
        exact putU_fine g2 y _ (wf_matOf t zss hr hcc) fun e => by rw [owns_matOf (hlen zss rfl), h1]
    · simp only [id] at ho
      rw [ho] at h1 h2 h3
      simp only at h1 h2
      cases res with
      | ok zss => cases h1
      | error e =>
        have h1 : e = .panic := Except.error.inj h1
        subst h1 h2
        simp only [h3, h4]
        rw [e1, flatMap_fst] at hb
        exact unwound_fine (l := l1) g1 s hb fun e => by simp only [List.count_append]

theorem fineU_zip (h : Good t σ lk []) (x y z : Fin k) (f : Nat → Beh2) : FineU t lk (execU boom t (.zip x y z f) σ) := by
  have hwx := h.wf x
  have hwy := h.wf y
  simp only [execU]
  split
  · exact .same h
  rename_i hxy
  have g1 : Good t ((σ.store x .none).store y .none) lk (owns (σ.vars x) ++ owns (σ.vars y)) :=
    (h.store x .none trivial (pend' := owns (σ.vars x)) fun e => by simp [owns]).store y .none trivial fun e => by
      have : (σ.store x .none).vars y = σ.vars y := by simp [State.store, Ne.symm hxy]
      rw [this]; simp [owns]
  split
  · rename_i n v n' v' hx hy
    rw [hx, hy] at g1
    rw [hx] at hwx
    have hn : n < t.W := hwx
    split
    · rename_i hnn
      subst hnn
      obtain ⟨h1, h2, h3, h4⟩ := C78_two_vectors t (fun e e' => (f e).actU boom e e') v v' (σ.world, false) hn
      have hlen := consume2_length t hn (fun e e' => (f e).actU boom e e') v v' (σ.world, false)
      simp only
      rcases hc : OwnIt.consume2 t (fun e e' => (f e).actU boom e e') v v' (σ.world, false) with ⟨res, s, ia, ib⟩
      rw [hc] at h1 h2 h3 h4 hlen
      simp only at h1 h2 h3 h4 hlen
      have e1 : ∀ e, ((v.toList.zip v'.toList).flatMap fun p => [p.1, p.2]).count e = (v.toList ++ v'.toList).count e := by
        intro e
        rw [count_pairs, List.map_fst_zip (by simp [v.length_eq, v'.length_eq]), List.map_snd_zip (by simp [v.length_eq, v'.length_eq]),
          List.count_append]
      rcases handOver_balU (Beh2.fairU boom f) (v.toList.zip v'.toList) (σ.world, false) with ⟨zs, w', ho, hl, hb⟩ | ⟨w', rest, l1, ho, hb⟩
      · rw [ho] at h1 h2 h3 h4
        simp only at h1 h2
        subst h1 h2
        simp only [h3.drops, h3.viols, h4.drops, h4.viols]
        have hb := hb.weaken e1 fun _ => rfl
        have g2 := g1.world (w := s.1.log ([] : List Nat) []) (pend' := zs) (hb.log2 []) fun e => by
          simp only [List.count_append, List.count_nil, owns]; omega
        exact putU_fine g2 z _ (wf_vecOf t zs hn) fun e => by rw [owns_vecOf (hlen zs rfl)]
      · rw [ho] at h1 h2 h3 h4
        simp only at h1 h2
        subst h1 h2
        simp only [h3.drops, h3.viols, h4.drops, h4.viols]
        have hb := hb.weaken e1 fun _ => rfl
        exact unwound_fine (l := l1) g1 s hb fun e => by
          simp only [List.count_append, count_pairs, owns]
    · exact .same h
  · rename_i r c a r' c' a' hx hy
    rw [hx, hy] at g1
    rw [hx] at hwx
    obtain ⟨hr, hcc⟩ : r < t.W ∧ c < t.W := hwx
    split
    · rename_i hnn
      obtain ⟨rfl, rfl⟩ := hnn
      obtain ⟨h1, h2, h3, h4, h5, h6⟩ := C78_two_matrices t (fun e e' => (f e).actU boom e e') a a' (σ.world, false) hr hcc
      have hlen := consumeMat2_lengths t hr hcc (fun e e' => (f e).actU boom e e') a a' (σ.world, false)
      simp only
      rcases hc : OwnIt.consumeMat2 t (fun e e' => (f e).actU boom e e') a a' (σ.world, false) with ⟨res, s, ia, ib⟩
      rw [hc] at h1 h2 h3 h4 h5 h6 hlen
      simp only at h1 h2 h3 h4 h5 h6 hlen
      have e1 := count_cellPairs a a'
      rcases handOver_balU (Beh2.fairU boom f) (cellPairs a a') (σ.world, false) with ⟨zs, w', ho, hl, hb⟩ | ⟨w', rest, l1, ho, hb⟩
      · rw [ho] at h1 h2 h3 h4
        simp only at h1 h2
        cases res with
        | error e => cases h1
        | ok zss =>
          have h1 : zss.flatten = zs := Except.ok.inj h1
          subst h2
          have hb := hb.weaken e1 fun _ => rfl
          simp only [h3, h4, h5, h6, List.map_nil, interleave_nil, List.append_nil]
          have g2 := g1.world (w := s.1.log ([] : List Nat) []) (pend' := zs) (hb.log2 []) fun e => by
            simp only [List.count_append, List.count_nil]; omega
          exact putU_fine g2 z _ (wf_matOf t zss hr hcc) fun e => by rw [owns_matOf (hlen zss rfl), h1]
      · rw [ho] at h1 h2 h3 h4
        simp only at h1 h2
        cases res with
        | ok zss => cases h1
        | error e =>
          have h1 : e = .panic := Except.error.inj h1
          subst h1 h2
          have hb := hb.weaken e1 fun _ => rfl
          simp only [h3, h4, h5, h6, List.append_nil]
          exact unwound_fine (l := l1) g1 s hb fun e => by
            simp only [List.count_append, count_pairs, count_interleave]
    · exact .same h
  · exact .same h

theorem fineU_assign (h : Good t σ lk []) (x y : Fin k) (f : Nat → BehA) : FineU t lk (execU boom t (.assign x y f) σ) := by
  have hwx := h.wf x
  simp only [execU]
  split
  · exact .same h
  rename_i hxy
  have st : ∀ (o : Obj) (w : World) (ins outs pend : List Nat), WF t o →
      Bal σ.world w ins outs →
      (∀ e, (owns (σ.vars x) ++ owns (σ.vars y)).count e + outs.count e = ins.count e + (owns o ++ pend).count e) →
      Good t { (σ.store x o).store y .none with world := w } lk pend := by
    intro o w ins outs pend ho hb hc
    have g0 : Good t (σ.store x .none) lk (owns (σ.vars x)) := h.store x .none trivial fun e => by simp [owns]
    have g1 : Good t ((σ.store x .none).store y .none) lk (owns (σ.vars x) ++ owns (σ.vars y)) :=
      g0.store y .none trivial fun e => by
        have : (σ.store x .none).vars y = σ.vars y := by simp [State.store, Ne.symm hxy]
        rw [this]; simp [owns]
    have g2 := g1.world (w := w) (pend' := owns o ++ pend) hb hc
    have g3 := g2.store x o ho (pend' := pend) fun e => by
      have : ({ (σ.store x .none).store y .none with world := w } : State k).vars x = .none := by
        simp [State.store, hxy]
      rw [this]; simp [owns]
    have e1 : (({ (σ.store x .none).store y .none with world := w } : State k).store x o) =
        { (σ.store x o).store y .none with world := w } := by
      simp only [State.store, State.mk.injEq, and_true]
      funext i
      by_cases hi : i = x
      · simp [hi, hxy]
      · simp [hi]
    rwa [e1] at g3
  have fin : ∀ (o : Obj) (s : EWorld) (rest : List Nat), WF t o →
      Bal σ.world s.1 (owns (σ.vars x) ++ owns (σ.vars y)) (owns o ++ rest) →
      FineU t lk ((unwound boom s .panic rest []).1,
        { (σ.store x o).store y .none with world := (unwound boom s .panic rest []).2 }) := by
    intro o s rest ho hb
    obtain ⟨h1, h2, l', h3⟩ := unwound_spec (boom := boom) s rest
    have := st o _ _ _ (l' ++ []) ho (hb.trans h3) fun e => by simp only [List.count_append, List.count_nil]; omega
    exact .bad h1 h2 this.leak
  split
  · rename_i n v n' v' hx hy
    rw [hx, hy] at fin st
    rw [hx] at hwx
    have hn : n < t.W := hwx
    split
    · rename_i hnn
      subst hnn
      obtain ⟨h1, h2, h3, h4⟩ := C79_vector t (fun e e' => (f e').actU boom e e') v v' (σ.world, false) hn
      obtain ⟨b1, b2, b3, b4⟩ := assignAll_balU boom f (v.toList.zip v'.toList) (σ.world, false)
      simp only
      rcases hc : OwnIt.assignOwn t (fun e e' => (f e').actU boom e e') v v' (σ.world, false) with ⟨res, v1, s, ib⟩
      rw [hc] at h1 h2 h3 h4
      simp only at h1 h2 h3 h4
      rw [← h1] at b1 b4
      rw [← h2, ← h3] at b3
      have e1 : ∀ e, ((v.toList.zip v'.toList).flatMap fun p => [p.1, p.2]).count e = (v.toList ++ v'.toList).count e := by
        intro e
        rw [count_pairs, List.map_fst_zip (by simp [v.length_eq, v'.length_eq]), List.map_snd_zip (by simp [v.length_eq, v'.length_eq]),
          List.count_append]
      have b3 := b3.weaken e1 fun _ => rfl
      cases res with
      | ok u =>
        have b4 := b4 rfl
        rw [b4] at b3
        simp only [h4.drops, h4.viols]
        rw [b4]
        refine .same (st (.vec _ v1) _ _ _ [] hn (b3.log2 []) fun e => ?_)
        simp only [owns, List.count_append, List.count_nil]; omega
      | error e =>
        have : e = .panic := by cases e with
          | panic => rfl
          | ub => exact absurd rfl b1
        subst this
        simp only [h4.drops, h4.viols]
        exact fin (.vec _ v1) s _ hn b3
    · exact .same h
  · rename_i r c a r' c' a' hx hy
    rw [hx, hy] at fin st
    rw [hx] at hwx
    obtain ⟨hr, hcc⟩ : r < t.W ∧ c < t.W := hwx
    split
    · rename_i hnn
      obtain ⟨rfl, rfl⟩ := hnn
      obtain ⟨h1, h2, h3, h4, h5⟩ := C79_matrix t (fun e e' => (f e').actU boom e e') a a' (σ.world, false) hr hcc
      obtain ⟨b1, b2, b3, b4⟩ := assignAll_balU boom f (cellPairs a a') (σ.world, false)
      simp only
      rcases hc : OwnIt.assignOwnMat t (fun e e' => (f e').actU boom e e') a a' (σ.world, false) with ⟨res, v1, s, ib⟩
      rw [hc] at h1 h2 h3 h4 h5
      simp only at h1 h2 h3 h4 h5
      rw [← h1] at b1 b4
      rw [← h2, ← h3] at b3
      have b3 := b3.weaken (count_cellPairs a a') fun _ => rfl
      cases res with
      | ok u =>
        have b4 := b4 rfl
        rw [b4] at b3
        simp only [h4, h5]
        rw [b4]
        refine .same (st (.mat _ _ v1) _ _ _ [] ⟨hr, hcc⟩ (b3.log2 []) fun e => ?_)
        simp only [owns, List.count_append, List.count_nil]; omega
      | error e =>
        have : e = .panic := by cases e with
          | panic => rfl
          | ub => exact absurd rfl b1
        subst this
        simp only [h4, h5]
        exact fin (.mat _ _ v1) s _ ⟨hr, hcc⟩ b3
    · exact .same h
  · exact .same h

theorem fineU_new (h : Good t σ lk []) (x : Fin k) : FineU t lk (execU boom t (.new x) σ) := by
  simp only [execU]
  have g1 := h.world (w := { σ.world with fresh := σ.world.fresh + 1 }) (ins := []) (outs := [σ.world.fresh])
    (pend' := [σ.world.fresh]) ⟨fun e => by simp only [ind_succ, List.count_nil]; omega, rfl⟩ fun e => by simp
  exact putU_fine g1 x (.elem σ.world.fresh) trivial fun e => rfl

theorem fineU_drop (h : Good t σ lk []) (x : Fin k) : FineU t lk (execU boom t (.drop x) σ) :=
  putU_fine h x .none trivial fun _ => rfl

theorem fineU_move (h : Good t σ lk []) (x y : Fin k) : FineU t lk (execU boom t (.move x y) σ) := by
  simp only [execU]
  split
  · exact .same h
  · have g1 : Good t (σ.store x .none) lk (owns (σ.vars x)) := h.store x .none trivial fun e => by simp [owns]
    exact putU_fine g1 y _ (h.wf x) fun e => rfl

theorem fineU_write (h : Good t σ lk []) (x : Fin k) (i : Nat) (y : Fin k) : FineU t lk (execU boom t (.write x i y) σ) := by
  have hf := fine_write h x i y
  simp only [exec] at hf
  simp only [execU]
  cases hx : σ.vars x with
  | vec n v =>
    cases hy : σ.vars y with
    | elem e =>
      rw [hx, hy] at hf
      simp only at hf ⊢
      by_cases hi : i < n
      · have hs : v.indexSet i e = .ok ⟨v.toList.set i e, by rw [List.length_set, v.length_eq]⟩ := by
          unfold Vec.indexSet; rw [if_pos (by rw [v.length_eq]; exact hi)]
        rw [hs] at hf ⊢
        simp only at hf ⊢
        obtain ⟨-, lk', g, hk⟩ := hf
        rw [hk rfl] at g
        refine ⟨by simp only; split <;> simp, lk, g, fun _ => rfl⟩
      · rw [C15_vec_set_panic v i (Nat.le_of_not_lt hi)]
        simp only
        have g0 : Good t (σ.store y .none) lk [e] := h.store y .none trivial fun e' => by simp [hy, owns]
        exact unwound_fine (l := []) g0 (σ.world, false) (Bal.refl _ []) fun e' => by simp
    | none => exact .same h
    | vec _ _ => exact .same h
    | mat _ _ _ => exact .same h
    | iter _ => exact .same h
    | chunks _ _ => exact .same h
  | none => exact .same h
  | elem _ => exact .same h
  | mat _ _ _ => exact .same h
  | iter _ => exact .same h
  | chunks _ _ => exact .same h

theorem fineU_of_fine {r : Res Unit × State k} {r' : End × State k} (h : Fine t lk r) (h1 : r.1 = .ok ()) (h2 : r'.1 = .ok)
    (h3 : r'.2 = r.2) : FineU t lk r' := by
  obtain ⟨-, lk', g, hk⟩ := h
  rw [hk h1, ← h3] at g
  exact ⟨by rw [h2]; simp, lk, g, fun _ => rfl⟩

theorem fineU_intoIter (h : Good t σ lk []) (x : Fin k) : FineU t lk (execU boom t (.intoIter x) σ) := by
  have hf := fine_intoIter h x
  refine fineU_of_fine hf ?_ ?_ ?_ <;> simp only [exec, execU] <;> cases σ.vars x <;> rfl

theorem fineU_intoChunks (h : Good t σ lk []) (x : Fin k) (I : Nat) : FineU t lk (execU boom t (.intoChunks x I) σ) := by
  have hf := fine_intoChunks h x I
  refine fineU_of_fine hf ?_ ?_ ?_ <;> simp only [exec, execU] <;> cases σ.vars x <;> (try dsimp only) <;> (try split) <;> rfl

theorem fineU_handOut (h : Good t σ lk []) {x y : Fin k} (mk : OwnIt Nat → Obj) (out : Option Obj) (s : OwnIt Nat)
    (hv : s.mem.viols = []) (hm : WF t (mk (flush s))) (ho : WF t (out.getD .none))
    (hc : ∀ e, (owns (σ.vars x)).count e = s.mem.drops.count e + (owns (mk (flush s))).count e + (owns (out.getD .none)).count e) :
    FineU t lk (handOutU boom σ x y mk out s) := by
  unfold handOutU
  simp only [hv]
  have g1 := h.store x (mk (flush s)) hm (pend' := s.mem.drops ++ owns (out.getD .none)) fun e => by
    have := hc e
    simp only [List.count_append, List.count_nil]; omega
  have g2 := g1.world (w := σ.world.log s.mem.drops []) (pend' := owns (out.getD .none)) (Bal.log σ.world _) fun e => by
    simp only [List.count_append, List.count_nil]; omega
  exact putU_fine g2 y _ ho fun e => rfl

theorem fineU_next (h : Good t σ lk []) (x y : Fin k) : FineU t lk (execU boom t (.next x y) σ) := by
  simp only [execU]
  have hwx := h.wf x
  split
  · exact .same h
  split
  · rename_i s hx
    have hw := hwx
    rw [hx] at hw
    obtain ⟨F, q, B, rfl, hF⟩ := hw
    cases q with
    | nil =>
      rw [OwnIt.next_nil]
      simp only
      refine fineU_handOut h .iter _ _ rfl (wf_iter hF) trivial fun e => ?_
      rw [hx]
      simp only [owns, flush_mk, slotElems_mk, Option.map_none, Option.getD_none]
      rfl
    | cons a q =>
      rw [OwnIt.next_cons _ _ _ _ _ _ (by simp only [List.length_cons] at hF; omega)]
      simp only
      refine fineU_handOut h .iter _ _ rfl (wf_iter (by simp at hF ⊢; omega)) trivial fun e => ?_
      rw [hx]
      simp only [owns, flush_mk, slotElems_mk, Option.map_some, Option.getD_some, List.count_cons, List.count_nil]
      show _ = List.count e [] + _ + _
      simp
  · rename_i I s hx
    have hw := hwx
    rw [hx] at hw
    obtain ⟨hI, F, B, cs, rfl, hF⟩ := hw
    cases cs with
    | nil =>
      rw [show OwnIt.flat ([] : List (Vec Nat I)) = [] from rfl, OwnIt.chunkNext_nil]
      simp only
      refine fineU_handOut h (.chunks I) _ _ rfl (wf_chunks hI [] hF) trivial fun e => ?_
      rw [hx]
      simp only [owns, flush_mk, slotElems_mk, Option.map_none, Option.getD_none]
      rfl
    | cons c cs =>
      have hl : F.length + I + cs.length * I < t.W := by
        rw [List.length_cons, Nat.add_mul, Nat.one_mul] at hF; omega
      rw [show OwnIt.flat (c :: cs) = c.toList ++ OwnIt.flat cs from rfl, OwnIt.chunkNext_cons _ hI _ _ _ _ _ (by omega)]
      simp only
      refine fineU_handOut h (.chunks I) _ _ rfl (wf_chunks hI cs ?_) ?_ fun e => ?_
      · rw [List.length_append, c.length_eq]; exact hl
      · show I < t.W
        omega
      · rw [hx]
        simp only [owns, flush_mk, slotElems_mk, Option.map_some, Option.getD_some]
        rw [show OwnIt.flat (c :: cs) = c.toList ++ OwnIt.flat cs from rfl]
        show _ = List.count e [] + _ + _
        simp only [List.count_append, List.count_nil]; omega
  · exact .same h

theorem fineU_nextBack (h : Good t σ lk []) (x y : Fin k) (hp : Proper t σ (.nextBack x y)) :
    FineU t lk (execU boom t (.nextBack x y) σ) := by
  simp only [execU]
  have hwx := h.wf x
  split
  · exact .same h
  rename_i hxy
  split
  · rename_i s hx
    have hw := hwx
    rw [hx] at hw
    obtain ⟨F, q, B, rfl, hF⟩ := hw
    rcases List.eq_nil_or_concat q with rfl | ⟨q, a, rfl⟩
    · have h0 := hp hxy _ hx (slotElems_mk F [] B [])
      have : F = [] := List.eq_nil_of_length_eq_zero h0
      subst this
      rw [OwnIt.nextBack_nil]
      simp only
      refine fineU_handOut h .iter _ _ rfl (wf_iter hF) trivial fun e => ?_
      rw [hx]
      simp only [owns, flush_mk, slotElems_mk, Option.map_none, Option.getD_none]
      rfl
    · rw [List.concat_eq_append] at hF hx ⊢
      rw [OwnIt.nextBack_snoc]
      simp only
      refine fineU_handOut h .iter _ _ rfl (wf_iter (by simp at hF ⊢; omega)) trivial fun e => ?_
      rw [hx]
      simp only [owns, flush_mk, slotElems_mk, Option.map_some, Option.getD_some, List.count_append]
      show _ = List.count e [] + _ + _
      simp
  · rename_i I s hx
    have hw := hwx
    rw [hx] at hw
    obtain ⟨hI, F, B, cs, rfl, hF⟩ := hw
    rcases List.eq_nil_or_concat cs with rfl | ⟨cs, c, rfl⟩
    · rw [show OwnIt.flat ([] : List (Vec Nat I)) = [] from rfl, OwnIt.chunkNextBack_nil]
      simp only
      refine fineU_handOut h (.chunks I) _ _ rfl (wf_chunks hI [] hF) trivial fun e => ?_
      rw [hx]
      simp only [owns, flush_mk, slotElems_mk, Option.map_none, Option.getD_none]
      rfl
    · have ef : OwnIt.flat (cs.concat c) = OwnIt.flat cs ++ c.toList := by simp [OwnIt.flat]
      have hl : F.length + I + cs.length * I < t.W := by
        rw [List.length_concat, Nat.add_mul, Nat.one_mul] at hF; omega
      rw [ef, OwnIt.chunkNextBack_snoc _ hI]
      simp only
      refine fineU_handOut h (.chunks I) _ _ rfl (wf_chunks hI cs ?_) ?_ fun e => ?_
      · omega
      · show I < t.W
        omega
      · rw [hx]
        simp only [owns, flush_mk, slotElems_mk, Option.map_some, Option.getD_some]
        rw [ef]
        show _ = List.count e [] + _ + _
        simp only [List.count_append, List.count_nil]; omega
  · exact .same h

theorem fineU_nth (h : Good t σ lk []) (x y : Fin k) (i : Nat) (hp : ProperU boom t σ (.nth x y i)) :
    FineU t lk (execU boom t (.nth x y i) σ) := by
  simp only [execU]
  have hwx := h.wf x
  split
  · exact .same h
  rename_i hxy
  split
  · rename_i s hx
    rcases hp hxy s hx with ⟨hi, hbm⟩ | ⟨ho, hW⟩
    · have hw := hwx
      rw [hx] at hw
      obtain ⟨F, q, B, rfl, hF⟩ := hw
      rw [slotElems_mk] at hi hbm
      obtain ⟨q1, q2, rfl, rfl⟩ : ∃ q1 q2, q = q1 ++ q2 ∧ q1.length = i :=
        ⟨q.take i, q.drop i, (List.take_append_drop i q).symm, by simp [hi]⟩
      rw [List.length_append] at hF
      rw [OwnIt.nth_ok t _ F q1 q2 B [] (by simpa using hbm) (by omega)]
      cases q2 with
      | nil =>
        rw [OwnIt.next_nil]
        simp only
        refine fineU_handOut h .iter _ _ rfl (wf_iter (by simp at hF ⊢; omega)) trivial fun e => ?_
        rw [hx]
        simp only [owns, flush_mk, slotElems_mk, Option.map_none, Option.getD_none]
        show _ = List.count e ([] ++ q1) + _ + _
        simp
      | cons a q =>
        rw [List.length_cons] at hF
        rw [OwnIt.next_cons _ _ _ _ _ _ (by simp only [List.length_append]; omega)]
        simp only
        refine fineU_handOut h .iter _ _ rfl (wf_iter (by simp at hF ⊢; omega)) trivial fun e => ?_
        rw [hx]
        simp only [owns, flush_mk, slotElems_mk, Option.map_some, Option.getD_some]
        show _ = List.count e ([] ++ q1) + _ + _
        simp only [List.nil_append, List.count_append, List.count_cons, List.count_nil]; omega
    · have h1 : (OwnIt.nthOp t boom i).run s = (.error .panic, s) := by
        unfold OwnIt.nthOp
        have : uadd t s.next i = .error .panic := by simp [uadd, Nat.not_lt.2 hW, ho]
        rw [StM.run_bind_ok (StM.run_get _), this, StM.run_bind_error (StM.run_liftRes_error _ _)]
      rw [h1]
      exact .bad (by simp [Fault.toEnd]) (by simp [Fault.toEnd]) (good_failed h s hx)
  · exact .same h

theorem fineU_gather (h : Good t σ lk []) (x y : Fin k) (n : Nat) (hp : ProperU boom t σ (.gather x y n)) :
    FineU t lk (execU boom t (.gather x y n) σ) := by
  simp only [execU]
  have hwx := h.wf x
  split
  · exact .same h
  rename_i hxy
  split
  · rename_i s hx
    have hw := hwx
    rw [hx] at hw
    obtain ⟨F, q, B, rfl, hF⟩ := hw
    obtain ⟨hp1, hp2⟩ := hp
    have hp2 := hp2 hxy _ hx
    rw [slotElems_mk] at hp2
    have g1 : Good t (σ.store x .none) lk q := h.store x .none trivial fun e => by rw [hx]; simp [owns, slotElems_mk]
    unfold collectOwnU
    rw [pull_run t n F q B [] hF]
    by_cases hn : n ≤ q.length
    · rw [if_pos hn]
      simp only
      have hq : ∀ e, q.count e = (q.take n).count e + (q.drop n).count e := fun e => by
        conv_lhs => rw [← List.take_append_drop n q, List.count_append]
      obtain ⟨d, d1, d2, d3⟩ := dropIt_spec boom (F ++ q.take n) (q.drop n) B
      rcases hr : (OwnIt.dropOp boom).run (mkIt (F ++ q.take n) (q.drop n) B []) with ⟨r, s'⟩
      rw [hr] at d1 d2 d3
      simp only at d1 d2 d3
      have gw : Good t { σ.store x .none with world := σ.world.log s'.mem.drops [] } lk (q.take n ++ d) :=
        g1.world (w := σ.world.log s'.mem.drops []) (pend' := q.take n ++ d) (Bal.log σ.world _) fun e => by
          have := hq e
          have h2 := congrArg (List.count e) d1
          simp only [List.count_append, List.count_nil] at h2 ⊢; omega
      have lost : ∀ e : End, e ≠ .ub → e ≠ .ok →
          FineU t lk (e, ({ σ.store x .none with world := σ.world.log s'.mem.drops [] } : State k)) := fun e h1 h2 =>
        .bad h1 h2 (Good.leak (l := q.take n ++ d) (pend := []) (by simpa using gw))
      have good : d = [] → FineU t lk (({ σ.store x .none with world := σ.world.log s'.mem.drops [] } : State k).putU boom y (vecOf n (q.take n))) := by
        intro hd
        rw [hd, List.append_nil] at gw
        exact putU_fine gw y _ (wf_vecOf t _ hp1) fun e => by rw [owns_vecOf (by simp [hn])]
      cases t.debugAssertions with
      | false =>
        simp only [Bool.false_eq_true, if_false, d2]
        rcases d3 with ⟨d3, d4⟩ | d3
        · rw [d3]; exact good d4
        · rw [d3]; exact lost .panic (by simp) (by simp)
      | true =>
        simp only [if_true, OwnIt.len_mk, hr]
        rcases d3 with ⟨d3, d4⟩ | d3
        · rw [d3]
          simp only [d2]
          by_cases hz : (q.drop n).length = 0
          · rw [if_pos hz]; exact good d4
          · rw [if_neg hz]; exact lost .panic (by simp) (by simp)
        · rw [d3]
          simp only [d2]
          exact lost .panic (by simp) (by simp)
    · rw [if_neg hn]
      have hlt : q.length < n := by omega
      simp only [C02_drops t boom n q hlt (hp2 hlt), OwnIt.drop_ok boom (F ++ q) [] B [] (by simp)]
      simp only [mkMem, if_true, List.append_nil]
      have g2 := g1.world (w := σ.world.log q []) (pend' := []) (Bal.log σ.world _) fun e => by
        simp only [List.count_nil]
      exact .bad (by simp) (by simp) g2
  · exact .same h

theorem fineU_toMat (h : Good t σ lk []) (x : Fin k) (r c : Nat) (hp : Proper t σ (.toMat x r c)) :
    FineU t lk (execU boom t (.toMat x r c) σ) := by
  have hf := fine_toMat h x r c hp
  simp only [exec] at hf
  simp only [execU]
  have hwx := h.wf x
  split at hf
  · rename_i n v hx
    rw [hx] at hwx
    rw [hx]
    simp only
    split at hf
    · rename_i hn
      rw [dif_pos hn]
      obtain ⟨rfl, hc⟩ := hn
      have hd : c ∣ r * c := ⟨r, Nat.mul_comm _ _⟩
      have hlen : (chunksOf c v hd).length = r := by
        rw [(C12_chunk_contents c hd v).1, Nat.mul_div_cancel _ hc]
      simp only at hf ⊢
      rw [fromVector_run t hc v hwx hd hlen] at hf ⊢
      simp only [OwnIt.drop_ok _ v.toList [] [] [] (by simp : ∀ x ∈ ([] : List Nat), _)] at hf ⊢
      exact fineU_of_fine hf rfl rfl rfl
    · rename_i hn
      rw [dif_neg hn]; exact .same h
  · rename_i hno
    split
    · rename_i n v hx; exact absurd hx (hno n v)
    · exact .same h

/-! ## Collecting -/

theorem countSrc_boom (boom : Nat → Bool) (p : List Nat) (x : Nat) (rest : List (SrcStep Nat)) (s : Mem Nat)
    (h : ∀ y ∈ p, boom y = false) (hx : boom x = true) :
    (Mem.countSrc boom (p.map .item ++ .item x :: rest)).run s = (.error .panic, { s with drops := s.drops ++ (p ++ [x]) }) := by
  induction p generalizing s with
  | nil =>
    show (Mem.countSrc boom (.item x :: rest)).run s = _
    rw [Mem.countSrc, StM.run_bind_ok (StM.run_get _), StM.run_bind_ok (StM.run_set _ _), if_pos hx]
    rfl
  | cons y p ih =>
    have hy : boom y = false := h y List.mem_cons_self
    rw [List.map_cons, List.cons_append, Mem.countSrc, StM.run_bind_ok (StM.run_get _), StM.run_bind_ok (StM.run_set _ _),
      if_neg (by simp [hy])]
    rw [StM.run_bind_error (ih _ fun z hz => h z (List.mem_cons_of_mem _ hz))]
    simp

/-- `from_iter` in a debug build when the destructor of a surplus item panics. -/
theorem fromIter_count_boom (ht : t.debugAssertions = true) (xs p : List Nat) (x : Nat) (rest : List (SrcStep Nat))
    (h : ∀ y ∈ p, boom y = false) (hx : boom x = true) :
    Mem.fromIterMem t boom xs.length (xs.map .item ++ (p.map .item ++ .item x :: rest)) =
      (.error .panic, ⟨xs.map .live, p ++ [x], []⟩) := by
  rw [fromIterMem_items t boom xs.length xs _ (Nat.le_refl _), Nat.sub_self, Mem.fillMem, if_pos ht,
    StM.run_bind_error (countSrc_boom boom p x rest _ h hx)]
  simp [filled]

theorem through_append {boom : Nat → Bool} (p : List Nat) (x : Nat) (q : List Nat) (h : ∀ y ∈ p, boom y = false) (hx : boom x = true) :
    through boom (p ++ x :: q) = p ++ [x] := by
  induction p with
  | nil => simp [through, hx]
  | cons y p ih =>
    rw [List.cons_append, through, if_neg (by simp [h y List.mem_cons_self]), ih fun z hz => h z (List.mem_cons_of_mem _ hz)]
    rfl

theorem fineU_collect (h : Good t σ lk []) (x : Fin k) (n : Nat) (src : List Bool) (hp : ProperU boom t σ (.collect x n src)) :
    FineU t lk (execU boom t (.collect x n src) σ) := by
  simp only [execU, askedU]
  obtain ⟨hn, hp2⟩ := hp
  have hn : n < t.W := hn
  generalize hi : σ.world.fresh = i
  rw [hi] at hp2
  generalize ha : (src.takeWhile id).length = a
  have hs := steps_eq i src
  rw [ha] at hs
  have key : ∀ (m : Nat) (d out : List Nat), (∀ e, (List.range' i m).count e = d.count e + out.count e) →
      Good t { σ with world := ({ σ.world with fresh := i + m } : World).log d [] } lk out := by
    intro m d out hc
    refine h.world (ins := []) (outs := out ++ []) ⟨fun e => ?_, by simp [World.log]⟩ fun e => by simp
    have := hc e
    simp only [World.log, List.count_append, List.count_nil, ind_add, hi]; omega
  have good : ∀ m, m = n → FineU t lk (({ σ with world := ({ σ.world with fresh := i + m } : World).log [] [] } : State k).putU boom x
      (vecOf n (slotElems ((List.range' i m).map .live)))) := by
    rintro m rfl
    refine putU_fine (key m [] (List.range' i m) fun e => by simp) x _ (wf_vecOf t _ hn) fun e => ?_
    rw [slotElems_live, owns_vecOf (by simp)]
  have bad : ∀ m (d out : List Nat), (∀ e, (List.range' i m).count e = d.count e + out.count e) →
      FineU t lk (.panic, ({ σ with world := ({ σ.world with fresh := i + m } : World).log d [] } : State k)) := by
    intro m d out hc
    exact .bad (by simp) (by simp) (Good.leak (pend := []) (l := out) (by simpa using key m d out hc))
  have split : ∀ m, n ≤ m → List.range' i m = List.range' i n ++ List.range' (i + n) (m - n) := by
    intro m hm
    conv_lhs => rw [show m = n + (m - n) by omega]
    rw [← List.range'_append]; simp
  have rn : (List.range' i n).length = n := by simp
  by_cases hlt : a < n
  · have hk : (if t.debugAssertions = true ∧ n ≤ a then n + (through boom (List.range' (i + n) (a - n))).length else min n a) = a := by
      rw [if_neg (by omega)]; omega
    rw [hk]
    by_cases hf : false ∈ src
    · rcases hs with hs | ⟨rest, hs⟩
      · -- the source panics, so its steps end with a panic
        exfalso
        have : ∀ (i : Nat) (src : List Bool), false ∈ src → SrcStep.panic ∈ steps i src := by
          intro i src
          induction src generalizing i with
          | nil => simp
          | cons b src ih =>
            intro hm
            cases b with
            | false => simp [steps]
            | true => rw [steps]; exact List.mem_cons_of_mem _ (ih _ (by simpa using hm))
        have := this i src hf
        rw [hs] at this
        simp at this
      · rw [hs, C04_source_panics t boom n (List.range' i a) rest (by simpa using hlt)]
        simp only [if_true]
        exact bad a [] (List.range' i a) fun e => by simp
    · have hall : src.takeWhile id = src := by
        have : ∀ l : List Bool, false ∉ l → l.takeWhile id = l := by
          intro l
          induction l with
          | nil => intro; rfl
          | cons b l ih =>
            intro hm
            cases b with
            | false => simp at hm
            | true => simp only [List.takeWhile_cons, id, if_true]; rw [ih (by simpa using hm)]
        exact this src hf
      rw [hall] at ha
      have hst : steps i src = (List.range' i a).map .item := by
        have : ∀ (i : Nat) (src : List Bool), false ∉ src → steps i src = (List.range' i src.length).map .item := by
          intro i src
          induction src generalizing i with
          | nil => intro; rfl
          | cons b src ih =>
            intro hm
            cases b with
            | false => simp at hm
            | true => rw [steps, ih _ (by simpa using hm), List.length_cons, List.range'_succ]; rfl
        rw [this i src hf, ha]
      have hb : ∀ e ∈ List.range' i a, boom e = false := by
        intro e he
        rw [List.mem_range'_1] at he
        exact hp2 (by omega) hf e he.1 (by omega)
      rw [hst, C02_drops t boom n (List.range' i a) (by simpa using hlt) hb]
      simp only [if_true]
      exact bad a (List.range' i a) [] fun e => by simp
  · have hle : n ≤ a := Nat.le_of_not_lt hlt
    cases hd : t.debugAssertions with
    | false =>
      have h3 := fun rest => C03_memory_release t hd boom (List.range' i n) rest
      rw [rn] at h3
      have hk : (if false = true ∧ n ≤ a then n + (through boom (List.range' (i + n) (a - n))).length else min n a) = n := by
        rw [if_neg (by simp)]; omega
      rw [hk]
      rcases hs with hs | ⟨rest, hs⟩
      · rw [hs, split a hle, List.map_append, h3]
        exact good n rfl
      · rw [hs, split a hle, List.map_append, List.append_assoc, h3]
        exact good n rfl
    | true =>
      rw [if_pos ⟨rfl, hle⟩]
      rcases first_boom boom (List.range' (i + n) (a - n)) with hb | ⟨p, e0, q, hpq, hb1, hb2⟩
      · have hk : n + (through boom (List.range' (i + n) (a - n))).length = a := by
          rw [through_all (by simpa using hb)]; simp; omega
        rw [hk]
        rcases hs with hs | ⟨rest, hs⟩
        · by_cases he : a = n
          · have h3 := C01_memory t boom (List.range' i n)
            rw [rn] at h3
            rw [hs, he, h3]
            exact good n rfl
          · have h3 := C03_memory_debug t hd boom (List.range' i n) (List.range' (i + n) (a - n)) (by simp; omega) hb
            rw [rn, ← split a hle] at h3
            rw [hs, h3]
            simp only [if_true]
            exact bad a _ (List.range' i n) fun e => by rw [split a hle, List.count_append]; omega
        · have h3 := C04_count_panics t hd boom (List.range' i n) (List.range' (i + n) (a - n)) hb rest
          rw [rn, ← List.append_assoc, ← List.map_append, ← split a hle] at h3
          rw [hs, h3]
          simp only [if_true]
          exact bad a _ (List.range' i n) fun e => by rw [split a hle, List.count_append]; omega
      · rw [hpq, through_append p e0 q hb1 hb2]
        have h3 := fun rest => fromIter_count_boom (t := t) hd (List.range' i n) p e0 rest hb1 hb2
        rw [rn] at h3
        have hlen : p.length + 1 + q.length = a - n := by
          have := congrArg List.length hpq
          simp at this; omega
        have hpre : List.range' (i + n) (p.length + 1) = p ++ [e0] := by
          have h4 : List.range' (i + n) (a - n) = List.range' (i + n) (p.length + 1) ++ List.range' (i + n + (p.length + 1)) q.length := by
            rw [← hlen]; simp [← List.range'_append]
          rw [hpq, show p ++ e0 :: q = (p ++ [e0]) ++ q by simp] at h4
          exact (List.append_inj h4 (by simp)).1.symm
        have fin : FineU t lk (.panic, ({ σ with world := ({ σ.world with fresh := i + (n + (p ++ [e0]).length) } : World).log (p ++ [e0]) [] } : State k)) := by
          refine bad _ _ (List.range' i n) fun e => ?_
          rw [split (n + (p ++ [e0]).length) (by omega), List.count_append]
          rw [show n + (p ++ [e0]).length - n = p.length + 1 by simp, hpre]; omega
        rcases hs with hs | ⟨rest, hs⟩
        · rw [hs, split a hle, hpq, List.map_append, List.map_append, List.map_cons, h3]
          simp only [if_true]
          exact fin
        · rw [hs, split a hle, hpq, List.map_append, List.map_append, List.map_cons, List.append_assoc, List.append_assoc, List.cons_append, h3]
          simp only [if_true]
          exact fin

/-! ## Whole programs -/

theorem fineU_exec (h : Good t σ lk []) (p : Stmt k) (hp : ProperU boom t σ p) : FineU t lk (execU boom t p σ) := by
  cases p with
  | new x => exact fineU_new h x
  | collect x n src => exact fineU_collect h x n src hp
  | drop x => exact fineU_drop h x
  | move x y => exact fineU_move h x y
  | map x y f => exact fineU_map h x y f
  | zip x y z f => exact fineU_zip h x y z f
  | assign x y f => exact fineU_assign h x y f
  | write x i y => exact fineU_write h x i y
  | intoIter x => exact fineU_intoIter h x
  | intoChunks x I => exact fineU_intoChunks h x I
  | next x y => exact fineU_next h x y
  | nextBack x y => exact fineU_nextBack h x y hp
  | nth x y i => exact fineU_nth h x y i hp
  | gather x y n => exact fineU_gather h x y n hp
  | toMat x r c => exact fineU_toMat h x r c hp

theorem runU_good (ps : List (Stmt k)) (h : Good t σ lk []) (hp : CarefulU boom t ps σ) :
    End.ub ∉ (runU boom t ps σ).1 ∧ ∃ lk', Good t (runU boom t ps σ).2 lk' [] ∧ ((∀ r ∈ (runU boom t ps σ).1, r = .ok) → lk' = lk) := by
  induction ps generalizing σ lk with
  | nil => exact ⟨by simp [runU], lk, h, fun _ => rfl⟩
  | cons p ps ih =>
    obtain ⟨hp1, hp2⟩ := hp
    obtain ⟨h1, lk1, g1, hk1⟩ := fineU_exec h p hp1
    rw [runU]
    have go : ∀ r : End, r = (execU boom t p σ).1 → r = .ok ∨ r = .panic →
        End.ub ∉ r :: (runU boom t ps (execU boom t p σ).2).1 ∧ ∃ lk', Good t (runU boom t ps (execU boom t p σ).2).2 lk' [] ∧
          ((∀ r' ∈ r :: (runU boom t ps (execU boom t p σ).2).1, r' = .ok) → lk' = lk) := by
      intro r hr hc
      rw [hr] at hc
      obtain ⟨i1, lk2, i2, i3⟩ := ih g1 (hp2 hc)
      refine ⟨?_, lk2, i2, fun hall => ?_⟩
      · rw [List.mem_cons, not_or]
        exact ⟨fun h => h1 (by rw [← hr, ← h]), i1⟩
      · rw [i3 fun r hr => hall r (List.mem_cons_of_mem _ hr), hk1 (by rw [← hr]; exact hall _ List.mem_cons_self)]
    cases hr : (execU boom t p σ).1 with
    | ub => exact absurd hr h1
    | abort => exact ⟨by simp, lk1, g1, fun hall => by simp at hall⟩
    | ok => exact go .ok hr.symm (.inl rfl)
    | panic => exact go .panic hr.symm (.inr rfl)

theorem wipe_fine (h : Good t σ lk []) (x : Fin k) :
    ((σ.wipe boom x).1 = .panic ∨ (σ.wipe boom x).1 = .abort) ∧ ∃ lk', Good t (σ.wipe boom x).2 lk' [] ∧
      ((σ.wipe boom x).1 = .panic → lk' = lk) := by
  have hd := dropLog_wf (h.wf x)
  obtain ⟨d, h1, h2⟩ := through_spec boom (owns (σ.vars x))
  have hs := h.store x .none trivial (pend' := owns (σ.vars x)) fun e => by simp [owns]
  have hw := hs.world (w := σ.world.log (through boom (owns (σ.vars x))) []) (pend' := d ++ []) (Bal.log σ.world _) fun e => by
    have := congrArg (List.count e) h1
    simp only [List.count_append, List.count_nil] at this ⊢; omega
  unfold State.wipe
  rw [hd]
  simp only
  cases hb : (owns (σ.vars x)).any boom with
  | true => exact ⟨.inr rfl, d ++ lk, hw.leak, fun h => by simp at h⟩
  | false => exact ⟨.inl rfl, d ++ lk, hw.leak, fun _ => by rw [h2 hb]; rfl⟩

theorem wipe_other (x y : Fin k) (h : y ≠ x) : (σ.wipe boom x).2.vars y = σ.vars y := by simp [State.wipe, h]
theorem putU_other (x y : Fin k) (o : Obj) (h : y ≠ x) : (σ.putU boom x o).2.vars y = σ.vars y := by simp [State.putU, h]

theorem leaveU_good (xs : List (Fin k)) (r : End) (h : Good t σ lk []) (hr : r ≠ .ub) :
    (leaveU boom r xs σ).1 ≠ .ub ∧ (leaveU boom r xs σ).2.world.fresh = σ.world.fresh ∧
    ∃ lk', Good t (leaveU boom r xs σ).2 lk' [] ∧ ((leaveU boom r xs σ).1 = .ok → r = .ok ∧ lk' = lk) ∧
      ((leaveU boom r xs σ).1 ≠ .abort → ∀ x, x ∈ xs ∨ owns (σ.vars x) = [] → owns ((leaveU boom r xs σ).2.vars x) = []) := by
  induction xs generalizing r σ lk with
  | nil => exact ⟨by rwa [leaveU], by rw [leaveU], lk, by rwa [leaveU], fun h => ⟨by rwa [leaveU] at h, rfl⟩,
      fun _ x hx => by rw [leaveU]; simpa using hx⟩
  | cons a xs ih =>
    cases r with
    | ub => exact absurd rfl hr
    | abort => exact ⟨by simp [leaveU], by simp [leaveU], lk, by simpa [leaveU] using h, by simp [leaveU], by simp [leaveU]⟩
    | ok =>
      obtain ⟨h1, lk1, g1, hk⟩ := putU_fine (boom := boom) h a .none trivial fun e => rfl
      obtain ⟨i1, i2, lk2, i3, i4, i5⟩ := ih (σ.putU boom a .none).1 g1 h1
      rw [leaveU]
      refine ⟨i1, i2, lk2, i3, fun h => ?_, fun h x hx => i5 h x ?_⟩
      · obtain ⟨j1, j2⟩ := i4 h
        exact ⟨rfl, by rw [j2, hk j1]⟩
      · by_cases hxa : x = a
        · exact .inr (by simp [State.putU, hxa, owns])
        · rcases hx with hx | hx
          · exact .inl ((List.mem_cons.1 hx).resolve_left hxa)
          · exact .inr (by rw [putU_other a x .none hxa]; exact hx)
    | panic =>
      obtain ⟨h1, lk1, g1, hk⟩ := wipe_fine (boom := boom) h a
      have hne : (σ.wipe boom a).1 ≠ .ub := by rcases h1 with h1 | h1 <;> rw [h1] <;> simp
      obtain ⟨i1, i2, lk2, i3, i4, i5⟩ := ih (σ.wipe boom a).1 g1 hne
      rw [leaveU]
      refine ⟨i1, i2, lk2, i3, fun h => ?_, fun h x hx => i5 h x ?_⟩
      · have := (i4 h).1
        rcases h1 with h1 | h1 <;> rw [h1] at this <;> simp at this
      · by_cases hxa : x = a
        · exact .inr (by simp [State.wipe, hxa, owns])
        · rcases hx with hx | hx
          · exact .inl ((List.mem_cons.1 hx).resolve_left hxa)
          · exact .inr (by rw [wipe_other a x hxa]; exact hx)

/-- C110: destructors may panic.  In every program that avoids the calls C77 shows to be misuse and the two calls that mishandle a
panicking destructor (see `C110_short_collect`, `C110_nth_skips`), in every build, wherever client code or destructors panic,
also when the process is aborted: no undefined behaviour, no invalid access, and every element ever created is in exactly
one place: destroyed, leaked, or owned by exactly one variable; if no statement panicked, nothing is leaked. -/
theorem C110_ownership (boom : Nat → Bool) (t : Target) (ps : List (Stmt k)) (hp : CarefulU boom t ps (init : State k)) :
    End.ub ∉ (runU boom t ps init).1 ∧ (runU boom t ps init).2.world.viols = [] ∧
    ∃ leaked : List Nat,
      ((runU boom t ps init).2.world.dropped ++ leaked ++ owned (runU boom t ps init).2).Perm
        (List.range (runU boom t ps init).2.world.fresh) ∧
      ((∀ r ∈ (runU boom t ps init).1, r = .ok) → leaked = []) := by
  obtain ⟨h1, lk, h2, h3⟩ := runU_good ps (good_init (t := t)) hp
  refine ⟨h1, h2.viols, lk, List.perm_iff_count.2 fun e => ?_, h3⟩
  rw [count_range, ← h2.bal e]
  simp only [List.count_append, count_owned, List.count_nil]; omega

/-- C110: no element is destroyed twice, and none that is destroyed is owned by a variable; no element is owned twice. -/
theorem C110_no_double_drop (boom : Nat → Bool) (t : Target) (ps : List (Stmt k)) (hp : CarefulU boom t ps (init : State k)) :
    (runU boom t ps init).2.world.dropped.Nodup ∧ (owned (runU boom t ps init).2).Nodup ∧
    ∀ e ∈ (runU boom t ps init).2.world.dropped, e ∉ owned (runU boom t ps init).2 := by
  obtain ⟨-, -, lk, h, -⟩ := C110_ownership boom t ps hp
  have hn := h.nodup_iff.2 List.nodup_range
  rw [List.append_assoc, List.nodup_append'] at hn
  obtain ⟨n1, n2, n3⟩ := hn
  rw [List.nodup_append'] at n2
  exact ⟨n1, n2.2.1, fun e he ho => n3 he (List.mem_append_right _ ho)⟩

/-- C110: at the end of the scope, which may panic or abort: every element has been destroyed at most once, and no invalid access; unless
the process was aborted, nothing is owned any more; if nothing panicked every element ever created has been destroyed
exactly once. -/
theorem C110_scope_end (boom : Nat → Bool) (t : Target) (ps : List (Stmt k)) (hp : CarefulU boom t ps (init : State k)) :
    let r := endScopeU boom (runU boom t ps init).2
    r.1 ≠ .ub ∧ r.2.world.viols = [] ∧ r.2.world.dropped.Nodup ∧
    (∀ e ∈ r.2.world.dropped, e < (runU boom t ps init).2.world.fresh) ∧
    (r.1 ≠ .abort → owned r.2 = []) ∧
    ((∀ e ∈ (runU boom t ps init).1, e = .ok) → r.1 = .ok →
      r.2.world.dropped.Perm (List.range (runU boom t ps init).2.world.fresh)) := by
  obtain ⟨h1, lk, h2, h3⟩ := runU_good ps (good_init (t := t)) hp
  obtain ⟨g1, g2, lk', g3, g4, g5⟩ := leaveU_good (boom := boom) (List.finRange k) .ok h2 (by simp)
  have hb := g3.bal
  rw [g2] at hb
  refine ⟨g1, g3.viols, List.nodup_iff_count_le_one.2 fun e => ?_, fun e he => ?_, fun hne => ?_, fun hall hok => ?_⟩
  · have := hb e
    unfold ind at this
    show List.count e (leaveU boom .ok (List.finRange k) (runU boom t ps init).2).2.world.dropped ≤ 1
    split at this <;> omega
  · have := hb e
    have hpos : 0 < List.count e (leaveU boom .ok (List.finRange k) (runU boom t ps init).2).2.world.dropped := List.count_pos_iff.2 he
    unfold ind at this
    split at this
    · assumption
    · omega
  · unfold owned
    rw [List.flatMap_eq_nil_iff]
    exact fun x _ => g5 hne x (.inl (List.mem_finRange x))
  · refine List.perm_iff_count.2 fun e => ?_
    have h0 : ownCount (leaveU boom .ok (List.finRange k) (runU boom t ps init).2).2 e = 0 := by
      have hne : (leaveU boom .ok (List.finRange k) (runU boom t ps init).2).1 ≠ .abort := by
        rw [show (leaveU boom .ok (List.finRange k) (runU boom t ps init).2).1 = .ok from hok]; simp
      unfold ownCount
      refine Finset.sum_eq_zero fun x _ => ?_
      rw [g5 hne x (.inl (List.mem_finRange x))]; rfl
    have hbe := hb e
    rw [h0, (g4 hok).2, h3 hall] at hbe
    rw [count_range, ← hbe]; simp [endScopeU]

/-! ## Where no destructor panics, it is the semantics of C106 and C108 -/

/-- No destructor that ran panics. -/
def Calm (boom : Nat → Bool) (w : World) : Prop := ∀ e ∈ w.dropped, boom e = false

theorem Calm.of_log {w : World} {d : List Nat} {v : List Viol} (h : Calm boom (w.log d v)) :
    Calm boom w ∧ ∀ e ∈ d, boom e = false :=
  ⟨fun e he => h e (List.mem_append_left _ he), fun e he => h e (List.mem_append_right _ he)⟩

theorem arrayDrop_calm {l : List Nat} (h : ∀ e ∈ l, boom e = false) : arrayDrop boom l = (.ok, l) := by
  induction l with
  | nil => rfl
  | cons x l ih =>
    rw [arrayDrop, if_neg (by simp [h x List.mem_cons_self]), ih fun e he => h e (List.mem_cons_of_mem _ he)]

theorem through_calm {l : List Nat} (h : ∀ e ∈ l, boom e = false) : through boom l = l :=
  through_all (by simpa using h)

theorem destroyed_calm {o : Obj} (hw : WF t o) (h : ∀ e ∈ owns o, boom e = false) : o.destroyed boom = (.ok, owns o, []) := by
  match o, hw with
  | .none, _ => rfl
  | .elem x, _ => simp [Obj.destroyed, h x (by simp [owns]), owns]
  | .vec _ v, _ => simp only [Obj.destroyed, arrayDrop_calm (l := v.toList) h, owns]
  | .mat _ _ a, _ => simp only [Obj.destroyed, arrayDrop_calm (l := (a.rows.toList.map Vec.toList).flatten) h, owns]
  | .iter s, ⟨F, q, B, hs, _⟩ =>
    subst hs
    simp only [owns, slotElems_mk] at h
    simp only [Obj.destroyed, owns, slotElems_mk, OwnIt.drop_ok boom F q B [] h]
    simp [mkMem, endOf]
  | .chunks I s, ⟨_, F, B, cs, hs, _⟩ =>
    subst hs
    simp only [owns, slotElems_mk] at h
    simp only [Obj.destroyed, owns, slotElems_mk, OwnIt.drop_ok boom F _ B [] h]
    simp [mkMem, endOf]

theorem putU_calm {x : Fin k} {o : Obj} (hw : WF t (σ.vars x)) (hc : Calm boom (σ.put x o).world) :
    σ.putU boom x o = (.ok, σ.put x o) := by
  have h := (Calm.of_log hc).2
  rw [dropLog_wf hw] at h
  rw [State.putU, State.put, destroyed_calm hw h, dropLog_wf hw]

theorem calm_put {x : Fin k} {o : Obj} (hc : Calm boom (σ.put x o).world) : Calm boom σ.world := (Calm.of_log hc).1

theorem unwound_calm {w : World} {d : List Nat} {v : List Viol} (h : ∀ e ∈ d, boom e = false) :
    unwound boom (w, false) .panic d v = (.panic, w.log d v) := by
  have : d.any boom = false := by simpa using h
  simp [unwound, this, through_calm h]

/-- `gU` does what `g` does unless a destructor panics; `g` only adds to the log. -/
def Follows {X : Type} (boom : Nat → Bool) (g : X → StM World Nat) (gU : X → StM EWorld Nat) : Prop :=
  ∀ x w r w', (g x).run w = (r, w') → w.dropped ⊆ w'.dropped ∧ (Calm boom w' → (gU x).run (w, false) = (r, (w', false)))

theorem handOver_sub {X : Type} {g : X → StM World Nat} {gU : X → StM EWorld Nat} (h : Follows boom g gU) (xs : List X) (w : World) :
    w.dropped ⊆ (handOver g xs w).2.1.dropped ∧
    (Calm boom (handOver g xs w).2.1 → handOver gU xs (w, false) =
      ((handOver g xs w).1, ((handOver g xs w).2.1, false), (handOver g xs w).2.2)) := by
  induction xs generalizing w with
  | nil => exact ⟨by simp [handOver], fun _ => rfl⟩
  | cons x xs ih =>
    rcases hx : (g x).run w with ⟨r, w1⟩
    obtain ⟨h1, h2⟩ := h x w r w1 hx
    simp only [handOver, hx]
    cases r with
    | error e =>
      refine ⟨h1, fun hc => ?_⟩
      rw [h2 hc]
    | ok z =>
      obtain ⟨i1, i2⟩ := ih w1
      simp only
      rcases hr : handOver g xs w1 with ⟨r, w2, rest⟩
      rw [hr] at i1 i2
      simp only at i1 i2 ⊢
      have hsub : w.dropped ⊆ w2.dropped := fun e he => i1 (h1 he)
      have hcalm : Calm boom w2 → Calm boom w1 := fun hc e he => hc e (i1 he)
      cases r with
      | ok zs =>
        refine ⟨hsub, fun hc => ?_⟩
        rw [h2 (hcalm hc)]
        simp only
        rw [i2 hc]
      | error e =>
        refine ⟨hsub, fun hc => ?_⟩
        rw [h2 (hcalm hc)]
        simp only
        rw [i2 hc]

theorem Beh.follows (f : Nat × Nat → Beh) {Y : Type} (pos : Y → Nat × Nat) :
    Follows boom (fun p : Nat × Y => (f (pos p.2)).act p.1) (fun p => (f (pos p.2)).actU boom p.1) := by
  rintro ⟨x, y⟩ w r w' h
  simp only at h ⊢
  cases hf : f (pos y) with
  | keep => rw [hf] at h; cases h; exact ⟨fun _ h => h, fun _ => rfl⟩
  | replace =>
    rw [hf] at h; cases h
    refine ⟨fun e he => List.mem_append_left _ he, fun hc => ?_⟩
    have hx : boom x = false := hc x (List.mem_append_right _ (by simp))
    show (if boom x = true then _ else _) = _
    rw [hx]; rfl
  | panic =>
    rw [hf] at h; cases h
    refine ⟨fun e he => List.mem_append_left _ he, fun hc => ?_⟩
    have hx : boom x = false := hc x (List.mem_append_right _ (by simp))
    show (_, EWorld.drop _ _ (boom x)) = _
    rw [hx]; rfl

theorem Beh2.follows (f : Nat → Beh2) :
    Follows boom (fun p : Nat × Nat => (f p.1).act p.1 p.2) (fun p => (f p.1).actU boom p.1 p.2) := by
  rintro ⟨x, y⟩ w r w' h
  simp only at h ⊢
  cases hf : f x with
  | left =>
    rw [hf] at h; cases h
    refine ⟨fun e he => List.mem_append_left _ he, fun hc => ?_⟩
    have hy : boom y = false := hc y (List.mem_append_right _ (by simp))
    show (if boom y = true then _ else _) = _
    rw [hy]; rfl
  | right =>
    rw [hf] at h; cases h
    refine ⟨fun e he => List.mem_append_left _ he, fun hc => ?_⟩
    have hx : boom x = false := hc x (List.mem_append_right _ (by simp))
    show (if boom x = true then _ else _) = _
    rw [hx]; rfl
  | replace =>
    rw [hf] at h; cases h
    have ha : (w.dropped ++ [x]) ++ [y] = w.dropped ++ [x, y] := by simp
    refine ⟨fun e he => List.mem_append_left _ (List.mem_append_left _ he), fun hc => ?_⟩
    have hx : boom x = false := hc x (List.mem_append_left _ (List.mem_append_right _ (by simp)))
    have hy : boom y = false := hc y (List.mem_append_right _ (by simp))
    show (if boom x = true then _ else if boom y = true then _ else _) = _
    rw [hx, hy]
    simp only [Bool.false_eq_true, if_false]
    rw [← ha]
  | panic =>
    rw [hf] at h; cases h
    have ha : (w.dropped ++ [y]) ++ [x] = w.dropped ++ [y, x] := by simp
    refine ⟨fun e he => List.mem_append_left _ (List.mem_append_left _ he), fun hc => ?_⟩
    have hy : boom y = false := hc y (List.mem_append_left _ (List.mem_append_right _ (by simp)))
    have hx : boom x = false := hc x (List.mem_append_right _ (by simp))
    show (_, EWorld.drop _ (through boom [y, x]) (boom y || boom x)) = _
    rw [through_calm (by simp [hx, hy]), hx, hy]
    simp only [EWorld.drop, ← ha]; rfl

theorem BehA.follows (f : BehA) (a b : Nat) (w : World) : w.dropped ⊆ (f.act a b w).2.2.dropped ∧
    (Calm boom (f.act a b w).2.2 → f.actU boom a b (w, false) = ((f.act a b w).1, (f.act a b w).2.1, ((f.act a b w).2.2, false))) := by
  cases f with
  | keep =>
    refine ⟨fun e he => List.mem_append_left _ he, fun hc => ?_⟩
    have hb : boom b = false := hc b (List.mem_append_right _ (by simp))
    simp [BehA.act, BehA.actU, hb, EWorld.drop]
  | swap =>
    refine ⟨fun e he => List.mem_append_left _ he, fun hc => ?_⟩
    have ha : boom a = false := hc a (List.mem_append_right _ (by simp))
    simp [BehA.act, BehA.actU, ha, EWorld.drop]
  | replace =>
    refine ⟨fun e he => List.mem_append_left _ he, fun hc => ?_⟩
    have ha : boom a = false := hc a (List.mem_append_right _ (by simp))
    have hb : boom b = false := hc b (List.mem_append_right _ (by simp))
    simp [BehA.act, BehA.actU, ha, hb]
  | panicKeep =>
    refine ⟨fun e he => List.mem_append_left _ he, fun hc => ?_⟩
    have hb : boom b = false := hc b (List.mem_append_right _ (by simp))
    simp [BehA.act, BehA.actU, hb, EWorld.drop]
  | panicReplace =>
    refine ⟨fun e he => List.mem_append_left _ he, fun hc => ?_⟩
    have hb : boom b = false := hc b (List.mem_append_right _ (by simp))
    simp [BehA.act, BehA.actU, hb]

theorem assignAll_calm (f : Nat → BehA) (ps : List (Nat × Nat)) (w : World) :
    w.dropped ⊆ (assignAll (fun e e' => (f e').act e e') ps w).2.2.1.dropped ∧
    (Calm boom (assignAll (fun e e' => (f e').act e e') ps w).2.2.1 →
      assignAll (fun e e' => (f e').actU boom e e') ps (w, false) =
        ((assignAll (fun e e' => (f e').act e e') ps w).1, (assignAll (fun e e' => (f e').act e e') ps w).2.1,
          ((assignAll (fun e e' => (f e').act e e') ps w).2.2.1, false), (assignAll (fun e e' => (f e').act e e') ps w).2.2.2)) := by
  induction ps generalizing w with
  | nil => exact ⟨by simp [assignAll], fun _ => rfl⟩
  | cons p ps ih =>
    obtain ⟨h1, h2⟩ := BehA.follows (boom := boom) (f p.2) p.1 p.2 w
    simp only [assignAll]
    rcases hr : (f p.2).act p.1 p.2 w with ⟨r, a, w1⟩
    rw [hr] at h1 h2
    simp only at h1 h2
    cases r with
    | error e =>
      refine ⟨h1, fun hc => ?_⟩
      rw [h2 hc]
    | ok u =>
      obtain ⟨i1, i2⟩ := ih w1
      simp only
      rcases hs : assignAll (fun e e' => (f e').act e e') ps w1 with ⟨r, as, w2, rest⟩
      rw [hs] at i1 i2
      simp only at i1 i2 ⊢
      refine ⟨fun e he => i1 (h1 he), fun hc => ?_⟩
      rw [h2 fun e he => hc e (i1 he)]
      simp only
      rw [i2 hc]

theorem eq_of_flatten {r c : Nat} {l m : List (List Nat)} (h : l.flatten = m.flatten) (hl : l.length = r ∧ ∀ row ∈ l, row.length = c)
    (hm : m.length = r ∧ ∀ row ∈ m, row.length = c) : l = m := by
  refine List.eq_iff_flatten_eq.2 ⟨h, ?_⟩
  have e1 : l.map List.length = List.replicate r c := by
    rw [List.eq_replicate_iff]; simp [hl.1]; exact hl.2
  have e2 : m.map List.length = List.replicate r c := by
    rw [List.eq_replicate_iff]; simp [hm.1]; exact hm.2
  rw [e1, e2]

theorem mat_of_flatten {r c : Nat} {a b : Mat Nat r c}
    (h : (a.rows.toList.map Vec.toList).flatten = (b.rows.toList.map Vec.toList).flatten) : a = b := by
  have hl : ∀ m : Mat Nat r c, (m.rows.toList.map Vec.toList).length = r ∧ ∀ row ∈ m.rows.toList.map Vec.toList, row.length = c := by
    intro m
    refine ⟨by simp [m.rows.length_eq], fun row hrow => ?_⟩
    obtain ⟨v, -, rfl⟩ := List.mem_map.1 hrow
    exact v.length_eq
  have h1 := eq_of_flatten h (hl a) (hl b)
  have h2 : a.rows.toList = b.rows.toList := (List.map_injective_iff.2 fun u v huv => Vec.ext_toList huv) h1
  have h3 : a.rows = b.rows := Vec.ext_toList h2
  cases a; cases b; simp only at h3; rw [h3]

/-- The two semantics agree on a statement. -/
def Agrees (boom : Nat → Bool) (t : Target) (p : Stmt k) (σ : State k) : Prop :=
  execU boom t p σ = (endOf (exec t p σ).1, (exec t p σ).2)

theorem agrees_map (h : Good t σ lk []) (x y : Fin k) (f : Nat × Nat → Beh) (hcalm : Calm boom (exec t (.map x y f) σ).2.world) :
    Agrees boom t (.map x y f) σ := by
  unfold Agrees
  have hw := h.wf x
  cases hx : σ.vars x with
  | none => simp only [exec, execU, hx]; rfl
  | elem e => simp only [exec, execU, hx]; rfl
  | iter s => simp only [exec, execU, hx]; rfl
  | chunks I s => simp only [exec, execU, hx]; rfl
  | vec n v =>
    rw [hx] at hw
    have hn : n < t.W := hw
    obtain ⟨h1, h2, h3⟩ := C78_vector t (fun i e => (f (i, 0)).act e) v σ.world hn
    obtain ⟨k1, k2, k3⟩ := C78_vector t (fun i e => (f (i, 0)).actU boom e) v (σ.world, false) hn
    have hfol := handOver_sub (Beh.follows (boom := boom) f fun i : Nat => (i, 0)) v.toList.zipIdx σ.world
    simp only [exec, hx] at hcalm
    simp only [exec, execU, hx]
    rcases hc : OwnIt.consume t (fun i e => (f (i, 0)).act e) v σ.world with ⟨res, w, it⟩
    rcases hcU : OwnIt.consume t (fun i e => (f (i, 0)).actU boom e) v (σ.world, false) with ⟨resU, s, itU⟩
    rw [hc] at h1 h2 h3 hcalm
    rw [hcU] at k1 k2 k3
    simp only at h1 h2 h3 k1 k2 k3 hcalm
    rcases ho : handOver (fun p : Nat × Nat => (f (p.2, 0)).act p.1) v.toList.zipIdx σ.world with ⟨r0, w0, rest⟩
    rw [ho] at h1 h2 h3
    simp only [ho] at hfol h1 h2 h3
    subst h1 h2
    simp only [h3.drops, h3.viols] at hcalm ⊢
    cases res with
    | ok zs =>
      simp only at hcalm
      have hcw : Calm boom w := (Calm.of_log (calm_put hcalm)).1
      rw [hfol.2 hcw] at k1 k2 k3
      simp only at k1 k2 k3
      subst k1 k2
      simp only [k3.drops, k3.viols]
      exact putU_calm (t := t) (wf_store h.wf x .none trivial y) hcalm
    | error e =>
      have he : e = .panic := by
        rcases handOver_bal (Beh.fair f fun i : Nat => (i, 0)) v.toList.zipIdx σ.world with ⟨zs, w', ho', _⟩ | ⟨w', rest', l1, ho', _⟩
        · simp only [ho] at ho'; cases ho'
        · simp only [ho] at ho'; cases ho'; rfl
      subst he
      simp only at hcalm
      obtain ⟨hcw, hcr⟩ := Calm.of_log hcalm
      rw [hfol.2 hcw] at k1 k2 k3
      simp only at k1 k2 k3
      subst k1 k2
      simp only [k3.drops, k3.viols, unwound_calm hcr]
      rfl
  | mat r c a =>
    rw [hx] at hw
    obtain ⟨hr, hcc⟩ : r < t.W ∧ c < t.W := hw
    obtain ⟨h1, h2, h3, h4⟩ := C78_matrix t (fun p e => (f p).act e) a σ.world hr hcc
    obtain ⟨k1, k2, k3, k4⟩ := C78_matrix t (fun p e => (f p).actU boom e) a (σ.world, false) hr hcc
    have hlen := consumeMat_lengths t hr hcc (fun p e => (f p).act e) a σ.world
    have klen := consumeMat_lengths t hr hcc (fun p e => (f p).actU boom e) a (σ.world, false)
    have hfol := handOver_sub (Beh.follows (boom := boom) f (id : Nat × Nat → _)) (cells a) σ.world
    simp only [id] at hfol
    simp only [exec, hx] at hcalm
    simp only [exec, execU, hx]
    rcases hc : OwnIt.consumeMat t (fun p e => (f p).act e) a σ.world with ⟨res, w, it⟩
    rcases hcU : OwnIt.consumeMat t (fun p e => (f p).actU boom e) a (σ.world, false) with ⟨resU, s, itU⟩
    rw [hc] at h1 h2 h3 h4 hcalm hlen
    rw [hcU] at k1 k2 k3 k4 klen
    simp only at h1 h2 h3 h4 k1 k2 k3 k4 hcalm hlen klen
    rcases ho : handOver (fun p : Nat × (Nat × Nat) => (f p.2).act p.1) (cells a) σ.world with ⟨r0, w0, rest⟩
    simp only [ho] at hfol h1 h2 h3
    subst h2
    simp only [h3, h4] at hcalm ⊢
    cases res with
    | ok zss =>
      have h1 : r0 = .ok zss.flatten := h1.symm
      subst h1
      simp only at hcalm
      have hcw : Calm boom w := (Calm.of_log (calm_put hcalm)).1
      rw [hfol.2 hcw] at k1 k2 k3
      simp only at k1 k2 k3
      cases resU with
      | error e => cases k1
      | ok zssU =>
        have k1 : zssU.flatten = zss.flatten := Except.ok.inj k1
        have hz : zssU = zss := eq_of_flatten k1 (klen zssU rfl) (hlen zss rfl)
        subst hz k2
        simp only [k3, k4]
        exact putU_calm (t := t) (wf_store h.wf x .none trivial y) hcalm
    | error e =>
      have h1 : r0 = .error e := h1.symm
      subst h1
      have he : e = .panic := by
        rcases handOver_bal (Beh.fair f (id : Nat × Nat → _)) (cells a) σ.world with ⟨zs, w', ho', _⟩ | ⟨w', rest', l1, ho', _⟩
        · simp only [id, ho] at ho'; cases ho'
        · simp only [id, ho] at ho'; cases ho'; rfl
      subst he
      simp only at hcalm
      obtain ⟨hcw, hcr⟩ := Calm.of_log hcalm
      rw [hfol.2 hcw] at k1 k2 k3
      simp only at k1 k2 k3
      cases resU with
      | ok zssU => cases k1
      | error e =>
        have k1 : e = .panic := Except.error.inj k1
        subst k1 k2
        simp only [k3, k4, unwound_calm hcr]
        rfl

theorem agrees_zip (h : Good t σ lk []) (x y z : Fin k) (f : Nat → Beh2) (hcalm : Calm boom (exec t (.zip x y z f) σ).2.world) :
    Agrees boom t (.zip x y z f) σ := by
  unfold Agrees
  have hwx := h.wf x
  by_cases hxy : x = y
  · simp only [exec, execU, if_pos hxy]; rfl
  simp only [exec, if_neg hxy] at hcalm
  simp only [exec, execU, if_neg hxy]
  have hw2 : WF t (((σ.store x .none).store y .none).vars z) :=
    wf_store (wf_store h.wf x .none trivial) y .none trivial z
  cases hx : σ.vars x with
  | none => rfl
  | elem _ => rfl
  | iter _ => rfl
  | chunks _ _ => rfl
  | vec n v =>
    cases hy : σ.vars y with
    | none => rfl
    | elem _ => rfl
    | iter _ => rfl
    | chunks _ _ => rfl
    | mat _ _ _ => rfl
    | vec n' v' =>
      rw [hx, hy] at hcalm
      rw [hx] at hwx
      have hn : n < t.W := hwx
      simp only at hcalm ⊢
      by_cases hnn : n' = n
      · subst hnn
        simp only [dif_pos] at hcalm ⊢
        obtain ⟨h1, h2, h3, h4⟩ := C78_two_vectors t (fun e e' => (f e).act e e') v v' σ.world hn
        obtain ⟨k1, k2, k3, k4⟩ := C78_two_vectors t (fun e e' => (f e).actU boom e e') v v' (σ.world, false) hn
        have hfol := handOver_sub (Beh2.follows (boom := boom) f) (v.toList.zip v'.toList) σ.world
        rcases hc : OwnIt.consume2 t (fun e e' => (f e).act e e') v v' σ.world with ⟨res, w, ia, ib⟩
        rcases hcU : OwnIt.consume2 t (fun e e' => (f e).actU boom e e') v v' (σ.world, false) with ⟨resU, s, ja, jb⟩
        rw [hc] at h1 h2 h3 h4 hcalm
        rw [hcU] at k1 k2 k3 k4
        simp only at h1 h2 h3 h4 k1 k2 k3 k4 hcalm
        rcases ho : handOver (fun p : Nat × Nat => (f p.1).act p.1 p.2) (v.toList.zip v'.toList) σ.world with ⟨r0, w0, rest⟩
        simp only [ho] at hfol h1 h2 h3 h4
        subst h1 h2
        have ll : ∀ (w : World) (a b : List Nat), (w.log a []).log b [] = w.log (a ++ b) [] := fun w a b => by
          simp [World.log]
        simp only [h3.drops, h3.viols, h4.drops, h4.viols, ll] at hcalm ⊢
        cases res with
        | ok zs =>
          simp only at hcalm
          have hcw : Calm boom w := (Calm.of_log (calm_put hcalm)).1
          rw [hfol.2 hcw] at k1 k2 k3 k4
          simp only at k1 k2 k3 k4
          subst k1 k2
          simp only [k3.drops, k3.viols, k4.drops, k4.viols]
          exact putU_calm (t := t) hw2 hcalm
        | error e =>
          have he : e = .panic := by
            rcases handOver_bal (Beh2.fair f) (v.toList.zip v'.toList) σ.world with ⟨zs, w', ho', _⟩ | ⟨w', rest', l1, ho', _⟩
            · simp only [ho] at ho'; cases ho'
            · simp only [ho] at ho'; cases ho'; rfl
          subst he
          simp only at hcalm
          obtain ⟨hcw, hcr⟩ := Calm.of_log hcalm
          rw [hfol.2 hcw] at k1 k2 k3 k4
          simp only at k1 k2 k3 k4
          subst k1 k2
          simp only [k3.drops, k3.viols, k4.drops, k4.viols, List.append_nil, unwound_calm hcr]
          rfl
      · simp only [dif_neg hnn]; rfl
  | mat r c a =>
    cases hy : σ.vars y with
    | none => rfl
    | elem _ => rfl
    | iter _ => rfl
    | chunks _ _ => rfl
    | vec _ _ => rfl
    | mat r' c' a' =>
      rw [hx, hy] at hcalm
      rw [hx] at hwx
      obtain ⟨hr, hcc⟩ : r < t.W ∧ c < t.W := hwx
      simp only at hcalm ⊢
      by_cases hnn : r' = r ∧ c' = c
      · obtain ⟨rfl, rfl⟩ := hnn
        simp only [and_self, dif_pos] at hcalm ⊢
        obtain ⟨h1, h2, h3, h4, h5, h6⟩ := C78_two_matrices t (fun e e' => (f e).act e e') a a' σ.world hr hcc
        obtain ⟨k1, k2, k3, k4, k5, k6⟩ := C78_two_matrices t (fun e e' => (f e).actU boom e e') a a' (σ.world, false) hr hcc
        have hlen := consumeMat2_lengths t hr hcc (fun e e' => (f e).act e e') a a' σ.world
        have klen := consumeMat2_lengths t hr hcc (fun e e' => (f e).actU boom e e') a a' (σ.world, false)
        have hfol := handOver_sub (Beh2.follows (boom := boom) f) (cellPairs a a') σ.world
        rcases hc : OwnIt.consumeMat2 t (fun e e' => (f e).act e e') a a' σ.world with ⟨res, w, ia, ib⟩
        rcases hcU : OwnIt.consumeMat2 t (fun e e' => (f e).actU boom e e') a a' (σ.world, false) with ⟨resU, s, ja, jb⟩
        rw [hc] at h1 h2 h3 h4 h5 h6 hcalm hlen
        rw [hcU] at k1 k2 k3 k4 k5 k6 klen
        simp only at h1 h2 h3 h4 h5 h6 k1 k2 k3 k4 k5 k6 hcalm hlen klen
        rcases ho : handOver (fun p : Nat × Nat => (f p.1).act p.1 p.2) (cellPairs a a') σ.world with ⟨r0, w0, rest⟩
        simp only [ho] at hfol h1 h2 h3 h4
        subst h2
        have ll : ∀ (w : World) (a : List Nat), (w.log a []).log [] [] = w.log a [] := fun w a => by
          simp [World.log]
        simp only [h3, h4, h5, h6, ll] at hcalm ⊢
        cases res with
        | ok zss =>
          have h1 : r0 = .ok zss.flatten := h1.symm
          subst h1
          simp only at hcalm
          have hcw : Calm boom w := (Calm.of_log (calm_put hcalm)).1
          rw [hfol.2 hcw] at k1 k2 k3 k4
          simp only at k1 k2 k3 k4
          cases resU with
          | error e => cases k1
          | ok zssU =>
            have k1 : zssU.flatten = zss.flatten := Except.ok.inj k1
            have hz : zssU = zss := eq_of_flatten k1 (klen zssU rfl) (hlen zss rfl)
            subst hz k2
            simp only [k3, k4, k5, k6]
            exact putU_calm (t := t) hw2 hcalm
        | error e =>
          have h1 : r0 = .error e := h1.symm
          subst h1
          have he : e = .panic := by
            rcases handOver_bal (Beh2.fair f) (cellPairs a a') σ.world with ⟨zs, w', ho', _⟩ | ⟨w', rest', l1, ho', _⟩
            · simp only [ho] at ho'; cases ho'
            · simp only [ho] at ho'; cases ho'; rfl
          subst he
          simp only at hcalm
          obtain ⟨hcw, hcr⟩ := Calm.of_log hcalm
          rw [hfol.2 hcw] at k1 k2 k3 k4
          simp only at k1 k2 k3 k4
          cases resU with
          | ok zssU => cases k1
          | error e =>
            have k1 : e = .panic := Except.error.inj k1
            subst k1 k2
            simp only [k3, k4, k5, k6, List.append_nil, unwound_calm hcr]
            rfl
      · simp only [dif_neg hnn]; rfl

theorem agrees_assign (h : Good t σ lk []) (x y : Fin k) (f : Nat → BehA) (hcalm : Calm boom (exec t (.assign x y f) σ).2.world) :
    Agrees boom t (.assign x y f) σ := by
  unfold Agrees
  have hwx := h.wf x
  by_cases hxy : x = y
  · simp only [exec, execU, if_pos hxy]; rfl
  simp only [exec, if_neg hxy] at hcalm
  simp only [exec, execU, if_neg hxy]
  cases hx : σ.vars x with
  | none => rfl
  | elem _ => rfl
  | iter _ => rfl
  | chunks _ _ => rfl
  | vec n v =>
    cases hy : σ.vars y with
    | none => rfl
    | elem _ => rfl
    | iter _ => rfl
    | chunks _ _ => rfl
    | mat _ _ _ => rfl
    | vec n' v' =>
      rw [hx, hy] at hcalm
      rw [hx] at hwx
      have hn : n < t.W := hwx
      simp only at hcalm ⊢
      by_cases hnn : n' = n
      · subst hnn
        simp only [dif_pos] at hcalm ⊢
        obtain ⟨h1, h2, h3, h4⟩ := C79_vector t (fun e e' => (f e').act e e') v v' σ.world hn
        obtain ⟨k1, k2, k3, k4⟩ := C79_vector t (fun e e' => (f e').actU boom e e') v v' (σ.world, false) hn
        obtain ⟨b1, -, -⟩ := assignAll_bal f (v.toList.zip v'.toList) σ.world
        have hfol := assignAll_calm (boom := boom) f (v.toList.zip v'.toList) σ.world
        rcases hc : OwnIt.assignOwn t (fun e e' => (f e').act e e') v v' σ.world with ⟨res, v1, w, ib⟩
        rcases hcU : OwnIt.assignOwn t (fun e e' => (f e').actU boom e e') v v' (σ.world, false) with ⟨resU, u1, s, jb⟩
        rw [hc] at h1 h2 h3 h4 hcalm
        rw [hcU] at k1 k2 k3 k4
        simp only at h1 h2 h3 h4 k1 k2 k3 k4 hcalm
        rcases ho : assignAll (fun e e' => (f e').act e e') (v.toList.zip v'.toList) σ.world with ⟨r0, as, w0, rest⟩
        simp only [ho] at hfol h1 h2 h3 h4 b1
        subst h1 h3
        simp only [h4.drops, h4.viols] at hcalm ⊢
        obtain ⟨hcw, hcr⟩ := Calm.of_log hcalm
        rw [hfol.2 hcw] at k1 k2 k3 k4
        simp only at k1 k2 k3 k4
        have hv : u1 = v1 := Vec.ext_toList (k2.trans h2.symm)
        subst k1 k3 hv
        cases resU with
        | ok u =>
          simp only [k4.drops, k4.viols]
          rfl
        | error e =>
          have : e = .panic := by cases e with
            | panic => rfl
            | ub => exact absurd rfl b1
          subst this
          simp only [k4.drops, k4.viols, unwound_calm hcr]
          rfl
      · simp only [dif_neg hnn]; rfl
  | mat r c a =>
    cases hy : σ.vars y with
    | none => rfl
    | elem _ => rfl
    | iter _ => rfl
    | chunks _ _ => rfl
    | vec _ _ => rfl
    | mat r' c' a' =>
      rw [hx, hy] at hcalm
      rw [hx] at hwx
      obtain ⟨hr, hcc⟩ : r < t.W ∧ c < t.W := hwx
      simp only at hcalm ⊢
      by_cases hnn : r' = r ∧ c' = c
      · obtain ⟨rfl, rfl⟩ := hnn
        simp only [and_self, dif_pos] at hcalm ⊢
        obtain ⟨h1, h2, h3, h4, h5⟩ := C79_matrix t (fun e e' => (f e').act e e') a a' σ.world hr hcc
        obtain ⟨k1, k2, k3, k4, k5⟩ := C79_matrix t (fun e e' => (f e').actU boom e e') a a' (σ.world, false) hr hcc
        obtain ⟨b1, -, -⟩ := assignAll_bal f (cellPairs a a') σ.world
        have hfol := assignAll_calm (boom := boom) f (cellPairs a a') σ.world
        rcases hc : OwnIt.assignOwnMat t (fun e e' => (f e').act e e') a a' σ.world with ⟨res, v1, w, ib⟩
        rcases hcU : OwnIt.assignOwnMat t (fun e e' => (f e').actU boom e e') a a' (σ.world, false) with ⟨resU, u1, s, jb⟩
        rw [hc] at h1 h2 h3 h4 h5 hcalm
        rw [hcU] at k1 k2 k3 k4 k5
        simp only at h1 h2 h3 h4 h5 k1 k2 k3 k4 k5 hcalm
        rcases ho : assignAll (fun e e' => (f e').act e e') (cellPairs a a') σ.world with ⟨r0, as, w0, rest⟩
        simp only [ho] at hfol h1 h2 h3 h4 b1
        subst h1 h3
        simp only [h4, h5] at hcalm ⊢
        obtain ⟨hcw, hcr⟩ := Calm.of_log hcalm
        rw [hfol.2 hcw] at k1 k2 k3 k4
        simp only at k1 k2 k3 k4
        have hm : u1 = v1 := mat_of_flatten (k2.trans h2.symm)
        subst k1 k3 hm
        cases resU with
        | ok u =>
          simp only [k4, k5]
          rfl
        | error e =>
          have : e = .panic := by cases e with
            | panic => rfl
            | ub => exact absurd rfl b1
          subst this
          simp only [k4, k5, unwound_calm hcr]
          rfl
      · simp only [dif_neg hnn]; rfl

theorem agrees_write (x : Fin k) (i : Nat) (y : Fin k) (hcalm : Calm boom (exec t (.write x i y) σ).2.world) :
    Agrees boom t (.write x i y) σ := by
  unfold Agrees
  simp only [exec] at hcalm
  simp only [exec, execU]
  cases hx : σ.vars x with
  | none => rfl
  | elem _ => rfl
  | iter _ => rfl
  | chunks _ _ => rfl
  | mat _ _ _ => rfl
  | vec n v =>
    cases hy : σ.vars y with
    | none => rfl
    | vec _ _ => rfl
    | iter _ => rfl
    | chunks _ _ => rfl
    | mat _ _ _ => rfl
    | elem e =>
      rw [hx, hy] at hcalm
      simp only at hcalm ⊢
      by_cases hi : i < n
      · have hs : v.indexSet i e = .ok ⟨v.toList.set i e, by rw [List.length_set, v.length_eq]⟩ := by
          unfold Vec.indexSet; rw [if_pos (by rw [v.length_eq]; exact hi)]
        rw [hs] at hcalm ⊢
        simp only at hcalm ⊢
        have hd := (Calm.of_log hcalm).2
        have : (v.toList[i]?).toList.any boom = false := by
          rw [List.any_eq_false]; intro e he; simp [hd e he]
        rw [this]
        rfl
      · rw [C15_vec_set_panic v i (Nat.le_of_not_lt hi)] at hcalm ⊢
        simp only at hcalm ⊢
        rw [unwound_calm (Calm.of_log hcalm).2]
        rfl

theorem agrees_handOut (h : Good t σ lk []) {x y : Fin k} (mk : OwnIt Nat → Obj) (out : Option Obj) (s : OwnIt Nat)
    (hm : WF t (mk (flush s))) (hcalm : Calm boom (handOut σ x y mk out s).world) :
    handOutU boom σ x y mk out s = (.ok, handOut σ x y mk out s) := by
  unfold handOutU handOut at *
  exact putU_calm (t := t) (wf_store h.wf x _ hm y) hcalm

theorem agrees_next (h : Good t σ lk []) (x y : Fin k) (hcalm : Calm boom (exec t (.next x y) σ).2.world) :
    Agrees boom t (.next x y) σ := by
  unfold Agrees
  have hwx := h.wf x
  by_cases hxy : x = y
  · simp only [exec, execU, if_pos hxy]; rfl
  simp only [exec, if_neg hxy] at hcalm
  simp only [exec, execU, if_neg hxy]
  cases hx : σ.vars x with
  | none => rfl
  | elem _ => rfl
  | vec _ _ => rfl
  | mat _ _ _ => rfl
  | iter s =>
    rw [hx] at hcalm hwx
    obtain ⟨F, q, B, rfl, hF⟩ := hwx
    simp only at hcalm ⊢
    cases q with
    | nil =>
      rw [OwnIt.next_nil] at hcalm ⊢
      exact agrees_handOut h .iter _ _ (wf_iter hF) hcalm
    | cons a q =>
      rw [OwnIt.next_cons _ _ _ _ _ _ (by simp only [List.length_cons] at hF; omega)] at hcalm ⊢
      exact agrees_handOut h .iter _ _ (wf_iter (by simp at hF ⊢; omega)) hcalm
  | chunks I s =>
    rw [hx] at hcalm hwx
    obtain ⟨hI, F, B, cs, rfl, hF⟩ := hwx
    simp only at hcalm ⊢
    cases cs with
    | nil =>
      rw [show OwnIt.flat ([] : List (Vec Nat I)) = [] from rfl, OwnIt.chunkNext_nil] at hcalm ⊢
      exact agrees_handOut h (.chunks I) _ _ (wf_chunks hI [] hF) hcalm
    | cons c cs =>
      have hl : F.length + I + cs.length * I < t.W := by
        rw [List.length_cons, Nat.add_mul, Nat.one_mul] at hF; omega
      rw [show OwnIt.flat (c :: cs) = c.toList ++ OwnIt.flat cs from rfl, OwnIt.chunkNext_cons _ hI _ _ _ _ _ (by omega)] at hcalm ⊢
      exact agrees_handOut h (.chunks I) _ _ (wf_chunks hI cs (by rw [List.length_append, c.length_eq]; exact hl)) hcalm

theorem agrees_nextBack (h : Good t σ lk []) (x y : Fin k) (hp : Proper t σ (.nextBack x y))
    (hcalm : Calm boom (exec t (.nextBack x y) σ).2.world) : Agrees boom t (.nextBack x y) σ := by
  unfold Agrees
  have hwx := h.wf x
  by_cases hxy : x = y
  · simp only [exec, execU, if_pos hxy]; rfl
  simp only [exec, if_neg hxy] at hcalm
  simp only [exec, execU, if_neg hxy]
  cases hx : σ.vars x with
  | none => rfl
  | elem _ => rfl
  | vec _ _ => rfl
  | mat _ _ _ => rfl
  | iter s =>
    rw [hx] at hcalm hwx
    obtain ⟨F, q, B, rfl, hF⟩ := hwx
    simp only at hcalm ⊢
    rcases List.eq_nil_or_concat q with rfl | ⟨q, a, rfl⟩
    · have h0 := hp hxy _ hx (slotElems_mk F [] B [])
      have : F = [] := List.eq_nil_of_length_eq_zero h0
      subst this
      rw [OwnIt.nextBack_nil] at hcalm ⊢
      exact agrees_handOut h .iter _ _ (wf_iter hF) hcalm
    · rw [List.concat_eq_append] at hF hx hcalm ⊢
      rw [OwnIt.nextBack_snoc] at hcalm ⊢
      exact agrees_handOut h .iter _ _ (wf_iter (by simp at hF ⊢; omega)) hcalm
  | chunks I s =>
    rw [hx] at hcalm hwx
    obtain ⟨hI, F, B, cs, rfl, hF⟩ := hwx
    simp only at hcalm ⊢
    rcases List.eq_nil_or_concat cs with rfl | ⟨cs, c, rfl⟩
    · rw [show OwnIt.flat ([] : List (Vec Nat I)) = [] from rfl, OwnIt.chunkNextBack_nil] at hcalm ⊢
      exact agrees_handOut h (.chunks I) _ _ (wf_chunks hI [] hF) hcalm
    · have ef : OwnIt.flat (cs.concat c) = OwnIt.flat cs ++ c.toList := by simp [OwnIt.flat]
      have hl : F.length + I + cs.length * I < t.W := by
        rw [List.length_concat, Nat.add_mul, Nat.one_mul] at hF; omega
      rw [ef, OwnIt.chunkNextBack_snoc _ hI] at hcalm ⊢
      exact agrees_handOut h (.chunks I) _ _ (wf_chunks hI cs (by omega)) hcalm

theorem agrees_nth (h : Good t σ lk []) (x y : Fin k) (i : Nat) (hp : Proper t σ (.nth x y i))
    (hcalm : Calm boom (exec t (.nth x y i) σ).2.world) : Agrees boom t (.nth x y i) σ := by
  unfold Agrees
  have hwx := h.wf x
  by_cases hxy : x = y
  · simp only [exec, execU, if_pos hxy]; rfl
  simp only [exec, if_neg hxy] at hcalm
  simp only [exec, execU, if_neg hxy]
  cases hx : σ.vars x with
  | none => rfl
  | elem _ => rfl
  | vec _ _ => rfl
  | mat _ _ _ => rfl
  | chunks _ _ => rfl
  | iter s =>
    rw [hx] at hcalm
    simp only at hcalm ⊢
    rcases hp hxy s hx with hi | ⟨ho, hW⟩
    · rw [hx] at hwx
      obtain ⟨F, q, B, rfl, hF⟩ := hwx
      rw [slotElems_mk] at hi
      obtain ⟨q1, q2, rfl, rfl⟩ : ∃ q1 q2, q = q1 ++ q2 ∧ q1.length = i :=
        ⟨q.take i, q.drop i, (List.take_append_drop i q).symm, by simp [hi]⟩
      rw [List.length_append] at hF
      have hz := OwnIt.nth_ok t (fun _ => false) F q1 q2 B [] (by simp) (by omega)
      rw [hz] at hcalm
      have hb : ∀ s' o, (OwnIt.nextOp t).run (mkIt (F ++ q1) q2 B ([] ++ q1)) = (.ok o, s') → s'.mem.drops = q1 →
          Calm boom (handOut σ x y .iter (o.map .elem) s').world → ∀ e ∈ q1, boom e = false := by
        intro s' o _ hd hc e he
        have := (Calm.of_log (calm_put hc)).2
        rw [hd] at this
        exact this e he
      cases q2 with
      | nil =>
        have hnx := OwnIt.next_nil t (F ++ q1) B ([] ++ q1)
        have hq : ∀ e ∈ q1, boom e = false := by
          rw [hnx] at hcalm
          exact hb _ _ hnx rfl hcalm
        have := OwnIt.nth_ok t boom F q1 [] B [] hq (by omega)
        rw [this, hz, hnx]
        rw [hnx] at hcalm
        exact agrees_handOut h .iter _ _ (wf_iter (by simp at hF ⊢; omega)) hcalm
      | cons a q =>
        rw [List.length_cons] at hF
        have hnx := OwnIt.next_cons t (F ++ q1) q B ([] ++ q1) a (by simp only [List.length_append]; omega)
        have hq : ∀ e ∈ q1, boom e = false := by
          rw [hnx] at hcalm
          exact hb _ _ hnx rfl hcalm
        have := OwnIt.nth_ok t boom F q1 (a :: q) B [] hq (by omega)
        rw [this, hz, hnx]
        rw [hnx] at hcalm
        exact agrees_handOut h .iter _ _ (wf_iter (by simp at hF ⊢; omega)) hcalm
    · have h1 : ∀ boom : Nat → Bool, (OwnIt.nthOp t boom i).run s = (.error .panic, s) := by
        intro boom
        unfold OwnIt.nthOp
        have : uadd t s.next i = .error .panic := by simp [uadd, Nat.not_lt.2 hW, ho]
        rw [StM.run_bind_ok (StM.run_get _), this, StM.run_bind_error (StM.run_liftRes_error _ _)]
      rw [h1, h1]
      rfl

theorem agrees_gather (h : Good t σ lk []) (x y : Fin k) (n : Nat) (hcalm : Calm boom (exec t (.gather x y n) σ).2.world) :
    Agrees boom t (.gather x y n) σ := by
  unfold Agrees
  have hwx := h.wf x
  by_cases hxy : x = y
  · simp only [exec, execU, if_pos hxy]; rfl
  simp only [exec, if_neg hxy] at hcalm
  simp only [exec, execU, if_neg hxy]
  cases hx : σ.vars x with
  | none => rfl
  | elem _ => rfl
  | vec _ _ => rfl
  | mat _ _ _ => rfl
  | chunks _ _ => rfl
  | iter s =>
    rw [hx] at hcalm hwx
    simp only at hcalm ⊢
    obtain ⟨F, q, B, rfl, hF⟩ := hwx
    unfold collectOwn at hcalm ⊢
    unfold collectOwnU
    rw [pull_run t n F q B [] hF] at hcalm ⊢
    have l0 : ∀ (w : World) (d : List Nat), (w.log [] []).log d [] = w.log d [] := fun w d => by simp [World.log]
    have l1 : ∀ (w : World) (d : List Nat), (w.log d []).log [] [] = w.log d [] := fun w d => by simp [World.log]
    have hst : WF t ((σ.store x .none).vars y) := wf_store h.wf x .none trivial y
    by_cases hn : n ≤ q.length
    · rw [if_pos hn] at hcalm ⊢
      have hdm := drop_mk (F ++ q.take n) (q.drop n) B
      cases hd : t.debugAssertions with
      | false =>
        simp only [hd, Bool.false_eq_true, if_false, hdm.1, hdm.2, l0] at hcalm ⊢
        have hq := (Calm.of_log (calm_put hcalm)).2
        rw [OwnIt.drop_ok boom _ _ _ _ hq]
        simp only [endOf, mkMem, List.nil_append]
        exact putU_calm (t := t) hst hcalm
      | true =>
        simp only [hd, if_true, OwnIt.len_mk, l0, hdm.1, hdm.2] at hcalm ⊢
        by_cases hz : (q.drop n).length = 0
        · simp only [if_pos hz] at hcalm ⊢
          have hq := (Calm.of_log (calm_put hcalm)).2
          rw [OwnIt.drop_ok boom _ _ _ _ hq]
          simp only [mkMem, List.nil_append]
          exact putU_calm (t := t) hst hcalm
        · simp only [if_neg hz] at hcalm ⊢
          have hq := (Calm.of_log hcalm).2
          rw [OwnIt.drop_ok boom _ _ _ _ hq]
          rfl
    · rw [if_neg hn] at hcalm ⊢
      have hdm := drop_mk (F ++ q) [] B
      simp only [hdm.1, hdm.2, l1] at hcalm ⊢
      have hq := (Calm.of_log hcalm).2
      simp only [C02_drops t boom n q (by omega) hq, OwnIt.drop_ok boom (F ++ q) [] B [] (by simp)]
      simp only [mkMem, if_true, List.append_nil]
      rfl

theorem agrees_toMat (h : Good t σ lk []) (x : Fin k) (r c : Nat) : Agrees boom t (.toMat x r c) σ := by
  unfold Agrees
  have hwx := h.wf x
  simp only [exec, execU]
  cases hx : σ.vars x with
  | none => rfl
  | elem _ => rfl
  | iter _ => rfl
  | mat _ _ _ => rfl
  | chunks _ _ => rfl
  | vec n v =>
    rw [hx] at hwx
    simp only
    by_cases hn : n = r * c ∧ 0 < c
    · simp only [dif_pos hn]
      obtain ⟨rfl, hc⟩ := hn
      have hd : c ∣ r * c := ⟨r, Nat.mul_comm _ _⟩
      have hlen : (chunksOf c v hd).length = r := by
        rw [(C12_chunk_contents c hd v).1, Nat.mul_div_cancel _ hc]
      simp only
      rw [fromVector_run t hc v hwx hd hlen]
      simp only [OwnIt.drop_ok _ v.toList [] [] [] (by simp : ∀ x ∈ ([] : List Nat), _)]
      rfl
    · simp only [dif_neg hn]; rfl

theorem agrees_collect (h : Good t σ lk []) (x : Fin k) (n : Nat) (src : List Bool) (hcalm : Calm boom (exec t (.collect x n src) σ).2.world) :
    Agrees boom t (.collect x n src) σ := by
  unfold Agrees
  simp only [exec, asked] at hcalm
  simp only [exec, execU, askedU, asked]
  generalize hi : σ.world.fresh = i at *
  generalize ha : (src.takeWhile id).length = a at *
  have hs := steps_eq i src
  rw [ha] at hs
  have split : ∀ m, n ≤ m → List.range' i m = List.range' i n ++ List.range' (i + n) (m - n) := by
    intro m hm
    conv_lhs => rw [show m = n + (m - n) by omega]
    rw [← List.range'_append]; simp
  have rn : (List.range' i n).length = n := by simp
  by_cases hlt : a < n
  · have hk : (if t.debugAssertions = true ∧ n ≤ a then n + (through boom (List.range' (i + n) (a - n))).length else min n a) = a := by
      rw [if_neg (by omega)]; omega
    have hk' : (if t.debugAssertions = true then a else min n a) = a := by split <;> omega
    rw [hk, hk']
    rw [hk'] at hcalm
    rcases hs with hs | ⟨rest, hs⟩
    · have hz := C02_drops t (fun _ => false) n (List.range' i a) (by simpa using hlt) (by simp)
      rw [hs, hz] at hcalm
      have hb := (Calm.of_log hcalm).2
      rw [hs, hz, C02_drops t boom n (List.range' i a) (by simpa using hlt) hb]
      rfl
    · rw [hs, C04_source_panics t boom n (List.range' i a) rest (by simpa using hlt),
        C04_source_panics t (fun _ => false) n (List.range' i a) rest (by simpa using hlt)]
      rfl
  · have hle : n ≤ a := Nat.le_of_not_lt hlt
    cases hd : t.debugAssertions with
    | false =>
      have h3 := fun boom rest => C03_memory_release t hd boom (List.range' i n) rest
      rw [rn] at h3
      have hk : (if false = true ∧ n ≤ a then n + (through boom (List.range' (i + n) (a - n))).length else min n a) = n := by
        rw [if_neg (by simp)]; omega
      have hk' : (if false = true then a else min n a) = n := by rw [if_neg (by simp)]; omega
      rw [hd, hk'] at hcalm
      rw [hk, hk']
      have hsp : ∃ rest', steps i src = (List.range' i n).map .item ++ rest' := by
        rcases hs with hs | ⟨rest, hs⟩
        · exact ⟨_, by rw [hs, split a hle, List.map_append]⟩
        · exact ⟨_, by rw [hs, split a hle, List.map_append, List.append_assoc]⟩
      obtain ⟨rest', hsp⟩ := hsp
      rw [hsp, h3] at hcalm
      rw [hsp, h3 boom, h3 (fun _ => false)]
      exact putU_calm (t := t) (h.wf x) hcalm
    | true =>
      rw [if_pos ⟨rfl, hle⟩, if_pos rfl]
      rw [hd, if_pos rfl] at hcalm
      have surplus : (∀ e ∈ List.range' (i + n) (a - n), boom e = false) →
          n + (through boom (List.range' (i + n) (a - n))).length = a := by
        intro hb
        rw [through_calm hb]; simp; omega
      rcases hs with hs | ⟨rest, hs⟩
      · by_cases he : a = n
        · have h3 := fun boom => C01_memory t boom (List.range' i n)
          rw [rn] at h3
          rw [surplus (by simp [he])]
          rw [hs, he, h3] at hcalm
          rw [hs, he, h3 boom, h3 (fun _ => false)]
          exact putU_calm (t := t) (h.wf x) hcalm
        · have h3 := fun boom hb => C03_memory_debug t hd boom (List.range' i n) (List.range' (i + n) (a - n)) (by simp; omega) hb
          rw [rn, ← split a hle] at h3
          rw [hs, h3 (fun _ => false) (by simp)] at hcalm
          have hb := (Calm.of_log hcalm).2
          rw [hs, h3 (fun _ => false) (by simp), h3 boom hb, surplus hb]
          rfl
      · have h3 := fun boom hb => C04_count_panics t hd boom (List.range' i n) (List.range' (i + n) (a - n)) hb rest
        rw [rn, ← List.append_assoc, ← List.map_append, ← split a hle] at h3
        rw [hs, h3 (fun _ => false) (by simp)] at hcalm
        have hb := (Calm.of_log hcalm).2
        rw [hs, h3 (fun _ => false) (by simp), h3 boom hb, surplus hb]
        rfl

theorem agrees_exec (h : Good t σ lk []) (p : Stmt k) (hp : Proper t σ p) (hc : Calm boom (exec t p σ).2.world) :
    Agrees boom t p σ := by
  cases p with
  | new x => exact putU_calm (t := t) (h.wf x) hc
  | collect x n src => exact agrees_collect h x n src hc
  | drop x => exact putU_calm (t := t) (h.wf x) hc
  | move x y =>
    unfold Agrees
    by_cases hxy : x = y
    · simp only [exec, execU, if_pos hxy]; rfl
    · simp only [exec, if_neg hxy] at hc
      simp only [exec, execU, if_neg hxy]
      exact putU_calm (t := t) (wf_store h.wf x .none trivial y) hc
  | map x y f => exact agrees_map h x y f hc
  | zip x y z f => exact agrees_zip h x y z f hc
  | assign x y f => exact agrees_assign h x y f hc
  | write x i y => exact agrees_write x i y hc
  | intoIter x => unfold Agrees; simp only [exec, execU]; cases σ.vars x <;> rfl
  | intoChunks x I =>
    unfold Agrees; simp only [exec, execU]
    cases σ.vars x <;> try rfl
    dsimp only; split <;> rfl
  | next x y => exact agrees_next h x y hc
  | nextBack x y => exact agrees_nextBack h x y hp hc
  | nth x y i => exact agrees_nth h x y i hp hc
  | gather x y n => exact agrees_gather h x y n hc
  | toMat x r c => exact agrees_toMat h x r c

theorem finish_gone {k : Nat} (s : Table k) (y : Fin k) (mk : List Nat → Shown) (left d : List Nat) (f : Nat) (r : Option (List Nat)) :
    s.gone ⊆ (finish s y mk left d f r).2.gone := by
  unfold finish
  cases r <;> (intro e he; simp [Table.assign, Table.destroy, Table.set, he])

theorem perform_gone (t : Target) (p : Stmt k) (s : Table k) : s.gone ⊆ (perform t p s).2.gone := by
  have ff : ∀ (s' : Table k) (y : Fin k) (mk : List Nat → Shown) (left d : List Nat) (f : Nat) (r : Option (List Nat)) (e : Nat),
      e ∈ s'.gone → e ∈ (finish s' y mk left d f r).2.gone := fun s' y mk left d f r e he => finish_gone s' y mk left d f r he
  intro e he
  cases p <;> simp only [perform] <;> (repeat' split) <;>
    first
    | exact he
    | exact ff _ _ _ _ _ _ _ _ he
    | simp [Table.assign, Table.destroy, Table.set, Table.create, he]

theorem exec_sub (h : Good t σ lk []) (p : Stmt k) (hp : Proper t σ p) : σ.world.dropped ⊆ (exec t p σ).2.world.dropped := by
  have := (agree_exec h.wf p ((allowed_iff h.wf p).2 hp)).2
  have e : (exec t p σ).2.world.dropped = (perform t p (table σ)).2.gone := by rw [← this]; rfl
  rw [e]
  exact perform_gone t p (table σ)

theorem agrees_run (ps : List (Stmt k)) (h : Good t σ lk []) (hp : Careful t ps σ)
    (hc : Calm boom (run t ps σ).2.world) :
    σ.world.dropped ⊆ (run t ps σ).2.world.dropped ∧
    runU boom t ps σ = ((run t ps σ).1.map endOf, (run t ps σ).2) := by
  induction ps generalizing σ lk with
  | nil => exact ⟨fun _ h => h, rfl⟩
  | cons p ps ih =>
    obtain ⟨hp1, hp2⟩ := hp
    obtain ⟨hne, lk', g, -⟩ := fine_exec h p hp1
    rw [run_cons h p ps hp1] at hc ⊢
    obtain ⟨i1, i2⟩ := ih g hp2 hc
    refine ⟨fun e he => i1 (exec_sub h p hp1 he), ?_⟩
    have ha : execU boom t p σ = _ := agrees_exec h p hp1 fun e he => hc e (i1 he)
    rw [runU, ha]
    simp only
    cases hr : (exec t p σ).1 with
    | ok u => simp only [endOf, i2, List.map_cons]
    | error f =>
      cases f with
      | ub => exact absurd hr hne
      | panic => simp only [endOf, Fault.toEnd, i2, List.map_cons]

theorem leaveU_calm (xs : List (Fin k)) (h : ∀ x, WF t (σ.vars x))
    (hc : Calm boom (xs.foldl (fun σ x => σ.put x .none) σ).world) :
    σ.world.dropped ⊆ (xs.foldl (fun σ x => σ.put x .none) σ).world.dropped ∧
    leaveU boom .ok xs σ = (.ok, xs.foldl (fun σ x => σ.put x .none) σ) := by
  induction xs generalizing σ with
  | nil => exact ⟨fun _ h => h, rfl⟩
  | cons x xs ih =>
    have hw' : ∀ y, WF t ((σ.put x .none).vars y) := fun y => by
      simp only [State.put]
      split
      · trivial
      · exact h y
    rw [List.foldl_cons] at hc ⊢
    obtain ⟨i1, i2⟩ := ih hw' hc
    have hp := putU_calm (boom := boom) (x := x) (o := .none) (h x) fun e he => hc e (i1 he)
    refine ⟨fun e he => i1 (List.mem_append_left _ he), ?_⟩
    rw [leaveU, hp]
    exact i2

/-- C110: as long as no destructor that runs panics, the program does exactly what C106 and C108 say: every statement ends the
same way, and the variables and the log are the same. -/
theorem C110_agrees (boom : Nat → Bool) (t : Target) (ps : List (Stmt k)) (hp : Careful t ps (init : State k))
    (hc : ∀ e ∈ (run t ps (init : State k)).2.world.dropped, boom e = false) :
    runU boom t ps init = ((run t ps (init : State k)).1.map endOf, (run t ps init).2) :=
  (agrees_run ps (good_init (t := t)) hp hc).2

/-- C110: the same with the end of the scope. -/
theorem C110_agrees_scope (boom : Nat → Bool) (t : Target) (ps : List (Stmt k)) (hp : Careful t ps (init : State k))
    (hc : ∀ e ∈ (endScope (run t ps (init : State k)).2).world.dropped, boom e = false) :
    runU boom t ps init = ((run t ps (init : State k)).1.map endOf, (run t ps init).2) ∧
    endScopeU boom (run t ps (init : State k)).2 = (.ok, endScope (run t ps init).2) := by
  obtain ⟨-, lk, g, -⟩ := run_good ps (good_init (k := k) (t := t)) hp
  obtain ⟨i1, i2⟩ := leaveU_calm (t := t) (List.finRange k) g.wf hc
  exact ⟨C110_agrees boom t ps hp fun e he => hc e (i1 he), i2⟩

/-! ## What a panicking destructor does to a container -/

/-- How many destructors in `l` panic. -/
def booms (boom : Nat → Bool) (l : List Nat) : Nat := (l.filter boom).length

theorem any_eq_booms (l : List Nat) : l.any boom = decide (0 < booms boom l) := by
  rw [Bool.eq_iff_iff, decide_eq_true_iff, booms, List.length_pos_iff]
  simp [List.filter_eq_nil_iff]

/-- C110: dropping a vector or a matrix (outside unwinding), `l` its elements in order.  No destructor panics: all are
destroyed in order.  Exactly one panics: all are destroyed in order all the same, and the panic goes on.  Two or more: abort after the
second, which is the last element destroyed. -/
theorem C110_array_drop (boom : Nat → Bool) (l : List Nat) :
    (booms boom l = 0 → arrayDrop boom l = (.ok, l)) ∧
    (booms boom l = 1 → arrayDrop boom l = (.panic, l)) ∧
    (2 ≤ booms boom l → ∃ a b x, l = a ++ x :: b ∧ boom x = true ∧ booms boom a = 1 ∧ arrayDrop boom l = (.abort, a ++ [x])) := by
  have thr : ∀ l : List Nat, 0 < booms boom l →
      ∃ a b x, l = a ++ x :: b ∧ boom x = true ∧ booms boom a = 0 ∧ through boom l = a ++ [x] := by
    intro l
    induction l with
    | nil => simp [booms]
    | cons y l ih =>
      intro h
      by_cases hy : boom y = true
      · exact ⟨[], l, y, rfl, hy, rfl, by simp [through, hy]⟩
      · obtain ⟨a, b, x, rfl, hx, ha, ht⟩ := ih (by simpa [booms, hy] using h)
        exact ⟨y :: a, b, x, rfl, hx, by simpa [booms, hy] using ha, by simp [through, hy, ht]⟩
  induction l with
  | nil => simp [booms, arrayDrop]
  | cons y l ih =>
    by_cases hy : boom y = true
    · have hb : booms boom (y :: l) = booms boom l + 1 := by simp [booms, hy]
      refine ⟨fun h => by omega, fun h => ?_, fun h => ?_⟩
      · have h0 : booms boom l = 0 := by omega
        have hall : ∀ e ∈ l, boom e = false := by
          intro e he
          have : l.filter boom = [] := List.eq_nil_of_length_eq_zero h0
          have := (List.filter_eq_nil_iff.1 this) e he
          simpa using this
        rw [arrayDrop, if_pos hy, any_eq_booms, h0, through_calm hall]; rfl
      · obtain ⟨a, b, x, rfl, hx, ha, ht⟩ := thr l (by omega)
        refine ⟨y :: a, b, x, rfl, hx, ?_, ?_⟩
        · simpa [booms, hy] using ha
        · rw [arrayDrop, if_pos hy, any_eq_booms, if_pos (by simp; omega), ht]; rfl
    · have hb : booms boom (y :: l) = booms boom l := by simp [booms, hy]
      rw [hb]
      obtain ⟨i1, i2, i3⟩ := ih
      refine ⟨fun h => ?_, fun h => ?_, fun h => ?_⟩
      · rw [arrayDrop, if_neg hy, i1 h]
      · rw [arrayDrop, if_neg hy, i2 h]
      · obtain ⟨a, b, x, rfl, hx, ha, ht⟩ := i3 h
        refine ⟨y :: a, b, x, rfl, hx, ?_, ?_⟩
        · simpa [booms, hy] using ha
        · rw [arrayDrop, if_neg hy, ht]; rfl

/-- C110: destroying a variable that holds a vector or a matrix. -/
theorem C110_drop_array (boom : Nat → Bool) (t : Target) (σ : State k) (x : Fin k)
    (hx : (∃ n v, σ.vars x = .vec n v) ∨ ∃ r c a, σ.vars x = .mat r c a) :
    let l := owns (σ.vars x)
    let r := execU boom t (.drop x) σ
    r.2.vars x = .none ∧ r.2.world.viols = σ.world.viols ∧
    (booms boom l = 0 → r.1 = .ok ∧ r.2.world.dropped = σ.world.dropped ++ l) ∧
    (booms boom l = 1 → r.1 = .panic ∧ r.2.world.dropped = σ.world.dropped ++ l) ∧
    (2 ≤ booms boom l → ∃ a b e, l = a ++ e :: b ∧ boom e = true ∧ booms boom a = 1 ∧ r.1 = .abort ∧
      r.2.world.dropped = σ.world.dropped ++ a ++ [e]) := by
  intro l r
  have hr : r = ((arrayDrop boom l).1, { vars := fun i => if i = x then .none else σ.vars i, world := σ.world.log (arrayDrop boom l).2 [] }) := by
    simp only [r, l, execU, State.putU]
    rcases hx with ⟨n, v, hx⟩ | ⟨m, c, a, hx⟩ <;> rw [hx] <;> rfl
  obtain ⟨h0, h1, h2⟩ := C110_array_drop boom l
  rw [hr]
  refine ⟨by simp, by simp [World.log], fun h => ?_, fun h => ?_, fun h => ?_⟩
  · rw [h0 h]; exact ⟨rfl, rfl⟩
  · rw [h1 h]; exact ⟨rfl, rfl⟩
  · obtain ⟨a, b, e, e1, e2, e3, e4⟩ := h2 h
    refine ⟨a, b, e, e1, e2, e3, ?_⟩
    rw [e4]
    exact ⟨rfl, by simp [World.log]⟩

/-- C110: destroying a variable that holds an owning iterator, after any careful program: the elements it still holds are destroyed in
order up to and including the first whose destructor panics; the others are leaked, and the panic goes on. -/
theorem C110_drop_iter (boom : Nat → Bool) (t : Target) (ps : List (Stmt k)) (hp : CarefulU boom t ps (init : State k))
    (x : Fin k) (s : OwnIt Nat) (hx : (runU boom t ps init).2.vars x = .iter s) :
    let σ := (runU boom t ps (init : State k)).2
    let l := owns (.iter s)
    let r := execU boom t (.drop x) σ
    r.2.vars x = .none ∧ r.2.world.viols = [] ∧
    ((∀ e ∈ l, boom e = false) → r.1 = .ok ∧ r.2.world.dropped = σ.world.dropped ++ l) ∧
    (∀ a e b, l = a ++ e :: b → (∀ y ∈ a, boom y = false) → boom e = true →
      r.1 = .panic ∧ r.2.world.dropped = σ.world.dropped ++ a ++ [e] ∧ ∀ y ∈ b, y ∉ r.2.world.dropped) := by
  intro σ l r
  obtain ⟨-, lk, g, -⟩ := runU_good ps (good_init (k := k) (t := t)) hp
  have hw := g.wf x
  rw [hx] at hw
  obtain ⟨F, q, B, rfl, hF⟩ := hw
  have hl : l = q := slotElems_mk F q B []
  have hr : r = (endOf ((OwnIt.dropOp boom).run (mkIt F q B [])).1,
      { vars := fun i => if i = x then .none else σ.vars i,
        world := σ.world.log ((OwnIt.dropOp boom).run (mkIt F q B [])).2.mem.drops ((OwnIt.dropOp boom).run (mkIt F q B [])).2.mem.viols }) := by
    simp only [r, execU, State.putU, σ]
    rw [hx]; rfl
  have hv : r.2.world.viols = [] := by
    obtain ⟨d, -, hv, -⟩ := dropIt_spec boom F q B
    rw [hr]
    simp only [World.log, hv, List.append_nil]
    exact g.viols
  refine ⟨by rw [hr]; simp, hv, fun h => ?_, fun a e b hab ha he => ?_⟩
  · rw [hl] at h ⊢
    rw [hr, OwnIt.drop_ok boom F q B [] h]
    exact ⟨rfl, by simp [World.log, mkMem]⟩
  · rw [hl] at hab
    subst hab
    have hd : r.2.world.dropped = σ.world.dropped ++ a ++ [e] := by
      rw [hr, OwnIt.drop_panic boom F a e b B [] ha he]
      simp [World.log, mkMem]
    refine ⟨by rw [hr, OwnIt.drop_panic boom F a e b B [] ha he]; rfl, hd, fun y hy hy' => ?_⟩
    rw [hd, List.append_assoc] at hy'
    have hbal : σ.world.dropped.count y + lk.count y + ownCount σ y + ([] : List Nat).count y = ind σ.world.fresh y := g.bal y
    have hown : (owns (σ.vars x)).count y ≤ ownCount σ y := by
      unfold ownCount
      rw [← Finset.add_sum_erase _ _ (Finset.mem_univ x)]
      exact Nat.le_add_right _ _
    have hcount : (owns (σ.vars x)).count y = (a ++ e :: b).count y := by
      simp only [σ]; rw [hx]
      exact congrArg (List.count y) (slotElems_mk F (a ++ e :: b) B [])
    have hle : ind σ.world.fresh y ≤ 1 := by unfold ind; split <;> omega
    have h1 : 1 ≤ b.count y := List.count_pos_iff.2 hy
    have h2 : 1 ≤ (σ.world.dropped ++ (a ++ [e])).count y := List.count_pos_iff.2 hy'
    have e3 : (a ++ e :: b).count y = (a ++ [e]).count y + b.count y := by
      rw [← List.count_append]; simp
    rw [List.count_append] at h2
    have : σ.world.dropped.count y + ownCount σ y ≤ ind σ.world.fresh y := by
      rw [← hbal]; omega
    omega

/-! ## The two calls that mishandle a panicking destructor -/

/-- C110: collecting from a source that ends too early, having given an element whose destructor panics, is undefined behaviour in every
state and every build: the first element received is destroyed twice (C05). -/
theorem C110_short_collect (boom : Nat → Bool) (t : Target) (σ : State k) (x : Fin k) (n : Nat) (src : List Bool)
    (hs : src.length < n) (hno : false ∉ src) (e : Nat) (h1 : σ.world.fresh ≤ e) (h2 : e < σ.world.fresh + src.length) (he : boom e = true) :
    (execU boom t (.collect x n src) σ).1 = .ub ∧
    .dropGone 0 ∈ (execU boom t (.collect x n src) σ).2.world.viols ∧
    [σ.world.fresh, σ.world.fresh].Sublist (execU boom t (.collect x n src) σ).2.world.dropped := by
  have hst : steps σ.world.fresh src = (List.range' σ.world.fresh src.length).map .item := by
    clear hs h2
    generalize σ.world.fresh = i
    induction src generalizing i with
    | nil => rfl
    | cons b src ih =>
      cases b with
      | false => exact absurd List.mem_cons_self hno
      | true =>
        have := ih (fun h => hno (List.mem_cons_of_mem _ h)) (i + 1)
        simp only [steps, List.length_cons, List.range'_succ, List.map_cons, this]
  obtain ⟨a, xs, hr⟩ : ∃ a xs, List.range' σ.world.fresh src.length = a :: xs := by
    cases hc : List.range' σ.world.fresh src.length with
    | nil => have := congrArg List.length hc; simp only [List.length_range', List.length_nil] at this; omega
    | cons a xs => exact ⟨a, xs, rfl⟩
  have ha : a = σ.world.fresh := by
    have : src.length = (src.length - 1) + 1 := by omega
    rw [this, List.range'_succ] at hr
    exact (List.cons.inj hr).1.symm
  have hlen : (a :: xs).length < n := by rw [← hr]; simpa using hs
  have hex : ∃ y ∈ a :: xs, boom y = true := ⟨e, by rw [← hr, List.mem_range'_1]; exact ⟨h1, h2⟩, he⟩
  obtain ⟨v1, v2⟩ := C05_false t boom n a xs hlen hex
  have v0 : (Mem.fromIterMem t boom n ((a :: xs).map .item)).1 = .error .panic := by
    rcases first_boom boom (a :: xs) with hn | ⟨p, z, q, hq, hp, hz⟩
    · obtain ⟨y, hy, hy'⟩ := hex
      rw [hn y hy] at hy'; cases hy'
    · rw [hq]; exact (short_boom t boom n p q z (by rw [← hq]; exact hlen) hp hz).1
  rw [execU, hst, hr]
  rcases hm : Mem.fromIterMem t boom n ((a :: xs).map .item) with ⟨res, m⟩
  rw [hm] at v0 v1 v2
  simp only at v0 v1 v2
  subst v0
  simp only
  refine ⟨?_, ?_, ?_⟩
  · rw [if_neg (by intro h; rw [h] at v1; simp at v1)]
  · exact List.mem_append_right _ v1
  · rw [← ha]; exact v2.trans (List.sublist_append_right _ _)

/-- C110: after any careful program, `nth` on an owning iterator that skips an element whose destructor panics leaves the iterator such that
destroying it is undefined behaviour: elements are destroyed again (C11). -/
theorem C110_nth_skips (boom : Nat → Bool) (t : Target) (ps : List (Stmt k)) (hp : CarefulU boom t ps (init : State k))
    (x y : Fin k) (hxy : x ≠ y) (s : OwnIt Nat) (hx : (runU boom t ps init).2.vars x = .iter s) (i : Nat) (hi : i ≤ (owns (.iter s)).length)
    (hb : ∃ e ∈ (owns (.iter s)).take i, boom e = true) :
    let r := execU boom t (.nth x y i) (runU boom t ps (init : State k)).2
    r.1 = .panic ∧ (execU boom t (.drop x) r.2).2.world.viols ≠ [] := by
  obtain ⟨-, lk, g, -⟩ := runU_good ps (good_init (k := k) (t := t)) hp
  have hw := g.wf x
  rw [hx] at hw
  obtain ⟨F, q, B, rfl, hF⟩ := hw
  have hl : owns (.iter (mkIt F q B [])) = q := slotElems_mk F q B []
  rw [hl] at hi hb
  rcases first_boom boom (q.take i) with hn | ⟨p, e, s, hq, h2, h3⟩
  · obtain ⟨y, hy, hy'⟩ := hb
    rw [hn y hy] at hy'; cases hy'
  have hpk : p.length < i := by
    have := congrArg List.length hq
    simp at this; omega
  have e1 : q = p ++ e :: (s ++ q.drop i) := by
    rw [← List.cons_append, ← List.append_assoc, ← hq, List.take_append_drop]
  have hn := OwnIt.nth_panic t boom F p e (s ++ q.drop i) B [] i h2 h3 hpk (by omega)
  rw [← e1] at hn
  intro r
  have hr : r = (.panic, { (runU boom t ps (init : State k)).2.store x (.iter (flush ((OwnIt.nthOp t boom i).run (mkIt F q B [])).2)) with
      world := (runU boom t ps (init : State k)).2.world.log ((OwnIt.nthOp t boom i).run (mkIt F q B [])).2.mem.drops
        ((OwnIt.nthOp t boom i).run (mkIt F q B [])).2.mem.viols }) := by
    simp only [r, execU, if_neg hxy, hx]
    rw [hn]; rfl
  rw [hr]
  refine ⟨rfl, ?_⟩
  have hpo : OwnIt.Poisoned (flush ((OwnIt.nthOp t boom i).run (mkIt F q B [])).2) := by
    rw [hn]
    refine .inr ⟨?_, fun j hj => ?_⟩
    · simp only [flush]
      have := congrArg List.length e1
      simp at this; omega
    · simp only [flush] at hj
      simp only [flush, mkMem, List.append_assoc]
      have hlt : j < (F ++ p ++ [e]).length := by simp; omega
      refine ⟨(F ++ p ++ [e])[j], ?_⟩
      rw [List.getElem?_append_left (by simpa using hlt)]
      simp only [← List.append_assoc]
      rw [List.getElem?_map, List.getElem?_eq_getElem hlt]; rfl
  have := OwnIt.poisoned_drop boom _ hpo
  simp only [execU, State.putU, State.store, if_true, Obj.destroyed, World.log]
  intro h
  exact this (List.append_eq_nil_iff.1 h).2

/-! ## Examples -/

instance (boom : Nat → Bool) (t : Target) (σ : State k) (p : Stmt k) : Decidable (ProperU boom t σ p) := by
  cases p with
  | collect x n src =>
    refine decidable_of_iff (Proper t σ (.collect x n src) ∧ (src.length < n → false ∉ src →
      ∀ e ∈ List.range' σ.world.fresh src.length, boom e = false)) ?_
    simp only [ProperU, List.mem_range'_1, and_imp]
  | gather x y n =>
    cases hx : σ.vars x with
    | iter s =>
      refine decidable_of_iff (Proper t σ (.gather x y n) ∧ (x ≠ y → (slotElems s.mem.slots).length < n →
        ∀ e ∈ slotElems s.mem.slots, boom e = false)) ?_
      simp only [ProperU]
      refine and_congr_right fun _ => ⟨fun h hxy s' hs => ?_, fun h hxy => h hxy s hx⟩
      rw [hx] at hs; cases hs; exact h hxy
    | none => exact decidable_of_iff (Proper t σ (.gather x y n)) (by simp [ProperU, hx])
    | elem e => exact decidable_of_iff (Proper t σ (.gather x y n)) (by simp [ProperU, hx])
    | vec n v => exact decidable_of_iff (Proper t σ (.gather x y _)) (by simp [ProperU, hx]; rfl)
    | mat r c a => exact decidable_of_iff (Proper t σ (.gather x y n)) (by simp [ProperU, hx])
    | chunks I s => exact decidable_of_iff (Proper t σ (.gather x y n)) (by simp [ProperU, hx])
  | nth x y i =>
    cases hx : σ.vars x with
    | iter s =>
      refine decidable_of_iff (x ≠ y → (i ≤ (slotElems s.mem.slots).length ∧ ∀ e ∈ (slotElems s.mem.slots).take i, boom e = false) ∨
        (t.overflowChecks = true ∧ t.W ≤ s.next + i)) ⟨fun h hxy s' hs => ?_, fun h hxy => h hxy s hx⟩
      rw [hx] at hs; cases hs; exact h hxy
    | none => exact .isTrue fun _ s hs => by rw [hx] at hs; cases hs
    | elem e => exact .isTrue fun _ s hs => by rw [hx] at hs; cases hs
    | vec n v => exact .isTrue fun _ s hs => by rw [hx] at hs; cases hs
    | mat r c a => exact .isTrue fun _ s hs => by rw [hx] at hs; cases hs
    | chunks I s => exact .isTrue fun _ s hs => by rw [hx] at hs; cases hs
  | nextBack x y => exact inferInstanceAs (Decidable (Proper t σ (.nextBack x y)))
  | toMat x r c => exact inferInstanceAs (Decidable (Proper t σ (.toMat x r c)))
  | new x => exact .isTrue trivial
  | drop x => exact .isTrue trivial
  | move x y => exact .isTrue trivial
  | map x y f => exact .isTrue trivial
  | zip x y z f => exact .isTrue trivial
  | assign x y f => exact .isTrue trivial
  | write x i y => exact .isTrue trivial
  | intoIter x => exact .isTrue trivial
  | intoChunks x I => exact .isTrue trivial
  | next x y => exact .isTrue trivial

def decCarefulU (boom : Nat → Bool) (t : Target) : (ps : List (Stmt k)) → (σ : State k) → Decidable (CarefulU boom t ps σ)
  | [], _ => .isTrue trivial
  | p :: ps, σ =>
    have : Decidable (CarefulU boom t ps (execU boom t p σ).2) := decCarefulU boom t ps _
    inferInstanceAs (Decidable (_ ∧ (_ → _)))

instance (boom : Nat → Bool) (t : Target) (ps : List (Stmt k)) (σ : State k) : Decidable (CarefulU boom t ps σ) := decCarefulU boom t ps σ

/-- The sample program of C106 when the destructors of 9 and 14 panic meets the hypothesis: `zip` now ends because destroying 9
panics, and so does the later assignment that destroys 14. -/
example : CarefulU (fun e => e == 9 || e == 14) ⟨true, true, 2 ^ 64⟩ sample init := by decide +kernel

example : (runU (fun e => e == 9 || e == 14) ⟨true, true, 2 ^ 64⟩ sample init).1 =
    [.ok, .ok, .ok, .ok, .ok, .panic, .ok, .ok, .ok, .ok, .ok, .ok, .ok, .ok, .ok, .ok, .panic, .ok, .ok, .ok] := by decide +kernel

/-- One program, three endings: a vector of four elements in a variable, and one panicking destructor, two, or none. -/
example : (endScopeU (fun e => e == 1) (runU (fun e => e == 1) ⟨true, true, 2 ^ 64⟩ [.collect 0 4 [true, true, true, true]] (init : State 1)).2).1 = .panic ∧
    (endScopeU (fun e => e == 1) (runU (fun e => e == 1) ⟨true, true, 2 ^ 64⟩ [.collect 0 4 [true, true, true, true]] (init : State 1)).2).2.world.dropped = [0, 1, 2, 3] ∧
    (endScopeU (fun e => e % 2 == 1) (runU (fun e => e % 2 == 1) ⟨true, true, 2 ^ 64⟩ [.collect 0 4 [true, true, true, true]] (init : State 1)).2).1 = .abort ∧
    (endScopeU (fun _ => false) (runU (fun _ => false) ⟨true, true, 2 ^ 64⟩ [.collect 0 4 [true, true, true, true]] (init : State 1)).2).1 = .ok := by
  decide +kernel

/-- The hypotheses of `C110_nth_skips` are met. -/
example : CarefulU (fun e => e == 1) ⟨true, true, 2 ^ 64⟩ [.collect 0 4 [true, true, true, true], .intoIter 0] (init : State 2) ∧
    (execU (fun e => e == 1) ⟨true, true, 2 ^ 64⟩ (.nth 0 1 3)
      (runU (fun e => e == 1) ⟨true, true, 2 ^ 64⟩ [.collect 0 4 [true, true, true, true], .intoIter 0] (init : State 2)).2).1 = .panic := by
  decide +kernel

/-- And those of `C110_short_collect`. -/
example : (execU (fun e => e == 1) ⟨true, true, 2 ^ 64⟩ (.collect 0 4 [true, true, true]) (init : State 2)).1 = .ub ∧
    (execU (fun e => e == 1) ⟨true, true, 2 ^ 64⟩ (.collect 0 4 [true, true, true]) (init : State 2)).2.world.dropped = [0, 1, 0, 1] := by
  decide +kernel

/-- Without the hypothesis the claim is false (C05): a source that is too short and a destructor that panics; the elements received
are destroyed twice, and the run is undefined. -/
theorem C110_misuse : ¬ CarefulU (fun e => e == 2) ⟨true, true, 2 ^ 64⟩ [.new 1, .collect 0 4 [true, true, true], .new 1] (init : State 2) ∧
    (runU (fun e => e == 2) ⟨true, true, 2 ^ 64⟩ [.new 1, .collect 0 4 [true, true, true], .new 1] (init : State 2)).1 = [.ok, .ub] ∧
    (runU (fun e => e == 2) ⟨true, true, 2 ^ 64⟩ [.new 1, .collect 0 4 [true, true, true], .new 1] (init : State 2)).2.world.dropped =
      [1, 2, 1, 2] ∧
    (runU (fun _ => false) ⟨true, true, 2 ^ 64⟩ [.new 1, .collect 0 4 [true, true, true], .new 1] (init : State 2)).1 =
      [.ok, .panic, .ok] ∧
    (runU (fun e => e == 1) ⟨true, true, 2 ^ 64⟩ [.collect 0 3 [true, true, true], .intoIter 0, .gather 0 1 4, .new 1] (init : State 2)).1 =
      [.ok, .ok, .ub] := by
  decide +kernel

end Owner
end Rowcol
