import Verif.Props.Unwind

/-! # C110: a statement succeeds, panics or aborts as there were no, one or two panics -/

namespace Rowcol
open Spec
namespace Owner

variable {k : Nat}

namespace Spec

/-- Rust's rules seen from outside.  `l`: the elements destroyed during a statement, in order.  `P`: something other than a destructor
can panic in this statement (client code, or the crate itself).  The panics that occurred are those of the destructors that ran
and `other` (at most one).  None: the statement succeeded.  One: it panicked.  Two: the process was aborted by the second, the
panic of the destructor that ran last. -/
def Ends (boom : Nat → Bool) (P : Prop) (e : End) (l : List Nat) : Prop :=
  ∃ other, (other = 0 ∨ other = 1 ∧ P) ∧
    match e with
    | .ok => (l.filter boom).length + other = 0
    | .panic => (l.filter boom).length + other = 1
    | .abort => (∃ l' x, l = l' ++ [x] ∧ boom x = true) ∧ (l.filter boom).length + other = 2
    | .ub => True

/-- Something other than a destructor can panic in this statement: the source of a collection or an element operation does, the
collection gets a wrong number of elements, or an index is out of range or overflows. -/
def CanPanic (t : Target) (σ : State k) : Stmt k → Prop
  | .collect _ n src => false ∈ src ∨ src.length ≠ n
  | .map _ _ f => ∃ p, f p = .panic
  | .zip _ _ _ f => ∃ e, f e = .panic
  | .assign _ _ f => ∃ e, f e = .panicKeep ∨ f e = .panicReplace
  | .write x i _ => ∀ n v, σ.vars x = .vec n v → n ≤ i
  | .nth x _ i => ∀ s, σ.vars x = .iter s → t.overflowChecks = true ∧ t.W ≤ s.next + i
  | .gather x _ n => ∀ s, σ.vars x = .iter s → (slotElems s.mem.slots).length ≠ n
  | _ => False

end Spec

open Spec

variable {boom : Nat → Bool} {t : Target} {σ : State k} {lk : List Nat}

theorem booms_zero {l : List Nat} : booms boom l = 0 ↔ ∀ e ∈ l, boom e = false := by
  rw [booms, List.length_eq_zero_iff, List.filter_eq_nil_iff]
  simp

theorem booms_append (l m : List Nat) : booms boom (l ++ m) = booms boom l + booms boom m := by simp [booms]

/-- What a statement did, seen from a world before it. -/
def Census (boom : Nat → Bool) (P : Prop) (w : World) (r : End × State k) : Prop :=
  ∃ d, r.2.world.dropped = w.dropped ++ d ∧ Ends boom P r.1 d

variable {P : Prop}

theorem ends_ok {d : List Nat} : Ends boom P .ok d ↔ ∀ e ∈ d, boom e = false := by
  rw [← booms_zero]
  constructor
  · rintro ⟨o, -, h⟩
    have h : booms boom d + o = 0 := h
    omega
  · intro h
    exact ⟨0, .inl rfl, by show booms boom d + 0 = 0; omega⟩

theorem ends_one {d : List Nat} (h : booms boom d = 1) : Ends boom P .panic d := ⟨0, .inl rfl, by show booms boom d + 0 = 1; omega⟩

theorem ends_other {d : List Nat} (hP : P) (h : ∀ e ∈ d, boom e = false) : Ends boom P .panic d :=
  ⟨1, .inr ⟨rfl, hP⟩, by show booms boom d + 1 = 1; rw [booms_zero.2 h]⟩

theorem ends_two {d : List Nat} {x : Nat} (h : booms boom d = 1) (hx : boom x = true) : Ends boom P .abort (d ++ [x]) :=
  ⟨0, .inl rfl, ⟨d, x, rfl, hx⟩, by show booms boom (d ++ [x]) + 0 = 2; rw [booms_append, h]; simp [booms, hx]⟩

theorem ends_other_two {d : List Nat} {x : Nat} (hP : P) (h : ∀ e ∈ d, boom e = false) (hx : boom x = true) : Ends boom P .abort (d ++ [x]) :=
  ⟨1, .inr ⟨rfl, hP⟩, ⟨d, x, rfl, hx⟩, by show booms boom (d ++ [x]) + 1 = 2; rw [booms_append, booms_zero.2 h]; simp [booms, hx]⟩

theorem ends_prepend {e : End} {d d0 : List Nat} (h0 : ∀ x ∈ d0, boom x = false) (h : Ends boom P e d) : Ends boom P e (d0 ++ d) := by
  have hb : booms boom d0 = 0 := booms_zero.2 h0
  obtain ⟨o, ho, h⟩ := h
  refine ⟨o, ho, ?_⟩
  have e1 : (List.filter boom (d0 ++ d)).length = (List.filter boom d).length := by
    have := booms_append (boom := boom) d0 d
    unfold booms at this hb; omega
  cases e with
  | ok => simp only [e1]; exact h
  | panic => simp only [e1]; exact h
  | abort =>
    obtain ⟨⟨l', x, rfl, hx⟩, h2⟩ := h
    exact ⟨⟨d0 ++ l', x, by simp, hx⟩, by rw [e1]; exact h2⟩
  | ub => trivial

theorem ends_mono {Q : Prop} {e : End} {d : List Nat} (h : Ends boom P e d) (hPQ : P → Q) : Ends boom Q e d := by
  obtain ⟨o, ho, h⟩ := h
  exact ⟨o, ho.imp id fun h => ⟨h.1, hPQ h.2⟩, h⟩

theorem Census.same : Census boom P σ.world (.ok, σ) := ⟨[], by simp, ends_ok.2 (by simp)⟩

theorem arrayDrop_ends (l : List Nat) : Ends boom P (arrayDrop boom l).1 (arrayDrop boom l).2 := by
  obtain ⟨h0, h1, h2⟩ := C110_array_drop boom l
  rcases Nat.lt_trichotomy (booms boom l) 1 with h | h | h
  · have h : booms boom l = 0 := by omega
    rw [h0 h]; exact ends_ok.2 (booms_zero.1 h)
  · rw [h1 h]; exact ends_one h
  · obtain ⟨a, b, x, -, hx, ha, hr⟩ := h2 h
    rw [hr]
    exact ends_two ha hx

theorem dropIt_ends (F q B : List Nat) :
    Ends boom P (endOf ((OwnIt.dropOp boom).run (mkIt F q B [])).1) ((OwnIt.dropOp boom).run (mkIt F q B [])).2.mem.drops := by
  rcases first_boom boom q with h | ⟨p, x, q, rfl, h1, h2⟩
  · rw [OwnIt.drop_ok boom F q B [] h]
    exact ends_ok.2 (by simpa [mkMem] using h)
  · rw [OwnIt.drop_panic boom F p x q B [] h1 h2]
    have : booms boom p = 0 := booms_zero.2 h1
    simp only [endOf, Fault.toEnd, mkMem, List.nil_append]
    refine ends_one ?_
    rw [booms_append, this]
    simp [booms, h2]

theorem destroyed_ends {o : Obj} (h : WF t o) : Ends boom P (o.destroyed boom).1 (o.destroyed boom).2.1 := by
  match o, h with
  | .none, _ => exact ends_ok.2 (by simp [Obj.destroyed])
  | .elem x, _ =>
    simp only [Obj.destroyed]
    cases hx : boom x with
    | true => exact ends_one (by simp [booms, hx])
    | false => exact ends_ok.2 (by simp [hx])
  | .vec _ v, _ => exact arrayDrop_ends _
  | .mat _ _ a, _ => exact arrayDrop_ends _
  | .iter s, ⟨F, q, B, hs, _⟩ => subst hs; exact dropIt_ends F q B
  | .chunks I s, ⟨_, F, B, cs, hs, _⟩ => subst hs; exact dropIt_ends F _ B

theorem putU_census {w : World} (x : Fin k) (o : Obj) (hw : WF t (σ.vars x)) (d : List Nat) (hd : σ.world.dropped = w.dropped ++ d)
    (h0 : ∀ e ∈ d, boom e = false) : Census boom P w (σ.putU boom x o) := by
  refine ⟨d ++ ((σ.vars x).destroyed boom).2.1, ?_, ends_prepend h0 (destroyed_ends hw)⟩
  simp [State.putU, World.log, hd]

/-! ## Element operations -/

/-- What an element operation did to the world. -/
def Tells (boom : Nat → Bool) (P : Prop) (s s' : EWorld) (ok : Bool) : Prop :=
  ∃ d, s'.1.dropped = s.1.dropped ++ d ∧
    if ok then (∀ e ∈ d, boom e = false) ∧ s'.2 = s.2 else Ends boom P (if s'.2 then .abort else .panic) d

theorem Tells.trans {s s1 s2 : EWorld} {b : Bool} (h1 : Tells boom P s s1 true) (h2 : Tells boom P s1 s2 b) : Tells boom P s s2 b := by
  obtain ⟨d, e1, f1⟩ := h1
  obtain ⟨d', e2, f2⟩ := h2
  simp only [if_true] at f1
  refine ⟨d ++ d', by rw [e2, e1, List.append_assoc], ?_⟩
  cases b with
  | true =>
    simp only [if_true] at f2 ⊢
    refine ⟨fun e he => ?_, by rw [f2.2, f1.2]⟩
    rcases List.mem_append.1 he with he | he
    · exact f1.1 e he
    · exact f2.1 e he
  | false =>
    simp only [Bool.false_eq_true, if_false] at f2 ⊢
    exact ends_prepend f1.1 f2

theorem tells_fail {s s' : EWorld} {d : List Nat} (hd : s'.1.dropped = s.1.dropped ++ d)
    (h : Ends boom P (if s'.2 then .abort else .panic) d) : Tells boom P s s' false := ⟨d, hd, by simpa using h⟩

theorem one_then {x y : Nat} (hx : boom x = true) : Ends boom P (if boom y then .abort else .panic) [x, y] := by
  cases hy : boom y with
  | true => exact ends_two (d := [x]) (by simp [booms, hx]) hy
  | false => exact ends_one (by simp [booms, hx, hy])

theorem other_then {x : Nat} (hP : P) : Ends boom P (if boom x then .abort else .panic) [x] := by
  cases hx : boom x with
  | true => exact ends_other_two (d := []) hP (by simp) hx
  | false => exact ends_other hP (by simp [hx])

def ToldBy {X : Type} (boom : Nat → Bool) (P : Prop) (g : X → StM EWorld Nat) : Prop :=
  ∀ x s, (∃ z s', (g x).run s = (.ok z, s') ∧ Tells boom P s s' true) ∨
    (∃ s', (g x).run s = (.error .panic, s') ∧ Tells boom P s s' false)

theorem Beh.told (f : Nat × Nat → Beh) {Y : Type} (pos : Y → Nat × Nat) :
    ToldBy boom (∃ p, f p = .panic) (fun p : Nat × Y => (f (pos p.2)).actU boom p.1) := by
  intro p s
  dsimp only
  generalize hg : f (pos p.2) = g
  cases g with
  | keep => exact .inl ⟨p.1, s, rfl, [], by simp, by simp⟩
  | replace =>
    cases hb : boom p.1 with
    | true => exact .inr ⟨s.drop [p.1] false, by simp [Beh.actU, hb, ExceptT.run, ExceptT.mk],
        tells_fail rfl (ends_one (by simp [booms, hb]))⟩
    | false =>
      exact .inl ⟨s.1.fresh, ({ s.1 with dropped := s.1.dropped ++ [p.1], fresh := s.1.fresh + 1 }, s.2),
        by simp [Beh.actU, hb, ExceptT.run, ExceptT.mk], [p.1], rfl, by simp [hb]⟩
  | panic => exact .inr ⟨s.drop [p.1] (boom p.1), rfl, tells_fail rfl (other_then ⟨_, hg⟩)⟩

theorem Beh2.told (f : Nat → Beh2) : ToldBy boom (∃ e, f e = .panic) (fun p : Nat × Nat => (f p.1).actU boom p.1 p.2) := by
  intro p s
  obtain ⟨x, y⟩ := p
  dsimp only
  generalize hg : f x = g
  cases g with
  | left =>
    cases hy : boom y with
    | false => exact .inl ⟨x, s.drop [y] s.2, by simp [Beh2.actU, hy, ExceptT.run, ExceptT.mk], [y], rfl, by simp [hy, EWorld.drop]⟩
    | true => exact .inr ⟨s.drop [y, x] (boom x), by simp [Beh2.actU, hy, ExceptT.run, ExceptT.mk], tells_fail rfl (one_then hy)⟩
  | right =>
    cases hx : boom x with
    | false => exact .inl ⟨y, s.drop [x] s.2, by simp [Beh2.actU, hx, ExceptT.run, ExceptT.mk], [x], rfl, by simp [hx, EWorld.drop]⟩
    | true => exact .inr ⟨s.drop [x, y] (boom y), by simp [Beh2.actU, hx, ExceptT.run, ExceptT.mk], tells_fail rfl (one_then hx)⟩
  | replace =>
    cases hx : boom x with
    | true => exact .inr ⟨s.drop [x, y] (boom y), by simp [Beh2.actU, hx, ExceptT.run, ExceptT.mk], tells_fail rfl (one_then hx)⟩
    | false =>
      cases hy : boom y with
      | true =>
        exact .inr ⟨s.drop [x, y] false, by simp [Beh2.actU, hx, hy, ExceptT.run, ExceptT.mk],
          tells_fail rfl (ends_one (by simp [booms, hx, hy]))⟩
      | false =>
        exact .inl ⟨s.1.fresh, ({ s.1 with dropped := s.1.dropped ++ [x, y], fresh := s.1.fresh + 1 }, s.2),
          by simp [Beh2.actU, hx, hy, ExceptT.run, ExceptT.mk], [x, y], rfl, by simp [hx, hy]⟩
  | panic =>
    refine .inr ⟨s.drop (through boom [y, x]) (boom y || boom x), rfl, tells_fail rfl ?_⟩
    cases hy : boom y with
    | true =>
      simp only [through, hy, if_true, Bool.true_or, EWorld.drop]
      exact ends_other_two (d := []) ⟨_, hg⟩ (by simp) hy
    | false =>
      simp only [through, hy, Bool.false_or, EWorld.drop, Bool.false_eq_true, if_false]
      cases hx : boom x with
      | true => exact ends_other_two (d := [y]) ⟨_, hg⟩ (by simp [hy]) hx
      | false => exact ends_other ⟨_, hg⟩ (by simp [hx, hy])

theorem BehA.told (f : BehA) (hP : f = .panicKeep ∨ f = .panicReplace → P) (a b : Nat) (s : EWorld) (hs : s.2 = false) :
    ((f.actU boom a b s).1 = .ok () ∧ Tells boom P s (f.actU boom a b s).2.2 true) ∨
    ((f.actU boom a b s).1 = .error .panic ∧ Tells boom P s (f.actU boom a b s).2.2 false) := by
  cases f with
  | keep =>
    cases hb : boom b with
    | false => exact .inl ⟨by simp [BehA.actU, hb], [b], rfl, by simp [BehA.actU, EWorld.drop, hb]⟩
    | true =>
      refine .inr ⟨by simp [BehA.actU, hb], tells_fail rfl ?_⟩
      simp only [BehA.actU, EWorld.drop, hs]
      exact ends_one (by simp [booms, hb])
  | swap =>
    cases ha : boom a with
    | false => exact .inl ⟨by simp [BehA.actU, ha], [a], rfl, by simp [BehA.actU, EWorld.drop, ha]⟩
    | true =>
      refine .inr ⟨by simp [BehA.actU, ha], tells_fail rfl ?_⟩
      simp only [BehA.actU, EWorld.drop, hs]
      exact ends_one (by simp [booms, ha])
  | replace =>
    cases ha : boom a with
    | false =>
      cases hb : boom b with
      | false => exact .inl ⟨by simp [BehA.actU, ha, hb], [a, b], rfl, by simp [BehA.actU, ha, hb, hs]⟩
      | true =>
        refine .inr ⟨by simp [BehA.actU, ha, hb], tells_fail rfl ?_⟩
        simp only [BehA.actU, ha]
        exact ends_one (by simp [booms, ha, hb])
    | true =>
      refine .inr ⟨by simp [BehA.actU, ha], tells_fail rfl ?_⟩
      simp only [BehA.actU, ha, Bool.true_and]
      exact one_then ha
  | panicKeep => exact .inr ⟨rfl, tells_fail rfl (other_then (hP (.inl rfl)))⟩
  | panicReplace =>
    refine .inr ⟨rfl, tells_fail rfl ?_⟩
    simp only [BehA.actU]
    cases ha : boom a with
    | true => exact one_then ha
    | false => exact ends_prepend (d0 := [a]) (by simp [ha]) (other_then (hP (.inr rfl)))

theorem handOver_told {X : Type} {g : X → StM EWorld Nat} (hg : ToldBy boom P g) (xs : List X) (s : EWorld) :
    ∃ b, (((handOver g xs s).1.isOk = b)) ∧ Tells boom P s (handOver g xs s).2.1 b := by
  induction xs generalizing s with
  | nil => exact ⟨true, rfl, [], by simp [handOver], by simp [handOver]⟩
  | cons x xs ih =>
    rcases hg x s with ⟨z, s1, h1, t1⟩ | ⟨s1, h1, t1⟩
    · obtain ⟨b, hb, t2⟩ := ih s1
      refine ⟨b, ?_, ?_⟩
      · rw [handOver, h1]
        dsimp only
        rcases hh : handOver g xs s1 with ⟨_ | _, _⟩ <;> (rw [hh] at hb; exact hb)
      · rw [handOver, h1]
        dsimp only
        rcases hh : handOver g xs s1 with ⟨_ | _, _⟩ <;> (rw [hh] at t2; exact t1.trans t2)
    · exact ⟨false, by rw [handOver, h1]; rfl, by rw [handOver, h1]; exact t1⟩

theorem assignAll_told (f : Nat → BehA) (hP : (∃ e, f e = .panicKeep ∨ f e = .panicReplace) → P) (ps : List (Nat × Nat)) (s : EWorld) (hs : s.2 = false) :
    let r := assignAll (fun e e' => (f e').actU boom e e') ps s
    Tells boom P s r.2.2.1 r.1.isOk := by
  induction ps generalizing s with
  | nil => exact ⟨[], by simp [assignAll], by simp [assignAll, Except.isOk, Except.toBool]⟩
  | cons p ps ih =>
    rcases BehA.told (boom := boom) (f p.2) (fun h => hP ⟨_, h⟩) p.1 p.2 s hs with ⟨h1, t1⟩ | ⟨h1, t1⟩
    · rw [assignAll]
      rcases hr : (f p.2).actU boom p.1 p.2 s with ⟨r, a, w1⟩
      rw [hr] at h1 t1
      dsimp only at h1 t1
      subst h1
      dsimp only
      have hs1 : w1.2 = false := by
        obtain ⟨d, -, h2⟩ := t1
        simp only [if_true] at h2
        rw [h2.2, hs]
      exact t1.trans (ih w1 hs1)
    · rw [assignAll]
      rcases hr : (f p.2).actU boom p.1 p.2 s with ⟨r, a, w1⟩
      rw [hr] at h1 t1
      dsimp only at h1 t1
      subst h1
      exact t1

theorem through_ends {d d0 : List Nat} (h0 : Ends boom P .panic d0) :
    Ends boom P (if d.any boom then .abort else .panic) (d0 ++ through boom d) := by
  obtain ⟨o, ho, h0⟩ := h0
  have h0 : booms boom d0 + o = 1 := h0
  refine ⟨o, ho, ?_⟩
  rcases first_boom boom d with h | ⟨p, x, q, rfl, h1, h2⟩
  · have ha : d.any boom = false := by simpa using h
    rw [ha, through_all ha]
    show booms boom (d0 ++ d) + o = 1
    rw [booms_append, booms_zero.2 h]; omega
  · rw [through_append p x q h1 h2]
    have ha : (p ++ x :: q).any boom = true := by simp [h2]
    rw [ha]
    refine ⟨⟨d0 ++ p, x, by simp, h2⟩, ?_⟩
    show booms boom (d0 ++ (p ++ [x])) + o = 2
    have hx : booms boom [x] = 1 := by simp [booms, h2]
    rw [booms_append, booms_append, booms_zero.2 h1]; omega

/-- After a panic in an element operation. -/
theorem unwound_census {w : World} {s : EWorld} (h : Tells boom P (w, false) s false) (d : List Nat) (v : List Viol) (vars : Fin k → Obj) :
    Census boom P w ((unwound boom s .panic d v).1, { vars := vars, world := (unwound boom s .panic d v).2 }) := by
  obtain ⟨d0, h1, h2⟩ := h
  simp only [Bool.false_eq_true, if_false] at h1 h2
  unfold unwound
  dsimp only
  cases hs : s.2 with
  | true =>
    rw [hs] at h2
    exact ⟨d0, h1, h2⟩
  | false =>
    rw [hs] at h2
    simp only [Bool.false_eq_true, if_false] at h2 ⊢
    refine ⟨d0 ++ through boom d, ?_, through_ends h2⟩
    simp [World.log, h1]

theorem told_ok {w : World} {s : EWorld} (h : Tells boom P (w, false) s true) (d : List Nat) (v : List Viol) (hd : d = []) :
    ∃ d', (s.1.log d v).dropped = w.dropped ++ d' ∧ ∀ e ∈ d', boom e = false := by
  obtain ⟨d0, h1, h2⟩ := h
  exact ⟨d0, by simp [World.log, hd, h1], h2.1⟩

/-! ## Statements -/

theorem wf_st (h : ∀ x, WF t (σ.vars x)) (x : Fin k) {o : Obj} (ho : WF t o) : ∀ y, WF t ((σ.store x o).vars y) := by
  intro y
  by_cases hy : y = x
  · simpa [State.store, hy] using ho
  · simpa [State.store, hy] using h y

theorem census_map (h : ∀ x, WF t (σ.vars x)) (x y : Fin k) (f : Nat × Nat → Beh) :
    Census boom (CanPanic t σ (.map x y f)) σ.world (execU boom t (.map x y f) σ) := by
  have hw := h x
  cases hx : σ.vars x with
  | none => simp only [execU, hx]; exact .same
  | elem e => simp only [execU, hx]; exact .same
  | iter s => simp only [execU, hx]; exact .same
  | chunks I s => simp only [execU, hx]; exact .same
  | vec n v =>
    rw [hx] at hw
    have hn : n < t.W := hw
    obtain ⟨h1, h2, h3⟩ := C78_vector t (fun i e => (f (i, 0)).actU boom e) v (σ.world, false) hn
    obtain ⟨b, hb, ht⟩ := handOver_told (Beh.told (boom := boom) f fun i : Nat => (i, 0)) v.toList.zipIdx (σ.world, false)
    simp only [execU, hx]
    rcases hc : OwnIt.consume t (fun i e => (f (i, 0)).actU boom e) v (σ.world, false) with ⟨res, s, it⟩
    rw [hc] at h1 h2 h3
    dsimp only at h1 h2 h3
    have hdr := h3.drops
    have hsb := handOver_balU (Beh.fairU boom f fun i : Nat => (i, 0)) v.toList.zipIdx (σ.world, false)
    rcases hsb with ⟨zs, w', ho, -, -⟩ | ⟨w', rest, l1, ho, -⟩
    · rw [ho] at h1 h2 hdr ht hb
      dsimp only at h1 h2 hdr ht hb
      subst h1 h2 hb
      obtain ⟨d, e1, e2⟩ := told_ok ht it.mem.drops it.mem.viols (by rw [hdr]; rfl)
      exact putU_census (t := t) y _ (wf_st h x (o := .none) trivial y) d e1 e2
    · rw [ho] at h1 h2 ht hb
      dsimp only at h1 h2 ht hb
      subst h1 h2 hb
      exact unwound_census ht _ _ _
  | mat r c a =>
    rw [hx] at hw
    obtain ⟨hr, hcc⟩ : r < t.W ∧ c < t.W := hw
    obtain ⟨h1, h2, h3, h4⟩ := C78_matrix t (fun p e => (f p).actU boom e) a (σ.world, false) hr hcc
    obtain ⟨b, hb, ht⟩ := handOver_told (Beh.told (boom := boom) f (id : Nat × Nat → _)) (cells a) (σ.world, false)
    simp only [execU, hx]
    rcases hc : OwnIt.consumeMat t (fun p e => (f p).actU boom e) a (σ.world, false) with ⟨res, s, it⟩
    rw [hc] at h1 h2 h3 h4
    dsimp only at h1 h2 h3 h4
    rcases handOver_balU (Beh.fairU boom f (id : Nat × Nat → _)) (cells a) (σ.world, false) with
      ⟨zs, w', ho, -, -⟩ | ⟨w', rest, l1, ho, -⟩
    · simp only [id] at ho ht hb
      rw [ho] at h1 h2 h3 ht hb
      dsimp only at h1 h2 h3 ht hb
      cases res with
      | error e => cases h1
      | ok zss =>
        subst h2 hb
        obtain ⟨d, e1, e2⟩ := told_ok ht it.drops it.viols (by rw [h3]; rfl)
        exact putU_census (t := t) y _ (wf_st h x (o := .none) trivial y) d e1 e2
    · simp only [id] at ho ht hb
      rw [ho] at h1 h2 ht hb
      dsimp only at h1 h2 ht hb
      cases res with
      | ok zss => cases h1
      | error e =>
        have h1 : e = .panic := Except.error.inj h1
        subst h1 h2 hb
        exact unwound_census ht _ _ _

theorem census_zip (h : ∀ x, WF t (σ.vars x)) (x y z : Fin k) (f : Nat → Beh2) :
    Census boom (CanPanic t σ (.zip x y z f)) σ.world (execU boom t (.zip x y z f) σ) := by
  have hwx := h x
  simp only [execU]
  split
  · exact .same
  have hst : ∀ y', WF t (((σ.store x .none).store y .none).vars y') := wf_st (wf_st h x (o := .none) trivial) y (o := .none) trivial
  split
  · rename_i n v n' v' hx hy
    rw [hx] at hwx
    have hn : n < t.W := hwx
    split
    · rename_i hnn
      subst hnn
      obtain ⟨h1, h2, h3, h4⟩ := C78_two_vectors t (fun e e' => (f e).actU boom e e') v v' (σ.world, false) hn
      obtain ⟨b, hb, ht⟩ := handOver_told (Beh2.told (boom := boom) f) (v.toList.zip v'.toList) (σ.world, false)
      dsimp only
      rcases hc : OwnIt.consume2 t (fun e e' => (f e).actU boom e e') v v' (σ.world, false) with ⟨res, s, ia, ib⟩
      rw [hc] at h1 h2 h3 h4
      dsimp only at h1 h2 h3 h4
      have d3 := h3.drops
      have d4 := h4.drops
      rcases handOver_balU (Beh2.fairU boom f) (v.toList.zip v'.toList) (σ.world, false) with ⟨zs, w', ho, -, -⟩ | ⟨w', rest, l1, ho, -⟩
      · rw [ho] at h1 h2 d3 d4 ht hb
        dsimp only at h1 h2 d3 d4 ht hb
        subst h1 h2 hb
        obtain ⟨d, e1, e2⟩ := told_ok ht (ia.mem.drops ++ ib.mem.drops) (ia.mem.viols ++ ib.mem.viols) (by rw [d3, d4]; rfl)
        exact putU_census (t := t) z _ (hst z) d e1 e2
      · rw [ho] at h1 h2 ht hb
        dsimp only at h1 h2 ht hb
        subst h1 h2 hb
        exact unwound_census ht _ _ _
    · exact .same
  · rename_i r c a r' c' a' hx hy
    rw [hx] at hwx
    obtain ⟨hr, hcc⟩ : r < t.W ∧ c < t.W := hwx
    split
    · rename_i hnn
      obtain ⟨rfl, rfl⟩ := hnn
      obtain ⟨h1, h2, h3, h4, h5, h6⟩ := C78_two_matrices t (fun e e' => (f e).actU boom e e') a a' (σ.world, false) hr hcc
      obtain ⟨b, hb, ht⟩ := handOver_told (Beh2.told (boom := boom) f) (cellPairs a a') (σ.world, false)
      dsimp only
      rcases hc : OwnIt.consumeMat2 t (fun e e' => (f e).actU boom e e') a a' (σ.world, false) with ⟨res, s, ia, ib⟩
      rw [hc] at h1 h2 h3 h4
      dsimp only at h1 h2 h3 h4
      rcases handOver_balU (Beh2.fairU boom f) (cellPairs a a') (σ.world, false) with ⟨zs, w', ho, -, -⟩ | ⟨w', rest, l1, ho, -⟩
      · rw [ho] at h1 h2 h3 h4 ht hb
        dsimp only at h1 h2 h3 h4 ht hb
        cases res with
        | error e => cases h1
        | ok zss =>
          subst h2 hb
          obtain ⟨d, e1, e2⟩ := told_ok ht (interleave c' ia.drops ib.drops) (ia.viols ++ ib.viols) (by
            rw [h3, h4]; simp [interleave_nil])
          exact putU_census (t := t) z _ (hst z) d e1 e2
      · rw [ho] at h1 h2 ht hb
        dsimp only at h1 h2 ht hb
        cases res with
        | ok zss => cases h1
        | error e =>
          have h1 : e = .panic := Except.error.inj h1
          subst h1 h2 hb
          exact unwound_census ht _ _ _
    · exact .same
  · exact .same

theorem census_assign (h : ∀ x, WF t (σ.vars x)) (x y : Fin k) (f : Nat → BehA) :
    Census boom (CanPanic t σ (.assign x y f)) σ.world (execU boom t (.assign x y f) σ) := by
  have hwx := h x
  simp only [execU]
  split
  · exact .same
  split
  · rename_i n v n' v' hx hy
    rw [hx] at hwx
    have hn : n < t.W := hwx
    split
    · rename_i hnn
      subst hnn
      obtain ⟨h1, h2, h3, h4⟩ := C79_vector t (fun e e' => (f e').actU boom e e') v v' (σ.world, false) hn
      obtain ⟨b1, -, -, b4⟩ := assignAll_balU boom f (v.toList.zip v'.toList) (σ.world, false)
      have ht := assignAll_told (boom := boom) (P := CanPanic t σ (.assign x y f)) f id (v.toList.zip v'.toList) (σ.world, false) rfl
      dsimp only at ht ⊢
      rcases hc : OwnIt.assignOwn t (fun e e' => (f e').actU boom e e') v v' (σ.world, false) with ⟨res, v1, s, ib⟩
      rw [hc] at h1 h2 h3 h4
      dsimp only at h1 h2 h3 h4
      have d4 := h4.drops
      rw [← h1] at b1 b4 ht
      rw [← h3] at ht
      cases res with
      | ok u =>
        obtain ⟨d, e1, e2⟩ := told_ok ht ib.mem.drops ib.mem.viols (by rw [d4, b4 rfl])
        exact ⟨d, e1, ends_ok.2 e2⟩
      | error e =>
        have : e = .panic := by cases e with
          | panic => rfl
          | ub => exact absurd rfl b1
        subst this
        exact unwound_census ht _ _ _
    · exact .same
  · rename_i r c a r' c' a' hx hy
    rw [hx] at hwx
    obtain ⟨hr, hcc⟩ : r < t.W ∧ c < t.W := hwx
    split
    · rename_i hnn
      obtain ⟨rfl, rfl⟩ := hnn
      obtain ⟨h1, h2, h3, h4, h5⟩ := C79_matrix t (fun e e' => (f e').actU boom e e') a a' (σ.world, false) hr hcc
      obtain ⟨b1, -, -, b4⟩ := assignAll_balU boom f (cellPairs a a') (σ.world, false)
      have ht := assignAll_told (boom := boom) (P := CanPanic t σ (.assign x y f)) f id (cellPairs a a') (σ.world, false) rfl
      dsimp only at ht ⊢
      rcases hc : OwnIt.assignOwnMat t (fun e e' => (f e').actU boom e e') a a' (σ.world, false) with ⟨res, v1, s, ib⟩
      rw [hc] at h1 h2 h3 h4
      dsimp only at h1 h2 h3 h4
      rw [← h1] at b1 b4 ht
      rw [← h3] at ht
      cases res with
      | ok u =>
        obtain ⟨d, e1, e2⟩ := told_ok ht ib.drops ib.viols (by rw [h4, b4 rfl])
        exact ⟨d, e1, ends_ok.2 e2⟩
      | error e =>
        have : e = .panic := by cases e with
          | panic => rfl
          | ub => exact absurd rfl b1
        subst this
        exact unwound_census ht _ _ _
    · exact .same
  · exact .same

theorem census_write (x : Fin k) (i : Nat) (y : Fin k) : Census boom (CanPanic t σ (.write x i y)) σ.world (execU boom t (.write x i y) σ) := by
  simp only [execU]
  split
  · rename_i n v e hx hy
    by_cases hi : i < n
    · have hs : v.indexSet i e = .ok ⟨v.toList.set i e, by rw [List.length_set, v.length_eq]⟩ := by
        unfold Vec.indexSet; rw [if_pos (by rw [v.length_eq]; exact hi)]
      rw [hs]
      refine ⟨(v.toList[i]?).toList, rfl, ?_⟩
      dsimp only
      rw [List.getElem?_eq_getElem (by rw [v.length_eq]; exact hi)]
      simp only [Option.toList_some, List.any_cons, List.any_nil, Bool.or_false]
      cases hb : boom (v.toList[i]'(by rw [v.length_eq]; exact hi)) <;> simp [Ends, hb]
    · rw [C15_vec_set_panic v i (Nat.le_of_not_lt hi)]
      refine unwound_census (s := (σ.world, false)) ⟨[], by simp, ends_other ?_ (by simp)⟩ _ _ _
      intro n' v' hx'
      rw [hx] at hx'
      cases hx'
      exact Nat.le_of_not_lt hi
  · exact .same

theorem census_handOut (h : ∀ x, WF t (σ.vars x)) {x y : Fin k} (mk : OwnIt Nat → Obj) (out : Option Obj) (s : OwnIt Nat)
    (hm : WF t (mk (flush s))) (hd : ∀ e ∈ s.mem.drops, boom e = false) : Census boom P σ.world (handOutU boom σ x y mk out s) :=
  putU_census (t := t) y _ (wf_st h x hm y) s.mem.drops rfl hd

theorem census_next (h : ∀ x, WF t (σ.vars x)) (x y : Fin k) : Census boom P σ.world (execU boom t (.next x y) σ) := by
  simp only [execU]
  have hwx := h x
  split
  · exact .same
  split
  · rename_i s hx
    rw [hx] at hwx
    obtain ⟨F, q, B, rfl, hF⟩ := hwx
    cases q with
    | nil =>
      rw [OwnIt.next_nil]
      exact census_handOut h .iter _ _ (wf_iter hF) (by simp [mkIt, mkMem])
    | cons a q =>
      rw [OwnIt.next_cons _ _ _ _ _ _ (by simp only [List.length_cons] at hF; omega)]
      exact census_handOut h .iter _ _ (wf_iter (by simp at hF ⊢; omega)) (by simp [mkIt, mkMem])
  · rename_i I s hx
    rw [hx] at hwx
    obtain ⟨hI, F, B, cs, rfl, hF⟩ := hwx
    cases cs with
    | nil =>
      rw [show OwnIt.flat ([] : List (Vec Nat I)) = [] from rfl, OwnIt.chunkNext_nil]
      exact census_handOut h (.chunks I) _ _ (wf_chunks hI [] hF) (by simp [mkIt, mkMem])
    | cons c cs =>
      have hl : F.length + I + cs.length * I < t.W := by
        rw [List.length_cons, Nat.add_mul, Nat.one_mul] at hF; omega
      rw [show OwnIt.flat (c :: cs) = c.toList ++ OwnIt.flat cs from rfl, OwnIt.chunkNext_cons _ hI _ _ _ _ _ (by omega)]
      refine census_handOut h (.chunks I) _ _ (wf_chunks hI cs ?_) (by simp [mkIt, mkMem])
      rw [List.length_append, c.length_eq]; exact hl
  · exact .same

theorem census_nextBack (h : ∀ x, WF t (σ.vars x)) (x y : Fin k) (hp : Proper t σ (.nextBack x y)) :
    Census boom P σ.world (execU boom t (.nextBack x y) σ) := by
  simp only [execU]
  have hwx := h x
  split
  · exact .same
  rename_i hxy
  split
  · rename_i s hx
    rw [hx] at hwx
    obtain ⟨F, q, B, rfl, hF⟩ := hwx
    rcases List.eq_nil_or_concat q with rfl | ⟨q, a, rfl⟩
    · have h0 := hp hxy _ hx (slotElems_mk F [] B [])
      have : F = [] := List.eq_nil_of_length_eq_zero h0
      subst this
      rw [OwnIt.nextBack_nil]
      exact census_handOut h .iter _ _ (wf_iter hF) (by simp [mkIt, mkMem])
    · rw [List.concat_eq_append] at hF hx ⊢
      rw [OwnIt.nextBack_snoc]
      exact census_handOut h .iter _ _ (wf_iter (by simp at hF ⊢; omega)) (by simp [mkIt, mkMem])
  · rename_i I s hx
    rw [hx] at hwx
    obtain ⟨hI, F, B, cs, rfl, hF⟩ := hwx
    rcases List.eq_nil_or_concat cs with rfl | ⟨cs, c, rfl⟩
    · rw [show OwnIt.flat ([] : List (Vec Nat I)) = [] from rfl, OwnIt.chunkNextBack_nil]
      exact census_handOut h (.chunks I) _ _ (wf_chunks hI [] hF) (by simp [mkIt, mkMem])
    · have ef : OwnIt.flat (cs.concat c) = OwnIt.flat cs ++ c.toList := by simp [OwnIt.flat]
      have hl : F.length + I + cs.length * I < t.W := by
        rw [List.length_concat, Nat.add_mul, Nat.one_mul] at hF; omega
      rw [ef, OwnIt.chunkNextBack_snoc _ hI]
      exact census_handOut h (.chunks I) _ _ (wf_chunks hI cs (by omega)) (by simp [mkIt, mkMem])
  · exact .same

theorem census_nth (h : ∀ x, WF t (σ.vars x)) (x y : Fin k) (i : Nat) (hp : ProperU boom t σ (.nth x y i)) :
    Census boom (CanPanic t σ (.nth x y i)) σ.world (execU boom t (.nth x y i) σ) := by
  simp only [execU]
  have hwx := h x
  split
  · exact .same
  rename_i hxy
  split
  · rename_i s hx
    rw [hx] at hwx
    obtain ⟨F, q, B, rfl, hF⟩ := hwx
    rcases hp hxy _ hx with ⟨hi, hbm⟩ | ⟨ho, hW⟩
    · rw [slotElems_mk] at hi hbm
      obtain ⟨q1, q2, rfl, rfl⟩ : ∃ q1 q2, q = q1 ++ q2 ∧ q1.length = i :=
        ⟨q.take i, q.drop i, (List.take_append_drop i q).symm, by simp [hi]⟩
      have hbm : ∀ e ∈ q1, boom e = false := by simpa using hbm
      rw [List.length_append] at hF
      rw [OwnIt.nth_ok t _ F q1 q2 B [] hbm (by omega)]
      cases q2 with
      | nil =>
        rw [OwnIt.next_nil]
        exact census_handOut h .iter _ _ (wf_iter (by simp at hF ⊢; omega)) (by simpa [mkIt, mkMem] using hbm)
      | cons a q =>
        rw [List.length_cons] at hF
        rw [OwnIt.next_cons _ _ _ _ _ _ (by simp only [List.length_append]; omega)]
        exact census_handOut h .iter _ _ (wf_iter (by simp at hF ⊢; omega)) (by simpa [mkIt, mkMem] using hbm)
    · have h1 : (OwnIt.nthOp t boom i).run (mkIt F q B []) = (.error .panic, mkIt F q B []) := by
        unfold OwnIt.nthOp
        have : uadd t (mkIt F q B []).next i = .error .panic := by simp [uadd, Nat.not_lt.2 hW, ho]
        rw [StM.run_bind_ok (StM.run_get _), this, StM.run_bind_error (StM.run_liftRes_error _ _)]
      rw [h1]
      refine ⟨[], by simp [World.log, mkIt, mkMem], ends_other ?_ (by simp)⟩
      intro s' hs'
      rw [hx] at hs'
      cases hs'
      exact ⟨ho, hW⟩
  · exact .same

theorem census_gather (h : ∀ x, WF t (σ.vars x)) (x y : Fin k) (n : Nat) (hp : ProperU boom t σ (.gather x y n)) :
    Census boom (CanPanic t σ (.gather x y n)) σ.world (execU boom t (.gather x y n) σ) := by
  simp only [execU]
  have hwx := h x
  split
  · exact .same
  rename_i hxy
  split
  · rename_i s hx
    rw [hx] at hwx
    obtain ⟨F, q, B, rfl, hF⟩ := hwx
    obtain ⟨hp1, hp2⟩ := hp
    have hp2 := hp2 hxy _ hx
    rw [slotElems_mk] at hp2
    have hst := wf_st h x (o := .none) trivial
    unfold collectOwnU
    rw [pull_run t n F q B [] hF]
    by_cases hn : n ≤ q.length
    · rw [if_pos hn]
      dsimp only
      have hE := dropIt_ends (boom := boom) (P := CanPanic t σ (.gather x y n)) (F ++ q.take n) (q.drop n) B
      obtain ⟨d, _, _, d3⟩ := dropIt_spec boom (F ++ q.take n) (q.drop n) B
      rcases hr : (OwnIt.dropOp boom).run (mkIt (F ++ q.take n) (q.drop n) B []) with ⟨r, s'⟩
      rw [hr] at hE d3
      dsimp only at hE d3
      have good : (∀ e ∈ s'.mem.drops, boom e = false) → ∀ v, Census boom (CanPanic t σ (.gather x y n)) σ.world
          (({ σ.store x .none with world := σ.world.log s'.mem.drops v } : State k).putU boom y (vecOf n (q.take n))) :=
        fun hd v => putU_census (t := t) y _ (hst y) s'.mem.drops rfl hd
      have lost : Ends boom (CanPanic t σ (.gather x y n)) .panic s'.mem.drops → ∀ v, Census boom (CanPanic t σ (.gather x y n)) σ.world
          (.panic, ({ σ.store x .none with world := σ.world.log s'.mem.drops v } : State k)) :=
        fun hd v => ⟨s'.mem.drops, rfl, hd⟩
      have can : q.length ≠ n → CanPanic t σ (.gather x y n) := by
        intro hne s hs
        rw [hx] at hs
        cases hs
        rw [slotElems_mk]; exact hne
      cases hdbg : t.debugAssertions with
      | false =>
        simp only [Bool.false_eq_true, if_false]
        rcases d3 with ⟨d3, -⟩ | d3
        · rw [d3] at hE ⊢; exact good (ends_ok.1 hE) _
        · rw [d3] at hE ⊢; exact lost hE _
      | true =>
        simp only [if_true, OwnIt.len_mk, hr]
        rcases d3 with ⟨d3, -⟩ | d3
        · rw [d3] at hE ⊢
          dsimp only
          by_cases hz : (q.drop n).length = 0
          · rw [if_pos hz]; exact good (ends_ok.1 hE) _
          · rw [if_neg hz]
            exact lost (ends_other (can (by simp at hz; omega)) (ends_ok.1 hE)) _
        · rw [d3] at hE ⊢
          exact lost hE _
    · rw [if_neg hn]
      have hlt : q.length < n := by omega
      simp only [C02_drops t boom n q hlt (hp2 hlt), OwnIt.drop_ok boom (F ++ q) [] B [] (by simp)]
      simp only [mkMem, if_true, List.append_nil]
      refine ⟨q, rfl, ends_other ?_ (hp2 hlt)⟩
      intro s hs
      rw [hx] at hs
      cases hs
      rw [slotElems_mk]; omega
  · exact .same

theorem census_toMat (h : ∀ x, WF t (σ.vars x)) (x : Fin k) (r c : Nat) : Census boom P σ.world (execU boom t (.toMat x r c) σ) := by
  simp only [execU]
  have hwx := h x
  split
  · rename_i n v hx
    rw [hx] at hwx
    split
    · rename_i hn
      obtain ⟨rfl, hc⟩ := hn
      have hd : c ∣ r * c := ⟨r, Nat.mul_comm _ _⟩
      have hlen : (chunksOf c v hd).length = r := by
        rw [(C12_chunk_contents c hd v).1, Nat.mul_div_cancel _ hc]
      dsimp only
      rw [fromVector_run t hc v hwx hd hlen]
      simp only [OwnIt.drop_ok _ v.toList [] [] [] (by simp : ∀ x ∈ ([] : List Nat), _)]
      exact ⟨[], by simp [World.log, mkMem], by simp [Ends]⟩
    · exact .same
  · exact .same

theorem census_collect (x : Fin k) (hw : WF t (σ.vars x)) (n : Nat) (src : List Bool) (hp : ProperU boom t σ (.collect x n src)) :
    Census boom (CanPanic t σ (.collect x n src)) σ.world (execU boom t (.collect x n src) σ) := by
  simp only [execU]
  generalize hasked : askedU boom t σ.world.fresh n src = m
  clear hasked
  obtain ⟨hn, hp2⟩ := hp
  have hn : n < t.W := hn
  generalize hi : σ.world.fresh = i
  rw [hi] at hp2
  generalize ha : (src.takeWhile id).length = a
  have hs := steps_eq i src
  rw [ha] at hs
  have good : ∀ l, Census boom (CanPanic t σ (.collect x n src)) σ.world
      (({ σ with world := ({ σ.world with fresh := i + m } : World).log [] [] } : State k).putU boom x (vecOf n (slotElems l))) :=
    fun l => putU_census (t := t) x _ hw [] (by simp [World.log]) (by simp)
  have bad : ∀ (d : List Nat), Ends boom (CanPanic t σ (.collect x n src)) .panic d → Census boom (CanPanic t σ (.collect x n src)) σ.world
      (.panic, ({ σ with world := ({ σ.world with fresh := i + m } : World).log d [] } : State k)) :=
    fun d hd => ⟨d, rfl, hd⟩
  have calm : ∀ d : List Nat, (false ∈ src ∨ src.length ≠ n) → (∀ e ∈ d, boom e = false) →
      Ends boom (CanPanic t σ (.collect x n src)) .panic d := fun d hP hd => ends_other hP hd
  have hexact : false ∉ src → src.length = a := by
    intro hf
    rw [← ha]
    have : ∀ l : List Bool, false ∉ l → l.takeWhile id = l := by
      intro l
      induction l with
      | nil => intro; rfl
      | cons b l ih =>
        intro hm
        cases b with
        | false => simp at hm
        | true => simp only [List.takeWhile_cons, id, if_true]; rw [ih (by simpa using hm)]
    rw [this src hf]
  have odd : a ≠ n → false ∈ src ∨ src.length ≠ n := by
    intro hne
    by_cases hf : false ∈ src
    · exact .inl hf
    · exact .inr (by rw [hexact hf]; exact hne)
  have split : ∀ m, n ≤ m → List.range' i m = List.range' i n ++ List.range' (i + n) (m - n) := by
    intro m hm
    conv_lhs => rw [show m = n + (m - n) by omega]
    rw [← List.range'_append]; simp
  have rn : (List.range' i n).length = n := by simp
  by_cases hlt : a < n
  · by_cases hf : false ∈ src
    · rcases hs with hs | ⟨rest, hs⟩
      · exfalso
        have : ∀ (i : Nat) (src : List Bool), false ∈ src → SrcStep.panic ∈ steps i src := by
          intro i src
          induction src generalizing i with
          | nil => simp
          | cons b src ih =>
            intro hm
            cases b with
            | false => simp [steps]
            | true => rw [steps]; exact List.mem_cons_of_mem _ (ih _ (by simpa using hm))
        have := this i src hf
        rw [hs] at this
        simp at this
      · rw [hs, C04_source_panics t boom n (List.range' i a) rest (by simpa using hlt)]
        simp only [if_true]
        exact bad [] (calm _ (.inl hf) (by simp))
    · have hall : src.takeWhile id = src := by
        have : ∀ l : List Bool, false ∉ l → l.takeWhile id = l := by
          intro l
          induction l with
          | nil => intro; rfl
          | cons b l ih =>
            intro hm
            cases b with
            | false => simp at hm
            | true => simp only [List.takeWhile_cons, id, if_true]; rw [ih (by simpa using hm)]
        exact this src hf
      rw [hall] at ha
      have hst : steps i src = (List.range' i a).map .item := by
        have : ∀ (i : Nat) (src : List Bool), false ∉ src → steps i src = (List.range' i src.length).map .item := by
          intro i src
          induction src generalizing i with
          | nil => intro; rfl
          | cons b src ih =>
            intro hm
            cases b with
            | false => simp at hm
            | true => rw [steps, ih _ (by simpa using hm), List.length_cons, List.range'_succ]; rfl
        rw [this i src hf, ha]
      have hb : ∀ e ∈ List.range' i a, boom e = false := by
        intro e he
        rw [List.mem_range'_1] at he
        exact hp2 (by omega) hf e he.1 (by omega)
      rw [hst, C02_drops t boom n (List.range' i a) (by simpa using hlt) hb]
      simp only [if_true]
      exact bad _ (calm _ (odd (by omega)) hb)
  · have hle : n ≤ a := Nat.le_of_not_lt hlt
    cases hd : t.debugAssertions with
    | false =>
      have h3 := fun rest => C03_memory_release t hd boom (List.range' i n) rest
      rw [rn] at h3
      rcases hs with hs | ⟨rest, hs⟩
      · rw [hs, split a hle, List.map_append, h3]
        exact good _
      · rw [hs, split a hle, List.map_append, List.append_assoc, h3]
        exact good _
    | true =>
      rcases first_boom boom (List.range' (i + n) (a - n)) with hb | ⟨p, e0, q, hpq, hb1, hb2⟩
      · rcases hs with hs | ⟨rest, hs⟩
        · by_cases he : a = n
          · have h3 := C01_memory t boom (List.range' i n)
            rw [rn] at h3
            rw [hs, he, h3]
            exact good _
          · have h3 := C03_memory_debug t hd boom (List.range' i n) (List.range' (i + n) (a - n)) (by simp; omega) hb
            rw [rn, ← split a hle] at h3
            rw [hs, h3]
            simp only [if_true]
            exact bad _ (calm _ (odd he) hb)
        · have h3 := C04_count_panics t hd boom (List.range' i n) (List.range' (i + n) (a - n)) hb rest
          rw [rn, ← List.append_assoc, ← List.map_append, ← split a hle] at h3
          have hf : false ∈ src := by
            by_contra hf
            have : ∀ (i : Nat) (src : List Bool), false ∉ src → SrcStep.panic ∉ steps i src := by
              intro i src
              induction src generalizing i with
              | nil => simp [steps]
              | cons b src ih =>
                intro hm
                cases b with
                | false => simp at hm
                | true => rw [steps]; simpa using ih _ (by simpa using hm)
            exact this i src hf (by rw [hs]; simp)
          rw [hs, h3]
          simp only [if_true]
          exact bad _ (calm _ (.inl hf) hb)
      · have h3 := fun rest => fromIter_count_boom (t := t) hd (List.range' i n) p e0 rest hb1 hb2
        rw [rn] at h3
        have h1 : Ends boom (CanPanic t σ (.collect x n src)) .panic (p ++ [e0]) := by
          refine ends_one ?_
          rw [booms_append, booms_zero.2 hb1]; simp [booms, hb2]
        rcases hs with hs | ⟨rest, hs⟩
        · rw [hs, split a hle, hpq, List.map_append, List.map_append, List.map_cons, h3]
          simp only [if_true]
          exact bad _ h1
        · rw [hs, split a hle, hpq, List.map_append, List.map_append, List.map_cons, List.append_assoc, List.append_assoc, List.cons_append, h3]
          simp only [if_true]
          exact bad _ h1

theorem census_exec (h : ∀ x, WF t (σ.vars x)) (p : Stmt k) (hp : ProperU boom t σ p) : Census boom (CanPanic t σ p) σ.world (execU boom t p σ) := by
  cases p with
  | new x => exact putU_census (t := t) x _ (h x) [] (by simp) (by simp)
  | collect x n src => exact census_collect x (h x) n src hp
  | drop x => exact putU_census (t := t) x _ (h x) [] (by simp) (by simp)
  | move x y =>
    simp only [execU]
    split
    · exact .same
    · exact putU_census (t := t) y _ (wf_st h x (o := .none) trivial y) [] (by simp [State.store]) (by simp)
  | map x y f => exact census_map h x y f
  | zip x y z f => exact census_zip h x y z f
  | assign x y f => exact census_assign h x y f
  | write x i y => exact census_write x i y
  | intoIter x => simp only [execU]; split <;> exact .same
  | intoChunks x I =>
    simp only [execU]
    split
    · split <;> exact .same
    · exact .same
  | next x y => exact census_next h x y
  | nextBack x y => exact census_nextBack h x y hp
  | nth x y i => exact census_nth h x y i hp
  | gather x y n => exact census_gather h x y n hp
  | toMat x r c => exact census_toMat h x r c

theorem census_run (ps : List (Stmt k)) (h : Good t σ lk []) (hp : CarefulU boom t ps σ) :
    ∃ ds, List.Forall₂ (Ends boom True) (runU boom t ps σ).1 ds ∧ (runU boom t ps σ).2.world.dropped = σ.world.dropped ++ ds.flatten := by
  induction ps generalizing σ lk with
  | nil => exact ⟨[], .nil, by simp [runU]⟩
  | cons p ps ih =>
    obtain ⟨hp1, hp2⟩ := hp
    obtain ⟨h1, lk1, g1, -⟩ := fineU_exec h p hp1
    obtain ⟨d, e1, e2⟩ := census_exec h.wf p hp1
    have e2 := ends_mono e2 (Q := True) fun _ => trivial
    rw [runU]
    have go : ∀ r : End, r = (execU boom t p σ).1 → r = .ok ∨ r = .panic →
        ∃ ds, List.Forall₂ (Ends boom True) (r :: (runU boom t ps (execU boom t p σ).2).1) ds ∧
          (runU boom t ps (execU boom t p σ).2).2.world.dropped = σ.world.dropped ++ ds.flatten := by
      intro r hr hc
      rw [hr] at hc
      obtain ⟨ds, i1, i2⟩ := ih g1 (hp2 hc)
      exact ⟨d :: ds, .cons (hr ▸ e2) i1, by rw [i2, e1]; simp⟩
    cases hr : (execU boom t p σ).1 with
    | ub => exact absurd hr h1
    | abort => exact ⟨[d], .cons (hr ▸ e2) .nil, by simp [e1]⟩
    | ok => exact go .ok hr.symm (.inl rfl)
    | panic => exact go .panic hr.symm (.inr rfl)

theorem census_leave (xs : List (Fin k)) (r : End) (h : ∀ x, WF t (σ.vars x)) (hr : r ≠ .ub) (d0 : List Nat) (h0 : Ends boom P r d0) :
    ∃ d, (leaveU boom r xs σ).2.world.dropped = σ.world.dropped ++ d ∧ Ends boom P (leaveU boom r xs σ).1 (d0 ++ d) := by
  induction xs generalizing r σ d0 with
  | nil => exact ⟨[], by simp [leaveU], by simpa [leaveU] using h0⟩
  | cons a xs ih =>
    have hv : ∀ w : World, ∀ x, WF t (({ vars := fun i => if i = a then .none else σ.vars i, world := w } : State k).vars x) := by
      intro w x
      by_cases hx : x = a
      · simp [hx, WF]
      · simpa [hx] using h x
    cases r with
    | ub => exact absurd rfl hr
    | abort => exact ⟨[], by simp [leaveU], by simpa [leaveU] using h0⟩
    | ok =>
      rw [leaveU]
      have hE := ends_prepend (ends_ok.1 h0) (destroyed_ends (boom := boom) (P := P) (h a))
      obtain ⟨dd, -, -, hne, -⟩ := destroyed_wf boom (h a)
      obtain ⟨d, e1, e2⟩ := ih (σ := (σ.putU boom a .none).2) (σ.putU boom a .none).1 (hv _) hne _ hE
      exact ⟨((σ.vars a).destroyed boom).2.1 ++ d, by rw [e1]; simp [State.putU, World.log], by rw [← List.append_assoc]; exact e2⟩
    | panic =>
      rw [leaveU]
      have hE := through_ends (boom := boom) (d := (σ.vars a).dropLog.1) h0
      have hne : (σ.wipe boom a).1 ≠ .ub := by simp only [State.wipe]; split <;> simp
      obtain ⟨d, e1, e2⟩ := ih (σ := (σ.wipe boom a).2) (σ.wipe boom a).1 (hv _) hne _ hE
      exact ⟨through boom (σ.vars a).dropLog.1 ++ d, by rw [e1]; simp [State.wipe, World.log], by rw [← List.append_assoc]; exact e2⟩

/-! ## The theorems -/

/-- C110: how many panics it takes.  The log of a careful program is made of one piece per executed statement; in a statement that
succeeded nothing panicked, in one that panicked exactly one destructor or other call did, and the process was aborted
exactly if there were two panics, the second in the destructor that ran last. -/
theorem C110_census (boom : Nat → Bool) (t : Target) (ps : List (Stmt k)) (hp : CarefulU boom t ps (init : State k)) :
    ∃ pieces : List (List Nat), List.Forall₂ (Ends boom True) (runU boom t ps init).1 pieces ∧
      (runU boom t ps init).2.world.dropped = pieces.flatten := by
  obtain ⟨ds, h1, h2⟩ := census_run ps (good_init (k := k) (t := t)) hp
  exact ⟨ds, h1, by rw [h2]; rfl⟩

/-- C110: the same for one statement after any careful program, where a panic outside destructors counts only if the statement has a
reason for one (`CanPanic`). -/
theorem C110_census_step (boom : Nat → Bool) (t : Target) (ps : List (Stmt k)) (hp : CarefulU boom t ps (init : State k))
    (p : Stmt k) (hs : ProperU boom t (runU boom t ps init).2 p) :
    let σ := (runU boom t ps (init : State k)).2
    ∃ d, (execU boom t p σ).2.world.dropped = σ.world.dropped ++ d ∧ Ends boom (CanPanic t σ p) (execU boom t p σ).1 d := by
  obtain ⟨-, lk, g, -⟩ := runU_good ps (good_init (k := k) (t := t)) hp
  exact census_exec g.wf p hs

/-- C110: the same for the end of the scope, where only destructors can panic. -/
theorem C110_census_scope (boom : Nat → Bool) (t : Target) (ps : List (Stmt k)) (hp : CarefulU boom t ps (init : State k)) :
    let σ := (runU boom t ps (init : State k)).2
    ∃ d, (endScopeU boom σ).2.world.dropped = σ.world.dropped ++ d ∧ Ends boom False (endScopeU boom σ).1 d := by
  obtain ⟨-, lk, g, -⟩ := runU_good ps (good_init (k := k) (t := t)) hp
  obtain ⟨d, h1, h2⟩ := census_leave (boom := boom) (List.finRange k) .ok g.wf (by simp) [] (ends_ok.2 (by simp))
  exact ⟨d, h1, by simpa [endScopeU] using h2⟩

/-- C110: if a program never panics and never aborts, no destructor that ran panics. -/
theorem C110_quiet (boom : Nat → Bool) (t : Target) (ps : List (Stmt k)) (hp : CarefulU boom t ps (init : State k))
    (hok : ∀ r ∈ (runU boom t ps (init : State k)).1, r = .ok) : ∀ e ∈ (runU boom t ps (init : State k)).2.world.dropped, boom e = false := by
  obtain ⟨ds, h1, h2⟩ := C110_census boom t ps hp
  rw [h2]
  clear h2
  generalize (runU boom t ps (init : State k)).1 = rs at h1 hok
  induction h1 with
  | nil => simp
  | @cons r d rs ds hE _ ih =>
    intro e he
    rw [List.flatten_cons, List.mem_append] at he
    have hr := hok r List.mem_cons_self
    subst hr
    rcases he with he | he
    · exact ends_ok.1 hE e he
    · exact ih (fun r hr => hok r (List.mem_cons_of_mem _ hr)) e he

/-- An abort in the middle of `+`: the operator destroys both operands (0 and then 4, 1 and then 5); the destructors of 1 and 5
panic.  The program is careful, it ends with an abort, and 5 is the last element destroyed. -/
example : CarefulU (fun e => e == 1 || e == 5) ⟨true, true, 2 ^ 64⟩
      [.collect 0 4 [true, true, true, true], .collect 1 4 [true, true, true, true], .zip 0 1 2 (fun _ => .replace), .drop 2] (init : State 3) ∧
    (runU (fun e => e == 1 || e == 5) ⟨true, true, 2 ^ 64⟩
      [.collect 0 4 [true, true, true, true], .collect 1 4 [true, true, true, true], .zip 0 1 2 (fun _ => .replace), .drop 2] (init : State 3)).1 =
      [.ok, .ok, .abort] ∧
    (runU (fun e => e == 1 || e == 5) ⟨true, true, 2 ^ 64⟩
      [.collect 0 4 [true, true, true, true], .collect 1 4 [true, true, true, true], .zip 0 1 2 (fun _ => .replace), .drop 2] (init : State 3)).2.world.dropped =
      [0, 4, 1, 5] := by
  decide +kernel

end Owner
end Rowcol
