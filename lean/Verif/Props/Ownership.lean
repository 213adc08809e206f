import Verif.Model.Ownership
import Verif.Props.ConsumeMat
import Verif.Props.FromIter
import Verif.Props.OwnExact
import Verif.Props.Chunks
import Verif.Props.Index
import Mathlib.Algebra.BigOperators.Fin
import Mathlib.Data.List.Count

/-! # C106: whole programs that own elements: every element has exactly one owner and is destroyed exactly once -/

namespace Rowcol
open Spec
namespace Owner

variable {k : Nat}

namespace Spec

/-- The elements an object owns: all of an array's; those not yet handed out or destroyed of an iterator's. -/
def owns : Obj → List Nat
  | .none => []
  | .elem x => [x]
  | .vec _ v => v.toList
  | .mat _ _ a => (a.rows.toList.map Vec.toList).flatten
  | .iter s => slotElems s.mem.slots
  | .chunks _ s => slotElems s.mem.slots

/-- All elements owned by variables. -/
def owned (σ : State k) : List Nat := (List.finRange k).flatMap fun x => owns (σ.vars x)

/-- The calls that C77 shows to be misuse are avoided: `next_back` on an owning iterator with no element left from which
something was taken at the front, and `nth(i)` with more elements to skip than are left (except where its overflow check
catches it).  Lengths are machine numbers. -/
def Proper (t : Target) (σ : State k) : Stmt k → Prop
  | .collect _ n _ => n < t.W
  | .gather _ _ n => n < t.W
  | .toMat _ r c => r < t.W ∧ c < t.W
  | .nextBack x y => x ≠ y → ∀ s, σ.vars x = .iter s → slotElems s.mem.slots = [] → s.next = 0
  | .nth x y i => x ≠ y → ∀ s, σ.vars x = .iter s →
      i ≤ (slotElems s.mem.slots).length ∨ (t.overflowChecks = true ∧ t.W ≤ s.next + i)
  | _ => True

/-- Every call of the program's run is proper. -/
def Careful (t : Target) : List (Stmt k) → State k → Prop
  | [], _ => True
  | p :: ps, σ => Proper t σ p ∧ Careful t ps (exec t p σ).2

end Spec

open Spec

/-! ## The balance of elements -/

/-- 1 for the elements created so far. -/
def ind (n e : Nat) : Nat := if e < n then 1 else 0

/-- Between two moments, `ins` were taken in and `outs` are held: created + taken in = destroyed + held. -/
def Bal (w w' : World) (ins outs : List Nat) : Prop :=
  (∀ e, w'.dropped.count e + outs.count e + ind w.fresh e = w.dropped.count e + ins.count e + ind w'.fresh e) ∧
  w'.viols = w.viols

theorem Bal.refl (w : World) (l : List Nat) : Bal w w l l := ⟨fun _ => rfl, rfl⟩

theorem Bal.trans {w w' w'' : World} {a b c d : List Nat} (h : Bal w w' a b) (h' : Bal w' w'' c d) :
    Bal w w'' (a ++ c) (b ++ d) :=
  ⟨fun e => by have := h.1 e; have := h'.1 e; simp only [List.count_append]; omega, h'.2.trans h.2⟩

theorem Bal.weaken {w w' : World} {a b a' b' : List Nat} (h : Bal w w' a b) (ha : ∀ e, a.count e = a'.count e)
    (hb : ∀ e, b.count e = b'.count e) : Bal w w' a' b' :=
  ⟨fun e => by have := h.1 e; rw [ha, hb] at this; exact this, h.2⟩

theorem Bal.log (w : World) (d : List Nat) : Bal w (w.log d []) d [] :=
  ⟨fun e => by simp [World.log], by simp [World.log]⟩

theorem ind_succ (n e : Nat) : ind (n + 1) e = ind n e + [n].count e := by
  simp only [ind, List.count_singleton]
  by_cases h : e < n
  · have : ¬ (n == e) = true := by simp; omega
    simp [h, this, Nat.lt_succ_of_lt h]
  · by_cases h' : n = e
    · subst h'; simp
    · have : ¬ e < n + 1 := by omega
      simp [h, h', this]

theorem ind_add (n m e : Nat) : ind (n + m) e = ind n e + (List.range' n m).count e := by
  induction m with
  | zero => simp
  | succ m ih => rw [← Nat.add_assoc, ind_succ, ih, List.range'_concat, List.count_append]; simp; omega

theorem destroy_run (x : Nat) (w : World) : (destroy x).run w = (.ok (), { w with dropped := w.dropped ++ [x] }) := rfl
theorem create_run (w : World) : create.run w = (.ok w.fresh, { w with fresh := w.fresh + 1 }) := rfl

/-- What an element operation given the elements `inp` does, in all cases. -/
def Fair {X : Type} (inp : X → List Nat) (g : X → StM World Nat) : Prop :=
  ∀ x w, (∃ z w', (g x).run w = (.ok z, w') ∧ Bal w w' (inp x) [z]) ∨
    (∃ w', (g x).run w = (.error .panic, w') ∧ Bal w w' (inp x) [])

theorem Beh.fair (f : Nat × Nat → Beh) {Y : Type} (pos : Y → Nat × Nat) :
    Fair (fun p : Nat × Y => [p.1]) (fun p => (f (pos p.2)).act p.1) := by
  rintro ⟨x, y⟩ w
  simp only
  cases f (pos y) with
  | keep => exact .inl ⟨x, w, rfl, Bal.refl _ _⟩
  | replace =>
    refine .inl ⟨w.fresh, _, rfl, fun e => ?_, rfl⟩
    simp only [ind_succ, List.count_append]; omega
  | panic =>
    refine .inr ⟨_, rfl, fun e => ?_, rfl⟩
    simp only [List.count_append, List.count_nil]; omega

theorem Beh2.fair (f : Nat → Beh2) : Fair (fun p : Nat × Nat => [p.1, p.2]) (fun p => (f p.1).act p.1 p.2) := by
  rintro ⟨x, y⟩ w
  simp only
  cases f x with
  | left =>
    refine .inl ⟨x, _, rfl, fun e => ?_, rfl⟩
    simp only [List.count_append, List.count_cons, List.count_nil]; omega
  | right =>
    refine .inl ⟨y, _, rfl, fun e => ?_, rfl⟩
    simp only [List.count_append, List.count_cons, List.count_nil]; omega
  | replace =>
    refine .inl ⟨w.fresh, _, rfl, fun e => ?_, rfl⟩
    simp only [ind_succ, List.count_append, List.count_cons, List.count_nil]; omega
  | panic =>
    refine .inr ⟨_, rfl, fun e => ?_, rfl⟩
    simp only [List.count_append, List.count_cons, List.count_nil]; omega

theorem BehA.fair (f : BehA) (a b : Nat) (w : World) :
    (f.act a b w).1 ≠ .error .ub ∧ Bal w (f.act a b w).2.2 [a, b] [(f.act a b w).2.1] := by
  cases f <;> refine ⟨by simp [BehA.act], fun e => ?_, rfl⟩ <;>
    simp only [BehA.act, ind_succ, List.count_append, List.count_cons, List.count_nil] <;> omega

theorem handOver_bal {X : Type} {inp : X → List Nat} {g : X → StM World Nat} (hg : Fair inp g) (xs : List X) (w : World) :
    (∃ zs w', handOver g xs w = (.ok zs, w', []) ∧ zs.length = xs.length ∧ Bal w w' (xs.flatMap inp) zs) ∨
    (∃ w' rest lk, handOver g xs w = (.error .panic, w', rest) ∧ Bal w w' (xs.flatMap inp) (lk ++ rest.flatMap inp)) := by
  induction xs generalizing w with
  | nil => exact .inl ⟨[], w, rfl, rfl, Bal.refl _ _⟩
  | cons x xs ih =>
    rcases hg x w with ⟨z, w1, h1, b1⟩ | ⟨w1, h1, b1⟩
    · rcases ih w1 with ⟨zs, w2, h2, hl, b2⟩ | ⟨w2, rest, lk, h2, b2⟩
      · refine .inl ⟨z :: zs, w2, ?_, by simp [hl], ?_⟩
        · rw [handOver, h1]; simp only [h2]
        · exact b1.trans b2
      · refine .inr ⟨w2, rest, z :: lk, ?_, ?_⟩
        · rw [handOver, h1]; simp only [h2]
        · have := b1.trans b2
          simpa using this
    · refine .inr ⟨w1, xs, [], ?_, ?_⟩
      · rw [handOver, h1]
      · have := b1.trans (Bal.refl w1 (xs.flatMap inp))
        simpa using this

theorem assignAll_bal (f : Nat → BehA) (ps : List (Nat × Nat)) (w : World) :
    let r := assignAll (fun e e' => (f e').act e e') ps w
    r.1 ≠ .error .ub ∧ r.2.1.length = ps.length ∧ Bal w r.2.2.1 (ps.flatMap fun p => [p.1, p.2]) (r.2.1 ++ r.2.2.2) := by
  induction ps generalizing w with
  | nil => exact ⟨by simp [assignAll], rfl, Bal.refl _ _⟩
  | cons p ps ih =>
    obtain ⟨h1, b1⟩ := BehA.fair (f p.2) p.1 p.2 w
    rw [assignAll]
    rcases hr : (f p.2).act p.1 p.2 w with ⟨r, a, w1⟩
    rw [hr] at h1 b1
    simp only at h1 b1
    cases r with
    | error e =>
      refine ⟨by simpa using h1, by simp, ?_⟩
      refine (b1.trans (Bal.refl w1 (ps.flatMap fun p => [p.1, p.2]))).weaken (fun _ => rfl) fun e => ?_
      have : ∀ l : List (Nat × Nat), (l.flatMap fun p => [p.1, p.2]).count e = (l.map Prod.fst).count e + (l.map Prod.snd).count e := by
        intro l
        induction l with
        | nil => rfl
        | cons q l ih =>
          simp only [List.flatMap_cons, List.count_append, ih, List.map_cons, List.count_cons, List.count_nil]; omega
      simp only [List.count_append, List.count_cons, List.count_nil, this]; omega
    | ok u =>
      obtain ⟨h2, hl, b2⟩ := ih w1
      simp only
      rcases hs : assignAll (fun e e' => (f e').act e e') ps w1 with ⟨r, as, w2, rest⟩
      rw [hs] at h2 hl b2
      refine ⟨h2, by simpa using hl, ?_⟩
      exact b1.trans b2

/-! ## The invariant -/

/-- Objects that can come about. -/
def WF (t : Target) : Obj → Prop
  | .vec n _ => n < t.W
  | .mat r c _ => r < t.W ∧ c < t.W
  | .iter s => ∃ F q B, s = mkIt F q B [] ∧ F.length + q.length < t.W
  | .chunks I s => 0 < I ∧ ∃ F B, ∃ cs : List (Vec Nat I), s = mkIt F (OwnIt.flat cs) B [] ∧ F.length + cs.length * I < t.W
  | _ => True

theorem slotElems_mk (F q B D : List Nat) : slotElems (mkIt F q B D).mem.slots = q := by
  have g : ∀ l : List Nat, slotElems (l.map Slot.gone) = [] := by
    intro l; unfold slotElems; rw [List.filterMap_map]; simp
  have l : ∀ l : List Nat, slotElems (l.map Slot.live) = l := by
    intro l; unfold slotElems; rw [List.filterMap_map]; simp
  have a : ∀ l m : List (Slot Nat), slotElems (l ++ m) = slotElems l ++ slotElems m := by
    intro l m; exact List.filterMap_append
  simp only [mkIt, mkMem, a, g, l, List.append_nil, List.nil_append]

theorem dropLog_wf {t : Target} {o : Obj} (h : WF t o) : o.dropLog = (owns o, []) := by
  match o, h with
  | .none, _ => rfl
  | .elem _, _ => rfl
  | .vec _ _, _ => rfl
  | .mat _ _ _, _ => rfl
  | .iter s, ⟨F, q, B, hs, _⟩ =>
    subst hs
    simp only [Obj.dropLog, owns, slotElems_mk, OwnIt.drop_ok (fun _ => false) F q B [] (by simp)]
    simp [mkMem]
  | .chunks I s, ⟨_, F, B, cs, hs, _⟩ =>
    subst hs
    simp only [Obj.dropLog, owns, slotElems_mk, OwnIt.drop_ok (fun _ => false) F _ B [] (by simp)]
    simp [mkMem]

/-- How often `e` is owned. -/
def ownCount (σ : State k) (e : Nat) : Nat := ∑ x : Fin k, (owns (σ.vars x)).count e

theorem count_owned (σ : State k) (e : Nat) : (owned σ).count e = ownCount σ e := by
  rw [owned, List.count_flatMap, ownCount, Fin.sum_univ_def]; rfl

theorem ownCount_store (σ : State k) (x : Fin k) (o : Obj) (e : Nat) :
    ownCount (σ.store x o) e + (owns (σ.vars x)).count e = ownCount σ e + (owns o).count e := by
  unfold ownCount
  rw [← Finset.add_sum_erase _ _ (Finset.mem_univ x), ← Finset.add_sum_erase (a := x) _ (fun x => (owns (σ.vars x)).count e) (Finset.mem_univ x)]
  have h1 : (owns ((σ.store x o).vars x)).count e = (owns o).count e := by simp [State.store]
  have h2 : ∑ y ∈ Finset.univ.erase x, (owns ((σ.store x o).vars y)).count e =
      ∑ y ∈ Finset.univ.erase x, (owns (σ.vars y)).count e := by
    refine Finset.sum_congr rfl fun y hy => ?_
    have : y ≠ x := Finset.ne_of_mem_erase hy
    simp [State.store, this]
  rw [h1, h2]; omega

/-- Every created element is destroyed, leaked, owned by a variable, or pending (held by the statement being executed): once. -/
structure Good (t : Target) (σ : State k) (lk pend : List Nat) : Prop where
  wf : ∀ x, WF t (σ.vars x)
  viols : σ.world.viols = []
  bal : ∀ e, σ.world.dropped.count e + lk.count e + ownCount σ e + pend.count e = ind σ.world.fresh e

namespace Good
variable {t : Target} {σ : State k} {lk pend : List Nat}

theorem perm (h : Good t σ lk pend) {pend' : List Nat} (hp : ∀ e, pend.count e = pend'.count e) : Good t σ lk pend' :=
  ⟨h.wf, h.viols, fun e => by rw [← hp]; exact h.bal e⟩

theorem leak {l : List Nat} (h : Good t σ lk (l ++ pend)) : Good t σ (l ++ lk) pend :=
  ⟨h.wf, h.viols, fun e => by have := h.bal e; simp only [List.count_append] at *; omega⟩

theorem store (h : Good t σ lk pend) (x : Fin k) (o : Obj) (ho : WF t o) {pend' : List Nat}
    (hp : ∀ e, pend.count e + (owns (σ.vars x)).count e = (owns o).count e + pend'.count e) :
    Good t (σ.store x o) lk pend' := by
  refine ⟨fun y => ?_, h.viols, fun e => ?_⟩
  · by_cases hy : y = x
    · simpa [State.store, hy] using ho
    · simpa [State.store, hy] using h.wf y
  · have h1 := h.bal e
    have h2 := ownCount_store σ x o e
    have h3 := hp e
    show σ.world.dropped.count e + lk.count e + ownCount (σ.store x o) e + pend'.count e = ind σ.world.fresh e
    omega

theorem put (h : Good t σ lk pend) (x : Fin k) (o : Obj) (ho : WF t o) {pend' : List Nat}
    (hp : ∀ e, pend.count e = (owns o).count e + pend'.count e) : Good t (σ.put x o) lk pend' := by
  have hs := h.store x o ho (pend' := owns (σ.vars x) ++ pend') fun e => by rw [hp]; simp only [List.count_append]; omega
  have hd := dropLog_wf (h.wf x)
  refine ⟨hs.wf, ?_, fun e => ?_⟩
  · show σ.world.viols ++ (σ.vars x).dropLog.2 = []
    rw [hd, h.viols]; rfl
  · have := hs.bal e
    have e1 : ownCount (σ.put x o) e = ownCount (σ.store x o) e := rfl
    show (σ.world.dropped ++ (σ.vars x).dropLog.1).count e + lk.count e + ownCount (σ.put x o) e + pend'.count e = ind σ.world.fresh e
    rw [hd, e1, List.count_append]
    have e2 : (σ.store x o).world = σ.world := rfl
    rw [e2, List.count_append] at this
    dsimp only
    omega

theorem world {w : World} (h : Good t σ lk pend) {ins outs pend' : List Nat} (hb : Bal σ.world w ins outs)
    (hp : ∀ e, pend.count e + outs.count e = ins.count e + pend'.count e) : Good t { σ with world := w } lk pend' := by
  refine ⟨h.wf, hb.2.trans h.viols, fun e => ?_⟩
  have h1 := h.bal e
  have h2 := hb.1 e
  have h3 := hp e
  have e1 : ownCount { σ with world := w } e = ownCount σ e := rfl
  show w.dropped.count e + lk.count e + ownCount { σ with world := w } e + pend'.count e = ind w.fresh e
  omega

end Good

theorem vecOf_eq {n : Nat} {l : List Nat} (h : l.length = n) : vecOf n l = .vec n ⟨l, h⟩ := by simp [vecOf, h]

theorem owns_vecOf {n : Nat} {l : List Nat} (h : l.length = n) : owns (vecOf n l) = l := by rw [vecOf_eq h]; rfl

theorem wf_vecOf (t : Target) {n : Nat} (l : List Nat) (hn : n < t.W) : WF t (vecOf n l) := by
  unfold vecOf; split
  · exact hn
  · trivial

theorem owns_matOf {r c : Nat} {l : List (List Nat)} (h : l.length = r ∧ ∀ row ∈ l, row.length = c) :
    owns (matOf r c l) = l.flatten := by
  rw [matOf, dif_pos h]
  simp only [owns, List.map_map]
  congr 1
  have : (Vec.toList ∘ fun p : {x // x ∈ l} => (⟨p.1, h.2 p.1 p.2⟩ : Vec Nat c)) = Subtype.val := rfl
  rw [this, List.attach_map_subtype_val]

theorem wf_matOf (t : Target) {r c : Nat} (l : List (List Nat)) (hr : r < t.W) (hc : c < t.W) : WF t (matOf r c l) := by
  unfold matOf; split
  · exact ⟨hr, hc⟩
  · trivial

/-- The conclusion for one statement. -/
def Fine (t : Target) (lk : List Nat) (r : Res Unit × State k) : Prop :=
  r.1 ≠ .error .ub ∧ ∃ lk', Good t r.2 lk' [] ∧ (r.1 = .ok () → lk' = lk)

theorem Fine.same {t : Target} {σ : State k} {lk : List Nat} (h : Good t σ lk []) : Fine t lk (.ok (), σ) :=
  ⟨by simp, lk, h, fun _ => rfl⟩

theorem Fine.ok {t : Target} {σ : State k} {lk : List Nat} (h : Good t σ lk []) : Fine t lk (.ok (), σ) := Fine.same h

theorem Fine.panic {t : Target} {σ : State k} {lk lk' : List Nat} (h : Good t σ lk' []) : Fine t lk (.error .panic, σ) :=
  ⟨by simp, lk', h, fun h => by cases h⟩

/-! ## The statements that hand elements to element operations -/

theorem flatMap_fst {Y : Type} (l : List (Nat × Y)) : (l.flatMap fun p => [p.1]) = l.map Prod.fst := by
  rw [List.map_eq_flatMap]

theorem count_pairs (l : List (Nat × Nat)) (e : Nat) :
    (l.flatMap fun p => [p.1, p.2]).count e = (l.map Prod.fst).count e + (l.map Prod.snd).count e := by
  induction l with
  | nil => rfl
  | cons q l ih =>
    simp only [List.flatMap_cons, List.count_append, ih, List.map_cons, List.count_cons, List.count_nil]; omega

/-- Results of a fully successful `handOver`. -/
theorem handOver_all {X V L : Type} (P : V → Prop) (g : X → StM L V) (hP : ∀ x l z l', (g x).run l = (.ok z, l') → P z)
    (xs : List X) (l l' : L) (zs : List V) (rest : List X) (h : handOver g xs l = (.ok zs, l', rest)) :
    zs.length = xs.length ∧ ∀ z ∈ zs, P z := by
  induction xs generalizing l zs with
  | nil => cases h; simp
  | cons x xs ih =>
    rw [handOver] at h
    rcases hx : (g x).run l with ⟨r, l1⟩
    rw [hx] at h
    cases r with
    | error e => cases h
    | ok z =>
      simp only at h
      rcases hr : handOver g xs l1 with ⟨r, l2, rest'⟩
      rw [hr] at h
      cases r with
      | error e => cases h
      | ok zs' =>
        simp only [Prod.mk.injEq, Except.ok.injEq] at h
        obtain ⟨rfl, rfl, rfl⟩ := h
        obtain ⟨h1, h2⟩ := ih l1 zs' hr
        exact ⟨by simp [h1], by simpa using ⟨hP x l z l1 hx, h2⟩⟩

theorem consume_length {T V L : Type} {n : Nat} (t : Target) (hn : n < t.W) (f : Nat → T → StM L V) (v : Vec T n) (l : L) (zs : List V)
    (h : (OwnIt.consume t f v l).1 = .ok zs) : zs.length = n := by
  have h1 := (C78_vector t f v l hn).1
  rw [h] at h1
  rcases hr : handOver (fun p : T × Nat => f p.2 p.1) v.toList.zipIdx l with ⟨r, l', rest⟩
  rw [hr] at h1
  subst h1
  have := (handOver_all (fun _ => True) _ (fun _ _ _ _ _ => trivial) _ _ _ _ _ hr).1
  rw [this]; simp [v.length_eq]

theorem consumeMat_lengths {T V L : Type} {r c : Nat} (t : Target) (hr : r < t.W) (hc : c < t.W) (f : Nat × Nat → T → StM L V)
    (a : Mat T r c) (l : L) (zs : List (List V)) (h : (OwnIt.consumeMat t f a l).1 = .ok zs) :
    zs.length = r ∧ ∀ row ∈ zs, row.length = c := by
  have h0 : (OwnIt.consume t (OwnIt.consumeRow t f) a.rows (l, ⟨[], []⟩)).1 = .ok zs := h
  have h1 := (C78_vector t (OwnIt.consumeRow t f) a.rows (l, ⟨[], []⟩) hr).1
  rw [h0] at h1
  rcases hr' : handOver (fun p : Vec T c × Nat => OwnIt.consumeRow t f p.2 p.1) a.rows.toList.zipIdx (l, ⟨[], []⟩) with ⟨r', l', rest⟩
  rw [hr'] at h1
  subst h1
  have := handOver_all (fun row : List V => row.length = c) _ (fun x s z s' hx => by
    refine consume_length t hc (fun j x' => f (x.2, j) x') x.1 s.1 z ?_
    have := congrArg Prod.fst hx
    exact this) _ _ _ _ _ hr'
  exact ⟨by rw [this.1]; simp [a.rows.length_eq], this.2⟩

theorem consume2_length {T U V L : Type} {n : Nat} (t : Target) (hn : n < t.W) (f : T → U → StM L V) (a : Vec T n) (b : Vec U n) (l : L)
    (zs : List V) (h : (OwnIt.consume2 t f a b l).1 = .ok zs) : zs.length = n := by
  have h1 := (C78_two_vectors t f a b l hn).1
  rw [h] at h1
  rcases hr : handOver (fun p : T × U => f p.1 p.2) (a.toList.zip b.toList) l with ⟨r, l', rest⟩
  rw [hr] at h1
  subst h1
  have := (handOver_all (fun _ => True) _ (fun _ _ _ _ _ => trivial) _ _ _ _ _ hr).1
  rw [this]; simp [a.length_eq, b.length_eq]

theorem consumeMat2_lengths {T U V L : Type} {r c : Nat} (t : Target) (hr : r < t.W) (hc : c < t.W) (f : T → U → StM L V)
    (a : Mat T r c) (b : Mat U r c) (l : L) (zs : List (List V)) (h : (OwnIt.consumeMat2 t f a b l).1 = .ok zs) :
    zs.length = r ∧ ∀ row ∈ zs, row.length = c := by
  have h0 : (OwnIt.consume2 t (OwnIt.consumeRow2 t f) a.rows b.rows (l, ⟨[], []⟩, ⟨[], []⟩)).1 = .ok zs := h
  have h1 := (C78_two_vectors t (OwnIt.consumeRow2 t f) a.rows b.rows (l, ⟨[], []⟩, ⟨[], []⟩) hr).1
  rw [h0] at h1
  rcases hr' : handOver (fun p : Vec T c × Vec U c => OwnIt.consumeRow2 t f p.1 p.2) (a.rows.toList.zip b.rows.toList)
    (l, ⟨[], []⟩, ⟨[], []⟩) with ⟨r', l', rest⟩
  rw [hr'] at h1
  subst h1
  have := handOver_all (fun row : List V => row.length = c) _ (fun x s z s' hx => by
    refine consume2_length t hc f x.1 x.2 s.1 z ?_
    exact congrArg Prod.fst hx) _ _ _ _ _ hr'
  exact ⟨by rw [this.1]; simp [a.rows.length_eq, b.rows.length_eq], this.2⟩

variable {t : Target} {σ : State k} {lk : List Nat}

theorem Bal.log2 {w w' : World} {a b : List Nat} (h : Bal w w' a b) (d : List Nat) : Bal w (w'.log d []) (a ++ d) b := by
  have := h.trans (Bal.log w' d)
  rwa [List.append_nil] at this

theorem fine_map (h : Good t σ lk []) (x y : Fin k) (f : Nat × Nat → Beh) : Fine t lk (exec t (.map x y f) σ) := by
  have hw := h.wf x
  cases hx : σ.vars x with
  | none => simp only [exec, hx]; exact .same h
  | elem e => simp only [exec, hx]; exact .same h
  | iter s => simp only [exec, hx]; exact .same h
  | chunks I s => simp only [exec, hx]; exact .same h
  | vec n v =>
    rw [hx] at hw
    have hn : n < t.W := hw
    have g1 : Good t (σ.store x .none) lk v.toList := h.store x .none trivial fun e => by simp [hx, owns]
    obtain ⟨h1, h2, h3⟩ := C78_vector t (fun i e => (f (i, 0)).act e) v σ.world hn
    have hlen := consume_length t hn (fun i e => (f (i, 0)).act e) v σ.world
    simp only [exec, hx]
    rcases hc : OwnIt.consume t (fun i e => (f (i, 0)).act e) v σ.world with ⟨res, w, it⟩
    rw [hc] at h1 h2 h3 hlen
    simp only at h1 h2 h3 hlen
    simp only [h3.drops, h3.viols]
    have e1 : (v.toList.zipIdx.flatMap fun p => [p.1]) = v.toList := by rw [flatMap_fst, List.zipIdx_map_fst]
    rcases handOver_bal (Beh.fair f fun i : Nat => (i, 0)) v.toList.zipIdx σ.world with ⟨zs, w', ho, hl, hb⟩ | ⟨w', rest, l1, ho, hb⟩
    · rw [ho] at h1 h2 ⊢
      simp only at h1 h2
      subst h1 h2
      simp only
      rw [e1] at hb
      refine .ok ?_
      have g2 := g1.world (w := w.log ([] : List Nat) []) (pend' := zs) (hb.log2 []) fun e => by simp only [List.count_append, List.count_nil]; omega
      exact g2.put y _ (wf_vecOf t zs hn) fun e => by rw [owns_vecOf (hlen zs rfl)]; simp
    · rw [ho] at h1 h2 ⊢
      simp only at h1 h2
      subst h1 h2
      simp only
      rw [e1, flatMap_fst] at hb
      have g2 := g1.world (w := w.log (rest.map Prod.fst) []) (pend' := l1 ++ []) (hb.log2 _) fun e => by
        simp only [List.count_append, List.count_nil]; omega
      exact .panic g2.leak
  | mat r c a =>
    rw [hx] at hw
    obtain ⟨hr, hcc⟩ : r < t.W ∧ c < t.W := hw
    have g1 : Good t (σ.store x .none) lk (a.rows.toList.map Vec.toList).flatten := h.store x .none trivial fun e => by simp [hx, owns]
    obtain ⟨h1, h2, h3, h4⟩ := C78_matrix t (fun p e => (f p).act e) a σ.world hr hcc
    have hlen := consumeMat_lengths t hr hcc (fun p e => (f p).act e) a σ.world
    simp only [exec, hx]
    rcases hc : OwnIt.consumeMat t (fun p e => (f p).act e) a σ.world with ⟨res, w, it⟩
    rw [hc] at h1 h2 h3 h4 hlen
    simp only at h1 h2 h3 h4 hlen
    simp only [h3, h4]
    have e1 : ((cells a).flatMap fun p => [p.1]) = (a.rows.toList.map Vec.toList).flatten := by
      rw [flatMap_fst, cells, List.map_flatten, List.map_map]
      congr 1
      have : (List.map Prod.fst ∘ fun p : Vec Nat c × Nat => p.1.toList.zipIdx.map fun q => (q.1, (p.2, q.2))) =
          Vec.toList ∘ Prod.fst := by
        funext p
        simp only [Function.comp_apply, List.map_map]
        exact List.zipIdx_map_fst _ _
      rw [this, ← List.map_map, List.zipIdx_map_fst]
    rcases handOver_bal (Beh.fair f (id : Nat × Nat → _)) (cells a) σ.world with ⟨zs, w', ho, hl, hb⟩ | ⟨w', rest, l1, ho, hb⟩
    · simp only [id] at ho
      rw [ho] at h1 h2 ⊢
      simp only at h1 h2
      cases res with
      | error e => cases h1
      | ok zss =>
        have h1 : zss.flatten = zs := Except.ok.inj h1
        subst h2
        simp only
        rw [e1] at hb
        refine .ok ?_
        have g2 := g1.world (w := w.log ([] : List Nat) []) (pend' := zs) (hb.log2 []) fun e => by simp only [List.count_append, List.count_nil]; omega
        exact g2.put y _ (wf_matOf t zss hr hcc) fun e => by rw [owns_matOf (hlen zss rfl), h1]; simp
    · simp only [id] at ho
      rw [ho] at h1 h2 ⊢
      simp only at h1 h2
      cases res with
      | ok zss => cases h1
      | error e =>
        have h1 : e = .panic := Except.error.inj h1
        subst h1 h2
        simp only
        rw [e1, flatMap_fst] at hb
        have g2 := g1.world (w := w.log (rest.map Prod.fst) []) (pend' := l1 ++ []) (hb.log2 _) fun e => by
          simp only [List.count_append, List.count_nil]; omega
        exact .panic g2.leak

theorem count_cellPairs {r c : Nat} (a a' : Mat Nat r c) (e : Nat) :
    ((cellPairs a a').flatMap fun p => [p.1, p.2]).count e = (owns (.mat _ _ a) ++ owns (.mat _ _ a')).count e := by
  rw [count_pairs, cellPairs, OwnIt.map_fst_cellPairs, OwnIt.map_snd_cellPairs, List.count_append]
  have i1 : ((a.rows.toList.zip a'.rows.toList).map fun p => p.1.toList) = a.rows.toList.map Vec.toList := by
    conv_rhs => rw [← List.map_fst_zip (l₁ := a.rows.toList) (l₂ := a'.rows.toList) (by simp [a.rows.length_eq, a'.rows.length_eq])]
    rw [List.map_map]; rfl
  have i2 : ((a.rows.toList.zip a'.rows.toList).map fun p => p.2.toList) = a'.rows.toList.map Vec.toList := by
    conv_rhs => rw [← List.map_snd_zip (l₁ := a.rows.toList) (l₂ := a'.rows.toList) (by simp [a.rows.length_eq, a'.rows.length_eq])]
    rw [List.map_map]; rfl
  rw [i1, i2]; rfl

theorem count_interleave (c : Nat) (a b : List Nat) (e : Nat) : (interleave c a b).count e = a.count e + b.count e := by
  have h : ∀ (l : List Nat) m, l.count e = (l.take m).count e + (l.drop m).count e := fun l m => by
    conv_lhs => rw [← List.take_append_drop m l, List.count_append]
  have h1 := h a (a.length % c)
  have h2 := h b (b.length % c)
  simp only [interleave, List.count_append]; omega

theorem interleave_nil (c : Nat) : interleave c [] [] = [] := by simp [interleave]

theorem fine_zip (h : Good t σ lk []) (x y z : Fin k) (f : Nat → Beh2) : Fine t lk (exec t (.zip x y z f) σ) := by
  have hwx := h.wf x
  have hwy := h.wf y
  simp only [exec]
  split
  · exact .same h
  rename_i hxy
  have g1 : Good t ((σ.store x .none).store y .none) lk (owns (σ.vars x) ++ owns (σ.vars y)) :=
    (h.store x .none trivial (pend' := owns (σ.vars x)) fun e => by simp [owns]).store y .none trivial fun e => by
      have : (σ.store x .none).vars y = σ.vars y := by simp [State.store, Ne.symm hxy]
      rw [this]; simp [owns]
  split
  · rename_i n v n' v' hx hy
    rw [hx, hy] at g1
    rw [hx] at hwx
    have hn : n < t.W := hwx
    split
    · rename_i hnn
      subst hnn
      obtain ⟨h1, h2, h3, h4⟩ := C78_two_vectors t (fun e e' => (f e).act e e') v v' σ.world hn
      have hlen := consume2_length t hn (fun e e' => (f e).act e e') v v' σ.world
      simp only
      rcases hc : OwnIt.consume2 t (fun e e' => (f e).act e e') v v' σ.world with ⟨res, w, ia, ib⟩
      rw [hc] at h1 h2 h3 h4 hlen
      simp only at h1 h2 h3 h4 hlen
      simp only [h3.drops, h3.viols, h4.drops, h4.viols]
      have e1 : ∀ e, ((v.toList.zip v'.toList).flatMap fun p => [p.1, p.2]).count e = (v.toList ++ v'.toList).count e := by
        intro e
        rw [count_pairs, List.map_fst_zip (by simp [v.length_eq, v'.length_eq]), List.map_snd_zip (by simp [v.length_eq, v'.length_eq]),
          List.count_append]
      rcases handOver_bal (Beh2.fair f) (v.toList.zip v'.toList) σ.world with ⟨zs, w', ho, hl, hb⟩ | ⟨w', rest, l1, ho, hb⟩
      · rw [ho] at h1 h2 ⊢
        simp only at h1 h2
        subst h1 h2
        simp only
        have hb := hb.weaken e1 fun _ => rfl
        refine .ok ?_
        have g2 := g1.world (w := (w.log ([] : List Nat) []).log [] []) (pend' := zs) ((hb.log2 []).log2 []) fun e => by
          simp only [List.count_append, List.count_nil, owns]; omega
        exact g2.put z _ (wf_vecOf t zs hn) fun e => by rw [owns_vecOf (hlen zs rfl)]; simp
      · rw [ho] at h1 h2 ⊢
        simp only at h1 h2
        subst h1 h2
        simp only
        have hb := hb.weaken e1 fun _ => rfl
        have g2 := g1.world (w := (w.log (rest.map Prod.fst) []).log (rest.map Prod.snd) []) (pend' := l1 ++ []) ((hb.log2 _).log2 _) fun e => by
          have := count_pairs rest e
          simp only [List.count_append, List.count_nil, owns] at *; omega
        exact .panic g2.leak
    · exact .same h
  · rename_i r c a r' c' a' hx hy
    rw [hx, hy] at g1
    rw [hx] at hwx
    obtain ⟨hr, hcc⟩ : r < t.W ∧ c < t.W := hwx
    split
    · rename_i hnn
      obtain ⟨rfl, rfl⟩ := hnn
      obtain ⟨h1, h2, h3, h4, h5, h6⟩ := C78_two_matrices t (fun e e' => (f e).act e e') a a' σ.world hr hcc
      have hlen := consumeMat2_lengths t hr hcc (fun e e' => (f e).act e e') a a' σ.world
      simp only
      rcases hc : OwnIt.consumeMat2 t (fun e e' => (f e).act e e') a a' σ.world with ⟨res, w, ia, ib⟩
      rw [hc] at h1 h2 h3 h4 h5 h6 hlen
      simp only at h1 h2 h3 h4 h5 h6 hlen
      simp only [h3, h4, h5, h6]
      have e1 := count_cellPairs a a'
      rcases handOver_bal (Beh2.fair f) (cellPairs a a') σ.world with ⟨zs, w', ho, hl, hb⟩ | ⟨w', rest, l1, ho, hb⟩
      · rw [ho] at h1 h2 ⊢
        simp only at h1 h2
        cases res with
        | error e => cases h1
        | ok zss =>
          have h1 : zss.flatten = zs := Except.ok.inj h1
          subst h2
          simp only
          have hb := hb.weaken e1 fun _ => rfl
          refine .ok ?_
          rw [List.map_nil, List.map_nil, interleave_nil]
          have g2 := g1.world (w := (w.log ([] : List Nat) []).log [] []) (pend' := zs) ((hb.log2 []).log2 []) fun e => by
            simp only [List.count_append, List.count_nil]; omega
          exact g2.put z _ (wf_matOf t zss hr hcc) fun e => by rw [owns_matOf (hlen zss rfl), h1]; simp
      · rw [ho] at h1 h2 ⊢
        simp only at h1 h2
        cases res with
        | ok zss => cases h1
        | error e =>
          have h1 : e = .panic := Except.error.inj h1
          subst h1 h2
          simp only
          have hb := hb.weaken e1 fun _ => rfl
          have g2 := g1.world (w := (w.log (interleave c' (rest.map Prod.fst) (rest.map Prod.snd)) []).log [] []) (pend' := l1 ++ []) ((hb.log2 _).log2 _) fun e => by
            have := count_pairs rest e
            simp only [List.count_append, List.count_nil, count_interleave] at *; omega
          exact .panic g2.leak
    · exact .same h
  · exact .same h

theorem fine_assign (h : Good t σ lk []) (x y : Fin k) (f : Nat → BehA) : Fine t lk (exec t (.assign x y f) σ) := by
  have hwx := h.wf x
  simp only [exec]
  split
  · exact .same h
  rename_i hxy
  have fin : ∀ (o : Obj) (w : World) (res : Res Unit) (ins : List Nat), WF t o → res ≠ .error .ub →
      Bal σ.world w ins (owns o) →
      (∀ e, (owns (σ.vars x) ++ owns (σ.vars y)).count e = ins.count e) →
      Fine t lk (res, { (σ.store x o).store y .none with world := w }) := by
    intro o w res ins ho hres hb hc
    have g0 : Good t (σ.store x .none) lk (owns (σ.vars x)) := h.store x .none trivial fun e => by simp [owns]
    have g1 : Good t ((σ.store x .none).store y .none) lk (owns (σ.vars x) ++ owns (σ.vars y)) :=
      g0.store y .none trivial fun e => by
        have : (σ.store x .none).vars y = σ.vars y := by simp [State.store, Ne.symm hxy]
        rw [this]; simp [owns]
    have g2 := g1.world (w := w) (pend' := owns o) hb fun e => by have := hc e; omega
    have g3 := g2.store x o ho (pend' := []) fun e => by
      have : ({ (σ.store x .none).store y .none with world := w } : State k).vars x = .none := by
        simp [State.store, hxy]
      rw [this]; simp [owns]
    have e1 : (({ (σ.store x .none).store y .none with world := w } : State k).store x o) =
        { (σ.store x o).store y .none with world := w } := by
      simp only [State.store, State.mk.injEq, and_true]
      funext i
      by_cases hi : i = x
      · simp [hi, hxy]
      · simp [hi]
    rw [e1] at g3
    refine ⟨hres, lk, g3, fun _ => rfl⟩
  split
  · rename_i n v n' v' hx hy
    rw [hx, hy] at fin
    rw [hx] at hwx
    have hn : n < t.W := hwx
    split
    · rename_i hnn
      subst hnn
      obtain ⟨h1, h2, h3, h4⟩ := C79_vector t (fun e e' => (f e').act e e') v v' σ.world hn
      obtain ⟨b1, b2, b3⟩ := assignAll_bal f (v.toList.zip v'.toList) σ.world
      simp only
      rcases hc : OwnIt.assignOwn t (fun e e' => (f e').act e e') v v' σ.world with ⟨res, v1, w, ib⟩
      rw [hc] at h1 h2 h3 h4
      simp only at h1 h2 h3 h4
      rw [← h1] at b1
      rw [← h2, ← h3] at b3
      simp only [h4.drops, h4.viols]
      refine fin _ _ _ (v.toList ++ v'.toList) hn b1 ?_ fun e => rfl
      refine ⟨fun e => ?_, ?_⟩
      · have := b3.1 e
        rw [count_pairs, List.map_fst_zip (by simp [v.length_eq, v'.length_eq]), List.map_snd_zip (by simp [v.length_eq, v'.length_eq])] at this
        simp only [World.log, owns, List.count_append] at this ⊢
        omega
      · simp only [World.log, List.append_nil]; exact b3.2
    · exact .same h
  · rename_i r c a r' c' a' hx hy
    rw [hx, hy] at fin
    rw [hx] at hwx
    obtain ⟨hr, hcc⟩ : r < t.W ∧ c < t.W := hwx
    split
    · rename_i hnn
      obtain ⟨rfl, rfl⟩ := hnn
      obtain ⟨h1, h2, h3, h4, h5⟩ := C79_matrix t (fun e e' => (f e').act e e') a a' σ.world hr hcc
      obtain ⟨b1, b2, b3⟩ := assignAll_bal f (cellPairs a a') σ.world
      simp only
      rcases hc : OwnIt.assignOwnMat t (fun e e' => (f e').act e e') a a' σ.world with ⟨res, v1, w, ib⟩
      rw [hc] at h1 h2 h3 h4 h5
      simp only at h1 h2 h3 h4 h5
      rw [← h1] at b1
      rw [← h2, ← h3] at b3
      simp only [h4, h5]
      refine fin (.mat _ _ v1) _ _ (owns (.mat _ _ a) ++ owns (.mat _ _ a')) ⟨hr, hcc⟩ b1 ?_ fun e => rfl
      refine ⟨fun e => ?_, ?_⟩
      · have := b3.1 e
        rw [count_cellPairs] at this
        simp only [World.log, owns, List.count_append] at this ⊢
        omega
      · simp only [World.log, List.append_nil]; exact b3.2
    · exact .same h
  · exact .same h

/-! ## Creating, destroying, moving -/

theorem fine_new (h : Good t σ lk []) (x : Fin k) : Fine t lk (exec t (.new x) σ) := by
  simp only [exec]
  refine .ok ?_
  have g1 := h.world (w := { σ.world with fresh := σ.world.fresh + 1 }) (ins := []) (outs := [σ.world.fresh])
    (pend' := [σ.world.fresh]) ⟨fun e => by simp only [ind_succ, List.count_nil]; omega, rfl⟩ fun e => by simp
  exact g1.put x (.elem σ.world.fresh) trivial fun e => by simp [owns]

theorem fine_drop (h : Good t σ lk []) (x : Fin k) : Fine t lk (exec t (.drop x) σ) :=
  .ok (h.put x .none trivial fun e => by simp [owns])

theorem fine_move (h : Good t σ lk []) (x y : Fin k) : Fine t lk (exec t (.move x y) σ) := by
  simp only [exec]
  split
  · exact .same h
  · refine .ok ?_
    have g1 : Good t (σ.store x .none) lk (owns (σ.vars x)) := h.store x .none trivial fun e => by simp [owns]
    exact g1.put y _ (h.wf x) fun e => by simp

theorem fine_write (h : Good t σ lk []) (x : Fin k) (i : Nat) (y : Fin k) : Fine t lk (exec t (.write x i y) σ) := by
  simp only [exec]
  have hwx := h.wf x
  split
  · rename_i n v e hx hy
    have hxy : x ≠ y := by rintro rfl; rw [hx] at hy; cases hy
    have g0 : Good t (σ.store y .none) lk [e] := h.store y .none trivial fun e' => by simp [hy, owns]
    rw [hx] at hwx
    by_cases hi : i < n
    · let v2 : Vec Nat n := ⟨v.toList.set i e, by rw [List.length_set, v.length_eq]⟩
      have hs : v.indexSet i e = .ok v2 := by
        unfold Vec.indexSet; rw [if_pos (by rw [v.length_eq]; exact hi)]
      rw [hs]
      simp only
      refine .ok ?_
      have hg : v.toList[i]? = some (v.get ⟨i, hi⟩) := by
        rw [List.getElem?_eq_getElem (by rw [v.length_eq]; exact hi)]; rfl
      have hp : ∀ e', v2.toList.count e' + [v.get ⟨i, hi⟩].count e' = v.toList.count e' + [e].count e' := by
        intro e'
        have hl : i < v.toList.length := by rw [v.length_eq]; exact hi
        have h1 : v.toList = v.toList.take i ++ v.get ⟨i, hi⟩ :: v.toList.drop (i + 1) := by
          conv_lhs => rw [← List.take_append_drop i v.toList]
          rw [List.drop_eq_getElem_cons hl]; rfl
        have h2 : v2.toList = v.toList.take i ++ e :: v.toList.drop (i + 1) := by
          show v.toList.set i e = _
          rw [List.set_eq_take_append_cons_drop, if_pos hl]
        have h3 := congrArg (List.count e') h1
        rw [h2]
        simp only [List.count_append, List.count_cons, List.count_nil] at h3 ⊢
        omega
      have g1 := g0.store x (.vec n v2) hwx (pend' := [v.get ⟨i, hi⟩]) fun e' => by
        have : (σ.store y .none).vars x = .vec n v := by simp [State.store, hxy, hx]
        rw [this]
        have := hp e'
        simp only [owns]; omega
      have g2 := g1.world (w := σ.world.log [v.get ⟨i, hi⟩] []) (pend' := []) (Bal.log σ.world _) fun e' => by simp
      have e1 : ((σ.store x (.vec n v2)).store y .none).vars = ((σ.store y .none).store x (.vec n v2)).vars := by
        funext j
        simp only [State.store]
        by_cases hj : j = x
        · simp [hj, hxy]
        · simp [hj]
      rw [hg]
      simp only [Option.toList_some]
      rw [e1]
      exact g2
    · rw [C15_vec_set_panic v i (Nat.le_of_not_lt hi)]
      simp only
      exact .panic (g0.world (w := σ.world.log [e] []) (pend' := []) (Bal.log σ.world _) fun e' => by simp)
  · exact .same h

theorem fine_intoIter (h : Good t σ lk []) (x : Fin k) : Fine t lk (exec t (.intoIter x) σ) := by
  simp only [exec]
  have hwx := h.wf x
  split
  · rename_i n v hx
    rw [hx] at hwx
    have hn : n < t.W := hwx
    rw [OwnIt.intoIter_mk]
    exact .ok (h.store x (.iter (mkIt [] v.toList [] [])) ⟨[], v.toList, [], rfl, by simpa [v.length_eq] using hn⟩ fun e => by
      rw [hx]; simp only [owns, slotElems_mk, List.count_nil]; omega)
  · exact .same h

theorem fine_intoChunks (h : Good t σ lk []) (x : Fin k) (I : Nat) : Fine t lk (exec t (.intoChunks x I) σ) := by
  simp only [exec]
  have hwx := h.wf x
  split
  · rename_i n v hx
    rw [hx] at hwx
    have hn : n < t.W := hwx
    split
    · rename_i hI
      have hd : I ∣ n := Nat.dvd_of_mod_eq_zero hI.2
      rw [OwnIt.intoIter_mk]
      refine .ok (h.store x (.chunks I (mkIt [] v.toList [] [])) ⟨hI.1, [], [], chunksOf I v hd, by rw [flat_chunksOf], ?_⟩ fun e => by
        rw [hx]; simp only [owns, slotElems_mk, List.count_nil]; omega)
      rw [← OwnIt.flat_length, flat_chunksOf, v.length_eq]; simpa using hn
    · exact .same h
  · exact .same h

/-! ## Iterators -/

theorem good_handOut (h : Good t σ lk []) {x y : Fin k} (mk : OwnIt Nat → Obj) (out : Option Obj) (s : OwnIt Nat)
    (hv : s.mem.viols = []) (hm : WF t (mk (flush s))) (ho : WF t (out.getD .none))
    (hc : ∀ e, (owns (σ.vars x)).count e = s.mem.drops.count e + (owns (mk (flush s))).count e + (owns (out.getD .none)).count e) :
    Good t (handOut σ x y mk out s) lk [] := by
  unfold handOut
  simp only [hv]
  have g1 := h.store x (mk (flush s)) hm (pend' := s.mem.drops ++ owns (out.getD .none)) fun e => by
    have := hc e
    simp only [List.count_append, List.count_nil]; omega
  have g2 := g1.world (w := σ.world.log s.mem.drops []) (pend' := owns (out.getD .none)) (Bal.log σ.world _) fun e => by
    simp only [List.count_append, List.count_nil]; omega
  exact g2.put y _ ho fun e => by simp

theorem good_failed (h : Good t σ lk []) {x : Fin k} (s : OwnIt Nat) (hx : σ.vars x = .iter s) :
    Good t { σ.store x (.iter (flush s)) with world := σ.world.log s.mem.drops s.mem.viols } lk [] := by
  have hw := h.wf x
  rw [hx] at hw
  obtain ⟨F, q, B, rfl, hF⟩ := hw
  have g1 := h.store x (.iter (flush (mkIt F q B []))) ⟨F, q, B, rfl, hF⟩ (pend' := []) fun e => by
    rw [hx]; simp [owns, flush]
  exact g1.world (w := σ.world.log [] []) (pend' := []) (Bal.log σ.world _) fun e => by simp

theorem flush_mk (F q B D : List Nat) : flush (mkIt F q B D) = mkIt F q B [] := rfl

theorem wf_iter {F q B : List Nat} (h : F.length + q.length < t.W) : WF t (.iter (mkIt F q B [])) := ⟨F, q, B, rfl, h⟩

theorem wf_chunks {I : Nat} (hI : 0 < I) {F B : List Nat} (cs : List (Vec Nat I)) (h : F.length + cs.length * I < t.W) :
    WF t (.chunks I (mkIt F (OwnIt.flat cs) B [])) := ⟨hI, F, B, cs, rfl, h⟩

theorem fine_next (h : Good t σ lk []) (x y : Fin k) : Fine t lk (exec t (.next x y) σ) := by
  simp only [exec]
  have hwx := h.wf x
  split
  · exact .same h
  split
  · rename_i s hx
    have hw := hwx
    rw [hx] at hw
    obtain ⟨F, q, B, rfl, hF⟩ := hw
    cases q with
    | nil =>
      rw [OwnIt.next_nil]
      simp only
      refine .ok (good_handOut h .iter _ _ rfl (wf_iter hF) trivial fun e => ?_)
      rw [hx]
      simp only [owns, flush_mk, slotElems_mk, Option.map_none, Option.getD_none]
      rfl
    | cons a q =>
      rw [OwnIt.next_cons _ _ _ _ _ _ (by simp only [List.length_cons] at hF; omega)]
      simp only
      refine .ok (good_handOut h .iter _ _ rfl (wf_iter (by simp at hF ⊢; omega)) trivial fun e => ?_)
      rw [hx]
      simp only [owns, flush_mk, slotElems_mk, Option.map_some, Option.getD_some, List.count_cons, List.count_nil]
      show _ = List.count e [] + _ + _
      simp
  · rename_i I s hx
    have hw := hwx
    rw [hx] at hw
    obtain ⟨hI, F, B, cs, rfl, hF⟩ := hw
    cases cs with
    | nil =>
      rw [show OwnIt.flat ([] : List (Vec Nat I)) = [] from rfl, OwnIt.chunkNext_nil]
      simp only
      refine .ok (good_handOut h (.chunks I) _ _ rfl (wf_chunks hI [] hF) trivial fun e => ?_)
      rw [hx]
      simp only [owns, flush_mk, slotElems_mk, Option.map_none, Option.getD_none]
      rfl
    | cons c cs =>
      have hl : F.length + I + cs.length * I < t.W := by
        rw [List.length_cons, Nat.add_mul, Nat.one_mul] at hF; omega
      rw [show OwnIt.flat (c :: cs) = c.toList ++ OwnIt.flat cs from rfl, OwnIt.chunkNext_cons _ hI _ _ _ _ _ (by omega)]
      simp only
      refine .ok (good_handOut h (.chunks I) _ _ rfl (wf_chunks hI cs ?_) ?_ fun e => ?_)
      · rw [List.length_append, c.length_eq]; exact hl
      · show I < t.W
        omega
      · rw [hx]
        simp only [owns, flush_mk, slotElems_mk, Option.map_some, Option.getD_some]
        rw [show OwnIt.flat (c :: cs) = c.toList ++ OwnIt.flat cs from rfl]
        show _ = List.count e [] + _ + _
        simp only [List.count_append, List.count_nil]; omega
  · exact .same h

theorem fine_nextBack (h : Good t σ lk []) (x y : Fin k) (hp : Proper t σ (.nextBack x y)) : Fine t lk (exec t (.nextBack x y) σ) := by
  simp only [exec]
  have hwx := h.wf x
  split
  · exact .same h
  rename_i hxy
  split
  · rename_i s hx
    have hw := hwx
    rw [hx] at hw
    obtain ⟨F, q, B, rfl, hF⟩ := hw
    rcases List.eq_nil_or_concat q with rfl | ⟨q, a, rfl⟩
    · have h0 := hp hxy _ hx (slotElems_mk F [] B [])
      have : F = [] := List.eq_nil_of_length_eq_zero h0
      subst this
      rw [OwnIt.nextBack_nil]
      simp only
      refine .ok (good_handOut h .iter _ _ rfl (wf_iter hF) trivial fun e => ?_)
      rw [hx]
      simp only [owns, flush_mk, slotElems_mk, Option.map_none, Option.getD_none]
      rfl
    · rw [List.concat_eq_append] at hF hx ⊢
      rw [OwnIt.nextBack_snoc]
      simp only
      refine .ok (good_handOut h .iter _ _ rfl (wf_iter (by simp at hF ⊢; omega)) trivial fun e => ?_)
      rw [hx]
      simp only [owns, flush_mk, slotElems_mk, Option.map_some, Option.getD_some, List.count_append]
      show _ = List.count e [] + _ + _
      simp
  · rename_i I s hx
    have hw := hwx
    rw [hx] at hw
    obtain ⟨hI, F, B, cs, rfl, hF⟩ := hw
    rcases List.eq_nil_or_concat cs with rfl | ⟨cs, c, rfl⟩
    · rw [show OwnIt.flat ([] : List (Vec Nat I)) = [] from rfl, OwnIt.chunkNextBack_nil]
      simp only
      refine .ok (good_handOut h (.chunks I) _ _ rfl (wf_chunks hI [] hF) trivial fun e => ?_)
      rw [hx]
      simp only [owns, flush_mk, slotElems_mk, Option.map_none, Option.getD_none]
      rfl
    · have ef : OwnIt.flat (cs.concat c) = OwnIt.flat cs ++ c.toList := by simp [OwnIt.flat]
      have hl : F.length + I + cs.length * I < t.W := by
        rw [List.length_concat, Nat.add_mul, Nat.one_mul] at hF; omega
      rw [ef, OwnIt.chunkNextBack_snoc _ hI]
      simp only
      refine .ok (good_handOut h (.chunks I) _ _ rfl (wf_chunks hI cs ?_) ?_ fun e => ?_)
      · omega
      · show I < t.W
        omega
      · rw [hx]
        simp only [owns, flush_mk, slotElems_mk, Option.map_some, Option.getD_some]
        rw [ef]
        show _ = List.count e [] + _ + _
        simp only [List.count_append, List.count_nil]; omega
  · exact .same h

theorem fine_nth (h : Good t σ lk []) (x y : Fin k) (i : Nat) (hp : Proper t σ (.nth x y i)) : Fine t lk (exec t (.nth x y i) σ) := by
  simp only [exec]
  have hwx := h.wf x
  split
  · exact .same h
  rename_i hxy
  split
  · rename_i s hx
    rcases hp hxy s hx with hi | ⟨ho, hW⟩
    · have hw := hwx
      rw [hx] at hw
      obtain ⟨F, q, B, rfl, hF⟩ := hw
      rw [slotElems_mk] at hi
      obtain ⟨q1, q2, rfl, rfl⟩ : ∃ q1 q2, q = q1 ++ q2 ∧ q1.length = i :=
        ⟨q.take i, q.drop i, (List.take_append_drop i q).symm, by simp [hi]⟩
      rw [List.length_append] at hF
      rw [OwnIt.nth_ok t _ F q1 q2 B [] (by simp) (by omega)]
      cases q2 with
      | nil =>
        rw [OwnIt.next_nil]
        simp only
        refine .ok (good_handOut h .iter _ _ rfl (wf_iter (by simp at hF ⊢; omega)) trivial fun e => ?_)
        rw [hx]
        simp only [owns, flush_mk, slotElems_mk, Option.map_none, Option.getD_none]
        show _ = List.count e ([] ++ q1) + _ + _
        simp
      | cons a q =>
        rw [List.length_cons] at hF
        rw [OwnIt.next_cons _ _ _ _ _ _ (by simp only [List.length_append]; omega)]
        simp only
        refine .ok (good_handOut h .iter _ _ rfl (wf_iter (by simp at hF ⊢; omega)) trivial fun e => ?_)
        rw [hx]
        simp only [owns, flush_mk, slotElems_mk, Option.map_some, Option.getD_some]
        show _ = List.count e ([] ++ q1) + _ + _
        simp only [List.nil_append, List.count_append, List.count_cons, List.count_nil]; omega
    · have h1 : (OwnIt.nthOp t (fun _ => false) i).run s = (.error .panic, s) := by
        unfold OwnIt.nthOp
        have : uadd t s.next i = .error .panic := by simp [uadd, Nat.not_lt.2 hW, ho]
        rw [StM.run_bind_ok (StM.run_get _), this, StM.run_bind_error (StM.run_liftRes_error _ _)]
      rw [h1]
      exact .panic (good_failed h s hx)
  · exact .same h

theorem pull_run {T : Type} (t : Target) (n : Nat) (F q B D : List T) (hF : F.length + q.length < t.W) :
    (pull t n).run (mkIt F q B D) =
      (if n ≤ q.length then (.ok (q.take n, true), mkIt (F ++ q.take n) (q.drop n) B D) else (.ok (q, false), mkIt (F ++ q) [] B D)) := by
  induction n generalizing F q with
  | zero => simp [pull]
  | succ n ih =>
    rw [pull]
    cases q with
    | nil =>
      rw [StM.run_bind_ok (OwnIt.next_nil t F B D)]
      simp
    | cons a q =>
      rw [List.length_cons] at hF
      rw [StM.run_bind_ok (OwnIt.next_cons t F q B D a (by omega))]
      simp only
      have := ih (F ++ [a]) q (by simp; omega)
      by_cases hn : n ≤ q.length
      · rw [if_pos hn] at this
        rw [StM.run_bind_ok this, if_pos (by simpa using hn)]
        simp
      · rw [if_neg hn] at this
        rw [StM.run_bind_ok this, if_neg (by simpa using hn)]
        simp

theorem drop_mk (F q B : List Nat) : ((OwnIt.dropOp fun _ => false).run (mkIt F q B [])).2.mem.drops = q ∧
    ((OwnIt.dropOp fun _ => false).run (mkIt F q B [])).2.mem.viols = [] := by
  rw [OwnIt.drop_ok (fun _ => false) F q B [] (by simp)]; simp [mkMem]

theorem fine_gather (h : Good t σ lk []) (x y : Fin k) (n : Nat) (hp : Proper t σ (.gather x y n)) : Fine t lk (exec t (.gather x y n) σ) := by
  simp only [exec]
  have hwx := h.wf x
  split
  · exact .same h
  split
  · rename_i s hx
    have hw := hwx
    rw [hx] at hw
    obtain ⟨F, q, B, rfl, hF⟩ := hw
    have g1 : Good t (σ.store x .none) lk q := h.store x .none trivial fun e => by rw [hx]; simp [owns, slotElems_mk]
    unfold collectOwn
    rw [pull_run t n F q B [] hF]
    by_cases hn : n ≤ q.length
    · rw [if_pos hn]
      simp only
      obtain ⟨d1, d2⟩ := drop_mk (F ++ q.take n) (q.drop n) B
      have hq : ∀ e, q.count e = (q.take n).count e + (q.drop n).count e := fun e => by
        conv_lhs => rw [← List.take_append_drop n q, List.count_append]
      have good : Fine t lk (.ok (), ({ σ.store x .none with world := (σ.world.log [] []).log (q.drop n) [] } : State k).put y (vecOf n (q.take n))) := by
        have g2 := g1.world (w := (σ.world.log [] []).log (q.drop n) []) (pend' := q.take n) ((Bal.log σ.world _).log2 _) fun e => by
          have := hq e
          simp only [List.count_append, List.count_nil]; omega
        exact .ok (g2.put y _ (wf_vecOf t _ hp) fun e => by rw [owns_vecOf (by simp [hn])]; simp)
      cases t.debugAssertions with
      | false => simp only [Bool.false_eq_true, if_false, d1, d2]; exact good
      | true =>
        simp only [if_true, OwnIt.len_mk, d1, d2]
        by_cases hz : (q.drop n).length = 0
        · rw [if_pos hz]; exact good
        · rw [if_neg hz]
          have g2 := g1.world (w := (σ.world.log [] []).log (q.drop n) []) (pend' := q.take n ++ []) ((Bal.log σ.world _).log2 _) fun e => by
            have := hq e
            simp only [List.count_append, List.count_nil]; omega
          exact .panic g2.leak
    · rw [if_neg hn]
      simp only
      obtain ⟨d1, d2⟩ := drop_mk (F ++ q) [] B
      rw [d1, d2]
      have g2 := g1.world (w := (σ.world.log q []).log [] []) (pend' := []) ((Bal.log σ.world _).log2 _) fun e => by
        simp only [List.count_append, List.count_nil]
      exact .panic g2
  · exact .same h

theorem fine_toMat (h : Good t σ lk []) (x : Fin k) (r c : Nat) (hp : Proper t σ (.toMat x r c)) : Fine t lk (exec t (.toMat x r c) σ) := by
  simp only [exec]
  have hwx := h.wf x
  split
  · rename_i n v hx
    rw [hx] at hwx
    split
    · rename_i hn
      obtain ⟨rfl, hc⟩ := hn
      have hd : c ∣ r * c := ⟨r, Nat.mul_comm _ _⟩
      have hlen : (chunksOf c v hd).length = r := by
        rw [(C12_chunk_contents c hd v).1, Nat.mul_div_cancel _ hc]
      simp only
      rw [fromVector_run t hc v hwx hd hlen]
      obtain ⟨d1, d2⟩ := drop_mk v.toList [] []
      simp only [d1, d2]
      refine .ok ?_
      have g1 := h.store x (.mat r c ⟨⟨chunksOf c v hd, hlen⟩⟩) hp (pend' := []) fun e => by
        rw [hx]
        simp only [owns]
        rw [show ((chunksOf c v hd).map Vec.toList).flatten = v.toList from flat_chunksOf c v hd]
        simp
      exact g1.world (w := σ.world.log [] []) (pend' := []) (Bal.log σ.world _) fun e => by simp
    · exact .same h
  · exact .same h

/-! ## Collecting -/

theorem steps_eq (i : Nat) (src : List Bool) :
    steps i src = (List.range' i (src.takeWhile id).length).map .item ∨
    ∃ rest, steps i src = (List.range' i (src.takeWhile id).length).map .item ++ .panic :: rest := by
  induction src generalizing i with
  | nil => exact .inl rfl
  | cons b src ih =>
    cases b with
    | false => exact .inr ⟨steps 0 src, rfl⟩
    | true =>
      rw [show (true :: src).takeWhile id = true :: src.takeWhile id from rfl, List.length_cons, List.range'_succ]
      rcases ih (i + 1) with h | ⟨rest, h⟩
      · exact .inl (by rw [steps, h]; rfl)
      · exact .inr ⟨rest, by rw [steps, h]; rfl⟩

theorem slotElems_live (l : List Nat) : slotElems (l.map .live) = l := by
  unfold slotElems; rw [List.filterMap_map]; simp

theorem fine_collect (h : Good t σ lk []) (x : Fin k) (n : Nat) (src : List Bool) (hp : Proper t σ (.collect x n src)) :
    Fine t lk (exec t (.collect x n src) σ) := by
  simp only [exec, asked]
  have hn : n < t.W := hp
  generalize hi : σ.world.fresh = i
  generalize ha : (src.takeWhile id).length = a
  have hs := steps_eq i src
  rw [ha] at hs
  -- what the world looks like afterwards
  have key : ∀ (m : Nat) (d out : List Nat), (∀ e, (List.range' i m).count e = d.count e + out.count e) →
      Good t { σ with world := ({ σ.world with fresh := i + m } : World).log d [] } lk out := by
    intro m d out hc
    refine h.world (ins := []) (outs := out ++ []) ⟨fun e => ?_, by simp [World.log]⟩ fun e => by simp
    have := hc e
    simp only [World.log, List.count_append, List.count_nil, ind_add, hi]; omega
  have good : ∀ m, m = n → Fine t lk (.ok (), ({ σ with world := ({ σ.world with fresh := i + m } : World).log [] [] } : State k).put x
      (vecOf n (slotElems ((List.range' i m).map .live)))) := by
    rintro m rfl
    refine .ok ((key m [] (List.range' i m) fun e => by simp).put x _ (wf_vecOf t _ hn) fun e => ?_)
    rw [slotElems_live, owns_vecOf (by simp)]; simp
  have bad : ∀ m (d out : List Nat), (∀ e, (List.range' i m).count e = d.count e + out.count e) →
      Fine t lk (.error .panic, ({ σ with world := ({ σ.world with fresh := i + m } : World).log d [] } : State k)) := by
    intro m d out hc
    exact .panic (Good.leak (pend := []) (l := out) (by simpa using key m d out hc))
  have split : ∀ m, n ≤ m → List.range' i m = List.range' i n ++ List.range' (i + n) (m - n) := by
    intro m hm
    conv_lhs => rw [show m = n + (m - n) by omega]
    rw [← List.range'_append]; simp
  have rn : (List.range' i n).length = n := by simp
  by_cases hlt : a < n
  · have hk : (if t.debugAssertions = true then a else min n a) = a := by split <;> omega
    rw [hk]
    rcases hs with hs | ⟨rest, hs⟩
    · rw [hs, C02_drops t _ n (List.range' i a) (by simpa using hlt) (by simp)]
      exact bad a (List.range' i a) [] fun e => by simp
    · rw [hs, C04_source_panics t _ n (List.range' i a) rest (by simpa using hlt)]
      exact bad a [] (List.range' i a) fun e => by simp
  · have hle : n ≤ a := Nat.le_of_not_lt hlt
    cases hd : t.debugAssertions with
    | false =>
      have h3 := fun rest => C03_memory_release t hd (fun _ => false) (List.range' i n) rest
      rw [rn] at h3
      rcases hs with hs | ⟨rest, hs⟩
      · rw [hs, split a hle, List.map_append, h3]
        have := good n rfl
        simpa [hle] using this
      · rw [hs, split a hle, List.map_append, List.append_assoc, h3]
        have := good n rfl
        simpa [hle] using this
    | true =>
      simp only [if_true]
      rcases hs with hs | ⟨rest, hs⟩
      · by_cases he : a = n
        · have h3 := C01_memory t (fun _ => false) (List.range' i n)
          rw [rn] at h3
          rw [hs, he, h3]
          exact good n rfl
        · have h3 := C03_memory_debug t hd (fun _ => false) (List.range' i n) (List.range' (i + n) (a - n)) (by simp; omega) (by simp)
          rw [rn, ← split a hle] at h3
          rw [hs, h3]
          exact bad a _ (List.range' i n) fun e => by rw [split a hle, List.count_append]; dsimp only; omega
      · have h3 := C04_count_panics t hd (fun _ => false) (List.range' i n) (List.range' (i + n) (a - n)) (by simp) rest
        rw [rn, ← List.append_assoc, ← List.map_append, ← split a hle] at h3
        rw [hs, h3]
        exact bad a _ (List.range' i n) fun e => by rw [split a hle, List.count_append]; dsimp only; omega

/-! ## Whole programs -/

theorem fine_exec (h : Good t σ lk []) (p : Stmt k) (hp : Proper t σ p) : Fine t lk (exec t p σ) := by
  cases p with
  | new x => exact fine_new h x
  | collect x n src => exact fine_collect h x n src hp
  | drop x => exact fine_drop h x
  | move x y => exact fine_move h x y
  | map x y f => exact fine_map h x y f
  | zip x y z f => exact fine_zip h x y z f
  | assign x y f => exact fine_assign h x y f
  | write x i y => exact fine_write h x i y
  | intoIter x => exact fine_intoIter h x
  | intoChunks x I => exact fine_intoChunks h x I
  | next x y => exact fine_next h x y
  | nextBack x y => exact fine_nextBack h x y hp
  | nth x y i => exact fine_nth h x y i hp
  | gather x y n => exact fine_gather h x y n hp
  | toMat x r c => exact fine_toMat h x r c hp

theorem run_good (ps : List (Stmt k)) (h : Good t σ lk []) (hp : Careful t ps σ) :
    (.error .ub) ∉ (run t ps σ).1 ∧ ∃ lk', Good t (run t ps σ).2 lk' [] ∧ ((∀ r ∈ (run t ps σ).1, r = .ok ()) → lk' = lk) := by
  induction ps generalizing σ lk with
  | nil => exact ⟨by simp [run], lk, h, fun _ => rfl⟩
  | cons p ps ih =>
    obtain ⟨hp1, hp2⟩ := hp
    obtain ⟨h1, lk1, g1, hk1⟩ := fine_exec h p hp1
    have hr : run t (p :: ps) σ = ((exec t p σ).1 :: (run t ps (exec t p σ).2).1, (run t ps (exec t p σ).2).2) := by
      rw [run]
      split
      · rename_i h2; rw [h2] at h1; exact absurd rfl h1
      · rename_i h2; rw [h2]
    obtain ⟨i1, lk2, i2, i3⟩ := ih g1 hp2
    rw [hr]
    refine ⟨by simp only [List.mem_cons, not_or]; exact ⟨fun h => h1 h.symm, i1⟩, lk2, i2, fun hall => ?_⟩
    rw [i3 fun r hr => hall r (List.mem_cons_of_mem _ hr), hk1 (hall _ List.mem_cons_self)]

theorem good_init : Good t (init : State k) [] [] :=
  ⟨fun _ => trivial, rfl, fun e => by
    have : ownCount (init : State k) e = 0 := by simp [ownCount, init, owns]
    rw [this]; simp [init, ind]⟩

theorem count_range (n e : Nat) : (List.range n).count e = ind n e := by
  have := ind_add 0 n e
  rw [Nat.zero_add] at this
  rw [this, List.range_eq_range']; simp [ind]

theorem endScope_good (h : Good t σ lk []) : Good t (endScope σ) lk [] ∧ (∀ x, owns ((endScope σ).vars x) = []) ∧
    (endScope σ).world.fresh = σ.world.fresh := by
  have key : ∀ (l : List (Fin k)) (σ : State k), Good t σ lk [] →
      Good t (l.foldl (fun σ x => σ.put x .none) σ) lk [] ∧
      (∀ x, x ∈ l ∨ owns (σ.vars x) = [] → owns ((l.foldl (fun σ x => σ.put x .none) σ).vars x) = []) ∧
      (l.foldl (fun σ x => σ.put x .none) σ).world.fresh = σ.world.fresh := by
    intro l
    induction l with
    | nil => exact fun σ h => ⟨h, fun x hx => by simpa using hx, rfl⟩
    | cons a l ih =>
      intro σ h
      obtain ⟨h1, h2, h3⟩ := ih (σ.put a .none) (h.put a .none trivial fun e => by simp [owns])
      refine ⟨h1, fun x hx => h2 x ?_, h3⟩
      by_cases hxa : x = a
      · exact .inr (by simp [State.put, hxa, owns])
      · rcases hx with hx | hx
        · exact .inl ((List.mem_cons.1 hx).resolve_left hxa)
        · exact .inr (by simpa [State.put, hxa] using hx)
  obtain ⟨h1, h2, h3⟩ := key (List.finRange k) σ h
  exact ⟨h1, fun x => h2 x (.inl (List.mem_finRange x)), h3⟩

/-- C106: in every program of `k` variables that avoids the calls C77 shows to be misuse, in every build, wherever client code
panics: no undefined behaviour, no invalid access, and every element ever created is in exactly one place: destroyed, leaked,
or owned by exactly one variable; if no statement panicked, nothing is leaked. -/
theorem C106_ownership (t : Target) (ps : List (Stmt k)) (hp : Careful t ps (init : State k)) :
    (.error .ub) ∉ (run t ps init).1 ∧ (run t ps init).2.world.viols = [] ∧
    ∃ leaked : List Nat,
      ((run t ps init).2.world.dropped ++ leaked ++ owned (run t ps init).2).Perm (List.range (run t ps init).2.world.fresh) ∧
      ((∀ r ∈ (run t ps init).1, r = .ok ()) → leaked = []) := by
  obtain ⟨h1, lk, h2, h3⟩ := run_good ps (good_init (t := t)) hp
  refine ⟨h1, h2.viols, lk, List.perm_iff_count.2 fun e => ?_, h3⟩
  rw [count_range, ← h2.bal e]
  simp only [List.count_append, count_owned, List.count_nil]; omega

/-- C106: no element is destroyed twice, and none that is destroyed is owned by a variable; no element is owned twice. -/
theorem C106_no_double_drop (t : Target) (ps : List (Stmt k)) (hp : Careful t ps (init : State k)) :
    (run t ps init).2.world.dropped.Nodup ∧ (owned (run t ps init).2).Nodup ∧
    ∀ e ∈ (run t ps init).2.world.dropped, e ∉ owned (run t ps init).2 := by
  obtain ⟨-, -, lk, h, -⟩ := C106_ownership t ps hp
  have hn := h.nodup_iff.2 List.nodup_range
  rw [List.append_assoc, List.nodup_append'] at hn
  obtain ⟨n1, n2, n3⟩ := hn
  rw [List.nodup_append'] at n2
  exact ⟨n1, n2.2.1, fun e he ho => n3 he (List.mem_append_right _ ho)⟩

/-- C106: at the end of the scope of a program without panics every element ever created has been destroyed exactly once. -/
theorem C106_scope_end (t : Target) (ps : List (Stmt k)) (hp : Careful t ps (init : State k))
    (hok : ∀ r ∈ (run t ps init).1, r = .ok ()) :
    (endScope (run t ps init).2).world.dropped.Perm (List.range (run t ps init).2.world.fresh) ∧
    (endScope (run t ps init).2).world.viols = [] := by
  obtain ⟨h1, lk, h2, h3⟩ := run_good ps (good_init (t := t)) hp
  rw [h3 hok] at h2
  obtain ⟨g1, g2, g3⟩ := endScope_good h2
  refine ⟨List.perm_iff_count.2 fun e => ?_, g1.viols⟩
  have hb := g1.bal e
  have h0 : ownCount (endScope (run t ps init).2) e = 0 := by simp [ownCount, g2]
  rw [h0, g3] at hb
  rw [count_range, ← hb]; simp

/-- C106, with panics: at the end of the scope every element has been destroyed at most once, and none is used after. -/
theorem C106_scope_end_panics (t : Target) (ps : List (Stmt k)) (hp : Careful t ps (init : State k)) :
    (endScope (run t ps init).2).world.dropped.Nodup ∧ (endScope (run t ps init).2).world.viols = [] ∧
    ∀ e ∈ (endScope (run t ps init).2).world.dropped, e < (run t ps init).2.world.fresh := by
  obtain ⟨h1, lk, h2, h3⟩ := run_good ps (good_init (t := t)) hp
  obtain ⟨g1, g2, g3⟩ := endScope_good h2
  have hb := g1.bal
  rw [g3] at hb
  refine ⟨List.nodup_iff_count_le_one.2 fun e => ?_, g1.viols, fun e he => ?_⟩
  · have := hb e
    unfold ind at this
    split at this <;> omega
  · have := hb e
    have hpos := List.count_pos_iff.2 he
    unfold ind at this
    split at this
    · assumption
    · omega

/-! ## Concrete programs -/

instance (t : Target) (σ : State k) (p : Stmt k) : Decidable (Proper t σ p) := by
  cases p with
  | collect x n src => exact inferInstanceAs (Decidable (n < t.W))
  | gather x y n => exact inferInstanceAs (Decidable (n < t.W))
  | toMat x r c => exact inferInstanceAs (Decidable (r < t.W ∧ c < t.W))
  | nextBack x y =>
    cases hx : σ.vars x with
    | iter s =>
      refine decidable_of_iff (x ≠ y → slotElems s.mem.slots = [] → s.next = 0) ⟨fun h hxy s' hs => ?_, fun h hxy => h hxy s hx⟩
      rw [hx] at hs; cases hs; exact h hxy
    | none => exact .isTrue fun _ s hs => by rw [hx] at hs; cases hs
    | elem e => exact .isTrue fun _ s hs => by rw [hx] at hs; cases hs
    | vec n v => exact .isTrue fun _ s hs => by rw [hx] at hs; cases hs
    | mat r c a => exact .isTrue fun _ s hs => by rw [hx] at hs; cases hs
    | chunks I s => exact .isTrue fun _ s hs => by rw [hx] at hs; cases hs
  | nth x y i =>
    cases hx : σ.vars x with
    | iter s =>
      refine decidable_of_iff (x ≠ y → i ≤ (slotElems s.mem.slots).length ∨ (t.overflowChecks = true ∧ t.W ≤ s.next + i))
        ⟨fun h hxy s' hs => ?_, fun h hxy => h hxy s hx⟩
      rw [hx] at hs; cases hs; exact h hxy
    | none => exact .isTrue fun _ s hs => by rw [hx] at hs; cases hs
    | elem e => exact .isTrue fun _ s hs => by rw [hx] at hs; cases hs
    | vec n v => exact .isTrue fun _ s hs => by rw [hx] at hs; cases hs
    | mat r c a => exact .isTrue fun _ s hs => by rw [hx] at hs; cases hs
    | chunks I s => exact .isTrue fun _ s hs => by rw [hx] at hs; cases hs
  | new x => exact .isTrue trivial
  | drop x => exact .isTrue trivial
  | move x y => exact .isTrue trivial
  | map x y f => exact .isTrue trivial
  | zip x y z f => exact .isTrue trivial
  | assign x y f => exact .isTrue trivial
  | write x i y => exact .isTrue trivial
  | intoIter x => exact .isTrue trivial
  | intoChunks x I => exact .isTrue trivial
  | next x y => exact .isTrue trivial

def decCareful (t : Target) : (ps : List (Stmt k)) → (σ : State k) → Decidable (Careful t ps σ)
  | [], _ => .isTrue trivial
  | p :: ps, σ => @instDecidableAnd _ _ _ (decCareful t ps (exec t p σ).2)

instance (t : Target) (ps : List (Stmt k)) (σ : State k) : Decidable (Careful t ps σ) := decCareful t ps σ

/-- A program that uses every kind of statement; one `+` panics in the element operation. -/
def sample : List (Stmt 4) :=
  [.collect 0 6 [true, true, true, true, true, true],       -- elements 0..5
   .toMat 0 2 3,
   .map 0 1 fun p => if p = (1, 1) then .replace else .keep,  -- element 4 becomes 6
   .collect 2 2 [true, true],                                -- 7, 8
   .collect 3 2 [true, true],                                -- 9, 10
   .zip 2 3 2 fun e => if e = 8 then .panic else .left,      -- 7 is leaked, 9, 8, 10 destroyed
   .collect 2 4 [true, true, true, true],                    -- 11..14
   .new 3,                                                   -- 15
   .write 2 1 3,                                             -- 12 destroyed
   .intoIter 2, .next 2 3, .nth 2 0 1, .nextBack 2 3,
   .collect 0 4 [true, true, true, true],
   .intoChunks 0 2, .nextBack 0 2, .next 0 3,
   .assign 3 2 fun e => if e % 2 = 0 then .swap else .keep,
   .intoIter 3, .gather 3 2 2]

/-- The sample program meets the hypothesis. -/
example : Careful ⟨true, true, 2 ^ 64⟩ sample init := by decide +kernel

example : (run ⟨true, true, 2 ^ 64⟩ sample init).1 = [.ok (), .ok (), .ok (), .ok (), .ok (), .error .panic, .ok (), .ok (), .ok (), .ok (), .ok (),
    .ok (), .ok (), .ok (), .ok (), .ok (), .ok (), .ok (), .ok (), .ok ()] := by decide +kernel

/-- What the variables own and what has been destroyed at its end: all but the leaked element 7. -/
example : (run ⟨true, true, 2 ^ 64⟩ sample init).2.world.fresh = 20 ∧ (run ⟨true, true, 2 ^ 64⟩ sample init).2.world.dropped.length + 1 + (owned (run ⟨true, true, 2 ^ 64⟩ sample init).2).length = 20 ∧
    7 ∉ (run ⟨true, true, 2 ^ 64⟩ sample init).2.world.dropped ∧ 7 ∉ owned (run ⟨true, true, 2 ^ 64⟩ sample init).2 := by decide +kernel

/-- Without the hypothesis the claim is false (C77): one element is taken at the front, `next_back` then hands out the same
element again, and it is destroyed twice. -/
def misuse : List (Stmt 3) := [.collect 0 1 [true], .intoIter 0, .next 0 1, .nextBack 0 2, .drop 1, .drop 2]

theorem C106_misuse : ¬ Careful ⟨false, false, 2 ^ 64⟩ misuse init ∧
    (run ⟨false, false, 2 ^ 64⟩ misuse init).1 = List.replicate 6 (.ok ()) ∧
    (run ⟨false, false, 2 ^ 64⟩ misuse init).2.world.dropped = [0, 0] ∧
    (run ⟨true, true, 2 ^ 64⟩ misuse init).2.world.viols = [.readGone 0] := by decide +kernel

end Owner
end Rowcol
