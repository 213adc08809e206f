import Verif.OwnerSpec
import Verif.Props.Ownership

/-! # C108: programs that own elements do exactly what the list semantics says -/

namespace Rowcol
open Spec
namespace Owner

variable {k : Nat}

namespace Spec

/-- What an object of the model is to its user: the elements that are alive in it, in order. -/
def shown : Obj → Shown
  | .none => .none
  | .elem x => .elem x
  | .vec _ v => .vec v.toList
  | .mat r c a => .mat r c (a.rows.toList.map Vec.toList).flatten
  | .iter s => .queue s.next (slotElems s.mem.slots)
  | .chunks I s => .chunks I (slotElems s.mem.slots)

/-- What a state of the model is to its user. -/
def table (σ : State k) : Table k := ⟨fun x => shown (σ.vars x), σ.world.fresh, σ.world.dropped⟩

/-- How a statement ended. -/
def outcome (b : Bool) : Res Unit := if b then .ok () else .error .panic

end Spec

open Spec

/-! ## States and tables -/

theorem elems_shown (o : Obj) : (shown o).elems = owns o := by cases o <;> rfl

theorem table_store (σ : State k) (x : Fin k) (o : Obj) : table (σ.store x o) = (table σ).set x (shown o) := by
  refine Table.ext ?_ rfl rfl
  funext i
  simp only [table, State.store, Table.set]
  split <;> rfl

theorem table_put {t : Target} (σ : State k) (x : Fin k) (o : Obj) (h : WF t (σ.vars x)) :
    table (σ.put x o) = (table σ).assign x (shown o) := by
  refine Table.ext ?_ rfl ?_
  · funext i
    simp only [table, State.put, Table.set, Table.assign, Table.destroy]
    split <;> rfl
  · show σ.world.dropped ++ (σ.vars x).dropLog.1 = σ.world.dropped ++ (shown (σ.vars x)).elems
    rw [dropLog_wf h, elems_shown]

theorem table_log (σ : State k) (w : World) (d : List Nat) (v : List Viol) :
    table { σ with world := w.log d v } = (table { σ with world := w }).destroy d := rfl

theorem shown_vecOf {n : Nat} {l : List Nat} (h : l.length = n) : shown (vecOf n l) = .vec l := by rw [vecOf_eq h]; rfl

theorem shown_matOf {r c : Nat} {l : List (List Nat)} (h : l.length = r ∧ ∀ row ∈ l, row.length = c) :
    shown (matOf r c l) = .mat r c l.flatten := by
  have := owns_matOf h
  unfold matOf at this ⊢
  rw [dif_pos h] at this ⊢
  simp only [shown, owns] at this ⊢
  rw [this]

theorem wf_store {t : Target} {σ : State k} (h : ∀ x, WF t (σ.vars x)) (x : Fin k) (o : Obj) (ho : WF t o) :
    ∀ y, WF t ((σ.store x o).vars y) := by
  intro y
  simp only [State.store]
  split
  · exact ho
  · exact h y

/-! ## Handing over -/

/-- An element operation of the model that does what the specification says. -/
def Does {X : Type} (g : X → StM World Nat) (op : X → Nat → Option Nat × List Nat × Nat) : Prop :=
  ∀ x w, (g x).run w = match op x w.fresh with
    | (some z, d, f) => (.ok z, ⟨f, w.dropped ++ d, w.viols⟩)
    | (none, d, f) => (.error .panic, ⟨f, w.dropped ++ d, w.viols⟩)

theorem does_unary {X : Type} (f : X → Beh) (e : X → Nat) : Does (fun p => (f p).act (e p)) (fun p => unary (f p) (e p)) := by
  intro x w
  cases h : f x <;> simp only [unary, Beh.act, h]
  · show _ = (_, _)
    rw [List.append_nil]; rfl
  · rfl
  · rfl

theorem does_binary (f : Nat → Beh2) :
    Does (fun p : Nat × Nat => (f p.1).act p.1 p.2) (fun p => binary (f p.1) p.1 p.2) := by
  intro x w
  cases h : f x.1 <;> simp only [binary, Beh2.act, h]
  · rfl
  · rfl
  · show (_, World.mk _ ((w.dropped ++ [x.1]) ++ [x.2]) _) = _
    rw [List.append_assoc]; rfl
  · show (_, World.mk _ ((w.dropped ++ [x.2]) ++ [x.1]) _) = _
    rw [List.append_assoc]; rfl

theorem handOver_each {X : Type} {g : X → StM World Nat} {op : X → Nat → Option Nat × List Nat × Nat} (h : Does g op)
    (xs : List X) (w : World) :
    handOver g xs w = ((match (each op xs w.fresh).1 with | some zs => .ok zs | none => .error .panic),
      ⟨(each op xs w.fresh).2.2.1, w.dropped ++ (each op xs w.fresh).2.1, w.viols⟩, (each op xs w.fresh).2.2.2) := by
  induction xs generalizing w with
  | nil => simp [handOver, each]
  | cons x xs ih =>
    rw [handOver, h x w, each]
    rcases hx : op x w.fresh with ⟨z, d, f⟩
    cases z with
    | none => simp
    | some z =>
      simp only
      rw [ih]
      simp only [List.append_assoc]
      cases (each op xs f).1 <;> rfl

theorem each_map {X Y : Type} (op : X → Nat → Option Nat × List Nat × Nat) (g : Y → X) (ys : List Y) (f : Nat) :
    each op (ys.map g) f = ((each (fun y => op (g y)) ys f).1, (each (fun y => op (g y)) ys f).2.1,
      (each (fun y => op (g y)) ys f).2.2.1, (each (fun y => op (g y)) ys f).2.2.2.map g) := by
  induction ys generalizing f with
  | nil => rfl
  | cons y ys ih =>
    rw [List.map_cons, each, each]
    rcases op (g y) f with ⟨z, d, f'⟩
    cases z with
    | none => rfl
    | some z => simp only [ih]

theorem each_length {X : Type} (op : X → Nat → Option Nat × List Nat × Nat) (xs : List X) (f : Nat) (zs : List Nat)
    (h : (each op xs f).1 = some zs) : zs.length = xs.length := by
  induction xs generalizing f zs with
  | nil => simp [each] at h; simp [← h]
  | cons x xs ih =>
    rw [each] at h
    rcases hx : op x f with ⟨z, d, f'⟩
    rw [hx] at h
    cases z with
    | none => cases h
    | some z =>
      simp only at h
      cases hr : (each op xs f').1 with
      | none => rw [hr] at h; cases h
      | some zs' =>
        rw [hr] at h
        simp only [Option.map_some, Option.some.injEq] at h
        rw [← h, List.length_cons, ih f' zs' hr, List.length_cons]

theorem assignAll_each (f : Nat → BehA) (ps : List (Nat × Nat)) (w : World) :
    let r := eachAssign (fun a b => assigning (f b) a b) ps w.fresh
    assignAll (fun e e' => (f e').act e e') ps w =
      (outcome r.1, r.2.1, ⟨r.2.2.2.1, w.dropped ++ r.2.2.1, w.viols⟩, r.2.2.2.2) := by
  induction ps generalizing w with
  | nil => simp [assignAll, eachAssign, outcome]
  | cons p ps ih =>
    have ha : (f p.2).act p.1 p.2 w = (outcome (assigning (f p.2) p.1 p.2 w.fresh).1, (assigning (f p.2) p.1 p.2 w.fresh).2.1,
        ⟨(assigning (f p.2) p.1 p.2 w.fresh).2.2.2, w.dropped ++ (assigning (f p.2) p.1 p.2 w.fresh).2.2.1, w.viols⟩) := by
      cases f p.2 <;> rfl
    rw [assignAll, ha]
    obtain ⟨a, b⟩ := p
    simp only [eachAssign]
    rcases assigning (f b) a b w.fresh with ⟨ok, a', d, f'⟩
    cases ok with
    | false => rfl
    | true =>
      have := ih ⟨f', w.dropped ++ d, w.viols⟩
      simp only [outcome, if_true] at this ⊢
      rw [this]
      simp

theorem row_cells {c : Nat} (l : List Nat) (hl : l.length = c) (s : Nat) :
    (l.zipIdx.map fun q => (q.1, (s, q.2))) = (l.zipIdx (s * c)).map fun p => (p.1, (p.2 / c, p.2 % c)) := by
  refine List.ext_getElem (by simp) fun i h1 h2 => ?_
  have hi : i < c := by simpa [hl] using h1
  have e1 : (s * c + i) / c = s := by
    rw [Nat.mul_comm, Nat.mul_add_div (by omega), Nat.div_eq_of_lt hi]; rfl
  have e2 : (s * c + i) % c = i := by rw [Nat.mul_comm, Nat.mul_add_mod, Nat.mod_eq_of_lt hi]
  simp [e1, e2]

theorem cells_eq {r c : Nat} (a : Mat Nat r c) :
    cells a = ((a.rows.toList.map Vec.toList).flatten.zipIdx).map fun p => (p.1, (p.2 / c, p.2 % c)) := by
  have key : ∀ (rows : List (Vec Nat c)) (s : Nat),
      ((rows.zipIdx s).map fun p => p.1.toList.zipIdx.map fun q => (q.1, (p.2, q.2))).flatten =
      ((rows.map Vec.toList).flatten.zipIdx (s * c)).map fun p => (p.1, (p.2 / c, p.2 % c)) := by
    intro rows
    induction rows with
    | nil => intro s; rfl
    | cons row rows ih =>
      intro s
      rw [List.zipIdx_cons, List.map_cons, List.flatten_cons, ih, List.map_cons, List.flatten_cons, List.zipIdx_append, List.map_append,
        row_cells _ row.length_eq, row.length_eq, Nat.add_mul, Nat.one_mul]
  have := key a.rows.toList 0
  rwa [Nat.zero_mul] at this

theorem cellPairs_eq {r c : Nat} (a b : Mat Nat r c) :
    cellPairs a b = (a.rows.toList.map Vec.toList).flatten.zip (b.rows.toList.map Vec.toList).flatten := by
  have key : ∀ (as bs : List (Vec Nat c)), as.length = bs.length →
      ((as.zip bs).map fun p => p.1.toList.zip p.2.toList).flatten = (as.map Vec.toList).flatten.zip (bs.map Vec.toList).flatten := by
    intro as
    induction as with
    | nil => intro bs _; rfl
    | cons x as ih =>
      intro bs hl
      cases bs with
      | nil => simp at hl
      | cons y bs =>
        rw [List.zip_cons_cons, List.map_cons, List.flatten_cons, ih bs (by simpa using hl), List.map_cons, List.flatten_cons,
          List.map_cons, List.flatten_cons, List.zip_append (by rw [x.length_eq, y.length_eq])]
  exact key _ _ (by rw [a.rows.length_eq, b.rows.length_eq])

/-! ## One statement -/

/-- The model's statement does what the specification says. -/
def Agree (r : Res Unit × State k) (s : Bool × Table k) : Prop := r.1 = outcome s.1 ∧ table r.2 = s.2

theorem Agree.same (σ : State k) : Agree (.ok (), σ) (true, table σ) := ⟨rfl, rfl⟩

variable {t : Target} {σ : State k}

theorem agree_new (h : ∀ x, WF t (σ.vars x)) (x : Fin k) : Agree (exec t (.new x) σ) (perform t (.new x) (table σ)) :=
  ⟨rfl, table_put _ x _ (t := t) (h x)⟩

theorem agree_drop (h : ∀ x, WF t (σ.vars x)) (x : Fin k) : Agree (exec t (.drop x) σ) (perform t (.drop x) (table σ)) :=
  ⟨rfl, table_put _ x _ (t := t) (h x)⟩

theorem agree_move (h : ∀ x, WF t (σ.vars x)) (x y : Fin k) : Agree (exec t (.move x y) σ) (perform t (.move x y) (table σ)) := by
  simp only [exec, perform]
  split
  · exact .same σ
  · refine ⟨rfl, ?_⟩
    rw [table_put (t := t) _ y _ (wf_store h x .none trivial y), table_store]
    rfl

theorem destroy_nil (s : Table k) : s.destroy [] = s := by simp [Table.destroy]

/-- The end of a consuming operation. -/
theorem agree_finish {y : Fin k} {mk : List Nat → Shown} {left d : List Nat} {f : Nat} {s : Table k}
    {res : Option (List Nat)} {r : Res Unit × State k} (σ1 : State k) (hw : WF t (σ1.vars y))
    (ht : table σ1 = ({ s with fresh := f }.destroy d).destroy left) (hr : ∀ zs, res = some zs → left = [])
    (hn : res = none → r = (.error .panic, σ1))
    (hs : ∀ zs, res = some zs → ∃ o, r = (.ok (), σ1.put y o) ∧ shown o = mk zs) :
    Agree r (finish s y mk left d f res) := by
  cases res with
  | none =>
    rw [hn rfl]
    exact ⟨rfl, ht⟩
  | some zs =>
    obtain ⟨o, h1, h2⟩ := hs zs rfl
    rw [h1]
    refine ⟨rfl, ?_⟩
    show table (σ1.put y o) = _
    rw [table_put _ y _ hw, ht, h2, hr zs rfl, destroy_nil]
    rfl

theorem world_table (σ : State k) (x : Fin k) (f : Nat) (d d' : List Nat) (vs : List Viol) :
    table { σ.store x .none with world := (⟨f, σ.world.dropped ++ d, σ.world.viols⟩ : World).log d' vs } =
      (({ ((table σ).set x .none) with fresh := f } : Table k).destroy d).destroy d' :=
  Table.ext (congrArg Table.vars (table_store σ x .none) :) rfl rfl

theorem each_rest {X : Type} (op : X → Nat → Option Nat × List Nat × Nat) (xs : List X) (f : Nat) (zs : List Nat)
    (h : (each op xs f).1 = some zs) : (each op xs f).2.2.2 = [] := by
  induction xs generalizing f zs with
  | nil => rfl
  | cons x xs ih =>
    rw [each] at h ⊢
    rcases hx : op x f with ⟨z, d, f'⟩
    rw [hx] at h
    cases z with
    | none => cases h
    | some z =>
      simp only at h ⊢
      cases hr : (each op xs f').1 with
      | none => rw [hr] at h; cases h
      | some zs' => exact ih f' zs' hr

theorem agree_map (h : ∀ x, WF t (σ.vars x)) (x y : Fin k) (f : Nat × Nat → Beh) :
    Agree (exec t (.map x y f) σ) (perform t (.map x y f) (table σ)) := by
  have hw := h x
  have ht : (table σ).vars x = shown (σ.vars x) := rfl
  have hfr : (table σ).fresh = σ.world.fresh := rfl
  cases hx : σ.vars x with
  | none => simp only [exec, perform, ht, hx, shown]; exact .same σ
  | elem e => simp only [exec, perform, ht, hx, shown]; exact .same σ
  | iter s => simp only [exec, perform, ht, hx, shown]; exact .same σ
  | chunks I s => simp only [exec, perform, ht, hx, shown]; exact .same σ
  | vec n v =>
    rw [hx] at hw
    have hn : n < t.W := hw
    obtain ⟨h1, h2, h3⟩ := C78_vector t (fun i e => (f (i, 0)).act e) v σ.world hn
    have ho := handOver_each (does_unary (fun p : Nat × Nat => f (p.2, 0)) Prod.fst) v.toList.zipIdx σ.world
    have hl := each_length (fun p : Nat × Nat => unary (f (p.2, 0)) p.1) v.toList.zipIdx σ.world.fresh
    have hr := each_rest (fun p : Nat × Nat => unary (f (p.2, 0)) p.1) v.toList.zipIdx σ.world.fresh
    simp only [exec, perform, ht, hx, shown, hfr]
    rcases hc : OwnIt.consume t (fun i e => (f (i, 0)).act e) v σ.world with ⟨res, w, it⟩
    rw [hc] at h1 h2 h3
    rw [ho] at h1 h2 h3
    rcases he : each (fun p : Nat × Nat => unary (f (p.2, 0)) p.1) v.toList.zipIdx σ.world.fresh with ⟨rs, d, fr, rest⟩
    rw [he] at h1 h2 h3 hl hr
    simp only at h1 h2 h3 hl hr ⊢
    subst h1 h2
    refine agree_finish (t := t) { σ.store x .none with world := (⟨fr, σ.world.dropped ++ d, σ.world.viols⟩ : World).log it.mem.drops it.mem.viols }
      (wf_store h x .none trivial y) (world_table σ x fr d it.mem.drops it.mem.viols |>.trans (by rw [h3.drops]))
      (fun zs e => by rw [hr zs e]; rfl) ?_ ?_
    · rintro rfl; rfl
    · rintro zs rfl
      exact ⟨_, rfl, shown_vecOf (by rw [hl zs rfl]; simp [v.length_eq])⟩
  | mat r c a =>
    rw [hx] at hw
    obtain ⟨hr, hcc⟩ : r < t.W ∧ c < t.W := hw
    obtain ⟨h1, h2, h3, h4⟩ := C78_matrix t (fun p e => (f p).act e) a σ.world hr hcc
    have hlen := consumeMat_lengths t hr hcc (fun p e => (f p).act e) a σ.world
    have ho := handOver_each (does_unary (fun p : Nat × Nat × Nat => f p.2) Prod.fst) (cells a) σ.world
    rw [cells_eq, each_map] at ho
    simp only [exec, perform, ht, hx, shown, hfr]
    rcases hc : OwnIt.consumeMat t (fun p e => (f p).act e) a σ.world with ⟨res, w, it⟩
    rw [hc] at h1 h2 h3 h4 hlen
    rw [cells_eq, ho] at h1 h2 h3
    have hr := each_rest (fun p : Nat × Nat => unary (f (p.2 / c, p.2 % c)) p.1) (a.rows.toList.map Vec.toList).flatten.zipIdx σ.world.fresh
    rcases he : each (fun p : Nat × Nat => unary (f (p.2 / c, p.2 % c)) p.1) (a.rows.toList.map Vec.toList).flatten.zipIdx σ.world.fresh
      with ⟨rs, d, fr, rest⟩
    rw [he] at h1 h2 h3 hr
    simp only at h1 h2 h3 h4 hlen hr ⊢
    subst h2
    refine agree_finish (t := t) { σ.store x .none with world := (⟨fr, σ.world.dropped ++ d, σ.world.viols⟩ : World).log it.drops it.viols }
      (wf_store h x .none trivial y) (world_table σ x fr d it.drops it.viols |>.trans (by rw [h3, List.map_map]; rfl))
      (fun zs e => by rw [hr zs e]; rfl) ?_ ?_
    · rintro rfl
      cases res with
      | ok l => cases h1
      | error e => cases h1; rfl
    · rintro zs rfl
      cases res with
      | error e => cases h1
      | ok l =>
        have h1 : l.flatten = zs := Except.ok.inj h1
        refine ⟨_, rfl, ?_⟩
        rw [← h1]
        exact shown_matOf (hlen l rfl)

theorem world_table2 (σ : State k) (x y : Fin k) (o : Obj) (f : Nat) (d d' d'' : List Nat) (vs vs' : List Viol) :
    table { (σ.store x o).store y .none with world := ((⟨f, σ.world.dropped ++ d, σ.world.viols⟩ : World).log d' vs).log d'' vs' } =
      (({ (((table σ).set x (shown o)).set y .none) with fresh := f } : Table k).destroy d).destroy (d' ++ d'') := by
  have h : table ((σ.store x o).store y .none) = ((table σ).set x (shown o)).set y .none := by rw [table_store, table_store]; rfl
  exact Table.ext (congrArg Table.vars h :) rfl (by simp [table, World.log, Table.destroy, Table.set, List.append_assoc])

theorem leftOvers_all (rest : List (Nat × Nat)) : leftOvers rest.length rest = rest.map Prod.fst ++ rest.map Prod.snd := by
  simp [leftOvers]

theorem leftOvers_interleave (c : Nat) (rest : List (Nat × Nat)) :
    leftOvers (rest.length % c) rest = interleave c (rest.map Prod.fst) (rest.map Prod.snd) := by
  simp [leftOvers, interleave, List.map_take, List.map_drop]

theorem agree_zip (h : ∀ x, WF t (σ.vars x)) (x y z : Fin k) (f : Nat → Beh2) :
    Agree (exec t (.zip x y z f) σ) (perform t (.zip x y z f) (table σ)) := by
  have hwx := h x
  have htx : (table σ).vars x = shown (σ.vars x) := rfl
  have hty : (table σ).vars y = shown (σ.vars y) := rfl
  have hfr : (table σ).fresh = σ.world.fresh := rfl
  by_cases hxy : x = y
  · simp only [exec, perform, hxy, if_true]; exact .same σ
  simp only [exec, perform, if_neg hxy, htx, hty, hfr]
  have hw2 : ∀ z, WF t (((σ.store x .none).store y .none).vars z) := wf_store (wf_store h x .none trivial) y .none trivial
  cases hx : σ.vars x <;> cases hy : σ.vars y <;> simp only [shown] <;> try exact .same σ
  · rename_i n v n' v'
    rw [hx] at hwx
    have hn : n < t.W := hwx
    by_cases hnn : n' = n
    · subst hnn
      rw [dif_pos rfl, if_pos (by rw [v.length_eq, v'.length_eq])]
      obtain ⟨h1, h2, h3, h4⟩ := C78_two_vectors t (fun e e' => (f e).act e e') v v' σ.world hn
      rcases hc : OwnIt.consume2 t (fun e e' => (f e).act e e') v v' σ.world with ⟨res, w, ia, ib⟩
      have ho := handOver_each (does_binary f) (v.toList.zip v'.toList) σ.world
      have hl := each_length (fun p : Nat × Nat => binary (f p.1) p.1 p.2) (v.toList.zip v'.toList) σ.world.fresh
      have hr := each_rest (fun p : Nat × Nat => binary (f p.1) p.1 p.2) (v.toList.zip v'.toList) σ.world.fresh
      rw [hc] at h1 h2 h3 h4
      rw [ho] at h1 h2 h3 h4
      rcases he : each (fun p : Nat × Nat => binary (f p.1) p.1 p.2) (v.toList.zip v'.toList) σ.world.fresh with ⟨rs, d, fr, rest⟩
      rw [he] at h1 h2 h3 h4 hl hr
      simp only at h1 h2 h3 h4 hl hr ⊢
      subst h1 h2
      refine agree_finish (t := t) { (σ.store x .none).store y .none with world :=
          ((⟨fr, σ.world.dropped ++ d, σ.world.viols⟩ : World).log ia.mem.drops ia.mem.viols).log ib.mem.drops ib.mem.viols }
        (hw2 z) ((world_table2 σ x y .none fr d ia.mem.drops ib.mem.drops ia.mem.viols ib.mem.viols).trans
          (by rw [h3.drops, h4.drops, leftOvers_all]; rfl)) (fun zs e => by rw [hr zs e]; rfl) ?_ ?_
      · rintro rfl; rfl
      · rintro zs rfl
        exact ⟨_, rfl, shown_vecOf (by rw [hl zs rfl]; simp [v.length_eq, v'.length_eq])⟩
    · rw [dif_neg hnn, if_neg (by rw [v.length_eq, v'.length_eq]; exact fun e => hnn e.symm)]; exact .same σ
  · rename_i r c a r' c' a'
    rw [hx] at hwx
    obtain ⟨hr, hcc⟩ : r < t.W ∧ c < t.W := hwx
    by_cases hnn : r' = r ∧ c' = c
    · rw [dif_pos hnn, if_pos hnn]
      obtain ⟨rfl, rfl⟩ := hnn
      obtain ⟨h1, h2, h3, h4, h5, h6⟩ := C78_two_matrices t (fun e e' => (f e).act e e') a a' σ.world hr hcc
      have hlen := consumeMat2_lengths t hr hcc (fun e e' => (f e).act e e') a a' σ.world
      simp only
      rcases hc : OwnIt.consumeMat2 t (fun e e' => (f e).act e e') a a' σ.world with ⟨res, w, la, lb⟩
      have ho := handOver_each (does_binary f) (cellPairs a a') σ.world
      have hr := each_rest (fun p : Nat × Nat => binary (f p.1) p.1 p.2) (cellPairs a a') σ.world.fresh
      rw [hc] at h1 h2 h3 h4 hlen
      rw [ho] at h1 h2 h3 h4
      rw [← cellPairs_eq]
      rcases he : each (fun p : Nat × Nat => binary (f p.1) p.1 p.2) (cellPairs a a') σ.world.fresh with ⟨rs, d, fr, rest⟩
      rw [he] at h1 h2 h3 h4 hr
      simp only at h1 h2 h3 h4 hlen hr ⊢
      subst h2
      refine agree_finish (t := t) { (σ.store x .none).store y .none with world :=
          ((⟨fr, σ.world.dropped ++ d, σ.world.viols⟩ : World).log (interleave c' la.drops lb.drops) la.viols).log [] lb.viols }
        (hw2 z) ((world_table2 σ x y .none fr d _ [] la.viols lb.viols).trans
          (by rw [h3, h4, leftOvers_interleave, List.append_nil]; rfl)) (fun zs e => by rw [hr zs e]; simp [leftOvers]) ?_ ?_
      · rintro rfl
        cases res with
        | ok l => cases h1
        | error e => cases h1; rfl
      · rintro zs rfl
        cases res with
        | error e => cases h1
        | ok l =>
          have h1 : l.flatten = zs := Except.ok.inj h1
          refine ⟨_, rfl, ?_⟩
          rw [← h1]
          exact shown_matOf (hlen l rfl)
    · rw [dif_neg hnn, if_neg hnn]; exact .same σ

theorem agree_assign (h : ∀ x, WF t (σ.vars x)) (x y : Fin k) (f : Nat → BehA) :
    Agree (exec t (.assign x y f) σ) (perform t (.assign x y f) (table σ)) := by
  have hwx := h x
  have htx : (table σ).vars x = shown (σ.vars x) := rfl
  have hty : (table σ).vars y = shown (σ.vars y) := rfl
  have hfr : (table σ).fresh = σ.world.fresh := rfl
  by_cases hxy : x = y
  · simp only [exec, perform, hxy, if_true]; exact .same σ
  simp only [exec, perform, if_neg hxy, htx, hty, hfr]
  cases hx : σ.vars x <;> cases hy : σ.vars y <;> simp only [shown] <;> try exact .same σ
  · rename_i n v n' v'
    rw [hx] at hwx
    have hn : n < t.W := hwx
    by_cases hnn : n' = n
    · subst hnn
      rw [dif_pos rfl, if_pos (by rw [v.length_eq, v'.length_eq])]
      obtain ⟨h1, h2, h3, h4⟩ := C79_vector t (fun e e' => (f e').act e e') v v' σ.world hn
      rcases hc : OwnIt.assignOwn t (fun e e' => (f e').act e e') v v' σ.world with ⟨res, v1, w, ib⟩
      have ho := assignAll_each f (v.toList.zip v'.toList) σ.world
      rw [hc] at h1 h2 h3 h4
      rcases he : eachAssign (fun a b => assigning (f b) a b) (v.toList.zip v'.toList) σ.world.fresh with ⟨ok, as, d, fr, rest⟩
      rw [he] at ho
      simp only at ho
      rw [ho] at h1 h2 h3 h4
      simp only at h1 h2 h3 h4 ⊢
      subst h1 h3
      refine ⟨rfl, ?_⟩
      have := world_table2 σ x y (.vec _ v1) fr d ib.mem.drops [] ib.mem.viols []
      simp only [World.log, List.append_nil] at this ⊢
      rw [this, h4.drops]
      simp [Table.destroy, shown, h2]
    · rw [dif_neg hnn, if_neg (by rw [v.length_eq, v'.length_eq]; exact fun e => hnn e.symm)]; exact .same σ
  · rename_i r c a r' c' a'
    rw [hx] at hwx
    obtain ⟨hr, hcc⟩ : r < t.W ∧ c < t.W := hwx
    by_cases hnn : r' = r ∧ c' = c
    · rw [dif_pos hnn, if_pos hnn]
      obtain ⟨rfl, rfl⟩ := hnn
      obtain ⟨h1, h2, h3, h4, h5⟩ := C79_matrix t (fun e e' => (f e').act e e') a a' σ.world hr hcc
      simp only
      rcases hc : OwnIt.assignOwnMat t (fun e e' => (f e').act e e') a a' σ.world with ⟨res, a1, w, lb⟩
      have ho := assignAll_each f (cellPairs a a') σ.world
      rw [hc] at h1 h2 h3 h4
      rw [← cellPairs_eq]
      rcases he : eachAssign (fun a b => assigning (f b) a b) (cellPairs a a') σ.world.fresh with ⟨ok, as, d, fr, rest⟩
      rw [he] at ho
      simp only at ho
      rw [ho] at h1 h2 h3 h4
      simp only at h1 h2 h3 h4 ⊢
      subst h1 h3
      refine ⟨rfl, ?_⟩
      have := world_table2 σ x y (.mat _ _ a1) fr d lb.drops [] lb.viols []
      simp only [World.log, List.append_nil] at this ⊢
      rw [this, h4]
      simp [Table.destroy, shown, h2]
    · rw [dif_neg hnn, if_neg hnn]; exact .same σ

theorem agree_write (x : Fin k) (i : Nat) (y : Fin k) :
    Agree (exec t (.write x i y) σ) (perform t (.write x i y) (table σ)) := by
  have htx : (table σ).vars x = shown (σ.vars x) := rfl
  have hty : (table σ).vars y = shown (σ.vars y) := rfl
  simp only [exec, perform, htx, hty]
  cases hx : σ.vars x <;> cases hy : σ.vars y <;> simp only [shown] <;> try exact .same σ
  rename_i n v e
  have hv := v.length_eq
  by_cases hi : i < v.toList.length
  · have hs : v.indexSet i e = .ok ⟨v.toList.set i e, by rw [List.length_set, v.length_eq]⟩ := by
      unfold Vec.indexSet; rw [if_pos hi]
    rw [hs, dif_pos hi]
    refine ⟨rfl, ?_⟩
    rw [List.getElem?_eq_getElem hi]
    refine Table.ext ?_ rfl rfl
    have := table_store (σ.store x (.vec n ⟨v.toList.set i e, by rw [List.length_set, v.length_eq]⟩)) y .none
    rw [table_store σ] at this
    exact (congrArg Table.vars this :)
  · rw [C15_vec_set_panic v i (by rw [hv] at hi; omega), dif_neg hi]
    exact ⟨rfl, Table.ext (congrArg Table.vars (table_store σ y .none) :) rfl rfl⟩

theorem agree_intoIter (x : Fin k) : Agree (exec t (.intoIter x) σ) (perform t (.intoIter x) (table σ)) := by
  have htx : (table σ).vars x = shown (σ.vars x) := rfl
  simp only [exec, perform, htx]
  cases hx : σ.vars x <;> simp only [shown] <;> try exact .same σ
  rw [OwnIt.intoIter_mk]
  refine ⟨rfl, ?_⟩
  show table (σ.store x _) = _
  rw [table_store]
  simp only [shown, slotElems_mk]; rfl

theorem agree_intoChunks (x : Fin k) (I : Nat) : Agree (exec t (.intoChunks x I) σ) (perform t (.intoChunks x I) (table σ)) := by
  have htx : (table σ).vars x = shown (σ.vars x) := rfl
  simp only [exec, perform, htx]
  cases hx : σ.vars x <;> simp only [shown] <;> try exact .same σ
  rename_i n v
  rw [v.length_eq]
  split
  · rw [OwnIt.intoIter_mk]
    refine ⟨rfl, ?_⟩
    show table (σ.store x _) = _
    rw [table_store]
    simp only [shown, slotElems_mk]
  · exact .same σ

/-- Handing out. -/
theorem table_handOut (h : ∀ x, WF t (σ.vars x)) (x y : Fin k) (mk : OwnIt Nat → Obj) (out : Option Obj) (F q B D : List Nat)
    (hw : WF t (mk (mkIt F q B []))) :
    table (handOut σ x y mk out (mkIt F q B D)) =
      (((table σ).destroy D).set x (shown (mk (mkIt F q B [])))).assign y (shown (out.getD .none)) := by
  unfold handOut
  rw [flush_mk]
  rw [table_put (t := t) _ y _ (by exact wf_store h x _ hw y)]
  congr 1
  exact Table.ext (congrArg Table.vars (table_store σ x _) :) rfl rfl

theorem set_same (s : Table k) (x : Fin k) (o : Shown) (h : s.vars x = o) : s.set x o = s := by
  refine Table.ext ?_ rfl rfl
  funext i
  simp only [Table.set]
  split
  · rename_i hi; rw [hi, h]
  · rfl

theorem agree_next (h : ∀ x, WF t (σ.vars x)) (x y : Fin k) : Agree (exec t (.next x y) σ) (perform t (.next x y) (table σ)) := by
  have htx : (table σ).vars x = shown (σ.vars x) := rfl
  by_cases hxy : x = y
  · simp only [exec, perform, hxy, if_true]; exact .same σ
  have hw := h x
  simp only [exec, perform, if_neg hxy, htx]
  cases hx : σ.vars x <;> try (simp only [shown]; exact .same σ)
  · rw [hx] at hw
    obtain ⟨F, q, B, rfl, hF⟩ := hw
    dsimp only [shown]
    cases q with
    | nil =>
      rw [OwnIt.next_nil]
      simp only [slotElems_mk]
      refine ⟨rfl, ?_⟩
      show table (handOut σ x y .iter _ _) = _
      rw [table_handOut h x y .iter _ F [] B [] (wf_iter hF)]
      simp only [shown, slotElems_mk, destroy_nil]; rfl
    | cons a q =>
      rw [OwnIt.next_cons _ _ _ _ _ _ (by simp only [List.length_cons] at hF; omega)]
      simp only [slotElems_mk]
      refine ⟨rfl, ?_⟩
      show table (handOut σ x y .iter _ _) = _
      rw [table_handOut h x y .iter _ (F ++ [a]) q B [] (wf_iter (by simp at hF ⊢; omega))]
      simp only [shown, slotElems_mk, destroy_nil]
      rw [show (mkIt (F ++ [a]) q B []).next = (mkIt F (a :: q) B []).next + 1 by simp [mkIt]]
      rfl
  · rename_i I s
    rw [hx] at hw
    obtain ⟨hI, F, B, cs, rfl, hF⟩ := hw
    dsimp only [shown]
    cases cs with
    | nil =>
      rw [show OwnIt.flat ([] : List (Vec Nat I)) = [] from rfl, OwnIt.chunkNext_nil]
      simp only [slotElems_mk, if_true]
      refine ⟨rfl, ?_⟩
      show table (handOut σ x y (.chunks I) _ _) = _
      rw [table_handOut h x y (.chunks I) _ F [] B [] (wf_chunks hI [] hF), destroy_nil, set_same]
      · rfl
      · rw [htx, hx]; simp only [shown, slotElems_mk]; rfl
    | cons c cs =>
      have hl : F.length + I + cs.length * I < t.W := by
        rw [List.length_cons, Nat.add_mul, Nat.one_mul] at hF; omega
      rw [show OwnIt.flat (c :: cs) = c.toList ++ OwnIt.flat cs from rfl, OwnIt.chunkNext_cons _ hI _ _ _ _ _ (by omega)]
      have hne : c.toList ++ OwnIt.flat cs ≠ [] := by
        intro e
        have := congrArg List.length e
        rw [List.length_append, c.length_eq] at this
        simp only [List.length_nil] at this; omega
      simp only [slotElems_mk, if_neg hne]
      refine ⟨rfl, ?_⟩
      show table (handOut σ x y (.chunks I) _ _) = _
      rw [table_handOut h x y (.chunks I) _ (F ++ c.toList) (OwnIt.flat cs) B [] (wf_chunks hI cs (by
        rw [List.length_append, c.length_eq]; exact hl)), destroy_nil]
      simp only [shown, slotElems_mk]
      rw [List.drop_left' c.length_eq, List.take_left' c.length_eq]
      rfl

theorem agree_nextBack (h : ∀ x, WF t (σ.vars x)) (x y : Fin k) (hp : Allowed t (table σ) (.nextBack x y)) :
    Agree (exec t (.nextBack x y) σ) (perform t (.nextBack x y) (table σ)) := by
  have htx : (table σ).vars x = shown (σ.vars x) := rfl
  by_cases hxy : x = y
  · simp only [exec, perform, hxy, if_true]; exact .same σ
  have hw := h x
  simp only [exec, perform, if_neg hxy, htx]
  simp only [Allowed, htx] at hp
  cases hx : σ.vars x <;> try (simp only [shown]; exact .same σ)
  · rw [hx] at hw hp
    obtain ⟨F, q, B, rfl, hF⟩ := hw
    dsimp only [shown]
    rcases List.eq_nil_or_concat q with rfl | ⟨q, a, rfl⟩
    · have h0 := hp hxy F.length (by simp only [shown, slotElems_mk]; rfl)
      have : F = [] := List.eq_nil_of_length_eq_zero h0
      subst this
      rw [OwnIt.nextBack_nil]
      simp only [slotElems_mk, List.getLast?_nil]
      refine ⟨rfl, ?_⟩
      show table (handOut σ x y .iter _ _) = _
      rw [table_handOut h x y .iter _ [] [] B [] (wf_iter hF), destroy_nil, set_same]
      · rfl
      · rw [htx, hx]
    · rw [List.concat_eq_append] at hF hx ⊢
      rw [OwnIt.nextBack_snoc]
      simp only [slotElems_mk, List.getLast?_concat, List.dropLast_concat]
      refine ⟨rfl, ?_⟩
      show table (handOut σ x y .iter _ _) = _
      rw [table_handOut h x y .iter _ F q (a :: B) [] (wf_iter (by simp at hF ⊢; omega)), destroy_nil]
      simp only [shown, slotElems_mk]
      rfl
  · rename_i I s
    rw [hx] at hw
    obtain ⟨hI, F, B, cs, rfl, hF⟩ := hw
    dsimp only [shown]
    rcases List.eq_nil_or_concat cs with rfl | ⟨cs, c, rfl⟩
    · rw [show OwnIt.flat ([] : List (Vec Nat I)) = [] from rfl, OwnIt.chunkNextBack_nil]
      simp only [slotElems_mk, if_true]
      refine ⟨rfl, ?_⟩
      show table (handOut σ x y (.chunks I) _ _) = _
      rw [table_handOut h x y (.chunks I) _ F [] B [] (wf_chunks hI [] hF), destroy_nil, set_same]
      · rfl
      · rw [htx, hx]; simp only [shown, slotElems_mk]; rfl
    · have ef : OwnIt.flat (cs.concat c) = OwnIt.flat cs ++ c.toList := by simp [OwnIt.flat]
      have hl : F.length + I + cs.length * I < t.W := by
        rw [List.length_concat, Nat.add_mul, Nat.one_mul] at hF; omega
      rw [ef, OwnIt.chunkNextBack_snoc _ hI]
      have hne : OwnIt.flat cs ++ c.toList ≠ [] := by
        intro e
        have := congrArg List.length e
        rw [List.length_append, c.length_eq] at this
        simp only [List.length_nil] at this; omega
      have hsub : (OwnIt.flat cs ++ c.toList).length - I = (OwnIt.flat cs).length := by
        rw [List.length_append, c.length_eq]; omega
      simp only [slotElems_mk, if_neg hne, hsub]
      refine ⟨rfl, ?_⟩
      show table (handOut σ x y (.chunks I) _ _) = _
      rw [table_handOut h x y (.chunks I) _ F (OwnIt.flat cs) (c.toList ++ B) [] (wf_chunks hI cs (by omega)), destroy_nil]
      simp only [shown, slotElems_mk]
      rw [List.take_left, List.drop_left]
      rfl

theorem agree_nth (h : ∀ x, WF t (σ.vars x)) (x y : Fin k) (i : Nat) (hp : Allowed t (table σ) (.nth x y i)) :
    Agree (exec t (.nth x y i) σ) (perform t (.nth x y i) (table σ)) := by
  have htx : (table σ).vars x = shown (σ.vars x) := rfl
  by_cases hxy : x = y
  · simp only [exec, perform, hxy, if_true]; exact .same σ
  have hw := h x
  simp only [exec, perform, if_neg hxy, htx]
  simp only [Allowed, htx] at hp
  cases hx : σ.vars x <;> try (simp only [shown]; exact .same σ)
  rw [hx] at hw hp
  obtain ⟨F, q, B, rfl, hF⟩ := hw
  dsimp only [shown]
  simp only [slotElems_mk]
  have hp := hp hxy (mkIt F q B []).next q (by simp only [shown, slotElems_mk])
  by_cases hi : i ≤ q.length
  · rw [if_neg (by omega)]
    obtain ⟨q1, q2, rfl, rfl⟩ : ∃ q1 q2, q = q1 ++ q2 ∧ q1.length = i :=
      ⟨q.take i, q.drop i, (List.take_append_drop i q).symm, by simp [hi]⟩
    rw [List.length_append] at hF
    rw [OwnIt.nth_ok t _ F q1 q2 B [] (by simp) (by omega), List.drop_left, List.take_left]
    cases q2 with
    | nil =>
      rw [OwnIt.next_nil]
      simp only
      refine ⟨rfl, ?_⟩
      show table (handOut σ x y .iter _ _) = _
      rw [table_handOut h x y .iter _ (F ++ q1) [] B _ (wf_iter (by simp at hF ⊢; omega))]
      simp only [shown, slotElems_mk, List.append_nil, List.nil_append]
      rw [show (mkIt (F ++ q1) [] B []).next = (mkIt F q1 B []).next + q1.length by simp [mkIt]]
      rfl
    | cons a q =>
      rw [List.length_cons] at hF
      rw [OwnIt.next_cons _ _ _ _ _ _ (by simp only [List.length_append]; omega)]
      simp only
      refine ⟨rfl, ?_⟩
      show table (handOut σ x y .iter _ _) = _
      rw [table_handOut h x y .iter _ (F ++ q1 ++ [a]) q B _ (wf_iter (by simp at hF ⊢; omega))]
      simp only [shown, slotElems_mk, List.nil_append]
      rw [show (mkIt (F ++ q1 ++ [a]) q B []).next = (mkIt F (q1 ++ a :: q) B []).next + q1.length + 1 by simp [mkIt]; omega]
      rfl
  · rw [if_pos (by omega)]
    obtain ⟨ho, hW⟩ := hp.resolve_left hi
    have h1 : (OwnIt.nthOp t (fun _ => false) i).run (mkIt F q B []) = (.error .panic, mkIt F q B []) := by
      unfold OwnIt.nthOp
      have : uadd t (mkIt F q B []).next i = .error .panic := by simp [uadd, Nat.not_lt.2 hW, ho]
      rw [StM.run_bind_ok (StM.run_get _), this, StM.run_bind_error (StM.run_liftRes_error _ _)]
    rw [h1]
    refine ⟨rfl, ?_⟩
    simp only [flush_mk]
    refine Table.ext ?_ rfl (by simp [table, World.log, mkIt, mkMem])
    refine (congrArg Table.vars ((table_store σ x (.iter (mkIt F q B []))).trans (set_same _ x _ ?_)) :)
    rw [htx, hx]

theorem agree_gather (h : ∀ x, WF t (σ.vars x)) (x y : Fin k) (n : Nat) :
    Agree (exec t (.gather x y n) σ) (perform t (.gather x y n) (table σ)) := by
  have htx : (table σ).vars x = shown (σ.vars x) := rfl
  by_cases hxy : x = y
  · simp only [exec, perform, hxy, if_true]; exact .same σ
  have hw := h x
  simp only [exec, perform, if_neg hxy, htx]
  cases hx : σ.vars x <;> try (simp only [shown]; exact .same σ)
  rw [hx] at hw
  obtain ⟨F, q, B, rfl, hF⟩ := hw
  dsimp only [shown]
  simp only [slotElems_mk]
  have tab : ∀ (d d' : List Nat), table { σ.store x .none with world := (σ.world.log d []).log d' [] } =
      ((table σ).set x .none).destroy (d ++ d') := fun d d' =>
    Table.ext (congrArg Table.vars (table_store σ x .none) :) rfl (by simp [table, World.log, Table.destroy, Table.set, List.append_assoc])
  unfold collectOwn
  rw [pull_run t n F q B [] hF]
  by_cases hn : n ≤ q.length
  · rw [if_pos hn]
    simp only
    obtain ⟨d1, d2⟩ := drop_mk (F ++ q.take n) (q.drop n) B
    have good : Agree (.ok (), ({ σ.store x .none with world := (σ.world.log [] []).log (q.drop n) [] } : State k).put y (vecOf n (q.take n)))
        (true, (((table σ).set x .none).destroy (q.drop n)).assign y (.vec (q.take n))) := by
      refine ⟨rfl, ?_⟩
      show table (State.put _ _ _) = _
      rw [table_put (t := t) _ y _ (by exact wf_store h x .none trivial y), tab, shown_vecOf (by simp [hn]), List.nil_append]
    cases hd : t.debugAssertions with
    | false =>
      simp only [Bool.false_eq_true, if_false, d1, d2]
      rw [if_pos (by rcases Nat.lt_or_eq_of_le hn with h | h; exacts [.inr ⟨h, trivial⟩, .inl h.symm])]
      exact good
    | true =>
      simp only [if_true, OwnIt.len_mk, d1, d2]
      by_cases hz : q.length = n
      · rw [if_pos (by simp [hz]), if_pos (.inl hz)]; exact good
      · rw [if_neg (by simp; omega), if_neg (by simp [hz]), if_pos (by omega)]
        exact ⟨rfl, (tab _ _).trans (by rw [List.nil_append])⟩
  · rw [if_neg hn]
    simp only
    obtain ⟨d1, d2⟩ := drop_mk (F ++ q) [] B
    rw [d1, d2, if_neg (by omega), if_neg (by omega)]
    exact ⟨rfl, (tab _ _).trans (by rw [List.append_nil])⟩

theorem agree_toMat (h : ∀ x, WF t (σ.vars x)) (x : Fin k) (r c : Nat) :
    Agree (exec t (.toMat x r c) σ) (perform t (.toMat x r c) (table σ)) := by
  have htx : (table σ).vars x = shown (σ.vars x) := rfl
  have hw := h x
  simp only [exec, perform, htx]
  cases hx : σ.vars x <;> try (simp only [shown]; exact .same σ)
  rename_i n v
  rw [hx] at hw
  simp only [shown, v.length_eq]
  by_cases hn : n = r * c ∧ 0 < c
  · rw [dif_pos hn, if_pos hn]
    obtain ⟨rfl, hc⟩ := hn
    have hd : c ∣ r * c := ⟨r, Nat.mul_comm _ _⟩
    have hlen : (chunksOf c v hd).length = r := by
      rw [(C12_chunk_contents c hd v).1, Nat.mul_div_cancel _ hc]
    simp only
    rw [fromVector_run t hc v hw hd hlen]
    obtain ⟨d1, d2⟩ := drop_mk v.toList [] []
    simp only [d1, d2]
    refine ⟨rfl, ?_⟩
    have e := table_store σ x (.mat r c ⟨⟨chunksOf c v hd, hlen⟩⟩)
    have hs : shown (.mat r c ⟨⟨chunksOf c v hd, hlen⟩⟩) = .mat r c v.toList := by
      simp only [shown]
      rw [show ((chunksOf c v hd).map Vec.toList).flatten = v.toList from flat_chunksOf c v hd]
    rw [hs] at e
    exact Table.ext (congrArg Table.vars e :) rfl (by simp [table, World.log, Table.set])
  · rw [dif_neg hn, if_neg hn]; exact .same σ

theorem steps_cases (i : Nat) (src : List Bool) :
    (src.length = (src.takeWhile id).length ∧ steps i src = (List.range' i (src.takeWhile id).length).map .item) ∨
    (src.length ≠ (src.takeWhile id).length ∧
      ∃ rest, steps i src = (List.range' i (src.takeWhile id).length).map .item ++ .panic :: rest) := by
  induction src generalizing i with
  | nil => exact .inl ⟨rfl, rfl⟩
  | cons b src ih =>
    cases b with
    | false => exact .inr ⟨by simp, steps 0 src, rfl⟩
    | true =>
      rw [show (true :: src).takeWhile id = true :: src.takeWhile id from rfl, List.length_cons, List.length_cons, List.range'_succ]
      rcases ih (i + 1) with ⟨h0, h⟩ | ⟨h0, rest, h⟩
      · exact .inl ⟨by rw [h0], by rw [steps, h]; rfl⟩
      · exact .inr ⟨fun e => h0 (by omega), rest, by rw [steps, h]; rfl⟩

theorem agree_collect (h : ∀ x, WF t (σ.vars x)) (x : Fin k) (n : Nat) (src : List Bool) :
    Agree (exec t (.collect x n src) σ) (perform t (.collect x n src) (table σ)) := by
  have hfr : (table σ).fresh = σ.world.fresh := rfl
  simp only [exec, perform, asked, hfr]
  have hs := steps_cases σ.world.fresh src
  generalize hi : σ.world.fresh = i at hs
  generalize ha : (src.takeWhile id).length = a at hs
  have good : ∀ m, m = n → Agree (.ok (), ({ σ with world := ({ σ.world with fresh := i + m } : World).log [] [] } : State k).put x
      (vecOf n (slotElems ((List.range' i m).map .live)))) (true, ((table σ).create n).assign x (.vec (List.range' i n))) := by
    rintro m rfl
    refine ⟨rfl, ?_⟩
    show table (State.put _ _ _) = _
    rw [table_put (t := t) { σ with world := ({ σ.world with fresh := i + m } : World).log [] [] } x _ (by exact h x), slotElems_live, shown_vecOf (by simp), table_log, destroy_nil, ← hi]
    rfl
  have bad : ∀ m (d : List Nat), Agree (.error .panic, ({ σ with world := ({ σ.world with fresh := i + m } : World).log d [] } : State k))
      (false, ((table σ).create m).destroy d) := by
    intro m d
    rw [← hi]
    exact ⟨rfl, rfl⟩
  have split : n ≤ a → List.range' i a = List.range' i n ++ List.range' (i + n) (a - n) := by
    intro hm
    conv_lhs => rw [show a = n + (a - n) by omega]
    rw [← List.range'_append]; simp
  have rn : (List.range' i n).length = n := by simp
  by_cases hlt : a < n
  · have hk : (if t.debugAssertions = true then a else min n a) = a := by split <;> omega
    rw [hk, if_neg (by omega), if_neg (by omega)]
    rcases hs with ⟨h0, hs⟩ | ⟨h0, rest, hs⟩
    · rw [hs, C02_drops t _ n (List.range' i a) (by simpa using hlt) (by simp), if_pos h0]
      exact bad a (List.range' i a)
    · rw [hs, C04_source_panics t _ n (List.range' i a) rest (by simpa using hlt), if_neg h0]
      have := bad a []
      rwa [destroy_nil] at this
  · have hle : n ≤ a := Nat.le_of_not_lt hlt
    have htake : (List.range' i a).take n = List.range' i n := by rw [split hle, List.take_left' rn]
    have hdrop : (List.range' i a).drop n = List.range' (i + n) (a - n) := by rw [split hle, List.drop_left' rn]
    cases hd : t.debugAssertions with
    | false =>
      have h3 := fun rest => C03_memory_release t hd (fun _ => false) (List.range' i n) rest
      rw [rn] at h3
      rw [show (if false = true then a else min n a) = n by simp [hle], if_pos ⟨hle, .inl rfl⟩, htake]
      rcases hs with ⟨h0, hs⟩ | ⟨h0, rest, hs⟩
      · rw [hs, split hle, List.map_append, h3]
        exact good n rfl
      · rw [hs, split hle, List.map_append, List.append_assoc, h3]
        exact good n rfl
    | true =>
      simp only [if_true]
      rcases hs with ⟨h0, hs⟩ | ⟨h0, rest, hs⟩
      · by_cases he : a = n
        · have h3 := C01_memory t (fun _ => false) (List.range' i n)
          rw [rn] at h3
          rw [if_pos ⟨hle, .inr ⟨he, h0⟩⟩, htake, hs, he, h3]
          exact good n rfl
        · have h3 := C03_memory_debug t hd (fun _ => false) (List.range' i n) (List.range' (i + n) (a - n)) (by simp; omega) (by simp)
          rw [rn, ← split hle] at h3
          rw [if_neg (by simp [he]), if_pos hle, hdrop, hs, h3]
          exact bad a _
      · have h3 := C04_count_panics t hd (fun _ => false) (List.range' i n) (List.range' (i + n) (a - n)) (by simp) rest
        rw [rn, ← List.append_assoc, ← List.map_append, ← split hle] at h3
        rw [if_neg (by simp [h0]), if_pos hle, hdrop, hs, h3]
        exact bad a _

theorem agree_exec (h : ∀ x, WF t (σ.vars x)) (p : Stmt k) (hp : Allowed t (table σ) p) :
    Agree (exec t p σ) (perform t p (table σ)) := by
  cases p with
  | new x => exact agree_new h x
  | collect x n src => exact agree_collect h x n src
  | drop x => exact agree_drop h x
  | move x y => exact agree_move h x y
  | map x y f => exact agree_map h x y f
  | zip x y z f => exact agree_zip h x y z f
  | assign x y f => exact agree_assign h x y f
  | write x i y => exact agree_write x i y
  | intoIter x => exact agree_intoIter x
  | intoChunks x I => exact agree_intoChunks x I
  | next x y => exact agree_next h x y
  | nextBack x y => exact agree_nextBack h x y hp
  | nth x y i => exact agree_nth h x y i hp
  | gather x y n => exact agree_gather h x y n
  | toMat x r c => exact agree_toMat h x r c

/-! ## Whole programs -/

theorem allowed_iff (h : ∀ x, WF t (σ.vars x)) (p : Stmt k) : Allowed t (table σ) p ↔ Proper t σ p := by
  cases p with
  | nextBack x y =>
    simp only [Allowed, Proper]
    have hw := h x
    show (x ≠ y → ∀ n, shown (σ.vars x) = .queue n [] → n = 0) ↔ _
    cases hx : σ.vars x <;> simp [shown]
  | nth x y i =>
    simp only [Allowed, Proper]
    show (x ≠ y → ∀ n l, shown (σ.vars x) = .queue n l → _) ↔ _
    cases hx : σ.vars x <;> simp [shown]
  | _ => exact Iff.rfl

theorem run_cons {lk : List Nat} (h : Good t σ lk []) (p : Stmt k) (ps : List (Stmt k)) (hp : Proper t σ p) :
    run t (p :: ps) σ = ((exec t p σ).1 :: (run t ps (exec t p σ).2).1, (run t ps (exec t p σ).2).2) := by
  have h1 := (fine_exec h p hp).1
  rw [run]
  split
  · rename_i h2; rw [h2] at h1; exact absurd rfl h1
  · rename_i h2; rw [h2]

theorem refine_run {lk : List Nat} (ps : List (Stmt k)) (h : Good t σ lk []) :
    (AllAllowed t ps (table σ) ↔ Careful t ps σ) ∧
    (Careful t ps σ → (run t ps σ).1 = (play t ps (table σ)).1.map outcome ∧ table (run t ps σ).2 = (play t ps (table σ)).2) := by
  induction ps generalizing σ lk with
  | nil => exact ⟨Iff.rfl, fun _ => ⟨rfl, rfl⟩⟩
  | cons p ps ih =>
    by_cases hp : Proper t σ p
    · obtain ⟨a1, a2⟩ := agree_exec h.wf p ((allowed_iff h.wf p).2 hp)
      obtain ⟨-, lk', g, -⟩ := fine_exec h p hp
      obtain ⟨i1, i2⟩ := ih g
      rw [a2] at i1 i2
      refine ⟨?_, fun hc => ?_⟩
      · simp only [AllAllowed, Careful, allowed_iff h.wf, i1]
      · obtain ⟨j1, j2⟩ := i2 hc.2
        rw [run_cons h p ps hp, play]
        refine ⟨?_, j2⟩
        rw [List.map_cons, ← a1, ← j1]
    · refine ⟨?_, fun hc => absurd hc.1 hp⟩
      simp only [AllAllowed, Careful, allowed_iff h.wf]
      exact ⟨fun h => absurd h.1 hp, fun h => absurd h.1 hp⟩

theorem table_init : table (init : State k) = start := rfl

/-- C108: in every program that the list semantics allows, in every build: every statement ends as it says (completes or
panics), and afterwards every variable holds the elements it says in the order it says, exactly the elements it says have been
created, and exactly the elements it says have been destroyed, in that order. -/
theorem C108_refines (t : Target) (ps : List (Stmt k)) (hp : AllAllowed t ps (start : Table k)) :
    (run t ps init).1 = (play t ps start).1.map outcome ∧ table (run t ps init).2 = (play t ps start).2 := by
  have h := refine_run ps (good_init (k := k) (t := t))
  rw [table_init] at h
  exact h.2 (h.1.1 hp)

/-- C108: the programs the list semantics allows are those whose calls are all proper (the hypothesis of C106). -/
theorem C108_allowed (t : Target) (ps : List (Stmt k)) : AllAllowed t ps (start : Table k) ↔ Careful t ps (init : State k) :=
  (refine_run ps (good_init (k := k) (t := t))).1

/-- C108: at the end of the scope the variables are destroyed in order, each from its first to its last element. -/
theorem C108_scope_end (t : Target) (ps : List (Stmt k)) (hp : AllAllowed t ps (start : Table k)) :
    (endScope (run t ps init).2).world.dropped =
      (play t ps (start : Table k)).2.gone ++ (List.finRange k).flatMap fun x => ((play t ps (start : Table k)).2.vars x).elems := by
  obtain ⟨-, h2⟩ := C108_refines t ps hp
  obtain ⟨-, lk, g, -⟩ := run_good ps (good_init (k := k) (t := t)) ((C108_allowed t ps).1 hp)
  rw [← h2]
  generalize (run t ps init).2 = σ at g
  have key : ∀ (l : List (Fin k)) (σ : State k), l.Nodup → (∀ x, WF t (σ.vars x)) →
      (l.foldl (fun σ x => σ.put x .none) σ).world.dropped = σ.world.dropped ++ l.flatMap fun x => owns (σ.vars x) := by
    intro l
    induction l with
    | nil => intro σ _ _; simp
    | cons a l ih =>
      intro σ hn hw
      rw [List.nodup_cons] at hn
      have hw' : ∀ x, WF t ((σ.put a .none).vars x) := fun x => by
        simp only [State.put]
        split
        · trivial
        · exact hw x
      rw [List.foldl_cons, ih _ hn.2 hw', List.flatMap_cons]
      have e1 : (σ.put a .none).world.dropped = σ.world.dropped ++ owns (σ.vars a) := by
        show σ.world.dropped ++ (σ.vars a).dropLog.1 = _
        rw [dropLog_wf (hw a)]
      rw [e1, List.append_assoc]
      congr 2
      refine List.flatMap_congr fun x hx => ?_
      have : x ≠ a := by rintro rfl; exact hn.1 hx
      simp [State.put, this]
  have := key (List.finRange k) σ (List.nodup_finRange k) g.wf
  simp only [table, elems_shown]
  exact this

/-- C108: if a program completes all statements in a build with debug assertions, every build does the same. -/
theorem perform_builds {t : Target} (hd : t.debugAssertions = true) (t' : Target) (p : Stmt k) (s : Table k)
    (h : (perform t p s).1 = true) : perform t' p s = perform t p s := by
  cases p with
  | collect x n src =>
    simp only [perform, hd] at h ⊢
    split at h
    · rename_i h1
      have h2 : (src.takeWhile id).length = n ∧ src.length = (src.takeWhile id).length := by
        rcases h1.2 with h | h
        · cases h
        · exact h
      rw [if_pos ⟨h1.1, .inr h2⟩, if_pos h1]
    · split at h <;> [cases h; (split at h <;> cases h)]
  | gather x y n =>
    simp only [perform, hd] at h ⊢
    split
    · rfl
    · rename_i hxy
      rw [if_neg hxy] at h
      cases hs : s.vars x with
      | queue m l =>
        rw [hs] at h
        simp only at h ⊢
        by_cases hl : l.length = n
        · rw [if_pos (.inl hl), if_pos (.inl hl)]
        · rw [if_neg (by simp [hl])] at h
          split at h <;> cases h
      | _ => rfl
  | _ => rfl

theorem perform_allowed {t : Target} (t' : Target) (hW : t'.W = t.W) (p : Stmt k) (s : Table k)
    (hp : Allowed t s p) (h : (perform t p s).1 = true) : Allowed t' s p := by
  cases p with
  | collect x n src => simpa only [Allowed, hW] using hp
  | gather x y n => simpa only [Allowed, hW] using hp
  | toMat x r c => simpa only [Allowed, hW] using hp
  | nth x y i =>
    refine fun hxy n l hs => .inl ?_
    simp only [perform, if_neg hxy, hs] at h
    split at h
    · cases h
    · omega
  | _ => exact hp

theorem play_builds {t : Target} (hd : t.debugAssertions = true) (t' : Target) (hW : t'.W = t.W) (ps : List (Stmt k)) (s : Table k)
    (hp : AllAllowed t ps s) (h : ∀ b ∈ (play t ps s).1, b = true) : AllAllowed t' ps s ∧ play t' ps s = play t ps s := by
  induction ps generalizing s with
  | nil => exact ⟨trivial, rfl⟩
  | cons p ps ih =>
    have h1 : (perform t p s).1 = true := h _ List.mem_cons_self
    have e := perform_builds hd t' p s h1
    obtain ⟨i1, i2⟩ := ih (perform t p s).2 hp.2 fun b hb => h b (List.mem_cons_of_mem _ hb)
    refine ⟨⟨perform_allowed t' hW p s hp.1 h1, by rw [e]; exact i1⟩, ?_⟩
    rw [play, e, i2]; rfl

/-- C108: if a program completes all its statements in a build with debug assertions, then in every other build (with the same
width of `usize`) it ends the same way, with the same contents, the same elements created, and the same elements destroyed in the
same order. -/
theorem C108_builds (t t' : Target) (hd : t.debugAssertions = true) (hW : t'.W = t.W) (ps : List (Stmt k))
    (hp : AllAllowed t ps (start : Table k)) (h : ∀ r ∈ (run t ps (init : State k)).1, r = .ok ()) :
    (run t' ps (init : State k)).1 = (run t ps init).1 ∧ table (run t' ps (init : State k)).2 = table (run t ps init).2 ∧
    (endScope (run t' ps (init : State k)).2).world.dropped = (endScope (run t ps init).2).world.dropped := by
  obtain ⟨h1, h2⟩ := C108_refines t ps hp
  obtain ⟨h3, h4⟩ := play_builds hd t' hW ps start hp fun b hb => by
    have := h (outcome b) (by rw [h1]; exact List.mem_map_of_mem hb)
    cases b
    · cases this
    · rfl
  obtain ⟨h5, h6⟩ := C108_refines t' ps h3
  refine ⟨by rw [h5, h1, h4], by rw [h6, h2, h4], ?_⟩
  rw [C108_scope_end t' ps h3, C108_scope_end t ps hp, h4]

namespace Spec

/-- The variables a statement mentions. -/
def mentions : Stmt k → List (Fin k)
  | .new x => [x]
  | .collect x _ _ => [x]
  | .drop x => [x]
  | .move x y => [x, y]
  | .map x y _ => [x, y]
  | .zip x y z _ => [x, y, z]
  | .assign x y _ => [x, y]
  | .write x _ y => [x, y]
  | .intoIter x => [x]
  | .intoChunks x _ => [x]
  | .next x y => [x, y]
  | .nextBack x y => [x, y]
  | .nth x y _ => [x, y]
  | .gather x y _ => [x, y]
  | .toMat x _ _ => [x]

end Spec

theorem run_append {lk : List Nat} (h : Good t σ lk []) (ps : List (Stmt k)) (p : Stmt k) (hp : Careful t (ps ++ [p]) σ) :
    Careful t ps σ ∧ (run t (ps ++ [p]) σ).2 = (exec t p (run t ps σ).2).2 ∧ Proper t (run t ps σ).2 p := by
  induction ps generalizing σ lk with
  | nil =>
    refine ⟨trivial, ?_, hp.1⟩
    rw [List.nil_append, run_cons h p [] hp.1]; rfl
  | cons q ps ih =>
    obtain ⟨-, lk', g, -⟩ := fine_exec h q hp.1
    obtain ⟨h1, h2, h3⟩ := ih g hp.2
    rw [List.cons_append, run_cons h q _ hp.1, run_cons h q _ hp.1]
    exact ⟨⟨hp.1, h1⟩, h2, h3⟩

theorem frame (s : Table k) (p : Stmt k) (z : Fin k) (hz : z ∉ mentions p) : (perform t p s).2.vars z = s.vars z := by
  have hfin : ∀ (s : Table k) (y : Fin k) mk left d f res, z ≠ y → (finish s y mk left d f res).2.vars z = s.vars z := by
    intro s y mk left d f res hy
    cases res <;> simp [finish, Table.assign, Table.set, Table.destroy, hy]
  cases p <;> simp only [mentions, List.mem_cons, List.not_mem_nil, or_false, not_or] at hz <;> simp only [perform]
  case new => simp [Table.assign, Table.set, Table.destroy, Table.create, hz]
  case collect => 
    split <;> [skip; split <;> [skip; split]] <;> simp [Table.assign, Table.set, Table.destroy, Table.create, hz]
  case map =>
    split <;> first | rfl | (rw [hfin _ _ _ _ _ _ _ hz.2]; simp [Table.set, hz])
  case zip =>
    split
    · rfl
    · split <;> [skip; skip; rfl] <;> split <;> first | rfl | (rw [hfin _ _ _ _ _ _ _ hz.2.2]; simp [Table.set, hz])
  all_goals (repeat' split) <;> simp [Table.assign, Table.set, Table.destroy, hz]

/-- C108: a statement does not touch variables it does not mention. -/
theorem C108_frame (t : Target) (ps : List (Stmt k)) (p : Stmt k) (hp : AllAllowed t (ps ++ [p]) (start : Table k)) (z : Fin k)
    (hz : z ∉ mentions p) :
    (table (run t (ps ++ [p]) (init : State k)).2).vars z = (table (run t ps (init : State k)).2).vars z := by
  obtain ⟨h1, h2, h3⟩ := run_append good_init ps p ((C108_allowed t _).1 hp)
  obtain ⟨-, lk, g, -⟩ := run_good ps (good_init (k := k) (t := t)) h1
  rw [h2, (agree_exec g.wf p ((allowed_iff g.wf p).2 h3)).2]
  exact frame _ p z hz

/-! ## A concrete program -/

example : AllAllowed ⟨true, true, 2 ^ 64⟩ sample start := (C108_allowed _ _).2 (by decide +kernel)

/-- The sample of C106 in the list semantics: one statement panics; what the variables hold in the end; and the order in which
elements were destroyed. -/
theorem C108_sample :
    (play ⟨true, true, 2 ^ 64⟩ sample start).1 = [true, true, true, true, true, false, true, true, true, true, true, true, true, true, true, true, true,
      true, true, true] ∧
    (List.finRange 4).map (play ⟨true, true, 2 ^ 64⟩ sample start).2.vars =
      [.chunks 2 [], .mat 2 3 [0, 1, 2, 3, 6, 5], .vec [18, 17], .none] ∧
    (play ⟨true, true, 2 ^ 64⟩ sample start).2.gone = [4, 9, 10, 8, 12, 15, 11, 13, 14, 16, 19] := by decide +kernel

/-- `a + b` for 2 × 3 matrices whose element operation panics at the second element: it destroys its operands (7 and 1); then the
rest of the current rows goes, then the remaining rows.  The sum of the first elements (12) is lost. -/
theorem C108_sample_matrices :
    (run ⟨false, false, 2 ^ 64⟩ [.collect 0 6 (.replicate 6 true), .toMat 0 2 3, .collect 1 6 (.replicate 6 true), .toMat 1 2 3,
      .zip 0 1 0 fun e => if e = 1 then .panic else .replace] (init : State 2)).2.world =
      ⟨13, [0, 6, 7, 1, 2, 8, 3, 4, 5, 9, 10, 11], []⟩ := by decide +kernel

end Owner
end Rowcol
