import Verif.Props.Det
import Verif.Props.Index

/-! # C52: `determinant()` and `inverse()` never divide by zero -/

namespace Rowcol

variable {T : Type} {n : Nat}

section swap
variable (t : Target) (O : Ops T) (div' : T → T → Res T) (h : ∀ x y, O.isZero y = false → div' x y = O.div x y)
include h

theorem elimCol_swap (i : Nat) (js : List Nat) (m : Mat T n n) :
    Mat.elimCol { O with div := div' } i js m = Mat.elimCol O i js m := by
  induction js generalizing m with
  | nil => rfl
  | cons j js ih =>
    unfold Mat.elimCol
    cases hm : m.index (i, i) with
    | error e => rfl
    | ok d =>
      simp only [res_ok_bind]
      cases hz : O.isZero d with
      | true => rfl
      | false =>
        simp only [Bool.false_eq_true, if_false]
        cases m.index (j, i) with
        | error e => rfl
        | ok x =>
          simp only [res_ok_bind]
          rw [h _ _ hz]
          congr 1; funext d; congr 1; funext m'; exact ih m'

theorem elimAll_swap (is : List Nat) (m : Mat T n n) :
    Mat.elimAll { O with div := div' } is m = Mat.elimAll O is m := by
  induction is generalizing m with
  | nil => rfl
  | cons i is ih =>
    unfold Mat.elimAll
    rw [elimCol_swap O div' h]
    congr 1; funext o
    cases o with
    | none => rfl
    | some m => exact ih m

/-- C52: changing what division by zero does cannot change what `determinant()` does, for any element type (with any
panics of its other operations), any size and any matrix: no division by a value with `is_zero()` ever happens. -/
theorem C52_determinant (k : Nat) (a : Mat T (k + 1) (k + 1)) :
    a.determinant t { O with div := div' } k = a.determinant t O k := by
  induction k with
  | zero => rfl
  | succ k ih =>
    match k, ih with
    | 0, _ => rfl
    | 1, _ => rfl
    | k + 2, ih =>
      have hc : Mat.cofGen t { O with div := div' } (Mat.determinant t { O with div := div' } (k + 2)) a =
          Mat.cofGen t O (Mat.determinant t O (k + 2)) a := by
        rw [show Mat.determinant t { O with div := div' } (k + 2) = Mat.determinant t O (k + 2) from funext ih]
        rfl
      simp only [Mat.determinant, Mat.detGen]
      rw [hc]
      simp only [elimAll_swap O div' h]

theorem gjLoop_swap (is : List Nat) (s : Mat T n n × Mat T n n) :
    Mat.gjLoop { O with div := div' } is s = Mat.gjLoop O is s := by
  induction is generalizing s with
  | nil => rfl
  | cons i is ih =>
    unfold Mat.gjLoop
    cases s.1.index (i, i) with
    | error e => rfl
    | ok d =>
      simp only [res_ok_bind]
      cases hz : O.isZero d with
      | true => rfl
      | false =>
        simp only [Bool.false_eq_true, if_false]
        rw [h _ _ hz]
        congr 1; funext x; congr 1; funext s; congr 1; funext s; exact ih s

omit h in
theorem divScalar_congr {r c : Nat} (f g : T → T → Res T) (a : Mat T r c) (s : T) (hfg : ∀ x, f x s = g x s) :
    a.divScalar t f s = a.divScalar t g s := by
  simp only [Mat.divScalar, Vec.divScalar, hfg]

/-- C52: the same for `inverse()`. -/
theorem C52_inverse (k : Nat) (a : Mat T (k + 1) (k + 1)) :
    a.inverse t { O with div := div' } k = a.inverse t O k := by
  match k with
  | 0 =>
    simp only [Mat.inverse, Mat.inv1]
    refine bind_congr fun d => ?_
    by_cases hz : O.isZero d = true
    · simp only [hz, if_true]
    · rw [Bool.not_eq_true] at hz
      simp only [hz]; simp only [Bool.false_eq_true, if_false]; rw [h _ _ hz]
  | 1 =>
    simp only [Mat.inverse, Mat.inv2]
    rw [show a.det2 t { O with div := div' } = a.det2 t O from rfl]
    refine bind_congr fun d => ?_
    by_cases hz : O.isZero d = true
    · simp only [hz, if_true]
    · rw [Bool.not_eq_true] at hz
      simp only [hz]; simp only [Bool.false_eq_true, if_false, divScalar_congr t div' O.div _ d (fun x => h x d hz)]
  | 2 =>
    have hms : ∀ p q u v, a.ms t { O with div := div' } p q u v = a.ms t O p q u v := fun _ _ _ _ => rfl
    have hd : a.det3 t { O with div := div' } = a.det3 t O := rfl
    simp only [Mat.inverse]
    unfold Mat.inv3
    simp only [hms, hd]
    refine bind_congr fun d => ?_
    by_cases hz : O.isZero d = true
    · simp only [hz, if_true]
    · rw [Bool.not_eq_true] at hz
      simp only [hz]; simp only [Bool.false_eq_true, if_false, divScalar_congr t div' O.div _ d (fun x => h x d hz)]
  | k + 3 =>
    simp only [Mat.inverse, Mat.invGen]
    rw [show Mat.identity t { O with div := div' } (k + 3 + 1) = Mat.identity t O (k + 3 + 1) from rfl]
    simp only [gjLoop_swap O div' h]

end swap

/-! ## Consequence: total arithmetic never panics -/

/-- `+`, `-`, `*`, unary minus never fail, and division fails at most on zero. -/
structure Ops.TotalExceptDivZero (O : Ops T) : Prop where
  add : ∀ x y, ∃ z, O.add x y = .ok z
  sub : ∀ x y, ∃ z, O.sub x y = .ok z
  mul : ∀ x y, ∃ z, O.mul x y = .ok z
  neg : ∀ x, ∃ z, O.neg x = .ok z
  div : ∀ x y, O.isZero y = false → ∃ z, O.div x y = .ok z

section total
variable {O : Ops T} (hO : O.TotalExceptDivZero)

theorem foldlM_total {S : Type} (f : S → Nat → Res S) (n : Nat) (s : S) (h : ∀ s, ∀ k < n, ∃ s', f s k = .ok s') :
    ∃ s', (List.range n).foldlM f s = .ok s' := by
  have : ∀ (l : List Nat) (s : S), (∀ k ∈ l, k < n) → ∃ s', l.foldlM f s = .ok s' := by
    intro l
    induction l with
    | nil => intro s _; exact ⟨s, rfl⟩
    | cons k l ih =>
      intro s hl
      obtain ⟨s', hs⟩ := h s k (hl k (by simp))
      rw [List.foldlM_cons, hs, res_ok_bind]
      exact ih s' (fun k hk => hl k (by simp [hk]))
  exact this _ s (by simp)

theorem index_total (a : Mat T n n) {i j : Nat} (hi : i < n) (hj : j < n) : ∃ x, a.index (i, j) = .ok x :=
  ⟨_, Mat.index_ok a hi hj⟩

theorem indexSet_total (a : Mat T n n) {i j : Nat} (hi : i < n) (hj : j < n) (x : T) :
    ∃ b, a.indexSet (i, j) x = .ok b := ⟨_, Mat.indexSet_ok a hi hj x⟩

theorem bind_total {α β : Type} {x : Res α} {f : α → Res β} (hx : ∃ a, x = .ok a) (hf : ∀ a, x = .ok a → ∃ b, f a = .ok b) :
    ∃ b, x >>= f = .ok b := by
  obtain ⟨a, ha⟩ := hx
  rw [ha, res_ok_bind]; exact hf a ha

include hO

theorem elimRow_total (m : Mat T n n) {i j : Nat} (hi : i < n) (hj : j < n) (d : T) :
    ∃ m', Mat.elimRow O m i j d = .ok m' := by
  apply foldlM_total
  intro m k hk
  refine bind_total (index_total m hj hk) fun x _ => bind_total (index_total m hi hk) fun y _ =>
    bind_total (hO.mul y d) fun z _ => bind_total (hO.sub x z) fun w _ => indexSet_total m hj hk w

theorem elimCol_total {i : Nat} (hi : i < n) (js : List Nat) (hjs : ∀ j ∈ js, j < n) (m : Mat T n n) :
    ∃ o, Mat.elimCol O i js m = .ok o := by
  induction js generalizing m with
  | nil => exact ⟨_, rfl⟩
  | cons j js ih =>
    unfold Mat.elimCol
    refine bind_total (index_total m hi hi) fun d hd => ?_
    cases hz : O.isZero d with
    | true => exact ⟨_, rfl⟩
    | false =>
      simp only [Bool.false_eq_true, if_false]
      have hj := hjs j (by simp)
      refine bind_total (index_total m hj hi) fun x _ => bind_total (index_total m hi hi) fun p hp => ?_
      obtain rfl := Except.ok.inj (hd.symm.trans hp)
      exact bind_total (hO.div x d hz) fun q _ => bind_total (elimRow_total hO m hi hj q) fun m' _ =>
        ih (fun j hj => hjs j (by simp [hj])) m'

theorem elimAll_total (is : List Nat) (his : ∀ i ∈ is, i < n) (m : Mat T n n) : ∃ o, Mat.elimAll O is m = .ok o := by
  induction is generalizing m with
  | nil => exact ⟨_, rfl⟩
  | cons i is ih =>
    unfold Mat.elimAll
    have hi := his i (by simp)
    refine bind_total (elimCol_total hO hi _ (fun j hj => by rw [List.mem_range'_1] at hj; omega) m) fun o _ => ?_
    cases o with
    | none => exact ⟨_, rfl⟩
    | some m' => exact ih (fun i hi => his i (by simp [hi])) m'

theorem cofSign_total (t : Target) {i j : Nat} (h : i + j < t.W) : ∃ s, Mat.cofSign t O i j = .ok s := by
  unfold Mat.cofSign
  rw [uadd_ok t h, res_ok_bind]
  split
  · exact ⟨_, rfl⟩
  · exact hO.neg _

theorem det2_total (t : Target) (a : Mat T 2 2) : ∃ x, a.det2 t O = .ok x := by
  have ix : ∀ i j : Nat, i < 2 → j < 2 → ∃ x, a.idxStatic t i j = .ok x := fun i j hi hj => ⟨_, Mat.idxStatic_ok t a hi hj⟩
  unfold Mat.det2
  refine bind_total (ix 0 0 (by omega) (by omega)) fun x _ => bind_total (ix 1 1 (by omega) (by omega)) fun y _ =>
    bind_total (hO.mul _ _) fun p _ => bind_total (ix 1 0 (by omega) (by omega)) fun x _ =>
    bind_total (ix 0 1 (by omega) (by omega)) fun y _ => bind_total (hO.mul _ _) fun q _ => hO.sub _ _

theorem det3Term_total (t : Target) (a : Mat T 3 3) (i j k : Nat) (hi : i < 3) (hj : j < 3) (hk : k < 3) :
    ∃ x, a.det3Term t O i j k = .ok x := by
  have ix : ∀ i j : Nat, i < 3 → j < 3 → ∃ x, a.idxStatic t i j = .ok x := fun i j hi hj => ⟨_, Mat.idxStatic_ok t a hi hj⟩
  unfold Mat.det3Term
  refine bind_total (ix 0 i (by omega) hi) fun x _ => bind_total (ix 1 j (by omega) hj) fun y _ =>
    bind_total (hO.mul _ _) fun p _ => bind_total (ix 2 k (by omega) hk) fun x _ => hO.mul _ _

theorem det3_total (t : Target) (a : Mat T 3 3) : ∃ x, a.det3 t O = .ok x := by
  have h := det3Term_total hO t a
  unfold Mat.det3
  refine bind_total (h 0 1 2 (by omega) (by omega) (by omega)) fun _ _ =>
    bind_total (h 1 2 0 (by omega) (by omega) (by omega)) fun _ _ => bind_total (hO.add _ _) fun _ _ =>
    bind_total (h 2 0 1 (by omega) (by omega) (by omega)) fun _ _ => bind_total (hO.add _ _) fun _ _ =>
    bind_total (h 2 1 0 (by omega) (by omega) (by omega)) fun _ _ => bind_total (hO.sub _ _) fun _ _ =>
    bind_total (h 1 0 2 (by omega) (by omega) (by omega)) fun _ _ => bind_total (hO.sub _ _) fun _ _ =>
    bind_total (h 0 2 1 (by omega) (by omega) (by omega)) fun _ _ => hO.sub _ _

/-- C52: with arithmetic that is total apart from division by zero, `determinant()` always returns a value, whatever
the size and the matrix (no algebraic laws are assumed: floats, wrapping integers, ..). -/
theorem C52_determinant_total (t : Target) (k : Nat) (a : Mat T (k + 1) (k + 1)) (hk : k + 1 < t.W) :
    ∃ d, a.determinant t O k = .ok d := by
  induction k with
  | zero => exact ⟨_, Mat.idxStatic_ok t a (by omega) (by omega)⟩
  | succ k ih =>
    match k, ih with
    | 0, _ => exact det2_total hO t a
    | 1, _ => exact det3_total hO t a
    | k + 2, ih =>
      simp only [Mat.determinant, Mat.detGen]
      rw [Mat.clone_ok, res_ok_bind]
      refine bind_total (elimAll_total hO _ (by simp) _) fun o _ => ?_
      cases o with
      | none =>
        apply foldlM_total
        intro s i hi
        refine bind_total (index_total a hi (by omega)) fun x _ => bind_total ?_ fun y _ => bind_total (hO.mul _ _) fun p _ =>
          hO.add _ _
        unfold Mat.cofGen
        rw [if_pos ⟨hi, by simp⟩]
        refine bind_total ⟨_, minor_eq t a ⟨i, hi⟩ 0 hk⟩ fun b _ => bind_total (cofSign_total hO t (by simp; omega)) fun s _ =>
          bind_total (ih b (by omega)) fun d _ => hO.mul _ _
      | some m =>
        apply foldlM_total
        intro s i hi
        exact bind_total (index_total m hi hi) fun x _ => hO.mul _ _

theorem gjScale_total {i : Nat} (hi : i < n) (x : T) (s : Mat T n n × Mat T n n) : ∃ s', Mat.gjScale O i x s = .ok s' := by
  apply foldlM_total
  intro s j hj
  exact bind_total (index_total _ hi hj) fun _ _ => bind_total (hO.mul _ _) fun _ _ =>
    bind_total (indexSet_total _ hi hj _) fun _ _ => bind_total (index_total _ hi hj) fun _ _ =>
    bind_total (hO.mul _ _) fun _ _ => bind_total (indexSet_total _ hi hj _) fun _ _ => ⟨_, rfl⟩

theorem gjRow_total {i j : Nat} (hi : i < n) (hj : j < n) (x : T) (s : Mat T n n × Mat T n n) :
    ∃ s', Mat.gjRow O i j x s = .ok s' := by
  apply foldlM_total
  intro s k hk
  exact bind_total (index_total _ hj hk) fun _ _ => bind_total (index_total _ hi hk) fun _ _ =>
    bind_total (hO.mul _ _) fun _ _ => bind_total (hO.sub _ _) fun _ _ =>
    bind_total (indexSet_total _ hj hk _) fun _ _ => bind_total (index_total _ hj hk) fun _ _ =>
    bind_total (index_total _ hi hk) fun _ _ => bind_total (hO.mul _ _) fun _ _ => bind_total (hO.sub _ _) fun _ _ =>
    bind_total (indexSet_total _ hj hk _) fun _ _ => ⟨_, rfl⟩

theorem gjClear_total {i : Nat} (hi : i < n) (s : Mat T n n × Mat T n n) : ∃ s', Mat.gjClear O i s = .ok s' := by
  apply foldlM_total
  intro s j hj
  split
  · exact ⟨_, rfl⟩
  · exact bind_total (index_total _ hj hi) fun x _ => gjRow_total hO hi hj x s

theorem gjLoop_total (is : List Nat) (his : ∀ i ∈ is, i < n) (s : Mat T n n × Mat T n n) :
    ∃ o, Mat.gjLoop O is s = .ok o := by
  induction is generalizing s with
  | nil => exact ⟨_, rfl⟩
  | cons i is ih =>
    unfold Mat.gjLoop
    have hi := his i (by simp)
    refine bind_total (index_total s.1 hi hi) fun d _ => ?_
    cases hz : O.isZero d with
    | true => exact ⟨_, rfl⟩
    | false =>
      simp only [Bool.false_eq_true, if_false]
      exact bind_total (hO.div _ _ hz) fun x _ => bind_total (gjScale_total hO hi x s) fun s _ =>
        bind_total (gjClear_total hO hi s) fun s _ => ih (fun i hi => his i (by simp [hi])) s

omit hO in
theorem divScalar_total {r c : Nat} (t : Target) (f : T → T → Res T) (a : Mat T r c) (s : T) (h : ∀ x, ∃ y, f x s = .ok y) :
    ∃ b, a.divScalar t f s = .ok b :=
  ⟨Mat.ofFn fun i j => (h (a.get i j)).choose, ((C19_mat_ok t f (fun x => .ok x) a s _ a).2.1).2 fun i j => by
    rw [Mat.get_ofFn]; exact (h (a.get i j)).choose_spec⟩

omit hO in
theorem new_total {r c : Nat} (t : Target) (v : Vec (Vec T c) r) : ∃ a, Mat.new t v = .ok a := by
  obtain ⟨a, h, _⟩ := C35_new t v; exact ⟨a, h⟩

/-- C52: the same for `inverse()`. -/
theorem C52_inverse_total (t : Target) (k : Nat) (a : Mat T (k + 1) (k + 1)) : ∃ o, a.inverse t O k = .ok o := by
  match k with
  | 0 =>
    simp only [Mat.inverse, Mat.inv1]
    refine bind_total ⟨_, Mat.idxStatic_ok t a (show 0 < 1 by omega) (show 0 < 1 by omega)⟩ fun d _ => ?_
    cases hz : O.isZero d with
    | true => exact ⟨_, rfl⟩
    | false =>
      simp only [Bool.false_eq_true, if_false]
      exact bind_total (hO.div _ _ hz) fun x _ => bind_total (new_total t _) fun b _ => ⟨_, rfl⟩
  | 1 =>
    have ix : ∀ i j : Nat, i < 2 → j < 2 → ∃ x, a.idxStatic t i j = .ok x := fun i j hi hj => ⟨_, Mat.idxStatic_ok t a hi hj⟩
    simp only [Mat.inverse, Mat.inv2]
    refine bind_total (det2_total hO t a) fun d _ => ?_
    cases hz : O.isZero d with
    | true => exact ⟨_, rfl⟩
    | false =>
      simp only [Bool.false_eq_true, if_false]
      exact bind_total (ix 1 1 (by omega) (by omega)) fun _ _ => bind_total (ix 0 1 (by omega) (by omega)) fun _ _ =>
        bind_total (hO.neg _) fun _ _ => bind_total (ix 1 0 (by omega) (by omega)) fun _ _ =>
        bind_total (hO.neg _) fun _ _ => bind_total (ix 0 0 (by omega) (by omega)) fun _ _ =>
        bind_total (new_total t _) fun b _ => bind_total (divScalar_total t _ _ _ fun x => hO.div x d hz) fun _ _ => ⟨_, rfl⟩
  | 2 =>
    have ix : ∀ i j : Nat, i < 3 → j < 3 → ∃ x, a.idxStatic t i j = .ok x := fun i j hi hj => ⟨_, Mat.idxStatic_ok t a hi hj⟩
    have hms : ∀ p q u v : Nat × Nat, p.1 < 3 ∧ p.2 < 3 → q.1 < 3 ∧ q.2 < 3 → u.1 < 3 ∧ u.2 < 3 → v.1 < 3 ∧ v.2 < 3 →
        ∃ x, a.ms t O p q u v = .ok x := by
      intro p q u v hp hq hu hv
      unfold Mat.ms
      exact bind_total (ix _ _ hp.1 hp.2) fun _ _ => bind_total (ix _ _ hq.1 hq.2) fun _ _ => bind_total (hO.mul _ _) fun _ _ =>
        bind_total (ix _ _ hu.1 hu.2) fun _ _ => bind_total (ix _ _ hv.1 hv.2) fun _ _ => bind_total (hO.mul _ _) fun _ _ =>
        hO.sub _ _
    simp only [Mat.inverse, Mat.inv3]
    refine bind_total (det3_total hO t a) fun d _ => ?_
    cases hz : O.isZero d with
    | true => exact ⟨_, rfl⟩
    | false =>
      simp only [Bool.false_eq_true, if_false]
      iterate 9 refine bind_total (hms _ _ _ _ (by omega) (by omega) (by omega) (by omega)) fun _ _ => ?_
      exact bind_total (new_total t _) fun b _ => bind_total (divScalar_total t _ _ _ fun x => hO.div x d hz) fun _ _ => ⟨_, rfl⟩
  | k + 3 =>
    simp only [Mat.inverse, Mat.invGen]
    rw [Mat.clone_ok, res_ok_bind]
    refine bind_total ⟨_, Mat.generate_ok t _ (fun i j => if i.val = j.val then O.one else O.zero) (fun i j => rfl)⟩ fun e _ =>
      bind_total (gjLoop_total hO _ (by simp) _) fun o _ => ?_
    cases o with
    | none => exact ⟨_, rfl⟩
    | some s => exact ⟨_, rfl⟩

end total

/-- Wrapping 8-bit arithmetic: no field, no ring order, but total except for division by zero. -/
def Ops.wrapping8 : Ops Nat where
  zero := 0
  one := 1
  add a b := .ok ((a + b) % 256)
  sub a b := .ok ((a + 256 - b % 256) % 256)
  mul a b := .ok (a * b % 256)
  div a b := if b = 0 then .error .panic else .ok (a / b)
  neg a := .ok ((256 - a % 256) % 256)
  isZero a := a = 0

theorem Ops.wrapping8_total : Ops.wrapping8.TotalExceptDivZero where
  add _ _ := ⟨_, rfl⟩
  sub _ _ := ⟨_, rfl⟩
  mul _ _ := ⟨_, rfl⟩
  neg _ := ⟨_, rfl⟩
  div x y h := by
    have : y ≠ 0 := by simpa [wrapping8] using h
    exact ⟨x / y, by simp [wrapping8, this]⟩

example : (Mat.ofFn fun i j : Fin 4 => if i = j then 0 else 1 : Mat Nat 4 4).determinant ⟨true, true, 2 ^ 64⟩
    Ops.wrapping8 3 = .ok 253 := by rfl

end Rowcol
