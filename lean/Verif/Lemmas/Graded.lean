import Verif.Lemmas.Param
import Mathlib.Algebra.BigOperators.Fin
import Mathlib.Algebra.Group.Basic

/-! Graded relational transport: elements of two types are related with a factor `g` from a commutative group; sums keep the
factor, products multiply it.  Then every vector and matrix operation transports factors of rows and columns the way the
corresponding operation of linear algebra does. -/

set_option linter.unusedTactic false
set_option linter.unnecessarySeqFocus false
set_option linter.unreachableTactic false

namespace Rowcol

/-- If both computations return, the values are related. -/
def Both {α β : Type} (R : α → β → Prop) (x : Res α) (y : Res β) : Prop := ∀ a b, x = .ok a → y = .ok b → R a b

namespace Both
variable {α β γ δ σ τ : Type} {R : α → β → Prop} {S : γ → δ → Prop}

theorem ok {a : α} {b : β} (h : R a b) : Both R (.ok a) (.ok b) := by
  intro a' b' h1 h2; cases h1; cases h2; exact h

theorem fail (e : Fault) (y : Res β) : Both R (.error e) y := by intro a b h; cases h

theorem bind {x : Res α} {y : Res β} (h : Both R x y) {f : α → Res γ} {g : β → Res δ}
    (hf : ∀ a b, R a b → Both S (f a) (g b)) : Both S (x >>= f) (y >>= g) := by
  cases x with
  | error e => exact fail e _
  | ok a =>
    cases y with
    | error e => intro c d _ h2; cases h2
    | ok b => exact hf a b (h a b rfl rfl)

theorem mono {R' : α → β → Prop} {x : Res α} {y : Res β} (h : Both R x y) (hR : ∀ a b, R a b → R' a b) :
    Both R' x y := fun a b h1 h2 => hR a b (h a b h1 h2)

theorem foldlM {ι : Type} {f : σ → ι → Res σ} {g : τ → ι → Res τ} {R : σ → τ → Prop} (l : List ι)
    (h : ∀ i ∈ l, ∀ s s', R s s' → Both R (f s i) (g s' i)) {s : σ} {s' : τ} (hs : R s s') :
    Both R (l.foldlM f s) (l.foldlM g s') := by
  induction l generalizing s s' with
  | nil => exact ok hs
  | cons i l ih =>
    rw [List.foldlM_cons, List.foldlM_cons]
    exact (h i (by simp) s s' hs).bind fun a b hab => ih (fun j hj => h j (by simp [hj])) hab

/-- A loop over `0..n` with an invariant that depends on the position. -/
theorem foldRange {f : σ → Nat → Res σ} {g : τ → Nat → Res τ} (P : Nat → σ → τ → Prop) (n : Nat)
    (h : ∀ k < n, ∀ s s', P k s s' → Both (P (k + 1)) (f s k) (g s' k)) {s : σ} {s' : τ} (hs : P 0 s s') :
    Both (P n) ((List.range n).foldlM f s) ((List.range n).foldlM g s') := by
  induction n with
  | zero => exact ok hs
  | succ n ih =>
    rw [List.range_succ, List.foldlM_append, List.foldlM_append]
    refine (ih fun k hk => h k (by omega)).bind fun a b hab => ?_
    rw [List.foldlM_cons, List.foldlM_cons]
    refine (h n (by omega) a b hab).bind fun c d hcd => ok hcd

theorem of_rel {p : Prop} {x : Res α} {y : Res β} (h : Rel p R x y) : Both R x y := by
  intro a b h1 h2
  obtain ⟨b', h3, h4⟩ := h.ok_left h1
  rw [h2] at h3; cases h3; exact h4

end Both

/-- Corresponding operations of `O` and `O'` respect the factors. -/
structure Ops.Graded {T U G : Type} [CommGroup G] (O : Ops T) (O' : Ops U) (R : G → T → U → Prop) : Prop where
  zero : ∀ g, R g O.zero O'.zero
  one : R 1 O.one O'.one
  add : ∀ {g a b a' b'}, R g a a' → R g b b' → Both (R g) (O.add a b) (O'.add a' b')
  sub : ∀ {g a b a' b'}, R g a a' → R g b b' → Both (R g) (O.sub a b) (O'.sub a' b')
  mul : ∀ {g h a b a' b'}, R g a a' → R h b b' → Both (R (g * h)) (O.mul a b) (O'.mul a' b')
  neg : ∀ {g a a'}, R g a a' → Both (R g) (O.neg a) (O'.neg a')
  isZero : ∀ {g a a'}, R g a a' → O'.isZero a' = O.isZero a
  div : ∀ {g h a b a' b'}, R g a a' → R h b b' → O.isZero b = false → Both (R (g / h)) (O.div a b) (O'.div a' b')

/-- Every element is related with the factor of its position. -/
def VecGr {T U G : Type} {n : Nat} (R : G → T → U → Prop) (γ : Nat → G) (v : Vec T n) (w : Vec U n) : Prop :=
  ∀ i : Fin n, R (γ i) (v.get i) (w.get i)

/-- Every entry is related with the factor of its position. -/
def MatGr {T U G : Type} {r c : Nat} (R : G → T → U → Prop) (γ : Nat → Nat → G) (a : Mat T r c) (b : Mat U r c) : Prop :=
  ∀ (i : Fin r) (j : Fin c), R (γ i j) (a.get i j) (b.get i j)

section
variable {T U G : Type} {R : G → T → U → Prop} {n r c l : Nat}

theorem both_collect (t t' : Target) {A B : Type} (S : Fin n → A → B → Prop) (f : Fin n → Res A) (g : Fin n → Res B)
    (h : ∀ i, Both (S i) (f i) (g i)) :
    Both (fun v w => ∀ i, S i (v.get i) (w.get i)) (Vec.collect t n ((List.finRange n).map f))
      (Vec.collect t' n ((List.finRange n).map g)) := by
  intro v w hv hw i
  rw [Vec.collect_finRange_ok_iff] at hv hw
  exact h i _ _ (hv i) (hw i)

theorem both_matCollect (t t' : Target) {γ : Nat → Nat → G} (f : Fin r → Fin c → Res T) (g : Fin r → Fin c → Res U)
    (h : ∀ (i : Fin r) (j : Fin c), Both (R (γ i j)) (f i j) (g i j)) :
    Both (MatGr R γ)
      (do let v ← Vec.collect t r ((List.finRange r).map fun i => Vec.collect t c ((List.finRange c).map (f i)))
          pure (⟨v⟩ : Mat T r c))
      (do let v ← Vec.collect t' r ((List.finRange r).map fun i => Vec.collect t' c ((List.finRange c).map (g i)))
          pure (⟨v⟩ : Mat U r c)) :=
  (both_collect t t' (fun i v w => ∀ j : Fin c, R (γ i j) (v.get j) (w.get j)) _ _ fun i =>
    both_collect t t' (fun j => R (γ i j)) _ _ (h i)).bind fun _ _ h => .ok fun i j => h i j

variable {γ γ' : Nat → Nat → G}

theorem both_index {a : Mat T r c} {b : Mat U r c} (h : MatGr R γ a b) (i j : Nat) :
    Both (R (γ i j)) (a.index (i, j)) (b.index (i, j)) := by
  by_cases hq : i < r ∧ j < c
  · rw [Mat.index_ok _ hq.1 hq.2, Mat.index_ok _ hq.1 hq.2]; exact .ok (h ⟨i, hq.1⟩ ⟨j, hq.2⟩)
  · rw [Mat.index_panic _ (by omega)]; exact .fail _ _

theorem both_idxStatic (t t' : Target) {a : Mat T r c} {b : Mat U r c} (h : MatGr R γ a b) {i j : Nat} (hi : i < r)
    (hj : j < c) : Both (R (γ i j)) (a.idxStatic t i j) (b.idxStatic t' i j) := by
  rw [Mat.idxStatic_ok t _ hi hj, Mat.idxStatic_ok t' _ hi hj]; exact .ok (h ⟨i, hi⟩ ⟨j, hj⟩)

theorem both_indexSet {a : Mat T r c} {b : Mat U r c} (h : MatGr R γ a b) {i j : Nat} {x : T} {y : U}
    (hx : R (γ' i j) x y) (hγ : ∀ k l, ¬(k = i ∧ l = j) → γ' k l = γ k l) :
    Both (MatGr R γ') (a.indexSet (i, j) x) (b.indexSet (i, j) y) := by
  by_cases hq : i < r ∧ j < c
  · rw [Mat.indexSet_ok _ hq.1 hq.2, Mat.indexSet_ok _ hq.1 hq.2]
    refine .ok fun k l => ?_
    rw [Mat.get_put a hq.1, Mat.get_put _ hq.1]
    split
    · rename_i hkl; rw [hkl.1, hkl.2]; exact hx
    · rename_i hkl
      rw [hγ k l hkl]
      exact h k l
  · rw [Mat.indexSet_panic _ (by omega)]; exact .fail _ _

end

section Hom
variable {T U G : Type} [CommGroup G] {O : Ops T} {O' : Ops U} {R : G → T → U → Prop} (H : Ops.Graded O O' R) {n r c l : Nat}
  (t t' : Target)
include H

/-! ### Vectors -/

omit H [CommGroup G] in
theorem rel_cast {g g' : G} {x : T} {y : U} (h : R g x y) (e : g = g') : R g' x y := e ▸ h

theorem both_mulFold {ι : Type} (is : List ι) {f g : ι → T} {f' g' : ι → U} {γ δ : ι → G} {ε : G}
    (hf : ∀ i, R (γ i) (f i) (f' i)) (hg : ∀ i, R (δ i) (g i) (g' i)) (he : ∀ i, γ i * δ i = ε) :
    Both (R ε) (mulFold O (is.map fun i => (f i, g i))) (mulFold O' (is.map fun i => (f' i, g' i))) := by
  unfold mulFold
  rw [List.foldlM_map, List.foldlM_map]
  refine .foldlM _ (fun i _ s s' hs => (H.mul (hf i) (hg i)).bind fun q q' hq => H.add hs ?_) (H.zero _)
  rwa [he] at hq

theorem both_dot {a b : Vec T n} {a' b' : Vec U n} {γ δ : Nat → G} {ε : G} (ha : VecGr R γ a a') (hb : VecGr R δ b b')
    (he : ∀ i, γ i * δ i = ε) : Both (R ε) (a.dot O b) (a'.dot O' b') := by
  rw [Vec.dot, Vec.dot, Vec.zip_eq, Vec.zip_eq]
  exact both_mulFold H _ ha hb fun i => he i

theorem both_vecSum {v : Vec T n} {v' : Vec U n} {g : G} (hv : VecGr R (fun _ => g) v v') :
    Both (R g) (v.sum O) (v'.sum O') := by
  rw [Vec.sum, Vec.sum, Vec.toList_eq v, Vec.toList_eq v', List.foldlM_map, List.foldlM_map]
  exact .foldlM _ (fun i _ s s' hs => H.add hs (hv i)) (H.zero _)

/-! ### Matrices -/

theorem both_matSum {a : Mat T r c} {a' : Mat U r c} {g : G} (ha : MatGr R (fun _ _ => g) a a') :
    Both (R g) (a.sum O) (a'.sum O') := by
  rw [Mat.sum, Mat.sum, Vec.toList_eq a.rows, Vec.toList_eq a'.rows, List.foldlM_map, List.foldlM_map]
  exact .foldlM _ (fun i _ s s' hs => (both_vecSum H (ha i)).bind fun _ _ h => H.add hs h) (H.zero _)

theorem both_mul (hW : t'.W = t.W) {op op'} (hop : op ∈ mulForms (l := l) (n := n) (c := c) t O)
    (hop' : op' ∈ mulForms (l := l) (n := n) (c := c) t' O') {a : Mat T l n} {b : Mat T n c} {a' : Mat U l n}
    {b' : Mat U n c} {ρ σ τ : Nat → G} (ha : MatGr R (fun i k => ρ i * (τ k)⁻¹) a a')
    (hb : MatGr R (fun k j => τ k * σ j) b b') (hl : l < t.W) (hn : n < t.W) (hc : c < t.W) :
    Both (MatGr R fun i j => ρ i * σ j) (op a b) (op' a' b') := by
  rw [mulForms_eq t O op hop a b hl hn hc, mulForms_eq t' O' op' hop' _ _ (hW ▸ hl) (hW ▸ hn) (hW ▸ hc)]
  exact both_matCollect t t' _ _ fun i j => both_mulFold H _ (fun k => ha i k) (fun k => hb k j) fun k => by
    rw [mul_assoc, inv_mul_cancel_left]

theorem both_mulVec (hW : t'.W = t.W) {a : Mat T r c} {v : Vec T c} {a' : Mat U r c} {v' : Vec U c} {ρ τ : Nat → G}
    (ha : MatGr R (fun i k => ρ i * (τ k)⁻¹) a a') (hv : VecGr R τ v v') (hr : r < t.W) :
    Both (VecGr R ρ) (a.mulVec t O v) (a'.mulVec t' O' v') ∧ Both (VecGr R ρ) (a.mulVecRef t O v) (a'.mulVecRef t' O' v') := by
  rw [Mat.mulVec, Mat.mulVec, drain_rowsRef t a hr, drain_rowsRef t' a' (hW ▸ hr), Mat.mulVecRef, Mat.mulVecRef, rowsOf_eq a, rowsOf_eq a']
  simp only [res_ok_bind, rowsOf, List.map_map]
  have key : Both (VecGr R ρ) (Vec.collect t r ((List.finRange r).map fun i => mulFold O ((List.finRange c).map fun k => (a.get i k, v.get k))))
      (Vec.collect t' r ((List.finRange r).map fun i => mulFold O' ((List.finRange c).map fun k => (a'.get i k, v'.get k)))) :=
    both_collect t t' (fun i => R (ρ i)) _ _ fun i => both_mulFold H _ (fun k => ha i k) hv fun k => by rw [inv_mul_cancel_right]
  constructor
  · simp only [Function.comp_def, Vec.zip_eq, Vec.get_ofFn]; exact key
  · simp only [Function.comp_def, Vec.zip_eq, Vec.get_ofFn]; exact key

theorem both_identity (n : Nat) (ρ : Nat → G) :
    Both (MatGr R fun i j => ρ i * (ρ j)⁻¹) (Mat.identity t O n) (Mat.identity t' O' n) := by
  rw [Mat.identity, Mat.identity, Mat.generate_ok t _ (fun i j => if i = j then O.one else O.zero) (by
    intro i j; simp [Fin.ext_iff]), Mat.generate_ok t' _ (fun i j => if i = j then O'.one else O'.zero) (by
    intro i j; simp [Fin.ext_iff])]
  refine .ok fun i j => ?_
  rw [Mat.get_ofFn, Mat.get_ofFn]
  split
  · rename_i h; subst h; exact rel_cast H.one (mul_inv_cancel _).symm
  · exact H.zero _

omit H in
theorem both_powStrip {A B : Type} {Q : Nat → A → B → Prop} {f : A → A → Res A} {g : B → B → Res B}
    (h : ∀ {m k a b a' b'}, Q m a a' → Q k b b' → Both (Q (m + k)) (f a b) (g a' b')) {m : Nat} {base : A} {base' : B}
    (hb : Q m base base') (exp : Nat) :
    Both (fun x y => (∃ p, Q p x.1 y.1 ∧ p * x.2 = m * exp) ∧ x.2 = y.2 ∧ (0 < exp → x.2 % 2 = 1)) (powStrip f base exp)
      (powStrip g base' exp) := by
  induction exp using Nat.strongRecOn generalizing m base base' with
  | _ exp ih =>
    rw [powStrip, powStrip]
    split
    · rename_i hc
      refine (h hb hb).bind fun b b' hb => (ih _ (by omega) hb).mono fun x y ⟨⟨p, h1, h2⟩, h3, h4⟩ => ⟨⟨p, h1, ?_⟩, h3, fun _ => h4 (by omega)⟩
      have e : exp = 2 * (exp / 2) := by omega
      rw [h2, ← two_mul, mul_comm 2 m, mul_assoc, ← e]
    · exact .ok ⟨⟨m, hb, rfl⟩, rfl, fun _ => by dsimp; omega⟩

omit H in
theorem both_powLoop {A B : Type} {Q : Nat → A → B → Prop} {f : A → A → Res A} {g : B → B → Res B}
    (h : ∀ {m k a b a' b'}, Q m a a' → Q k b b' → Both (Q (m + k)) (f a b) (g a' b')) {p q : Nat} {acc base : A}
    {acc' base' : B} (ha : Q q acc acc') (hb : Q p base base') (exp : Nat) :
    Both (Q (q + p * (exp - exp % 2))) (powLoop f acc base exp) (powLoop g acc' base' exp) := by
  induction exp using Nat.strongRecOn generalizing p q acc base acc' base' with
  | _ exp ih =>
    rw [powLoop, powLoop]
    split
    · refine (h hb hb).bind fun b b' hb => ?_
      have e : exp - exp % 2 = exp / 2 + exp / 2 := by omega
      by_cases ho : exp / 2 % 2 = 1
      · simp only [ho, if_true]
        refine (h ha hb).bind fun _ _ ha => (ih (exp / 2) (by omega) ha hb).mono fun _ _ h => ?_
        convert h using 1
        obtain ⟨m, hm⟩ : ∃ m, exp / 2 = m + 1 := ⟨exp / 2 - 1, by omega⟩
        have e2 : exp / 2 - exp / 2 % 2 = m := by omega
        rw [e, e2, hm]; ring
      · simp only [ho, if_false]
        refine (ih (exp / 2) (by omega) ha hb).mono fun _ _ h => ?_
        convert h using 1
        have e2 : exp / 2 - exp / 2 % 2 = exp / 2 := by omega
        rw [e, e2]; ring
    · have e : exp - exp % 2 = 0 := by omega
      rw [e]; exact .ok ha

omit H in
theorem both_numPow {A B : Type} {Q : Nat → A → B → Prop} {f : A → A → Res A} {g : B → B → Res B} {one : Res A} {one' : Res B}
    (h1 : Both (Q 0) one one')
    (h : ∀ {m k a b a' b'}, Q m a a' → Q k b b' → Both (Q (m + k)) (f a b) (g a' b')) {base : A} {base' : B}
    (hb : Q 1 base base') (exp : Nat) : Both (Q exp) (numPow one f base exp) (numPow one' g base' exp) := by
  unfold numPow
  split
  · rename_i hz; rw [hz]; exact h1
  · rename_i hz
    refine (both_powStrip h hb exp).bind fun x y ⟨⟨p, hb, hp⟩, he, ho⟩ => ?_
    obtain ⟨b, e⟩ := x
    obtain ⟨b', e'⟩ := y
    simp only at hb he hp ho
    subst he
    simp only
    have ho := ho (by omega)
    rw [one_mul] at hp
    split
    · rename_i h1; refine .ok ?_; rw [← hp, h1, mul_one]; exact hb
    · refine (both_powLoop h hb hb _).mono fun _ _ h => ?_
      convert h using 1
      rw [← hp, ho]
      obtain ⟨m, rfl⟩ : ∃ m, e = m + 1 := ⟨e - 1, by omega⟩
      rw [Nat.add_sub_cancel]; ring

theorem both_pow (hW : t'.W = t.W) {a : Mat T n n} {a' : Mat U n n} {g : G} {ρ : Nat → G}
    (ha : MatGr R (fun i j => g * (ρ i * (ρ j)⁻¹)) a a')
    (k : Nat) (hn : n < t.W) : Both (MatGr R fun i j => g ^ k * (ρ i * (ρ j)⁻¹)) (a.pow t O k) (a'.pow t' O' k) := by
  rw [Mat.pow, Mat.pow, Mat.clone_ok, Mat.clone_ok]
  refine both_numPow (Q := fun k => MatGr R fun i j => g ^ k * (ρ i * (ρ j)⁻¹))
    ((both_identity H t t' n ρ).mono fun _ _ h i j => rel_cast (h i j) (by simp))
    (fun {m k a b a' b'} h1 h2 => ?_) (fun i j => rel_cast (ha i j) (by simp)) k
  refine (both_mul H t t' hW (ρ := fun i => g ^ m * ρ i) (τ := ρ) (σ := fun j => g ^ k * (ρ j)⁻¹) (by simp [mulForms]) (by simp [mulForms])
    (fun i j => rel_cast (h1 i j) (mul_assoc _ _ _).symm) (fun i j => rel_cast (h2 i j) (by ac_rfl)) hn hn hn).mono
    fun _ _ h i j => rel_cast (h i j) (by rw [pow_add]; ac_rfl)

/-! ### Determinant, cofactor, inverse -/

variable {ρ σ : Nat → G}

theorem both_det2 {a : Mat T 2 2} {a' : Mat U 2 2} (ha : MatGr R (fun i j => ρ i * σ j) a a') :
    Both (R ((ρ 0 * ρ 1) * (σ 0 * σ 1))) (a.det2 t O) (a'.det2 t' O') := by
  unfold Mat.det2
  exact (both_idxStatic t t' ha (by omega) (by omega)).bind fun _ _ h1 =>
    (both_idxStatic t t' ha (by omega) (by omega)).bind fun _ _ h2 => (H.mul h1 h2).bind fun _ _ hx =>
    (both_idxStatic t t' ha (by omega) (by omega)).bind fun _ _ h1 =>
    (both_idxStatic t t' ha (by omega) (by omega)).bind fun _ _ h2 => (H.mul h1 h2).bind fun _ _ hy =>
    H.sub (rel_cast hx (by ac_rfl)) (rel_cast hy (by ac_rfl))

theorem both_det3Term {a : Mat T 3 3} {a' : Mat U 3 3} (ha : MatGr R (fun i j => ρ i * σ j) a a') {i j k : Nat} (hi : i < 3) (hj : j < 3)
    (hk : k < 3) : Both (R ((ρ 0 * ρ 1 * ρ 2) * (σ i * σ j * σ k))) (a.det3Term t O i j k) (a'.det3Term t' O' i j k) := by
  unfold Mat.det3Term
  exact (both_idxStatic t t' ha (by omega) hi).bind fun _ _ h1 =>
    (both_idxStatic t t' ha (by omega) hj).bind fun _ _ h2 => (H.mul h1 h2).bind fun _ _ h3 =>
    (both_idxStatic t t' ha (by omega) hk).bind fun _ _ h4 => (H.mul h3 h4).mono fun _ _ h => rel_cast h (by ac_rfl)

theorem both_det3 {a : Mat T 3 3} {a' : Mat U 3 3} (ha : MatGr R (fun i j => ρ i * σ j) a a') :
    Both (R ((ρ 0 * ρ 1 * ρ 2) * (σ 0 * σ 1 * σ 2))) (a.det3 t O) (a'.det3 t' O') := by
  have g : ∀ (i j k : Nat) (_ : i < 3) (_ : j < 3) (_ : k < 3) (_ : σ i * σ j * σ k = σ 0 * σ 1 * σ 2),
      Both (R ((ρ 0 * ρ 1 * ρ 2) * (σ 0 * σ 1 * σ 2))) (a.det3Term t O i j k)
        (a'.det3Term t' O' i j k) := fun i j k hi hj hk e => e ▸ both_det3Term H t t' ha hi hj hk
  unfold Mat.det3
  exact (g _ _ _ (by omega) (by omega) (by omega) (by ac_rfl)).bind fun _ _ h1 =>
    (g _ _ _ (by omega) (by omega) (by omega) (by ac_rfl)).bind fun _ _ h2 =>
    (H.add h1 h2).bind fun _ _ h1 => (g _ _ _ (by omega) (by omega) (by omega) (by ac_rfl)).bind fun _ _ h2 =>
    (H.add h1 h2).bind fun _ _ h1 => (g _ _ _ (by omega) (by omega) (by omega) (by ac_rfl)).bind fun _ _ h2 =>
    (H.sub h1 h2).bind fun _ _ h1 => (g _ _ _ (by omega) (by omega) (by omega) (by ac_rfl)).bind fun _ _ h2 =>
    (H.sub h1 h2).bind fun _ _ h1 => (g _ _ _ (by omega) (by omega) (by omega) (by ac_rfl)).bind fun _ _ h2 => H.sub h1 h2

/-- The product of the first `n` factors. -/
def gprod (n : Nat) (ρ : Nat → G) : G := ∏ i ∈ Finset.range n, ρ i

/-- Leave out position `i`. -/
def skipAt (i : Nat) (ρ : Nat → G) (k : Nat) : G := if k < i then ρ k else ρ (k + 1)

omit H in
theorem gprod_skip (n i : Nat) (hi : i < n + 1) (ρ : Nat → G) : ρ i * gprod n (skipAt i ρ) = gprod (n + 1) ρ := by
  unfold gprod
  rw [← Fin.prod_univ_eq_prod_range, ← Fin.prod_univ_eq_prod_range, Fin.prod_univ_succAbove _ ⟨i, hi⟩]
  congr 1
  apply Finset.prod_congr rfl
  intro k _
  rw [skipAt, Fin.succAbove]
  simp only [Fin.lt_def, Fin.val_castSucc]
  split <;> rfl

theorem both_cofSign (i j : Nat) (hW : t'.W = t.W) (hij : i + j < t.W) :
    Both (R 1) (Mat.cofSign t O i j) (Mat.cofSign t' O' i j) := by
  unfold Mat.cofSign
  rw [uadd_ok t hij, uadd_ok t' (hW ▸ hij)]
  simp only [res_ok_bind]
  split
  · exact .ok H.one
  · exact H.neg H.one

omit H in
theorem both_minor (hW : t'.W = t.W) {a : Mat T (n + 1) (n + 1)} {a' : Mat U (n + 1) (n + 1)}
    (ha : MatGr R (fun i j => ρ i * σ j) a a') (i j : Nat) (hi : i < n + 1) (hj : j < n + 1) (hn : n + 1 < t.W) :
    Both (MatGr R fun k l => skipAt i ρ k * skipAt j σ l) (a.minor t i j) (a'.minor t' i j) := by
  rw [minor_eq t a ⟨i, hi⟩ ⟨j, hj⟩ hn, minor_eq t' a' ⟨i, hi⟩ ⟨j, hj⟩ (hW ▸ hn)]
  refine .ok fun k l => ?_
  have e : ∀ (i : Nat) (hi : i < n + 1) (ρ : Nat → G) (k : Fin n), ρ ((⟨i, hi⟩ : Fin (n + 1)).succAbove k) = skipAt i ρ k := by
    intro i hi ρ k
    rw [skipAt, Fin.succAbove]
    simp only [Fin.lt_def, Fin.val_castSucc]
    split <;> rfl
  have h := ha ((⟨i, hi⟩ : Fin (n + 1)).succAbove k) ((⟨j, hj⟩ : Fin (n + 1)).succAbove l)
  simp only [] at h
  rw [e i hi ρ, e j hj σ] at h
  simpa using h

theorem both_cofGen (hW : t'.W = t.W) {det : Mat T n n → Res T} {det' : Mat U n n → Res U}
    (hd : ∀ {ρ σ : Nat → G} {b b'}, MatGr R (fun i j => ρ i * σ j) b b' → Both (R (gprod n ρ * gprod n σ)) (det b) (det' b'))
    {a : Mat T (n + 1) (n + 1)} {a' : Mat U (n + 1) (n + 1)}
    (ha : MatGr R (fun i j => ρ i * σ j) a a') (i j : Nat) (hn : n + 1 < t.W) (hp : i + j < t.W) :
    Both (R (gprod n (skipAt i ρ) * gprod n (skipAt j σ))) (Mat.cofGen t O det a (i, j)) (Mat.cofGen t' O' det' a' (i, j)) := by
  unfold Mat.cofGen
  split
  · rename_i h
    exact (both_minor t t' hW ha _ _ h.1 h.2 hn).bind fun b b' hb => (both_cofSign H t t' _ _ hW hp).bind fun s s' hs =>
      (hd hb).bind fun d d' hd => (H.mul hs hd).mono fun _ _ h => rel_cast h (one_mul _)
  · exact .fail _ _

theorem both_elimRow {m : Mat T n n} {m' : Mat U n n} (hm : MatGr R (fun i j => ρ i * σ j) m m') (i j : Nat) {d : T} {d' : U}
    (hd : R (ρ j / ρ i) d d') :
    Both (MatGr R fun i j => ρ i * σ j) (Mat.elimRow O m i j d) (Mat.elimRow O' m' i j d') := by
  unfold Mat.elimRow
  refine .foldlM _ (fun k _ s s' hs => ?_) hm
  exact (both_index hs _ _).bind fun _ _ h1 => (both_index hs _ _).bind fun _ _ h2 => (H.mul h2 hd).bind fun _ _ h3 =>
    (H.sub h1 (rel_cast h3 (by rw [mul_right_comm, mul_div_cancel]))).bind fun _ _ h4 =>
    both_indexSet hs h4 fun _ _ _ => rfl

theorem both_elimCol (i : Nat) (js : List Nat) {m : Mat T n n} {m' : Mat U n n} (hm : MatGr R (fun i j => ρ i * σ j) m m') :
    Both (OptRel (MatGr R fun i j => ρ i * σ j)) (Mat.elimCol O i js m) (Mat.elimCol O' i js m') := by
  induction js generalizing m m' with
  | nil => exact .ok hm
  | cons j js ih =>
    unfold Mat.elimCol
    by_cases hi : i < n
    · have hq : R (ρ i * σ i) (m.get ⟨i, hi⟩ ⟨i, hi⟩) (m'.get ⟨i, hi⟩ ⟨i, hi⟩) := hm ⟨i, hi⟩ ⟨i, hi⟩
      rw [Mat.index_ok m hi hi, Mat.index_ok m' hi hi]
      simp only [res_ok_bind, H.isZero hq]
      by_cases hz : O.isZero (m.get ⟨i, hi⟩ ⟨i, hi⟩) = true
      · rw [if_pos hz, if_pos hz]; exact .ok trivial
      · rw [if_neg hz, if_neg hz]
        exact (both_index hm j i).bind fun x x' hx =>
          (H.div hx hq (by simpa using hz)).bind fun d d' hd =>
          (both_elimRow H hm i j (rel_cast hd (mul_div_mul_right_eq_div _ _ _))).bind fun _ _ h => ih h
    · rw [Mat.index_panic m (by omega)]; exact .fail _ _

theorem both_elimAll (is : List Nat) {m : Mat T n n} {m' : Mat U n n} (hm : MatGr R (fun i j => ρ i * σ j) m m') :
    Both (OptRel (MatGr R fun i j => ρ i * σ j)) (Mat.elimAll O is m) (Mat.elimAll O' is m') := by
  induction is generalizing m m' with
  | nil => exact .ok hm
  | cons i is ih =>
    unfold Mat.elimAll
    refine (both_elimCol H i _ hm).bind fun o o' h => ?_
    cases o <;> cases o'
    · exact .ok trivial
    · exact h.elim
    · exact h.elim
    · exact ih h

theorem both_detGen {cof : Nat × Nat → Res T} {cof' : Nat × Nat → Res U}
    (hc : ∀ i < n + 1, Both (R (gprod n (skipAt i ρ) * gprod n (skipAt 0 σ))) (cof (i, 0)) (cof' (i, 0)))
    {a : Mat T (n + 1) (n + 1)} {a' : Mat U (n + 1) (n + 1)}
    (ha : MatGr R (fun i j => ρ i * σ j) a a') :
    Both (R (gprod (n + 1) ρ * gprod (n + 1) σ)) (Mat.detGen t O cof a) (Mat.detGen t' O' cof' a') := by
  unfold Mat.detGen
  rw [Mat.clone_ok, Mat.clone_ok]
  refine (both_elimAll H (List.range (n + 1)) ha).bind fun o o' h => ?_
  cases o <;> cases o'
  · refine .foldlM _ (fun i hi s s' hs => ?_) (H.zero _)
    have hi' := List.mem_range.1 hi
    refine (both_index ha i 0).bind fun x x' hx => (hc i hi').bind
      fun y y' hy => (H.mul hx hy).bind fun _ _ h => H.add hs (rel_cast h ?_)
    rw [← gprod_skip n i hi' ρ, ← gprod_skip n 0 (by omega) σ]; ac_rfl
  · exact h.elim
  · exact h.elim
  · have h : MatGr R (fun i j => ρ i * σ j) _ _ := h
    refine (Both.foldRange (fun k => R (gprod k ρ * gprod k σ)) (n + 1) (fun i hi s s' hs => ?_) (rel_cast H.one ?_))
    · refine (both_index h i i).bind fun x x' hx => (H.mul hs hx).mono fun _ _ h => rel_cast h ?_
      unfold gprod
      rw [Finset.prod_range_succ, Finset.prod_range_succ]; ac_rfl
    · simp [gprod]

theorem both_det' (hW : t'.W = t.W) (k : Nat) (hk : k + 1 < t.W) : ∀ (ρ σ : Nat → G) (a : Mat T (k + 1) (k + 1))
    (a' : Mat U (k + 1) (k + 1)), MatGr R (fun i j => ρ i * σ j) a a' →
    Both (R (gprod (k + 1) ρ * gprod (k + 1) σ)) (a.determinant t O k) (a'.determinant t' O' k) := by
  induction k with
  | zero =>
    intro ρ σ a a' ha
    have h := both_idxStatic t t' ha (i := 0) (j := 0) (by omega) (by omega)
    change Both _ (a.idxStatic t 0 0) (a'.idxStatic t' 0 0)
    simpa [gprod] using h
  | succ k ih =>
    match k, ih with
    | 0, _ =>
      intro ρ σ a a' ha
      refine (both_det2 H t t' ha).mono fun _ _ h => rel_cast h ?_
      simp [gprod, Finset.prod_range_succ]
    | 1, _ =>
      intro ρ σ a a' ha
      refine (both_det3 H t t' ha).mono fun _ _ h => rel_cast h ?_
      simp [gprod, Finset.prod_range_succ]
    | k + 2, ih =>
      intro ρ σ a a' ha
      exact both_detGen H t t' (fun i hi => both_cofGen H t t' hW (fun hb => ih (by omega) _ _ _ _ hb) ha i 0 hk (by omega)) ha

theorem both_det (hW : t'.W = t.W) (k : Nat) {a : Mat T (k + 1) (k + 1)} {a' : Mat U (k + 1) (k + 1)}
    (ha : MatGr R (fun i j => ρ i * σ j) a a') (hk : k + 1 < t.W) :
    Both (R (gprod (k + 1) ρ * gprod (k + 1) σ)) (a.determinant t O k) (a'.determinant t' O' k) :=
  both_det' H t t' hW k hk ρ σ a a' ha

theorem both_cof (hW : t'.W = t.W) (k : Nat) {a : Mat T (k + 2) (k + 2)} {a' : Mat U (k + 2) (k + 2)}
    (ha : MatGr R (fun i j => ρ i * σ j) a a')
    (i j : Nat) (hk : k + 2 < t.W) (hi : i < k + 2) (hj : j < k + 2) (hp' : i + j < t.W) :
    Both (R (gprod (k + 1) (skipAt i ρ) * gprod (k + 1) (skipAt j σ))) (a.cofactor t O k (i, j)) (a'.cofactor t' O' k (i, j)) := by
  match k with
  | 0 =>
    change Both _ (a.cof2 t O (i, j)) (a'.cof2 t' O' (i, j))
    unfold Mat.cof2
    rw [usub_ok t (by omega), usub_ok t (by omega), usub_ok t' (by omega), usub_ok t' (by omega)]
    refine (both_cofSign H t t' _ _ hW hp').bind fun s s' hs => (both_index ha (1 - i) (1 - j)).bind fun x x' hx =>
      (H.mul hs hx).mono fun _ _ h => rel_cast h ?_
    have e : ∀ i < 2, ∀ ρ : Nat → G, ρ (1 - i) = gprod (0 + 1) (skipAt i ρ) := by
      intro i hi ρ
      have : i = 0 ∨ i = 1 := by omega
      rcases this with rfl | rfl <;> simp [gprod, skipAt]
    rw [one_mul, e i hi ρ, e j hj σ]
  | 1 =>
    change Both _ (a.cof3 t O (i, j)) (a'.cof3 t' O' (i, j))
    unfold Mat.cof3
    rw [if_pos (by dsimp; omega), if_pos (by dsimp; omega)]
    refine (both_cofSign H t t' _ _ hW hp').bind fun s s' hs => (both_minor t t' hW ha _ _ hi hj hk).bind fun b b' hb =>
      (both_det2 H t t' hb).bind fun d d' hd => (H.mul hs hd).mono fun _ _ h => rel_cast h ?_
    simp [gprod, Finset.prod_range_succ]
  | k + 2 => exact both_cofGen H t t' hW (fun hb => both_det H t t' hW _ hb (by omega)) ha i j hk hp'

/-! ### Inverse -/

omit H [CommGroup G] in
theorem both_new (t t' : Target) (m : Nat) {γ : Nat → Nat → G} {rows : Vec (Vec T m) n} {rows' : Vec (Vec U m) n}
    (h : ∀ (i : Fin n) (j : Fin m), R (γ i j) ((rows.get i).get j) ((rows'.get i).get j)) :
    Both (MatGr R γ) (Mat.new t rows) (Mat.new t' rows') := by
  unfold Mat.new
  rw [Vec.collect_pure t n _ rows.length_eq, Vec.collect_pure t' n _ rows'.length_eq]
  exact .ok fun i j => h i j

theorem both_divScalar {γ : Nat → Nat → G} {g : G} {d : T} {d' : U} (hd : R g d d') (hz : O.isZero d = false)
    {a : Mat T r c} {a' : Mat U r c} (ha : MatGr R γ a a') :
    Both (MatGr R fun i j => γ i j / g) (a.divScalar t O.div d) (a'.divScalar t' O'.div d') := by
  rw [Mat.divScalar, Mat.divScalar]; simp only [Vec.divScalar]; rw [matScalar_eq, matScalar_eq]
  exact both_matCollect t t' _ _ fun i j => H.div (ha i j) hd hz

theorem both_ms {a : Mat T 3 3} {a' : Mat U 3 3} (ha : MatGr R (fun i j => ρ i * σ j) a a') (p1 q u v : Nat × Nat) {g : G}
    (h : p1.1 < 3 ∧ p1.2 < 3 ∧ q.1 < 3 ∧ q.2 < 3 ∧ u.1 < 3 ∧ u.2 < 3 ∧ v.1 < 3 ∧ v.2 < 3)
    (h1 : (ρ p1.1 * σ p1.2) * (ρ q.1 * σ q.2) = g) (h2 : (ρ u.1 * σ u.2) * (ρ v.1 * σ v.2) = g) :
    Both (R g) (a.ms t O p1 q u v) (a'.ms t' O' p1 q u v) := by
  unfold Mat.ms
  exact (both_idxStatic t t' ha h.1 h.2.1).bind fun _ _ x1 => (both_idxStatic t t' ha h.2.2.1 h.2.2.2.1).bind fun _ _ x2 =>
    (H.mul x1 x2).bind fun _ _ hx => (both_idxStatic t t' ha h.2.2.2.2.1 h.2.2.2.2.2.1).bind fun _ _ x3 =>
    (both_idxStatic t t' ha h.2.2.2.2.2.2.1 h.2.2.2.2.2.2.2).bind fun _ _ x4 => (H.mul x3 x4).bind fun _ _ hy =>
    H.sub (rel_cast hx h1) (rel_cast hy h2)

/-- The factors of both matrices in the Gauss-Jordan loop: the rows before `i` are done. -/
def gjGrade (ρ σ : Nat → G) (i : Nat) (k : Nat) : G := if k < i then (σ k)⁻¹ else ρ k

/-- Both matrices have the factors of step `i`. -/
def GjRel (R : G → T → U → Prop) (ρ' ρ σ : Nat → G) (s : Mat T n n × Mat T n n) (s' : Mat U n n × Mat U n n) : Prop :=
  MatGr R (fun k l => ρ' k * σ l) s.1 s'.1 ∧ MatGr R (fun k l => ρ' k * (ρ l)⁻¹) s.2 s'.2

omit H in
theorem scale_id (p q x : G) : p * x * (p * q)⁻¹ = q⁻¹ * x := by
  rw [mul_inv_eq_iff_eq_mul]
  calc p * x = (q * q⁻¹) * (p * x) := by simp
    _ = _ := by ac_rfl

omit H in
theorem clear_id (p q x : G) : q⁻¹ * x * (p * q) = p * x := by
  calc q⁻¹ * x * (p * q) = (q * q⁻¹) * (p * x) := by ac_rfl
    _ = _ := by simp

omit H in
theorem inv2_id (p p' q q' : G) : p' * q' = q⁻¹ * p⁻¹ * ((p * p') * (q * q')) := by
  calc p' * q' = (q * q⁻¹) * (p * p⁻¹) * (p' * q') := by simp
    _ = _ := by ac_rfl

omit H in
theorem inv3_id (p p' p'' q q' q'' : G) : (p * q) * (p' * q') = q''⁻¹ * p''⁻¹ * ((p * p' * p'') * (q * q' * q'')) := by
  calc (p * q) * (p' * q') = (q'' * q''⁻¹) * (p'' * p''⁻¹) * ((p * q) * (p' * q')) := by simp
    _ = _ := by ac_rfl

theorem both_gjScale (i : Nat) {x : T} {x' : U} (hx : R (ρ i * σ i)⁻¹ x x') {s : Mat T n n × Mat T n n} {s' : Mat U n n × Mat U n n}
    (hs : GjRel R (gjGrade ρ σ i) ρ σ s s') :
    Both (GjRel R (gjGrade ρ σ (i + 1)) ρ σ) (Mat.gjScale O i x s) (Mat.gjScale O' i x' s') := by
  let γ : Nat → Nat → Nat → G := fun j k l => if k = i ∧ l < j then (σ i)⁻¹ else gjGrade ρ σ i k
  have h0 : ∀ j k l, ¬(k = i ∧ l = j) → γ (j + 1) k l = γ j k l := by
    intro j k l h
    simp only [γ]
    by_cases hk : k = i
    · have : (l < j + 1) ↔ l < j := by omega
      simp [hk, this]
    · simp [hk]
  have h1 : ∀ j, γ j i j = ρ i := by intro j; simp [γ, gjGrade]
  have h2 : ∀ j, γ (j + 1) i j = (σ i)⁻¹ := by intro j; simp [γ]
  suffices h : Both (fun (s : Mat T n n × Mat T n n) (s' : Mat U n n × Mat U n n) =>
      MatGr R (fun k l => γ n k l * σ l) s.1 s'.1 ∧ MatGr R (fun k l => γ n k l * (ρ l)⁻¹) s.2 s'.2)
      (Mat.gjScale O i x s) (Mat.gjScale O' i x' s') by
    refine h.mono fun a b hab => ?_
    have e : ∀ (k l : Nat), l < n → γ n k l = gjGrade ρ σ (i + 1) k := by
      intro k l hl
      simp only [γ, gjGrade]
      by_cases hk : k = i
      · simp [hk, hl]
      · have : k < i + 1 ↔ k < i := by omega
        simp [hk, this]
    exact ⟨fun k l => rel_cast (hab.1 k l) (by dsimp only; rw [e _ _ l.isLt]), fun k l => rel_cast (hab.2 k l) (by dsimp only; rw [e _ _ l.isLt])⟩
  unfold Mat.gjScale
  refine Both.foldRange (fun j (s : Mat T n n × Mat T n n) (s' : Mat U n n × Mat U n n) =>
      MatGr R (fun k l => γ j k l * σ l) s.1 s'.1 ∧ MatGr R (fun k l => γ j k l * (ρ l)⁻¹) s.2 s'.2) n
    (fun j hj s s' hs => ?_) ⟨fun k l => rel_cast (hs.1 k l) (by simp [γ]), fun k l => rel_cast (hs.2 k l) (by simp [γ])⟩
  refine (both_index hs.1 i j).bind fun _ _ y1 => (H.mul y1 hx).bind fun _ _ y2 =>
    (both_indexSet (γ' := fun k l => γ (j + 1) k l * σ l) hs.1 (rel_cast y2 ?_) fun k l h => by rw [h0 j k l h]).bind fun _ _ y3 =>
    (both_index hs.2 i j).bind fun _ _ y4 => (H.mul y4 hx).bind fun _ _ y5 =>
    (both_indexSet (γ' := fun k l => γ (j + 1) k l * (ρ l)⁻¹) hs.2 (rel_cast y5 ?_) fun k l h => by rw [h0 j k l h]).bind fun _ _ y6 =>
    .ok ⟨y3, y6⟩
  · rw [h1, h2]; exact scale_id _ _ _
  · rw [h1, h2]; exact scale_id _ _ _

theorem both_gjRow (i j : Nat) {x : T} {x' : U} {ρ' : Nat → G} (hi : ρ' i = (σ i)⁻¹) (hx : R (ρ' j * σ i) x x')
    {s : Mat T n n × Mat T n n} {s' : Mat U n n × Mat U n n} (hs : GjRel R ρ' ρ σ s s') :
    Both (GjRel R ρ' ρ σ) (Mat.gjRow O i j x s) (Mat.gjRow O' i j x' s') := by
  unfold Mat.gjRow
  refine .foldlM (R := GjRel R ρ' ρ σ) _ (fun k _ s s' hs => ?_) hs
  exact (both_index hs.1 _ _).bind fun _ _ h1 => (both_index hs.1 _ _).bind fun _ _ h2 => (H.mul h2 hx).bind fun _ _ h3 =>
    (H.sub h1 (rel_cast h3 (by rw [hi]; exact clear_id _ _ _))).bind fun _ _ h4 =>
    (both_indexSet hs.1 h4 fun _ _ _ => rfl).bind fun _ _ h5 =>
    (both_index hs.2 _ _).bind fun _ _ h1 => (both_index hs.2 _ _).bind fun _ _ h2 => (H.mul h2 hx).bind fun _ _ h3 =>
    (H.sub h1 (rel_cast h3 (by rw [hi]; exact clear_id _ _ _))).bind fun _ _ h4 =>
    (both_indexSet hs.2 h4 fun _ _ _ => rfl).bind fun _ _ h6 => .ok ⟨h5, h6⟩

theorem both_gjClear (i : Nat) {ρ' : Nat → G} (hi : ρ' i = (σ i)⁻¹) {s : Mat T n n × Mat T n n} {s' : Mat U n n × Mat U n n}
    (hs : GjRel R ρ' ρ σ s s') : Both (GjRel R ρ' ρ σ) (Mat.gjClear O i s) (Mat.gjClear O' i s') := by
  unfold Mat.gjClear
  refine .foldlM (R := GjRel R ρ' ρ σ) _ (fun j _ s s' hs => ?_) hs
  split
  · exact .ok hs
  · exact (both_index hs.1 _ _).bind fun _ _ hx => both_gjRow H i j hi hx hs

theorem both_gjLoop (m i : Nat) (him : i + m = n) {s : Mat T n n × Mat T n n} {s' : Mat U n n × Mat U n n}
    (hs : GjRel R (gjGrade ρ σ i) ρ σ s s') :
    Both (OptRel (GjRel R (gjGrade ρ σ n) ρ σ)) (Mat.gjLoop O (List.range' i m) s) (Mat.gjLoop O' (List.range' i m) s') := by
  induction m generalizing i s s' with
  | zero =>
    have : i = n := by omega
    subst this
    exact .ok hs
  | succ m ih =>
    rw [List.range'_succ]
    unfold Mat.gjLoop
    refine (both_index hs.1 i i).bind fun d d' hd => ?_
    have hd : R (ρ i * σ i) d d' := rel_cast hd (by simp [gjGrade])
    rw [H.isZero hd]
    by_cases hz : O.isZero d = true
    · rw [if_pos hz, if_pos hz]; exact .ok trivial
    · rw [if_neg hz, if_neg hz]
      exact (H.div H.one hd (by simpa using hz)).bind fun _ _ h =>
        (both_gjScale H i (rel_cast h (one_div _)) hs).bind fun _ _ hs =>
        (both_gjClear H i (by simp [gjGrade]) hs).bind fun _ _ hs => ih (i + 1) (by omega) hs

theorem both_invGen {a : Mat T n n} {a' : Mat U n n} (ha : MatGr R (fun i j => ρ i * σ j) a a') :
    Both (OptRel (MatGr R fun i j => (σ i)⁻¹ * (ρ j)⁻¹)) (Mat.invGen t O a) (Mat.invGen t' O' a') := by
  unfold Mat.invGen
  rw [Mat.clone_ok, Mat.clone_ok, List.range_eq_range']
  refine (both_identity H t t' n ρ).bind fun e e' he => (both_gjLoop H (ρ := ρ) (σ := σ) n 0 (by omega) (s := (a, e)) (s' := (a', e'))
    ⟨fun i j => rel_cast (ha i j) (by simp [gjGrade]), fun i j => rel_cast (he i j) (by simp [gjGrade])⟩).bind
    fun o o' h => ?_
  cases o <;> cases o'
  · exact .ok trivial
  · exact h.elim
  · exact h.elim
  · exact .ok fun i j => rel_cast (h.2 i j) (by simp [gjGrade])

theorem both_inverse (k : Nat) {a : Mat T (k + 1) (k + 1)} {a' : Mat U (k + 1) (k + 1)}
    (ha : MatGr R (fun i j => ρ i * σ j) a a') :
    Both (OptRel (MatGr R fun i j => (σ i)⁻¹ * (ρ j)⁻¹)) (a.inverse t O k) (a'.inverse t' O' k) := by
  match k with
  | 0 =>
    change Both _ (Mat.inv1 t O a) (Mat.inv1 t' O' a')
    unfold Mat.inv1
    refine (both_idxStatic t t' ha (i := 0) (j := 0) (by omega) (by omega)).bind fun d d' hd => ?_
    rw [H.isZero hd]
    by_cases hz : O.isZero d = true
    · rw [if_pos hz, if_pos hz]; exact .ok trivial
    · rw [if_neg hz, if_neg hz]
      refine (H.div H.one hd (by simpa using hz)).bind fun x x' hx => ?_
      refine (both_new t t' 1 (R := R) (γ := fun i j => (σ i)⁻¹ * (ρ j)⁻¹) fun i j => ?_).bind fun b b' hb => .ok hb
      fin_cases i; fin_cases j; exact rel_cast hx (by simp [mul_comm])
  | 1 =>
    change Both _ (Mat.inv2 t O a) (Mat.inv2 t' O' a')
    unfold Mat.inv2
    refine (both_det2 H t t' ha).bind fun d d' hd => ?_
    rw [H.isZero hd]
    by_cases hz : O.isZero d = true
    · rw [if_pos hz, if_pos hz]; exact .ok trivial
    · rw [if_neg hz, if_neg hz]
      refine (both_idxStatic t t' ha (by omega) (by omega)).bind fun _ _ h00 =>
        (both_idxStatic t t' ha (by omega) (by omega)).bind fun _ _ h =>
        (H.neg h).bind fun _ _ h01 => (both_idxStatic t t' ha (by omega) (by omega)).bind fun _ _ h => (H.neg h).bind fun _ _ h10 =>
        (both_idxStatic t t' ha (by omega) (by omega)).bind fun _ _ h11 =>
        (both_new t t' 2 (R := R) (γ := fun i j => (σ i)⁻¹ * (ρ j)⁻¹ * ((ρ 0 * ρ 1) * (σ 0 * σ 1))) fun i j => ?_).bind fun b b' hb =>
        (both_divScalar H t t' hd (by simpa using hz) hb).bind fun _ _ h => .ok fun i j => rel_cast (h i j) (by simp)
      fin_cases i <;> fin_cases j
      · exact rel_cast h00 (inv2_id _ _ _ _)
      · exact rel_cast h01 ((inv2_id (ρ 1) (ρ 0) (σ 0) (σ 1)).trans (by dsimp; ac_rfl))
      · exact rel_cast h10 ((inv2_id (ρ 0) (ρ 1) (σ 1) (σ 0)).trans (by dsimp; ac_rfl))
      · exact rel_cast h11 ((inv2_id (ρ 1) (ρ 0) (σ 1) (σ 0)).trans (by dsimp; ac_rfl))
  | 2 =>
    change Both _ (Mat.inv3 t O a) (Mat.inv3 t' O' a')
    unfold Mat.inv3
    refine (both_det3 H t t' ha).bind fun d d' hd => ?_
    rw [H.isZero hd]
    by_cases hz : O.isZero d = true
    · rw [if_pos hz, if_pos hz]; exact .ok trivial
    · rw [if_neg hz, if_neg hz]
      have m : ∀ (i j : Nat) p1 q u v, (p1.1 < 3 ∧ p1.2 < 3 ∧ q.1 < 3 ∧ q.2 < 3 ∧ u.1 < 3 ∧ u.2 < 3 ∧ v.1 < 3 ∧ v.2 < 3) →
          ρ p1.1 * ρ q.1 * ρ j = ρ 0 * ρ 1 * ρ 2 → σ p1.2 * σ q.2 * σ i = σ 0 * σ 1 * σ 2 →
          ρ u.1 * ρ v.1 * ρ j = ρ 0 * ρ 1 * ρ 2 → σ u.2 * σ v.2 * σ i = σ 0 * σ 1 * σ 2 →
          Both (R ((σ i)⁻¹ * (ρ j)⁻¹ * ((ρ 0 * ρ 1 * ρ 2) * (σ 0 * σ 1 * σ 2)))) (a.ms t O p1 q u v) (a'.ms t' O' p1 q u v) :=
        fun i j p1 q u v h e1 e2 e3 e4 => both_ms H t t' ha p1 q u v h (by rw [← e1, ← e2]; exact inv3_id _ _ _ _ _ _)
          (by rw [← e3, ← e4]; exact inv3_id _ _ _ _ _ _)
      refine (m 0 0 _ _ _ _ (by simp) (by dsimp <;> ac_rfl) (by dsimp <;> ac_rfl) (by dsimp <;> ac_rfl) (by dsimp <;> ac_rfl)).bind fun _ _ h00 =>
        (m 0 1 _ _ _ _ (by simp) (by dsimp <;> ac_rfl) (by dsimp <;> ac_rfl) (by dsimp <;> ac_rfl) (by dsimp <;> ac_rfl)).bind fun _ _ h01 =>
        (m 0 2 _ _ _ _ (by simp) (by dsimp <;> ac_rfl) (by dsimp <;> ac_rfl) (by dsimp <;> ac_rfl) (by dsimp <;> ac_rfl)).bind fun _ _ h02 =>
        (m 1 0 _ _ _ _ (by simp) (by dsimp <;> ac_rfl) (by dsimp <;> ac_rfl) (by dsimp <;> ac_rfl) (by dsimp <;> ac_rfl)).bind fun _ _ h10 =>
        (m 1 1 _ _ _ _ (by simp) (by dsimp <;> ac_rfl) (by dsimp <;> ac_rfl) (by dsimp <;> ac_rfl) (by dsimp <;> ac_rfl)).bind fun _ _ h11 =>
        (m 1 2 _ _ _ _ (by simp) (by dsimp <;> ac_rfl) (by dsimp <;> ac_rfl) (by dsimp <;> ac_rfl) (by dsimp <;> ac_rfl)).bind fun _ _ h12 =>
        (m 2 0 _ _ _ _ (by simp) (by dsimp <;> ac_rfl) (by dsimp <;> ac_rfl) (by dsimp <;> ac_rfl) (by dsimp <;> ac_rfl)).bind fun _ _ h20 =>
        (m 2 1 _ _ _ _ (by simp) (by dsimp <;> ac_rfl) (by dsimp <;> ac_rfl) (by dsimp <;> ac_rfl) (by dsimp <;> ac_rfl)).bind fun _ _ h21 =>
        (m 2 2 _ _ _ _ (by simp) (by dsimp <;> ac_rfl) (by dsimp <;> ac_rfl) (by dsimp <;> ac_rfl) (by dsimp <;> ac_rfl)).bind fun _ _ h22 =>
        (both_new t t' 3 (R := R) (γ := fun i j => (σ i)⁻¹ * (ρ j)⁻¹ * ((ρ 0 * ρ 1 * ρ 2) * (σ 0 * σ 1 * σ 2))) fun i j => ?_).bind
        fun b b' hb =>
        (both_divScalar H t t' hd (by simpa using hz) hb).bind fun _ _ h => .ok fun i j => rel_cast (h i j) (by simp)
      fin_cases i <;> fin_cases j
      exacts [h00, h01, h02, h10, h11, h12, h20, h21, h22]
  | k + 3 => exact both_invGen H t t' ha

end Hom
end Rowcol

/-! ### Factors given for the rows and columns there are -/

namespace Rowcol
section Fin
variable {T U G : Type} [CommGroup G] {O : Ops T} {O' : Ops U} {R : G → T → U → Prop} (H : Ops.Graded O O' R) {n r c l : Nat}
  (t t' : Target)

/-- Extended by 1. -/
def extOne (ρ : Fin n → G) (i : Nat) : G := if h : i < n then ρ ⟨i, h⟩ else 1

theorem extOne_fin (ρ : Fin n → G) (i : Fin n) : extOne ρ i = ρ i := by simp [extOne]

theorem gprod_extOne (ρ : Fin n → G) : gprod n (extOne ρ) = ∏ i, ρ i := by
  rw [gprod, Finset.prod_range]; exact Finset.prod_congr rfl fun i _ => extOne_fin ρ i

theorem gprod_skip_extOne (ρ : Fin (n + 1) → G) (i : Fin (n + 1)) : gprod n (skipAt i (extOne ρ)) = ∏ k, ρ (i.succAbove k) := by
  rw [gprod, Finset.prod_range]
  refine Finset.prod_congr rfl fun k _ => ?_
  rw [skipAt, Fin.succAbove]
  by_cases h : k.val < i.val
  · rw [if_pos h, if_pos (Fin.lt_def.2 h), ← extOne_fin ρ]; rfl
  · rw [if_neg h, if_neg (fun h' => h (Fin.lt_def.1 h')), ← extOne_fin ρ]; rfl

include H

theorem fin_dot {a b : Vec T n} {a' b' : Vec U n} {γ : Fin n → G} {ε : G} (ha : ∀ i, R (γ i) (a.get i) (a'.get i))
    (hb : ∀ i, R ((γ i)⁻¹ * ε) (b.get i) (b'.get i)) : Both (R ε) (a.dot O b) (a'.dot O' b') :=
  both_dot H (γ := extOne γ) (δ := fun i => (extOne γ i)⁻¹ * ε) (fun i => by rw [extOne_fin]; exact ha i)
    (fun i => by dsimp only; rw [extOne_fin]; exact hb i) fun i => by rw [mul_inv_cancel_left]

theorem fin_mul (hW : t'.W = t.W) {op op'} (hop : op ∈ mulForms (l := l) (n := n) (c := c) t O)
    (hop' : op' ∈ mulForms (l := l) (n := n) (c := c) t' O') {a : Mat T l n} {b : Mat T n c} {a' : Mat U l n}
    {b' : Mat U n c} {ρ : Fin l → G} {σ : Fin c → G} {τ : Fin n → G}
    (ha : ∀ i k, R (ρ i * (τ k)⁻¹) (a.get i k) (a'.get i k)) (hb : ∀ k j, R (τ k * σ j) (b.get k j) (b'.get k j))
    (hl : l < t.W) (hn : n < t.W) (hc : c < t.W) :
    Both (fun w w' => ∀ i j, R (ρ i * σ j) (w.get i j) (w'.get i j)) (op a b) (op' a' b') :=
  (both_mul H t t' hW hop hop' (ρ := extOne ρ) (σ := extOne σ) (τ := extOne τ)
    (fun i k => by dsimp only; rw [extOne_fin, extOne_fin]; exact ha i k) (fun k j => by dsimp only; rw [extOne_fin, extOne_fin]; exact hb k j) hl hn hc).mono
    fun _ _ h i j => by have := h i j; dsimp only at this; rwa [extOne_fin, extOne_fin] at this

theorem fin_mulVec (hW : t'.W = t.W) {a : Mat T r c} {v : Vec T c} {a' : Mat U r c} {v' : Vec U c} {ρ : Fin r → G} {τ : Fin c → G}
    (ha : ∀ i k, R (ρ i * (τ k)⁻¹) (a.get i k) (a'.get i k)) (hv : ∀ k, R (τ k) (v.get k) (v'.get k)) (hr : r < t.W) :
    Both (fun w w' => ∀ i, R (ρ i) (w.get i) (w'.get i)) (a.mulVec t O v) (a'.mulVec t' O' v') ∧
    Both (fun w w' => ∀ i, R (ρ i) (w.get i) (w'.get i)) (a.mulVecRef t O v) (a'.mulVecRef t' O' v') := by
  obtain ⟨h1, h2⟩ := both_mulVec H t t' hW (ρ := extOne ρ) (τ := extOne τ)
    (fun i k => by dsimp only; rw [extOne_fin, extOne_fin]; exact ha i k) (fun k => by rw [extOne_fin]; exact hv k) hr
  exact ⟨h1.mono fun _ _ h i => by have := h i; rwa [extOne_fin] at this, h2.mono fun _ _ h i => by have := h i; rwa [extOne_fin] at this⟩

theorem fin_pow (hW : t'.W = t.W) {a : Mat T n n} {a' : Mat U n n} {g : G} {ρ : Fin n → G}
    (ha : ∀ i j, R (g * (ρ i * (ρ j)⁻¹)) (a.get i j) (a'.get i j)) (k : Nat) (hn : n < t.W) :
    Both (fun w w' => ∀ i j, R (g ^ k * (ρ i * (ρ j)⁻¹)) (w.get i j) (w'.get i j)) (a.pow t O k) (a'.pow t' O' k) :=
  (both_pow H t t' hW (g := g) (ρ := extOne ρ) (fun i j => by dsimp only; rw [extOne_fin, extOne_fin]; exact ha i j) k hn).mono
    fun _ _ h i j => by have := h i j; dsimp only at this; rwa [extOne_fin, extOne_fin] at this

theorem fin_det (hW : t'.W = t.W) (k : Nat) {a : Mat T (k + 1) (k + 1)} {a' : Mat U (k + 1) (k + 1)} {ρ σ : Fin (k + 1) → G}
    (ha : ∀ i j, R (ρ i * σ j) (a.get i j) (a'.get i j)) (hk : k + 1 < t.W) :
    Both (R ((∏ i, ρ i) * ∏ j, σ j)) (a.determinant t O k) (a'.determinant t' O' k) :=
  (both_det H t t' hW (ρ := extOne ρ) (σ := extOne σ) k (fun i j => by dsimp only; rw [extOne_fin, extOne_fin]; exact ha i j) hk).mono
    fun _ _ h => by rwa [gprod_extOne, gprod_extOne] at h

theorem fin_cof (hW : t'.W = t.W) (k : Nat) {a : Mat T (k + 2) (k + 2)} {a' : Mat U (k + 2) (k + 2)} {ρ σ : Fin (k + 2) → G}
    (ha : ∀ i j, R (ρ i * σ j) (a.get i j) (a'.get i j)) (i j : Fin (k + 2)) (hk : k + 2 < t.W) (hp : i.val + j.val < t.W) :
    Both (R ((∏ m, ρ (i.succAbove m)) * ∏ m, σ (j.succAbove m))) (a.cofactor t O k (i, j)) (a'.cofactor t' O' k (i, j)) :=
  (both_cof H t t' hW (ρ := extOne ρ) (σ := extOne σ) k (fun i j => by dsimp only; rw [extOne_fin, extOne_fin]; exact ha i j) i j hk i.isLt
    j.isLt hp).mono fun _ _ h => by rwa [gprod_skip_extOne, gprod_skip_extOne] at h

theorem fin_inverse (k : Nat) {a : Mat T (k + 1) (k + 1)} {a' : Mat U (k + 1) (k + 1)} {ρ σ : Fin (k + 1) → G}
    (ha : ∀ i j, R (ρ i * σ j) (a.get i j) (a'.get i j)) :
    Both (OptRel fun w w' => ∀ i j, R ((σ i)⁻¹ * (ρ j)⁻¹) (w.get i j) (w'.get i j)) (a.inverse t O k) (a'.inverse t' O' k) :=
  (both_inverse H t t' (ρ := extOne ρ) (σ := extOne σ) k (fun i j => by dsimp only; rw [extOne_fin, extOne_fin]; exact ha i j)).mono
    fun o o' h => by
      cases o <;> cases o' <;> simp only [OptRel] at h ⊢
      exact fun i j => by have := h i j; dsimp only at this; rwa [extOne_fin, extOne_fin] at this

theorem fin_cross {a b : Vec T 3} {a' b' : Vec U 3} {α β : G} {κ : Fin 3 → G} (ha : ∀ i, R (α * κ i) (a.get i) (a'.get i))
    (hb : ∀ i, R (β * κ i) (b.get i) (b'.get i)) :
    Both (fun w w' => ∀ i, R (α * β * (κ (i + 1) * κ (i + 2))) (w.get i) (w'.get i)) (a.cross t O b) (a'.cross t' O' b') := by
  have g : ∀ {V : Type} (t : Target) (v : Vec V 3) (i : Fin 3), v.getUnchecked t i.val = .ok (v.get i) := fun t v i => Vec.getUnchecked_ok t v i.isLt
  have m : ∀ i j k : Fin 3, k + 1 = i ∧ k + 2 = j ∨ k + 1 = j ∧ k + 2 = i →
      Both (R (α * β * (κ (k + 1) * κ (k + 2)))) (O.mul (a.get i) (b.get j)) (O'.mul (a'.get i) (b'.get j)) := fun i j k h =>
    (H.mul (ha i) (hb j)).mono fun _ _ h' => rel_cast h' (by rcases h with ⟨rfl, rfl⟩ | ⟨rfl, rfl⟩ <;> ac_rfl)
  have e0 := fun V t v => g (V := V) t v 0
  have e1 := fun V t v => g (V := V) t v 1
  have e2 := fun V t v => g (V := V) t v 2
  simp only [Fin.val_zero, Fin.val_one, Fin.val_two] at e0 e1 e2
  simp only [Vec.cross, e0, e1, e2, res_ok_bind]
  refine (m 1 2 0 (by decide)).bind fun _ _ h1 => (m 2 1 0 (by decide)).bind fun _ _ h2 => (H.sub h1 h2).bind fun _ _ hx =>
    (m 2 0 1 (by decide)).bind fun _ _ h1 => (m 0 2 1 (by decide)).bind fun _ _ h2 => (H.sub h1 h2).bind fun _ _ hy =>
    (m 0 1 2 (by decide)).bind fun _ _ h1 => (m 1 0 2 (by decide)).bind fun _ _ h2 => (H.sub h1 h2).bind fun _ _ hz => .ok fun i => ?_
  fin_cases i
  · exact hx
  · exact hy
  · exact hz

end Fin

theorem numPow_total {A : Type} {one : Res A} {f : A → A → Res A} (h1 : ∃ x, one = .ok x) (hf : ∀ a b, ∃ c, f a b = .ok c)
    (base : A) (exp : Nat) : ∃ z, numPow one f base exp = .ok z := by
  have strip : ∀ (exp : Nat) (base : A), ∃ z, powStrip f base exp = .ok z := by
    intro exp
    induction exp using Nat.strongRecOn with
    | _ exp ih =>
      intro base
      rw [powStrip]
      split
      · obtain ⟨c, hc⟩ := hf base base
        rw [hc]; exact ih _ (by omega) c
      · exact ⟨_, rfl⟩
  have loop : ∀ (exp : Nat) (acc base : A), ∃ z, powLoop f acc base exp = .ok z := by
    intro exp
    induction exp using Nat.strongRecOn with
    | _ exp ih =>
      intro acc base
      rw [powLoop]
      split
      · obtain ⟨c, hc⟩ := hf base base
        rw [hc, res_ok_bind]
        by_cases ho : exp / 2 % 2 = 1
        · obtain ⟨d, hd⟩ := hf acc c
          simp only [ho, if_true, hd, res_ok_bind]; exact ih _ (by omega) d c
        · simp only [ho, if_false]; exact ih _ (by omega) acc c
      · exact ⟨_, rfl⟩
  unfold numPow
  split
  · exact h1
  · obtain ⟨⟨b, e⟩, hz⟩ := strip exp base
    rw [hz, res_ok_bind]
    simp only
    split
    · exact ⟨_, rfl⟩
    · exact loop _ _ _

end Rowcol
