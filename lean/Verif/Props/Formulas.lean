import Verif.Props.Variables

/-! # C119: operations written out

Every operation on vectors and matrices can be replaced by `generate` with the formula for one entry: the same results and the same
panics, for every element type, without any law about its operations. -/

namespace Rowcol
namespace Prog
variable {T : Type} {n l r c : Nat}

theorem vget_var (t : Target) (O : Ops T) (σ : Store T) (i : Nat) (k : Fin n) :
    (Ex.vget (.var (.v n) i) k.val).eval t O σ = .ok ((show Vec T n from σ (.v n) i).get k) := Vec.index_ok _ k.isLt

theorem mget_var (t : Target) (O : Ops T) (σ : Store T) (i : Nat) (k : Fin r) (p : Fin c) :
    (Ex.mget (.var (.m r c) i) k.val p.val).eval t O σ = .ok ((show Mat T r c from σ (.m r c) i).get k p) := Mat.index_ok _ k.isLt p.isLt

theorem row_var (t : Target) (O : Ops T) (σ : Store T) (i : Nat) (k : Fin r) (hr : r < t.W) :
    (Ex.row (.var (.m r c) i) k.val).eval t O σ = .ok ((show Mat T r c from σ (.m r c) i).rows.get k) := by
  have h : (Ex.row (.var (.m r c) i) k.val).eval t O σ = _ := row_nth t (show Mat T r c from σ (.m r c) i) k.val (by omega) hr
  rw [h, dif_pos k.isLt]

theorem col_var (t : Target) (O : Ops T) (σ : Store T) (i : Nat) (k : Fin c) (hc : c < t.W) :
    (Ex.col (.var (.m r c) i) k.val).eval t O σ = .ok (Vec.ofFn fun p => (show Mat T r c from σ (.m r c) i).get p k) := by
  have h : (Ex.col (.var (.m r c) i) k.val).eval t O σ = _ := col_nth t (show Mat T r c from σ (.m r c) i) k.val (by omega) hc
  rw [h, dif_pos k.isLt]

theorem gen_eval (t : Target) (O : Ops T) (σ : Store T) (f : Nat → Ex .s) {g : Fin n → Res T} (h : ∀ k : Fin n, (f k.val).eval t O σ = g k) :
    (Ex.gen (n := n) f).eval t O σ = Vec.collect t n ((List.finRange n).map g) :=
  (generate_fin t _).trans (collect_congr t h)

theorem mgen_eval (t : Target) (O : Ops T) (σ : Store T) (f : Nat × Nat → Ex .s) {g : Fin r → Fin c → Res T}
    (h : ∀ k p, (f (k.val, p.val)).eval t O σ = g k p) :
    (Ex.mgen (r := r) (c := c) f).eval t O σ = (do
      let v ← Vec.collect t r ((List.finRange r).map fun k => Vec.collect t c ((List.finRange c).map (g k)))
      pure (⟨v⟩ : Mat T r c)) := by
  refine (matGenerate_fin t _).trans ?_
  rw [collect_congr t fun k => collect_congr t (h k)]

theorem rw_list (t : Target) (v : Vec T n) (F : T → Res T) :
    Vec.collect t n (v.toList.map F) = Vec.collect t n ((List.finRange n).map fun k => F (v.get k)) := by
  rw [Vec.toList_eq, List.map_map]
  rfl

/-- C119: operators on vectors: entry `k` of `a + b`, `a - b`, `-a`, `a * s`, `a / s`, and of `zero()`. -/
theorem C119_vectors (t : Target) (o : Bin) (f : Form) (i j : Nat) :
    (Ex.bin o f (.var (.v n) i) (.var (.v n) j)).Alike t
      (.gen fun k => .bin o .vv (.vget (.var (.v n) i) k) (.vget (.var (.v n) j) k)) ∧
    (Ex.neg (.var (.v n) i)).Alike t (.gen fun k => .neg (.vget (.var (.v n) i) k)) ∧
    (Ex.scale (.var (.v n) i) (.var .s j)).Alike t (.gen fun k => .scale (.vget (.var (.v n) i) k) (.var .s j)) ∧
    (Ex.quot (.var (.v n) i) (.var .s j)).Alike t (.gen fun k => .quot (.vget (.var (.v n) i) k) (.var .s j)) ∧
    (Ex.zero (.v n)).Alike t (.gen fun _ => .zero .s) := by
  refine ⟨fun T O σ => ?_, fun T O σ => ?_, fun T O σ => ?_, fun T O σ => ?_, fun T O σ => ?_⟩
  · rw [gen_eval t O σ _ (g := fun k => o.fn O ((show Vec T n from σ (.v n) i).get k) ((show Vec T n from σ (.v n) j).get k)) fun k => by rw [Ex.eval, vget_var, vget_var]; first | done | rfl]
    exact (bin_forms t O o f .vv _ _ _).trans (vecForms_eq t (o.fn O) (Vec.opVV t (o.fn O)) (by simp [vecForms]) _ _)
  · rw [gen_eval t O σ _ (g := fun k => O.neg ((show Vec T n from σ (.v n) i).get k)) fun k => by rw [Ex.eval, vget_var]; first | done | rfl]
    exact rw_list t _ _
  · rw [gen_eval t O σ _ (g := fun k => O.mul ((show Vec T n from σ (.v n) i).get k) (show T from σ .s j)) fun k => by rw [Ex.eval, vget_var]; first | done | rfl]
    exact rw_list t _ _
  · rw [gen_eval t O σ _ (g := fun k => O.div ((show Vec T n from σ (.v n) i).get k) (show T from σ .s j)) fun k => by rw [Ex.eval, vget_var]; first | done | rfl]
    exact rw_list t _ _
  · rfl

theorem rows_map (t : Target) (a : Mat T r c) (F : Vec T c → Res (Vec T c)) {g : Fin r → Fin c → Res T}
    (h : ∀ k, F (a.rows.get k) = Vec.collect t c ((List.finRange c).map (g k))) :
    (do let v ← Vec.collect t r (a.rows.toList.map F); pure (⟨v⟩ : Mat T r c)) = (do
      let v ← Vec.collect t r ((List.finRange r).map fun k => Vec.collect t c ((List.finRange c).map (g k)))
      pure (⟨v⟩ : Mat T r c)) := by
  rw [Vec.toList_eq, List.map_map, ← collect_congr t h]
  rfl

/-- C119: operators on matrices, entry by entry; `identity()`; the transposed matrix; `map`. -/
theorem C119_matrices (t : Target) (o : Bin) (f : Form) (i j : Nat) (hc : c < t.W) :
    (Ex.bin o f (.var (.m r c) i) (.var (.m r c) j)).Alike t
      (.mgen fun p => .bin o .vv (.mget (.var (.m r c) i) p.1 p.2) (.mget (.var (.m r c) j) p.1 p.2)) ∧
    (Ex.neg (.var (.m r c) i)).Alike t (.mgen fun p => .neg (.mget (.var (.m r c) i) p.1 p.2)) ∧
    (Ex.scale (.var (.m r c) i) (.var .s j)).Alike t (.mgen fun p => .scale (.mget (.var (.m r c) i) p.1 p.2) (.var .s j)) ∧
    (Ex.quot (.var (.m r c) i) (.var .s j)).Alike t (.mgen fun p => .quot (.mget (.var (.m r c) i) p.1 p.2) (.var .s j)) ∧
    (Ex.zero (.m r c)).Alike t (.mgen fun _ => .zero .s) ∧
    (Ex.ident n).Alike t (.mgen fun p => if p.1 = p.2 then .one else .zero .s) ∧
    (Ex.transposed (.var (.m r c) i)).Alike t (.mgen fun p => .mget (.var (.m r c) i) p.2 p.1) := by
  refine ⟨fun T O σ => ?_, fun T O σ => ?_, fun T O σ => ?_, fun T O σ => ?_, fun T O σ => ?_, fun T O σ => ?_, fun T O σ => ?_⟩
  · rw [mgen_eval t O σ _ (g := fun k p => o.fn O ((show Mat T r c from σ (.m r c) i).get k p) ((show Mat T r c from σ (.m r c) j).get k p)) fun k p => by rw [Ex.eval, mget_var, mget_var]; first | done | rfl]
    exact (bin_forms t O o f .vv _ _ _).trans (matForms_eq t (o.fn O) (Mat.opVV t (o.fn O)) (by simp [matForms]) _ _)
  · rw [mgen_eval t O σ _ (g := fun k p => O.neg ((show Mat T r c from σ (.m r c) i).get k p)) fun k p => by rw [Ex.eval, mget_var]; first | done | rfl]
    exact rows_map t _ _ fun k => rw_list t _ _
  · rw [mgen_eval t O σ _ (g := fun k p => O.mul ((show Mat T r c from σ (.m r c) i).get k p) (show T from σ .s j)) fun k p => by rw [Ex.eval, mget_var]; first | done | rfl]
    exact rows_map t _ _ fun k => rw_list t _ _
  · rw [mgen_eval t O σ _ (g := fun k p => O.div ((show Mat T r c from σ (.m r c) i).get k p) (show T from σ .s j)) fun k p => by rw [Ex.eval, mget_var]; first | done | rfl]
    exact rows_map t _ _ fun k => rw_list t _ _
  · rfl
  · have e : (fun p : Nat × Nat => (pure (if p.1 = p.2 then O.one else O.zero) : Res T)) =
        fun p => (if p.1 = p.2 then Ex.one else Ex.zero .s : Ex .s).eval t O σ := funext fun p => by
      by_cases h : p.1 = p.2
      · rw [if_pos h, if_pos h]; rfl
      · rw [if_neg h, if_neg h]; rfl
    change Mat.identity t O n = Mat.generate t n n _
    rw [Mat.identity, e]
  · rw [mgen_eval t O σ _ fun k p => mget_var t O σ i p k]
    have e : (Ex.transposed (.var (.m r c) i)).eval t O σ = _ := transposed_eq t (show Mat T r c from σ (.m r c) i) hc
    rw [e]
    exact (Mat.collect_ok t _ _ fun k p => rfl).symm

/-- C119: `a * b` is the matrix of the scalar products of the rows of `a` and the columns of `b`, `a * v` is the vector of the scalar
products of the rows of `a` with `v`. -/
theorem C119_products (t : Target) (f : Form) (byRef : Bool) (i j : Nat) (hl : l < t.W) (hn : n < t.W) (hc : c < t.W) :
    (Ex.mul f (.var (.m l n) i) (.var (.m n c) j)).Alike t
      (.mgen fun p => .dot (.row (.var (.m l n) i) p.1) (.col (.var (.m n c) j) p.2)) ∧
    (Ex.mulVec byRef (.var (.m l n) i) (.var (.v n) j)).Alike t (.gen fun k => .dot (.row (.var (.m l n) i) k) (.var (.v n) j)) := by
  have pairs : ∀ {T : Type} (a b : Vec T n), a.toList.zip b.toList = (List.finRange n).map fun k => (a.get k, b.get k) := by
    intro T a b
    rw [Vec.toList_eq a, Vec.toList_eq b, List.zip_map', ]
  constructor
  · intro T O σ
    rw [mgen_eval t O σ _ (g := fun k p => mulFold O (mulPairs (show Mat T l n from σ (.m l n) i) (show Mat T n c from σ (.m n c) j) k p)) fun k p => by
      rw [Ex.eval, row_var t O σ i k hl, col_var t O σ j p hc]
      refine congrArg (mulFold O) ((pairs _ _).trans ?_)
      exact congrArg (fun F => (List.finRange n).map F) (funext fun q => Prod.ext rfl (Vec.get_ofFn _ _))]
    rw [(C118_forms t .add f .vv (.zero .s) (.zero .s) (.var (.m l n) i) (.var (.m n c) j) (.zero _) hl hn hc).2.1 T O σ]
    exact mulForms_eq t O (Mat.mulVV t O) (by simp [mulForms]) _ _ hl hn hc
  · intro T O σ
    rw [gen_eval t O σ _ (g := fun k => mulFold O ((List.finRange n).map fun q => ((show Mat T l n from σ (.m l n) i).get k q, (show Vec T n from σ (.v n) j).get q))) fun k => by
      rw [Ex.eval, row_var t O σ i k hl]
      exact congrArg (mulFold O) (pairs _ _)]
    cases byRef with
    | false => exact (mulVec_free (t := t) (O := O) _ _ hl).1
    | true => exact (mulVec_free (t := t) (O := O) _ _ hl).2

theorem collect_three (t : Target) (p q s : Res T) : Vec.collect t 3 [p, q, s] = (do
    let x ← p
    let y ← q
    let z ← s
    pure (⟨[x, y, z], rfl⟩ : Vec T 3)) := by
  cases p with
  | error e => cases e <;> rfl
  | ok x =>
    cases q with
    | error e => cases e <;> rfl
    | ok y =>
      cases s with
      | error e => cases e <;> rfl
      | ok z => exact Vec.collect_pure t 3 [x, y, z] rfl

theorem fold_eval (t : Target) (O : Ops T) (σ : Store T) {ι : Type} (F : ι → Ex .s) (g : ι → Res T)
    (h : ∀ i, (F i).eval t O σ = g i) (e : Ex .s) (l : List ι) :
    (l.foldl (fun e i => .bin .add .vv e (F i)) e).eval t O σ = (do
      let x ← e.eval t O σ
      l.foldlM (fun acc i => do let y ← g i; O.add acc y) x) := by
  induction l generalizing e with
  | nil => rw [List.foldl_nil]; cases e.eval t O σ <;> rfl
  | cons i l ih =>
    rw [List.foldl_cons, ih]
    show (do
      let x ← (do let x ← e.eval t O σ; let y ← (F i).eval t O σ; O.add x y)
      l.foldlM (fun acc i => do let y ← g i; O.add acc y) x) = _
    rw [h i]
    cases e.eval t O σ with
    | error q => rfl
    | ok x =>
      rw [res_ok_bind, res_ok_bind, List.foldlM_cons]

/-- C119: `v.sum()` is `0 + v[0] + v[1] + …` from the left, `m.sum()` is `0 + sum of row 0 + …`, `a.dot(b)` is
`0 + a[0] * b[0] + a[1] * b[1] + …` from the left, and `a.cross(b)` has the entries `a[1] * b[2] - a[2] * b[1]` and so on. -/
theorem C119_sums (t : Target) (i j : Nat) (hr : r < t.W) :
    (Ex.vsum (.var (.v n) i)).Alike t ((List.range n).foldl (fun e k => .bin .add .vv e (.vget (.var (.v n) i) k)) (.zero .s)) ∧
    (Ex.msum (.var (.m r c) i)).Alike t
      ((List.range r).foldl (fun e k => .bin .add .vv e (.vsum (.row (.var (.m r c) i) k))) (.zero .s)) ∧
    (Ex.dot (.var (.v n) i) (.var (.v n) j)).Alike t ((List.range n).foldl
      (fun e k => .bin .add .vv e (.scale (.vget (.var (.v n) i) k) (.vget (.var (.v n) j) k))) (.zero .s)) := by
  have rng : ∀ {n : Nat} (F : Nat → Ex .s), (List.range n).foldl (fun e k => Ex.bin .add .vv e (F k)) (Ex.zero .s) =
      (List.finRange n).foldl (fun e k => Ex.bin .add .vv e (F k.val)) (Ex.zero .s) := by
    intro n F
    rw [← List.map_coe_finRange_eq_range, List.foldl_map]
  refine ⟨fun T O σ => ?_, fun T O σ => ?_, fun T O σ => ?_⟩
  · rw [rng, fold_eval t O σ _ _ fun k => vget_var t O σ i k]
    show Vec.sum O (show Vec T n from σ (.v n) i) = _
    rw [Vec.sum, Vec.toList_eq, List.foldlM_map]
    rfl
  · rw [rng, fold_eval t O σ _ (fun k => Vec.sum O ((show Mat T r c from σ (.m r c) i).rows.get k)) fun k => by
      rw [Ex.eval, row_var t O σ i k hr]; first | done | rfl]
    show Mat.sum O (show Mat T r c from σ (.m r c) i) = _
    rw [Mat.sum, Vec.toList_eq, List.foldlM_map]
    rfl
  · rw [rng, fold_eval t O σ _ (fun k => O.mul ((show Vec T n from σ (.v n) i).get k) ((show Vec T n from σ (.v n) j).get k)) fun k => by
      rw [Ex.eval, vget_var, vget_var]; first | done | rfl]
    show Vec.dot O (show Vec T n from σ (.v n) i) (show Vec T n from σ (.v n) j) = _
    rw [Vec.dot, mulFold, Vec.toList_eq, Vec.toList_eq, List.zip_map', List.foldlM_map]
    rfl

/-- The entry `a[p] * b[q] - a[q] * b[p]`. -/
def crossEntry (i j p q : Nat) : Ex .s :=
  .bin .sub .vv (.scale (.vget (.var (.v 3) i) p) (.vget (.var (.v 3) j) q)) (.scale (.vget (.var (.v 3) i) q) (.vget (.var (.v 3) j) p))

/-- C119: `a.cross(b)` is `[a[1] * b[2] - a[2] * b[1], a[2] * b[0] - a[0] * b[2], a[0] * b[1] - a[1] * b[0]]`. -/
theorem C119_cross (t : Target) (i j : Nat) : (Ex.cross (.var (.v 3) i) (.var (.v 3) j)).Alike t
    (.gen fun k => if k = 0 then crossEntry i j 1 2 else if k = 1 then crossEntry i j 2 0 else crossEntry i j 0 1) := by
  intro T O σ
  have en : ∀ p q : Fin 3, (crossEntry i j p.val q.val).eval t O σ = (do
      let x ← O.mul ((show Vec T 3 from σ (.v 3) i).get p) ((show Vec T 3 from σ (.v 3) j).get q)
      let y ← O.mul ((show Vec T 3 from σ (.v 3) i).get q) ((show Vec T 3 from σ (.v 3) j).get p)
      O.sub x y) := by
    intro p q
    show (do
      let x ← (do
        let x ← (Ex.vget (.var (.v 3) i) p.val).eval t O σ
        let y ← (Ex.vget (.var (.v 3) j) q.val).eval t O σ
        O.mul x y)
      let y ← (do
        let x ← (Ex.vget (.var (.v 3) i) q.val).eval t O σ
        let y ← (Ex.vget (.var (.v 3) j) p.val).eval t O σ
        O.mul x y)
      O.sub x y) = _
    rw [vget_var, vget_var, vget_var, vget_var]
    rfl
  have hx := en 1 2
  have hy := en 2 0
  have hz := en 0 1
  rw [gen_eval t O σ _ (g := fun k : Fin 3 => (if k.val = 0 then crossEntry i j 1 2 else if k.val = 1 then crossEntry i j 2 0
    else crossEntry i j 0 1).eval t O σ) fun k => rfl]
  show Vec.cross t O (show Vec T 3 from σ (.v 3) i) (show Vec T 3 from σ (.v 3) j) = Vec.collect t 3
    [(crossEntry i j 1 2).eval t O σ, (crossEntry i j 2 0).eval t O σ, (crossEntry i j 0 1).eval t O σ]
  rw [collect_three]
  rw [show (crossEntry i j 1 2).eval t O σ = _ from hx, show (crossEntry i j 2 0).eval t O σ = _ from hy]
  rw [show (crossEntry i j 0 1).eval t O σ = _ from hz]
  rw [Vec.cross]
  simp only [Vec.getUnchecked_ok t _ (show 0 < 3 by omega), Vec.getUnchecked_ok t _ (show 1 < 3 by omega), Vec.getUnchecked_ok t _ (show 2 < 3 by omega), res_ok_bind, bind_assoc]
  rfl

theorem mget_lit (t : Target) (O : Ops T) (σ : Store T) (i : Nat) {p q : Nat} (hp : p < r) (hq : q < c) :
    (Ex.mget (.var (.m r c) i) p q).eval t O σ = .ok ((show Mat T r c from σ (.m r c) i).get ⟨p, hp⟩ ⟨q, hq⟩) := Mat.index_ok _ hp hq

theorem idx_lit (t : Target) (O : Ops T) (σ : Store T) (i : Nat) {p q : Nat} (hp : p < r) (hq : q < c) :
    Mat.idxStatic t (show Mat T r c from σ (.m r c) i) p q = (Ex.mget (.var (.m r c) i) p q).eval t O σ := by
  rw [mget_lit t O σ i hp hq, Mat.idxStatic_ok t _ hp hq]

/-- `m[0][p] * m[1][q] * m[2][s]`. -/
def term3 (i p q s : Nat) : Ex .s :=
  .scale (.scale (.mget (.var (.m 3 3) i) 0 p) (.mget (.var (.m 3 3) i) 1 q)) (.mget (.var (.m 3 3) i) 2 s)

/-- C119: up to size 3, `m.determinant()` is the textbook formula (from size 4 on it is computed by elimination, C48). -/
theorem C119_determinant (t : Target) (i : Nat) :
    (Ex.det (.var (.m 1 1) i)).Alike t (.mget (.var (.m 1 1) i) 0 0) ∧
    (Ex.det (.var (.m 2 2) i)).Alike t (.bin .sub .vv (.scale (.mget (.var (.m 2 2) i) 0 0) (.mget (.var (.m 2 2) i) 1 1))
      (.scale (.mget (.var (.m 2 2) i) 1 0) (.mget (.var (.m 2 2) i) 0 1))) ∧
    (Ex.det (.var (.m 3 3) i)).Alike t (.bin .sub .vv (.bin .sub .vv (.bin .sub .vv (.bin .add .vv (.bin .add .vv
      (term3 i 0 1 2) (term3 i 1 2 0)) (term3 i 2 0 1)) (term3 i 2 1 0)) (term3 i 1 0 2)) (term3 i 0 2 1)) := by
  refine ⟨fun T O σ => ?_, fun T O σ => ?_, fun T O σ => ?_⟩
  · exact idx_lit t O σ i (by omega) (by omega)
  · show Mat.det2 t O (show Mat T 2 2 from σ (.m 2 2) i) = _
    simp only [Mat.det2, idx_lit t O σ i (show 0 < 2 by omega) (show 0 < 2 by omega), idx_lit t O σ i (show 0 < 2 by omega) (show 1 < 2 by omega),
      idx_lit t O σ i (show 1 < 2 by omega) (show 0 < 2 by omega), idx_lit t O σ i (show 1 < 2 by omega) (show 1 < 2 by omega)]
    simp only [← bind_assoc]
    rfl
  · have tm : ∀ {p q s : Nat}, p < 3 → q < 3 → s < 3 →
        Mat.det3Term t O (show Mat T 3 3 from σ (.m 3 3) i) p q s = (term3 i p q s).eval t O σ := by
      intro p q s hp hq hs
      rw [Mat.det3Term, idx_lit t O σ i (by omega) hp, idx_lit t O σ i (by omega) hq, idx_lit t O σ i (by omega) hs]
      simp only [← bind_assoc]
      rfl
    show Mat.det3 t O (show Mat T 3 3 from σ (.m 3 3) i) = _
    rw [Mat.det3, tm (by omega) (by omega) (by omega), tm (by omega) (by omega) (by omega), tm (by omega) (by omega) (by omega),
      tm (by omega) (by omega) (by omega), tm (by omega) (by omega) (by omega), tm (by omega) (by omega) (by omega)]
    simp only [← bind_assoc]
    rfl

/-- `1` where `i + j` is even and `-1` where it is odd. -/
def sign (p q : Nat) : Ex .s := if (p + q) % 2 = 0 then .one else .neg .one

/-- C119: `m.cofactor((p, q))` is the sign times the determinant of the matrix without row `p` and column `q`; for size 2 that is the
opposite entry. -/
theorem C119_cofactor (t : Target) (i p q k : Nat) (hp : p < k + 2) (hq : q < k + 2) (hk : k + 2 < t.W) (hpq : p + q < t.W) :
    (∀ (_ : p < 2) (_ : q < 2), (Ex.cof (k := 0) (.var (.m 2 2) i) p q).Alike t (.scale (sign p q) (.mget (.var (.m 2 2) i) (1 - p) (1 - q)))) ∧
    (Ex.cof (.var (.m (k + 2) (k + 2)) i) p q).Alike t (.scale (sign p q) (.det (k := k) (.mgen fun s =>
      .mget (.var (.m (k + 2) (k + 2)) i) (if s.1 < p then s.1 else s.1 + 1) (if s.2 < q then s.2 else s.2 + 1)))) := by
  have sg : ∀ {T : Type} (O : Ops T) (σ : Store T), Mat.cofSign t O p q = (sign p q).eval t O σ := by
    intro T O σ
    rw [Mat.cofSign, uadd_ok t hpq, res_ok_bind, sign]
    split <;> rfl
  have h2 : ∀ {T : Type} (O : Ops T) (σ : Store T) (_ : p < 2) (_ : q < 2), (Ex.cof (k := 0) (.var (.m 2 2) i) p q).eval t O σ =
      (Ex.scale (sign p q) (.mget (.var (.m 2 2) i) (1 - p) (1 - q))).eval t O σ := by
    intro T O σ h1 h2
    show Mat.cof2 t O (show Mat T 2 2 from σ (.m 2 2) i) (p, q) = _
    rw [Mat.cof2, sg O σ, usub_ok t (show p ≤ 1 by omega), usub_ok t (show q ≤ 1 by omega)]
    rfl
  refine ⟨fun h1 h3 T O σ => h2 O σ h1 h3, fun T O σ => ?_⟩
  have mn : (Ex.mgen (r := k + 1) (c := k + 1) fun s => .mget (.var (.m (k + 2) (k + 2)) i) (if s.1 < p then s.1 else s.1 + 1)
      (if s.2 < q then s.2 else s.2 + 1)).eval t O σ = Mat.minor t (show Mat T (k + 2) (k + 2) from σ (.m (k + 2) (k + 2)) i) p q := by
    have sk : ∀ (p : Nat) (hp : p < k + 2) (x : Fin (k + 1)), (if x.val < p then x.val else x.val + 1) = ((⟨p, hp⟩ : Fin (k + 2)).succAbove x).val := by
      intro p hp x
      simp only [Fin.succAbove, Fin.lt_def, Fin.val_castSucc]
      split <;> rfl
    rw [minor_eq t _ ⟨p, hp⟩ ⟨q, hq⟩ hk, mgen_eval t O σ _ (g := fun x y => .ok
      (((show Mat T (k + 2) (k + 2) from σ (.m (k + 2) (k + 2)) i).toMatrix.submatrix (Fin.succAbove ⟨p, hp⟩) (Fin.succAbove ⟨q, hq⟩)) x y))
      fun x y => by
        rw [sk p hp x, sk q hq y]
        exact mget_var t O σ i _ _]
    exact Mat.collect_ok t _ _ fun x y => rfl
  have rhs : (Ex.scale (sign p q) (.det (k := k) (.mgen fun s => .mget (.var (.m (k + 2) (k + 2)) i) (if s.1 < p then s.1 else s.1 + 1)
      (if s.2 < q then s.2 else s.2 + 1)))).eval t O σ = (do
        let s ← (sign p q).eval t O σ
        let a ← Mat.minor t (show Mat T (k + 2) (k + 2) from σ (.m (k + 2) (k + 2)) i) p q
        let d ← Mat.determinant t O k a
        O.mul s d) := by
    rw [Ex.eval, Ex.eval, mn]
    simp only [bind_assoc]
    rfl
  rw [rhs]
  show Mat.cofactor t O k (show Mat T (k + 2) (k + 2) from σ (.m (k + 2) (k + 2)) i) (p, q) = _
  rw [← sg O σ]
  match k, hp, hq, hk with
  | 0, hp, hq, hk =>
    rw [minor_eq t _ ⟨p, hp⟩ ⟨q, hq⟩ hk]
    show Mat.cof2 t O _ (p, q) = _
    rw [Mat.cof2, usub_ok t (show p ≤ 1 by omega), usub_ok t (show q ≤ 1 by omega)]
    have e : ∀ p (hp : p < 2), (⟨p, hp⟩ : Fin 2).succAbove 0 = ⟨1 - p, by omega⟩ := by
      intro p hp
      have : p = 0 ∨ p = 1 := by omega
      rcases this with rfl | rfl <;> rfl
    have d : Mat.determinant t O 0 (Mat.ofMatrix ((show Mat T 2 2 from σ (.m 2 2) i).toMatrix.submatrix (Fin.succAbove ⟨p, hp⟩) (Fin.succAbove ⟨q, hq⟩))) =
        (show Mat T 2 2 from σ (.m 2 2) i).index (1 - p, 1 - q) := by
      show Mat.idxStatic t _ 0 0 = _
      rw [Mat.idxStatic_ok t _ (by omega) (by omega), Mat.index_ok _ (show 1 - p < 2 by omega) (show 1 - q < 2 by omega)]
      exact congrArg Except.ok ((Mat.get_ofMatrix _ _ _).trans (congrArg₂ (fun x y => (show Mat T 2 2 from σ (.m 2 2) i).get x y) (e p hp) (e q hq)))
    simp only [res_ok_bind]
    rw [d]
  | 1, hp, hq, hk =>
    show Mat.cof3 t O _ (p, q) = _
    rw [Mat.cof3, if_pos ⟨hp, hq⟩]
    rfl
  | k + 2, hp, hq, hk =>
    show Mat.cofGen t O (Mat.determinant t O (k + 2)) _ (p, q) = _
    rw [Mat.cofGen, if_pos ⟨hp, hq⟩, minor_eq t _ ⟨p, hp⟩ ⟨q, hq⟩ hk]
    rfl

/-- C119: `m.map(f)` is `generate` with `f` applied to the entry (for a body without a nested `map` whose parameter captures the variable). -/
theorem C119_map (t : Target) (i s : Nat) (f : Nat × Nat → Ex .s)
    (h : ∀ p, (f p).NoCapture (.mget (.var (.m r c) i) p.1 p.2)) :
    (Ex.map s f (.var (.m r c) i)).Alike t (.mgen fun p => Ex.subst s (.mget (.var (.m r c) i) p.1 p.2) (f p)) := by
  intro T O σ
  rw [mgen_eval t O σ _ (g := fun k p => (f (k.val, p.val)).eval t O (σ.put .s s ((show Mat T r c from σ (.m r c) i).get k p)))
    fun k p => C118_substitute t O s _ _ (h _) σ _ (mget_var t O σ i k p)]
  exact map_fin t (fun p (y : T) => (f p).eval t O (σ.put .s s y)) (show Mat T r c from σ (.m r c) i)

/-- C119: a row and a column read through the iterators are the vectors of their entries; a diagonal matrix has the vector on the diagonal and
`0` elsewhere. -/
theorem C119_lines (t : Target) (i : Nat) (x : Fin r) (y : Fin c) (hr : r < t.W) (hc : c < t.W) :
    (Ex.row (.var (.m r c) i) x.val).Alike t (.gen fun k => .mget (.var (.m r c) i) x.val k) ∧
    (Ex.col (.var (.m r c) i) y.val).Alike t (.gen fun k => .mget (.var (.m r c) i) k y.val) ∧
    (Ex.diag (.var (.v (Nat.min r c)) i)).Alike t
      (.mgen (r := r) (c := c) fun p => if p.1 = p.2 then .vget (.var (.v (Nat.min r c)) i) p.1 else .zero .s) := by
  refine ⟨fun T O σ => ?_, fun T O σ => ?_, fun T O σ => ?_⟩
  · rw [gen_eval t O σ _ (g := fun k => .ok ((show Mat T r c from σ (.m r c) i).get x k)) fun k => mget_var t O σ i x k, row_var t O σ i x hr]
    rw [Vec.collect_finRange_ok t _ _ fun k => rfl]
    exact congrArg Except.ok (Vec.ofFn_get _).symm
  · rw [gen_eval t O σ _ (g := fun k => .ok ((show Mat T r c from σ (.m r c) i).get k y)) fun k => mget_var t O σ i k y, col_var t O σ i y hc]
    rw [Vec.collect_finRange_ok t _ _ fun k => rfl]
  · rw [mgen_eval t O σ _ (g := fun k p => .ok (if h : k.val = p.val then (show Vec T (Nat.min r c) from σ (.v (Nat.min r c)) i).get
      ⟨k.val, by have := p.isLt; have := k.isLt; exact Nat.lt_min.2 ⟨by omega, by omega⟩⟩ else O.zero)) fun k p => by
        by_cases h : k.val = p.val
        · rw [dif_pos h, if_pos h]
          exact vget_var t O σ i ⟨k.val, _⟩
        · rw [dif_neg h, if_neg h]; rfl]
    exact (diag_fin t O.zero (show Vec T (Nat.min r c) from σ (.v (Nat.min r c)) i)).trans (Mat.collect_ok t _ _ fun k p => rfl).symm

/-- `m.map(|_, x| x + 1)` is the matrix of the entries plus one: the body has no nested closure. -/
example (t : Target) (i : Nat) : (Ex.map (r := r) (c := c) 7 (fun _ => .bin .add .vv (.var .s 7) .one) (.var (.m r c) i)).Alike t
    (.mgen fun p => .bin .add .vv (.mget (.var (.m r c) i) p.1 p.2) .one) := by
  have h := C119_map (r := r) (c := c) t i 7 (fun _ => .bin .add .vv (.var .s 7) .one) fun p => by simp [Ex.NoCapture, Ex.Every, Ex.NoCaptureStep]
  simpa [Ex.subst] using h

/-- Nothing about the operations is used: in an arithmetic whose multiplication panics on everything, both sides panic. -/
example (t : Target) (O : Ops T) (σ : Store T) (hm : ∀ a b, O.mul a b = .error .panic) :
    (Ex.scale (.var (.v 2) 0) (.var .s 0)).eval t O σ =
      (Ex.gen (n := 2) fun k => .scale (.vget (.var (.v 2) 0) k) (.var .s 0)).eval t O σ ∧
    (Ex.scale (.vget (.var (.v 2) 0) 1) (.var .s 0)).eval t O σ = .error .panic :=
  ⟨(C119_vectors (n := 2) t .add .vv 0 0).2.2.1 T O σ, by
    rw [Ex.eval, show (Ex.vget (.var (.v 2) 0) 1).eval t O σ = _ from vget_var t O σ 0 (1 : Fin 2)]
    exact hm _ _⟩

end Prog
end Rowcol
