import Verif.VarSpec
import Verif.Lemmas.Quotients
import Verif.Props.Programs
import Verif.Props.FloatOrder

/-! # C118: the variables of client programs

Nothing is aliased: what a program does depends only on the variables it reads, it changes only the variables it writes, statements
about different variables can be exchanged, and a subexpression can be given a name or be written out. For every element type, without
any law about its operations. -/

namespace Rowcol
namespace Prog
variable {T : Type} {τ : Ty} {n r c : Nat}

/-! ## Stores -/

theorem put_same (σ : Store T) (τ : Ty) (i : Nat) (x : Val T τ) : (σ.put τ i x) τ i = x := by
  unfold Store.put
  exact (congrFun (Function.update_self (f := σ) ..) i).trans (Function.update_self ..)

theorem put_other (σ : Store T) (τ τ' : Ty) (i j : Nat) (x : Val T τ) (h : (τ', j) ≠ (τ, i)) : (σ.put τ i x) τ' j = σ τ' j := by
  unfold Store.put
  by_cases h' : τ' = τ
  · subst h'
    have hj : j ≠ i := fun e => h (by rw [e])
    exact (congrFun (Function.update_self (f := σ) ..) j).trans (Function.update_of_ne hj ..)
  · exact congrFun (Function.update_of_ne (f := σ) h' ..) j

theorem store_ext {σ ρ : Store T} (h : ∀ τ i, σ τ i = ρ τ i) : σ = ρ := funext fun τ => funext fun i => h τ i

theorem put_put (σ : Store T) (τ : Ty) (i : Nat) (x y : Val T τ) : (σ.put τ i x).put τ i y = σ.put τ i y := by
  refine store_ext fun τ' j => ?_
  by_cases h : (τ', j) = (τ, i)
  · cases h; rw [put_same, put_same]
  · rw [put_other _ _ _ _ _ _ h, put_other _ _ _ _ _ _ h, put_other _ _ _ _ _ _ h]

theorem put_comm (σ : Store T) (τ τ' : Ty) (i j : Nat) (x : Val T τ) (y : Val T τ') (h : (τ', j) ≠ (τ, i)) :
    (σ.put τ i x).put τ' j y = (σ.put τ' j y).put τ i x := by
  refine store_ext fun τ'' k => ?_
  by_cases h1 : (τ'', k) = (τ', j)
  · cases h1; rw [put_same, put_other _ _ _ _ _ _ h, put_same]
  · rw [put_other _ _ _ _ _ _ h1]
    by_cases h2 : (τ'', k) = (τ, i)
    · cases h2; rw [put_same, put_same]
    · rw [put_other _ _ _ _ _ _ h2, put_other _ _ _ _ _ _ h2, put_other _ _ _ _ _ _ h1]

theorem Store.Agree.put {A : Var → Prop} {σ ρ : Store T} (h : σ.Agree A ρ) (τ : Ty) (i : Nat) (x : Val T τ) :
    (σ.put τ i x).Agree (fun y => A y ∨ y = (τ, i)) (ρ.put τ i x) := by
  intro τ' j hj
  by_cases h' : (τ', j) = (τ, i)
  · cases h'; rw [put_same, put_same]
  · rw [put_other _ _ _ _ _ _ h', put_other _ _ _ _ _ _ h']
    exact h τ' j (hj.resolve_right h')

theorem Store.Agree.mono {A B : Var → Prop} {σ ρ : Store T} (h : σ.Agree A ρ) (hB : ∀ x, B x → A x) : σ.Agree B ρ :=
  fun τ i hi => h τ i (hB _ hi)

theorem AgreeOut.mono {A B : Var → Prop} (hB : ∀ x, B x → A x) {x y : Res (Store T)} (h : AgreeOut A x y) : AgreeOut B x y := by
  match x, y, h with
  | .ok _, .ok _, h => exact Store.Agree.mono h hB
  | .error _, .error _, h => exact h

/-! ## Reading -/

theorem collect_congr (t : Target) {f g : Fin n → Res T} (h : ∀ i, f i = g i) :
    Vec.collect t n ((List.finRange n).map f) = Vec.collect t n ((List.finRange n).map g) := by rw [funext h]

/-- C118: the value of an expression, or its failure, depends only on the variables it reads. -/
theorem C118_expressions (t : Target) (O : Ops T) (e : Ex τ) (σ ρ : Store T) (h : σ.Agree (fun x => e.Reads x) ρ) :
    e.eval t O σ = e.eval t O ρ := by
  induction e generalizing σ ρ with
  | var τ i => exact congrArg Except.ok (h τ i rfl)
  | zero | one | ident => rfl
  | neg a ih | vsum a ih | msum a ih | transposed a ih | pow a _ ih | det a ih | diag a ih | vget a _ ih | mget a _ _ ih | cof a _ _ ih => simp only [Ex.eval, ih σ ρ h]
  | inv a ih | row a _ ih | col a _ ih => simp only [Ex.eval, ih σ ρ h]
  | bin _ _ a b iha ihb | scale a b iha ihb | quot a b iha ihb | dot a b iha ihb | cross a b iha ihb | mul _ a b iha ihb =>
    simp only [Ex.eval, iha σ ρ (h.mono fun _ => .inl), ihb σ ρ (h.mono fun _ => .inr)]
  | mulVec _ a b iha ihb =>
    simp only [Ex.eval, iha σ ρ (h.mono fun _ => .inl), ihb σ ρ (h.mono fun _ => .inr)]
  | @gen n f ih =>
    simp only [Ex.eval, generate_fin]
    exact collect_congr t fun i => ih i σ ρ (h.mono fun x hx => ⟨i, i.isLt, hx⟩)
  | @mgen r c f ih =>
    simp only [Ex.eval, matGenerate_fin]
    rw [collect_congr t fun i => collect_congr t fun j =>
      ih (i.val, j.val) σ ρ (h.mono fun x hx => ⟨i, i.isLt, j, j.isLt, hx⟩)]
  | @map r c k f a ihf iha =>
    simp only [Ex.eval, iha σ ρ (h.mono fun _ => .inl)]
    congr 1; funext x
    simp only [map_fin]
    rw [collect_congr t fun i => collect_congr t fun j =>
      ihf (i.val, j.val) (σ.put .s k (x.get i j)) (ρ.put .s k (x.get i j)) ((h.put .s k _).mono fun y hy => ?_)]
    by_cases hk : y = (.s, k)
    · exact .inr hk
    · exact .inl (.inr ⟨hk, i, i.isLt, j, j.isLt, hy⟩)

/-! ## Statements -/

/-- What a statement does: it fails, or gives its target a new value, which depends only on what the statement reads. -/
theorem exec_target (t : Target) (O : Ops T) (a : Act) : ∃ f : Store T → Res (Val T a.target.1),
    (∀ σ, a.exec t O σ = (do let v ← f σ; pure (σ.put a.target.1 a.target.2 v))) ∧
      ∀ σ ρ, σ.Agree (fun x => a.Reads x) ρ → f σ = f ρ := by
  cases a with
  | @set τ i e => exact ⟨fun σ => e.eval t O σ, fun σ => rfl, fun σ ρ h => C118_expressions t O e σ ρ h⟩
  | @upd τ o i e =>
    refine ⟨fun σ => do let x ← e.eval t O σ; Val.bin t O o .vv τ (σ τ i) x, fun σ => ?_, fun σ ρ h => ?_⟩
    · simp only [Act.exec, after_upd (t := t)]; cases e.eval t O σ <;> rfl
    · simp only [C118_expressions t O e σ ρ (h.mono fun _ => .inr), h τ i (.inl rfl)]; rfl
  | updScale τ i e =>
    refine ⟨fun σ => do let x ← e.eval t O σ; Val.scale t O τ (σ τ i) x, fun σ => ?_, fun σ ρ h => ?_⟩
    · simp only [Act.exec, after_updScale t]; cases e.eval t O σ <;> rfl
    · simp only [C118_expressions t O e σ ρ (h.mono fun _ => .inr), h τ i (.inl rfl)]; rfl
  | updQuot τ i e =>
    refine ⟨fun σ => do let x ← e.eval t O σ; Val.quot t O τ (σ τ i) x, fun σ => ?_, fun σ ρ h => ?_⟩
    · simp only [Act.exec, after_updQuot t]; cases e.eval t O σ <;> rfl
    · simp only [C118_expressions t O e σ ρ (h.mono fun _ => .inr), h τ i (.inl rfl)]; rfl
  | @updMul n i e =>
    refine ⟨fun σ => do let x ← e.eval t O σ; Mat.mulVV t O (σ (.m n n) i) x, fun σ => ?_, fun σ ρ h => ?_⟩
    · simp only [Act.exec, after_updMul]; cases e.eval t O σ <;> rfl
    · simp only [C118_expressions t O e σ ρ (h.mono fun _ => .inr), h (.m n n) i (.inl rfl)]; rfl
  | transpose n i =>
    refine ⟨fun σ => Mat.transposed t (σ (.m n n) i), fun σ => ?_, fun σ ρ h => ?_⟩
    · simp only [Act.exec, after_transpose]; rfl
    · simp only [h (.m n n) i rfl]; rfl
  | vset n i k e =>
    refine ⟨fun σ => do let x ← e.eval t O σ; Vec.indexSet (σ (.v n) i) k x, fun σ => ?_, fun σ ρ h => ?_⟩
    · simp only [Act.exec]; cases e.eval t O σ <;> rfl
    · simp only [C118_expressions t O e σ ρ (h.mono fun _ => .inr), h (.v n) i (.inl rfl)]; rfl
  | mset r c i k l e =>
    refine ⟨fun σ => do let x ← e.eval t O σ; Mat.indexSet (σ (.m r c) i) (k, l) x, fun σ => ?_, fun σ ρ h => ?_⟩
    · simp only [Act.exec]; cases e.eval t O σ <;> rfl
    · simp only [C118_expressions t O e σ ρ (h.mono fun _ => .inr), h (.m r c) i (.inl rfl)]; rfl

/-- C118: a program changes only variables it writes to. -/
theorem C118_frame (t : Target) (O : Ops T) (p : Stmt) (σ σ' : Store T) (h : Run t O p σ (.ok σ')) :
    σ'.Agree (fun x => ¬ p.Writes x) σ := by
  generalize hx : (Except.ok σ' : Res (Store T)) = x at h
  induction h generalizing σ' with
  | skip σ => cases hx; exact fun _ _ _ => rfl
  | act a σ =>
    obtain ⟨f, h1, _⟩ := exec_target t O a
    rw [h1 σ] at hx
    obtain ⟨v, _, h3⟩ := bind_ok hx.symm
    cases h3
    exact fun τ i hi => put_other _ _ _ _ _ _ hi
  | seq _ _ ih1 ih2 =>
    intro τ i hi
    exact ((ih2 σ' hx) τ i fun hw => hi (.inr hw)).trans ((ih1 _ rfl) τ i fun hw => hi (.inl hw))
  | iteZero _ _ _ ih => exact fun τ i hi => ih σ' hx τ i fun hw => hi (.inl hw)
  | iteElse _ _ _ ih => exact fun τ i hi => ih σ' hx τ i fun hw => hi (.inr hw)
  | loopGo _ _ _ _ ih1 ih2 => exact fun τ i hi => ((ih2 σ' hx) τ i hi).trans (ih1 _ rfl τ i hi)
  | loopEnd => cases hx; exact fun _ _ _ => rfl
  | seqFault | iteFault | loopBody | loopFault => cases hx

/-- C118: what a program does - fail, run forever, or end - depends only on the variables it reads; started with the same values in
variables `A`, among them all it reads, it ends with the same values in these and in those it overwrites. -/
theorem C118_reads (t : Target) (O : Ops T) (p : Stmt) (A : Var → Prop) (hA : ∀ x, p.Reads x → A x) (σ ρ : Store T) (h : σ.Agree A ρ)
    (x : Res (Store T)) (hx : Run t O p σ x) : ∃ y, Run t O p ρ y ∧ AgreeOut (fun z => A z ∨ p.Sets z) x y := by
  induction hx generalizing A ρ with
  | skip σ => exact ⟨_, .skip ρ, fun τ i hi => h τ i (hi.resolve_right id)⟩
  | act a σ =>
    refine ⟨_, .act a ρ, ?_⟩
    obtain ⟨f, h1, h2⟩ := exec_target t O a
    rw [h1 σ, h1 ρ, h2 σ ρ (h.mono hA)]
    cases f ρ with
    | error e => exact rfl
    | ok v => exact Store.Agree.mono (h.put a.target.1 a.target.2 v) fun z (hz : A z ∨ z = a.target ∧ a.Overwrites) => hz.imp id And.left
  | @seq p q σ σ' x hp hq ihp ihq =>
    obtain ⟨y, h1, h2⟩ := ihp A (fun x hx => hA x (.inl hx)) ρ h
    match y, h2 with
    | .ok ρ', h2 =>
      obtain ⟨z, h3, h4⟩ := ihq (fun z => A z ∨ p.Sets z) (fun x hx => by
        by_cases hs : p.Sets x
        · exact .inr hs
        · exact .inl (hA x (.inr ⟨hs, hx⟩))) ρ' h2
      refine ⟨z, .seq h1 h3, ?_⟩
      simpa only [Stmt.Sets, or_assoc] using h4
  | @seqFault p q σ f hp ih =>
    obtain ⟨y, h1, h2⟩ := ih A (fun x hx => hA x (.inl hx)) ρ h
    match y, h2 with
    | .error _, h2 => cases h2; exact ⟨_, .seqFault h1, rfl⟩
  | @iteZero τ e p q σ v x h0 hz hp ih =>
    obtain ⟨y, h1, h2⟩ := ih A (fun x hx => hA x (.inr (.inl hx))) ρ h
    rw [C118_expressions t O e σ ρ (h.mono fun x hx => hA x (.inl hx))] at h0
    exact ⟨y, .iteZero h0 hz h1, h2.mono fun z hz => hz.imp id And.left⟩
  | @iteElse τ e p q σ v x h0 hz hp ih =>
    obtain ⟨y, h1, h2⟩ := ih A (fun x hx => hA x (.inr (.inr hx))) ρ h
    rw [C118_expressions t O e σ ρ (h.mono fun x hx => hA x (.inl hx))] at h0
    exact ⟨y, .iteElse h0 hz h1, h2.mono fun z hz => hz.imp id And.right⟩
  | @iteFault τ e p q σ f h0 =>
    rw [C118_expressions t O e σ ρ (h.mono fun x hx => hA x (.inl hx))] at h0
    exact ⟨_, .iteFault h0, rfl⟩
  | @loopGo τ b e p σ v σ' x h0 hz hp hl ihp ihl =>
    rw [C118_expressions t O e σ ρ (h.mono fun x hx => hA x (.inl hx))] at h0
    obtain ⟨y, h1, h2⟩ := ihp A (fun x hx => hA x (.inr hx)) ρ h
    match y, h2 with
    | .ok ρ', h2 =>
      obtain ⟨z, h3, h4⟩ := ihl A hA ρ' (Store.Agree.mono (A := fun z => A z ∨ p.Sets z) h2 fun z => .inl)
      exact ⟨z, .loopGo h0 hz h1 h3, h4⟩
  | @loopBody τ b e p σ v f h0 hz hp ih =>
    rw [C118_expressions t O e σ ρ (h.mono fun x hx => hA x (.inl hx))] at h0
    obtain ⟨y, h1, h2⟩ := ih A (fun x hx => hA x (.inr hx)) ρ h
    match y, h2 with
    | .error _, h2 => cases h2; exact ⟨_, .loopBody h0 hz h1, rfl⟩
  | @loopEnd τ b e p σ v h0 hz =>
    rw [C118_expressions t O e σ ρ (h.mono fun x hx => hA x (.inl hx))] at h0
    exact ⟨_, .loopEnd h0 hz, fun τ i hi => h τ i (hi.resolve_right id)⟩
  | @loopFault τ b e p σ f h0 =>
    rw [C118_expressions t O e σ ρ (h.mono fun x hx => hA x (.inl hx))] at h0
    exact ⟨_, .loopFault h0, rfl⟩

/-! ## Exchanging and leaving out statements -/

theorem reads_ok {t : Target} {O : Ops T} {p : Stmt} {A : Var → Prop} (hA : ∀ x, p.Reads x → A x) {σ ρ σ' : Store T} (h : σ.Agree A ρ)
    (hr : Run t O p σ (.ok σ')) : ∃ ρ', Run t O p ρ (.ok ρ') ∧ σ'.Agree (fun z => A z ∨ p.Sets z) ρ' := by
  obtain ⟨y, h1, h2⟩ := C118_reads t O p A hA σ ρ h _ hr
  match y, h2 with
  | .ok ρ', h2 => exact ⟨ρ', h1, h2⟩

theorem Store.Agree.symm {A : Var → Prop} {σ ρ : Store T} (h : σ.Agree A ρ) : ρ.Agree A σ := fun τ i hi => (h τ i hi).symm

theorem swap_ok {t : Target} {O : Ops T} {p q : Stmt} (hp : ∀ x, p.Writes x → ¬ q.Reads x ∧ ¬ q.Writes x)
    (hq : ∀ x, q.Writes x → ¬ p.Reads x) {σ σ' : Store T} (h : Run t O (.seq p q) σ (.ok σ')) : Run t O (.seq q p) σ (.ok σ') := by
  cases h with
  | @seq _ _ _ σ₁ _ h1 h2 =>
    have f1 := C118_frame t O p σ σ₁ h1
    have f2 := C118_frame t O q σ₁ σ' h2
    obtain ⟨σ₂, h3, h4⟩ := reads_ok (A := fun x => ¬ p.Writes x) (fun x hx hw => (hp x hw).1 hx) f1 h2
    have f3 := C118_frame t O q σ σ₂ h3
    obtain ⟨σ₃, h5, h6⟩ := reads_ok (A := fun x => ¬ q.Writes x) (fun x hx hw => hq x hw hx) f3.symm h1
    have f4 := C118_frame t O p σ₂ σ₃ h5
    have : σ₃ = σ' := store_ext fun τ i => by
      by_cases hw : p.Writes (τ, i)
      · exact (h6 τ i (.inl (hp _ hw).2)).symm.trans (f2 τ i (hp _ hw).2).symm
      · exact (f4 τ i hw).trans (h4 τ i (.inl hw)).symm
    rw [← this]
    exact .seq h3 h5

/-- C118: two pieces of program can be exchanged if neither writes what the other reads or writes: they succeed in both orders with the
same final values, or in neither; and if both end when run alone, they end in both orders. -/
theorem C118_exchange (t : Target) (O : Ops T) (p q : Stmt) (hp : ∀ x, p.Writes x → ¬ q.Reads x ∧ ¬ q.Writes x)
    (hq : ∀ x, q.Writes x → ¬ p.Reads x ∧ ¬ p.Writes x) (σ : Store T) :
    (∀ σ', Run t O (.seq p q) σ (.ok σ') ↔ Run t O (.seq q p) σ (.ok σ')) ∧
      ((∃ x, Run t O p σ x) → (∃ y, Run t O q σ y) →
        ((∃ e, Run t O (.seq p q) σ (.error e)) ↔ ∃ e, Run t O (.seq q p) σ (.error e))) := by
  have ok : ∀ σ', Run t O (.seq p q) σ (.ok σ') ↔ Run t O (.seq q p) σ (.ok σ') :=
    fun σ' => ⟨swap_ok hp fun x hx => (hq x hx).1, swap_ok hq fun x hx => (hp x hx).1⟩
  have halt : ∀ {p q : Stmt}, (∀ x, p.Writes x → ¬ q.Reads x ∧ ¬ q.Writes x) → (∃ x, Run t O p σ x) → (∃ y, Run t O q σ y) →
      ∃ z, Run t O (.seq p q) σ z := by
    rintro p q hp ⟨x, h1⟩ ⟨y, h2⟩
    cases x with
    | error e => exact ⟨_, .seqFault h1⟩
    | ok σ₁ =>
      obtain ⟨z, h3, _⟩ := C118_reads t O q (fun x => ¬ p.Writes x) (fun x hx hw => (hp x hw).1 hx) σ σ₁
        (C118_frame t O p σ σ₁ h1).symm _ h2
      exact ⟨z, .seq h1 h3⟩
  have err : ∀ {p q : Stmt}, (∀ σ', Run t O (.seq q p) σ (.ok σ') → Run t O (.seq p q) σ (.ok σ')) →
      (∃ z, Run t O (.seq q p) σ z) → (∃ e, Run t O (.seq p q) σ (.error e)) → ∃ e, Run t O (.seq q p) σ (.error e) := by
    rintro p q hok ⟨z, hz⟩ ⟨e, he⟩
    cases z with
    | error e' => exact ⟨e', hz⟩
    | ok σ' =>
      have := C100_deterministic t _ σ _ _ he (hok σ' hz)
      cases this
  exact ⟨ok, fun hp' hq' => ⟨err (fun σ' h => (ok σ').2 h) (halt hq hq' hp'), err (fun σ' h => (ok σ').1 h) (halt hp hp' hq')⟩⟩

/-- C118: a piece of program that ends and writes nothing that is read later or looked at in the end can be left out. -/
theorem C118_dead (t : Target) (O : Ops T) (p q : Stmt) (A : Var → Prop) (hA : ∀ x, q.Reads x → A x) (hp : ∀ x, p.Writes x → ¬ A x)
    (σ σ₁ : Store T) (h : Run t O p σ (.ok σ₁)) :
    (∀ x, Run t O (.seq p q) σ x → ∃ y, Run t O q σ y ∧ AgreeOut (fun z => A z ∨ q.Sets z) x y) ∧
      ∀ y, Run t O q σ y → ∃ x, Run t O (.seq p q) σ x ∧ AgreeOut (fun z => A z ∨ q.Sets z) y x := by
  have f : σ₁.Agree A σ := Store.Agree.mono (C118_frame t O p σ σ₁ h) fun x hx hw => hp x hw hx
  constructor
  · intro x hx
    cases hx with
    | @seq _ _ _ σ₂ _ h1 h2 =>
      have := C100_deterministic t p σ _ _ h h1
      cases this
      exact C118_reads t O q A hA _ _ f x h2
    | seqFault h1 =>
      have := C100_deterministic t p σ _ _ h h1
      cases this
  · intro y hy
    obtain ⟨x, h1, h2⟩ := C118_reads t O q A hA _ _ f.symm y hy
    exact ⟨x, .seq h h1, h2⟩

/-! ## Naming subexpressions -/

section Subst
variable {τ' : Ty} (t : Target) (O : Ops T) (i : Nat) (d : Ex τ')

/-- C118: writing `d` in place of a variable is giving the variable the value of `d`. -/
theorem C118_substitute (e : Ex τ) (hc : e.NoCapture d) (σ : Store T) (v : Val T τ') (h : d.eval t O σ = .ok v) :
    (Ex.subst i d e).eval t O σ = e.eval t O (σ.put τ' i v) := by
  induction e generalizing σ with
  | var τ j =>
    simp only [Ex.subst]
    split
    · rename_i hh
      obtain ⟨rfl, rfl⟩ := hh
      simp only [Ex.eval, put_same]
      exact h
    · rename_i hh
      simp only [Ex.eval]
      rw [put_other]
      intro e
      exact hh ⟨(congrArg Prod.fst e).symm, (congrArg Prod.snd e).symm⟩
  | zero | one | ident => rfl
  | neg a ih | vsum a ih | msum a ih | transposed a ih | pow a _ ih | det a ih | diag a ih | vget a _ ih | mget a _ _ ih | cof a _ _ ih =>
    simp only [Ex.eval, Ex.subst, ih hc.2 σ h]
  | inv a ih | row a _ ih | col a _ ih => simp only [Ex.eval, Ex.subst, ih hc.2 σ h]
  | bin _ _ a b iha ihb | scale a b iha ihb | quot a b iha ihb | dot a b iha ihb | cross a b iha ihb | mul _ a b iha ihb =>
    simp only [Ex.eval, Ex.subst, iha hc.2.1 σ h, ihb hc.2.2 σ h]
  | mulVec _ a b iha ihb => simp only [Ex.eval, Ex.subst, iha hc.2.1 σ h, ihb hc.2.2 σ h]
  | @gen n f ih =>
    simp only [Ex.eval, Ex.subst, generate_fin]
    exact collect_congr t fun k => ih k (hc.2 k k.isLt) σ h
  | @mgen r c f ih =>
    simp only [Ex.eval, Ex.subst, matGenerate_fin]
    rw [collect_congr t fun k => collect_congr t fun l => ih (k.val, l.val) (hc.2 k k.isLt l l.isLt) σ h]
  | @map r c k f a ihf iha =>
    simp only [Ex.eval, Ex.subst, iha hc.2.1 σ h]
    congr 1; funext x
    simp only [map_fin]
    rw [collect_congr t fun p => collect_congr t fun q => ?_]
    split
    · rename_i hk
      cases hk
      rw [put_put]
    · rename_i hk
      rw [ihf (p.val, q.val) (hc.2.2 p p.isLt q q.isLt) (σ.put .s k (x.get p q)) (by
        rw [← h]
        refine C118_expressions t O d _ _ fun τ j hj => put_other _ _ _ _ _ _ fun e => ?_
        rw [e] at hj
        exact hc.1 hj), put_comm]
      exact fun e => hk e

/-- If the result of the substitution has a value, so has `d`, unless nothing was replaced. -/
theorem subst_strict (e : Ex τ) (hc : e.NoCapture d) (hr : e.Reads (τ', i)) (σ : Store T) (w : Val T τ)
    (h : (Ex.subst i d e).eval t O σ = .ok w) : ∃ v, d.eval t O σ = .ok v := by
  induction e generalizing σ with
  | var τ j =>
    cases hr
    simp only [Ex.subst] at h
    rw [dif_pos ⟨trivial, trivial⟩] at h
    exact ⟨w, h⟩
  | zero | one | ident => exact hr.elim
  | neg a ih | vsum a ih | msum a ih | transposed a ih | pow a _ ih | det a ih | diag a ih | vget a _ ih | mget a _ _ ih | cof a _ _ ih =>
    obtain ⟨x, h1, _⟩ := bind_ok h
    exact ih hc.2 hr σ x h1
  | inv a ih | row a _ ih | col a _ ih =>
    obtain ⟨x, h1, _⟩ := bind_ok h
    exact ih hc.2 hr σ x h1
  | bin _ _ a b iha ihb | scale a b iha ihb | quot a b iha ihb | dot a b iha ihb | cross a b iha ihb | mul _ a b iha ihb =>
    obtain ⟨x, h1, h2⟩ := bind_ok h
    obtain ⟨y, h3, _⟩ := bind_ok h2
    exact hr.elim (fun hr => iha hc.2.1 hr σ x h1) fun hr => ihb hc.2.2 hr σ y h3
  | mulVec _ a b iha ihb =>
    obtain ⟨x, h1, h2⟩ := bind_ok h
    obtain ⟨y, h3, _⟩ := bind_ok h2
    exact hr.elim (fun hr => iha hc.2.1 hr σ x h1) fun hr => ihb hc.2.2 hr σ y h3
  | @gen n f ih =>
    simp only [Ex.eval, Ex.subst, generate_fin] at h
    rw [Vec.collect_finRange_ok_iff] at h
    obtain ⟨k, hk, hr⟩ := hr
    exact ih k (hc.2 k hk) hr σ _ (h ⟨k, hk⟩)
  | @mgen r c f ih =>
    simp only [Ex.eval, Ex.subst, matGenerate_fin] at h
    obtain ⟨w, h1, _⟩ := bind_ok h
    rw [Vec.collect_finRange_ok_iff] at h1
    obtain ⟨k, hk, l, hl, hr⟩ := hr
    have h2 := h1 ⟨k, hk⟩
    rw [Vec.collect_finRange_ok_iff] at h2
    exact ih (k, l) (hc.2 k hk l hl) hr σ _ (h2 ⟨l, hl⟩)
  | @map r c k f a ihf iha =>
    obtain ⟨x, h0, h⟩ := bind_ok h
    rcases hr with hr | ⟨hk, p, hp, q, hq, hr⟩
    · exact iha hc.2.1 hr σ x h0
    · rw [map_fin] at h
      obtain ⟨w, h1, _⟩ := bind_ok h
      rw [Vec.collect_finRange_ok_iff] at h1
      have h2 := h1 ⟨p, hp⟩
      rw [Vec.collect_finRange_ok_iff] at h2
      have h3 := h2 ⟨q, hq⟩
      simp only [if_neg hk] at h3
      obtain ⟨v, hv⟩ := ihf (p, q) (hc.2.2 p hp q hq) hr _ _ h3
      refine ⟨v, ?_⟩
      rw [← hv]
      refine C118_expressions t O d _ _ fun τ j hj => (put_other _ _ _ _ _ _ fun e => ?_).symm
      rw [e] at hj
      exact hc.1 hj

/-- C118: an expression in which `d` occurs has a value exactly if `d` has one and the expression has a value with a variable in place of
`d` that holds it, and then they are the same. -/
theorem C118_naming (e : Ex τ) (hc : e.NoCapture d) (hr : e.Reads (τ', i)) (σ : Store T) (w : Val T τ) :
    (Ex.subst i d e).eval t O σ = .ok w ↔ ∃ v, d.eval t O σ = .ok v ∧ e.eval t O (σ.put τ' i v) = .ok w := by
  constructor
  · intro h
    obtain ⟨v, hv⟩ := subst_strict t O i d e hc hr σ w h
    exact ⟨v, hv, by rw [← C118_substitute t O i d e hc σ v hv]; exact h⟩
  · rintro ⟨v, hv, h⟩
    rw [C118_substitute t O i d e hc σ v hv]; exact h

/-- C118: the program `x = d; y = e;` and the program `y = e;` with `d` written out for `x` end in the same cases, with the same values
in all variables except `x`. -/
theorem C118_inline (e : Ex τ) (j : Nat) (hc : e.NoCapture d) (hr : e.Reads (τ', i)) (σ : Store T) :
    (∀ σ', Run t O (.seq (.act (.set i d)) (.act (.set j e))) σ (.ok σ') →
      ∃ σ'', Run t O (.act (.set j (Ex.subst i d e))) σ (.ok σ'') ∧ σ'.Agree (fun x => x ≠ (τ', i) ∨ x = (τ, j)) σ'') ∧
    ∀ σ'', Run t O (.act (.set j (Ex.subst i d e))) σ (.ok σ'') →
      ∃ σ', Run t O (.seq (.act (.set i d)) (.act (.set j e))) σ (.ok σ') ∧ σ'.Agree (fun x => x ≠ (τ', i) ∨ x = (τ, j)) σ'' := by
  have agree : ∀ (v : Val T τ') (w : Val T τ),
      ((σ.put τ' i v).put τ j w).Agree (fun x => x ≠ (τ', i) ∨ x = (τ, j)) (σ.put τ j w) := by
    intro v w τ₁ k hk
    by_cases h1 : (τ₁, k) = (τ, j)
    · cases h1; rw [put_same, put_same]
    · rw [put_other _ _ _ _ _ _ h1, put_other _ _ _ _ _ _ h1, put_other _ _ _ _ _ _ (hk.resolve_right h1)]
  constructor
  · intro σ' h
    generalize hx : (Except.ok σ' : Res (Store T)) = x at h
    cases h with
    | @seq _ _ _ σ₁ _ h1 h2 =>
      generalize hy : (Except.ok σ₁ : Res (Store T)) = y at h1
      cases h1
      obtain ⟨v, hv, h3⟩ := bind_ok hy.symm
      cases h3
      cases h2
      obtain ⟨w, hw, h4⟩ := bind_ok hx.symm
      cases h4
      refine ⟨σ.put τ j w, ?_, agree v w⟩
      have : (Act.set j (Ex.subst i d e)).exec t O σ = .ok (σ.put τ j w) := by
        rw [Act.exec, (C118_naming t O i d e hc hr σ w).2 ⟨v, hv, hw⟩]; rfl
      rw [← this]
      exact .act _ _
    | seqFault => cases hx
  · intro σ'' h
    generalize hx : (Except.ok σ'' : Res (Store T)) = x at h
    cases h
    obtain ⟨w, hw, h4⟩ := bind_ok hx.symm
    cases h4
    obtain ⟨v, hv, h5⟩ := (C118_naming t O i d e hc hr σ w).1 hw
    refine ⟨(σ.put τ' i v).put τ j w, ?_, agree v w⟩
    have e1 : (Act.set i d).exec t O σ = .ok (σ.put τ' i v) := by rw [Act.exec, hv]; rfl
    have e2 : (Act.set j e).exec t O (σ.put τ' i v) = .ok ((σ.put τ' i v).put τ j w) := by rw [Act.exec, h5]; rfl
    have r1 : Run t O (.act (.set i d)) σ (.ok (σ.put τ' i v)) := by rw [← e1]; exact .act _ _
    have r2 : Run t O (.act (.set j e)) (σ.put τ' i v) (.ok ((σ.put τ' i v).put τ j w)) := by rw [← e2]; exact .act _ _
    exact .seq r1 r2

/-- C118: and they panic in the same cases. -/
theorem C118_inline_panics (e : Ex τ) (j : Nat) (hc : e.NoCapture d) (hr : e.Reads (τ', i)) (σ : Store T) :
    (∃ f, Run t O (.seq (.act (.set i d)) (.act (.set j e))) σ (.error f)) ↔
      ∃ f, Run t O (.act (.set j (Ex.subst i d e))) σ (.error f) := by
  obtain ⟨h1, h2⟩ := C118_inline t O i d e j hc hr σ
  have one : ∃ x, Run t O (.seq (.act (.set i d)) (.act (.set j e))) σ x := by
    cases h : (Act.set i d).exec t O σ with
    | error f => exact ⟨.error f, .seqFault (by rw [← h]; exact .act _ _)⟩
    | ok σ₁ => exact ⟨_, .seq (σ' := σ₁) (by rw [← h]; exact .act _ _) (.act _ _)⟩
  obtain ⟨x, hx⟩ := one
  have hy : Run t O (.act (.set j (Ex.subst i d e))) σ _ := .act _ _
  generalize (Act.set j (Ex.subst i d e)).exec t O σ = y at hy
  constructor
  · rintro ⟨f, hf⟩
    cases y with
    | error g => exact ⟨g, hy⟩
    | ok σ₁ =>
      obtain ⟨σ', r, _⟩ := h2 σ₁ hy
      cases C100_deterministic t _ σ _ _ hf r
  · rintro ⟨f, hf⟩
    cases x with
    | error g => exact ⟨g, hx⟩
    | ok σ₁ =>
      obtain ⟨σ', r, _⟩ := h1 σ₁ hx
      cases C100_deterministic t _ σ _ _ hf r

/-! ## Hoisting -/

theorem after_put (σ : Store T) (v : Val T τ') (τ : Ty) (j : Nat) (h : (τ, j) ≠ (τ', i)) (r : Val T τ → Res Unit × Val T τ) :
    (σ.put τ' i v).after τ j (r ((σ.put τ' i v) τ j)) = (σ.after τ j (r (σ τ j))).map fun ρ => ρ.put τ' i v := by
  rw [put_other _ _ _ _ _ _ h]
  unfold Store.after
  cases (r (σ τ j)).1 with
  | error e => rfl
  | ok _ => exact congrArg Except.ok (put_comm _ _ _ _ _ _ _ h)

theorem bind_map {α : Type} {x x' : Res α} {f f' : α → Res (Store T)} {g : Store T → Store T} (h : x' = x)
    (hf : ∀ a, f a = (f' a).map g) : (x >>= f) = (x' >>= f').map g := by
  subst h
  cases x' with
  | ok a => exact hf a
  | error e => rfl

theorem subst_exec (a : Act) (hc : a.NoCapture d) (hw : a.target ≠ (τ', i)) (σ : Store T) (v : Val T τ') (h : d.eval t O σ = .ok v) :
    a.exec t O (σ.put τ' i v) = ((a.subst i d).exec t O σ).map fun ρ => ρ.put τ' i v := by
  cases a with
  | set j e => exact bind_map (C118_substitute t O i d e hc σ v h) fun w => congrArg Except.ok (put_comm _ _ _ _ _ _ _ hw)
  | @upd τ o j e => exact bind_map (C118_substitute t O i d e hc σ v h) fun w => after_put i σ v τ j hw fun x => Val.upd O o τ x w
  | updScale τ j e => exact bind_map (C118_substitute t O i d e hc σ v h) fun w => after_put i σ v τ j hw fun x => Val.updScale O τ x w
  | updQuot τ j e => exact bind_map (C118_substitute t O i d e hc σ v h) fun w => after_put i σ v τ j hw fun x => Val.updQuot O τ x w
  | @updMul n j e => exact bind_map (C118_substitute t O i d e hc σ v h) fun w => after_put i σ v (.m n n) j hw fun x => Mat.mulAssign t O x w
  | transpose n j => exact after_put i σ v (.m n n) j hw fun x => Mat.transpose t x
  | vset n j k e =>
    refine bind_map (C118_substitute t O i d e hc σ v h) fun w => ?_
    rw [put_other _ _ _ _ _ _ hw]
    exact bind_map rfl fun u => congrArg Except.ok (put_comm _ _ _ _ _ _ _ hw)
  | mset r c j k l e =>
    refine bind_map (C118_substitute t O i d e hc σ v h) fun w => ?_
    rw [put_other _ _ _ _ _ _ hw]
    exact bind_map rfl fun u => congrArg Except.ok (put_comm _ _ _ _ _ _ _ hw)

theorem subst_writes (p : Stmt) (x : Var) : (p.subst i d).Writes x ↔ p.Writes x := by
  induction p with
  | skip => exact Iff.rfl
  | act a => cases a <;> exact Iff.rfl
  | seq p q ih1 ih2 | ite e p q ih1 ih2 => exact or_congr ih1 ih2
  | loop b e p ih => exact ih

/-- The value of `d` is the same after a program that writes nothing it reads. -/
theorem keep (p : Stmt) (hw : ∀ x, p.Writes x → ¬ d.Reads x) {σ σ' : Store T} {v : Val T τ'} (h : d.eval t O σ = .ok v)
    (hr : Run t O (p.subst i d) σ (.ok σ')) : d.eval t O σ' = .ok v := by
  rw [← h]
  exact C118_expressions t O d σ' σ ((C118_frame t O _ σ σ' hr).mono fun x hx hw' => hw x ((subst_writes i d p x).1 hw') hx)

theorem hoist_mp (p : Stmt) (hc : p.NoCapture d) (hw : ∀ x, p.Writes x → x ≠ (τ', i) ∧ ¬ d.Reads x) (σ : Store T) (v : Val T τ')
    (h : d.eval t O σ = .ok v) (x : Res (Store T)) (hr : Run t O (p.subst i d) σ x) :
    Run t O p (σ.put τ' i v) (x.map fun ρ => ρ.put τ' i v) := by
  generalize hq : p.subst i d = q at hr
  induction hr generalizing p with
  | skip σ => cases p <;> cases hq; exact .skip _
  | act a σ =>
    cases p <;> cases hq
    rw [← subst_exec t O i d _ hc (hw _ rfl).1 σ v h]
    exact .act _ _
  | @seq _ _ σ σ₁ x h1 h2 ih1 ih2 =>
    cases p <;> cases hq
    exact .seq (ih1 _ hc.1 (fun x hx => hw x (.inl hx)) h rfl)
      (ih2 _ hc.2 (fun x hx => hw x (.inr hx)) (keep t O i d _ (fun x hx => (hw x (.inl hx)).2) h h1) rfl)
  | seqFault h1 ih1 =>
    cases p <;> cases hq
    exact .seqFault (ih1 _ hc.1 (fun x hx => hw x (.inl hx)) h rfl)
  | iteZero h0 hz h1 ih =>
    cases p <;> cases hq
    exact .iteZero ((C118_substitute t O i d _ hc.1 _ v h).symm.trans h0) hz (ih _ hc.2.1 (fun x hx => hw x (.inl hx)) h rfl)
  | iteElse h0 hz h1 ih =>
    cases p <;> cases hq
    exact .iteElse ((C118_substitute t O i d _ hc.1 _ v h).symm.trans h0) hz (ih _ hc.2.2 (fun x hx => hw x (.inr hx)) h rfl)
  | iteFault h0 =>
    cases p <;> cases hq
    exact .iteFault ((C118_substitute t O i d _ hc.1 _ v h).symm.trans h0)
  | loopGo h0 hz h1 h2 ih1 ih2 =>
    cases p <;> cases hq
    exact .loopGo ((C118_substitute t O i d _ hc.1 _ v h).symm.trans h0) hz (ih1 _ hc.2 hw h rfl)
      (ih2 (.loop _ _ _) hc hw (keep t O i d _ (by exact fun x hx => (hw x hx).2) h h1) rfl)
  | loopBody h0 hz h1 ih1 =>
    cases p <;> cases hq
    exact .loopBody ((C118_substitute t O i d _ hc.1 _ v h).symm.trans h0) hz (ih1 _ hc.2 hw h rfl)
  | loopEnd h0 hz =>
    cases p <;> cases hq
    exact .loopEnd ((C118_substitute t O i d _ hc.1 _ v h).symm.trans h0) hz
  | loopFault h0 =>
    cases p <;> cases hq
    exact .loopFault ((C118_substitute t O i d _ hc.1 _ v h).symm.trans h0)

theorem hoist_mpr (p : Stmt) (hc : p.NoCapture d) (hw : ∀ x, p.Writes x → x ≠ (τ', i) ∧ ¬ d.Reads x) (σ : Store T) (v : Val T τ')
    (h : d.eval t O σ = .ok v) (y : Res (Store T)) (hr : Run t O p (σ.put τ' i v) y) :
    ∃ x, Run t O (p.subst i d) σ x ∧ y = x.map fun ρ => ρ.put τ' i v := by
  generalize hρ : σ.put τ' i v = ρ at hr
  induction hr generalizing σ with
  | skip ρ => exact ⟨.ok σ, .skip σ, by rw [← hρ]; rfl⟩
  | act a ρ => exact ⟨_, .act _ σ, by rw [← hρ]; exact subst_exec t O i d _ hc (hw _ rfl).1 σ v h⟩
  | seq h1 h2 ih1 ih2 =>
    obtain ⟨x, r1, e1⟩ := ih1 hc.1 (fun x hx => hw x (.inl hx)) σ h hρ
    match x, e1 with
    | .ok σ₁, e1 =>
      cases e1
      obtain ⟨x, r2, e2⟩ := ih2 hc.2 (fun x hx => hw x (.inr hx)) σ₁ (keep t O i d _ (fun x hx => (hw x (.inl hx)).2) h r1) rfl
      exact ⟨x, .seq r1 r2, e2⟩
  | seqFault h1 ih1 =>
    obtain ⟨x, r1, e1⟩ := ih1 hc.1 (fun x hx => hw x (.inl hx)) σ h hρ
    match x, e1 with
    | .error e, e1 => cases e1; exact ⟨_, .seqFault r1, rfl⟩
  | iteZero h0 hz h1 ih =>
    subst hρ
    obtain ⟨x, r1, e1⟩ := ih hc.2.1 (fun x hx => hw x (.inl hx)) σ h rfl
    exact ⟨x, .iteZero ((C118_substitute t O i d _ hc.1 _ v h).trans h0) hz r1, e1⟩
  | iteElse h0 hz h1 ih =>
    subst hρ
    obtain ⟨x, r1, e1⟩ := ih hc.2.2 (fun x hx => hw x (.inr hx)) σ h rfl
    exact ⟨x, .iteElse ((C118_substitute t O i d _ hc.1 _ v h).trans h0) hz r1, e1⟩
  | iteFault h0 =>
    subst hρ
    exact ⟨_, .iteFault ((C118_substitute t O i d _ hc.1 _ v h).trans h0), rfl⟩
  | loopGo h0 hz h1 h2 ih1 ih2 =>
    subst hρ
    obtain ⟨x, r1, e1⟩ := ih1 hc.2 hw σ h rfl
    match x, e1 with
    | .ok σ₁, e1 =>
      cases e1
      obtain ⟨x, r2, e2⟩ := ih2 hc hw σ₁ (keep t O i d _ (by exact fun x hx => (hw x hx).2) h r1) rfl
      exact ⟨x, .loopGo ((C118_substitute t O i d _ hc.1 _ v h).trans h0) hz r1 r2, e2⟩
  | loopBody h0 hz h1 ih1 =>
    subst hρ
    obtain ⟨x, r1, e1⟩ := ih1 hc.2 hw σ h rfl
    match x, e1 with
    | .error e, e1 => cases e1; exact ⟨_, .loopBody ((C118_substitute t O i d _ hc.1 _ v h).trans h0) hz r1, rfl⟩
  | loopEnd h0 hz =>
    subst hρ
    exact ⟨_, .loopEnd ((C118_substitute t O i d _ hc.1 _ v h).trans h0) hz, rfl⟩
  | loopFault h0 =>
    subst hρ
    exact ⟨_, .loopFault ((C118_substitute t O i d _ hc.1 _ v h).trans h0), rfl⟩

/-- C118: a subexpression `d` of a program (of a loop, for instance) of which the program changes no variable can be computed once,
before the program, into a variable the program does not assign: if `d` has a value at the start, then with `d` written out in every
place and with `x = d;` in front the program does the same - panic, run forever, return the same values - except for the value of `x`. -/
theorem C118_hoist (p : Stmt) (hc : p.NoCapture d) (hw : ∀ x, p.Writes x → x ≠ (τ', i) ∧ ¬ d.Reads x) (σ : Store T) (v : Val T τ')
    (h : d.eval t O σ = .ok v) :
    (∀ x, Run t O (p.subst i d) σ x →
      ∃ y, Run t O (.seq (.act (.set i d)) p) σ y ∧ AgreeOut (fun z => z ≠ (τ', i)) x y) ∧
    ∀ y, Run t O (.seq (.act (.set i d)) p) σ y → ∃ x, Run t O (p.subst i d) σ x ∧ AgreeOut (fun z => z ≠ (τ', i)) x y := by
  have first : (Act.set i d).exec t O σ = .ok (σ.put τ' i v) := by rw [Act.exec, h]; rfl
  have r1 : Run t O (.act (.set i d)) σ (.ok (σ.put τ' i v)) := by rw [← first]; exact .act _ _
  have agree : ∀ x : Res (Store T), AgreeOut (fun z => z ≠ (τ', i)) x (x.map fun ρ => ρ.put τ' i v) := by
    intro x
    cases x with
    | ok ρ => exact fun τ j hj => (put_other _ _ _ _ _ _ hj).symm
    | error e => exact rfl
  constructor
  · exact fun x hx => ⟨_, .seq r1 (hoist_mp t O i d p hc hw σ v h x hx), agree x⟩
  · intro y hy
    cases hy with
    | seq h1 h2 =>
      have := C100_deterministic t _ σ _ _ h1 r1
      cases this
      obtain ⟨x, hx, e⟩ := hoist_mpr t O i d p hc hw σ v h y h2
      exact ⟨x, hx, by rw [e]; exact agree x⟩
    | seqFault h1 =>
      have := C100_deterministic t _ σ _ _ h1 r1
      cases this

end Subst

/-! ## Renaming -/

section Rename
variable (t : Target) (O : Ops T) (ρ : Ty → Nat → Nat) (hi : ∀ τ, Function.Injective (ρ τ))
include hi

theorem via_put (σ : Store T) (τ : Ty) (i : Nat) (x : Val T τ) : (σ.put τ (ρ τ i) x).via ρ = (σ.via ρ).put τ i x := by
  refine store_ext fun τ' j => ?_
  by_cases h : (τ', j) = (τ, i)
  · cases h; rw [put_same]; exact put_same _ _ _ _
  · rw [put_other _ _ _ _ _ _ h]
    refine put_other _ _ _ _ _ _ fun e => h ?_
    obtain ⟨rfl, e⟩ := Prod.mk.inj e
    rw [hi _ e]

theorem rename_eval (e : Ex τ) (σ : Store T) : (Ex.rename ρ e).eval t O σ = e.eval t O (σ.via ρ) := by
  induction e generalizing σ with
  | var | zero | one | ident => rfl
  | neg a ih | vsum a ih | msum a ih | transposed a ih | pow a _ ih | det a ih | diag a ih | vget a _ ih | mget a _ _ ih | cof a _ _ ih =>
    simp only [Ex.eval, Ex.rename, ih]
  | inv a ih | row a _ ih | col a _ ih => simp only [Ex.eval, Ex.rename, ih]
  | bin _ _ a b iha ihb | scale a b iha ihb | quot a b iha ihb | dot a b iha ihb | cross a b iha ihb | mul _ a b iha ihb =>
    simp only [Ex.eval, Ex.rename, iha, ihb]
  | mulVec _ a b iha ihb => simp only [Ex.eval, Ex.rename, iha, ihb]
  | gen f ih => simp only [Ex.eval, Ex.rename, ih]
  | mgen f ih => simp only [Ex.eval, Ex.rename, ih]
  | map k f a ihf iha => simp only [Ex.eval, Ex.rename, iha, ihf, via_put ρ hi]

theorem after_via (σ : Store T) (τ : Ty) (j : Nat) (r : Val T τ → Res Unit × Val T τ) :
    (σ.via ρ).after τ j (r ((σ.via ρ) τ j)) = (σ.after τ (ρ τ j) (r (σ τ (ρ τ j)))).map (Store.via ρ) := by
  unfold Store.after
  change (match (r (σ τ (ρ τ j))).1 with | _ => _) = _
  cases h : (r (σ τ (ρ τ j))).1 with
  | error e => simp only [Store.via, h]; rfl
  | ok _ => simp only [Store.via, h]; exact congrArg Except.ok (via_put ρ hi _ _ _ _).symm

theorem rename_exec (a : Act) (σ : Store T) : a.exec t O (σ.via ρ) = ((a.rename ρ).exec t O σ).map (Store.via ρ) := by
  cases a with
  | set j e => exact bind_map (rename_eval t O ρ hi e σ) fun w => congrArg Except.ok (via_put ρ hi _ _ _ _).symm
  | @upd τ o j e => exact bind_map (rename_eval t O ρ hi e σ) fun w => after_via ρ hi σ τ j fun x => Val.upd O o τ x w
  | updScale τ j e => exact bind_map (rename_eval t O ρ hi e σ) fun w => after_via ρ hi σ τ j fun x => Val.updScale O τ x w
  | updQuot τ j e => exact bind_map (rename_eval t O ρ hi e σ) fun w => after_via ρ hi σ τ j fun x => Val.updQuot O τ x w
  | @updMul n j e => exact bind_map (rename_eval t O ρ hi e σ) fun w => after_via ρ hi σ (.m n n) j fun x => Mat.mulAssign t O x w
  | transpose n j => exact after_via ρ hi σ (.m n n) j fun x => Mat.transpose t x
  | vset n j k e =>
    exact bind_map (rename_eval t O ρ hi e σ) fun w => bind_map rfl fun u => congrArg Except.ok (via_put ρ hi _ _ _ _).symm
  | mset r c j k l e =>
    exact bind_map (rename_eval t O ρ hi e σ) fun w => bind_map rfl fun u => congrArg Except.ok (via_put ρ hi _ _ _ _).symm

theorem rename_mp (p : Stmt) (σ : Store T) (x : Res (Store T)) (hr : Run t O (p.rename ρ) σ x) :
    Run t O p (σ.via ρ) (x.map (Store.via ρ)) := by
  generalize hq : p.rename ρ = q at hr
  induction hr generalizing p with
  | skip σ => cases p <;> cases hq; exact .skip _
  | act a σ =>
    cases p <;> cases hq
    rw [← rename_exec t O ρ hi _ σ]
    exact .act _ _
  | seq h1 h2 ih1 ih2 => cases p <;> cases hq; exact .seq (ih1 _ rfl) (ih2 _ rfl)
  | seqFault h1 ih1 => cases p <;> cases hq; exact .seqFault (ih1 _ rfl)
  | iteZero h0 hz h1 ih => cases p <;> cases hq; exact .iteZero ((rename_eval t O ρ hi _ _).symm.trans h0) hz (ih _ rfl)
  | iteElse h0 hz h1 ih => cases p <;> cases hq; exact .iteElse ((rename_eval t O ρ hi _ _).symm.trans h0) hz (ih _ rfl)
  | iteFault h0 => cases p <;> cases hq; exact .iteFault ((rename_eval t O ρ hi _ _).symm.trans h0)
  | loopGo h0 hz h1 h2 ih1 ih2 =>
    cases p <;> cases hq
    exact .loopGo ((rename_eval t O ρ hi _ _).symm.trans h0) hz (ih1 _ rfl) (ih2 (.loop _ _ _) rfl)
  | loopBody h0 hz h1 ih1 => cases p <;> cases hq; exact .loopBody ((rename_eval t O ρ hi _ _).symm.trans h0) hz (ih1 _ rfl)
  | loopEnd h0 hz => cases p <;> cases hq; exact .loopEnd ((rename_eval t O ρ hi _ _).symm.trans h0) hz
  | loopFault h0 => cases p <;> cases hq; exact .loopFault ((rename_eval t O ρ hi _ _).symm.trans h0)

theorem rename_mpr (p : Stmt) (σ : Store T) (y : Res (Store T)) (hr : Run t O p (σ.via ρ) y) :
    ∃ x, Run t O (p.rename ρ) σ x ∧ y = x.map (Store.via ρ) := by
  generalize hs : σ.via ρ = s at hr
  induction hr generalizing σ with
  | skip s => exact ⟨.ok σ, .skip σ, by rw [← hs]; rfl⟩
  | act a s => exact ⟨_, .act _ σ, by rw [← hs]; exact rename_exec t O ρ hi _ σ⟩
  | seq h1 h2 ih1 ih2 =>
    obtain ⟨x, r1, e1⟩ := ih1 σ hs
    match x, e1 with
    | .ok σ₁, e1 =>
      cases e1
      obtain ⟨x, r2, e2⟩ := ih2 σ₁ rfl
      exact ⟨x, .seq r1 r2, e2⟩
  | seqFault h1 ih1 =>
    obtain ⟨x, r1, e1⟩ := ih1 σ hs
    match x, e1 with
    | .error e, e1 => cases e1; exact ⟨_, .seqFault r1, rfl⟩
  | iteZero h0 hz h1 ih =>
    subst hs
    obtain ⟨x, r1, e1⟩ := ih σ rfl
    exact ⟨x, .iteZero ((rename_eval t O ρ hi _ _).trans h0) hz r1, e1⟩
  | iteElse h0 hz h1 ih =>
    subst hs
    obtain ⟨x, r1, e1⟩ := ih σ rfl
    exact ⟨x, .iteElse ((rename_eval t O ρ hi _ _).trans h0) hz r1, e1⟩
  | iteFault h0 =>
    subst hs
    exact ⟨_, .iteFault ((rename_eval t O ρ hi _ _).trans h0), rfl⟩
  | loopGo h0 hz h1 h2 ih1 ih2 =>
    subst hs
    obtain ⟨x, r1, e1⟩ := ih1 σ rfl
    match x, e1 with
    | .ok σ₁, e1 =>
      cases e1
      obtain ⟨x, r2, e2⟩ := ih2 σ₁ rfl
      exact ⟨x, .loopGo ((rename_eval t O ρ hi _ _).trans h0) hz r1 r2, e2⟩
  | loopBody h0 hz h1 ih1 =>
    subst hs
    obtain ⟨x, r1, e1⟩ := ih1 σ rfl
    match x, e1 with
    | .error e, e1 => cases e1; exact ⟨_, .loopBody ((rename_eval t O ρ hi _ _).trans h0) hz r1, rfl⟩
  | loopEnd h0 hz =>
    subst hs
    exact ⟨_, .loopEnd ((rename_eval t O ρ hi _ _).trans h0) hz, rfl⟩
  | loopFault h0 =>
    subst hs
    exact ⟨_, .loopFault ((rename_eval t O ρ hi _ _).trans h0), rfl⟩

omit hi in
theorem rename_writes (p : Stmt) (x : Var) (h : (p.rename ρ).Writes x) : ∃ i, x.2 = ρ x.1 i := by
  induction p with
  | skip => exact h.elim
  | act a => cases a <;> (cases h; exact ⟨_, rfl⟩)
  | seq p q ih1 ih2 | ite e p q ih1 ih2 => exact h.elim ih1 ih2
  | loop b e p ih => exact ih h

/-- C118: a program does the same with other variables, as long as different variables get different names (a function can be called
with any variables): the renamed program started with some values does to the renamed variables what the program does to the
variables, and leaves all others as they are. -/
theorem C118_rename (p : Stmt) (σ : Store T) :
    (∀ x, Run t O (p.rename ρ) σ x → Run t O p (σ.via ρ) (x.map (Store.via ρ))) ∧
    (∀ y, Run t O p (σ.via ρ) y → ∃ x, Run t O (p.rename ρ) σ x ∧ y = x.map (Store.via ρ)) ∧
    ∀ σ', Run t O (p.rename ρ) σ (.ok σ') → ∀ τ j, (∀ i, j ≠ ρ τ i) → σ' τ j = σ τ j :=
  ⟨rename_mp t O ρ hi p σ, rename_mpr t O ρ hi p σ, fun σ' h τ j hj =>
    C118_frame t O _ σ σ' h τ j fun hw => (rename_writes ρ p (τ, j) hw).elim hj⟩

end Rename

/-! ## Rewriting -/

/-- C118: programs that can be rewritten into each other do the same. -/
theorem C118_alike (t : Target) {p q : Stmt} (h : p.Alike t q) (O : Ops T) (σ : Store T) (x : Res (Store T)) :
    Run t O p σ x ↔ Run t O q σ x := by
  induction h generalizing σ x with
  | refl p => exact Iff.rfl
  | symm _ ih => exact (ih σ x).symm
  | trans _ _ ih1 ih2 => exact (ih1 σ x).trans (ih2 σ x)
  | @act a b h =>
    constructor
    · intro hr; cases hr; rw [h T O σ]; exact .act _ _
    · intro hr; cases hr; rw [← h T O σ]; exact .act _ _
  | seq _ _ ih1 ih2 =>
    constructor
    · intro hr
      cases hr with
      | seq h1 h2 => exact .seq ((ih1 _ _).1 h1) ((ih2 _ _).1 h2)
      | seqFault h1 => exact .seqFault ((ih1 _ _).1 h1)
    · intro hr
      cases hr with
      | seq h1 h2 => exact .seq ((ih1 _ _).2 h1) ((ih2 _ _).2 h2)
      | seqFault h1 => exact .seqFault ((ih1 _ _).2 h1)
  | ite he _ _ ih1 ih2 =>
    constructor
    · intro hr
      cases hr with
      | iteZero h0 hz h1 => exact .iteZero (he T O σ ▸ h0) hz ((ih1 _ _).1 h1)
      | iteElse h0 hz h1 => exact .iteElse (he T O σ ▸ h0) hz ((ih2 _ _).1 h1)
      | iteFault h0 => exact .iteFault (he T O σ ▸ h0)
    · intro hr
      cases hr with
      | iteZero h0 hz h1 => exact .iteZero ((he T O σ).trans h0) hz ((ih1 _ _).2 h1)
      | iteElse h0 hz h1 => exact .iteElse ((he T O σ).trans h0) hz ((ih2 _ _).2 h1)
      | iteFault h0 => exact .iteFault ((he T O σ).trans h0)
  | @loop τ e e' b p p' he _ ih =>
    have go : ∀ {e e' : Ex τ} {p p' : Stmt}, e.Alike t e' → (∀ σ x, Run t O p σ x → Run t O p' σ x) → ∀ σ x,
        Run t O (.loop b e p) σ x → Run t O (.loop b e' p') σ x := by
      intro e e' p p' he ih σ x hr
      generalize hl : Stmt.loop b e p = l at hr
      induction hr with
      | loopGo h0 hz h1 _ _ ih2 => cases hl; exact .loopGo ((he T O _).symm.trans h0) hz (ih _ _ h1) (ih2 rfl)
      | loopBody h0 hz h1 _ => cases hl; exact .loopBody ((he T O _).symm.trans h0) hz (ih _ _ h1)
      | loopEnd h0 hz => cases hl; exact .loopEnd ((he T O _).symm.trans h0) hz
      | loopFault h0 => cases hl; exact .loopFault ((he T O _).symm.trans h0)
      | _ => cases hl
    exact ⟨go he (fun σ x => (ih σ x).1) σ x, go (fun T O σ => (he T O σ).symm) (fun σ x => (ih σ x).2) σ x⟩
  | skipLeft p =>
    constructor
    · intro hr
      cases hr with
      | seq h1 h2 => cases h1; exact h2
      | seqFault h1 => cases h1
    · exact fun hr => .seq (.skip σ) hr
  | skipRight p =>
    constructor
    · intro hr
      cases hr with
      | seq h1 h2 => cases h2; exact h1
      | seqFault h1 => exact h1
    · intro hr
      cases x with
      | ok σ' => exact .seq hr (.skip σ')
      | error e => exact .seqFault hr
  | assoc p q r =>
    constructor
    · intro hr
      cases hr with
      | seq h1 h2 => cases h1 with | seq h3 h4 => exact .seq h3 (.seq h4 h2)
      | seqFault h1 =>
        cases h1 with
        | seq h3 h4 => exact .seq h3 (.seqFault h4)
        | seqFault h3 => exact .seqFault h3
    · intro hr
      cases hr with
      | seq h1 h2 =>
        cases h2 with
        | seq h3 h4 => exact .seq (.seq h1 h3) h4
        | seqFault h3 => exact .seqFault (.seq h1 h3)
      | seqFault h1 => exact .seqFault (.seqFault h1)
  | iteSeq e p q r =>
    constructor
    · intro hr
      cases hr with
      | seq h1 h2 =>
        cases h1 with
        | iteZero h0 hz h3 => exact .iteZero h0 hz (.seq h3 h2)
        | iteElse h0 hz h3 => exact .iteElse h0 hz (.seq h3 h2)
      | seqFault h1 =>
        cases h1 with
        | iteZero h0 hz h3 => exact .iteZero h0 hz (.seqFault h3)
        | iteElse h0 hz h3 => exact .iteElse h0 hz (.seqFault h3)
        | iteFault h0 => exact .iteFault h0
    · intro hr
      cases hr with
      | iteZero h0 hz h1 =>
        cases h1 with
        | seq h3 h4 => exact .seq (.iteZero h0 hz h3) h4
        | seqFault h3 => exact .seqFault (.iteZero h0 hz h3)
      | iteElse h0 hz h1 =>
        cases h1 with
        | seq h3 h4 => exact .seq (.iteElse h0 hz h3) h4
        | seqFault h3 => exact .seqFault (.iteElse h0 hz h3)
      | iteFault h0 => exact .seqFault (.iteFault h0)
  | unroll e p =>
    constructor
    · intro hr
      cases hr with
      | loopGo h0 hz h1 h2 => exact .iteZero h0 hz (.seq h1 h2)
      | loopBody h0 hz h1 => exact .iteZero h0 hz (.seqFault h1)
      | loopEnd h0 hz => exact .iteElse h0 hz (.skip σ)
      | loopFault h0 => exact .iteFault h0
    · intro hr
      cases hr with
      | iteZero h0 hz h1 =>
        cases h1 with
        | seq h3 h4 => exact .loopGo h0 hz h3 h4
        | seqFault h3 => exact .loopBody h0 hz h3
      | iteElse h0 hz h1 => cases h1; exact .loopEnd h0 hz
      | iteFault h0 => exact .loopFault h0
  | unrollNot e p =>
    constructor
    · intro hr
      cases hr with
      | loopGo h0 hz h1 h2 => exact .iteElse h0 hz (.seq h1 h2)
      | loopBody h0 hz h1 => exact .iteElse h0 hz (.seqFault h1)
      | loopEnd h0 hz => exact .iteZero h0 hz (.skip σ)
      | loopFault h0 => exact .iteFault h0
    · intro hr
      cases hr with
      | iteElse h0 hz h1 =>
        cases h1 with
        | seq h3 h4 => exact .loopGo h0 hz h3 h4
        | seqFault h3 => exact .loopBody h0 hz h3
      | iteZero h0 hz h1 => cases h1; exact .loopEnd h0 hz
      | iteFault h0 => exact .loopFault h0

/-- C118: in any context, an expression can be replaced with one that gives the same results. -/
theorem C118_contexts (t : Target) {τ' : Ty} (i : Nat) {d d' : Ex τ'} (h : d.Alike t d') (e : Ex τ) :
    (Ex.subst i d e).Alike t (Ex.subst i d' e) := by
  intro T O σ
  induction e generalizing σ with
  | var τ j =>
    simp only [Ex.subst]
    split
    · rename_i hh
      obtain ⟨rfl, rfl⟩ := hh
      exact h T O σ
    · rfl
  | zero | one | ident => rfl
  | neg a ih | vsum a ih | msum a ih | transposed a ih | pow a _ ih | det a ih | diag a ih | vget a _ ih | mget a _ _ ih | cof a _ _ ih =>
    simp only [Ex.eval, Ex.subst, ih σ]
  | inv a ih | row a _ ih | col a _ ih => simp only [Ex.eval, Ex.subst, ih σ]
  | bin _ _ a b iha ihb | scale a b iha ihb | quot a b iha ihb | dot a b iha ihb | cross a b iha ihb | mul _ a b iha ihb =>
    simp only [Ex.eval, Ex.subst, iha σ, ihb σ]
  | mulVec _ a b iha ihb => simp only [Ex.eval, Ex.subst, iha σ, ihb σ]
  | @gen n f ih => simp only [Ex.eval, Ex.subst, fun k => ih k σ]
  | @mgen r c f ih => simp only [Ex.eval, Ex.subst, fun k => ih k σ]
  | @map r c k f a ihf iha =>
    simp only [Ex.eval, Ex.subst, iha σ]
    congr 1; funext x; congr 1; funext p y
    split
    · rfl
    · exact ihf p _

theorem bin_forms (t : Target) (O : Ops T) (o : Bin) (f g : Form) (τ : Ty) (x y : Val T τ) :
    Val.bin t O o f τ x y = Val.bin t O o g τ x y := by
  have hv : ∀ (f : Form) (n : Nat) (x y : Vec T n), Val.bin t O o f (.v n) x y = Val.bin t O o .vv (.v n) x y := by
    intro f n x y
    have e : Val.bin t O o .vv (.v n) x y = _ := vecForms_eq t (o.fn O) (Vec.opVV t (o.fn O)) (by simp [vecForms]) x y
    rw [e]
    cases f
    · exact e
    · exact vecForms_eq t (o.fn O) (Vec.opVR t (o.fn O)) (by simp [vecForms]) x y
    · exact vecForms_eq t (o.fn O) (Vec.opRV t (o.fn O)) (by simp [vecForms]) x y
    · exact vecForms_eq t (o.fn O) (Vec.opRR t (o.fn O)) (by simp [vecForms]) x y
  have hm : ∀ (f : Form) (r c : Nat) (x y : Mat T r c), Val.bin t O o f (.m r c) x y = Val.bin t O o .vv (.m r c) x y := by
    intro f r c x y
    have e : Val.bin t O o .vv (.m r c) x y = _ := matForms_eq t (o.fn O) (Mat.opVV t (o.fn O)) (by simp [matForms]) x y
    rw [e]
    cases f
    · exact e
    · exact matForms_eq t (o.fn O) (Mat.opVR t (o.fn O)) (by simp [matForms]) x y
    · exact matForms_eq t (o.fn O) (Mat.opRV t (o.fn O)) (by simp [matForms]) x y
    · exact matForms_eq t (o.fn O) (Mat.opRR t (o.fn O)) (by simp [matForms]) x y
  match τ with
  | .s => cases f <;> cases g <;> rfl
  | .v n => rw [hv f, hv g]
  | .m r c => rw [hm f, hm g]

/-- C118: an operator gives the same for operands passed by value and by reference. -/
theorem C118_forms (t : Target) {l n c : Nat} (o : Bin) (f g : Form) (x y : Ex τ) (a : Ex (.m l n)) (b : Ex (.m n c)) (v : Ex (.v n))
    (hl : l < t.W) (hn : n < t.W) (hc : c < t.W) :
    (Ex.bin o f x y).Alike t (.bin o g x y) ∧ (Ex.mul f a b).Alike t (.mul g a b) ∧ (Ex.mulVec true a v).Alike t (.mulVec false a v) := by
  refine ⟨fun T O σ => ?_, fun T O σ => ?_, fun T O σ => ?_⟩
  · simp only [Ex.eval, bin_forms t O o f g]
  · have h : ∀ f : Form, ∀ x y, f.mul t O x y = Form.mul t O (l := l) (n := n) (c := c) .vv x y := by
      intro f x y
      have e : Form.mul t O .vv x y = _ := mulForms_eq t O (Mat.mulVV t O) (by simp [mulForms]) x y hl hn hc
      rw [e]
      cases f
      · exact e
      · exact mulForms_eq t O (Mat.mulVR t O) (by simp [mulForms]) x y hl hn hc
      · exact mulForms_eq t O (Mat.mulRV t O) (by simp [mulForms]) x y hl hn hc
      · exact mulForms_eq t O (Mat.mulRR t O) (by simp [mulForms]) x y hl hn hc
    simp only [Ex.eval, h f, h g]
  · simp only [Ex.eval, (mulVec_free (t := t) (O := O) _ _ hl).1, (mulVec_free (t := t) (O := O) _ _ hl).2, ite_self]

/-- C118: an assigning operator is the operator and an assignment; transposing in place is assigning the transposed matrix. -/
theorem C118_assign (t : Target) {n : Nat} (o : Bin) (f : Form) (i : Nat) (e : Ex τ) (s : Ex .s) (m : Ex (.m n n)) (hn : n < t.W) :
    (Act.upd o i e).Alike t (.set i (.bin o f (.var τ i) e)) ∧
      (Act.updScale τ i s).Alike t (.set i (.scale (.var τ i) s)) ∧
      (Act.updQuot τ i s).Alike t (.set i (.quot (.var τ i) s)) ∧
      (Act.updMul i m).Alike t (.set i (.mul f (.var (.m n n) i) m)) ∧
      (Act.transpose n i).Alike t (.set i (.transposed (.var (.m n n) i))) := by
  refine ⟨fun T O σ => ?_, fun T O σ => ?_, fun T O σ => ?_, fun T O σ => ?_, fun T O σ => ?_⟩
  · rw [(show (Act.set i (.bin o f (.var τ i) e)).exec t O σ = (Act.set i (.bin o .vv (.var τ i) e)).exec t O σ by
      rw [Act.exec, Act.exec, (C118_forms t o f .vv (.var τ i) e m m (.zero _) hn hn hn).1 T O σ])]
    simp only [Act.exec, Ex.eval, after_upd (t := t)]
    cases e.eval t O σ <;> rfl
  · simp only [Act.exec, Ex.eval, after_updScale t]
    cases s.eval t O σ <;> rfl
  · simp only [Act.exec, Ex.eval, after_updQuot t]
    cases s.eval t O σ <;> rfl
  · rw [(show (Act.set i (.mul f (.var (.m n n) i) m)).exec t O σ = (Act.set i (.mul .vv (.var (.m n n) i) m)).exec t O σ by
      rw [Act.exec, Act.exec, (C118_forms t o f .vv (.var τ i) e (.var (.m n n) i) m (.zero _) hn hn hn).2.1 T O σ])]
    simp only [Act.exec, Ex.eval, after_updMul]
    cases m.eval t O σ <;> rfl
  · simp only [Act.exec, Ex.eval, after_transpose]
    rfl

/-- C118: entries, rows and columns: the entry of a row or of a column, of a transposed matrix, the rows of a transposed matrix;
transposing twice. -/
theorem C118_parts (t : Target) {r c : Nat} (a : Ex (.m r c)) (i j : Nat) (hi : i < t.W) (hj : j < t.W) (hr : r < t.W) (hc : c < t.W) :
    (Ex.vget (.row a i) j).Alike t (.mget a i j) ∧
      (Ex.vget (.col a j) i).Alike t (.mget a i j) ∧
      (Ex.mget (.transposed a) j i).Alike t (.mget a i j) ∧
      (Ex.row (.transposed a) j).Alike t (.col a j) ∧
      (Ex.col (.transposed a) i).Alike t (.row a i) ∧
      (Ex.transposed (.transposed a)).Alike t a := by
  refine ⟨fun T O σ => ?_, fun T O σ => ?_, fun T O σ => ?_, fun T O σ => ?_, fun T O σ => ?_, fun T O σ => ?_⟩ <;>
    simp only [Ex.eval] <;> rcases a.eval t O σ with e | x <;> try rfl
  · simp only [res_ok_bind]
    rw [row_nth t x i hi hr]
    by_cases h : i < r
    · rw [dif_pos h]
      by_cases h' : j < c
      · rw [Mat.index_ok x h h']; exact Vec.index_ok _ h'
      · rw [Mat.index_panic x (.inr (by omega))]; exact Vec.index_panic _ (by omega)
    · rw [dif_neg h, Mat.index_panic x (.inl (by omega))]; rfl
  · simp only [res_ok_bind]
    rw [col_nth t x j hj hc]
    by_cases h : j < c
    · rw [dif_pos h]
      by_cases h' : i < r
      · rw [Mat.index_ok x h' h]
        exact (Vec.index_ok _ h').trans (by rw [Vec.get_ofFn])
      · rw [Mat.index_panic x (.inl (by omega))]; exact Vec.index_panic _ (by omega)
    · rw [dif_neg h, Mat.index_panic x (.inr (by omega))]; rfl
  · simp only [res_ok_bind, transposed_eq t x hc]
    by_cases h : i < r ∧ j < c
    · rw [Mat.index_ok x h.1 h.2, Mat.index_ok _ h.2 h.1, Mat.get_ofMatrix]; rfl
    · rw [Mat.index_panic x (by omega), Mat.index_panic _ (by omega)]
  · simp only [res_ok_bind, transposed_eq t x hc]
    rw [row_nth t _ j hj hc, col_nth t x j hj hc]
    by_cases h : j < c
    · rw [dif_pos h, dif_pos h]
      congr 1
      refine Vec.ext_get fun k => ?_
      rw [Vec.get_ofFn]
      exact Mat.get_ofMatrix _ _ _
    · rw [dif_neg h, dif_neg h]
  · simp only [res_ok_bind, transposed_eq t x hc]
    rw [row_nth t x i hi hr, col_nth t _ i hi hr]
    by_cases h : i < r
    · rw [dif_pos h, dif_pos h]
      congr 1
      refine Vec.ext_get fun k => ?_
      rw [Vec.get_ofFn]
      exact Mat.get_ofMatrix _ _ _
    · rw [dif_neg h, dif_neg h]
  · simp only [res_ok_bind, transposed_eq t x hc]
    rw [transposed_eq t _ hr]
    congr 1
    refine Mat.ext_get fun k l => ?_
    rw [Mat.get_ofMatrix]
    exact Mat.get_ofMatrix _ _ _

/-! ## Examples -/

namespace Examples

/-- `x1 *= x1; x1.transpose();` with `2 x 2` matrices. -/
def square : Stmt := .seq (.act (.updMul 1 (.var (.m 2 2) 1))) (.act (.transpose 2 1))

/-- `s0 = v0.dot(v0); while s0.is_zero() { s0 = s1; v0[1] = s0; }`. -/
def norm : Stmt :=
  .seq (.act (.set 0 (.dot (.var (.v 3) 0) (.var (.v 3) 0))))
    (.loop true (.var .s 0) (.seq (.act (.set 0 (.var .s 1))) (.act (.vset 3 0 1 (.var .s 0)))))

/-- What the two programs read, write and overwrite. -/
example (x : Var) :
    (square.Reads x ↔ x = (.m 2 2, 1)) ∧ (square.Writes x ↔ x = (.m 2 2, 1)) ∧ ¬ square.Sets x ∧
      (norm.Reads x ↔ x = (.v 3, 0) ∨ x ≠ (.s, 0) ∧ x = (.s, 1)) ∧ (norm.Writes x ↔ x = (.s, 0) ∨ x = (.v 3, 0)) ∧
      (norm.Sets x ↔ x = (.s, 0)) := by
  simp only [square, norm, Stmt.Reads, Stmt.Writes, Stmt.Sets, Act.Reads, Act.target, Act.Overwrites, Ex.Reads, and_true, and_false, or_false,
    or_self, not_false_eq_true, true_and]
  tauto

/-- `if s0.is_zero() { s1 = s2; m0 += m1; } else { s1 = s0; v0[0] = s3; }`: `s1` is overwritten, the others may keep their values. -/
def branch : Stmt :=
  .ite (.var .s 0) (.seq (.act (.set 1 (.var .s 2))) (.act (.upd .add 0 (.var (.m 2 2) 1))))
    (.seq (.act (.set 1 (.var .s 0))) (.act (.vset 3 0 0 (.var .s 3))))

example (x : Var) :
    (branch.Sets x ↔ x = (.s, 1)) ∧ (branch.Writes x ↔ x = (.s, 1) ∨ x = (.m 2 2, 0) ∨ x = (.v 3, 0)) ∧
      (branch.Reads x ↔ x ∈ [(.s, 0), (.s, 2), (.m 2 2, 0), (.m 2 2, 1), (.v 3, 0), (.s, 3)]) ∧
      ((Stmt.act (.vset 3 0 0 (.var .s 3))).Sets x ↔ False) := by
  simp only [branch, Stmt.Reads, Stmt.Writes, Stmt.Sets, Act.Reads, Act.target, Act.Overwrites, Ex.Reads, and_true, and_false, or_false,
    List.mem_cons, List.not_mem_nil]
  refine ⟨by tauto, by tauto, ?_⟩
  constructor
  · tauto
  · rintro (rfl | rfl | rfl | rfl | rfl | rfl) <;> simp

/-- `square` and `norm` can be exchanged, with floats of any format. -/
example (f : FloatFormat) (σ σ' : Store (Fl f)) :
    Run t64 (Ops.ieee f) (.seq square norm) σ (.ok σ') ↔ Run t64 (Ops.ieee f) (.seq norm square) σ (.ok σ') := by
  refine (C118_exchange t64 (Ops.ieee f) square norm ?_ ?_ σ).1 σ' <;>
    simp [square, norm, Stmt.Reads, Stmt.Writes, Stmt.Sets, Act.Reads, Act.target, Act.Overwrites, Ex.Reads]

/-- `m.map(|(i, j), x| x * s0 + v0[i])`. -/
def body : Ex (.m 2 3) := .map 7 (fun p => .bin .add .vv (.scale (.var .s 7) (.var .s 0)) (.vget (.var (.v 2) 0) p.1)) (.var (.m 2 3) 0)

/-- `s0 = v0.dot(v0); m1 = m0.map(|(i, j), x| x * s0 + v0[i]);` with the scalar product written out. -/
example (f : FloatFormat) (σ σ' : Store (Fl f))
    (h : Run t64 (Ops.ieee f) (.seq (.act (.set 0 (.dot (.var (.v 2) 0) (.var (.v 2) 0)))) (.act (.set 1 body))) σ (.ok σ')) :
    ∃ σ'', Run t64 (Ops.ieee f) (.act (.set 1 (.map 7 (fun p => .bin .add .vv (.scale (.var .s 7) (.dot (.var (.v 2) 0) (.var (.v 2) 0)))
      (.vget (.var (.v 2) 0) p.1)) (.var (.m 2 3) 0)))) σ (.ok σ'') ∧ σ' (.m 2 3) 1 = σ'' (.m 2 3) 1 := by
  obtain ⟨σ'', h1, h2⟩ := (C118_inline t64 (Ops.ieee f) 0 (.dot (.var (.v 2) 0) (.var (.v 2) 0)) body 1
    (by simp [body, Ex.Every, Ex.NoCaptureStep, Ex.Reads]) (.inr ⟨by decide, 0, by decide, 0, by decide, .inl (.inr rfl)⟩) σ).1 σ' h
  refine ⟨σ'', ?_, h2 _ _ (.inr rfl)⟩
  have e : Ex.subst 0 (.dot (.var (.v 2) 0) (.var (.v 2) 0)) body =
      .map 7 (fun p => .bin .add .vv (.scale (.var .s 7) (.dot (.var (.v 2) 0) (.var (.v 2) 0))) (.vget (.var (.v 2) 0) p.1))
        (.var (.m 2 3) 0) := by
    simp [body, Ex.subst]
  rwa [e] at h1

/-- Without `NoCapture` it is false: in `m.map(|_, x| s0)` the variable `s0` must not be replaced with `x`. -/
example : ∃ σ : Store Int, (Ex.subst 0 (.var .s 7) (.map 7 (fun _ => .var .s 0) (.var (.m 1 1) 0))).eval t64 Ops.int σ ≠
    (Ex.map 7 (fun _ => .var .s 0) (.var (.m 1 1) 0)).eval t64 Ops.int (σ.put .s 0 (σ .s 7)) := by
  refine ⟨fun τ => match τ with | .s => fun _ => 5 | .v n => fun _ => Vec.ofFn fun _ => 0 | .m r c => fun _ => Mat.ofFn fun _ _ => 3, ?_⟩
  intro h
  have h' := congrArg (fun x : Res (Mat Int 1 1) => x.toOption.map fun m => m.rows.toList.map (·.toList)) h
  exact absurd h' (by decide +kernel)

/-- `while s0.is_zero() { x1 *= x1; x1.transpose(); }; x2 = x1` -/
def loop₁ : Stmt := .seq (.loop true (.var .s 0) square) (.act (.set 2 (.mul .rr (.var (.m 2 2) 1) (.var (.m 2 2) 2))))

/-- `if s0.is_zero() { x1 = x1 * &x1; x1.transpose(); while ... }; x2 = x1 * x2`. -/
def loop₂ : Stmt :=
  .seq (.ite (.var .s 0) (.seq (.act (.set 1 (.mul .vr (.var (.m 2 2) 1) (.var (.m 2 2) 1))))
      (.seq (.act (.set 1 (.transposed (.var (.m 2 2) 1)))) (.loop true (.var .s 0) square))) .skip)
    (.act (.set 2 (.mul .vv (.var (.m 2 2) 1) (.var (.m 2 2) 2))))

/-- They do the same, with elements of every type. -/
example (T : Type) (O : Ops T) (σ : Store T) (x : Res (Store T)) : Run t64 O loop₁ σ x ↔ Run t64 O loop₂ σ x := by
  have h2 : (2 : Nat) < t64.W := by simp [t64]
  refine C118_alike t64 (.seq (.trans (.unroll _ _) (.ite (fun _ _ _ => rfl) (.trans (.assoc _ _ _) (.seq (.act ?_) (.seq (.act ?_) (.refl _))))
    (.refl _))) (.act fun T O σ => ?_)) O σ x
  · exact (C118_assign t64 .add .vr 1 .one .one (.var (.m 2 2) 1) h2).2.2.2.1
  · exact (C118_assign t64 .add .vr 1 .one .one (.var (.m 2 2) 1) h2).2.2.2.2
  · simp only [Act.exec]
    rw [(C118_forms t64 .add .rr .vv .one .one (.var (.m 2 2) 1) (.var (.m 2 2) 2) (.zero _) h2 h2 h2).2.1 T O σ]

/-- `while s0.is_zero() { m0 *= m1.inverse(); s0 = m0.sum(); }`. -/
def inverses : Stmt :=
  .loop true (.var .s 0) (.seq (.act (.updMul 0 (.inv (.var (.m 3 3) 1)))) (.act (.set 0 (.msum (.var (.m 3 3) 0)))))

/-- The same with the inverse computed once, `m2 = m1.inverse();`, before the loop. -/
def hoisted : Stmt :=
  .seq (.act (.set 2 (.inv (.var (.m 3 3) 1))))
    (.loop true (.var .s 0) (.seq (.act (.updMul 0 (.var (.m 3 3) 2))) (.act (.set 0 (.msum (.var (.m 3 3) 0))))))

/-- With floats, if the inverse exists (as computed): the same results, and if one panics or does not end, so does the other. -/
example (f : FloatFormat) (σ : Store (Fl f)) (v : Mat (Fl f) 3 3)
    (h : (Ex.inv (.var (.m 3 3) 1)).eval t64 (Ops.ieee f) σ = .ok v) :
    (∀ x, Run t64 (Ops.ieee f) inverses σ x → ∃ y, Run t64 (Ops.ieee f) hoisted σ y ∧ AgreeOut (fun z => z ≠ (.m 3 3, 2)) x y) ∧
    ∀ y, Run t64 (Ops.ieee f) hoisted σ y → ∃ x, Run t64 (Ops.ieee f) inverses σ x ∧ AgreeOut (fun z => z ≠ (.m 3 3, 2)) x y := by
  have := C118_hoist t64 (Ops.ieee f) 2 (.inv (.var (.m 3 3) 1))
    (.loop true (.var .s 0) (.seq (.act (.updMul 0 (.var (.m 3 3) 2))) (.act (.set 0 (.msum (.var (.m 3 3) 0))))))
    (by simp [Stmt.Every, Act.NoCapture, Ex.Every, Ex.NoCaptureStep])
    (by simp [Stmt.Writes, Act.target, Ex.Reads]) σ v h
  have e : Stmt.subst 2 (.inv (.var (.m 3 3) 1))
      (.loop true (.var .s 0) (.seq (.act (.updMul 0 (.var (.m 3 3) 2))) (.act (.set 0 (.msum (.var (.m 3 3) 0)))))) = inverses := by
    simp [inverses, Stmt.subst, Act.subst, Ex.subst]
  rwa [e] at this

/-- The hypothesis cannot be dropped: if the loop is not entered, the expression hoisted out of it panics for nothing. -/
example : ∃ σ : Store Int, (∃ ρ, Run t64 Ops.int (.loop false (.var .s 0) (.act (.set 0 (.quot .one (.var .s 0))))) σ (.ok ρ)) ∧
    Run t64 Ops.int (.seq (.act (.set 1 (.quot .one (.var .s 0)))) (.loop false (.var .s 0) (.act (.set 0 (.var .s 1))))) σ
      (.error .panic) := by
  let σ : Store Int := fun τ _ => match τ with | .s => 0 | .v n => Vec.ofFn fun _ => 0 | .m r c => Mat.ofFn fun _ _ => 0
  refine ⟨σ, ⟨σ, .loopEnd (v := (0 : Int)) rfl rfl⟩, .seqFault ?_⟩
  have e : (Act.set 1 (.quot .one (.var .s 0))).exec t64 Ops.int σ = .error .panic := rfl
  rw [← e]
  exact .act _ _

/-- `branch` with the even variables, after `norm` with the odd ones: they do not disturb each other. -/
example (f : FloatFormat) (σ σ' : Store (Fl f)) :
    Run t64 (Ops.ieee f) (.seq (branch.rename fun _ i => 2 * i) (norm.rename fun _ i => 2 * i + 1)) σ (.ok σ') ↔
      Run t64 (Ops.ieee f) (.seq (norm.rename fun _ i => 2 * i + 1) (branch.rename fun _ i => 2 * i)) σ (.ok σ') := by
  refine (C118_exchange t64 (Ops.ieee f) _ _ ?_ ?_ σ).1 σ' <;>
    simp [branch, norm, Stmt.rename, Act.rename, Ex.rename, Stmt.Reads, Stmt.Writes, Stmt.Sets, Act.Reads, Act.target, Act.Overwrites,
      Ex.Reads]
  rintro a b ((⟨rfl, rfl⟩ | ⟨rfl, rfl⟩) | ⟨rfl, rfl⟩ | ⟨rfl, rfl⟩) <;> simp

/-- Two variables must not become one: `s0 = 1; s1 = 0` as `s0 = 1; s0 = 0`. -/
example : ∃ (p : Stmt) (σ σ' : Store Int), Run t64 Ops.int (p.rename fun _ _ => 0) σ (.ok σ') ∧
    ¬ Run t64 Ops.int p (σ.via fun _ _ => 0) (.ok (σ'.via fun _ _ => 0)) := by
  let σ : Store Int := fun τ _ => match τ with | .s => 0 | .v n => Vec.ofFn fun _ => 0 | .m r c => Mat.ofFn fun _ _ => 0
  refine ⟨.seq (.act (.set 0 .one)) (.act (.set 1 (.zero .s))), σ, (σ.put .s 0 (1 : Int)).put .s 0 (0 : Int), .seq (.act _ _) (.act _ _), ?_⟩
  intro h
  have h' := C100_deterministic t64 _ _ _ _ h (.seq (.act _ _) (.act _ _) :
    Run t64 Ops.int (.seq (.act (.set 0 .one)) (.act (.set 1 (.zero .s)))) (σ.via fun _ _ => 0)
      (.ok (((σ.via fun _ _ => 0).put .s 0 (1 : Int)).put .s 1 (0 : Int))))
  have h1 := congrArg (fun x : Res (Store Int) => x.toOption.map fun ρ => (ρ .s 0 : Int)) h'
  exact absurd h1 (by decide +kernel)

end Examples

end Prog
end Rowcol
