import Verif.Counting
import Verif.Lemmas.StM
import Verif.Lemmas.OfFn
import Verif.Lemmas.Mul

/-! A calculus of call counts. -/

namespace Rowcol

variable {α β γ T : Type} {O : Ops T}

theorem tick_run (k : Op) (s : Op → Nat) : (tick k).run s = (.ok (), fun j => if j = k then s j + 1 else s j) := rfl

/-- One call of `k`. -/
def one1 (k : Op) : Op → Nat := fun j => if j = k then 1 else 0

theorem tick_run' (k : Op) (s : Op → Nat) : (tick k).run s = (.ok (), s + one1 k) := by
  rw [tick_run]; congr 1; funext j; simp only [Pi.add_apply, one1]; split <;> rfl

namespace CountsIf
variable {P : α → Prop} {x : StM (Op → Nat) α} {y : Res α} {c c' : Op → Nat}

theorem congr (h : CountsIf P x y c) (e : c = c') : CountsIf P x y c' := e ▸ h

theorem weaken (h : Counts x y c) : CountsIf P x y c := by
  obtain ⟨d, h1, h2, h3⟩ := h
  exact ⟨d, h1, h2, fun v hv _ => h3 v hv trivial⟩

theorem le (h : CountsIf P x y c) (e : c ≤ c') : CountsLe x y c' := by
  obtain ⟨d, h1, h2, _⟩ := h
  exact ⟨d, h1, h2.trans e, fun _ _ h => h.elim⟩

theorem pure (v : α) : CountsIf P (Pure.pure v) (.ok v) 0 := ⟨0, fun s => by simp, le_refl _, fun _ _ _ => rfl⟩

theorem pure' (v : α) : CountsIf P (Pure.pure v) (Pure.pure v) 0 := pure v

theorem lift (y : Res α) : CountsIf P (liftRes y) y 0 :=
  ⟨0, fun s => by cases y <;> simp, le_refl _, fun _ _ _ => rfl⟩

theorem fault (e : Fault) : CountsIf P (RustM.fault e) (.error e) c :=
  ⟨0, fun s => by simp, fun _ => Nat.zero_le _, fun _ h => by cases h⟩

theorem bind' {Q : β → Prop} {f : α → StM (Op → Nat) β} {g : α → Res β} {c1 c2 : Op → Nat} (h : CountsIf P x y c1)
    (hf : ∀ v, y = .ok v → CountsIf Q (f v) (g v) c2) (hP : ∀ v w, y = .ok v → g v = .ok w → Q w → P v) :
    CountsIf Q (x >>= f) (y >>= g) (c1 + c2) := by
  obtain ⟨d1, h1, h2, h3⟩ := h
  cases y with
  | error e =>
    refine ⟨d1, fun s => ?_, h2.trans (fun k => Nat.le_add_right _ _), fun v hv => by cases hv⟩
    rw [StM.run_bind_error (h1 s)]; rfl
  | ok v =>
    obtain ⟨d2, k1, k2, k3⟩ := hf v rfl
    refine ⟨d1 + d2, fun s => ?_, add_le_add h2 k2, fun w hw hq => ?_⟩
    · rw [StM.run_bind_ok (h1 s), k1]
      simp only [add_assoc]; rfl
    · have hg : g v = .ok w := hw
      rw [h3 v rfl (hP v w rfl hg hq), k3 w hg hq]

theorem bind {Q : β → Prop} {f : α → StM (Op → Nat) β} {g : α → Res β} {c1 c2 : Op → Nat} (h : Counts x y c1)
    (hf : ∀ v, y = .ok v → CountsIf Q (f v) (g v) c2) : CountsIf Q (x >>= f) (y >>= g) (c1 + c2) :=
  bind' h hf fun _ _ _ _ _ => trivial

theorem bindb {b : Prop} {f : α → StM (Op → Nat) β} {g : α → Res β} {c1 c2 : Op → Nat} (h : CountsIf (fun _ => b) x y c1)
    (hf : ∀ v, y = .ok v → CountsIf (fun _ => b) (f v) (g v) c2) : CountsIf (fun _ => b) (x >>= f) (y >>= g) (c1 + c2) :=
  bind' h hf fun _ _ _ _ h => h

/-- A call that does not appear on the right. -/
theorem skip {Q : β → Prop} {f : α → StM (Op → Nat) β} {z : Res β} {v : α} {c1 c2 : Op → Nat} (h : Counts x (.ok v) c1)
    (hf : CountsIf Q (f v) z c2) : CountsIf Q (x >>= f) z (c1 + c2) := by
  have := bind (g := fun _ => z) h (Q := Q) (f := f) (c2 := c2) (fun w hw => by cases hw; exact hf)
  exact this

theorem map {f : α → β} {c1 : Op → Nat} (h : Counts x y c1) : Counts (f <$> x) (f <$> y) c1 := by
  have := bind (g := fun v => (Pure.pure (f v) : Res β)) h (Q := fun _ => True) (f := fun v => Pure.pure (f v)) (c2 := 0)
    (fun v _ => pure _)
  rw [bind_pure_comp, bind_pure_comp] at this
  simpa using this

theorem of_map {f : α → β} (hi : Function.Injective f) {c1 : Op → Nat} (h : Counts (f <$> x) (f <$> y) c1) : Counts x y c1 := by
  obtain ⟨d, h1, h2, h3⟩ := h
  refine ⟨d, fun s => ?_, h2, fun v hv _ => h3 (f v) (by rw [hv]; rfl) trivial⟩
  have := h1 s
  rw [StM.run_map] at this
  rcases hx : x.run s with ⟨res, s'⟩
  rw [hx] at this
  cases res with
  | ok a =>
    cases y with
    | ok b =>
      have h4 := Prod.mk.inj this
      have h5 : f a = f b := Except.ok.inj h4.1
      rw [hi h5, h4.2]
    | error e => exact absurd (Prod.mk.inj this).1 (by rintro ⟨⟩)
  | error e =>
    cases y with
    | ok b => exact absurd (Prod.mk.inj this).1 (by rintro ⟨⟩)
    | error e' =>
      have h4 := Prod.mk.inj this
      rw [Except.error.inj h4.1, h4.2]

theorem mono (h : CountsIf P x y c) (e : c ≤ c') (hP : ∀ v, y = .ok v → ¬ P v) : CountsIf P x y c' := by
  obtain ⟨d, h1, h2, _⟩ := h
  exact ⟨d, h1, h2.trans e, fun v hv hp => absurd hp (hP v hv)⟩

/-- The early return of a loop. -/
theorem ite_none {b : Bool} {x : StM (Op → Nat) (Option α)} {y : Res (Option α)}
    (h : b = false → CountsIf (fun o => o ≠ none) x y c) :
    CountsIf (fun o => o ≠ none) (if b = true then Pure.pure none else x) (if b = true then Pure.pure none else y) c := by
  cases b with
  | true => exact (pure none).mono (fun _ => Nat.zero_le _) fun v hv => by cases hv; simp
  | false => exact h rfl

/-! ### Element operations -/

theorem tick_lift (k : Op) (y : Res α) : CountsIf P (do tick k; liftRes y) y (one1 k) :=
  ⟨one1 k, fun s => by rw [StM.run_bind_ok (tick_run' k s)]; cases y <;> rfl, le_refl _, fun _ _ _ => rfl⟩

theorem tick_pure (k : Op) (v : α) : CountsIf P (do tick k; Pure.pure v) (.ok v) (one1 k) := tick_lift k (.ok v)

theorem clone {P : T → Prop} (v : T) : CountsIf P ((Elem.counting O).clone v) (.ok v) (one1 .clone) := tick_pure _ _
theorem zero {P : T → Prop} : CountsIf P ((Elem.counting O).zero) (.ok O.zero) (one1 .zero) := tick_pure _ _
theorem one {P : T → Prop} : CountsIf P ((Elem.counting O).one) (.ok O.one) (one1 .one) := tick_pure _ _
theorem add {P : T → Prop} (v w : T) : CountsIf P ((Elem.counting O).add v w) (O.add v w) (one1 .add) := tick_lift _ _
theorem sub {P : T → Prop} (v w : T) : CountsIf P ((Elem.counting O).sub v w) (O.sub v w) (one1 .sub) := tick_lift _ _
theorem mul {P : T → Prop} (v w : T) : CountsIf P ((Elem.counting O).mul v w) (O.mul v w) (one1 .mul) := tick_lift _ _
theorem mulRef {P : T → Prop} (v w : T) : CountsIf P ((Elem.counting O).mulRef v w) (O.mul v w) (one1 .mul) := tick_lift _ _
theorem div {P : T → Prop} (v w : T) : CountsIf P ((Elem.counting O).div v w) (O.div v w) (one1 .div) := tick_lift _ _
theorem neg {P : T → Prop} (v : T) : CountsIf P ((Elem.counting O).neg v) (O.neg v) (one1 .neg) := tick_lift _ _
theorem isZero {P : Bool → Prop} (v : T) : CountsIf P ((Elem.counting O).isZero v) (.ok (O.isZero v)) (one1 .isZero) :=
  tick_pure _ _

/-! ### Loops -/

theorem foldlM' {q : Prop} {f : β → α → StM (Op → Nat) β} {g : β → α → Res β} {c : α → Op → Nat} (l : List α) (b : β)
    (h : ∀ b, ∀ a ∈ l, CountsIf (fun _ => q) (f b a) (g b a) (c a)) :
    CountsIf (fun _ => q) (l.foldlM f b) (l.foldlM g b) (l.map c).sum := by
  induction l generalizing b with
  | nil => exact pure b
  | cons a as ih =>
    rw [List.foldlM_cons, List.foldlM_cons, List.map_cons, List.sum_cons]
    exact bindb (h b a (by simp)) fun v _ => ih v fun b a ha => h b a (by simp [ha])

theorem foldlM {f : β → α → StM (Op → Nat) β} {g : β → α → Res β} {c : Op → Nat} (l : List α) (b : β)
    (h : ∀ b, ∀ a ∈ l, Counts (f b a) (g b a) c) : Counts (l.foldlM f b) (l.foldlM g b) (l.length • c) := by
  have := foldlM' (c := fun _ => c) l b h
  simpa using this

theorem mapM' {f : α → StM (Op → Nat) β} {g : α → Res β} {c : α → Op → Nat} (l : List α)
    (h : ∀ a ∈ l, Counts (f a) (g a) (c a)) : Counts (l.mapM f) (l.mapM g) (l.map c).sum := by
  induction l with
  | nil => exact pure []
  | cons a as ih =>
    rw [List.mapM_cons, List.mapM_cons, List.map_cons, List.sum_cons]
    refine (bind (h a (by simp)) fun v _ => ?_)
    refine (bind (ih fun a ha => h a (by simp [ha])) fun vs _ => pure _).congr (add_zero _)

theorem collect' {n : Nat} (t : Target) {f : α → StM (Op → Nat) β} {g : α → Res β} {c : α → Op → Nat} (l : List α)
    (hl : l.length = n) (h : ∀ a ∈ l, Counts (f a) (g a) (c a)) :
    Counts (Vec.collect t n (l.map f)) (Vec.collect t n (l.map g)) (l.map c).sum := by
  apply of_map (f := Vec.toList) (fun a b hab => Vec.ext hab)
  rw [Vec.collect_toList _ _ _ (by simp [hl]), Vec.collect_toList _ _ _ (by simp [hl]), mapM_map', mapM_map']
  exact mapM' l h

theorem collect {n : Nat} (t : Target) {f : α → StM (Op → Nat) β} {g : α → Res β} {c : Op → Nat} (l : List α)
    (hl : l.length = n) (h : ∀ a ∈ l, Counts (f a) (g a) c) :
    Counts (Vec.collect t n (l.map f)) (Vec.collect t n (l.map g)) (n • c) := by
  have := collect' (c := fun _ => c) t l hl h
  simpa [hl] using this

end CountsIf

/-- One step of a count. -/
macro "cstep" : tactic => `(tactic| first
  | with_reducible exact CountsIf.pure' _
  | with_reducible exact CountsIf.pure _
  | with_reducible exact CountsIf.add _ _
  | with_reducible exact CountsIf.sub _ _
  | with_reducible exact CountsIf.mul _ _
  | with_reducible exact CountsIf.mulRef _ _
  | with_reducible exact CountsIf.div _ _
  | with_reducible exact CountsIf.neg _
  | with_reducible exact CountsIf.clone _
  | with_reducible exact CountsIf.zero
  | with_reducible exact CountsIf.one
  | with_reducible exact CountsIf.isZero _
  | with_reducible exact CountsIf.lift _
  | with_reducible (apply CountsIf.skip; exact CountsIf.clone _)
  | with_reducible (apply CountsIf.skip; exact CountsIf.zero)
  | with_reducible (apply CountsIf.skip; exact CountsIf.one)
  | with_reducible (apply CountsIf.skip; exact CountsIf.isZero _)
  | with_reducible (apply CountsIf.bind; exact CountsIf.add _ _; intro _ _)
  | with_reducible (apply CountsIf.bind; exact CountsIf.sub _ _; intro _ _)
  | with_reducible (apply CountsIf.bind; exact CountsIf.mul _ _; intro _ _)
  | with_reducible (apply CountsIf.bind; exact CountsIf.mulRef _ _; intro _ _)
  | with_reducible (apply CountsIf.bind; exact CountsIf.div _ _; intro _ _)
  | with_reducible (apply CountsIf.bind; exact CountsIf.neg _; intro _ _)
  | with_reducible (apply CountsIf.bind; exact CountsIf.lift _; intro _ _))

/-- All simple steps of a count. -/
macro "csteps" : tactic => `(tactic| repeat cstep)

/-- Finish an equation between call counts. -/
macro "counts" : tactic => `(tactic| (funext k; cases k <;> simp [one1, calls, Vec.length_eq] <;> try ring1))

end Rowcol
