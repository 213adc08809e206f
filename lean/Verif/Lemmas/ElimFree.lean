import Verif.Lemmas.Elim

/-! The elimination of `determinant` for any element type, without laws: what a successful run has computed. -/

namespace Rowcol

variable {T : Type} {n : Nat} {O : Ops T}

theorem bind_ok_iff {α β : Type} {x : Res α} {f : α → Res β} {b : β} : x >>= f = .ok b ↔ ∃ a, x = .ok a ∧ f a = .ok b := by
  cases x with
  | ok a => simp
  | error e => constructor
               · intro h; cases h
               · rintro ⟨a, h, _⟩; cases h

theorem elimRow_free {i j : Fin n} {d : T} (len s : Nat) (hs : s + len = n) {m m' : Mat T n n}
    (h : (List.range' s len).foldlM (fun mat k => do
      let sub ← O.sub (← mat.index (j.val, k)) (← O.mul (← mat.index (i.val, k)) d)
      mat.indexSet (j.val, k) sub) m = .ok m') :
    (∀ k : Fin n, s ≤ k.val → ∃ p, O.mul (m.get i k) d = .ok p ∧ O.sub (m.get j k) p = .ok (m'.get j k)) ∧
    (∀ k : Fin n, k.val < s → m'.get j k = m.get j k) ∧ (∀ a : Fin n, a ≠ j → ∀ k, m'.get a k = m.get a k) := by
  induction len generalizing s m with
  | zero => cases h; exact ⟨fun k hk => absurd k.isLt (by omega), fun _ _ => rfl, fun _ _ _ => rfl⟩
  | succ len ih =>
    have hsn : s < n := by omega
    rw [List.range'_succ, List.foldlM_cons, Mat.index_ok _ j.isLt hsn, Mat.index_ok _ i.isLt hsn] at h
    simp only [res_ok_bind] at h
    rw [bind_ok_iff] at h
    obtain ⟨m1, h1, h2⟩ := h
    rw [bind_ok_iff] at h1
    obtain ⟨p, hp, h1⟩ := h1
    rw [bind_ok_iff] at h1
    obtain ⟨q, hq, h1⟩ := h1
    rw [Mat.indexSet_ok _ j.isLt hsn] at h1
    cases h1
    obtain ⟨e1, e2, e3⟩ := ih (s + 1) (by omega) h2
    have g : ∀ (a b : Fin n), (m.put j.val s q).get a b = if a.val = j.val ∧ b.val = s then q else m.get a b := fun a b =>
      Mat.get_put _ j.isLt _ _ _
    refine ⟨fun k hk => ?_, fun k hk => ?_, fun a ha k => ?_⟩
    · rcases Nat.lt_or_ge s k.val with hlt | hge
      · obtain ⟨p', hp', hq'⟩ := e1 k hlt
        rw [g, if_neg (fun h => by omega)] at hp' hq'
        exact ⟨p', hp', hq'⟩
      · obtain rfl : k = ⟨s, hsn⟩ := Fin.ext (by simp; omega)
        refine ⟨p, hp, ?_⟩
        rw [e2 ⟨s, hsn⟩ (by simp), g, if_pos ⟨rfl, rfl⟩]
        exact hq
    · rw [e2 k (by omega), g, if_neg (fun h => by omega)]
    · rw [e3 a ha k, g, if_neg (fun h => ha (Fin.ext h.1))]

/-- One step of the elimination on row `j`: `d` is the quotient, every entry of the row is replaced. -/
def RowStep (O : Ops T) (m m' : Mat T n n) (i j : Fin n) : Prop :=
  ∃ d, O.div (m.get j i) (m.get i i) = .ok d ∧
    ∀ k, ∃ p, O.mul (m.get i k) d = .ok p ∧ O.sub (m.get j k) p = .ok (m'.get j k)

theorem elimCol_free {i : Fin n} (js : List Nat) (hjs : ∀ j ∈ js, i.val < j ∧ j < n) (hnd : js.Nodup) {m : Mat T n n}
    {o : Option (Mat T n n)} (h : Mat.elimCol O i js m = .ok o) :
    match o with
    | none => js ≠ [] ∧ O.isZero (m.get i i) = true
    | some m' => (js ≠ [] → O.isZero (m.get i i) = false) ∧ (∀ j : Fin n, j.val ∈ js → RowStep O m m' i j) ∧
        ∀ a : Fin n, a.val ∉ js → ∀ k, m'.get a k = m.get a k := by
  induction js generalizing m with
  | nil => cases h; simp
  | cons j js ih =>
    obtain ⟨hij, hj⟩ := hjs j (by simp)
    rw [Mat.elimCol, Mat.index_ok _ i.isLt i.isLt] at h
    simp only [res_ok_bind] at h
    split at h
    · rename_i hz; cases h; exact ⟨by simp, hz⟩
    · rename_i hz
      rw [Mat.index_ok _ hj i.isLt] at h
      simp only [res_ok_bind] at h
      rw [bind_ok_iff] at h
      obtain ⟨d, hd, h⟩ := h
      rw [bind_ok_iff] at h
      obtain ⟨m1, h1, h2⟩ := h
      have hne : i ≠ (⟨j, hj⟩ : Fin n) := fun e => by rw [Fin.ext_iff] at e; simp at e; omega
      unfold Mat.elimRow at h1
      rw [List.range_eq_range'] at h1
      obtain ⟨e1, _, e3⟩ := elimRow_free (i := i) (j := ⟨j, hj⟩) n 0 (by omega) h1
      have hi1 : ∀ k, m1.get i k = m.get i k := e3 i hne
      have := ih (fun j' hj' => hjs j' (by simp [hj'])) (List.nodup_cons.1 hnd).2 h2
      cases o with
      | none => simp only [hi1] at this; exact ⟨by simp, this.2⟩
      | some m' =>
        obtain ⟨_, e4, e5⟩ := this
        refine ⟨fun _ => by simpa using hz, fun j' hj' => ?_, fun a ha k => ?_⟩
        · rcases List.mem_cons.1 hj' with e | hm
          · obtain rfl : j' = ⟨j, hj⟩ := Fin.ext e
            refine ⟨d, hd, fun k => ?_⟩
            rw [e5 _ (List.nodup_cons.1 hnd).1 k]
            exact e1 k (by omega)
          · have hjj : j' ≠ (⟨j, hj⟩ : Fin n) := fun e => (List.nodup_cons.1 hnd).1 (by rw [e] at hm; exact hm)
            obtain ⟨d', hd', hk⟩ := e4 j' hm
            rw [e3 j' hjj, hi1] at hd'
            refine ⟨d', hd', fun k => ?_⟩
            have := hk k
            rw [e3 j' hjj, hi1] at this
            exact this
        · rw [List.mem_cons, not_or] at ha
          rw [e5 a ha.2 k, e3 a (fun e => ha.1 (congrArg Fin.val e)) k]

/-- A property `P i m` of the matrix before stage `i` that every stage preserves: it holds at the end, or at the stage
whose pivot is zero. -/
theorem elimAll_free (P : Nat → Mat T n n → Prop)
    (hP : ∀ (i : Fin n) (m m' : Mat T n n), P i m → (i.val + 1 < n → O.isZero (m.get i i) = false) →
      (∀ j : Fin n, i < j → RowStep O m m' i j) → (∀ a : Fin n, a ≤ i → ∀ k, m'.get a k = m.get a k) → P (i + 1) m')
    (d i : Nat) (hd : i + d = n) {m : Mat T n n} (hm : P i m) {o : Option (Mat T n n)}
    (h : Mat.elimAll O (List.range' i d) m = .ok o) :
    (o = none → ∃ (i : Fin n) (m' : Mat T n n), i.val + 1 < n ∧ P i m' ∧ O.isZero (m'.get i i) = true) ∧
    (∀ m', o = some m' → P n m') := by
  induction d generalizing i m with
  | zero => cases h; simp at hd; subst hd; exact ⟨by simp, by rintro _ ⟨⟩; exact hm⟩
  | succ d ih =>
    have hi : i < n := by omega
    rw [List.range'_succ, Mat.elimAll, bind_ok_iff] at h
    obtain ⟨o', h1, h2⟩ := h
    have hc := elimCol_free (i := ⟨i, hi⟩) (List.range' (i + 1) (n - (i + 1)))
      (fun j hj => by rw [List.mem_range'_1] at hj; simp; omega) List.nodup_range' h1
    cases o' with
    | none =>
      cases h2
      refine ⟨fun _ => ⟨⟨i, hi⟩, m, ?_, hm, hc.2⟩, by simp⟩
      by_contra hl
      refine hc.1 ?_
      rw [show n - (i + 1) = 0 by simp at hl; omega]; rfl
    | some m1 =>
      obtain ⟨c1, c2, c3⟩ := hc
      refine ih (i + 1) (by omega) (hP ⟨i, hi⟩ m m1 hm ?_ ?_ ?_) h2
      · intro hl
        refine c1 fun e => ?_
        have := congrArg List.length e
        simp at this hl
        omega
      · intro j hj
        refine c2 j ?_
        rw [List.mem_range'_1]
        have : i < j.val := hj
        omega
      · intro a ha k
        refine c3 a (fun hm => ?_) k
        rw [List.mem_range'_1] at hm
        have : a.val ≤ i := ha
        omega

end Rowcol
