import Verif.Lemmas.ElimFree

/-! The Gauss-Jordan loops of `inverse` for any element type, without laws: what a successful run has computed. -/

namespace Rowcol

variable {T : Type} {n : Nat} {O : Ops T}

/-- Replacing row `j` of two matrices entry by entry, each by a function `f` of the old entries of the column. -/
theorem rowPair_free {i j : Fin n} {f : T → T → Res T} (len s : Nat) (hs : s + len = n)
    {p p' : Mat T n n × Mat T n n} (g : Mat T n n × Mat T n n → Nat → Res (Mat T n n × Mat T n n))
    (hg : ∀ (p : Mat T n n × Mat T n n) (k : Fin n) (q : Mat T n n × Mat T n n), g p k = .ok q →
      ∃ x y, f (p.1.get i k) (p.1.get j k) = .ok x ∧ f (p.2.get i k) (p.2.get j k) = .ok y ∧
        q = (p.1.put j k x, p.2.put j k y))
    (h : (List.range' s len).foldlM g p = .ok p') :
    (∀ k : Fin n, s ≤ k.val → f (p.1.get i k) (p.1.get j k) = .ok (p'.1.get j k) ∧
      f (p.2.get i k) (p.2.get j k) = .ok (p'.2.get j k)) ∧
    (∀ k : Fin n, k.val < s → p'.1.get j k = p.1.get j k ∧ p'.2.get j k = p.2.get j k) ∧
    (∀ a : Fin n, a ≠ j → ∀ k, p'.1.get a k = p.1.get a k ∧ p'.2.get a k = p.2.get a k) := by
  induction len generalizing s p with
  | zero => cases h; exact ⟨fun k hk => absurd k.isLt (by omega), fun _ _ => ⟨rfl, rfl⟩, fun _ _ _ => ⟨rfl, rfl⟩⟩
  | succ len ih =>
    have hsn : s < n := by omega
    rw [List.range'_succ, List.foldlM_cons, bind_ok_iff] at h
    obtain ⟨q, h1, h2⟩ := h
    obtain ⟨x, y, hx, hy, rfl⟩ := hg p ⟨s, hsn⟩ q h1
    obtain ⟨e1, e2, e3⟩ := ih (s + 1) (by omega) h2
    have gp : ∀ (m : Mat T n n) (v : T) (a b : Fin n), (m.put j.val s v).get a b = if a.val = j.val ∧ b.val = s then v else m.get a b :=
      fun m v a b => Mat.get_put _ j.isLt _ _ _
    refine ⟨fun k hk => ?_, fun k hk => ?_, fun a ha k => ?_⟩
    · rcases Nat.lt_or_ge s k.val with hlt | hge
      · have := e1 k hlt
        simp only [gp] at this
        rw [if_neg (fun h => by omega), if_neg (fun h => by omega), if_neg (fun h => by omega), if_neg (fun h => by omega)] at this
        exact this
      · obtain rfl : k = ⟨s, hsn⟩ := Fin.ext (by simp; omega)
        obtain ⟨e4, e5⟩ := e2 ⟨s, hsn⟩ (by simp)
        simp only [gp] at e4 e5
        rw [e4, e5]
        simpa using ⟨hx, hy⟩
    · obtain ⟨e4, e5⟩ := e2 k (by omega)
      simp only [gp] at e4 e5
      rw [e4, e5, if_neg (fun h => by omega), if_neg (fun h => by omega)]
      exact ⟨rfl, rfl⟩
    · obtain ⟨e4, e5⟩ := e3 a ha k
      simp only [gp] at e4 e5
      rw [e4, e5, if_neg (fun h => ha (Fin.ext h.1)), if_neg (fun h => ha (Fin.ext h.1))]
      exact ⟨rfl, rfl⟩

theorem gjScale_free {i : Fin n} {x : T} {p p' : Mat T n n × Mat T n n} (h : Mat.gjScale O i x p = .ok p') :
    (∀ k, O.mul (p.1.get i k) x = .ok (p'.1.get i k) ∧ O.mul (p.2.get i k) x = .ok (p'.2.get i k)) ∧
    ∀ a : Fin n, a ≠ i → ∀ k, p'.1.get a k = p.1.get a k ∧ p'.2.get a k = p.2.get a k := by
  rw [Mat.gjScale, List.range_eq_range'] at h
  have := rowPair_free (i := i) (j := i) (f := fun u _ => O.mul u x) n 0 (by omega) _ (fun p k q hq => by
    rw [Mat.index_ok _ i.isLt k.isLt] at hq
    simp only [res_ok_bind] at hq
    rw [bind_ok_iff] at hq
    obtain ⟨y, hy, hq⟩ := hq
    rw [Mat.indexSet_ok _ i.isLt k.isLt, Mat.index_ok _ i.isLt k.isLt] at hq
    simp only [res_ok_bind] at hq
    rw [bind_ok_iff] at hq
    obtain ⟨z, hz, hq⟩ := hq
    rw [Mat.indexSet_ok _ i.isLt k.isLt] at hq
    cases hq
    exact ⟨y, z, hy, hz, rfl⟩) h
  exact ⟨fun k => this.1 k (Nat.zero_le _), this.2.2⟩

theorem gjRow_free {i j : Fin n} {x : T} {p p' : Mat T n n × Mat T n n} (h : Mat.gjRow O i j x p = .ok p') :
    (∀ k, (∃ q, O.mul (p.1.get i k) x = .ok q ∧ O.sub (p.1.get j k) q = .ok (p'.1.get j k)) ∧
      ∃ q, O.mul (p.2.get i k) x = .ok q ∧ O.sub (p.2.get j k) q = .ok (p'.2.get j k)) ∧
    ∀ a : Fin n, a ≠ j → ∀ k, p'.1.get a k = p.1.get a k ∧ p'.2.get a k = p.2.get a k := by
  rw [Mat.gjRow, List.range_eq_range'] at h
  have := rowPair_free (i := i) (j := j) (f := fun u v => do let q ← O.mul u x; O.sub v q) n 0 (by omega) _ (fun p k r hr => by
    rw [Mat.index_ok _ j.isLt k.isLt, Mat.index_ok _ i.isLt k.isLt] at hr
    simp only [res_ok_bind] at hr
    rw [bind_ok_iff] at hr
    obtain ⟨q, hq, hr⟩ := hr
    rw [bind_ok_iff] at hr
    obtain ⟨y, hy, hr⟩ := hr
    rw [Mat.indexSet_ok _ j.isLt k.isLt, Mat.index_ok _ j.isLt k.isLt, Mat.index_ok _ i.isLt k.isLt] at hr
    simp only [res_ok_bind] at hr
    rw [bind_ok_iff] at hr
    obtain ⟨q', hq', hr⟩ := hr
    rw [bind_ok_iff] at hr
    obtain ⟨z, hz, hr⟩ := hr
    rw [Mat.indexSet_ok _ j.isLt k.isLt] at hr
    cases hr
    exact ⟨y, z, by rw [hq]; exact hy, by rw [hq']; exact hz, rfl⟩) h
  refine ⟨fun k => ?_, this.2.2⟩
  obtain ⟨h1, h2⟩ := this.1 k (Nat.zero_le _)
  rw [bind_ok_iff] at h1 h2
  exact ⟨h1, h2⟩

/-- Row `j` after clearing column `i`, for both matrices. -/
def ClearRow (O : Ops T) (i j : Fin n) (p p' : Mat T n n × Mat T n n) : Prop :=
  ∀ k, (∃ q, O.mul (p.1.get i k) (p.1.get j i) = .ok q ∧ O.sub (p.1.get j k) q = .ok (p'.1.get j k)) ∧
    ∃ q, O.mul (p.2.get i k) (p.1.get j i) = .ok q ∧ O.sub (p.2.get j k) q = .ok (p'.2.get j k)

theorem gjClear_free {i : Fin n} (len s : Nat) (hs : s + len = n) {p p' : Mat T n n × Mat T n n}
    (h : (List.range' s len).foldlM (fun p j => do
      if i.val = j then pure p
      else do
        let a ← p.1.index (j, i.val)
        Mat.gjRow O i j a p) p = .ok p') :
    (∀ j : Fin n, j ≠ i → s ≤ j.val → ClearRow O i j p p') ∧
    (∀ j : Fin n, j = i ∨ j.val < s → ∀ k, p'.1.get j k = p.1.get j k ∧ p'.2.get j k = p.2.get j k) := by
  induction len generalizing s p with
  | zero => cases h; exact ⟨fun j _ hj => absurd j.isLt (by omega), fun _ _ _ => ⟨rfl, rfl⟩⟩
  | succ len ih =>
    have hsn : s < n := by omega
    rw [List.range'_succ, List.foldlM_cons, bind_ok_iff] at h
    obtain ⟨q, h1, h2⟩ := h
    obtain ⟨e1, e2⟩ := ih (s + 1) (by omega) h2
    split at h1
    · rename_i his
      cases h1
      refine ⟨fun j hj hsj => e1 j hj ?_, fun j hj => e2 j (hj.imp_right (by omega))⟩
      have : j.val ≠ i.val := fun h => hj (Fin.ext h)
      omega
    · rename_i his
      rw [Mat.index_ok _ hsn i.isLt] at h1
      simp only [res_ok_bind] at h1
      obtain ⟨f1, f2⟩ := gjRow_free (i := i) (j := ⟨s, hsn⟩) h1
      have hne : i ≠ (⟨s, hsn⟩ : Fin n) := fun e => his (congrArg Fin.val e)
      have fi := f2 i hne
      refine ⟨fun j hj hsj => ?_, fun j hj k => ?_⟩
      · rcases Nat.lt_or_ge s j.val with hlt | hge
        · have hjs : j ≠ (⟨s, hsn⟩ : Fin n) := fun e => by rw [Fin.ext_iff] at e; simp at e; omega
          intro k
          have := e1 j hj hlt k
          rw [(fi k).1, (fi k).2, (f2 j hjs i).1, (f2 j hjs k).1, (f2 j hjs k).2] at this
          exact this
        · obtain rfl : j = ⟨s, hsn⟩ := Fin.ext (by simp; omega)
          intro k
          rw [(e2 ⟨s, hsn⟩ (.inr (by simp)) k).1, (e2 ⟨s, hsn⟩ (.inr (by simp)) k).2]
          exact f1 k
      · have hjs : j ≠ (⟨s, hsn⟩ : Fin n) := by
          rcases hj with rfl | hj
          · exact hne
          · intro e; rw [Fin.ext_iff] at e; simp at e; omega
        rw [(e2 j (hj.imp_right (by omega)) k).1, (e2 j (hj.imp_right (by omega)) k).2]
        exact f2 j hjs k

/-- One Gauss-Jordan stage: row `i` is multiplied by the reciprocal of the pivot, then column `i` is cleared in the other
rows. -/
structure GJStage (O : Ops T) (i : Fin n) (p p' : Mat T n n × Mat T n n) : Prop where
  pivot : O.isZero (p.1.get i i) = false
  scale : ∃ rcp, O.div O.one (p.1.get i i) = .ok rcp ∧
    ∀ k, O.mul (p.1.get i k) rcp = .ok (p'.1.get i k) ∧ O.mul (p.2.get i k) rcp = .ok (p'.2.get i k)
  clear : ∀ j, j ≠ i → ∀ k,
    (∃ q, O.mul (p'.1.get i k) (p.1.get j i) = .ok q ∧ O.sub (p.1.get j k) q = .ok (p'.1.get j k)) ∧
    ∃ q, O.mul (p'.2.get i k) (p.1.get j i) = .ok q ∧ O.sub (p.2.get j k) q = .ok (p'.2.get j k)

/-- A property of the state before stage `i` that every stage preserves: it holds at the end, or at the stage whose pivot
is zero. -/
theorem gjLoop_free (P : Nat → Mat T n n × Mat T n n → Prop)
    (hP : ∀ (i : Fin n) (p p' : Mat T n n × Mat T n n), P i p → GJStage O i p p' → P (i + 1) p')
    (d i : Nat) (hd : i + d = n) {p : Mat T n n × Mat T n n} (hp : P i p) {o : Option (Mat T n n × Mat T n n)}
    (h : Mat.gjLoop O (List.range' i d) p = .ok o) :
    (o = none → ∃ (i : Fin n) (q : Mat T n n × Mat T n n), P i q ∧ O.isZero (q.1.get i i) = true) ∧
    (∀ q, o = some q → P n q) := by
  induction d generalizing i p with
  | zero => cases h; simp at hd; subst hd; exact ⟨by simp, by rintro _ ⟨⟩; exact hp⟩
  | succ d ih =>
    have hi : i < n := by omega
    rw [List.range'_succ, Mat.gjLoop, Mat.index_ok _ hi hi] at h
    simp only [res_ok_bind] at h
    split at h
    · rename_i hz; cases h; exact ⟨fun _ => ⟨⟨i, hi⟩, p, hp, hz⟩, by simp⟩
    · rename_i hz
      rw [bind_ok_iff] at h
      obtain ⟨rcp, h1, h⟩ := h
      rw [bind_ok_iff] at h
      obtain ⟨p1, h2, h⟩ := h
      rw [bind_ok_iff] at h
      obtain ⟨p2, h3, h⟩ := h
      obtain ⟨s1, s2⟩ := gjScale_free (i := ⟨i, hi⟩) h2
      rw [Mat.gjClear, List.range_eq_range'] at h3
      obtain ⟨c1, c2⟩ := gjClear_free (i := ⟨i, hi⟩) n 0 (by omega) h3
      refine ih (i + 1) (by omega) (hP ⟨i, hi⟩ p p2 hp ⟨by simpa using hz, ⟨rcp, h1, fun k => ?_⟩, fun j hj k => ?_⟩) h
      · rw [(c2 ⟨i, hi⟩ (.inl rfl) k).1, (c2 ⟨i, hi⟩ (.inl rfl) k).2]; exact s1 k
      · have := c1 j hj (Nat.zero_le _) k
        rw [(s2 j hj _).1, (s2 j hj _).1, (s2 j hj _).2] at this
        rw [(c2 ⟨i, hi⟩ (.inl rfl) k).1, (c2 ⟨i, hi⟩ (.inl rfl) k).2]
        exact this

end Rowcol
