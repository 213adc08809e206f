import Verif.Props.Display
import Verif.Model.DisplayIO

/-! # C82: `Display for Matrix` with effectful entries and failing destinations -/

namespace Rowcol
open Spec

variable {T L : Type} {r c : Nat}

namespace Spec

/-- Write the pieces in order; stop at the first failing write and report it. -/
def writeAll (out : List Char → StM L Bool) : List (List Char) → StM L Bool
  | [] => pure true
  | p :: ps => do
    let ok ← out p
    if ok then writeAll out ps else pure false

/-- Render all entries, row by row, each row from left to right. -/
def renderEntries (render : T → StM L (List Char)) (a : Mat T r c) : StM L (List (List (List Char))) :=
  a.toLists.mapM fun row => row.mapM render

section
variable (lines : List Char → List (List Char)) (cw : Char → Nat) (s : Mat (List Char) r c)

/-- The writes for entry `(i, j)` in line `n` of its row, given all rendered entries: blanks one by one, the line itself, blanks. -/
def cellWrites (i : Fin r) (j : Fin c) (n : Nat) : List (List Char) :=
  List.replicate (leftPad lines cw id s i j) [' '] ++ [entryLine lines id s i j n] ++
  List.replicate (columnWidth lines cw id s j - strLen cw (entryLine lines id s i j n) - leftPad lines cw id s i j +
    (gap j).length) [' ']

/-- The writes for line `n` of row `i`: the opening bracket, the cells, the closing bracket with its line end. -/
def lineWrites (i : Fin r) (n : Nat) : List (List Char) :=
  [(brackets r (rowHeight lines id s i) i n).1] :: ((List.finRange c).flatMap fun j => cellWrites lines cw s i j n) ++
  [(brackets r (rowHeight lines id s i) i n).2 :: lineEnd (brackets r (rowHeight lines id s i) i n).2]

/-- All writes. -/
def displayWrites : List (List Char) :=
  (List.finRange r).flatMap fun i => (List.range (rowHeight lines id s i)).flatMap fun n => lineWrites lines cw s i n

end
end Spec

/-- `writeAll` with a continuation. -/
def writeThen (out : List Char → StM L Bool) : List (List Char) → StM L Bool → StM L Bool
  | [], rest => rest
  | p :: ps, rest => tryWrite out p (writeThen out ps rest)

theorem writeThen_append (out : List Char → StM L Bool) (ps qs : List (List Char)) (rest : StM L Bool) :
    writeThen out (ps ++ qs) rest = writeThen out ps (writeThen out qs rest) := by
  induction ps with
  | nil => rfl
  | cons p ps ih => rw [List.cons_append, writeThen, ih, writeThen]

theorem writeThen_pure (out : List Char → StM L Bool) (ps : List (List Char)) :
    writeThen out ps (pure true) = writeAll out ps := by
  induction ps with
  | nil => rfl
  | cons p ps ih => rw [writeThen, ih]; rfl

theorem writeBlanks_eq (out : List Char → StM L Bool) (k : Nat) (rest : StM L Bool) :
    writeBlanks out k rest = writeThen out (List.replicate k [' ']) rest := by
  induction k with
  | zero => rfl
  | succ k ih => rw [writeBlanks, ih]; rfl

theorem liftRes_ok_bind {α β : Type} (x : α) (f : α → StM L β) : (liftRes (.ok x) : StM L α) >>= f = f x := by
  rw [liftRes]; exact pure_bind x f

section
variable (t : Target) (lines : List Char → List (List Char)) (cw : Char → Nat) (s : Mat (List Char) r c)
  (out : List Char → StM L Bool)

theorem cellsIO_eq (hW : ∀ j, columnWidth lines cw id s j + 1 < t.W) (i : Fin r) (n : Nat) (js : List (Fin c)) (rest : StM L Bool) :
    Mat.cellsIO t lines cw out (Vec.ofFn (columnWidth lines cw id s)) n
      (js.map fun j => ((s.get i j, Mat.entryW lines cw id s i j), j.val)) rest =
    writeThen out (js.flatMap fun j => cellWrites lines cw s i j n) rest := by
  induction js with
  | nil => rfl
  | cons j js ih =>
    have hj := j.isLt
    have h1 := entryW_le lines cw id s i j
    have h2 := entryLine_le lines cw id s i j n
    have h3 := hW j
    rw [List.map_cons, Mat.cellsIO]
    simp only []
    rw [Vec.index_ok _ j.isLt, liftRes_ok_bind]
    simp only [Fin.eta, Vec.get_ofFn, Mat.entryW] at h1 ⊢
    rw [usub_ok t h1, liftRes_ok_bind]
    rw [writeBlanks_eq, List.flatMap_cons, writeThen_append, cellWrites, writeThen_append, writeThen_append]
    change writeThen out (List.replicate (leftPad lines cw id s i j) [' ']) _ = writeThen out (List.replicate (leftPad lines cw id s i j) [' ']) _
    congr 1
    change tryWrite out (entryLine lines id s i j n) _ = tryWrite out (entryLine lines id s i j n) _
    congr 1
    change (do
      let x ← liftRes (usub t (columnWidth lines cw id s j) (strLen cw (entryLine lines id s i j n)))
      _ : StM L Bool) = _
    rw [usub_ok t (by omega), liftRes_ok_bind]
    change (do
      let x ← liftRes (usub t _ (leftPad lines cw id s i j))
      _ : StM L Bool) = _
    have h4 : leftPad lines cw id s i j ≤ columnWidth lines cw id s j - strLen cw (entryLine lines id s i j n) := by
      have : leftPad lines cw id s i j =
        (columnWidth lines cw id s j - greatest ((lines (id (s.get i j))).map (strLen cw))) / 2 := rfl
      omega
    rw [usub_ok t h4, liftRes_ok_bind, usub_ok t (by omega), liftRes_ok_bind, uadd_ok t (by split <;> omega), liftRes_ok_bind,
      writeBlanks_eq]
    have hg : (if j.val ≠ c - 1 then 1 else 0) = (gap j).length := by
      unfold gap
      by_cases hl : j.val + 1 < c
      · rw [if_pos hl, if_pos (by omega)]; rfl
      · rw [if_neg hl, if_neg (by omega)]; rfl
    rw [hg]
    have ih' := ih
    simp only [Mat.entryW] at ih'
    rw [ih']
    rfl

theorem linesIO_eq (hW : ∀ j, columnWidth lines cw id s j + 1 < t.W) (i : Fin r) (ns : List Nat) (hn : ∀ n ∈ ns, n < rowHeight lines id s i)
    (rest : StM L Bool) :
    Mat.linesIO t lines cw out (Mat.sz (Mat.colW lines cw id s) (Mat.rowH lines id s))
      (Vec.ofFn fun j => (s.get i j, Mat.entryW lines cw id s i j)) i (rowHeight lines id s i) ns rest =
    writeThen out (ns.flatMap fun n => lineWrites lines cw s i n) rest := by
  induction ns with
  | nil => rfl
  | cons n ns ih =>
    have h1 := hn n (by simp)
    rw [Mat.linesIO, openBracket_eq t i n _ h1, liftRes_ok_bind, List.flatMap_cons, writeThen_append, lineWrites, List.cons_append, writeThen,
      writeThen_append]
    congr 1
    rw [closeBracket_eq t i n _ h1, ← cellsIO_eq t lines cw s out hW i n (List.finRange c), Vec.zipIdx_eq]
    have e : ((List.finRange c).map fun j => ((Vec.ofFn fun j => (s.get i j, Mat.entryW lines cw id s i j)).get j, j.val)) =
        (List.finRange c).map fun j => ((s.get i j, Mat.entryW lines cw id s i j), j.val) := by simp
    rw [e, ih (fun m hm => hn m (by simp [hm]))]
    rfl

theorem rowsIO_eq (hW : ∀ j, columnWidth lines cw id s j + 1 < t.W) (is : List (Fin r)) :
    Mat.rowsIO t lines cw out (Mat.sz (Mat.colW lines cw id s) (Mat.rowH lines id s))
      (is.map fun i => (Vec.ofFn fun j => (s.get i j, Mat.entryW lines cw id s i j), i.val)) =
    writeAll out (is.flatMap fun i => (List.range (rowHeight lines id s i)).flatMap fun n => lineWrites lines cw s i n) := by
  induction is with
  | nil => rfl
  | cons i is ih =>
    rw [List.map_cons, Mat.rowsIO]
    simp only [Mat.sz] at ih ⊢
    rw [Vec.index_ok _ i.isLt, liftRes_ok_bind]
    simp only [Fin.eta, Vec.get_ofFn]
    change Mat.linesIO t lines cw out _ _ i (rowHeight lines id s i) (List.range (rowHeight lines id s i)) _ = _
    have := linesIO_eq t lines cw s out hW i (List.range (rowHeight lines id s i)) (fun n hn => List.mem_range.1 hn)
    simp only [Mat.sz] at this
    rw [this, ih, ← writeThen_pure, ← writeThen_pure, ← writeThen_append, List.flatMap_cons]

end

/-! ### The rendering phase -/

theorem sim_mapM {S ι α β : Type} (f : ι → StM (L × S) α) (h : ι → StM L β) (G : ι → StM S α) (B : ι → β) (A : ι → α)
    (is : List ι) (l l' : L) (s s' : S)
    (hf : ∀ i ∈ is, ∀ l l', (h i).run l = (.ok (B i), l') → ∀ s, (f i).run (l, s) = (((G i).run s).1, (l', ((G i).run s).2)))
    (hh : (is.mapM h).run l = (.ok (is.map B), l')) (hG : (is.mapM G).run s = (.ok (is.map A), s')) :
    (is.mapM f).run (l, s) = (.ok (is.map A), (l', s')) := by
  induction is generalizing l s with
  | nil =>
    obtain rfl := (Prod.mk.inj hh).2
    obtain rfl := (Prod.mk.inj hG).2
    rfl
  | cons i is ih =>
    rw [List.mapM_cons] at hh hG ⊢
    rw [StM.run_bind] at hh hG
    rcases h1 : (h i).run l with ⟨(_ | b), l1⟩
    · rw [h1] at hh; exact absurd (Prod.mk.inj hh).1 (by simp)
    rcases g1 : (G i).run s with ⟨(_ | x), s1⟩
    · rw [g1] at hG; exact absurd (Prod.mk.inj hG).1 (by simp)
    rw [h1] at hh
    rw [g1] at hG
    simp only [] at hh hG
    rw [StM.run_bind] at hh hG
    rcases h2 : (is.mapM h).run l1 with ⟨(_ | bs), l2⟩
    · rw [h2] at hh; exact absurd (Prod.mk.inj hh).1 (by simp)
    rcases g2 : (is.mapM G).run s1 with ⟨(_ | xs), s2⟩
    · rw [g2] at hG; exact absurd (Prod.mk.inj hG).1 (by simp)
    rw [h2] at hh
    rw [g2] at hG
    simp only [StM.run_pure] at hh hG
    obtain ⟨e1, rfl⟩ := Prod.mk.inj hh
    obtain ⟨e2, rfl⟩ := Prod.mk.inj hG
    obtain ⟨rfl, rfl⟩ := List.cons.inj (Except.ok.inj e1)
    obtain ⟨rfl, rfl⟩ := List.cons.inj (Except.ok.inj e2)
    have hi := hf i (by simp) l l1 h1 s
    rw [g1] at hi
    rw [StM.run_bind_ok hi, StM.run_bind_ok (ih l1 s1 (fun j hj => hf j (by simp [hj])) h2 g2)]
    rfl

theorem sim_mapM_error {S ι α β : Type} (f : ι → StM (L × S) α) (h : ι → StM L β) (is : List ι) (l l' : L) (s : S) (e : Fault)
    (hok : ∀ i ∈ is, ∀ l l' b, (h i).run l = (.ok b, l') → ∀ s, ∃ x s', (f i).run (l, s) = (.ok x, (l', s')))
    (herr : ∀ i ∈ is, ∀ l l' e, (h i).run l = (.error e, l') → ∀ s, ∃ s', (f i).run (l, s) = (.error e, (l', s')))
    (hh : (is.mapM h).run l = (.error e, l')) :
    ∃ s', (is.mapM f).run (l, s) = (.error e, (l', s')) := by
  induction is generalizing l s with
  | nil => exact absurd (Prod.mk.inj hh).1 (by simp)
  | cons i is ih =>
    rw [List.mapM_cons] at hh ⊢
    rw [StM.run_bind] at hh
    rcases h1 : (h i).run l with ⟨(e1 | b), l1⟩
    · rw [h1] at hh
      obtain ⟨e2, rfl⟩ := Prod.mk.inj hh
      obtain rfl := Except.error.inj e2
      obtain ⟨s', hs⟩ := herr i (by simp) l _ _ h1 s
      exact ⟨s', StM.run_bind_error hs⟩
    · rw [h1] at hh
      simp only [] at hh
      rw [StM.run_bind] at hh
      obtain ⟨x, s1, hs⟩ := hok i (by simp) l _ _ h1 s
      rcases h2 : (is.mapM h).run l1 with ⟨(e2 | bs), l2⟩
      · rw [h2] at hh
        obtain ⟨e3, rfl⟩ := Prod.mk.inj hh
        obtain rfl := Except.error.inj e3
        obtain ⟨s2, hs2⟩ := ih l1 s1 (fun j hj => hok j (by simp [hj])) (fun j hj => herr j (by simp [hj])) h2
        exact ⟨s2, by rw [StM.run_bind_ok hs, StM.run_bind_error hs2]⟩
      · rw [h2] at hh
        exact absurd (Prod.mk.inj hh).1 (by simp)

theorem run_onLeft_ok {S α : Type} {x : StM L α} {l l' : L} {b : α} (h : x.run l = (.ok b, l')) (s : S) :
    (onLeft x : StM (L × S) α).run (l, s) = (.ok b, (l', s)) := by
  change (match x.run l with | (r, a) => (r, (a, s))) = _
  rw [h]

theorem run_onLeft_error {S α : Type} {x : StM L α} {l l' : L} {e : Fault} (h : x.run l = (.error e, l')) (s : S) :
    (onLeft x : StM (L × S) α).run (l, s) = (.error e, (l', s)) := by
  change (match x.run l with | (r, a) => (r, (a, s))) = _
  rw [h]

theorem run_onRight' {S α : Type} (x : StM S α) (l : L) (s : S) :
    (onRight x : StM (L × S) α).run (l, s) = ((x.run s).1, (l, (x.run s).2)) := rfl

theorem collect_run_error {S T : Type} {n : Nat} (t : Target) (l : List (StM S T)) (s s' : S) (e : Fault)
    (hl : l.length = n) (h : (l.mapM id).run s = (.error e, s')) :
    (Vec.collect t n l).run s = (.error e, s') := by
  have h1 := congrArg (fun x : StM S (List T) => x.run s) (Vec.collect_toList t n l hl)
  simp only [h, StM.run_map] at h1
  rcases hr : (Vec.collect t n l).run s with ⟨res, s1⟩
  rw [hr] at h1
  cases res with
  | error e => 
    obtain ⟨h2, rfl⟩ := Prod.mk.inj h1
    rw [Except.error.inj h2]
  | ok v => exact absurd (Prod.mk.inj h1).1 (by simp)

section
variable (t : Target) (lines : List Char → List (List Char)) (cw : Char → Nat) (render : T → StM L (List Char)) (a : Mat T r c)

theorem renderStepIO_ok (s : Mat (List Char) r c) (i : Fin r) (j : Fin c) (l l' : L)
    (h : (render (a.get i j)).run l = (.ok (s.get i j), l')) (S : Mat.Sizes r c) :
    (Mat.renderStepIO lines cw render a i j).run (l, S) =
      (((Mat.renderStep lines cw id s i j).run S).1, (l', ((Mat.renderStep lines cw id s i j).run S).2)) := by
  unfold Mat.renderStepIO Mat.renderStep
  rw [Mat.index_ok a i.isLt j.isLt, StM.run_bind_ok (StM.run_liftRes_ok _ _)]
  simp only [Fin.eta]
  rw [StM.run_bind_ok (run_onLeft_ok h S), run_onRight']
  rw [Mat.index_ok s i.isLt j.isLt, StM.run_bind_ok (StM.run_liftRes_ok _ _)]
  rfl

theorem sizes_eq (S : Mat.Sizes r c) : S = Mat.sz S.ws.get S.hs.get := by
  rw [Mat.sz, Vec.ofFn_get, Vec.ofFn_get]

theorem renderStepIO_some (i : Fin r) (j : Fin c) (l l' : L) (b : List Char)
    (h : (render (a.get i j)).run l = (.ok b, l')) (S : Mat.Sizes r c) :
    ∃ x S', (Mat.renderStepIO lines cw render a i j).run (l, S) = (.ok x, (l', S')) := by
  have := renderStepIO_ok lines cw render a (Mat.ofFn fun _ _ => b) i j l l' (by rw [Mat.get_ofFn]; exact h) S
  rw [sizes_eq S, Mat.renderStep_run] at this
  rw [sizes_eq S]
  exact ⟨_, _, this⟩

theorem renderStepIO_error (i : Fin r) (j : Fin c) (l l' : L) (e : Fault)
    (h : (render (a.get i j)).run l = (.error e, l')) (S : Mat.Sizes r c) :
    ∃ S', (Mat.renderStepIO lines cw render a i j).run (l, S) = (.error e, (l', S')) := by
  refine ⟨S, ?_⟩
  unfold Mat.renderStepIO
  rw [Mat.index_ok a i.isLt j.isLt, StM.run_bind_ok (StM.run_liftRes_ok _ _)]
  simp only [Fin.eta]
  rw [StM.run_bind_error (run_onLeft_error h S)]

theorem sim_mapM_some {S ι α β : Type} (f : ι → StM (L × S) α) (h : ι → StM L β) (is : List ι) (l l' : L) (s : S) (bs : List β)
    (hok : ∀ i ∈ is, ∀ l l' b, (h i).run l = (.ok b, l') → ∀ s, ∃ x s', (f i).run (l, s) = (.ok x, (l', s')))
    (hh : (is.mapM h).run l = (.ok bs, l')) :
    ∃ xs s', (is.mapM f).run (l, s) = (.ok xs, (l', s')) := by
  induction is generalizing l s bs with
  | nil =>
    obtain rfl := (Prod.mk.inj hh).2
    exact ⟨_, _, rfl⟩
  | cons i is ih =>
    rw [List.mapM_cons, StM.run_bind] at hh
    rw [List.mapM_cons]
    rcases h1 : (h i).run l with ⟨(_ | b), l1⟩
    · rw [h1] at hh; exact absurd (Prod.mk.inj hh).1 (by simp)
    rw [h1] at hh
    simp only [] at hh
    rw [StM.run_bind] at hh
    rcases h2 : (is.mapM h).run l1 with ⟨(_ | bs), l2⟩
    · rw [h2] at hh; exact absurd (Prod.mk.inj hh).1 (by simp)
    rw [h2] at hh
    obtain rfl := (Prod.mk.inj hh).2
    obtain ⟨x, s1, hs⟩ := hok i (by simp) l _ _ h1 s
    obtain ⟨xs, s2, hs2⟩ := ih l1 s1 bs (fun j hj => hok j (by simp [hj])) h2
    exact ⟨_, _, by rw [StM.run_bind_ok hs, StM.run_bind_ok hs2]; rfl⟩

theorem collect_run_some {S T : Type} {n : Nat} (l : List (StM S T)) (s s' : S) (xs : List T)
    (hl : l.length = n) (h : (l.mapM id).run s = (.ok xs, s')) : ∃ v, (Vec.collect t n l).run s = (.ok v, s') := by
  have h1 := congrArg (fun x : StM S (List T) => x.run s) (Vec.collect_toList t n l hl)
  simp only [h, StM.run_map] at h1
  rcases hr : (Vec.collect t n l).run s with ⟨res, s1⟩
  rw [hr] at h1
  cases res with
  | error e => exact absurd (Prod.mk.inj h1).1 (by simp)
  | ok v => exact ⟨v, by rw [(Prod.mk.inj h1).2]⟩

/-- One row of the rendering phase. -/
def rowIO (i : Nat) : StM (L × Mat.Sizes r c) (Vec (List Char × Nat) c) :=
  Vec.collect t c ((List.range c).map fun j => Mat.renderStepIO lines cw render a i j)

theorem rowIO_mapM (i : Fin r) : ((List.range c).map fun j => Mat.renderStepIO lines cw render a i j).mapM id =
    (List.finRange c).mapM fun j : Fin c => Mat.renderStepIO lines cw render a i j := by
  rw [mapM_map', Vec.range_eq, List.mapM_map]
  rfl

theorem rowIO_ok (s : Mat (List Char) r c) (i : Fin r) (l l' : L)
    (h : ((List.finRange c).mapM fun j => render (a.get i j)).run l = (.ok ((List.finRange c).map (s.get i)), l')) (S : Mat.Sizes r c) :
    (rowIO t lines cw render a i).run (l, S) =
      (((Vec.collect t c ((List.range c).map fun j => Mat.renderStep lines cw id s i j)).run S).1,
        (l', ((Vec.collect t c ((List.range c).map fun j => Mat.renderStep lines cw id s i j)).run S).2)) := by
  rw [sizes_eq S]
  have hp := Mat.renderRow_run lines cw id s t i S.ws.get S.hs.get
  have hm : ((List.finRange c).mapM fun j : Fin c => Mat.renderStep lines cw id s i j).run (Mat.sz S.ws.get S.hs.get) =
      (.ok ((List.finRange c).map fun j => (s.get i j, Mat.entryW lines cw id s i j)),
        ((Vec.collect t c ((List.range c).map fun j => Mat.renderStep lines cw id s i j)).run (Mat.sz S.ws.get S.hs.get)).2) := by
    have h1 := congrArg (fun x : StM _ (List _) => x.run (Mat.sz S.ws.get S.hs.get))
      (Vec.collect_toList t c ((List.range c).map fun j => Mat.renderStep lines cw id s i j) (by simp))
    simp only [StM.run_map] at h1
    rw [hp, mapM_map', Vec.range_eq, List.mapM_map] at h1
    rw [hp]
    refine h1.symm.trans ?_
    simp [Vec.toList_ofFn]
  have := sim_mapM (fun j : Fin c => Mat.renderStepIO lines cw render a i j) (fun j => render (a.get i j))
    (fun j => Mat.renderStep lines cw id s i j) (s.get i) (fun j => (s.get i j, Mat.entryW lines cw id s i j))
    (List.finRange c) l l' _ _ (fun j _ l l' hr S => renderStepIO_ok lines cw render a s i j l l' hr S) h hm
  unfold rowIO
  rw [collect_run t _ _ _ ((List.finRange c).map fun j => (s.get i j, Mat.entryW lines cw id s i j)) (by simp) (by simp)
    (by rw [rowIO_mapM]; exact this)]
  rw [hp]
  congr 2
  apply Vec.ext
  rw [Vec.toList_ofFn]
  rfl

theorem toLists_mapM {m : Type → Type} [RustM m] {U : Type} (g : T → m U) :
    (a.toLists.mapM fun row => row.mapM g) = (List.finRange r).mapM fun i => (List.finRange c).mapM fun j => g (a.get i j) := by
  rw [Mat.toLists, Vec.toList_eq, List.map_map, List.mapM_map]
  congr 1
  funext i
  simp only [Function.comp]
  rw [Vec.toList_eq, List.mapM_map]
  rfl

theorem toLists_eq' (s : Mat T r c) : s.toLists = (List.finRange r).map fun i => (List.finRange c).map (s.get i) := by
  rw [Mat.toLists, Vec.toList_eq, List.map_map]
  apply List.map_congr_left
  intro i _
  simp only [Function.comp]
  rw [Vec.toList_eq]
  rfl

theorem renderAllIO_ok (s : Mat (List Char) r c) (l l' : L) (h : (renderEntries render a).run l = (.ok s.toLists, l')) :
    (Mat.renderAllIO t lines cw render a).run (l, Mat.sz (fun _ => 0) (fun _ => 0)) =
      (.ok (Vec.ofFn fun i => Vec.ofFn fun j => (s.get i j, Mat.entryW lines cw id s i j)),
        (l', Mat.sz (Mat.colW lines cw id s) (Mat.rowH lines id s))) := by
  rw [renderEntries, toLists_mapM, toLists_eq'] at h
  have hp := Mat.renderAll_run lines cw id s t
  unfold Mat.renderAll at hp
  have hm : ((List.finRange r).mapM fun i : Fin r => Vec.collect t c ((List.range c).map fun j => Mat.renderStep lines cw id s i j)).run
      (Mat.sz (fun _ => 0) (fun _ => 0)) =
      (.ok ((List.finRange r).map fun i => Vec.ofFn fun j => (s.get i j, Mat.entryW lines cw id s i j)),
        Mat.sz (Mat.colW lines cw id s) (Mat.rowH lines id s)) := by
    have h1 := congrArg (fun x : StM _ (List _) => x.run (Mat.sz (fun _ => 0) (fun _ => 0)))
      (Vec.collect_toList t r ((List.range r).map fun i => Vec.collect t c ((List.range c).map fun j => Mat.renderStep lines cw id s i j)) (by simp))
    simp only [StM.run_map] at h1
    rw [hp, mapM_map', Vec.range_eq r, List.mapM_map] at h1
    refine h1.symm.trans ?_
    simp [Vec.toList_ofFn]
  have := sim_mapM (fun i : Fin r => rowIO t lines cw render a i) (fun i => (List.finRange c).mapM fun j => render (a.get i j))
    (fun i : Fin r => Vec.collect t c ((List.range c).map fun j => Mat.renderStep lines cw id s i j))
    (fun i => (List.finRange c).map (s.get i)) (fun i => Vec.ofFn fun j => (s.get i j, Mat.entryW lines cw id s i j))
    (List.finRange r) l l' _ _ (fun i _ l l' hr S => rowIO_ok t lines cw render a s i l l' hr S) h hm
  unfold Mat.renderAllIO
  rw [collect_run t _ _ (l', _) ((List.finRange r).map fun i => Vec.ofFn fun j => (s.get i j, Mat.entryW lines cw id s i j)) (by simp) (by simp)
    (by rw [mapM_map', Vec.range_eq r, List.mapM_map]; exact this)]
  congr 2
  apply Vec.ext
  rw [Vec.toList_ofFn]

theorem rowIO_some (i : Fin r) (l l' : L) (b : List (List Char))
    (h : ((List.finRange c).mapM fun j => render (a.get i j)).run l = (.ok b, l')) (S : Mat.Sizes r c) :
    ∃ x S', (rowIO t lines cw render a i).run (l, S) = (.ok x, (l', S')) := by
  obtain ⟨xs, s', hs⟩ := sim_mapM_some (fun j : Fin c => Mat.renderStepIO lines cw render a i j) (fun j => render (a.get i j))
    (List.finRange c) l l' S b (fun j _ l l' b hr S => renderStepIO_some lines cw render a i j l l' b hr S) h
  obtain ⟨v, hv⟩ := collect_run_some t (n := c) _ _ _ _ (by simp) ((congrArg (fun x => x.run (l, S)) (rowIO_mapM lines cw render a i)).trans hs)
  exact ⟨v, s', hv⟩

theorem rowIO_error (i : Fin r) (l l' : L) (e : Fault)
    (h : ((List.finRange c).mapM fun j => render (a.get i j)).run l = (.error e, l')) (S : Mat.Sizes r c) :
    ∃ S', (rowIO t lines cw render a i).run (l, S) = (.error e, (l', S')) := by
  obtain ⟨s', hs⟩ := sim_mapM_error (fun j : Fin c => Mat.renderStepIO lines cw render a i j) (fun j => render (a.get i j))
    (List.finRange c) l l' S e (fun j _ l l' b hr S => renderStepIO_some lines cw render a i j l l' b hr S)
    (fun j _ l l' e hr S => renderStepIO_error lines cw render a i j l l' e hr S) h
  exact ⟨s', collect_run_error t _ _ _ _ (by simp) ((congrArg (fun x => x.run (l, S)) (rowIO_mapM lines cw render a i)).trans hs)⟩

theorem renderAllIO_error (l l' : L) (e : Fault) (h : (renderEntries render a).run l = (.error e, l')) :
    ∃ S', (Mat.renderAllIO t lines cw render a).run (l, Mat.sz (fun _ => 0) (fun _ => 0)) = (.error e, (l', S')) := by
  rw [renderEntries, toLists_mapM] at h
  obtain ⟨s', hs⟩ := sim_mapM_error (fun i : Fin r => rowIO t lines cw render a i) (fun i => (List.finRange c).mapM fun j => render (a.get i j))
    (List.finRange r) l l' (Mat.sz (fun _ => 0) (fun _ => 0)) e (fun i _ l l' b hr S => rowIO_some t lines cw render a i l l' b hr S)
    (fun i _ l l' e hr S => rowIO_error t lines cw render a i l l' e hr S) h
  refine ⟨s', collect_run_error t _ _ _ _ (by simp) ?_⟩
  rw [mapM_map', Vec.range_eq r, List.mapM_map]
  exact hs

theorem displayIO_run (out : List Char → StM L Bool) (l : L) : (Mat.displayIO t lines cw render out a).run l =
    match (Mat.renderAllIO t lines cw render a).run (l, Mat.sz (fun _ => 0) (fun _ => 0)) with
    | (.error e, (l', _)) => (.error e, l')
    | (.ok ss, (l', st)) => (Mat.rowsIO t lines cw out st ss.toList.zipIdx).run l' := by
  have hd : ∀ k, Vec.default t k (pure 0 : Res Nat) = .ok (Vec.ofFn fun _ => 0) := by
    intro k
    unfold Vec.default Vec.generate
    rw [Vec.range_eq, List.map_map]
    exact Vec.collect_finRange_ok t _ _ (fun _ => rfl)
  unfold Mat.displayIO
  rw [hd, hd, liftRes_ok_bind, liftRes_ok_bind]
  rfl

/-- C82: if rendering the entries (row by row, left to right, each once) panics, so does displaying, with the same effects:
nothing has been written. -/
theorem C82_render_panics (out : List Char → StM L Bool) (l l' : L) (e : Fault)
    (h : (renderEntries render a).run l = (.error e, l')) :
    (Mat.displayIO t lines cw render out a).run l = (.error e, l') := by
  obtain ⟨S', hS⟩ := renderAllIO_error t lines cw render a l l' e h
  rw [displayIO_run, hS]

/-- C82: otherwise everything is rendered (row by row, left to right, each entry once) before the first write; then the pieces
`displayWrites` are written in order until a write fails or panics; a failing write is reported and is the last one.
(The hypothesis on the widths only says that a padded column's width fits in `usize`.) -/
theorem C82_writes (out : List Char → StM L Bool) (s : Mat (List Char) r c) (l l' : L)
    (h : (renderEntries render a).run l = (.ok s.toLists, l')) (hW : ∀ j, columnWidth lines cw id s j + 1 < t.W) :
    (Mat.displayIO t lines cw render out a).run l = (writeAll out (displayWrites lines cw s)).run l' := by
  rw [displayIO_run, renderAllIO_ok t lines cw render a s l l' h]
  simp only []
  rw [Vec.zipIdx_eq, displayWrites, ← rowsIO_eq t lines cw s out hW]
  simp

end

theorem flatten_flatMap' {α β : Type} (l : List α) (f : α → List (List β)) :
    (l.flatMap f).flatten = l.flatMap fun x => (f x).flatten := by
  induction l with
  | nil => rfl
  | cons a l ih => simp [ih]

/-- C82: the pieces, put together, are the text of C64 (`Display` of the matrix of rendered entries). -/
theorem C82_text (t : Target) (lines : List Char → List (List Char)) (cw : Char → Nat) (s : Mat (List Char) r c)
    (hW : ∀ j, columnWidth lines cw id s j + 1 < t.W) :
    Mat.display t lines cw id s = .ok (displayWrites lines cw s).flatten := by
  rw [C64_display t lines cw id s hW, displayWrites]
  congr 1
  rw [flatten_flatMap']
  apply List.flatMap_congr
  intro i _
  rw [flatten_flatMap']
  apply List.flatMap_congr
  intro n _
  have hb : ∀ k, (List.replicate k [' ']).flatten = List.replicate k ' ' := by
    intro k
    induction k with
    | zero => rfl
    | succ k ih => rw [List.replicate_succ, List.flatten_cons, ih]; rfl
  have hc : ∀ j, (cellWrites lines cw s i j n).flatten = cell lines cw id s i j n ++ gap j := by
    intro j
    rw [cellWrites, List.flatten_append, List.flatten_append, hb, hb, ← List.replicate_append_replicate, cell]
    have : List.replicate (gap j).length ' ' = gap j := by unfold gap; split <;> rfl
    rw [this]
    simp
  rw [lineWrites, displayLine, lineInterior, List.flatten_append, List.flatten_cons, flatten_flatMap']
  simp only [hc]
  simp [List.flatMap]

/-- A destination that accepts `k` more writes and then fails; the state is what it has accepted. -/
def limited (p : List Char) : StM (List Char × Nat) Bool := do
  let s ← get
  match s.2 with
  | 0 => pure false
  | k + 1 => do
    set (s.1 ++ p, k)
    pure true

theorem limited_run (ps : List (List Char)) (acc : List Char) (k : Nat) :
    (writeAll limited ps).run (acc, k) = (.ok (decide (ps.length ≤ k)), (acc ++ (ps.take k).flatten, k - ps.length)) := by
  induction ps generalizing acc k with
  | nil => simp [writeAll]
  | cons p ps ih =>
    rw [writeAll]
    cases k with
    | zero =>
      have h1 : (limited p).run (acc, 0) = (.ok false, (acc, 0)) := rfl
      rw [StM.run_bind_ok h1]
      simp
    | succ k =>
      have h1 : (limited p).run (acc, k + 1) = (.ok true, (acc ++ p, k)) := rfl
      rw [StM.run_bind_ok h1, if_pos rfl, ih]
      simp

/-- C82: on a destination that accepts exactly `k` writes, the accepted text is that of the first `k` pieces, and the result is
`Ok` exactly if there are at most `k` pieces. -/
theorem C82_limited (t : Target) (lines : List Char → List (List Char)) (cw : Char → Nat) (render : T → List Char) (a : Mat T r c)
    (hW : ∀ j, columnWidth lines cw render a j + 1 < t.W) (k : Nat) (acc : List Char) :
    (Mat.displayIO t lines cw (fun x => pure (render x)) limited a).run (acc, k) =
      (.ok (decide ((displayWrites lines cw (Mat.ofFn fun i j => render (a.get i j))).length ≤ k)),
        (acc ++ ((displayWrites lines cw (Mat.ofFn fun i j => render (a.get i j))).take k).flatten,
          k - (displayWrites lines cw (Mat.ofFn fun i j => render (a.get i j))).length)) := by
  have h : (renderEntries (fun x => (pure (render x) : StM (List Char × Nat) _)) a).run (acc, k) =
      (.ok (Mat.ofFn fun i j => render (a.get i j)).toLists, (acc, k)) := by
    rw [renderEntries, toLists_mapM, toLists_eq']
    have e : (fun i => (List.finRange c).map ((Mat.ofFn fun i j => render (a.get i j)).get i)) =
        fun i : Fin r => (List.finRange c).map fun j => render (a.get i j) := by
      funext i
      congr 1
      funext j
      rw [Mat.get_ofFn]
    rw [e]
    simp
  rw [C82_writes t lines cw _ a limited _ _ _ h (by
    intro j
    have : columnWidth lines cw id (Mat.ofFn fun i j => render (a.get i j)) j = columnWidth lines cw render a j := by
      simp [columnWidth]
    rw [this]; exact hW j), limited_run]

/-- The matrix of texts `["1", "22"; "a\nbc", "4"]`. -/
def textEx : Mat (List Char) 2 2 := ⟨⟨[⟨["1".toList, "22".toList], rfl⟩, ⟨["a\nbc".toList, "4".toList], rfl⟩], rfl⟩⟩

example : (displayWrites strLines (fun _ => 1) textEx).map String.ofList =
    ["⎡", "1", " ", " ", "22", "⎤\n",
     "⎢", "a", " ", " ", "4", " ", "⎥\n",
     "⎣", "bc", " ", "", " ", " ", "⎦"] := by decide +kernel

/-- The destination accepts 4 writes: `⎡1` and two blanks, then `Err`. -/
example : (Mat.displayIO ⟨true, true, 2 ^ 64⟩ strLines (fun _ => 1) (fun x => pure x) limited textEx).run ([], 4) =
    (.ok false, ("⎡1  ".toList, 0)) := by
  rw [C82_limited ⟨true, true, 2 ^ 64⟩ strLines (fun _ => 1) (fun x => x) textEx (by decide +kernel)]
  have e : (Mat.ofFn fun i j => textEx.get i j) = textEx := Mat.ofFn_get _
  rw [e]
  exact congrArg₂ Prod.mk (congrArg Except.ok (by decide +kernel)) (by decide +kernel)

/-- An entry whose `Display` panics (the second one), the first one having logged something. -/
example : (Mat.displayIO ⟨true, true, 2 ^ 64⟩ strLines (fun _ => 1)
    (fun x : Nat => (do set [x]; if x = 1 then fault .panic else pure ['x'] : StM (List Nat) (List Char)))
    (fun _ => pure true) (⟨⟨[⟨[0, 1], rfl⟩], rfl⟩⟩ : Mat Nat 1 2)).run [] = (.error .panic, [1]) :=
  C82_render_panics _ _ _ _ _ _ _ _ _ rfl

end Rowcol
