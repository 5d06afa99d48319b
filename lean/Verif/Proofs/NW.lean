import Verif.Proofs.Prelude
import Verif.Proofs.Dict
import Verif.Model.EditGraph
/-
The edit table: local equations, shape of the cells, trace-back.
-/

namespace CollateX

/-- The cell in row `y` and column `x`. -/
def cellOf (cells : List (List Score)) (y x : Nat) : Option Score := (cells[y]?).bind (fun r => r[x]?)

/-- The table satisfies the recurrences of the code. -/
structure TableEq (m : Cube) (width h : Nat) (cells : List (List Score)) : Prop where
  len : cells.length = h + 1
  rowlen : ∀ (y : Nat) (row : List Score), cells[y]? = some row → row.length = width
  origin : cellOf cells 0 0 = some originScore
  row0 : ∀ x c p, cellOf cells 0 (x + 1) = some c → cellOf cells 0 x = some p → c = gap (p.x + 1) 0 p
  col0 : ∀ y c p, cellOf cells (y + 1) 0 = some c → cellOf cells y 0 = some p → c = gap 0 (y + 1) p
  inner : ∀ y x c ul left up, cellOf cells (y + 1) (x + 1) = some c → cellOf cells y x = some ul →
    cellOf cells (y + 1) x = some left → cellOf cells y (x + 1) = some up →
    c = max3 (scoreCell m (x + 1) (y + 1) ul) (gap (x + 1) (y + 1) left) (fromUpper m (y + 1) (x + 1) up)

theorem firstRowFrom_length (k : Nat) (p : Score) : (firstRowFrom k p).length = k := by
  induction k generalizing p with
  | zero => rfl
  | succ k ih => simp [firstRowFrom, ih]

theorem firstRowFrom_step (k : Nat) (p : Score) (x : Nat) (c q : Score)
    (hc : (p :: firstRowFrom k p)[x + 1]? = some c) (hq : (p :: firstRowFrom k p)[x]? = some q) :
    c = gap (q.x + 1) 0 q := by
  induction k generalizing p x with
  | zero => simp [firstRowFrom] at hc
  | succ k ih =>
    cases x with
    | zero =>
      simp [firstRowFrom] at hc hq
      subst hq
      exact hc.symm
    | succ x =>
      simp only [firstRowFrom, List.getElem?_cons_succ] at hc hq
      exact ih _ x (by simpa using hc) (by simpa using hq)

theorem rowFrom_length (m : Cube) (y x : Nat) (ul left : Score) (ups : List Score) :
    (rowFrom m y x ul left ups).length = ups.length := by
  induction ups generalizing x ul left with
  | nil => rfl
  | cons u us ih => simp [rowFrom, ih]

theorem rowFrom_step (m : Cube) (y x : Nat) (ul left : Score) (ups : List Score) (i : Nat) (c a b u : Score)
    (hc : (rowFrom m y x ul left ups)[i]? = some c) (ha : (ul :: ups)[i]? = some a)
    (hb : (left :: rowFrom m y x ul left ups)[i]? = some b) (hu : ups[i]? = some u) :
    c = max3 (scoreCell m (x + i) y a) (gap (x + i) y b) (fromUpper m y (x + i) u) := by
  induction ups generalizing x ul left i with
  | nil => simp at hu
  | cons v vs ih =>
    cases i with
    | zero =>
      simp [rowFrom] at hc ha hb hu
      subst ha; subst hb; subst hu
      simpa using hc.symm
    | succ i =>
      simp only [rowFrom, List.getElem?_cons_succ] at hc ha hb hu
      have := ih (x + 1) v _ i hc ha hb hu
      rw [this]
      have e : x + 1 + i = x + (i + 1) := by omega
      rw [e]

theorem nextRow_length (m : Cube) (y : Nat) (prev : List Score) : (nextRow m y prev).length = prev.length := by
  cases prev with
  | nil => rfl
  | cons p ps => simp [nextRow, rowFrom_length]

theorem rowsFrom_length (m : Cube) (k y : Nat) (prev : List Score) : (rowsFrom m k y prev).length = k := by
  induction k generalizing y prev with
  | zero => rfl
  | succ k ih => simp [rowsFrom, ih]

theorem rowsFrom_rowlen (m : Cube) (k y : Nat) (prev : List Score) (i : Nat) (row : List Score)
    (h : (prev :: rowsFrom m k y prev)[i]? = some row) : row.length = prev.length := by
  induction k generalizing y prev i with
  | zero =>
    cases i with
    | zero => simp at h; rw [h]
    | succ i => simp [rowsFrom] at h
  | succ k ih =>
    cases i with
    | zero => simp at h; rw [h]
    | succ i =>
      simp only [rowsFrom, List.getElem?_cons_succ] at h
      rw [ih _ _ i h, nextRow_length]

theorem rowsFrom_step (m : Cube) (k y : Nat) (prev : List Score) (i : Nat) (r r' : List Score)
    (h : (prev :: rowsFrom m k y prev)[i]? = some r) (h' : (prev :: rowsFrom m k y prev)[i + 1]? = some r') :
    r' = nextRow m (y + i) r := by
  induction k generalizing y prev i with
  | zero => simp [rowsFrom] at h'
  | succ k ih =>
    cases i with
    | zero =>
      simp [rowsFrom] at h h'
      subst h; exact h'.symm
    | succ i =>
      simp only [rowsFrom, List.getElem?_cons_succ] at h h'
      have := ih (y + 1) _ i (by simpa using h) (by simpa using h')
      rw [this]
      have e : y + 1 + i = y + (i + 1) := by omega
      rw [e]

theorem fillTable_eq (m : Cube) (width h : Nat) (hw : 0 < width) :
    ∃ cells, fillTable m width h = .ok cells ∧ TableEq m width h cells := by
  cases width with
  | zero => omega
  | succ k =>
    refine ⟨_, rfl, ?_⟩
    set r0 := originScore :: firstRowFrom k originScore with hr0
    have hcell0 : ∀ x, cellOf (r0 :: rowsFrom m h 1 r0) 0 x = r0[x]? := by intro x; rfl
    refine ⟨?_, ?_, ?_, ?_, ?_, ?_⟩
    · simp [rowsFrom_length]
    · intro y row hrow
      rw [rowsFrom_rowlen m h 1 r0 y row hrow, hr0]
      simp [firstRowFrom_length]
    · rw [hcell0]; rfl
    · intro x c p hc hp
      rw [hcell0] at hc hp
      exact firstRowFrom_step k originScore x c p hc hp
    · intro y c p hc hp
      unfold cellOf at hc hp
      obtain ⟨r', hr', hc⟩ := Option.bind_eq_some_iff.mp hc
      obtain ⟨r, hr, hp⟩ := Option.bind_eq_some_iff.mp hp
      have := rowsFrom_step m h 1 r0 y r r' hr hr'
      subst this
      cases r with
      | nil => simp at hp
      | cons q qs =>
        simp [nextRow] at hc hp
        subst hp
        rw [← hc, Nat.add_comm]
    · intro y x c ul left up hc hul hleft hup
      unfold cellOf at hc hul hleft hup
      obtain ⟨r', hr', hc⟩ := Option.bind_eq_some_iff.mp hc
      obtain ⟨r, hr, hul⟩ := Option.bind_eq_some_iff.mp hul
      obtain ⟨r2, hr2, hleft⟩ := Option.bind_eq_some_iff.mp hleft
      rw [hr'] at hr2
      obtain rfl := Option.some.inj hr2
      obtain ⟨r3, hr3, hup⟩ := Option.bind_eq_some_iff.mp hup
      rw [hr] at hr3
      obtain rfl := Option.some.inj hr3
      have := rowsFrom_step m h 1 r0 y r r' hr hr'
      subst this
      cases r with
      | nil => simp at hul
      | cons q qs =>
        simp only [nextRow, List.getElem?_cons_succ] at hc hleft hup
        have := rowFrom_step m (1 + y) 1 q _ qs x c ul left up hc hul hleft hup
        rw [this, Nat.add_comm 1 y, Nat.add_comm 1 x]

theorem TableEq.exists_cell {m : Cube} {width h : Nat} {cells : List (List Score)} (ht : TableEq m width h cells)
    {y x : Nat} (hy : y ≤ h) (hx : x < width) : ∃ c, cellOf cells y x = some c := by
  have hyl : y < cells.length := by rw [ht.len]; omega
  have hrow : cells[y]? = some cells[y] := List.getElem?_eq_getElem hyl
  have hl := ht.rowlen y _ hrow
  refine ⟨cells[y][x], ?_⟩
  unfold cellOf
  rw [hrow]
  simp only [Option.bind_some]
  exact List.getElem?_eq_getElem (by omega)

theorem TableEq.bounds {m : Cube} {width h : Nat} {cells : List (List Score)} (ht : TableEq m width h cells)
    {y x : Nat} {c : Score} (hc : cellOf cells y x = some c) : y ≤ h ∧ x < width := by
  unfold cellOf at hc
  obtain ⟨r, hr, hc⟩ := Option.bind_eq_some_iff.mp hc
  have h1 := (List.getElem?_eq_some_iff.mp hr).1
  have h2 := (List.getElem?_eq_some_iff.mp hc).1
  rw [ht.rowlen y r hr] at h2
  rw [ht.len] at h1
  omega

/-- What a cell knows about itself and its parent. -/
structure CellOK (m : Cube) (y x : Nat) (c : Score) : Prop where
  hx : c.x = x
  hy : c.y = y
  parent : (x ≠ 0 ∨ y ≠ 0) → (c.px + 1 = x ∧ c.py = y) ∨ (c.px = x ∧ c.py + 1 = y) ∨ (c.px + 1 = x ∧ c.py + 1 = y)
  isMatch : c.type = .match → m.has ((y : Int) - 1) ((x : Int) - 1) = true ∧ c.py + 1 = y ∧ 1 ≤ x

theorem determineType_ne (x y : Nat) (p : Score) : determineType x y p ≠ .match := by
  unfold determineType
  split
  · simp
  · split <;> simp

theorem max3_cases (a b c : Score) : max3 a b c = a ∨ max3 a b c = b ∨ max3 a b c = c := by
  unfold max3
  simp only
  split <;> split <;> simp

theorem max3_g (a b c : Score) : (max3 a b c).g = max a.g (max b.g c.g) := by
  unfold max3
  simp only
  split <;> split <;> omega

theorem gap_ok {m : Cube} {y x : Nat} {p : Score} (h : (p.x + 1 = x ∧ p.y = y) ∨ (p.x = x ∧ p.y + 1 = y)) :
    CellOK m y x (gap x y p) := by
  refine ⟨rfl, rfl, ?_, ?_⟩
  · intro _
    rcases h with h | h
    · exact Or.inl h
    · exact Or.inr (Or.inl h)
  · intro hm
    exact absurd hm (determineType_ne _ _ _)

theorem scoreCell_ok {m : Cube} {y x : Nat} {p : Score} (hx : 1 ≤ x)
    (h : (p.x = x ∧ p.y + 1 = y) ∨ (p.x + 1 = x ∧ p.y + 1 = y)) : CellOK m y x (scoreCell m x y p) := by
  unfold scoreCell
  split
  · rename_i hm
    refine ⟨rfl, rfl, ?_, ?_⟩
    · intro _
      rcases h with h | h
      · exact Or.inr (Or.inl h)
      · exact Or.inr (Or.inr h)
    · intro _
      refine ⟨hm, ?_, hx⟩
      rcases h with h | h
      · exact h.2
      · exact h.2
  · refine ⟨rfl, rfl, ?_, ?_⟩
    · intro _
      rcases h with h | h
      · exact Or.inr (Or.inl h)
      · exact Or.inr (Or.inr h)
    · intro h0; cases h0

theorem TableEq.cell_ok {m : Cube} {width h : Nat} {cells : List (List Score)} (ht : TableEq m width h cells) :
    ∀ y x c, cellOf cells y x = some c → CellOK m y x c := by
  intro y
  induction y with
  | zero =>
    intro x
    induction x with
    | zero =>
      intro c hc
      rw [ht.origin] at hc
      obtain rfl := Option.some.inj hc
      refine ⟨rfl, rfl, by simp, ?_⟩
      intro h0; cases h0
    | succ x ih =>
      intro c hc
      obtain ⟨p, hp⟩ := ht.exists_cell (y := 0) (x := x) (by omega) (by have := (ht.bounds hc).2; omega)
      have h1 := ih p hp
      have h2 := ht.row0 x c p hc hp
      rw [h1.hx] at h2
      subst h2
      exact gap_ok (Or.inl ⟨by rw [h1.hx], h1.hy⟩)
  | succ y ihy =>
    intro x
    induction x with
    | zero =>
      intro c hc
      have hb := ht.bounds hc
      obtain ⟨p, hp⟩ := ht.exists_cell (y := y) (x := 0) (by omega) (by omega)
      have h1 := ihy 0 p hp
      have h2 := ht.col0 y c p hc hp
      subst h2
      exact gap_ok (Or.inr ⟨h1.hx, by rw [h1.hy]⟩)
    | succ x ihx =>
      intro c hc
      have hb := ht.bounds hc
      obtain ⟨ul, hul⟩ := ht.exists_cell (y := y) (x := x) (by omega) (by omega)
      obtain ⟨left, hleft⟩ := ht.exists_cell (y := y + 1) (x := x) (by omega) (by omega)
      obtain ⟨up, hup⟩ := ht.exists_cell (y := y) (x := x + 1) (by omega) (by omega)
      have h1 := ihy x ul hul
      have h2 := ihx left hleft
      have h3 := ihy (x + 1) up hup
      have h4 := ht.inner y x c ul left up hc hul hleft hup
      subst h4
      rcases max3_cases (scoreCell m (x + 1) (y + 1) ul) (gap (x + 1) (y + 1) left) (fromUpper m (y + 1) (x + 1) up)
        with he | he | he
      · rw [he]; exact scoreCell_ok (by omega) (Or.inr ⟨by rw [h1.hx], by rw [h1.hy]⟩)
      · rw [he]; exact gap_ok (Or.inl ⟨by rw [h2.hx], h2.hy⟩)
      · rw [he]
        unfold fromUpper
        split
        · exact scoreCell_ok (by omega) (Or.inl ⟨h3.hx, by rw [h3.hy]⟩)
        · exact gap_ok (Or.inr ⟨h3.hx, by rw [h3.hy]⟩)

/-! ### The trace-back -/

/-- The list `ss` is the trace of cells from (y, x) back to the origin. -/
inductive Trace (cells : List (List Score)) : Nat → Nat → List Score → Prop
  | origin : Trace cells 0 0 []
  | step {y x : Nat} {c : Score} {ss : List Score} : (x ≠ 0 ∨ y ≠ 0) → cellOf cells y x = some c →
      Trace cells c.py c.px ss → Trace cells y x (c :: ss)

theorem traceback_ok {m : Cube} {width h : Nat} {cells : List (List Score)} (ht : TableEq m width h cells)
    (fuel y x : Nat) (hf : x + y ≤ fuel) (hy : y ≤ h) (hx : x < width) :
    ∃ ss, traceback cells fuel y x = .ok ss ∧ Trace cells y x ss ∧ ss.length ≤ x + y := by
  induction fuel generalizing y x with
  | zero =>
    have : x = 0 ∧ y = 0 := by omega
    obtain ⟨rfl, rfl⟩ := this
    exact ⟨[], by simp [traceback], .origin, by simp⟩
  | succ fuel ih =>
    by_cases h0 : x = 0 ∧ y = 0
    · obtain ⟨rfl, rfl⟩ := h0
      exact ⟨[], by simp [traceback], .origin, by simp⟩
    · obtain ⟨c, hc⟩ := ht.exists_cell hy hx
      have hok := ht.cell_ok y x c hc
      have hp := hok.parent (by omega)
      obtain ⟨ss, h1, h2, h3⟩ := ih c.py c.px (by omega) (by omega) (by omega)
      refine ⟨c :: ss, ?_, .step (by omega) hc h2, by simp; omega⟩
      rw [traceback.eq_def]
      simp only
      rw [if_neg h0]
      unfold cellOf at hc
      obtain ⟨r, hr, hrc⟩ := Option.bind_eq_some_iff.mp hc
      simp only [lgetE_eq_ok.mpr hr, lgetE_eq_ok.mpr hrc, bind_ok, h1]

/-- Along a trace the rows go down, strictly below a match; the columns go down. -/
theorem Trace.pairwise {m : Cube} {width h : Nat} {cells : List (List Score)} (ht : TableEq m width h cells)
    {y x : Nat} {ss : List Score} (htr : Trace cells y x ss) :
    (∀ s ∈ ss, s.y ≤ y ∧ s.x ≤ x) ∧
    ss.Pairwise (fun s s' => s'.y ≤ s.y ∧ s'.x ≤ s.x ∧ (s.type = .match → s'.y < s.y)) := by
  induction htr with
  | origin => simp
  | @step y x c ss h0 hc _ ih =>
    have hok := ht.cell_ok y x c hc
    have hp := hok.parent h0
    refine ⟨?_, List.pairwise_cons.mpr ⟨?_, ih.2⟩⟩
    · intro s hs
      rcases List.mem_cons.mp hs with rfl | hs
      · rw [hok.hx, hok.hy]; omega
      · have := ih.1 s hs; omega
    · intro s hs
      have := ih.1 s hs
      rw [hok.hx, hok.hy]
      refine ⟨by omega, by omega, ?_⟩
      intro hm
      have := (hok.isMatch hm).2.1
      omega

theorem Trace.mem {m : Cube} {width h : Nat} {cells : List (List Score)} (ht : TableEq m width h cells)
    {y x : Nat} {ss : List Score} (htr : Trace cells y x ss) : ∀ s ∈ ss, cellOf cells s.y s.x = some s := by
  induction htr with
  | origin => simp
  | @step y x c ss h0 hc _ ih =>
    intro s hs
    rcases List.mem_cons.mp hs with rfl | hs
    · have hok := ht.cell_ok y x s hc
      rw [hok.hx, hok.hy]; exact hc
    · exact ih s hs

/-! ### The alignment loop -/

/-- What the loop of `align_matching_tokens` returns. -/
theorem alignLoop_ok (m : Cube) (ss : List Score)
    (hm : ∀ s ∈ ss, s.type = .match → m.has ((s.y : Int) - 1) ((s.x : Int) - 1) = true) :
    ∀ (al : Dict Token VId) (used : List VId), ∃ al', alignLoop m ss al used = .ok al' := by
  induction ss with
  | nil => intro al used; exact ⟨al, rfl⟩
  | cons s ss ih =>
    intro al used
    have ih' := ih (fun s' hs' => hm s' (by simp [hs']))
    unfold alignLoop
    by_cases ht : s.type = .match
    · rw [if_pos ht]
      have h1 := hm s (by simp) ht
      obtain ⟨p, hp⟩ : ∃ p, dget m ((s.y : Int) - 1, (s.x : Int) - 1) = some p :=
        Option.isSome_iff_exists.mp h1
      simp only [dgetE_of_dget hp, bind_ok]
      split
      · exact ih' _ _
      · exact ih' _ _
    · rw [if_neg ht]; exact ih' _ _

/-- Where the pairs of the alignment come from. `src s t v`: cell `s` matches token `t` with vertex `v`. -/
def AlSrc (m : Cube) (s : Score) (t : Token) (v : VId) : Prop :=
  s.type = .match ∧ dget m ((s.y : Int) - 1, (s.x : Int) - 1) = some (v, t)

/-- Invariant of the loop. `f` numbers the tokens by row. -/
theorem alignLoop_inv (m : Cube) (ss : List Score) :
    ∀ (al : Dict Token VId) (used : List VId) (al' : Dict Token VId), alignLoop m ss al used = .ok al' →
      (∀ t v, dget al t = some v → v ∈ used) →
      (∀ t t' v, dget al t = some v → dget al t' = some v → t = t') →
      (∀ s ∈ ss, ∀ t v, AlSrc m s t v → dget al t = none) →
      ss.Pairwise (fun s s' => ∀ t v t' v', AlSrc m s t v → AlSrc m s' t' v' → t ≠ t') →
      (∀ t v, dget al' t = some v → dget al t = some v ∨ ∃ s ∈ ss, AlSrc m s t v) ∧
      (∀ t t' v, dget al' t = some v → dget al' t' = some v → t = t') ∧
      (∀ t v, dget al t = some v → dget al' t = some v) := by
  induction ss with
  | nil =>
    intro al used al' h hu hinj hnew hpw
    simp only [alignLoop] at h
    obtain rfl := Except.ok.inj h
    exact ⟨fun t v h => Or.inl h, hinj, fun t v h => h⟩
  | cons s ss ih =>
    intro al used al' h hu hinj hnew hpw
    have hpw' := List.pairwise_cons.mp hpw
    unfold alignLoop at h
    have skip : alignLoop m ss al used = .ok al' →
        (∀ t v, dget al' t = some v → dget al t = some v ∨ ∃ s' ∈ s :: ss, AlSrc m s' t v) ∧
        (∀ t t' v, dget al' t = some v → dget al' t' = some v → t = t') ∧
        (∀ t v, dget al t = some v → dget al' t = some v) := by
      intro h
      obtain ⟨h1, h2, h3⟩ := ih al used al' h hu hinj (fun s' hs' => hnew s' (by simp [hs'])) hpw'.2
      refine ⟨?_, h2, h3⟩
      intro t v htv
      rcases h1 t v htv with h1 | ⟨s', hs', h1⟩
      · exact Or.inl h1
      · exact Or.inr ⟨s', by simp [hs'], h1⟩
    by_cases ht : s.type = .match
    · rw [if_pos ht] at h
      obtain ⟨p, hp, h⟩ := bind_eq_ok.mp h
      have hp := dgetE_eq_ok.mp hp
      obtain ⟨v, t⟩ := p
      have hsrc : AlSrc m s t v := ⟨ht, hp⟩
      simp only at h
      by_cases hvu : v ∈ used
      · rw [if_pos hvu] at h
        exact skip h
      · rw [if_neg hvu] at h
        have hnone := hnew s (by simp) t v hsrc
        obtain ⟨h1, h2, h3⟩ := ih (dset al t v) (used ++ [v]) al' h
          (by
            intro t' v' htv
            rw [dget_dset] at htv
            split at htv
            · obtain rfl := Option.some.inj htv; simp
            · have := hu t' v' htv; simp [this])
          (by
            intro a b w ha hb
            rw [dget_dset] at ha hb
            split at ha
            · obtain rfl := Option.some.inj ha
              split at hb
              · rename_i e1 e2; rw [← e1, ← e2]
              · exact absurd (hu b _ hb) hvu
            · split at hb
              · obtain rfl := Option.some.inj hb
                exact absurd (hu a _ ha) hvu
              · exact hinj a b w ha hb)
          (by
            intro s' hs' t' v' hsrc'
            have hne := hpw'.1 s' hs' t v t' v' hsrc hsrc'
            rw [dget_dset_ne _ _ hne]
            exact hnew s' (by simp [hs']) t' v' hsrc')
          hpw'.2
        refine ⟨?_, h2, ?_⟩
        · intro t' v' htv
          rcases h1 t' v' htv with h1 | ⟨s', hs', h1⟩
          · rw [dget_dset] at h1
            split at h1
            · rename_i e
              obtain rfl := Option.some.inj h1
              subst e
              exact Or.inr ⟨s, by simp, hsrc⟩
            · exact Or.inl h1
          · exact Or.inr ⟨s', by simp [hs'], h1⟩
        · intro t' v' htv
          apply h3
          rw [dget_dset_ne]
          · exact htv
          · rintro rfl
            rw [hnone] at htv; cases htv
    · rw [if_neg ht] at h
      exact skip h

end CollateX
