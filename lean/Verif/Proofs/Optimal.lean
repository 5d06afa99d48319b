import Verif.Spec.Alignment
import Verif.Proofs.NW
import Mathlib.Data.List.Induction
/-
The edit table contains the scores of best paths.
-/

namespace CollateX
open Spec

theorem endOf_snoc (ss : List Step) (s : Step) (p : Nat × Nat) : endOf (ss ++ [s]) p = s.move (endOf ss p) := by
  induction ss generalizing p with
  | nil => rfl
  | cons a ss ih => exact ih _

theorem pathScore_snoc (M : Nat → Nat → Bool) (ss : List Step) (s : Step) (p : Nat × Nat) :
    pathScore M (ss ++ [s]) p = pathScore M ss p + s.score M (endOf ss p) := by
  induction ss generalizing p with
  | nil => simp [pathScore, endOf]
  | cons a ss ih =>
    simp only [List.cons_append, pathScore, ih, endOf]
    omega

theorem visits_snoc (ss : List Step) (s : Step) (p : Nat × Nat) :
    visits (ss ++ [s]) p = visits ss p ++ [s.move (endOf ss p)] := by
  induction ss generalizing p with
  | nil => rfl
  | cons a ss ih => simp [visits, ih, endOf]

/-- The match relation of a cube. -/
def Cube.rel (m : Cube) (i r : Nat) : Bool := m.has (i : Int) (r : Int)

section
variable {m : Cube} {width h : Nat} {cells : List (List Score)}

theorem scoreCell_g (m : Cube) (x y : Nat) (p : Score) :
    (scoreCell m x y p).g = p.g + (if m.has ((y : Int) - 1) ((x : Int) - 1) then 1 else -1) := by
  unfold scoreCell
  split <;> rfl

theorem fromUpper_g (hneg : ∀ x : Nat, m.has (-1) (x : Int) = false) (x y : Nat) (p : Score) :
    (fromUpper m (y + 1) (x + 1) p).g = p.g + Step.score m.rel .down (x + 1, y) := by
  unfold fromUpper Step.score Cube.rel
  have e1 : ((y + 1 : Nat) : Int) - 2 = (y : Int) - 1 := by omega
  have e2 : ((x + 1 : Nat) : Int) - 1 = (x : Int) := by omega
  rw [e1, e2]
  by_cases hy : y = 0
  · subst hy
    have : m.has ((0 : Nat) - 1 : Int) (x : Int) = false := hneg x
    rw [this]
    simp [gap]
    omega
  · have e3 : (y : Int) - 1 = ((y - 1 : Nat) : Int) := by omega
    rw [e3]
    simp only [Nat.add_sub_cancel]
    by_cases hm : m.has ((y - 1 : Nat) : Int) (x : Int) = true
    · rw [if_pos hm, scoreCell_g]
      have e4 : ((y + 1 : Nat) : Int) - 1 = (y : Int) := by omega
      rw [e4, e2]
      by_cases hm2 : m.has (y : Int) (x : Int) = true
      · rw [if_pos hm2, if_pos ⟨Nat.succ_pos x, Nat.pos_of_ne_zero hy, hm, hm2⟩]
      · rw [if_neg hm2, if_neg (fun hh => hm2 hh.2.2.2)]
    · rw [if_neg hm, if_neg (fun hh => hm hh.2.2.1)]
      simp only [gap]
      omega

/-- A cell is reached from its parent by a step that accounts for its score. -/
theorem TableEq.cell_step (ht : TableEq m width h cells) (hneg : ∀ x : Nat, m.has (-1) (x : Int) = false) {y x : Nat}
    {c : Score} (hc : cellOf cells y x = some c) (h0 : x ≠ 0 ∨ y ≠ 0) :
    ∃ s p, cellOf cells c.py c.px = some p ∧ Step.move s (c.px, c.py) = (x, y) ∧
      c.g = p.g + Step.score m.rel s (c.px, c.py) := by
  have hb := ht.bounds hc
  cases y with
  | zero =>
    cases x with
    | zero => simp at h0
    | succ x =>
      obtain ⟨p, hp⟩ := ht.exists_cell (y := 0) (x := x) (by omega) (by omega)
      have hpo := ht.cell_ok 0 x p hp
      have h2 := ht.row0 x c p hc hp
      subst h2
      refine ⟨.right, p, ?_, ?_, ?_⟩
      · simp only [gap, hpo.hx, hpo.hy]; exact hp
      · simp only [gap, hpo.hx, hpo.hy]; rfl
      · simp only [gap, Step.score]; omega
  | succ y =>
    cases x with
    | zero =>
      obtain ⟨p, hp⟩ := ht.exists_cell (y := y) (x := 0) (by omega) (by omega)
      have hpo := ht.cell_ok y 0 p hp
      have h2 := ht.col0 y c p hc hp
      subst h2
      refine ⟨.down, p, ?_, ?_, ?_⟩
      · simp only [gap, hpo.hx, hpo.hy]; exact hp
      · simp only [gap, hpo.hx, hpo.hy]; rfl
      · simp only [gap, hpo.hx, hpo.hy, Step.score]
        simp
        omega
    | succ x =>
      obtain ⟨ul, hul⟩ := ht.exists_cell (y := y) (x := x) (by omega) (by omega)
      obtain ⟨left, hleft⟩ := ht.exists_cell (y := y + 1) (x := x) (by omega) (by omega)
      obtain ⟨up, hup⟩ := ht.exists_cell (y := y) (x := x + 1) (by omega) (by omega)
      have h1 := ht.cell_ok _ _ ul hul
      have h2 := ht.cell_ok _ _ left hleft
      have h3 := ht.cell_ok _ _ up hup
      have h4 := ht.inner y x c ul left up hc hul hleft hup
      subst h4
      rcases max3_cases (scoreCell m (x + 1) (y + 1) ul) (gap (x + 1) (y + 1) left) (fromUpper m (y + 1) (x + 1) up)
        with he | he | he
      · rw [he]
        have hpx : (scoreCell m (x + 1) (y + 1) ul).px = x ∧ (scoreCell m (x + 1) (y + 1) ul).py = y := by
          unfold scoreCell; split <;> exact ⟨h1.hx, h1.hy⟩
        rw [hpx.1, hpx.2]
        refine ⟨.diag, ul, hul, rfl, ?_⟩
        rw [scoreCell_g]
        show _ = ul.g + (if m.has (y : Int) (x : Int) = true then 1 else -1)
        have e1 : ((y + 1 : Nat) : Int) - 1 = (y : Int) := by omega
        have e2 : ((x + 1 : Nat) : Int) - 1 = (x : Int) := by omega
        rw [e1, e2]
      · rw [he]
        have hpx : (gap (x + 1) (y + 1) left).px = x ∧ (gap (x + 1) (y + 1) left).py = y + 1 := ⟨h2.hx, h2.hy⟩
        rw [hpx.1, hpx.2]
        refine ⟨.right, left, hleft, rfl, ?_⟩
        simp only [gap, Step.score]
        omega
      · rw [he]
        have hpx : (fromUpper m (y + 1) (x + 1) up).px = x + 1 ∧ (fromUpper m (y + 1) (x + 1) up).py = y := by
          unfold fromUpper scoreCell gap
          split
          · split <;> exact ⟨h3.hx, h3.hy⟩
          · exact ⟨h3.hx, h3.hy⟩
        rw [hpx.1, hpx.2]
        exact ⟨.down, up, hup, rfl, fromUpper_g hneg x y up⟩

/-- No step gains more than the table says. -/
theorem TableEq.cell_ge (ht : TableEq m width h cells) (hneg : ∀ x : Nat, m.has (-1) (x : Int) = false) {y x : Nat}
    {p c : Score} (s : Step) (hp : cellOf cells y x = some p)
    (hc : cellOf cells (s.move (x, y)).2 (s.move (x, y)).1 = some c) : p.g + s.score m.rel (x, y) ≤ c.g := by
  have hb := ht.bounds hc
  have hpo := ht.cell_ok _ _ p hp
  have inner : ∀ y x c ul left up, cellOf cells (y + 1) (x + 1) = some c → cellOf cells y x = some ul →
      cellOf cells (y + 1) x = some left → cellOf cells y (x + 1) = some up →
      ul.g + Step.score m.rel .diag (x, y) ≤ c.g ∧ left.g - 1 ≤ c.g ∧ up.g + Step.score m.rel .down (x + 1, y) ≤ c.g := by
    intro y x c ul left up hc hul hleft hup
    have h4 := ht.inner y x c ul left up hc hul hleft hup
    have h5 := congrArg Score.g h4
    rw [max3_g, scoreCell_g, fromUpper_g hneg] at h5
    have e1 : ((y + 1 : Nat) : Int) - 1 = (y : Int) := by omega
    have e2 : ((x + 1 : Nat) : Int) - 1 = (x : Int) := by omega
    rw [e1, e2] at h5
    have e3 : (gap (x + 1) (y + 1) left).g = left.g - 1 := rfl
    rw [e3] at h5
    have e4 : Step.score m.rel .diag (x, y) = if m.has (y : Int) (x : Int) = true then 1 else -1 := rfl
    rw [e4]
    omega
  cases s with
  | right =>
    simp only [Step.move, Step.score] at *
    cases y with
    | zero =>
      have h2 := ht.row0 x c p hc hp
      subst h2
      simp [gap]
    | succ y =>
      obtain ⟨ul, hul⟩ := ht.exists_cell (y := y) (x := x) (by omega) (by omega)
      obtain ⟨up, hup⟩ := ht.exists_cell (y := y) (x := x + 1) (by omega) (by omega)
      have := inner y x c ul p up hc hul hp hup
      omega
  | diag =>
    simp only [Step.move] at hc hb
    obtain ⟨left, hleft⟩ := ht.exists_cell (y := y + 1) (x := x) (by omega) (by omega)
    obtain ⟨up, hup⟩ := ht.exists_cell (y := y) (x := x + 1) (by omega) (by omega)
    exact (inner y x c p left up hc hp hleft hup).1
  | down =>
    simp only [Step.move] at hc hb
    cases x with
    | zero =>
      have h2 := ht.col0 y c p hc hp
      subst h2
      simp [gap, Step.score]
    | succ x =>
      obtain ⟨ul, hul⟩ := ht.exists_cell (y := y) (x := x) (by omega) (by omega)
      obtain ⟨left, hleft⟩ := ht.exists_cell (y := y + 1) (x := x) (by omega) (by omega)
      exact (inner y x c ul left p hc hul hleft hp).2.2

/-- Every path scores at most what the table says. -/
theorem TableEq.path_le (ht : TableEq m width h cells) (hneg : ∀ x : Nat, m.has (-1) (x : Int) = false) (ss : List Step) :
    ∀ c, cellOf cells (endOf ss (0, 0)).2 (endOf ss (0, 0)).1 = some c → pathScore m.rel ss (0, 0) ≤ c.g := by
  induction ss using List.reverseRecOn with
  | nil =>
    intro c hc
    have : cellOf cells 0 0 = some c := hc
    rw [ht.origin] at this
    obtain rfl := Option.some.inj this
    simp [pathScore, originScore]
  | append_singleton ss s ih =>
    intro c hc
    rw [endOf_snoc] at hc
    rw [pathScore_snoc]
    have hb := ht.bounds hc
    generalize endOf ss (0, 0) = q at *
    obtain ⟨x, y⟩ := q
    have hle : y ≤ (s.move (x, y)).2 ∧ x ≤ (s.move (x, y)).1 := by cases s <;> simp [Step.move]
    obtain ⟨p, hp⟩ := ht.exists_cell (y := y) (x := x) (by omega) (by omega)
    have h1 := ih p hp
    have h2 := ht.cell_ge hneg s hp hc
    omega

/-- A trace is a path with the score of its cell. -/
theorem Trace.path (ht : TableEq m width h cells) (hneg : ∀ x : Nat, m.has (-1) (x : Int) = false) {y x : Nat}
    {ss : List Score} (htr : Trace cells y x ss) : ∀ c, cellOf cells y x = some c →
    ∃ steps, endOf steps (0, 0) = (x, y) ∧ visits steps (0, 0) = (ss.map (fun s => (s.x, s.y))).reverse ∧
      pathScore m.rel steps (0, 0) = c.g := by
  induction htr with
  | origin =>
    intro c hc
    rw [ht.origin] at hc
    obtain rfl := Option.some.inj hc
    exact ⟨[], rfl, rfl, rfl⟩
  | @step y x c ss h0 hc _ ih =>
    intro c' hc'
    rw [hc] at hc'
    obtain rfl := Option.some.inj hc'
    have hok := ht.cell_ok _ _ c hc
    obtain ⟨s, p, hp, hmv, hg⟩ := ht.cell_step hneg hc h0
    obtain ⟨steps, h1, h2, h3⟩ := ih p hp
    refine ⟨steps ++ [s], ?_, ?_, ?_⟩
    · rw [endOf_snoc, h1, hmv]
    · rw [visits_snoc, h1, h2, hmv]
      simp [hok.hx, hok.hy]
    · rw [pathScore_snoc, h1, h3, hg]

/-- The nodes of a trace, without the scores. -/
theorem Trace.steps (ht : TableEq m width h cells) {y x : Nat} {ss : List Score} (htr : Trace cells y x ss) :
    ∃ steps, endOf steps (0, 0) = (x, y) ∧ visits steps (0, 0) = (ss.map (fun s => (s.x, s.y))).reverse := by
  induction htr with
  | origin => exact ⟨[], rfl, rfl⟩
  | @step y x c ss h0 hc _ ih =>
    have hok := ht.cell_ok _ _ c hc
    obtain ⟨steps, h1, h2⟩ := ih
    obtain ⟨s, hmv⟩ : ∃ s, Step.move s (c.px, c.py) = (x, y) := by
      rcases hok.parent h0 with ⟨h1, h2⟩ | ⟨h1, h2⟩ | ⟨h1, h2⟩
      · exact ⟨.right, by simp [Step.move, h1, h2]⟩
      · exact ⟨.down, by simp [Step.move, h1, h2]⟩
      · exact ⟨.diag, by simp [Step.move, h1, h2]⟩
    refine ⟨steps ++ [s], ?_, ?_⟩
    · rw [endOf_snoc, h1, hmv]
    · rw [visits_snoc, h1, h2, hmv]
      simp [hok.hx, hok.hy]

theorem traceback_of_trace {y x : Nat} {ss : List Score} (htr : Trace cells y x ss) :
    ∀ fuel, ss.length ≤ fuel → traceback cells fuel y x = .ok ss := by
  induction htr with
  | origin => intro fuel _; rw [traceback.eq_def]; simp
  | @step y x c ss h0 hc _ ih =>
    intro fuel hf
    cases fuel with
    | zero => simp at hf
    | succ fuel =>
      rw [traceback.eq_def]
      simp only
      rw [if_neg (by omega)]
      unfold cellOf at hc
      obtain ⟨r, hr, hrc⟩ := Option.bind_eq_some_iff.mp hc
      simp only [lgetE_eq_ok.mpr hr, lgetE_eq_ok.mpr hrc, bind_ok]
      rw [ih fuel (by simpa using hf)]
      rfl

end

end CollateX
