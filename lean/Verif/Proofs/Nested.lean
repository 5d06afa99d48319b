import Verif.Proofs.Identical
/-
Collations in which one witness has every vertex: witnesses that only leave out tokens of the first one, and witnesses that
only add tokens.
-/

namespace CollateX
open Spec

/-- The path `p` has all vertices of the paths `ps`. -/
structure Base (p : WPath) (ps : List WPath) : Prop where
  mem : p ∈ ps
  sub : ∀ q ∈ ps, ∀ v ∈ q.inner, v ∈ p.inner

section
variable {g : VGraph} {ps : List WPath} {rkf : VId → Nat} {o : List VId} {m : Nat} {r : Ranking} {p : WPath}

theorem Base.mem_path (hb : Base p ps) (hg : GInv g ps) {v : VId} (hv : v ∈ g.vertices) : v ∈ p.path := by
  by_cases h1 : v = startV
  · subst h1; simp [WPath.path]
  · by_cases h2 : v = endV
    · subst h2; simp [WPath.path]
    · obtain ⟨q, hq, hvq⟩ := hg.cover v hv h1 h2
      have := hb.sub q hq v hvq
      simp [WPath.path, this]

theorem path_mem_vertices (hg : GInv g ps) (hp : p ∈ ps) {v : VId} (hv : v ∈ p.path) : v ∈ g.vertices := by
  unfold WPath.path at hv
  rcases List.mem_cons.mp hv with rfl | hv
  · exact hg.start_mem
  · rcases List.mem_append.mp hv with hv | hv
    · obtain ⟨q, hq, rfl⟩ := List.mem_map.mp hv
      exact (hg.segs_in p hp q hq).1
    · simp at hv; subst hv; exact hg.end_mem

/-- Ranks grow along a path. -/
theorem rank_path_lt (hg : GInv g ps) (R : RankingOf g rkf o m r) (hp : p ∈ ps) : ∀ (k i : Nat) (u v : VId),
    p.path[i]? = some u → p.path[i + k]? = some v → rkf u + k ≤ rkf v
  | 0, i, u, v, hu, hv => by
    rw [Nat.add_zero, hu] at hv
    rw [Option.some.inj hv]
    omega
  | k + 1, i, u, v, hu, hv => by
    have hl := (List.getElem?_eq_some_iff.mp hv).1
    have hx : p.path[i + k]? = some p.path[i + k] := List.getElem?_eq_getElem (by omega)
    have h1 := rank_path_lt hg R hp k i u _ hu hx
    have h2 := R.isRank.lt hg.wf ((hg.edges_iff _ _).mpr ⟨p, hp, consec_iff_getElem.mpr ⟨i + k, hx, hv⟩⟩)
    omega

/-- The rank of a vertex is its place on the path. -/
theorem Base.rank (hb : Base p ps) (hg : GInv g ps) (R : RankingOf g rkf o m r) :
    ∀ (i : Nat) (v : VId), p.path[i]? = some v → rkf v = i := by
  intro i
  induction i using Nat.strong_induction_on with
  | _ i ih =>
    intro v hv
    have hlow := rank_path_lt hg R hb.mem i 0 startV v rfl (by simpa using hv)
    by_cases h0 : rkf v = 0
    · omega
    · obtain ⟨u, he, h2⟩ := R.isRank.pred (path_mem_vertices hg hb.mem (List.mem_of_getElem? hv)) (by omega)
      have hu := (hg.wf.ends _ he).1
      obtain ⟨j, hj⟩ := List.getElem?_of_mem (hb.mem_path hg hu)
      have hji : j < i := by
        by_contra hge
        have := rank_path_lt hg R hb.mem (j - i) i v u hv (by rw [show i + (j - i) = j by omega]; exact hj)
        omega
      have := ih j hji u hj
      omega

theorem Base.ranks (hb : Base p ps) (hg : GInv g ps) (R : RankingOf g rkf o m r) : m = p.segs.length + 2 := by
  apply Nat.le_antisymm
  · by_contra hgt
    obtain ⟨v, hv, he⟩ := R.st.ne (p.segs.length + 2) (by omega)
    obtain ⟨i, hi⟩ := List.getElem?_of_mem (hb.mem_path hg (R.topo.perm.mem_iff.mp hv))
    have := hb.rank hg R i v hi
    have := (List.getElem?_eq_some_iff.mp hi).1
    rw [WPath.path_length] at this
    omega
  · have he : p.path[p.segs.length + 1]? = some endV := by
      unfold WPath.path
      rw [List.getElem?_cons_succ, List.getElem?_append_right (by simp [WPath.inner])]
      simp [WPath.inner]
    have := hb.rank hg R _ _ he
    have := R.lt_m hg.end_mem
    omega

/-- Two vertices with the same rank are the same. -/
theorem Base.rank_inj (hb : Base p ps) (hg : GInv g ps) (R : RankingOf g rkf o m r) {u v : VId}
    (hu : u ∈ g.vertices) (hv : v ∈ g.vertices) (h : rkf u = rkf v) : u = v := by
  obtain ⟨i, hi⟩ := List.getElem?_of_mem (hb.mem_path hg hu)
  obtain ⟨j, hj⟩ := List.getElem?_of_mem (hb.mem_path hg hv)
  have h1 := hb.rank hg R i u hi
  have h2 := hb.rank hg R j v hj
  have : i = j := by omega
  subst this
  rw [hi] at hj
  exact Option.some.inj hj

end

/-! ### Scores -/

/-- Skipping columns and matching tokens: the best path when the tokens are a subsequence of the columns. -/
theorem path_of_sublist {α : Type} (M : Nat → Nat → Bool) : ∀ {l1 l2 : List α}, l1.Sublist l2 → ∀ x y : Nat,
    (∀ (i j : Nat) (a : α), l1[i]? = some a → l2[j]? = some a → M (y + i) (x + j) = true) →
    ∃ steps, endOf steps (x, y) = (x + l2.length, y + l1.length) ∧
      2 * (l1.length : Int) ≤ pathScore M steps (x, y) + l2.length := by
  intro l1 l2 h
  induction h with
  | slnil => intro x y _; exact ⟨[], rfl, by simp [pathScore]⟩
  | @cons l1 l2 a _ ih =>
    intro x y hM
    obtain ⟨steps, h1, h2⟩ := ih (x + 1) y (by
      intro i j b hi hj
      have := hM i (j + 1) b hi (by simpa using hj)
      rw [show x + 1 + j = x + (j + 1) by omega]; exact this)
    refine ⟨.right :: steps, ?_, ?_⟩
    · simp only [endOf, Step.move, h1, List.length_cons]
      congr 1; omega
    · simp only [pathScore, Step.move, Step.score, List.length_cons]
      omega
  | @cons_cons l1 l2 a _ ih =>
    intro x y hM
    obtain ⟨steps, h1, h2⟩ := ih (x + 1) (y + 1) (by
      intro i j b hi hj
      have := hM (i + 1) (j + 1) b (by simpa using hi) (by simpa using hj)
      rw [show x + 1 + j = x + (j + 1) by omega, show y + 1 + i = y + (i + 1) by omega]; exact this)
    have h0 := hM 0 0 a rfl rfl
    refine ⟨.diag :: steps, ?_, ?_⟩
    · simp only [endOf, Step.move, h1, List.length_cons]
      congr 1 <;> omega
    · simp only [pathScore, Step.move, Step.score, List.length_cons, Nat.add_zero] at h0 ⊢
      rw [if_pos h0]
      omega

/-- Skipping tokens and matching columns: a path when the columns are a subsequence of the tokens. -/
theorem path_of_superlist {α : Type} (M : Nat → Nat → Bool) : ∀ {l1 l2 : List α}, l1.Sublist l2 → ∀ x y : Nat,
    (∀ (i j : Nat) (a : α), l1[i]? = some a → l2[j]? = some a → M (y + j) (x + i) = true) →
    ∃ steps, endOf steps (x, y) = (x + l1.length, y + l2.length) ∧
      2 * (l1.length : Int) ≤ pathScore M steps (x, y) + l2.length := by
  intro l1 l2 h
  induction h with
  | slnil => intro x y _; exact ⟨[], rfl, by simp [pathScore]⟩
  | @cons l1 l2 a _ ih =>
    intro x y hM
    obtain ⟨steps, h1, h2⟩ := ih x (y + 1) (by
      intro i j b hi hj
      have := hM i (j + 1) b hi (by simpa using hj)
      rw [show y + 1 + j = y + (j + 1) by omega]; exact this)
    refine ⟨.down :: steps, ?_, ?_⟩
    · simp only [endOf, Step.move, h1, List.length_cons]
      congr 1; omega
    · simp only [pathScore, Step.move, Step.score, List.length_cons]
      split <;> omega
  | @cons_cons l1 l2 a _ ih =>
    intro x y hM
    obtain ⟨steps, h1, h2⟩ := ih (x + 1) (y + 1) (by
      intro i j b hi hj
      have := hM (i + 1) (j + 1) b (by simpa using hi) (by simpa using hj)
      rw [show x + 1 + i = x + (i + 1) by omega, show y + 1 + j = y + (j + 1) by omega]; exact this)
    have h0 := hM 0 0 a rfl rfl
    refine ⟨.diag :: steps, ?_, ?_⟩
    · simp only [endOf, Step.move, h1, List.length_cons]
      congr 1 <;> omega
    · simp only [pathScore, Step.move, Step.score, List.length_cons, Nat.add_zero] at h0 ⊢
      rw [if_pos h0]
      omega

section
variable {cube : Cube} {width h : Nat} {cells : List (List Score)}

/-- A cell reached diagonally where there is a match is a match. -/
theorem TableEq.diag_match (ht : TableEq cube width h cells) {y x : Nat} {c : Score} (hc : cellOf cells y x = some c)
    (hx : c.px + 1 = x) (hy : c.py + 1 = y) (hm : cube.has ((y : Int) - 1) ((x : Int) - 1) = true) : c.type = .match := by
  obtain ⟨y, rfl⟩ : ∃ y', y = y' + 1 := ⟨c.py, hy.symm⟩
  obtain ⟨x, rfl⟩ : ∃ x', x = x' + 1 := ⟨c.px, hx.symm⟩
  have hb := ht.bounds hc
  obtain ⟨ul, hul⟩ := ht.exists_cell (y := y) (x := x) (by omega) (by omega)
  obtain ⟨left, hleft⟩ := ht.exists_cell (y := y + 1) (x := x) (by omega) (by omega)
  obtain ⟨up, hup⟩ := ht.exists_cell (y := y) (x := x + 1) (by omega) (by omega)
  have h2 := ht.cell_ok _ _ left hleft
  have h3 := ht.cell_ok _ _ up hup
  have h4 := ht.inner y x c ul left up hc hul hleft hup
  rcases max3_cases (scoreCell cube (x + 1) (y + 1) ul) (gap (x + 1) (y + 1) left) (fromUpper cube (y + 1) (x + 1) up)
    with he | he | he
  · rw [he] at h4
    rw [h4]
    unfold scoreCell
    rw [if_pos hm]
  · rw [he] at h4
    have : c.py = y + 1 := by rw [h4]; exact h2.hy
    omega
  · rw [he] at h4
    have : c.px = x + 1 := by
      rw [h4]
      unfold fromUpper
      split
      · unfold scoreCell
        split <;> exact h3.hx
      · exact h3.hx
    omega

/-- On a best path through a table whose tokens are a subsequence of the columns every token matches. -/
theorem Trace.tight (ht : TableEq cube width h cells) (hneg : ∀ x : Nat, cube.has (-1) (x : Int) = false) {y x : Nat}
    {ss : List Score} (htr : Trace cells y x ss) : (∀ c, cellOf cells y x = some c → 2 * (y : Int) ≤ c.g + x) →
    (∀ i : Nat, i < y → ∃ s ∈ ss, s.type = .match ∧ s.y = i + 1) ∧ (∀ s ∈ ss, s.x ≤ x) ∧
      ss.Pairwise (fun s s' => s.type = .match → s'.x < s.x) := by
  induction htr with
  | origin => intro _; simp
  | @step y x c ss h0 hc _ ih =>
    intro hg
    have hok := ht.cell_ok _ _ c hc
    have hgc := hg c hc
    obtain ⟨s, p, hp, hmv, hgs⟩ := ht.cell_step hneg hc h0
    have hple := ht.g_le hneg hp
    cases s with
    | right =>
      simp only [Step.move, Prod.mk.injEq] at hmv
      simp only [Step.score] at hgs
      obtain ⟨i1, i2, i3⟩ := ih (by
        intro c' hc'
        rw [hp] at hc'
        obtain rfl := Option.some.inj hc'
        omega)
      refine ⟨?_, ?_, List.pairwise_cons.mpr ⟨?_, i3⟩⟩
      · intro i hi
        obtain ⟨s, hs, h1, h2⟩ := i1 i (by omega)
        exact ⟨s, by simp [hs], h1, h2⟩
      · intro s hs
        rcases List.mem_cons.mp hs with rfl | hs
        · exact le_of_eq hok.hx
        · have := i2 s hs; omega
      · intro s hs _
        have := i2 s hs
        have := hok.hx
        omega
    | down =>
      simp only [Step.move, Prod.mk.injEq] at hmv
      have : Step.score cube.rel .down (c.px, c.py) ≤ 1 := by unfold Step.score; split <;> omega
      omega
    | diag =>
      simp only [Step.move, Prod.mk.injEq] at hmv
      simp only [Step.score] at hgs
      by_cases hm : cube.rel c.py c.px = true
      · rw [if_pos hm] at hgs
        obtain ⟨i1, i2, i3⟩ := ih (by
          intro c' hc'
          rw [hp] at hc'
          obtain rfl := Option.some.inj hc'
          omega)
        have hty : c.type = .match := ht.diag_match hc hmv.1 hmv.2 (by
          rw [← hmv.1, ← hmv.2]
          unfold Cube.rel at hm
          rw [show (((c.py + 1 : Nat) : Int) - 1) = (c.py : Int) by omega,
            show (((c.px + 1 : Nat) : Int) - 1) = (c.px : Int) by omega]
          exact hm)
        refine ⟨?_, ?_, List.pairwise_cons.mpr ⟨?_, i3⟩⟩
        · intro i hi
          by_cases hiy : i + 1 = y
          · exact ⟨c, by simp, hty, by rw [hok.hy, hiy]⟩
          · obtain ⟨s, hs, h1, h2⟩ := i1 i (by omega)
            exact ⟨s, by simp [hs], h1, h2⟩
        · intro s hs
          rcases List.mem_cons.mp hs with rfl | hs
          · exact le_of_eq hok.hx
          · have := i2 s hs; omega
        · intro s hs _
          have := i2 s hs
          have := hok.hx
          omega
      · rw [if_neg hm] at hgs
        omega

/-- The score is bounded by the columns if no column matches two tokens in a row. -/
theorem score_le_columns {M : Nat → Nat → Bool} (hM : ∀ y x, ¬ (M y x = true ∧ M (y + 1) x = true)) : ∀ (ss : List Step) (x y : Nat),
    pathScore M ss (x, y) + ((endOf ss (x, y)).2 - y : Int) ≤ 2 * ((endOf ss (x, y)).1 - x : Int)
  | [], x, y => by simp [pathScore, endOf]
  | .right :: ss, x, y => by
    have := score_le_columns hM ss (x + 1) y
    simp only [pathScore, endOf, Step.move, Step.score]
    omega
  | .down :: ss, x, y => by
    have := score_le_columns hM ss x (y + 1)
    simp only [pathScore, endOf, Step.move, Step.score]
    rw [if_neg (by
      rintro ⟨_, h2, h3, h4⟩
      apply hM (y - 1) (x - 1)
      rw [show y - 1 + 1 = y by omega]
      exact ⟨h3, h4⟩)]
    omega
  | .diag :: ss, x, y => by
    have := score_le_columns hM ss (x + 1) (y + 1)
    simp only [pathScore, endOf, Step.move, Step.score]
    split <;> omega

theorem TableEq.g_le_columns (ht : TableEq cube width h cells) (hneg : ∀ x : Nat, cube.has (-1) (x : Int) = false)
    (hM : ∀ y x, ¬ (cube.rel y x = true ∧ cube.rel (y + 1) x = true)) {y x : Nat} {c : Score}
    (hc : cellOf cells y x = some c) : c.g + y ≤ 2 * x := by
  obtain ⟨hy, hx⟩ := ht.bounds hc
  obtain ⟨ss, _, htr, _⟩ := traceback_ok ht (x + y) y x (Nat.le_refl _) hy hx
  obtain ⟨steps, h1, _, h3⟩ := htr.path ht hneg c hc
  have := score_le_columns hM steps 0 0
  rw [h1, h3] at this
  simp only at this
  omega

/-- On a best path through a table whose columns are a subsequence of the tokens every column matches, if no column matches
two tokens in a row. -/
theorem Trace.tight_columns (ht : TableEq cube width h cells) (hneg : ∀ x : Nat, cube.has (-1) (x : Int) = false)
    (hM : ∀ y x, ¬ (cube.rel y x = true ∧ cube.rel (y + 1) x = true)) {y x : Nat}
    {ss : List Score} (htr : Trace cells y x ss) : (∀ c, cellOf cells y x = some c → 2 * (x : Int) ≤ c.g + y) →
    (∀ i : Nat, i < x → ∃ s ∈ ss, s.type = .match ∧ s.x = i + 1) ∧ (∀ s ∈ ss, s.x ≤ x) ∧
      ss.Pairwise (fun s s' => s.type = .match → s'.x < s.x) := by
  induction htr with
  | origin => intro _; simp
  | @step y x c ss h0 hc _ ih =>
    intro hg
    have hok := ht.cell_ok _ _ c hc
    have hgc := hg c hc
    obtain ⟨s, p, hp, hmv, hgs⟩ := ht.cell_step hneg hc h0
    have hple := ht.g_le_columns hneg hM hp
    cases s with
    | right =>
      simp only [Step.move, Prod.mk.injEq] at hmv
      simp only [Step.score] at hgs
      omega
    | down =>
      simp only [Step.move, Prod.mk.injEq] at hmv
      have hsc : Step.score cube.rel .down (c.px, c.py) = -1 := by
        unfold Step.score
        simp only
        rw [if_neg (by
          rintro ⟨_, h2, h3, h4⟩
          apply hM (c.py - 1) (c.px - 1)
          rw [show c.py - 1 + 1 = c.py by omega]
          exact ⟨h3, h4⟩)]
      rw [hsc] at hgs
      obtain ⟨i1, i2, i3⟩ := ih (by
        intro c' hc'
        rw [hp] at hc'
        obtain rfl := Option.some.inj hc'
        omega)
      have hty : c.type ≠ .match := by
        intro hty
        have := hok.isMatch hty
        -- a match below a cell of the same column gains a point
        obtain ⟨y, rfl⟩ : ∃ y', y = y' + 1 := ⟨c.py, hmv.2.symm⟩
        obtain ⟨x, rfl⟩ : ∃ x', x = x' + 1 := ⟨x - 1, by omega⟩
        have hb := ht.bounds hc
        obtain ⟨ul, hul⟩ := ht.exists_cell (y := y) (x := x) (by omega) (by omega)
        obtain ⟨left, hleft⟩ := ht.exists_cell (y := y + 1) (x := x) (by omega) (by omega)
        obtain ⟨up, hup⟩ := ht.exists_cell (y := y) (x := x + 1) (by omega) (by omega)
        have g1 := ht.cell_ok _ _ ul hul
        have g2 := ht.cell_ok _ _ left hleft
        have g4 := ht.inner y x c ul left up hc hul hleft hup
        rcases max3_cases (scoreCell cube (x + 1) (y + 1) ul) (gap (x + 1) (y + 1) left) (fromUpper cube (y + 1) (x + 1) up)
          with he | he | he
        · rw [he] at g4
          have : c.px = x := by
            rw [g4]
            unfold scoreCell
            split <;> exact g1.hx
          omega
        · rw [he] at g4
          have : c.py = y + 1 := by rw [g4]; exact g2.hy
          omega
        · rw [he] at g4
          have hup1 : up.g = p.g := by
            have e1 : c.py = y := by omega
            have e2 : c.px = x + 1 := by omega
            rw [e1, e2, hup] at hp
            rw [Option.some.inj hp]
          have h5 : c.g = p.g + 1 := by
            rw [g4] at hty ⊢
            unfold fromUpper scoreCell gap at hty ⊢
            split at hty
            · split at hty
              · rename_i q1 q2
                rw [if_pos q1, if_pos q2]
                simp only
                omega
              · simp at hty
            · exact absurd hty (determineType_ne _ _ _)
          omega
      refine ⟨?_, ?_, List.pairwise_cons.mpr ⟨fun s hs h => absurd h hty, i3⟩⟩
      · intro i hi
        obtain ⟨s, hs, h1, h2⟩ := i1 i (by omega)
        exact ⟨s, by simp [hs], h1, h2⟩
      · intro s hs
        rcases List.mem_cons.mp hs with rfl | hs
        · exact le_of_eq hok.hx
        · have := i2 s hs; omega
    | diag =>
      simp only [Step.move, Prod.mk.injEq] at hmv
      simp only [Step.score] at hgs
      by_cases hm : cube.rel c.py c.px = true
      · rw [if_pos hm] at hgs
        obtain ⟨i1, i2, i3⟩ := ih (by
          intro c' hc'
          rw [hp] at hc'
          obtain rfl := Option.some.inj hc'
          omega)
        have hty : c.type = .match := ht.diag_match hc hmv.1 hmv.2 (by
          rw [← hmv.1, ← hmv.2]
          unfold Cube.rel at hm
          rw [show (((c.py + 1 : Nat) : Int) - 1) = (c.py : Int) by omega,
            show (((c.px + 1 : Nat) : Int) - 1) = (c.px : Int) by omega]
          exact hm)
        refine ⟨?_, ?_, List.pairwise_cons.mpr ⟨?_, i3⟩⟩
        · intro i hi
          by_cases hiy : i + 1 = x
          · exact ⟨c, by simp, hty, by rw [hok.hx, hiy]⟩
          · obtain ⟨s, hs, h1, h2⟩ := i1 i (by omega)
            exact ⟨s, by simp [hs], h1, h2⟩
        · intro s hs
          rcases List.mem_cons.mp hs with rfl | hs
          · exact le_of_eq hok.hx
          · have := i2 s hs; omega
        · intro s hs _
          have := i2 s hs
          have := hok.hx
          omega
      · rw [if_neg hm] at hgs
        omega

end

/-! ### The loop of `align_matching_tokens` -/

/-- If the matches of the trace are on different vertices and have different tokens, they are all kept. -/
theorem alignLoop_all (cube : Cube) : ∀ (ss : List Score) (al : Dict Token VId) (used : List VId) (al' : Dict Token VId),
    alignLoop cube ss al used = .ok al' →
    ss.Pairwise (fun s s' => ∀ t v t' v', AlSrc cube s t v → AlSrc cube s' t' v' → t ≠ t' ∧ v ≠ v') →
    (∀ s ∈ ss, ∀ t v, AlSrc cube s t v → v ∉ used) →
    (∀ t v, dget al t = some v → (∀ s ∈ ss, ∀ v', ¬ AlSrc cube s t v') → dget al' t = some v) ∧
      ∀ s ∈ ss, ∀ t v, AlSrc cube s t v → dget al' t = some v := by
  intro ss
  induction ss with
  | nil =>
    intro al used al' h _ _
    simp only [alignLoop] at h
    obtain rfl := Except.ok.inj h
    exact ⟨fun t v h _ => h, by simp⟩
  | cons s ss ih =>
    intro al used al' h hpw hu
    rw [List.pairwise_cons] at hpw
    unfold alignLoop at h
    by_cases hty : s.type = .match
    · rw [if_pos hty] at h
      obtain ⟨⟨v, t⟩, h1, h⟩ := bind_eq_ok.mp h
      have hd : dget cube ((s.y : Int) - 1, (s.x : Int) - 1) = some (v, t) := by
        unfold dgetE at h1
        split at h1
        · rename_i e; rw [e, Except.ok.inj h1]
        · cases h1
      have hsrc : AlSrc cube s t v := ⟨hty, hd⟩
      have hsu : ∀ t' v', AlSrc cube s t' v' → t' = t ∧ v' = v := by
        rintro t' v' ⟨_, h2⟩
        rw [hd] at h2
        have := Option.some.inj h2
        injection this with a b
        exact ⟨b.symm, a.symm⟩
      simp only at h
      rw [if_neg (hu s (by simp) t v hsrc)] at h
      obtain ⟨k1, k2⟩ := ih _ _ _ h hpw.2 (by
        intro s' hs' t' v' h' hm
        rcases List.mem_append.mp hm with hm | hm
        · exact hu s' (by simp [hs']) t' v' h' hm
        · simp only [List.mem_singleton] at hm
          exact (hpw.1 s' hs' t v t' v' hsrc h').2 hm.symm)
      refine ⟨?_, ?_⟩
      · intro t' v' h2 h3
        apply k1
        · rw [dget_dset_ne]
          · exact h2
          · rintro rfl
            exact h3 s (by simp) v hsrc
        · intro s' hs'; exact h3 s' (by simp [hs'])
      · intro s' hs' t' v' h'
        rcases List.mem_cons.mp hs' with rfl | hs'
        · obtain ⟨rfl, rfl⟩ := hsu t' v' h'
          apply k1
          · rw [dget_dset_self]
          · intro s2 hs2 v2 h2
            exact (hpw.1 s2 hs2 t' v' t' v2 hsrc h2).1 rfl
        · exact k2 s' hs' t' v' h'
    · rw [if_neg hty] at h
      obtain ⟨k1, k2⟩ := ih _ _ _ h hpw.2 (fun s' hs' => hu s' (by simp [hs']))
      refine ⟨fun t v h2 h3 => k1 t v h2 (fun s' hs' => h3 s' (by simp [hs'])), ?_⟩
      intro s' hs' t' v' h'
      rcases List.mem_cons.mp hs' with rfl | hs'
      · exact absurd h'.1 hty
      · exact k2 s' hs' t' v' h'

/-! ### The step -/

section
variable {ts : TopoFn} {ti : TokenIndex} {s : AlignSt} {ps : List WPath} {w w0 : Witness} {P p : WPath} {rkf : VId → Nat}
  {o : List VId} {m : Nat} {r : Ranking} {cube : Cube} {cells : List (List Score)} {al : Dict Token VId} {k : Nat}
  {pf : Option PFilter}

/-- What an entry of the cube is. -/
theorem StepOf.hit (hs : AInv ti s ps) (hst : StepOf ts pf ti s ps w P rkf o m r cube cells al) {y x : Int} {v : VId} {t : Token}
    (hd : dget cube (y, x) = some (v, t)) : ∃ i : Nat, w.tokens[i]? = some t ∧ y = (i : Int) ∧ x = (rkf v : Int) - 1 ∧
      v ∈ s.g.vertices ∧ v ≠ startV ∧ v ≠ endV := by
  obtain ⟨i, q, t', g1, g2, g3, _⟩ := hst.hits _ v t hd
  injection g2 with g2 g2'
  obtain ⟨t3, hpl3⟩ := (hs.va q v).mp g3
  obtain ⟨p3, hp3, hm3⟩ := hs.placed_seg hpl3
  have := hs.ginv.segs_in p3 hp3 _ hm3
  exact ⟨i, g1, g2, g2', this.1, this.2.1, this.2.2.1⟩

/-- When one path has all vertices, the cube compares the strings of its witness and of the new one. -/
theorem Base.cube_iff (hb : Base p ps) (L : Layout ti) (B : BlocksOK ti) (hs : AInv ti s ps) (hw : ti.ws[ps.length]? = some w)
    (hst : StepOf ts none ti s ps w P rkf o m r cube cells al) (hk : ti.ws[k]? = some w0) (hpk : ps[k]? = some p) (i j : Nat) :
    cube.rel i j = true ↔ ∃ a, (w.tokens.map Token.str)[i]? = some a ∧ (w0.tokens.map Token.str)[j]? = some a := by
  obtain ⟨cube', hc1, hiff⟩ := hs.cube L B hst.rank hw
  rw [hst.cube_ok] at hc1
  obtain rfl := Except.ok.inj hc1
  have hrd := (hs.reads k w0 p hk hpk).2
  have hseg : ∀ (j : Nat) (v : VId) (us : List Token), p.segs[j]? = some (v, us) → ∃ t, w0.tokens[j]? = some t ∧ us = [t] := by
    intro j v us hq
    have h1 : (p.segs.map Prod.snd)[j]? = (w0.tokens.map (fun t => [t]))[j]? := by rw [hrd]
    rw [List.getElem?_map, List.getElem?_map, hq] at h1
    simp only [Option.map_some] at h1
    obtain ⟨t, h2, h3⟩ := Option.map_eq_some_iff.mp h1.symm
    exact ⟨t, h2, h3.symm⟩
  have hinner : ∀ (j : Nat) (v : VId) (us : List Token), p.segs[j]? = some (v, us) → rkf v = j + 1 := by
    intro j v us hq
    exact hb.rank hs.ginv hst.rank _ v (p.path_getElem? (by simp [WPath.inner, hq]))
  constructor
  · intro h
    obtain ⟨i', t, h1, h2, q, hq, v, t', h3, h4, h5⟩ := (hiff (i : Int) (j : Int)).mp h
    have : i' = i := by omega
    subst this
    have hvp := hb.sub q hq v (List.mem_map.mpr ⟨_, h3, rfl⟩)
    obtain ⟨⟨v', us⟩, hm, he⟩ := List.mem_map.mp hvp
    simp only at he
    subst he
    obtain ⟨j', hj'⟩ := List.getElem?_of_mem hm
    have h6 := hinner j' v' us hj'
    have : j' = j := by omega
    subst this
    obtain ⟨t0, h7, rfl⟩ := hseg j' v' us hj'
    obtain ⟨x, hx⟩ := exists_dget_of_mem_keys (hs.ginv.segs_in p hb.mem _ hm).1
    have h8 := hs.label p hb.mem v' t0 hm x hx
    have h9 := hs.label q hq v' t' h3 x hx
    refine ⟨t.str, by rw [List.getElem?_map, h2]; rfl, ?_⟩
    rw [List.getElem?_map, h7, Option.map_some, ← h8, h9, h4]
  · rintro ⟨a, h1, h2⟩
    rw [List.getElem?_map] at h1 h2
    obtain ⟨t, ht, rfl⟩ := Option.map_eq_some_iff.mp h1
    obtain ⟨t0, ht0, he⟩ := Option.map_eq_some_iff.mp h2
    have hj : j < p.segs.length := by
      have := congrArg List.length hrd
      simp only [List.length_map] at this
      rw [this]; exact (List.getElem?_eq_some_iff.mp ht0).1
    obtain ⟨⟨v, us⟩, hq⟩ : ∃ q, p.segs[j]? = some q := ⟨_, List.getElem?_eq_getElem hj⟩
    obtain ⟨t1, h3, rfl⟩ := hseg j v us hq
    rw [ht0] at h3
    obtain rfl := Option.some.inj h3
    exact (hiff (i : Int) (j : Int)).mpr ⟨i, t, rfl, ht, p, hb.mem, v, t0, List.mem_of_getElem? hq, he, by rw [hinner j v _ hq]; omega⟩

theorem StepOf.neg (hs : AInv ti s ps) (hst : StepOf ts pf ti s ps w P rkf o m r cube cells al) (x : Nat) :
    cube.has (-1) (x : Int) = false := by
  cases hb : cube.has (-1) (x : Int) with
  | false => rfl
  | true =>
    obtain ⟨⟨v, t⟩, hd⟩ := Option.isSome_iff_exists.mp (show (dget cube ((-1 : Int), (x : Int))).isSome = true from hb)
    obtain ⟨i, _, h, _⟩ := hst.hit hs hd
    omega

/-- The trace of a step. -/
theorem StepOf.trace (hst : StepOf ts pf ti s ps w P rkf o m r cube cells al) : ∃ ss,
    Trace cells w.tokens.length (rankCount s.g r - 1) ss ∧ alignLoop cube ss [] [] = .ok al := by
  have hlenc := hst.table.len
  have hw := hst.width
  have hr0 : cells[0]? = some (cells[0]'(by omega)) := List.getElem?_eq_getElem (by omega)
  have hr0l := hst.table.rowlen 0 _ hr0
  obtain ⟨ss, htb, htr, _⟩ := traceback_ok hst.table (cells.length + (cells[0]'(by omega)).length) (cells.length - 1)
    ((cells[0]'(by omega)).length - 1) (by omega) (by omega) (by omega)
  have e1 : cells.length - 1 = w.tokens.length := by omega
  have e2 : (cells[0]'(by omega)).length - 1 = rankCount s.g r - 1 := by omega
  refine ⟨ss, by rw [e1, e2] at htr; exact htr, ?_⟩
  have := hst.align
  unfold alignMatching at this
  simp only [lgetE_eq_ok.mpr hr0, bind_ok, htb] at this
  exact this

/-- If the columns of the matches of the trace differ, all of them are kept. -/
theorem StepOf.all (L : Layout ti) (hs : AInv ti s ps) (hw : ti.ws[ps.length]? = some w)
    (hst : StepOf ts pf ti s ps w P rkf o m r cube cells al) {ss : List Score} {y x : Nat} (htr : Trace cells y x ss)
    (hal : alignLoop cube ss [] [] = .ok al) (hpw : ss.Pairwise (fun s s' => s.type = .match → s'.x < s.x)) :
    ∀ s' ∈ ss, s'.type = .match → ∃ v t, w.tokens[s'.y - 1]? = some t ∧ 1 ≤ s'.y ∧ rkf v = s'.x ∧ v ∈ s.g.vertices ∧ dget al t = some v := by
  have hnd := L.tokens_nodup hw
  have hsrcs : ∀ c t v, AlSrc cube c t v → ∃ i : Nat, w.tokens[i]? = some t ∧ c.y = i + 1 ∧ rkf v = c.x ∧ v ∈ s.g.vertices := by
    rintro c t v ⟨_, hd⟩
    obtain ⟨i, h1, h2, h3, h4, _⟩ := hst.hit hs hd
    exact ⟨i, h1, by omega, by omega, h4⟩
  have hp2 := (htr.pairwise hst.table).2
  obtain ⟨_, k2⟩ := alignLoop_all cube ss [] [] al hal ((hpw.and hp2).imp (by
    rintro c c' ⟨h1, h2⟩ t v t' v' g1 g2
    obtain ⟨i, a1, a2, a3, _⟩ := hsrcs c t v g1
    obtain ⟨i', b1, b2, b3, _⟩ := hsrcs c' t' v' g2
    have e1 := h1 g1.1
    have e2 := h2.2.2 g1.1
    constructor
    · rintro rfl
      obtain ⟨q1, q2⟩ := List.getElem?_eq_some_iff.mp a1
      obtain ⟨q3, q4⟩ := List.getElem?_eq_some_iff.mp b1
      have := (hnd.getElem_inj_iff (hi := q1) (hj := q3)).mp (by rw [q2, q4])
      omega
    · rintro rfl; omega)) (by simp)
  intro c hc hty
  have hcell := htr.mem hst.table c hc
  have hm := (hst.table.cell_ok _ _ _ hcell).isMatch hty
  obtain ⟨⟨v, t⟩, hd⟩ := Option.isSome_iff_exists.mp (show (dget cube ((c.y : Int) - 1, (c.x : Int) - 1)).isSome = true from hm.1)
  obtain ⟨i, a1, a2, a3, a4⟩ := hsrcs c t v ⟨hty, hd⟩
  refine ⟨v, t, ?_, by omega, a3, a4, k2 c hc t v ⟨hty, hd⟩⟩
  rw [a2]
  exact a1

/-- A witness whose strings are a subsequence of those of the witness with all vertices is aligned completely. -/
theorem Base.aligned (hb : Base p ps) (L : Layout ti) (B : BlocksOK ti) (hs : AInv ti s ps) (hw : ti.ws[ps.length]? = some w)
    (hst : StepOf ts none ti s ps w P rkf o m r cube cells al) (hk : ti.ws[k]? = some w0) (hpk : ps[k]? = some p)
    (hsub : (w.tokens.map Token.str).Sublist (w0.tokens.map Token.str)) : ∀ t ∈ w.tokens, ∃ v ∈ s.g.vertices, dget al t = some v := by
  have hneg := hst.neg hs
  have hn : p.segs.length = w0.tokens.length := by
    have := congrArg List.length (hs.reads k w0 p hk hpk).2
    simpa using this
  have hwid : rankCount s.g r = w0.tokens.length + 1 := by
    rw [rankCount_eq hst.rank, hb.ranks hs.ginv hst.rank]
    omega
  obtain ⟨ss, htr, hal⟩ := hst.trace
  rw [hwid, Nat.add_sub_cancel] at htr
  obtain ⟨steps, h1, h2⟩ := path_of_sublist cube.rel hsub 0 0 (by
    intro i j a hi hj
    rw [Nat.zero_add, Nat.zero_add]
    exact (hb.cube_iff L B hs hw hst hk hpk i j).mpr ⟨a, hi, hj⟩)
  simp only [Nat.zero_add, List.length_map] at h1 h2
  obtain ⟨q1, _, q3⟩ := htr.tight hst.table hneg (by
    intro c hc
    have := hst.table.path_le hneg steps c (by rw [h1]; exact hc)
    omega)
  intro t ht
  obtain ⟨i, hi⟩ := List.getElem?_of_mem ht
  obtain ⟨c, hc, hty, hcy⟩ := q1 i (List.getElem?_eq_some_iff.mp hi).1
  obtain ⟨v, t', g1, _, _, g4, g5⟩ := hst.all L hs hw htr hal q3 c hc hty
  rw [hcy, Nat.add_sub_cancel, hi] at g1
  obtain rfl := Option.some.inj g1
  exact ⟨v, g4, g5⟩

/-- A witness without equal neighbours that has the strings of the witness with all vertices as a subsequence is aligned with
all of them. -/
theorem Base.covered (hb : Base p ps) (L : Layout ti) (B : BlocksOK ti) (hs : AInv ti s ps) (hw : ti.ws[ps.length]? = some w)
    (hst : StepOf ts none ti s ps w P rkf o m r cube cells al) (hk : ti.ws[k]? = some w0) (hpk : ps[k]? = some p)
    (hsub : (w0.tokens.map Token.str).Sublist (w.tokens.map Token.str))
    (hadj : ∀ (i : Nat) (a : Str), (w.tokens.map Token.str)[i]? = some a → (w.tokens.map Token.str)[i + 1]? ≠ some a) :
    ∀ v ∈ p.inner, ∃ t ∈ w.tokens, dget al t = some v := by
  have hneg := hst.neg hs
  have hiff := hb.cube_iff L B hs hw hst hk hpk
  have hM : ∀ y x, ¬ (cube.rel y x = true ∧ cube.rel (y + 1) x = true) := by
    rintro y x ⟨h1, h2⟩
    obtain ⟨a, a1, a2⟩ := (hiff y x).mp h1
    obtain ⟨b, b1, b2⟩ := (hiff (y + 1) x).mp h2
    rw [a2] at b2
    obtain rfl := Option.some.inj b2
    exact hadj y a a1 b1
  have hn : p.segs.length = w0.tokens.length := by
    have := congrArg List.length (hs.reads k w0 p hk hpk).2
    simpa using this
  have hwid : rankCount s.g r = w0.tokens.length + 1 := by
    rw [rankCount_eq hst.rank, hb.ranks hs.ginv hst.rank]
    omega
  obtain ⟨ss, htr, hal⟩ := hst.trace
  rw [hwid, Nat.add_sub_cancel] at htr
  obtain ⟨steps, h1, h2⟩ := path_of_superlist cube.rel hsub 0 0 (by
    intro i j a hi hj
    rw [Nat.zero_add, Nat.zero_add]
    exact (hiff j i).mpr ⟨a, hj, hi⟩)
  simp only [Nat.zero_add, List.length_map] at h1 h2
  obtain ⟨q1, _, q3⟩ := htr.tight_columns hst.table hneg hM (by
    intro c hc
    have := hst.table.path_le hneg steps c (by rw [h1]; exact hc)
    omega)
  intro v hv
  obtain ⟨i, hi⟩ := List.getElem?_of_mem hv
  have hil : i < w0.tokens.length := by
    have := (List.getElem?_eq_some_iff.mp hi).1
    simp only [WPath.inner, List.length_map] at this
    omega
  obtain ⟨c, hc, hty, hcx⟩ := q1 i hil
  obtain ⟨v', t', g1, _, g3, g4, g5⟩ := hst.all L hs hw htr hal q3 c hc hty
  have hrv := hb.rank hs.ginv hst.rank _ v (p.path_getElem? hi)
  have hvm : v ∈ s.g.vertices := path_mem_vertices hs.ginv hb.mem (List.mem_of_getElem? (p.path_getElem? hi))
  have : v' = v := hb.rank_inj hs.ginv hst.rank g4 hvm (by omega)
  subst this
  exact ⟨t', List.mem_of_getElem? g1, g5⟩

/-- The new path when every token is aligned. -/
theorem Base.append (hb : Base p ps) (hs : AInv ti s ps) (hst : StepOf ts pf ti s ps w P rkf o m r cube cells al)
    (hall : ∀ t ∈ w.tokens, ∃ v ∈ s.g.vertices, dget al t = some v) : Base p (ps ++ [P]) := by
  refine ⟨by simp [hb.mem], ?_⟩
  intro q hq v hv
  rcases List.mem_append.mp hq with hq | hq
  · exact hb.sub q hq v hv
  · simp only [List.mem_singleton] at hq
    subst hq
    rw [hst.path] at hv
    obtain ⟨⟨v', us⟩, hm, rfl⟩ := List.mem_map.mp hv
    obtain ⟨t, ht, rfl, hc⟩ := newSegs_mem hm
    obtain ⟨v2, _, h2⟩ := hall t ht
    rcases hc with hc | ⟨hc, _⟩
    · obtain ⟨y, x, hd⟩ := hst.facts.src t v' hc
      obtain ⟨_, _, _, _, h3, h4, h5⟩ := hst.hit hs hd
      have := hb.mem_path hs.ginv h3
      simp only [WPath.path, List.mem_cons, List.mem_append, List.not_mem_nil, or_false] at this
      rcases this with h | h | h
      · exact absurd h h4
      · exact h
      · exact absurd h h5
    · rw [hc] at h2; cases h2

/-- The new path when all vertices are aligned. -/
theorem Base.next (hb : Base p ps) (hst : StepOf ts pf ti s ps w P rkf o m r cube cells al)
    (hall : ∀ v ∈ p.inner, ∃ t ∈ w.tokens, dget al t = some v) : Base P (ps ++ [P]) := by
  refine ⟨by simp, ?_⟩
  intro q hq v hv
  rcases List.mem_append.mp hq with hq | hq
  · obtain ⟨t, ht, hd⟩ := hall v (hb.sub q hq v hv)
    rw [hst.path]
    obtain ⟨v', hv'⟩ := newSegs_of_mem (al := al) (n := s.g.next) ht
    obtain ⟨t2, _, e, hc⟩ := newSegs_mem hv'
    injection e with e _
    subst e
    rcases hc with hc | ⟨hc, _⟩
    · rw [hd] at hc
      obtain rfl := Option.some.inj hc
      exact List.mem_map.mpr ⟨_, hv', rfl⟩
    · rw [hd] at hc; cases hc
  · simp only [List.mem_singleton] at hq
    subst hq
    exact hv

end

/-! ### Joins and the table -/

theorem base_join (cc : CharClass) (k : Nat) : StepInv cc (fun _ ps => ∃ p, ps[k]? = some p ∧ Base p ps) := by
  rintro g ps v c x hg J hvs _ _ ⟨p, hp, hb⟩
  refine ⟨contractPath v c p, by rw [List.getElem?_map, hp]; rfl, List.mem_map.mpr ⟨p, hb.mem, rfl⟩, ?_⟩
  intro q hq u hu
  obtain ⟨q', hq', rfl⟩ := List.mem_map.mp hq
  obtain ⟨h1, h2⟩ := (J.mem_inner hg hvs hq').mp hu
  exact (J.mem_inner hg hvs hb.mem).mpr ⟨hb.sub q' hq' u h1, h2⟩

section
variable {cc : CharClass} {ws : List Witness} {seg : Bool} {g : VGraph} {ps : List WPath} {rk : Ranking} {rkf : VId → Nat}
  {ord : List VId} {m : Nat} {p : WPath}

/-- A column when one path has all vertices. -/
theorem Base.column (hb : Base p ps) (C : Collated cc ws seg g ps rk rkf ord m) (hs : ∀ w ∈ ws, w.sigil ≠ []) {c : Column}
    (hc : c ∈ (mkTable ws g rk).columns) : (∃ ts, dget c.tokens p.sigil = some ts) ∧
      (∀ w ∈ ws, ∀ ts us, dget c.tokens w.sigil = some ts → dget c.tokens p.sigil = some us → ts.map Token.str = us.map Token.str) ∧
      (c.variant = true ↔ ∃ w ∈ ws, dget c.tokens w.sigil = none) := by
  obtain ⟨j, hj⟩ := List.getElem?_of_mem hc
  obtain ⟨k, hk, hcol⟩ := C.col hj
  obtain ⟨v, hv, hi⟩ := colAt_isSome.mp ⟨c, hcol⟩
  obtain ⟨hvm, hvk⟩ := (C.byRank.mem k hk v).mp hv
  have hi' := hi
  simp only [inside, decide_eq_true_eq] at hi'
  obtain ⟨p0, hp0, hvp0⟩ := C.ginv.cover v hvm hi'.1 hi'.2
  have hvp := hb.sub p0 hp0 v hvp0
  obtain ⟨⟨v', us⟩, hq, rfl⟩ := List.mem_map.mp hvp
  have hinj : ∀ a b, a ∈ ord.filter (fun v => rkf v = k) → b ∈ ord.filter (fun v => rkf v = k) → a = b := by
    intro a b ha hb'
    obtain ⟨ha1, ha2⟩ := (C.byRank.mem k hk a).mp ha
    obtain ⟨hb1, hb2⟩ := (C.byRank.mem k hk b).mp hb'
    exact hb.rank_inj C.ginv C.rank ha1 hb1 (by rw [ha2, hb2])
  have hkey : ∃ ts, dget c.tokens p.sigil = some ts := by
    have h1 := (C.ginv.toks_iff (C.sigil_ne hs) (v := v') (σ := p.sigil) (ts := us)).mpr ⟨p, hb.mem, rfl, hq⟩
    exact exists_dget_of_mem_keys ((colAt_mem hcol).mpr ⟨v', hv, hi, List.mem_map.mpr ⟨_, dget_mem h1, rfl⟩⟩)
  refine ⟨hkey, ?_, ?_⟩
  · intro w hw ts us' h1 h2
    obtain ⟨i, hw⟩ := List.getElem?_of_mem hw
    obtain ⟨q, hq', hqw, _⟩ := C.at hw
    have hqm := List.mem_of_getElem? hq'
    rw [← hqw] at h1
    obtain ⟨a, ha, ha'⟩ := C.byRank.col_entry C.ginv (C.sigil_ne hs) hk hcol hqm h1
    obtain ⟨b, hb', hb''⟩ := C.byRank.col_entry C.ginv (C.sigil_ne hs) hk hcol hb.mem h2
    have := hinj a b ha hb'
    subst this
    exact C.uniform q hqm p hb.mem a ts us' ha' hb''
  · have hone : (ord.filter (fun v => rkf v = k)).length ≤ 1 :=
      length_le_one_of_nodup (C.byRank.nd k hk) (fun a ha b hb => hinj a b ha hb)
    have hnd := colAt_nodup hcol
    have hws : (ws.map Witness.sigil).Nodup := by rw [← C.sigils]; exact C.ginv.sig_nd
    have hsub : ∀ σ ∈ c.tokens.map Prod.fst, σ ∈ ws.map Witness.sigil := by
      intro σ hσ
      obtain ⟨p, hp, rfl⟩ := (C.byRank.col_keys C.ginv (C.sigil_ne hs) hk hcol).1 σ hσ
      rw [← C.sigils]
      exact List.mem_map.mpr ⟨p, hp, rfl⟩
    have hvar : c.variant = true ↔ c.tokens.length ≠ ws.length := by
      have hcol' := hcol
      unfold colAt at hcol'
      rw [columnLoop_eq] at hcol'
      split at hcol'
      · cases hcol'
      · injection hcol' with hcol'
        rw [← hcol']
        simp only [Bool.or_eq_true, decide_eq_true_eq]
        constructor
        · rintro (h | h)
          · omega
          · exact h
        · intro h; exact Or.inr h
    rw [hvar]
    constructor
    · intro hne
      by_contra hno
      apply hne
      apply Nat.le_antisymm
      · have := nodup_length_le hnd hsub
        simpa using this
      · have := nodup_length_le hws (m := c.tokens.map Prod.fst) (by
          intro σ hσ
          obtain ⟨w, hw, rfl⟩ := List.mem_map.mp hσ
          by_contra hnk
          exact hno ⟨w, hw, by
            cases hd : dget c.tokens w.sigil with
            | none => rfl
            | some ts => exact absurd (List.mem_map.mpr ⟨_, dget_mem hd, rfl⟩) hnk⟩)
        simpa using this
    · rintro ⟨w, hw, hd⟩ hlen
      have hmem := subset_of_length hnd hsub (by simp [hlen]) w.sigil (List.mem_map.mpr ⟨w, hw, rfl⟩)
      obtain ⟨ts, h⟩ := exists_dget_of_mem_keys hmem
      rw [hd] at h; cases h

/-- The number of columns without segmentation. -/
theorem Base.columns (hb : Base p ps) (C : Collated cc ws seg g ps rk rkf ord m) (hs : ∀ w ∈ ws, w.sigil ≠ []) {k : Nat}
    {w : Witness} (hw : ws[k]? = some w) (hp : ps[k]? = some p) (hseg : seg = false) :
    (mkTable ws g rk).columns.length = w.tokens.length := by
  obtain ⟨p', hp', h1, h2, h3⟩ := C.row hw (hs w (List.mem_of_getElem? hw))
  rw [hp] at hp'
  obtain rfl := Option.some.inj hp'
  have h4 := map_some_of_filterMap h3 (by
    intro o ho
    obtain ⟨c, hc, rfl⟩ := List.mem_map.mp ho
    rw [← h1]
    exact (hb.column C hs hc).1)
  have h5 := congrArg List.length h4
  simp only [List.length_map] at h5
  rw [h5, ← h2]
  have h6 := C.single hseg p hb.mem
  have key : ∀ l : List (VId × List Token), (∀ q ∈ l, ∃ t, q.2 = [t]) → l.length = (l.flatMap Prod.snd).length := by
    intro l
    induction l with
    | nil => intro _; rfl
    | cons q l ih =>
      intro hq
      obtain ⟨t, ht⟩ := hq q (by simp)
      have := ih (fun q h => hq q (by simp [h]))
      simp only [List.flatMap_cons, List.length_append, ht, List.length_cons, List.length_nil]
      omega
  exact key _ h6

end

end CollateX
