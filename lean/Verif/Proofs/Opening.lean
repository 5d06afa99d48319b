import Verif.Proofs.Ending
/-
Witnesses with a common beginning.
-/

namespace CollateX
open Spec

/-! ### The first vertices of the paths -/

/-- All paths have the same vertices on their first `k` places after the start: `u i` is the vertex on place `i`. -/
structure BeginsIn (k : Nat) (u : Nat → VId) (ps : List WPath) : Prop where
  at_start : ∀ i, i ≤ k → ∀ p ∈ ps, p.path[i]? = some (u i)

section
variable {g : VGraph} {ps : List WPath} {rkf : VId → Nat} {o : List VId} {m : Nat} {r : Ranking} {k : Nat} {u : Nat → VId}

theorem path_zero (p : WPath) : p.path[0]? = some startV := rfl

theorem BeginsIn.zero (h : BeginsIn k u ps) (hne : ps ≠ []) : u 0 = startV := by
  obtain ⟨p, hp⟩ := List.exists_mem_of_ne_nil ps hne
  have := h.at_start 0 (by omega) p hp
  rw [path_zero] at this
  exact (Option.some.inj this).symm

theorem path_place (hg : GInv g ps) {q : WPath} (hq : q ∈ ps) {i j : Nat} {v : VId} (h1 : q.path[i]? = some v) (h2 : q.path[j]? = some v) :
    i = j := by
  obtain ⟨l1, e1⟩ := List.getElem?_eq_some_iff.mp h1
  obtain ⟨l2, e2⟩ := List.getElem?_eq_some_iff.mp h2
  exact ((hg.path_nodup hq).getElem_inj_iff (hi := l1) (hj := l2)).mp (by rw [e1, e2])

/-- The ranks of the first vertices, and that they are alone on their ranks. -/
theorem BeginsIn.rank (h : BeginsIn k u ps) (hne : ps ≠ []) (hg : GInv g ps) (R : RankingOf g rkf o m r) : ∀ i, i ≤ k →
    rkf (u i) = i ∧ ∀ v ∈ g.vertices, rkf v = i → v = u i := by
  obtain ⟨p, hp⟩ := List.exists_mem_of_ne_nil ps hne
  have hlow : ∀ q ∈ ps, ∀ (l : Nat) (v : VId), q.path[l]? = some v → l ≤ rkf v := by
    intro q hq l v hv
    have := rank_path_lt hg R hq l 0 _ _ (path_zero q) (by rw [Nat.zero_add]; exact hv)
    omega
  have hin : ∀ i, i ≤ k → u i ∈ g.vertices := fun i hi => path_mem_vertices hg hp (List.mem_of_getElem? (h.at_start i hi p hp))
  have hrk : ∀ i, i ≤ k → rkf (u i) = i := by
    intro i
    induction i with
    | zero =>
      intro hi
      by_contra hc
      obtain ⟨x, hx, _⟩ := R.isRank.pred (hin 0 hi) (by omega)
      obtain ⟨q, hq, hcon⟩ := (hg.edges_iff _ _).mp hx
      obtain ⟨j, _, hj2⟩ := consec_iff_getElem.mp hcon
      have := path_place hg hq hj2 (h.at_start 0 hi q hq)
      omega
    | succ i ih =>
      intro hi
      have h1 := ih (by omega)
      have h2 := hlow p hp _ _ (h.at_start (i + 1) hi p hp)
      obtain ⟨x, hx, hxr⟩ := R.isRank.pred (hin (i + 1) hi) (by omega)
      obtain ⟨q, hq, hcon⟩ := (hg.edges_iff _ _).mp hx
      obtain ⟨j, hj1, hj2⟩ := consec_iff_getElem.mp hcon
      have : j + 1 = i + 1 := path_place hg hq hj2 (h.at_start (i + 1) hi q hq)
      obtain rfl : j = i := by omega
      rw [h.at_start j (by omega) q hq] at hj1
      obtain rfl := Option.some.inj hj1
      omega
  intro i hi
  refine ⟨hrk i hi, ?_⟩
  intro v hv he
  have : ∃ q ∈ ps, v ∈ q.path := by
    by_cases hvs : v = startV
    · exact ⟨p, hp, by rw [hvs]; unfold WPath.path; simp⟩
    · by_cases hve : v = endV
      · exact ⟨p, hp, by rw [hve]; unfold WPath.path; simp⟩
      · obtain ⟨q, hq, hvq⟩ := hg.cover v hv hvs hve
        exact ⟨q, hq, by unfold WPath.path; simp [hvq]⟩
  obtain ⟨q, hq, hvq⟩ := this
  obtain ⟨l, hl⟩ := List.getElem?_of_mem hvq
  have hle := hlow q hq l v hl
  have h3 := h.at_start l (by omega) q hq
  rw [hl] at h3
  obtain rfl := Option.some.inj h3
  have := hrk l (by omega)
  rw [show i = l by omega]

end

/-! ### The table of scores -/

section
variable {cube : Cube} {width h k : Nat} {cells : List (List Score)}

/-- In the first `k` rows and columns exactly the diagonal matches. -/
def DiagonalBelow (k : Nat) (cube : Cube) : Prop := ∀ y x : Nat, y < k ∨ x < k → (cube.rel y x = true ↔ y = x)

theorem DiagonalBelow.down (hd : DiagonalBelow k cube) {y x : Nat} (hk : y < k ∨ x < k) : Step.score cube.rel .down (x + 1, y) = -1 := by
  unfold Step.score
  refine if_neg ?_
  rintro ⟨_, a2, a3, a4⟩
  simp only [Nat.add_sub_cancel] at a3 a4
  have h1 := (hd y x hk).mp a4
  have h2 := (hd (y - 1) x (by omega)).mp a3
  omega

theorem DiagonalBelow.diag (hd : DiagonalBelow k cube) {y x : Nat} (hk : y < k ∨ x < k) (p : Score) :
    (scoreCell cube (x + 1) (y + 1) p).g = p.g + (if y = x then 1 else -1) := by
  rw [scoreCell_g]
  have e1 : ((y + 1 : Nat) : Int) - 1 = (y : Int) := by omega
  have e2 : ((x + 1 : Nat) : Int) - 1 = (x : Int) := by omega
  rw [e1, e2]
  have := hd y x hk
  unfold Cube.rel at this
  by_cases hyx : y = x
  · rw [if_pos hyx, if_pos (this.mpr hyx)]
  · rw [if_neg hyx, if_neg (fun h => hyx (this.mp h))]

/-- The scores in the first `k` rows and columns: as many matches as possible, and a gap for each place off the diagonal. -/
theorem TableEq.begin_g (ht : TableEq cube width h cells) (hneg : ∀ x : Nat, cube.has (-1) (x : Int) = false) (hd : DiagonalBelow k cube) :
    ∀ (n y x : Nat) (c : Score), y + x = n → (y ≤ k ∨ x ≤ k) → cellOf cells y x = some c → c.g = 2 * min (y : Int) x - max (y : Int) x := by
  intro n
  induction n using Nat.strong_induction_on with
  | _ n ih =>
    intro y x c hn hk hc
    have hb := ht.bounds hc
    rcases Nat.eq_zero_or_pos y with rfl | hy
    · rcases Nat.eq_zero_or_pos x with rfl | hx
      · rw [ht.origin] at hc
        obtain rfl := Option.some.inj hc
        rfl
      · obtain ⟨x, rfl⟩ : ∃ x', x = x' + 1 := ⟨x - 1, by omega⟩
        obtain ⟨p, hp⟩ := ht.exists_cell (y := 0) (x := x) (by omega) (by omega)
        have := ih (0 + x) (by omega) 0 x p rfl (by omega) hp
        rw [ht.row0 x c p hc hp]
        simp only [gap]
        omega
    · obtain ⟨y, rfl⟩ : ∃ y', y = y' + 1 := ⟨y - 1, by omega⟩
      rcases Nat.eq_zero_or_pos x with rfl | hx
      · obtain ⟨p, hp⟩ := ht.exists_cell (y := y) (x := 0) (by omega) (by omega)
        have := ih (y + 0) (by omega) y 0 p rfl (by omega) hp
        rw [ht.col0 y c p hc hp]
        simp only [gap]
        omega
      · obtain ⟨x, rfl⟩ : ∃ x', x = x' + 1 := ⟨x - 1, by omega⟩
        obtain ⟨ul, hul⟩ := ht.exists_cell (y := y) (x := x) (by omega) (by omega)
        obtain ⟨left, hleft⟩ := ht.exists_cell (y := y + 1) (x := x) (by omega) (by omega)
        obtain ⟨up, hup⟩ := ht.exists_cell (y := y) (x := x + 1) (by omega) (by omega)
        have h1 := ih (y + x) (by omega) y x ul rfl (by omega) hul
        have h2 := ih (y + 1 + x) (by omega) (y + 1) x left rfl (by omega) hleft
        have h3 := ih (y + (x + 1)) (by omega) y (x + 1) up rfl (by omega) hup
        have h5 := congrArg Score.g (ht.inner y x c ul left up hc hul hleft hup)
        rw [max3_g, hd.diag (by omega), fromUpper_g hneg, hd.down (by omega)] at h5
        have e3 : (gap (x + 1) (y + 1) left).g = left.g - 1 := rfl
        rw [e3] at h5
        split at h5 <;> omega

theorem fromUpper_parent (m : Cube) (y x : Nat) (up : Score) : (fromUpper m y x up).px = up.x ∧ (fromUpper m y x up).py = up.y := by
  unfold fromUpper
  split
  · unfold scoreCell
    split <;> exact ⟨rfl, rfl⟩
  · exact ⟨rfl, rfl⟩

theorem max3_first {a b c : Score} (h1 : b.g ≤ a.g) (h2 : c.g ≤ a.g) : max3 a b c = a := by
  unfold max3
  simp only [if_neg (show ¬ b.g > a.g by omega), if_neg (show ¬ c.g > a.g by omega)]

theorem max3_second {a b c : Score} (h1 : a.g < b.g) (h2 : c.g ≤ b.g) : max3 a b c = b := by
  unfold max3
  simp only [if_pos (show b.g > a.g by omega), if_neg (show ¬ c.g > b.g by omega)]

theorem max3_third {a b c : Score} (h1 : a.g < c.g) (h2 : b.g < c.g) : max3 a b c = c := by
  unfold max3
  simp only
  refine if_pos ?_
  split <;> omega

/-- The way back from a cell of the first `k` rows and columns: along the diagonal, or straight to it. -/
theorem TableEq.begin_parent (ht : TableEq cube width h cells) (hneg : ∀ x : Nat, cube.has (-1) (x : Int) = false) (hd : DiagonalBelow k cube)
    {y x : Nat} {c : Score} (hk : y < k ∨ x < k) (hc : cellOf cells (y + 1) (x + 1) = some c) :
    (y = x → c.type = .match ∧ c.py = y ∧ c.px = x) ∧ (y < x → c.py = y + 1 ∧ c.px = x) ∧ (x < y → c.py = y ∧ c.px = x + 1) := by
  have hb := ht.bounds hc
  obtain ⟨ul, hul⟩ := ht.exists_cell (y := y) (x := x) (by omega) (by omega)
  obtain ⟨left, hleft⟩ := ht.exists_cell (y := y + 1) (x := x) (by omega) (by omega)
  obtain ⟨up, hup⟩ := ht.exists_cell (y := y) (x := x + 1) (by omega) (by omega)
  have h1 := ht.begin_g hneg hd _ y x ul rfl (by omega) hul
  have h2 := ht.begin_g hneg hd _ (y + 1) x left rfl (by omega) hleft
  have h3 := ht.begin_g hneg hd _ y (x + 1) up rfl (by omega) hup
  have o1 := ht.cell_ok _ _ ul hul
  have o2 := ht.cell_ok _ _ left hleft
  have o3 := ht.cell_ok _ _ up hup
  have g1 := hd.diag (y := y) (x := x) hk ul
  have g2 : (gap (x + 1) (y + 1) left).g = left.g - 1 := rfl
  have g3 := fromUpper_g hneg x y up
  rw [hd.down hk] at g3
  have hin := ht.inner y x c ul left up hc hul hleft hup
  refine ⟨?_, ?_, ?_⟩
  · intro hyx
    rw [if_pos hyx] at g1
    rw [max3_first (by omega) (by omega)] at hin
    have e1 : ((y + 1 : Nat) : Int) - 1 = (y : Int) := by omega
    have e2 : ((x + 1 : Nat) : Int) - 1 = (x : Int) := by omega
    have hm := (hd y x hk).mpr hyx
    unfold Cube.rel at hm
    unfold scoreCell at hin
    rw [e1, e2, if_pos hm] at hin
    rw [hin]
    exact ⟨rfl, o1.hy, o1.hx⟩
  · intro hyx
    rw [if_neg (by omega)] at g1
    rw [max3_second (by omega) (by omega)] at hin
    rw [hin]
    exact ⟨o2.hy, o2.hx⟩
  · intro hyx
    rw [if_neg (by omega)] at g1
    rw [max3_third (by omega) (by omega)] at hin
    have := fromUpper_parent cube (y + 1) (x + 1) up
    rw [hin, this.1, this.2]
    exact ⟨o3.hy, o3.hx⟩

/-- The way back from the diagonal. -/
theorem Trace.diagonal (ht : TableEq cube width h cells) (hneg : ∀ x : Nat, cube.has (-1) (x : Int) = false) (hd : DiagonalBelow k cube) :
    ∀ (n : Nat) {ss : List Score}, n ≤ k → Trace cells n n ss →
    ss.length = n ∧ ∀ i (c : Score), ss[i]? = some c → c.type = .match ∧ c.y = n - i ∧ c.x = n - i
  | 0, ss, _, htr => by
    cases htr with
    | origin => simp
    | step h0 _ _ => omega
  | n + 1, ss, hn, htr => by
    cases htr with
    | @step _ _ c ss h0 hc htr' =>
      obtain ⟨t1, t2, t3⟩ := (ht.begin_parent hneg hd (by omega) hc).1 rfl
      have hok := ht.cell_ok _ _ c hc
      rw [t2, t3] at htr'
      obtain ⟨e1, e2⟩ := Trace.diagonal ht hneg hd n (by omega) htr'
      refine ⟨by simp [e1], ?_⟩
      intro i c' hc'
      cases i with
      | zero =>
        simp only [List.getElem?_cons_zero, Option.some.injEq] at hc'
        subst hc'
        exact ⟨t1, hok.hy, hok.hx⟩
      | succ i =>
        rw [List.getElem?_cons_succ] at hc'
        obtain ⟨q1, q2, q3⟩ := e2 i c' hc'
        exact ⟨q1, by omega, by omega⟩

/-- The way back ends with the matches of a common beginning. -/
theorem Trace.beginning (ht : TableEq cube width h cells) (hneg : ∀ x : Nat, cube.has (-1) (x : Int) = false) (hd : DiagonalBelow k cube)
    {y x : Nat} {ss : List Score} (htr : Trace cells y x ss) : k ≤ y → k ≤ x →
    ∃ A B, ss = A ++ B ∧ (∀ c ∈ A, k < c.y ∨ k < c.x) ∧ B.length = k ∧
      ∀ i (c : Score), B[i]? = some c → c.type = .match ∧ c.y = k - i ∧ c.x = k - i := by
  induction htr with
  | origin =>
    intro h1 _
    exact ⟨[], [], rfl, by simp, by simp; omega, by simp⟩
  | @step y x c ss h0 hc htr' ih =>
    intro h1 h2
    by_cases hkk : y = k ∧ x = k
    · obtain ⟨rfl, rfl⟩ := hkk
      obtain ⟨e1, e2⟩ := Trace.diagonal ht hneg hd x (Nat.le_refl _) (.step h0 hc htr')
      exact ⟨[], c :: ss, rfl, by simp, e1, e2⟩
    · have hok := ht.cell_ok _ _ c hc
      have hb := ht.bounds hc
      have hpar := hok.parent h0
      have hle : k ≤ c.py ∧ k ≤ c.px := by
        by_cases hk0 : k = 0
        · omega
        obtain ⟨y, rfl⟩ : ∃ y', y = y' + 1 := ⟨y - 1, by omega⟩
        obtain ⟨x, rfl⟩ : ∃ x', x = x' + 1 := ⟨x - 1, by omega⟩
        by_cases hk : y < k ∨ x < k
        · obtain ⟨_, p2, p3⟩ := ht.begin_parent hneg hd hk hc
          rcases Nat.lt_trichotomy y x with hlt | heq | hgt
          · have := p2 hlt; omega
          · omega
          · have := p3 hgt; omega
        · omega
      obtain ⟨A, B, e1, e2, e3, e4⟩ := ih hle.1 hle.2
      refine ⟨c :: A, B, by rw [e1]; rfl, ?_, e3, e4⟩
      intro c' hc'
      rcases List.mem_cons.mp hc' with rfl | hc'
      · rw [hok.hy, hok.hx]; omega
      · exact e2 c' hc'

end

/-! ### The loop of `align_matching_tokens` -/

/-- The matches with which the list ends are kept if no other match has their vertices, and no token occurs twice. -/
theorem alignLoop_end (cube : Cube) (B : List Score) : ∀ (A : List Score) (al : Dict Token VId) (used : List VId) (al' : Dict Token VId),
    alignLoop cube (A ++ B) al used = .ok al' →
    (∀ s ∈ A, ∀ s' ∈ B, ∀ t v t' v', AlSrc cube s t v → AlSrc cube s' t' v' → v ≠ v') →
    B.Pairwise (fun s s' => ∀ t v t' v', AlSrc cube s t v → AlSrc cube s' t' v' → v ≠ v') →
    B.Pairwise (fun s s' => ∀ t v t' v', AlSrc cube s t v → AlSrc cube s' t' v' → t ≠ t') →
    (∀ s ∈ B, ∀ t v, AlSrc cube s t v → v ∉ used) → ∀ s ∈ B, ∀ t v, AlSrc cube s t v → dget al' t = some v := by
  intro A
  induction A with
  | nil =>
    intro al used al' h _ hpv hpt hu
    exact alignLoop_begin cube [] B al used al' (by simpa using h) hpv (by simpa using hpt) hu
  | cons s A ih =>
    intro al used al' h hab hpv hpt hu
    rw [List.cons_append] at h
    unfold alignLoop at h
    have hab' := fun s' (hs' : s' ∈ A) => hab s' (List.mem_cons_of_mem _ hs')
    by_cases hty : s.type = .match
    · rw [if_pos hty] at h
      obtain ⟨⟨v, t⟩, h1, h⟩ := bind_eq_ok.mp h
      have hd : dget cube ((s.y : Int) - 1, (s.x : Int) - 1) = some (v, t) := by
        unfold dgetE at h1
        split at h1
        · rename_i e; rw [e, Except.ok.inj h1]
        · cases h1
      simp only at h
      split at h
      · exact ih _ _ _ h hab' hpv hpt hu
      · refine ih _ _ _ h hab' hpv hpt ?_
        intro s2 hs2 t2 v2 h2 hm
        rcases List.mem_append.mp hm with hm | hm
        · exact hu s2 hs2 t2 v2 h2 hm
        · simp only [List.mem_singleton] at hm
          exact hab s List.mem_cons_self s2 hs2 t v t2 v2 ⟨hty, hd⟩ h2 hm.symm
    · rw [if_neg hty] at h
      exact ih _ _ _ h hab' hpv hpt hu

/-! ### The step -/

theorem path_inner {p : WPath} {i : Nat} {v : VId} (h : p.path[i + 1]? = some v) (hl : i < p.segs.length) : p.inner[i]? = some v := by
  unfold WPath.path at h
  simp only [List.getElem?_cons_succ] at h
  rwa [List.getElem?_append_left (by simpa [WPath.inner] using hl)] at h

section
variable {ts : TopoFn} {ti : TokenIndex} {s : AlignSt} {ps : List WPath} {w : Witness} {P : WPath} {rkf : VId → Nat}
  {o : List VId} {m : Nat} {r : Ranking} {cube : Cube} {cells : List (List Score)} {al : Dict Token VId} {k : Nat} {u : Nat → VId}

/-- The words of the beginning stand on their places in the witness and nowhere else. -/
def BeginsWith (b : List Str) (l : List Str) : Prop := ∀ i a, b[i]? = some a → ∀ j : Nat, l[j]? = some a ↔ j = i

theorem BeginsWith.at {b l : List Str} (h : BeginsWith b l) {i : Nat} (hi : i < b.length) : l[i]? = some b[i] :=
  (h i _ (List.getElem?_eq_getElem hi) i).mpr rfl

theorem BeginsWith.length_le {b l : List Str} (h : BeginsWith b l) : b.length ≤ l.length := by
  by_contra hlt
  have := (List.getElem?_eq_some_iff.mp (h.at (i := l.length) (by omega))).1
  omega

/-- A witness that begins like the others begins on the same vertices. -/
theorem BeginsIn.step {b : List Str} (h : BeginsIn b.length u ps) (L : Layout ti) (B : BlocksOK ti) (hs : AInv ti s ps) (hne : ps ≠ [])
    (hw : ti.ws[ps.length]? = some w) (hst : StepOf ts none ti s ps w P rkf o m r cube cells al)
    (hall : ∀ x ∈ ti.ws, BeginsWith b (x.tokens.map Token.str)) : BeginsIn b.length u (ps ++ [P]) := by
  have hneg := hst.neg hs
  have hnd := L.tokens_nodup hw
  obtain ⟨cube', hc1, hiff⟩ := hs.cube L B hst.rank hw
  rw [hst.cube_ok] at hc1
  obtain rfl := Except.ok.inj hc1
  have hedge : ∀ p ∈ s.g.pairs, rkf p.1 < rkf p.2 := fun p hp => hst.rank.isRank.lt hs.ginv.wf hp
  have hbd := hs.ginv.rank_bounds hne hedge
  have hrank := h.rank hne hs.ginv hst.rank
  -- the witness of a path
  have hread : ∀ p ∈ ps, ∃ w1 ∈ ti.ws, p.segs.map Prod.snd = w1.tokens.map (fun t => [t]) := by
    intro p hp
    obtain ⟨j, hj⟩ := List.getElem?_of_mem hp
    have hjl := (List.getElem?_eq_some_iff.mp hj).1
    have hwl := (List.getElem?_eq_some_iff.mp hw).1
    have hw1 : ti.ws[j]? = some ti.ws[j] := List.getElem?_eq_getElem (by omega)
    exact ⟨_, List.mem_of_getElem? hw1, (hs.reads j _ p hw1 hj).2⟩
  -- a segment of a path with a word of the beginning is on its vertex, and conversely
  have hseg : ∀ p ∈ ps, ∀ v t, (v, [t]) ∈ p.segs → ∀ i (hi : i < b.length), t.str = b[i] ↔ v = u (i + 1) := by
    intro p hp v t hm i hi
    obtain ⟨w1, hw1, hrd⟩ := hread p hp
    obtain ⟨n, hn⟩ := List.getElem?_of_mem hm
    have hpn : p.path[n + 1]? = some v := p.path_getElem? (by unfold WPath.inner; rw [List.getElem?_map, hn]; rfl)
    have h6 : (p.segs.map Prod.snd)[n]? = some [t] := by rw [List.getElem?_map, hn]; rfl
    rw [hrd, List.getElem?_map] at h6
    obtain ⟨t', h7, h8⟩ := Option.map_eq_some_iff.mp h6
    simp only [List.cons.injEq, and_true] at h8
    subst h8
    have h9 : (w1.tokens.map Token.str)[n]? = some t'.str := by rw [List.getElem?_map, h7]; rfl
    have hbw := hall w1 hw1 i _ (List.getElem?_eq_getElem hi) n
    rw [h9, Option.some.injEq] at hbw
    rw [hbw]
    constructor
    · rintro rfl
      have := h.at_start (n + 1) (by omega) p hp
      rw [hpn] at this
      exact Option.some.inj this
    · rintro rfl
      have := path_place hs.ginv hp hpn (h.at_start (i + 1) (by omega) p hp)
      omega
  obtain ⟨p, hp⟩ := List.exists_mem_of_ne_nil ps hne
  have hpl : ∀ i (hi : i < b.length), ∃ t', (u (i + 1), [t']) ∈ p.segs ∧ t'.str = b[i] := by
    intro i hi
    obtain ⟨w1, hw1, hrd⟩ := hread p hp
    have hl : p.segs.length = w1.tokens.length := by simpa using congrArg List.length hrd
    have hle := (hall w1 hw1).length_le
    rw [List.length_map] at hle
    have h3 := path_inner (h.at_start (i + 1) (by omega) p hp) (by omega)
    unfold WPath.inner at h3
    rw [List.getElem?_map] at h3
    obtain ⟨⟨v, us⟩, h4, h5⟩ := Option.map_eq_some_iff.mp h3
    simp only at h5
    subst h5
    have h6 : (p.segs.map Prod.snd)[i]? = some us := by rw [List.getElem?_map, h4]; rfl
    rw [hrd, List.getElem?_map] at h6
    obtain ⟨t', _, rfl⟩ := Option.map_eq_some_iff.mp h6
    have hm := List.mem_of_getElem? h4
    exact ⟨t', hm, (hseg p hp _ _ hm i hi).mpr rfl⟩
  have hbw := hall w (List.mem_of_getElem? hw)
  have hwk := hbw.length_le
  rw [List.length_map] at hwk
  -- what matches in the first rows and columns
  have hdiag : DiagonalBelow b.length cube := by
    intro y x hk
    constructor
    · intro hy
      obtain ⟨y', t, h1, h2, q, hq, v, t', h3, h4, h5⟩ := (hiff (y : Int) (x : Int)).mp hy
      have : y' = y := by omega
      subst this
      have hvm := (hs.ginv.segs_in q hq _ h3).1
      have hty : (w.tokens.map Token.str)[y']? = some t.str := by rw [List.getElem?_map, h2]; rfl
      by_cases hxk : x < b.length
      · have hvu : v = u (x + 1) := (hrank (x + 1) (by omega)).2 v hvm (by omega)
        have := (hseg q hq v t' h3 x hxk).mpr hvu
        exact (hbw x _ (List.getElem?_eq_getElem hxk) y').mp (by rw [hty, ← h4, this])
      · exfalso
        have hyk : y' < b.length := by omega
        have e1 := hbw.at hyk
        rw [hty] at e1
        have hvu := (hseg q hq v t' h3 y' hyk).mp (by rw [h4]; exact Option.some.inj e1)
        have := (hrank (y' + 1) (by omega)).1
        rw [← hvu] at this
        omega
    · rintro rfl
      have hyk : y < b.length := by omega
      obtain ⟨t', h4, h5⟩ := hpl y hyk
      have e1 := hbw.at hyk
      rw [List.getElem?_map] at e1
      obtain ⟨t, h1, h2⟩ := Option.map_eq_some_iff.mp e1
      exact (hiff _ _).mpr ⟨y, t, rfl, h1, p, hp, u (y + 1), t', h4, by rw [h5, h2], by
        have := (hrank (y + 1) (by omega)).1
        omega⟩
  have hm : rkf endV + 1 = m := by
    have h1 := hst.rank.lt_m hs.ginv.end_mem
    obtain ⟨v, hv, hve⟩ := hst.rank.st.ne (m - 1) (by omega)
    have hvm := hst.rank.topo.perm.mem_iff.mp hv
    by_cases hv' : v = endV
    · subst hv'; omega
    · have := (hbd v hvm).2 hv'
      omega
  have hN : rankCount s.g r = rkf endV := by rw [rankCount_eq hst.rank]; omega
  have hNk : b.length ≤ rkf endV - 1 := by
    by_cases hk : b.length = 0
    · omega
    · obtain ⟨t', h1, _⟩ := hpl (b.length - 1) (by omega)
      obtain ⟨h2, _, h3, _⟩ := hs.ginv.segs_in p hp _ h1
      have h4 := (hbd _ h2).2 h3
      have h5 := (hrank (b.length - 1 + 1) (by omega)).1
      simp only at h4
      omega
  obtain ⟨ss, htr, hal⟩ := hst.trace
  rw [hN] at htr
  obtain ⟨A, Bs, rfl, hAs, hBl, hB⟩ := htr.beginning hst.table hneg hdiag hwk hNk
  have hsrcs : ∀ c t v, AlSrc cube c t v → ∃ i : Nat, w.tokens[i]? = some t ∧ c.y = i + 1 ∧ rkf v = c.x ∧ v ∈ s.g.vertices := by
    rintro c t v ⟨_, hd⟩
    obtain ⟨i, h1, h2, h3, h4, _⟩ := hst.hit hs hd
    exact ⟨i, h1, by omega, by omega, h4⟩
  have hkeep := alignLoop_end cube Bs A [] [] al hal
    (by
      intro c hc c' hc' t v t' v' g1 g2
      obtain ⟨i, _, a2, a3, a4⟩ := hsrcs _ t v g1
      obtain ⟨i', _, b2, b3, _⟩ := hsrcs _ t' v' g2
      obtain ⟨j, hj⟩ := List.getElem?_of_mem hc'
      have hjl := (List.getElem?_eq_some_iff.mp hj).1
      have e2 := hB j _ hj
      have e1 := hAs c hc
      rintro rfl
      have hcell := htr.mem hst.table c (by simp [hc])
      have hmt := ((hst.table.cell_ok _ _ _ hcell).isMatch g1.1).1
      have hx : c.x - 1 < b.length := by omega
      have := (hdiag (c.y - 1) (c.x - 1) (Or.inr hx)).mp (by
        unfold Cube.rel
        rw [show ((c.y - 1 : Nat) : Int) = (c.y : Int) - 1 by omega, show ((c.x - 1 : Nat) : Int) = (c.x : Int) - 1 by omega]
        exact hmt)
      omega)
    (by
      rw [List.pairwise_iff_getElem]
      intro i j hi hj hij t v t' v' g1 g2
      obtain ⟨_, _, _, a3, _⟩ := hsrcs _ t v g1
      obtain ⟨_, _, _, b3, _⟩ := hsrcs _ t' v' g2
      have e1 := hB i _ (List.getElem?_eq_getElem hi)
      have e2 := hB j _ (List.getElem?_eq_getElem hj)
      rintro rfl
      omega)
    ((List.pairwise_append.mp (htr.pairwise hst.table).2).2.1.imp (by
      intro c c' h2 t v t' v' g1 g2
      obtain ⟨i, a1, a2, a3, _⟩ := hsrcs c t v g1
      obtain ⟨i', b1, b2, b3, _⟩ := hsrcs c' t' v' g2
      have e2 := h2.2.2 g1.1
      rintro rfl
      obtain ⟨q1, q2⟩ := List.getElem?_eq_some_iff.mp a1
      obtain ⟨q3, q4⟩ := List.getElem?_eq_some_iff.mp b1
      have := (hnd.getElem_inj_iff (hi := q1) (hj := q3)).mp (by rw [q2, q4])
      omega)) (by simp)
  refine ⟨?_⟩
  intro i hi q hq
  rcases List.mem_append.mp hq with hq | hq
  · exact h.at_start i hi q hq
  simp only [List.mem_singleton] at hq
  subst hq
  cases i with
  | zero => rw [path_zero, h.zero hne]
  | succ i =>
    obtain ⟨t, h1⟩ : ∃ t, w.tokens[i]? = some t := ⟨_, List.getElem?_eq_getElem (by omega)⟩
    -- the score of the match
    obtain ⟨c, hc⟩ : ∃ c, Bs[b.length - (i + 1)]? = some c := ⟨_, List.getElem?_eq_getElem (by omega)⟩
    obtain ⟨c1, c2, c3⟩ := hB _ c hc
    have hcB := List.mem_of_getElem? hc
    have hcell := htr.mem hst.table c (by simp [hcB])
    have hmt := (hst.table.cell_ok _ _ _ hcell).isMatch c1
    obtain ⟨⟨v, t2⟩, hd⟩ := Option.isSome_iff_exists.mp (show (dget cube ((c.y : Int) - 1, (c.x : Int) - 1)).isSome = true from hmt.1)
    obtain ⟨j, a1, a2, a3, a4⟩ := hsrcs c t2 v ⟨c1, hd⟩
    have hj : j = i := by omega
    rw [hj, h1] at a1
    obtain rfl := Option.some.inj a1
    have hvu : v = u (i + 1) := (hrank (i + 1) hi).2 v a4 (by omega)
    have hdal := hkeep c hcB t v ⟨c1, hd⟩
    rw [hst.path]
    apply WPath.path_getElem?
    obtain ⟨v', hv'⟩ := newSegs_getElem? (al := al) (n := s.g.next) _ t h1
    obtain ⟨t3, _, e, hcase⟩ := newSegs_mem (List.mem_of_getElem? hv')
    injection e with e _
    subst e
    rcases hcase with hcase | ⟨hcase, _⟩
    · rw [hdal] at hcase
      obtain rfl := Option.some.inj hcase
      rw [← hvu]
      unfold WPath.inner
      rw [List.getElem?_map, hv']
      rfl
    · rw [hdal] at hcase; cases hcase

/-- The first path begins in its own vertices. -/
theorem beginsIn_first {p : WPath} (k : Nat) (hk : k ≤ p.segs.length) : ∃ u, BeginsIn k u [p] := by
  refine ⟨fun i => p.path[i]?.getD startV, ⟨?_⟩⟩
  intro i hi q hq
  obtain rfl := List.mem_singleton.mp hq
  have : i < q.path.length := by rw [WPath.path_length]; omega
  rw [List.getElem?_eq_getElem this]
  rfl

end

/-! ### Segmentation -/

section
variable {cc : CharClass} {ws : List Witness} {g g' : VGraph} {ps ps' : List WPath} {rk rk' : Ranking} {rkf rkf' : VId → Nat}
  {ord ord' : List VId} {m m' : Nat} {k : Nat} {u : Nat → VId}

/-- Two vertices in a row at the beginning of all paths can be joined. -/
theorem BeginsIn.joinable (h : BeginsIn 2 u ps) (hne : ps ≠ []) (hg : GInv g ps) (h1 : u 2 ≠ endV) : Joinable g (u 1) (u 2) := by
  obtain ⟨p, hp⟩ := List.exists_mem_of_ne_nil ps hne
  refine (joinable_iff hg.edges_nd).mpr ⟨(hg.edges_iff _ _).mpr ⟨p, hp, consec_iff_getElem.mpr
    ⟨1, h.at_start 1 (by omega) p hp, h.at_start 2 (by omega) p hp⟩⟩, ?_, h1, ?_⟩
  · intro b hb
    obtain ⟨q, hq, hcon⟩ := (hg.edges_iff _ _).mp hb
    obtain ⟨i, h2, h3⟩ := consec_iff_getElem.mp hcon
    obtain rfl : i = 1 := path_place hg hq h2 (h.at_start 1 (by omega) q hq)
    rw [h.at_start 2 (by omega) q hq] at h3
    exact (Option.some.inj h3).symm
  · intro a ha
    obtain ⟨q, hq, hcon⟩ := (hg.edges_iff _ _).mp ha
    obtain ⟨i, h2, h3⟩ := consec_iff_getElem.mp hcon
    have : i + 1 = 2 := path_place hg hq h3 (h.at_start 2 (by omega) q hq)
    obtain rfl : i = 1 := by omega
    rw [h.at_start 1 (by omega) q hq] at h2
    exact (Option.some.inj h2).symm

/-- The segment that begins a given number of tokens after the start. -/
theorem segs_first {l : List (VId × List Token)} (hne : ∀ q ∈ l, q.2 ≠ []) {n : Nat} {t : Token} (h : (l.flatMap Prod.snd)[n]? = some t)
    {R : List (VId × List Token)} (hR : R <+: l) (hn : (R.flatMap Prod.snd).length = n) :
    ∃ v a, (R ++ [(v, a)]) <+: l ∧ t ∈ a := by
  obtain ⟨I, rfl⟩ := hR
  rw [List.flatMap_append, List.getElem?_append_right (by simp [hn])] at h
  simp only [hn, Nat.sub_self] at h
  match I, h with
  | [], h => simp at h
  | (v, a) :: I', h =>
    refine ⟨v, a, ⟨I', by simp⟩, ?_⟩
    have ha : a ≠ [] := hne (v, a) (by simp)
    match a, ha with
    | x :: a, _ =>
      simp only [List.flatMap_cons, List.cons_append, List.getElem?_cons_zero, Option.some.injEq] at h
      subst h
      simp

/-- The segment of a path without segmentation on a vertex of the beginning. -/
theorem BeginsIn.seg (h : BeginsIn k u ps) (C : Collated cc ws false g ps rk rkf ord m) {w : Witness} {p : WPath} (hp : p ∈ ps)
    (ht : p.text = w.tokens) (hlen : k ≤ w.tokens.length) {n : Nat} (hn : n < k) : ∃ t, w.tokens[n]? = some t ∧ (u (n + 1), [t]) ∈ p.segs := by
  have hk2 : p.segs.map Prod.snd = w.tokens.map (fun t => [t]) := by rw [single_segs (C.single rfl p hp), ht]
  have hl : p.segs.length = w.tokens.length := by simpa using congrArg List.length hk2
  have h3 := path_inner (h.at_start (n + 1) (by omega) p hp) (by omega)
  unfold WPath.inner at h3
  rw [List.getElem?_map] at h3
  obtain ⟨⟨v, us⟩, h4, h5⟩ := Option.map_eq_some_iff.mp h3
  simp only at h5
  subst h5
  have h6 : (p.segs.map Prod.snd)[n]? = some us := by rw [List.getElem?_map, h4]; rfl
  rw [hk2, List.getElem?_map] at h6
  obtain ⟨t', h7, rfl⟩ := Option.map_eq_some_iff.mp h6
  exact ⟨t', h7, List.mem_of_getElem? h4⟩

/-- The places of tokens at the same distance from the start. -/
theorem BeginsIn.shared (h : BeginsIn k u ps) (C : Collated cc ws false g ps rk rkf ord m) (C' : Collated cc ws true g' ps' rk' rkf' ord' m')
    (G : Grouped g ps g' ps') (hnd : ∀ w ∈ ws, w.tokens.Nodup) (hlen : ∀ w ∈ ws, k ≤ w.tokens.length) {n : Nat} (hn : n < k)
    (hR : ∀ p ∈ ps', ∃ R, R <+: p.segs ∧ (R.flatMap Prod.snd).length = n) :
    ∃ v, ∀ p ∈ ps', ∀ R, R <+: p.segs → (R.flatMap Prod.snd).length = n → ∃ a, (R ++ [(v, a)]) <+: p.segs := by
  -- the two paths of a witness
  have two : ∀ p' ∈ ps', ∃ p ∈ ps, p'.sigil = p.sigil ∧ p'.text.Nodup ∧ ∃ t, p'.text[n]? = some t ∧ (u (n + 1), [t]) ∈ p.segs := by
    intro p' hp'
    obtain ⟨j, hj⟩ := List.getElem?_of_mem hp'
    have hjl : j < ws.length := by
      have := (List.getElem?_eq_some_iff.mp hj).1
      rwa [C'.length] at this
    have hw := List.getElem?_eq_getElem hjl
    obtain ⟨p1, e1, e2, e3⟩ := C'.at hw
    rw [hj] at e1
    obtain rfl := Option.some.inj e1
    obtain ⟨p, f1, f2, f3⟩ := C.at hw
    have hwm := List.mem_of_getElem? hw
    refine ⟨p, List.mem_of_getElem? f1, by rw [e2, f2], by rw [e3]; exact hnd _ hwm, ?_⟩
    rw [e3]
    exact h.seg C (List.mem_of_getElem? f1) f3 (hlen _ hwm) hn
  by_cases hne : ps' = []
  · subst hne
    exact ⟨startV, by simp⟩
  obtain ⟨p', hp'⟩ := List.exists_mem_of_ne_nil ps' hne
  obtain ⟨p, hp, hpp, hpnd, t, ht, hpt⟩ := two p' hp'
  obtain ⟨R1, hR1, hR1n⟩ := hR p' hp'
  obtain ⟨v, a, hva, hta⟩ := segs_first (fun q hq => (C'.ginv.segs_in p' hp' q hq).2.2.2) ht hR1 hR1n
  refine ⟨v, ?_⟩
  intro q' hq' R hRs hRn
  obtain ⟨q, hq, hqq, hqnd, t2, ht2, hqt⟩ := two q' hq'
  obtain ⟨v2, b, hvb, htb⟩ := segs_first (fun q hq => (C'.ginv.segs_in q' hq' q hq).2.2.2) ht2 hRs hRn
  obtain ⟨x, a', b', j, m1, m2, m3, m4⟩ := (G.places p' hp' q' hq' p hp q hq hpp hqq t t2).mpr
    ⟨u (n + 1), [t], [t2], 0, hpt, hqt, rfl, rfl⟩
  have s1 := seg_unique hpnd m1 (hva.subset (show (v, a) ∈ R1 ++ [(v, a)] by simp)) (List.mem_of_getElem? m3) hta
  have s2 := seg_unique hqnd m2 (hvb.subset (show (v2, b) ∈ R ++ [(v2, b)] by simp)) (List.mem_of_getElem? m4) htb
  injection s1 with s1 _
  injection s2 with s2 _
  have : v2 = v := s2.symm.trans s1
  subst this
  exact ⟨b, hvb⟩

/-- With segmentation all paths begin in the same vertex, which has the whole common beginning. -/
theorem BeginsIn.segmented (h : BeginsIn k u ps) (hk : 0 < k) (hws : ws ≠ []) (C : Collated cc ws false g ps rk rkf ord m)
    (C' : Collated cc ws true g' ps' rk' rkf' ord' m') (G : Grouped g ps g' ps') (hnd : ∀ w ∈ ws, w.tokens.Nodup)
    (hlen : ∀ w ∈ ws, k ≤ w.tokens.length) : ∃ v, BeginsIn 1 (fun i => if i = 0 then startV else v) ps' ∧
      ∀ p ∈ ps', ∃ a, [(v, a)] <+: p.segs ∧ k ≤ a.length := by
  have hne : ps' ≠ [] := by
    intro h0
    have := C'.length
    rw [h0] at this
    exact hws (List.length_eq_zero_iff.mp this.symm)
  obtain ⟨v, hv⟩ := h.shared C C' G hnd hlen (n := 0) hk (fun p _ => ⟨[], by simp, rfl⟩)
  have hv' : ∀ p ∈ ps', ∃ a, [(v, a)] <+: p.segs := fun p hp => hv p hp [] (by simp) rfl
  have hE : BeginsIn 1 (fun i => if i = 0 then startV else v) ps' := by
    refine ⟨?_⟩
    intro i hi p hp
    rcases (show i = 0 ∨ i = 1 by omega) with rfl | rfl
    · exact path_zero p
    · obtain ⟨a, I, hI⟩ := hv' p hp
      apply WPath.path_getElem?
      unfold WPath.inner
      rw [← hI]
      rfl
  refine ⟨v, hE, ?_⟩
  intro p hp
  obtain ⟨a, ha⟩ := hv' p hp
  refine ⟨a, ha, ?_⟩
  by_contra hlt
  obtain ⟨v2, hv2⟩ := h.shared C C' G hnd hlen (n := a.length) (by omega) (by
    intro q hq
    obtain ⟨b, hb⟩ := hv' q hq
    have := congrArg List.length (C'.uniform q hq p hp v b a (hb.subset (by simp)) (ha.subset (by simp)))
    exact ⟨_, hb, by simpa using this⟩)
  have hE2 : BeginsIn 2 (fun i => if i = 0 then startV else if i = 1 then v else v2) ps' := by
    refine ⟨?_⟩
    intro i hi q hq
    rcases (show i ≤ 1 ∨ i = 2 by omega) with hi | rfl
    · have := hE.at_start i hi q hq
      rw [this]
      split
      · rfl
      · rw [if_pos (by omega)]
    · obtain ⟨b, hb⟩ := hv' q hq
      have hbl := congrArg List.length (C'.uniform q hq p hp v b a (hb.subset (by simp)) (ha.subset (by simp)))
      obtain ⟨c, I, hI⟩ := hv2 q hq _ hb (by simpa using hbl)
      apply WPath.path_getElem?
      unfold WPath.inner
      rw [← hI]
      rfl
  have hvin := C'.ginv.segs_in p hp _ (ha.subset (List.mem_singleton.mpr rfl))
  have hv2e : v2 ≠ endV := by
    obtain ⟨c, hI⟩ := hv2 p hp _ ha (by simp)
    exact (C'.ginv.segs_in p hp _ (hI.subset (List.mem_append_right _ (List.mem_singleton.mpr rfl)))).2.2.1
  have hJ := hE2.joinable hne C'.ginv (by simpa using hv2e)
  exact C'.maximal rfl v v2 hvin.2.1 (by simpa using hJ)

end

end CollateX
