import Verif.Proofs.Opening
/-
Witnesses of the same length whose words stand in the same places.
-/

namespace CollateX
open Spec

/-! ### The table of scores -/

/-- The score of the diagonal as far as row `n`. -/
def diagScore (M : Nat → Nat → Bool) : Nat → Int
  | 0 => 0
  | n + 1 => diagScore M n + (if M n n then 1 else -1)

/-- A row in which something matches matches on the diagonal. -/
def DiagonalRows (M : Nat → Nat → Bool) : Prop := ∀ y x : Nat, M y x = true → M y y = true

section
variable {M : Nat → Nat → Bool}

theorem DiagonalRows.path_le (hd : DiagonalRows M) (steps : List Step) :
    pathScore M steps (0, 0) ≤ diagScore M (endOf steps (0, 0)).2 ∧
    pathScore M steps (0, 0) + (endOf steps (0, 0)).1 ≤ diagScore M (endOf steps (0, 0)).2 + (endOf steps (0, 0)).2 := by
  induction steps using List.reverseRecOn with
  | nil => simp [pathScore, endOf, diagScore]
  | append_singleton steps s ih =>
    rw [pathScore_snoc, endOf_snoc]
    generalize endOf steps (0, 0) = q at *
    obtain ⟨x, y⟩ := q
    simp only at ih
    cases s with
    | right => simp only [Step.move, Step.score]; push_cast; omega
    | diag =>
      have : Step.score M .diag (x, y) ≤ if M y y then 1 else -1 := by
        simp only [Step.score]
        by_cases h : M y x = true
        · rw [if_pos h, if_pos (hd y x h)]
        · rw [if_neg h]; split <;> omega
      simp only [Step.move, diagScore]
      push_cast
      omega
    | down =>
      have : Step.score M .down (x, y) ≤ if M y y then 1 else -1 := by
        simp only [Step.score]
        split
        · rename_i h
          rw [if_pos (hd y _ h.2.2.2)]
        · split <;> omega
      simp only [Step.move, diagScore]
      push_cast
      omega

theorem diagonal_path (M : Nat → Nat → Bool) (n : Nat) :
    endOf (List.replicate n Step.diag) (0, 0) = (n, n) ∧ pathScore M (List.replicate n Step.diag) (0, 0) = diagScore M n := by
  induction n with
  | zero => exact ⟨rfl, rfl⟩
  | succ n ih =>
    rw [List.replicate_succ', endOf_snoc, pathScore_snoc, ih.1, ih.2]
    exact ⟨rfl, rfl⟩

end

section
variable {cube : Cube} {width h : Nat} {cells : List (List Score)}

/-- The way back along the diagonal. -/
theorem Trace.onDiagonal (ht : TableEq cube width h cells) (hneg : ∀ x : Nat, cube.has (-1) (x : Int) = false)
    (hd : DiagonalRows cube.rel) : ∀ (n : Nat) {ss : List Score}, Trace cells n n ss →
    ss.length = n ∧ ∀ i (c : Score), ss[i]? = some c → c.y = n - i ∧ c.x = n - i ∧
      (cube.has ((c.y : Int) - 1) ((c.x : Int) - 1) = true → c.type = .match)
  | 0, ss, htr => by
    cases htr with
    | origin => simp
    | step h0 _ _ => omega
  | n + 1, ss, htr => by
    cases htr with
    | @step _ _ c ss h0 hc htr' =>
      have hok := ht.cell_ok _ _ c hc
      have hb := ht.bounds hc
      have hle : ∀ y x p, cellOf cells y x = some p → p.g ≤ diagScore cube.rel y ∧ p.g + x ≤ diagScore cube.rel y + y := by
        intro y x p hp
        have hbp := ht.bounds hp
        obtain ⟨ss, _, htr2, _⟩ := traceback_ok ht (x + y) y x (by omega) (by omega) (by omega)
        obtain ⟨steps, e1, _, e3⟩ := htr2.path ht hneg p hp
        have := hd.path_le steps
        rw [e1, e3] at this
        exact this
      have hge : diagScore cube.rel (n + 1) ≤ c.g := by
        obtain ⟨e1, e2⟩ := diagonal_path cube.rel (n + 1)
        have := ht.path_le hneg (List.replicate (n + 1) Step.diag) c (by rw [e1]; exact hc)
        rwa [e2] at this
      obtain ⟨s, p, hp, hmv, hg⟩ := ht.cell_step hneg hc h0
      have hpar : c.px = n ∧ c.py = n := by
        cases s with
        | diag => simp only [Step.move, Prod.mk.injEq] at hmv; omega
        | right =>
          simp only [Step.move, Prod.mk.injEq] at hmv
          have := (hle _ _ p hp).1
          simp only [Step.score] at hg
          rw [hmv.2] at this
          omega
        | down =>
          simp only [Step.move, Prod.mk.injEq] at hmv
          have h1 := (hle _ _ p hp).2
          have h2 : c.py = n := by omega
          have h3 : Step.score cube.rel .down (c.px, c.py) ≤ if cube.rel n n then 1 else -1 := by
            simp only [Step.score]
            split
            · rename_i h
              rw [if_pos]
              rw [h2] at h
              exact hd n _ h.2.2.2
            · split <;> omega
          simp only [diagScore] at hge
          rw [h2, hmv.1] at h1
          push_cast at h1
          omega
      rw [hpar.1, hpar.2] at htr'
      obtain ⟨e1, e2⟩ := Trace.onDiagonal ht hneg hd n htr'
      refine ⟨by simp [e1], ?_⟩
      intro i c' hc'
      cases i with
      | zero =>
        simp only [List.getElem?_cons_zero, Option.some.injEq] at hc'
        subst hc'
        refine ⟨hok.hy, hok.hx, ?_⟩
        intro hm
        rw [hok.hy, hok.hx] at hm
        obtain ⟨ul, hul⟩ := ht.exists_cell (y := n) (x := n) (by omega) (by omega)
        obtain ⟨left, hleft⟩ := ht.exists_cell (y := n + 1) (x := n) (by omega) (by omega)
        obtain ⟨up, hup⟩ := ht.exists_cell (y := n) (x := n + 1) (by omega) (by omega)
        have hin := ht.inner n n c ul left up hc hul hleft hup
        have o2 := ht.cell_ok _ _ _ hleft
        have o3 := ht.cell_ok _ _ _ hup
        rcases max3_cases (scoreCell cube (n + 1) (n + 1) ul) (gap (n + 1) (n + 1) left) (fromUpper cube (n + 1) (n + 1) up) with e | e | e
        · rw [hin, e]
          unfold scoreCell
          rw [if_pos hm]
        · have : c.py = left.y := by rw [hin, e]; rfl
          have := o2.hy
          omega
        · have := fromUpper_parent cube (n + 1) (n + 1) up
          rw [← e, ← hin] at this
          have := o3.hx
          omega
      | succ i =>
        rw [List.getElem?_cons_succ] at hc'
        obtain ⟨q1, q2, q3⟩ := e2 i c' hc'
        exact ⟨by omega, by omega, q3⟩

end

/-! ### The places of the vertices -/

/-- All paths have `n` vertices between start and end, a vertex stands on the same place in all paths, and the vertices of a place have
different words. -/
structure Placewise (n : Nat) (ps : List WPath) : Prop where
  len : ∀ p ∈ ps, p.segs.length = n
  place : ∀ p ∈ ps, ∀ q ∈ ps, ∀ (i j : Nat) v, p.inner[i]? = some v → q.inner[j]? = some v → i = j
  same : ∀ p ∈ ps, ∀ q ∈ ps, ∀ (i : Nat) v v' t t', p.segs[i]? = some (v, [t]) → q.segs[i]? = some (v', [t']) → t.str = t'.str → v = v'

theorem inner_of_segs {p : WPath} {i : Nat} {v : VId} {ts : List Token} (h : p.segs[i]? = some (v, ts)) : p.inner[i]? = some v := by
  unfold WPath.inner
  rw [List.getElem?_map, h]
  rfl

theorem path_last (p : WPath) : p.path[p.segs.length + 1]? = some endV := by
  unfold WPath.path
  simp [WPath.inner]

section
variable {g : VGraph} {ps : List WPath} {rkf : VId → Nat} {o : List VId} {m : Nat} {r : Ranking} {n : Nat}

/-- The rank of a vertex is its place. -/
theorem Placewise.rank (h : Placewise n ps) (hg : GInv g ps) (R : RankingOf g rkf o m r) :
    ∀ (i : Nat), ∀ p ∈ ps, ∀ v, p.path[i]? = some v → rkf v = i := by
  have hinner : ∀ p ∈ ps, ∀ (i : Nat) v, p.path[i]? = some v → v ≠ startV → v ≠ endV → ∃ j, i = j + 1 ∧ p.inner[j]? = some v := by
    intro p hp i v hi h1 h2
    have hl := (List.getElem?_eq_some_iff.mp hi).1
    rw [WPath.path_length] at hl
    cases i with
    | zero => rw [path_zero] at hi; exact absurd (Option.some.inj hi).symm h1
    | succ i =>
      by_cases hi2 : i < p.segs.length
      · exact ⟨i, rfl, path_inner hi hi2⟩
      · obtain rfl : i = p.segs.length := by omega
        rw [path_last] at hi
        exact absurd (Option.some.inj hi).symm h2
  -- a vertex stands on the same place in all paths
  have hpl : ∀ p ∈ ps, ∀ q ∈ ps, ∀ (i j : Nat) v, p.path[i]? = some v → q.path[j]? = some v → i = j := by
    intro p hp q hq i j v hi hj
    by_cases hs : v = startV
    · subst hs
      rw [path_place hg hp hi (path_zero p), path_place hg hq hj (path_zero q)]
    by_cases he : v = endV
    · subst he
      rw [path_place hg hp hi (path_last p), path_place hg hq hj (path_last q), h.len p hp, h.len q hq]
    obtain ⟨i', rfl, hi'⟩ := hinner p hp i v hi hs he
    obtain ⟨j', rfl, hj'⟩ := hinner q hq j v hj hs he
    rw [h.place p hp q hq i' j' v hi' hj']
  intro i
  induction i with
  | zero =>
    intro p hp v hv
    by_contra hc
    obtain ⟨x, hx, _⟩ := R.isRank.pred (path_mem_vertices hg hp (List.mem_of_getElem? hv)) (by omega)
    obtain ⟨q, hq, hcon⟩ := (hg.edges_iff _ _).mp hx
    obtain ⟨j, _, hj2⟩ := consec_iff_getElem.mp hcon
    have := hpl q hq p hp _ _ _ hj2 hv
    omega
  | succ i ih =>
    intro p hp v hv
    have hlow := rank_path_lt hg R hp (i + 1) 0 _ _ (path_zero p) (by rw [Nat.zero_add]; exact hv)
    obtain ⟨x, hx, hxr⟩ := R.isRank.pred (path_mem_vertices hg hp (List.mem_of_getElem? hv)) (by omega)
    obtain ⟨q, hq, hcon⟩ := (hg.edges_iff _ _).mp hx
    obtain ⟨j, hj1, hj2⟩ := consec_iff_getElem.mp hcon
    have := hpl q hq p hp _ _ _ hj2 hv
    obtain rfl : j = i := by omega
    have := ih q hq x hj1
    omega

theorem Placewise.rank_inner (h : Placewise n ps) (hg : GInv g ps) (R : RankingOf g rkf o m r) {p : WPath} (hp : p ∈ ps) {i : Nat}
    {v : VId} (hv : p.inner[i]? = some v) : rkf v = i + 1 := h.rank hg R (i + 1) p hp v (p.path_getElem? hv)

theorem Placewise.rank_end (h : Placewise n ps) (hne : ps ≠ []) (hg : GInv g ps) (R : RankingOf g rkf o m r) : rkf endV = n + 1 := by
  obtain ⟨p, hp⟩ := List.exists_mem_of_ne_nil ps hne
  have := h.rank hg R _ p hp _ (path_last p)
  rw [this, h.len p hp]

end

/-! ### The step -/

section
variable {ts : TopoFn} {ti : TokenIndex} {s s' : AlignSt} {ps : List WPath} {w : Witness} {P : WPath} {rkf : VId → Nat}
  {o : List VId} {m : Nat} {r : Ranking} {cube : Cube} {cells : List (List Score)} {al : Dict Token VId} {n : Nat}

/-- Every word of the list is on its place in one of the earlier lists, or in none of them at all. -/
def StandsIn (earlier : List (List Str)) (l : List Str) : Prop :=
  ∀ (i : Nat) a, l[i]? = some a → (∃ l' ∈ earlier, l'[i]? = some a) ∨ ∀ l' ∈ earlier, a ∉ l'

theorem Placewise.step (h : Placewise n ps) (L : Layout ti) (B : BlocksOK ti) (hs : AInv ti s ps) (hne : ps ≠ [])
    (hw : ti.ws[ps.length]? = some w) (hst : StepOf ts none ti s ps w P rkf o m r cube cells al) (hn : w.tokens.length = n)
    (hs' : AInv ti s' (ps ++ [P])) (hin : StandsIn ((ti.ws.take ps.length).map (fun x => x.tokens.map Token.str)) (w.tokens.map Token.str)) :
    Placewise n (ps ++ [P]) := by
  have hneg := hst.neg hs
  have hnd := L.tokens_nodup hw
  obtain ⟨cube', hc1, hiff⟩ := hs.cube L B hst.rank hw
  rw [hst.cube_ok] at hc1
  obtain rfl := Except.ok.inj hc1
  have hedge : ∀ p ∈ s.g.pairs, rkf p.1 < rkf p.2 := fun p hp => hst.rank.isRank.lt hs.ginv.wf hp
  have hbd := hs.ginv.rank_bounds hne hedge
  have hrin : ∀ {p}, p ∈ ps → ∀ {i : Nat} {v}, p.inner[i]? = some v → rkf v = i + 1 := fun hp _ _ hv => h.rank_inner hs.ginv hst.rank hp hv
  have hre := h.rank_end hne hs.ginv hst.rank
  have hwl := (List.getElem?_eq_some_iff.mp hw).1
  -- the witness of a path
  have hread : ∀ p ∈ ps, ∃ w1 ∈ ti.ws.take ps.length, p.segs.map Prod.snd = w1.tokens.map (fun t => [t]) := by
    intro p hp
    obtain ⟨j, hj⟩ := List.getElem?_of_mem hp
    have hjl := (List.getElem?_eq_some_iff.mp hj).1
    have hw1 : ti.ws[j]? = some ti.ws[j] := List.getElem?_eq_getElem (by omega)
    refine ⟨_, List.mem_of_getElem? (i := j) ?_, (hs.reads j _ p hw1 hj).2⟩
    rw [List.getElem?_take_of_lt hjl]
    exact hw1
  have hreadw : ∀ w1 ∈ ti.ws.take ps.length, ∃ p ∈ ps, p.segs.map Prod.snd = w1.tokens.map (fun t => [t]) := by
    intro w1 hw1
    obtain ⟨j, hj⟩ := List.getElem?_of_mem hw1
    have hjl : j < ps.length := by
      have := (List.getElem?_eq_some_iff.mp hj).1
      rw [List.length_take] at this
      omega
    rw [List.getElem?_take_of_lt hjl] at hj
    have hp := List.getElem?_eq_getElem hjl
    exact ⟨_, List.mem_of_getElem? hp, (hs.reads j _ _ hj hp).2⟩
  -- a row in which something matches matches on the diagonal
  have hdiag : ∀ (y : Nat) (t : Token), w.tokens[y]? = some t → (∃ q ∈ ps, ∃ v t', (v, [t']) ∈ q.segs ∧ t'.str = t.str) → cube.rel y y = true := by
    rintro y t hy ⟨q, hq, v, t', hm, hstr⟩
    obtain ⟨w1, hw1, hrd⟩ := hread q hq
    have h9 : (w.tokens.map Token.str)[y]? = some t.str := by rw [List.getElem?_map, hy]; rfl
    rcases hin y _ h9 with ⟨l', hl', hl2⟩ | hno
    · obtain ⟨w2, hw2, rfl⟩ := List.mem_map.mp hl'
      obtain ⟨p, hp, hpr⟩ := hreadw w2 hw2
      rw [List.getElem?_map] at hl2
      obtain ⟨t2, h1, h2⟩ := Option.map_eq_some_iff.mp hl2
      have h3 : (p.segs.map Prod.snd)[y]? = some [t2] := by rw [hpr, List.getElem?_map, h1]; rfl
      rw [List.getElem?_map] at h3
      obtain ⟨⟨v2, us⟩, h4, h5⟩ := Option.map_eq_some_iff.mp h3
      simp only at h5
      subst h5
      refine (hiff _ _).mpr ⟨y, t, rfl, hy, p, hp, v2, t2, List.mem_of_getElem? h4, h2, ?_⟩
      have := hrin hp (inner_of_segs h4)
      omega
    · exfalso
      refine hno _ (List.mem_map.mpr ⟨w1, hw1, rfl⟩) ?_
      have : [t'] ∈ q.segs.map Prod.snd := List.mem_map.mpr ⟨_, hm, rfl⟩
      rw [hrd] at this
      obtain ⟨t3, h3, h4⟩ := List.mem_map.mp this
      simp only [List.cons.injEq, and_true] at h4
      subst h4
      exact List.mem_map.mpr ⟨_, h3, hstr⟩
  have hrows : DiagonalRows cube.rel := by
    intro y x hyx
    obtain ⟨y', t, h1, h2, q, hq, v, t', h3, h4, _⟩ := (hiff (y : Int) (x : Int)).mp hyx
    obtain rfl : y' = y := by omega
    exact hdiag y' t h2 ⟨q, hq, v, t', h3, h4⟩
  have hm : rkf endV + 1 = m := by
    have h1 := hst.rank.lt_m hs.ginv.end_mem
    obtain ⟨v, hv, hve⟩ := hst.rank.st.ne (m - 1) (by omega)
    have hvm := hst.rank.topo.perm.mem_iff.mp hv
    by_cases hv' : v = endV
    · subst hv'; omega
    · have := (hbd v hvm).2 hv'
      omega
  obtain ⟨ss, htr, hal⟩ := hst.trace
  rw [rankCount_eq hst.rank, show m - 1 - 1 = n by omega, hn] at htr
  obtain ⟨hsl, hss⟩ := htr.onDiagonal hst.table hneg hrows
  have hall := hst.all L hs hw htr hal (by
    rw [List.pairwise_iff_getElem]
    intro i j hi hj hij _
    have e1 := hss i _ (List.getElem?_eq_getElem hi)
    have e2 := hss j _ (List.getElem?_eq_getElem hj)
    omega)
  -- a token that matches is aligned with a vertex of its place
  have hhit : ∀ (i : Nat) t, w.tokens[i]? = some t → cube.rel i i = true → ∃ v q t', q ∈ ps ∧ q.segs[i]? = some (v, [t']) ∧ t'.str = t.str ∧
      dget al t = some v := by
    intro i t hi hrel
    have hil := (List.getElem?_eq_some_iff.mp hi).1
    obtain ⟨c, hc⟩ : ∃ c, ss[n - (i + 1)]? = some c := ⟨_, List.getElem?_eq_getElem (by omega)⟩
    obtain ⟨c1, c2, c3⟩ := hss _ c hc
    have hty : c.type = .match := c3 (by
      rw [c1, c2, show ((n - (n - (i + 1)) : Nat) : Int) - 1 = (i : Int) by omega]
      exact hrel)
    obtain ⟨v, t2, g1, g2, g3, g4, g5⟩ := hall c (List.mem_of_getElem? hc) hty
    rw [show c.y - 1 = i by omega, hi] at g1
    obtain rfl := Option.some.inj g1
    obtain ⟨y, x, hd⟩ := hst.facts.src t v g5
    obtain ⟨i2, q, t', k1, k2, k3, _, k5, k6, _⟩ := hst.hits _ v t hd
    obtain ⟨t3, hpl⟩ := (hs.va q v).mp k3
    obtain ⟨kk, j, w1, p, p1, p2, p3, p4, p5⟩ := hpl
    have ht3 := L.arr_tok kk j w1 t3 p1 p3
    rw [← p5, k5] at ht3
    obtain rfl := Option.some.inj ht3
    have hp := List.mem_of_getElem? p2
    have hj := hrin hp (inner_of_segs p4)
    obtain rfl : j = i := by omega
    exact ⟨v, p, t', hp, p4, k6, g5⟩
  have hmiss : ∀ (i : Nat) t, w.tokens[i]? = some t → cube.rel i i ≠ true → dget al t = none := by
    intro i t hi hrel
    by_contra hc
    obtain ⟨v, hv⟩ := Option.ne_none_iff_exists'.mp hc
    obtain ⟨y, x, hd⟩ := hst.facts.src t v hv
    obtain ⟨i2, q, t', k1, k2, _⟩ := hst.hits _ v t hd
    obtain ⟨q1, q2⟩ := List.getElem?_eq_some_iff.mp hi
    obtain ⟨q3, q4⟩ := List.getElem?_eq_some_iff.mp k1
    obtain rfl := (hnd.getElem_inj_iff (hi := q1) (hj := q3)).mp (by rw [q2, q4])
    injection k2 with k2 _
    obtain rfl : y = i := by omega
    exact hrel (hrows y x (show (dget cube ((y : Int), (x : Int))).isSome = true by rw [hd]; rfl))
  have hPl : P.segs.length = n := by rw [hst.path, newSegs_length, hn]
  have hPs : ∀ (i : Nat) v t, P.segs[i]? = some (v, [t]) → w.tokens[i]? = some t ∧
      ((cube.rel i i = true ∧ dget al t = some v) ∨ (cube.rel i i ≠ true ∧ s.g.next ≤ v)) := by
    intro i v t hi
    rw [hst.path] at hi
    simp only at hi
    have h2 : ((newSegs al s.g.next w.tokens).map Prod.snd)[i]? = some [t] := by rw [List.getElem?_map, hi]; rfl
    rw [newSegs_snd, List.getElem?_map] at h2
    obtain ⟨t', h3, h4⟩ := Option.map_eq_some_iff.mp h2
    simp only [List.cons.injEq, and_true] at h4
    subst h4
    refine ⟨h3, ?_⟩
    obtain ⟨t2, _, e, hcase⟩ := newSegs_mem (List.mem_of_getElem? hi)
    injection e with e _
    subst e
    by_cases hrel : cube.rel i i = true
    · obtain ⟨v', _, _, _, _, _, g5⟩ := hhit i t' h3 hrel
      rcases hcase with hcase | ⟨hcase, _⟩
      · exact Or.inl ⟨hrel, hcase⟩
      · rw [g5] at hcase; cases hcase
    · rcases hcase with hcase | ⟨_, hcase, _⟩
      · rw [hmiss i t' h3 hrel] at hcase; cases hcase
      · exact Or.inr ⟨hrel, hcase⟩
  have hPt : ∀ (i : Nat) v, P.inner[i]? = some v → ∃ t, P.segs[i]? = some (v, [t]) := by
    intro i v hi
    unfold WPath.inner at hi
    rw [List.getElem?_map] at hi
    obtain ⟨⟨v', us⟩, h4, h5⟩ := Option.map_eq_some_iff.mp hi
    simp only at h5
    subst h5
    have := h4
    rw [hst.path] at this
    obtain ⟨t, _, rfl, _⟩ := newSegs_mem (List.mem_of_getElem? this)
    exact ⟨t, h4⟩
  have hold : ∀ q ∈ ps, ∀ (j : Nat) v, q.inner[j]? = some v → v < s.g.next := by
    intro q hq j v hj
    refine hs.ginv.fresh v ?_
    exact path_mem_vertices hs.ginv hq (List.mem_of_getElem? (q.path_getElem? hj))
  -- a vertex of the new path that stands in an old one
  have hplace : ∀ q ∈ ps, ∀ (i j : Nat) v, P.inner[i]? = some v → q.inner[j]? = some v → i = j := by
    intro q hq i j v hi hj
    obtain ⟨t, ht⟩ := hPt i v hi
    obtain ⟨h1, ⟨h2, h3⟩ | ⟨_, h3⟩⟩ := hPs i v t ht
    · obtain ⟨v', q', t', hq', g1, _, g3⟩ := hhit i t h1 h2
      rw [h3] at g3
      obtain rfl := Option.some.inj g3
      exact h.place q' hq' q hq i j v (inner_of_segs g1) hj
    · have := hold q hq j v hj
      omega
  have hsame : ∀ q ∈ ps, ∀ (i : Nat) v v' t t', P.segs[i]? = some (v, [t]) → q.segs[i]? = some (v', [t']) → t.str = t'.str → v = v' := by
    intro q hq i v v' t t' h1 h2 h3
    obtain ⟨g1, hcase⟩ := hPs i v t h1
    have hrel := hdiag i t g1 ⟨q, hq, v', t', List.mem_of_getElem? h2, h3.symm⟩
    rcases hcase with ⟨_, g2⟩ | ⟨g2, _⟩
    · obtain ⟨v2, q2, t2, k1, k2, k3, k4⟩ := hhit i t g1 hrel
      rw [g2] at k4
      obtain rfl := Option.some.inj k4
      exact h.same q2 k1 q hq i v v' t2 t' k2 h2 (by rw [k3, h3])
    · exact absurd hrel g2
  have hPnd : P.inner.Nodup := hs'.ginv.inner_nodup (by simp)
  refine ⟨?_, ?_, ?_⟩
  · intro p hp
    rcases List.mem_append.mp hp with hp | hp
    · exact h.len p hp
    · obtain rfl := List.mem_singleton.mp hp
      exact hPl
  · intro p hp q hq i j v hi hj
    rcases List.mem_append.mp hp with hp' | hp' <;> rcases List.mem_append.mp hq with hq' | hq'
    · exact h.place p hp' q hq' i j v hi hj
    · obtain rfl := List.mem_singleton.mp hq'
      exact (hplace p hp' j i v hj hi).symm
    · obtain rfl := List.mem_singleton.mp hp'
      exact hplace q hq' i j v hi hj
    · obtain rfl := List.mem_singleton.mp hp'
      obtain rfl := List.mem_singleton.mp hq'
      obtain ⟨l1, e1⟩ := List.getElem?_eq_some_iff.mp hi
      obtain ⟨l2, e2⟩ := List.getElem?_eq_some_iff.mp hj
      exact (hPnd.getElem_inj_iff (hi := l1) (hj := l2)).mp (by rw [e1, e2])
  · intro p hp q hq i v v' t t' h1 h2 h3
    rcases List.mem_append.mp hp with hp' | hp' <;> rcases List.mem_append.mp hq with hq' | hq'
    · exact h.same p hp' q hq' i v v' t t' h1 h2 h3
    · obtain rfl := List.mem_singleton.mp hq'
      exact (hsame p hp' i v' v t' t h2 h1 h3.symm).symm
    · obtain rfl := List.mem_singleton.mp hp'
      exact hsame q hq' i v v' t t' h1 h2 h3
    · obtain rfl := List.mem_singleton.mp hp'
      obtain rfl := List.mem_singleton.mp hq'
      rw [h1] at h2
      injection h2 with h2
      injection h2

/-- The path of the first witness. -/
theorem placewise_first {p : WPath} (hnd : p.inner.Nodup) : Placewise p.segs.length [p] := by
  refine ⟨?_, ?_, ?_⟩
  · intro q hq
    obtain rfl := List.mem_singleton.mp hq
    rfl
  · intro q hq q' hq' i j v hi hj
    obtain rfl := List.mem_singleton.mp hq
    obtain rfl := List.mem_singleton.mp hq'
    obtain ⟨l1, e1⟩ := List.getElem?_eq_some_iff.mp hi
    obtain ⟨l2, e2⟩ := List.getElem?_eq_some_iff.mp hj
    exact (hnd.getElem_inj_iff (hi := l1) (hj := l2)).mp (by rw [e1, e2])
  · intro q hq q' hq' i v v' t t' h1 h2 _
    obtain rfl := List.mem_singleton.mp hq
    obtain rfl := List.mem_singleton.mp hq'
    rw [h1] at h2
    injection h2 with h2
    injection h2

end

end CollateX
